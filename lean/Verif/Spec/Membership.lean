import Verif.Model.Scalar

/-!
# Specification: the membership tests the library applies, in any arithmetic

Written out with lists, independently of the model's vector helpers.
-/

namespace PW.Spec
variable {F : Type} [Scalar F] {m n : ℕ}

/-- The largest entry of a list, scanning from the left and replacing the current value only by a strictly
larger one (so a NaN in first position stays, a later NaN is skipped); `none` for the empty list. -/
def largest : List F → Option F
  | [] => none
  | a :: l => some (l.foldl (fun s v => if Scalar.lt s v then v else s) a)

/-- The smallest entry of a list, likewise. -/
def smallest : List F → Option F
  | [] => none
  | a :: l => some (l.foldl (fun s v => if Scalar.lt v s then v else s) a)

/-- `⟨a, x⟩`, products added up from the left. -/
def dot (a x : Fin n → F) : F := (List.ofFn fun j => a j * x j).foldl (· + ·) 0

/-- The point `x` passes the test `max_i (⟨A_i, x⟩ - b_i) <= 0`. -/
def PassesDense (A : Matrix (Fin m) (Fin n) F) (b : Fin m → F) (x : Fin n → F) : Prop :=
  ∃ c, largest (List.ofFn fun i => dot (A i) x - b i) = some c ∧ Scalar.le c 0 = true

/-- The point `x` passes the test `min(last k entries of x) >= 0`. -/
def PassesSparse (k : ℕ) (x : Fin n → F) : Prop :=
  ∃ c, smallest ((List.ofFn x).drop (n - k)) = some c ∧ Scalar.le 0 c = true

end PW.Spec

namespace PW.Spec
variable {F : Type} [Scalar F]

/-- The Metropolis–Hastings rule with ratio `ρ` and uniform draw `u`: `u < ρ` if `ρ < 1`, else `u < 1`. -/
def Accepts (ρ u : F) : Prop :=
  if Scalar.lt ρ 1 = true then Scalar.lt u ρ = true else Scalar.lt u 1 = true

end PW.Spec
