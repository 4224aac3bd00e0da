import Verif.Spec.Survivors

/-!
# Specification: the polytope the sparse driver really samples

`sparseFullWalkRun` removes the coordinates that vanish on `P = {x | A x = b, last k coordinates ≥ 0}` and tells the walk that the last `handedK` of the
remaining ones are constrained (`C71`), whether or not that is the right number.
-/

namespace PW
variable {m n : ℕ}

/-- Coordinate `i` is one of the last `handedK` surviving coordinates: it survives, and fewer than `handedK` survivors come after it. -/
def Handed (A : Matrix (Fin m) (Fin n) ℝ) (b : Fin m → ℝ) (k : Int) (i : Fin n) : Prop :=
  Survives A b k.toNat i ∧ (Nat.card {j : Fin n // i < j ∧ Survives A b k.toNat j} : Int) < handedK A b k

/-- The solutions of `A x = b` that vanish where `P` does and are nonnegative in the last `handedK` of the other coordinates. -/
def HandedSet (A : Matrix (Fin m) (Fin n) ℝ) (b : Fin m → ℝ) (k : Int) : Set (Fin n → ℝ) :=
  {x | A.mulVec x = b ∧ (∀ i, ¬ Survives A b k.toNat i → x i = 0) ∧ ∀ i, Handed A b k i → 0 ≤ x i}

end PW
