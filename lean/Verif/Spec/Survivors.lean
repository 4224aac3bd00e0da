import Verif.Spec.Polytope
import Mathlib.LinearAlgebra.Matrix.Rank

/-!
# Specification: the coordinates that do not vanish on a polytope

For `P = {x | A x = b, last k coordinates ≥ 0}`.
-/

namespace PW
variable {m n : ℕ}

/-- The coordinates that are unconstrained, or that are not zero everywhere on the polytope. -/
def Survives (A : Matrix (Fin m) (Fin n) ℝ) (b : Fin m → ℝ) (k : ℕ) (i : Fin n) : Prop :=
  i.val < n - k ∨ ∃ x ∈ PolyEq A b k, x i ≠ 0

/-- Their number. -/
noncomputable def survivorCount (A : Matrix (Fin m) (Fin n) ℝ) (b : Fin m → ℝ) (k : ℕ) : ℕ :=
  Nat.card {i : Fin n // Survives A b k i}

/-- The rank of `A` restricted to the columns of these coordinates. -/
noncomputable def survivorRank (A : Matrix (Fin m) (Fin n) ℝ) (b : Fin m → ℝ) (k : ℕ) : ℕ :=
  Module.finrank ℝ (Submodule.span ℝ (Set.range fun i : {i : Fin n // Survives A b k i} => A.col i))

/-- A polytope that is cut out by its sign constraints and by equations `x_i = 0` on some of the constrained
coordinates only. -/
def CoordCone (P : Set (Fin n → ℝ)) (k : ℕ) : Prop :=
  ∃ Z : Set (Fin n), (∀ i ∈ Z, n - k ≤ i.val) ∧
    P = {x | (∀ i ∈ Z, x i = 0) ∧ ∀ i : Fin n, n - k ≤ i.val → 0 ≤ x i}

/-- The number of sign-constrained coordinates that do not vanish on the polytope: the number of sign
constraints that remain when the vanishing coordinates are removed. -/
noncomputable def rightK (A : Matrix (Fin m) (Fin n) ℝ) (b : Fin m → ℝ) (k : ℕ) : ℕ :=
  Nat.card {i : Fin n // n - k ≤ i.val ∧ ∃ x ∈ PolyEq A b k, x i ≠ 0}

/-- `k` minus the number of rows that are redundant on the surviving columns. -/
noncomputable def handedK (A : Matrix (Fin m) (Fin n) ℝ) (b : Fin m → ℝ) (k : Int) : Int :=
  k - ((m : Int) - survivorRank A b k.toNat)

end PW
