import Mathlib.Data.Real.Basic
import Mathlib.Data.Matrix.Basic
import Mathlib.Logic.Equiv.Defs

/-!
# Specification: renumbering the variables

What changes when a user lists the variables of `A x = b, last k coordinates ≥ 0` in another order.
-/

namespace PW

/-- Variable `j` of the second problem is variable `σ j` of the first, and the variables that must be nonnegative are still the last `k`. -/
structure Renumbered {m n : ℕ} (σ : Equiv.Perm (Fin n)) (k : ℕ) (A A' : Matrix (Fin m) (Fin n) ℝ) : Prop where
  /-- the columns are listed in the new order -/
  mat : ∀ i j, A' i j = A i (σ j)
  /-- nonnegative variables stay nonnegative variables -/
  tail : ∀ j : Fin n, n - k ≤ (σ j).val ↔ n - k ≤ j.val

/-- The point, in the new order. -/
def reorder {n : ℕ} (σ : Equiv.Perm (Fin n)) (y : Fin n → ℝ) : Fin n → ℝ := fun j => y (σ j)

end PW
