import Mathlib.Data.Matrix.Mul
import Mathlib.Data.Real.Basic

/-! # The same constraints, each written several times -/

namespace PW
variable {m m' n : ℕ}

/-- The rows of `(A', b')` are those of `(A, b)`, each occurring `N` times, in any order. -/
def Repeats (N : ℕ) (A : Matrix (Fin m) (Fin n) ℝ) (b : Fin m → ℝ) (A' : Matrix (Fin m') (Fin n) ℝ) (b' : Fin m' → ℝ) : Prop :=
  ∃ f : Fin m' → Fin m, (∀ i, (Finset.univ.filter fun j => f j = i).card = N) ∧ (∀ j, A' j = A (f j)) ∧ ∀ j, b' j = b (f j)

end PW
