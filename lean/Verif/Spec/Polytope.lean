import Mathlib.Data.Matrix.Mul
import Mathlib.Data.Real.Basic

/-! # Specification: the two polytope forms -/

namespace PW
variable {m n : ℕ}

/-- The dense polytope `{x | A x ≤ b}`. -/
def Poly (A : Matrix (Fin m) (Fin n) ℝ) (b : Fin m → ℝ) : Set (Fin n → ℝ) :=
  {x | ∀ i, A.mulVec x i ≤ b i}

/-- `A x < b`: strictly inside every constraint. -/
def Interior (A : Matrix (Fin m) (Fin n) ℝ) (b : Fin m → ℝ) : Set (Fin n → ℝ) :=
  {x | ∀ i, A.mulVec x i < b i}

/-- The last `k` coordinates are non-negative. -/
def TailNonneg (n k : ℕ) : Set (Fin n → ℝ) := {x | ∀ i : Fin n, n - k ≤ i.val → 0 ≤ x i}

/-- The last `k` coordinates are positive. -/
def TailPos (n k : ℕ) : Set (Fin n → ℝ) := {x | ∀ i : Fin n, n - k ≤ i.val → 0 < x i}

/-- The constrained polytope `{x | A x = b, last k coordinates ≥ 0}`. -/
def PolyEq (A : Matrix (Fin m) (Fin n) ℝ) (b : Fin m → ℝ) (k : ℕ) : Set (Fin n → ℝ) :=
  {x | A.mulVec x = b ∧ x ∈ TailNonneg n k}

/-- `x + t u`. -/
def ray (x u : Fin n → ℝ) (t : ℝ) : Fin n → ℝ := fun i => x i + t * u i

/-- Euclidean unit vector. -/
def IsUnitVec (u : Fin n → ℝ) : Prop := ∑ i, u i * u i = 1

/-- The rows of `A` are linearly independent. -/
def IndepRows (A : Matrix (Fin m) (Fin n) ℝ) : Prop := ∀ y : Fin m → ℝ, Matrix.vecMul y A = 0 → y = 0

/-- The columns of `A` are linearly independent (full column rank). -/
def IndepCols (A : Matrix (Fin m) (Fin n) ℝ) : Prop := ∀ x : Fin n → ℝ, A.mulVec x = 0 → x = 0

end PW
