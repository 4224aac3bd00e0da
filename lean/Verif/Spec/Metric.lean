import Verif.Spec.Leverage
import Mathlib.LinearAlgebra.Matrix.IsDiag

/-! # Specification: barrier metrics -/

namespace PW
open Matrix
variable {m n : ℕ}

/-- The weighted barrier Hessian `Σᵢ wᵢ aᵢ aᵢᵀ / (bᵢ - aᵢᵀx)²`. -/
noncomputable def barrierHess (w : Fin m → ℝ) (A : Matrix (Fin m) (Fin n) ℝ) (b : Fin m → ℝ) (x : Fin n → ℝ) :
    Matrix (Fin n) (Fin n) ℝ := Aᵀ * diagonal (fun i => w i / (b i - (A *ᵥ x) i) ^ 2) * A

/-- Vaidya weights: leverage scores of the slack-normalised constraints plus `d/n`. -/
noncomputable def vaidyaW (A : Matrix (Fin m) (Fin n) ℝ) (b : Fin m → ℝ) (x : Fin n → ℝ) (i : Fin m) : ℝ :=
  lev (normals x A b) i + (n : ℝ) / m

/-- Every constraint involves a single coordinate (boxes, orthants, slabs along the axes). -/
def AxisAligned (A : Matrix (Fin m) (Fin n) ℝ) : Prop := ∀ i j k, A i j ≠ 0 → A i k ≠ 0 → j = k

/-- `(z - x)ᵀ (H - LᵀL) (z - x)`, where `L` is the Cholesky factor of `H`. -/
def MetricDefect (H L : Matrix (Fin n) (Fin n) ℝ) (x z : Fin n → ℝ) : ℝ :=
  (z - x) ⬝ᵥ (H - Lᵀ * L) *ᵥ (z - x)

end PW
