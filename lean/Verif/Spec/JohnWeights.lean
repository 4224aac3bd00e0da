import Verif.Spec.Leverage
import Mathlib.Analysis.SpecialFunctions.Pow.Real

/-!
# Specification: John weights

The weights `w` of the rows of `M` with `wᵢ = σᵢ(diag(w^{α/2}) M) + β`, `σ` the leverage scores; and the concave
program that defines them in the literature on the John walk: maximise
`(1/α) log det(Mᵀ diag(w^α) M) + ∑ (β log wᵢ - wᵢ)` over positive `w`.
-/

namespace PW
open Matrix
variable {m n : ℕ}

/-- `w` solves the fixed point equation. -/
structure IsJohnWeights (α β : ℝ) (M : Matrix (Fin m) (Fin n) ℝ) (w : Fin m → ℝ) : Prop where
  pos : ∀ i, 0 < w i
  eq : ∀ i, w i = lev (scaledRows w (α / 2) M) i + β

/-- What the program maximises. -/
noncomputable def johnObjective (α β : ℝ) (M : Matrix (Fin m) (Fin n) ℝ) (w : Fin m → ℝ) : ℝ :=
  1 / α * Real.log (Mᵀ * diagonal (fun i => w i ^ α) * M).det + ∑ i, (β * Real.log (w i) - w i)

/-- Euclidean distance, squared. -/
noncomputable def distSq (u v : Fin m → ℝ) : ℝ := ∑ i, (u i - v i) ^ 2

end PW
