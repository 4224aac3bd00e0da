import Verif.Spec.Leverage
import Mathlib.Analysis.SpecialFunctions.Pow.Real

/-!
# Specification: Lee-Sidford weights

The weights `w` of the rows of `M` with `wᵢ = σᵢ(diag(w^{α/2}) M)`, `σ` the leverage scores; and the concave program that defines
them in the literature on the Dikin walk with Lee-Sidford metric: maximise `log det(Mᵀ diag(w^α) M) - α ∑ wᵢ` over positive `w`.
-/

namespace PW
open Matrix
variable {m n : ℕ}

/-- `w` solves the fixed point equation. -/
structure IsLSWeights (α : ℝ) (M : Matrix (Fin m) (Fin n) ℝ) (w : Fin m → ℝ) : Prop where
  pos : ∀ i, 0 < w i
  eq : ∀ i, w i = lev (scaledRows w (α / 2) M) i

/-- What the program maximises. -/
noncomputable def lsObjective (α : ℝ) (M : Matrix (Fin m) (Fin n) ℝ) (w : Fin m → ℝ) : ℝ :=
  Real.log (Mᵀ * diagonal (fun i => w i ^ α) * M).det - α * ∑ i, w i

end PW
