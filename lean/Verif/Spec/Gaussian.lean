import Mathlib.Probability.Distributions.Gaussian.Real
import Mathlib.MeasureTheory.Constructions.Pi
import Mathlib.LinearAlgebra.Matrix.Determinant.Basic
import Mathlib.LinearAlgebra.Matrix.DotProduct

/-! # Specification: Gaussian laws on `ℝᵈ` -/

namespace PW
open MeasureTheory ProbabilityTheory

/-- `d` independent standard normal variables. -/
noncomputable def stdNormal (d : ℕ) : Measure (Fin d → ℝ) := Measure.pi fun _ => gaussianReal 0 1

/-- Density at `z` of the Gaussian law with mean `x` and precision matrix (inverse covariance) `P`:
`sqrt(det P) (2π)^(-d/2) exp(-(z-x)ᵀ P (z-x) / 2)`. -/
noncomputable def gaussDensity {d : ℕ} (P : Matrix (Fin d) (Fin d) ℝ) (x z : Fin d → ℝ) : ℝ :=
  Real.sqrt P.det * (Real.sqrt (2 * Real.pi))⁻¹ ^ d * Real.exp (-((z - x) ⬝ᵥ P.mulVec (z - x)) / 2)

/-- The Gaussian law with mean `x` and precision matrix `P`. -/
noncomputable def gaussLaw {d : ℕ} (P : Matrix (Fin d) (Fin d) ℝ) (x : Fin d → ℝ) :
    Measure (Fin d → ℝ) :=
  volume.withDensity fun z => ENNReal.ofReal (gaussDensity P x z)

end PW
