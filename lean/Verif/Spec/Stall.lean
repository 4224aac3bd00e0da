import Verif.Spec.Continue

/-!
# Specification: standing still

A walk that rejects its proposals returns the same point again and again.
-/

namespace PW
open MeasureTheory
open scoped ENNReal

section
variable {m n : ℕ} (w : Walk ℝ) (e : Env ℝ) [MeasurableSpace e.r.G] (μ : Measure e.r.G) (A : Matrix (Fin m) (Fin n) ℝ) (b : Fin m → ℝ)
  (x : Fin n → ℝ) (k : Int)

/-- Probability that the walk started at `x` does not move in iterations `s + 1, …, s + t`. -/
noncomputable def stallProb (niter burnin thin seed : Int) (s t : ℕ) : ℝ≥0∞ :=
  pathProb w e μ (callArgs A b x niter k burnin thin seed) ⟨rfl, rfl⟩ {p | ∀ i ≤ t, p (s + i) = p s}

/-- Whenever one looks, the walk stands still for the next `t` iterations with probability at most `q ^ t`. -/
def StallsAtMost (q : ℝ≥0∞) : Prop := ∀ niter burnin thin seed : Int, ∀ s t : ℕ, stallProb w e μ A b x k niter burnin thin seed s t ≤ q ^ t

end

/-- The probability that the squared length of a standard normal vector of dimension `d` is at most `r`. -/
noncomputable def chiSquare (d : ℕ) (r : ℝ) : ℝ≥0∞ := stdNormal d {ξ | ∑ i, ξ i ^ 2 ≤ r}

end PW
