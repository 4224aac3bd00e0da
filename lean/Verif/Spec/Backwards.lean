import Verif.Spec.Joint

/-!
# Specification: runs that look the same backwards
-/

namespace PW
open MeasureTheory
open scoped ENNReal

/-- The starting point is drawn from `π` (not normalised). Then the first `s` positions are in a set `S` of `s`-tuples with the same probability if they are listed
in the opposite order; so are the rows of every call, whatever the burn-in and the thinning. -/
structure SameBackwards {m n : ℕ} (w : Walk ℝ) (e : Env ℝ) [MeasurableSpace e.r.G] (μ : Measure e.r.G) (A : Matrix (Fin m) (Fin n) ℝ) (b : Fin m → ℝ)
    (k : Int) (π : Measure (Fin n → ℝ)) : Prop where
  path : ∀ (niter burnin thin seed : Int) (s : ℕ) (S : Set (Fin s → Fin n → ℝ)), MeasurableSet S →
    ∫⁻ x, pathProb w e μ (callArgs A b x niter k burnin thin seed) ⟨rfl, rfl⟩ {p | (fun i : Fin s => p (s - 1 - i)) ∈ S} ∂π =
      ∫⁻ x, pathProb w e μ (callArgs A b x niter k burnin thin seed) ⟨rfl, rfl⟩ {p | (fun i : Fin s => p i) ∈ S} ∂π
  rows : ∀ niter burnin thin seed : Int, GoodInts niter burnin thin → ∀ (L : ℕ) (S : Set (Fin L → Fin n → ℝ)), MeasurableSet S →
    (niter - burnin) / thin = L →
      ∫⁻ x, rowsProb w e μ (callArgs A b x niter k burnin thin seed) {v | (fun i => v (Fin.rev i)) ∈ S} ∂π =
        ∫⁻ x, rowsProb w e μ (callArgs A b x niter k burnin thin seed) S ∂π

end PW
