import Verif.Spec.Limit
import Verif.Spec.EndToEnd

/-!
# Specification: averages along one run

`MeanWithin` bounds the probability that an average over a given number of rows is off. The statements here are about one run of the walk, with the
number of rows growing: except for a set of generators of probability zero, the averages along the run converge.
-/

namespace PW
open MeasureTheory Filter Topology

/-- With probability one the walk from `x` moves along a path of which every call returns the positions at the times it records, and the mean of `φ` over
the first `L` recorded positions tends to `c` as `L` grows, whatever the burn-in `B` and the thinning `τ`. -/
def MeanConverges {m n : ℕ} (w : Walk ℝ) (e : Env ℝ) [MeasurableSpace e.r.G] (μ : Measure e.r.G) (A : Matrix (Fin m) (Fin n) ℝ) (b : Fin m → ℝ)
    (x : Fin n → ℝ) (k seed : Int) (φ : (Fin n → ℝ) → ℝ) (c : ℝ) : Prop :=
  ∀ᵐ g ∂μ, ∃ path : ℕ → Fin n → ℝ,
    (∀ niter burnin thin : Int, w.Path (e.withGen g) (callArgs A b x niter k burnin thin seed) ⟨rfl, rfl⟩ path) ∧
    (∀ niter burnin thin : Int, GoodInts niter burnin thin → ∃ (f0 : ℕ) (rows : List (Fin n → ℝ)),
      (∀ f ≥ f0, w.run ((e.withGen g).withFuel f) (callArgs A b x niter k burnin thin seed) = .ok rows) ∧
      (rows.length : Int) = (niter - burnin) / thin ∧
      ∀ j (hj : j < rows.length), rows[j] = path (burnin.toNat + (j + 1) * thin.toNat)) ∧
    ∀ B τ : ℕ, 1 ≤ τ → Tendsto (fun L : ℕ => (∑ i ∈ Finset.range L, φ (path (B + (i + 1) * τ))) / L) atTop (𝓝 c)

/-- The same for the walk a driver runs, its positions carried over to the coordinates of the caller, and for the rows the driver returns. -/
def Driver.MeanConverges {n : ℕ} {run : Driver n} (I : run.Inner) (w : Walk ℝ) (e : Env ℝ) [MeasurableSpace e.r.G] (μ : Measure e.r.G) (seed : Int)
    (φ : (Fin n → ℝ) → ℝ) (c : ℝ) : Prop :=
  ∀ᵐ g ∂μ, ∃ path : ℕ → Fin I.c → ℝ,
    (∀ niter burnin thin : Int, w.Path (e.withGen g) (callArgs I.M I.v I.x niter I.k burnin thin seed) ⟨rfl, rfl⟩ path) ∧
    (∀ niter burnin thin : Int, GoodInts niter burnin thin → ∃ (f0 : ℕ) (rows : List (Fin n → ℝ)),
      (∀ f ≥ f0, run w ((e.withGen g).withFuel f) niter burnin thin seed = .ok rows) ∧
      (rows.length : Int) = (niter - burnin) / thin ∧
      ∀ j (hj : j < rows.length), rows[j] = I.L (path (burnin.toNat + (j + 1) * thin.toNat))) ∧
    ∀ B τ : ℕ, 1 ≤ τ → Tendsto (fun L : ℕ => (∑ i ∈ Finset.range L, φ (I.L (path (B + (i + 1) * τ)))) / L) atTop (𝓝 c)

end PW
