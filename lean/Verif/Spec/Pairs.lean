import Verif.Spec.Backwards

/-!
# Specification: lagged co-occurrences of rows
-/

namespace PW
open MeasureTheory
open scoped ENNReal

/-- The starting point is drawn from `π` (divided by its mass). Probability that rows `i` and `j` of a call are both in `U`. -/
noncomputable def bothIn {m n : ℕ} (w : Walk ℝ) (e : Env ℝ) [MeasurableSpace e.r.G] (μ : Measure e.r.G) (A : Matrix (Fin m) (Fin n) ℝ) (b : Fin m → ℝ)
    (k : Int) (π : Measure (Fin n → ℝ)) (niter burnin thin seed : Int) {L : ℕ} (U : Set (Fin n → ℝ)) (i j : Fin L) : ℝ :=
  (∫⁻ x, rowsProb w e μ (callArgs A b x niter k burnin thin seed) {v : Fin L → Fin n → ℝ | v i ∈ U ∧ v j ∈ U} ∂π).toReal / (π Set.univ).toReal

/-- What the initial-sequence estimators of the effective sample size assume of the rows, for every region `U`: each row is in it with probability `share`; the covariance of its indicator at rows `i`
and `i + l`, that is `bothIn i (i+l) - share²`, depends on `l` only; it is nonnegative and nonincreasing over even lags; and so are the sums of the
covariances at the lags `2t` and `2t+1`. -/
structure PairsOk {m n : ℕ} (w : Walk ℝ) (e : Env ℝ) [MeasurableSpace e.r.G] (μ : Measure e.r.G) (A : Matrix (Fin m) (Fin n) ℝ) (b : Fin m → ℝ)
    (k : Int) (π : Measure (Fin n → ℝ)) (niter burnin thin seed : Int) (L : ℕ) (U : Set (Fin n → ℝ)) : Prop where
  one : ∀ i : Fin L, bothIn w e μ A b k π niter burnin thin seed U i i = share π U
  symm : ∀ i j : Fin L, bothIn w e μ A b k π niter burnin thin seed U i j = bothIn w e μ A b k π niter burnin thin seed U j i
  lag : ∀ i j i' j' : Fin L, ((j : ℕ) : ℤ) - (i : ℕ) = ((j' : ℕ) : ℤ) - (i' : ℕ) →
    bothIn w e μ A b k π niter burnin thin seed U i j = bothIn w e μ A b k π niter burnin thin seed U i' j'
  even_floor : ∀ (t : ℕ) (i j : Fin L), (j : ℕ) = i + 2 * t → share π U ^ 2 ≤ bothIn w e μ A b k π niter burnin thin seed U i j
  even_le : ∀ (t : ℕ) (i j j' : Fin L), (j : ℕ) = i + 2 * t → (j' : ℕ) = i + 2 * (t + 1) →
    bothIn w e μ A b k π niter burnin thin seed U i j' ≤ bothIn w e μ A b k π niter burnin thin seed U i j
  pairs_floor : ∀ (t : ℕ) (i j₀ j₁ : Fin L), (j₀ : ℕ) = i + 2 * t → (j₁ : ℕ) = i + (2 * t + 1) →
    0 ≤ (bothIn w e μ A b k π niter burnin thin seed U i j₀ - share π U ^ 2) + (bothIn w e μ A b k π niter burnin thin seed U i j₁ - share π U ^ 2)
  pairs_le : ∀ (t : ℕ) (i j₀ j₁ j₂ j₃ : Fin L), (j₀ : ℕ) = i + 2 * t → (j₁ : ℕ) = i + (2 * t + 1) → (j₂ : ℕ) = i + 2 * (t + 1) →
    (j₃ : ℕ) = i + (2 * (t + 1) + 1) →
    bothIn w e μ A b k π niter burnin thin seed U i j₂ + bothIn w e μ A b k π niter burnin thin seed U i j₃ ≤
      bothIn w e μ A b k π niter burnin thin seed U i j₀ + bothIn w e μ A b k π niter burnin thin seed U i j₁

/-- For all calls and regions. -/
def PositivePairs {m n : ℕ} (w : Walk ℝ) (e : Env ℝ) [MeasurableSpace e.r.G] (μ : Measure e.r.G) (A : Matrix (Fin m) (Fin n) ℝ) (b : Fin m → ℝ)
    (k : Int) (π : Measure (Fin n → ℝ)) : Prop :=
  ∀ niter burnin thin seed : Int, GoodInts niter burnin thin → ∀ L : ℕ, (niter - burnin) / thin = L → ∀ U : Set (Fin n → ℝ), MeasurableSet U →
    PairsOk w e μ A b k π niter burnin thin seed L U

end PW
