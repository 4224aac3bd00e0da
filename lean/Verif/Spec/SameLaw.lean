import Verif.Spec.Joint

/-!
# Specification: two calls with the same law

Two calls that need not use the same generator, seed, polytope or starting point, compared by what comes out.
-/

namespace PW
open MeasureTheory
open scoped ENNReal

section
variable {m n m' n' : ℕ} (w : Walk ℝ) (e : Env ℝ) [MeasurableSpace e.r.G] (μ : Measure e.r.G) (A : Matrix (Fin m) (Fin n) ℝ) (b : Fin m → ℝ)
  (x : Fin n → ℝ) (k : Int) (w' : Walk ℝ) (e' : Env ℝ) [MeasurableSpace e'.r.G] (μ' : Measure e'.r.G) (A' : Matrix (Fin m') (Fin n') ℝ)
  (b' : Fin m' → ℝ) (x' : Fin n' → ℝ) (k' : Int)

/-- What the second call does has the law of the image under `φ` of what the first one does: the path of the second is in a set `S` of paths with the
probability that the image of the path of the first is, and if both calls record `L` rows at the same iterations, the same holds of the rows they return,
taken together. The two may be given different seeds. -/
structure SameLaw (φ : (Fin n → ℝ) → Fin n' → ℝ) : Prop where
  paths : ∀ (niter burnin thin seed seed' : Int) (S : Set (ℕ → Fin n' → ℝ)), MeasurableSet S →
    pathProb w' e' μ' (callArgs A' b' x' niter k' burnin thin seed') ⟨rfl, rfl⟩ S =
      pathProb w e μ (callArgs A b x niter k burnin thin seed) ⟨rfl, rfl⟩ {p | (fun t => φ (p t)) ∈ S}
  rows : ∀ niter burnin thin seed seed' : Int, GoodInts niter burnin thin → ∀ (L : ℕ) (S : Set (Fin L → Fin n' → ℝ)), MeasurableSet S →
    (niter - burnin) / thin = L →
      rowsProb w' e' μ' (callArgs A' b' x' niter k' burnin thin seed') S =
        rowsProb w e μ (callArgs A b x niter k burnin thin seed) {p | (fun i => φ (p i)) ∈ S}

/-- At iteration `t` the second call is in the region `T` with a probability that differs by at least `ε` from the probability that the image under `φ` of
the position of the first call is. The same holds of a row recorded at iteration `t` by any two such calls. -/
def LawsApart (φ : (Fin n → ℝ) → Fin n' → ℝ) (t : ℕ) (ε : ℝ) (T : Set (Fin n' → ℝ)) : Prop :=
  ∀ niter burnin thin seed seed' : Int,
    ε ≤ |(pathProb w' e' μ' (callArgs A' b' x' niter k' burnin thin seed') ⟨rfl, rfl⟩ {p | p t ∈ T}).toReal -
      (pathProb w e μ (callArgs A b x niter k burnin thin seed) ⟨rfl, rfl⟩ {p | φ (p t) ∈ T}).toReal| ∧
    (GoodInts niter burnin thin → ∀ j : ℕ, (j : Int) < (niter - burnin) / thin → rowTime burnin thin j = t →
      ε ≤ |(rowProb w' e' μ' (callArgs A' b' x' niter k' burnin thin seed') j T).toReal -
        (rowProb w e μ (callArgs A b x niter k burnin thin seed) j (φ ⁻¹' T)).toReal|)

end

end PW
