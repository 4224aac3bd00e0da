import Verif.Spec.Joint

/-!
# Specification: continuing a run

A run can be cut in two: the second call starts from the last row of the first, with a generator of its own.
-/

namespace PW
open MeasureTheory
open scoped ENNReal

/-- The path `p` up to time `s`, and `p'` from then on. -/
def glue {X : Type} (s : ℕ) (p p' : ℕ → X) : ℕ → X := fun t => if t ≤ s then p t else p' (t - s)

/-- Is it one of the walks that draw their directions from the generator alone (ball walks and Hit-and-Run)? -/
def Walk.Undirected : Walk ℝ → Prop
  | .ball _ | .hitRun .. | .sparseBall .. | .sparseHitRun .. => True
  | .barrier .. | .sparseBarrier .. => False

section
variable {m n : ℕ} (w w' : Walk ℝ) (e : Env ℝ) [MeasurableSpace e.r.G] (μ : Measure e.r.G) (A : Matrix (Fin m) (Fin n) ℝ) (b : Fin m → ℝ)
  (x : Fin n → ℝ) (k : Int)

/-- Probability that `w` makes `s` iterations from `x`, `w'` goes on from where it is with a new, independent generator, and the two pieces together form
a path in `S`. -/
noncomputable def resumedPathProb (niter burnin thin seed niter' burnin' thin' seed' : Int) (s : ℕ) (S : Set (ℕ → Fin n → ℝ)) : ℝ≥0∞ :=
  ∫⁻ g, μ {g' | ∃ p p', w.Path (e.withGen g) (callArgs A b x niter k burnin thin seed) ⟨rfl, rfl⟩ p ∧
    w'.Path (e.withGen g') (callArgs A b (p s) niter' k burnin' thin' seed') ⟨rfl, rfl⟩ p' ∧ glue s p p' ∈ S} ∂μ

/-- Probability that a call of `w` returns `rows` (at least one), a call of `w'` that starts from the last of them, with a new, independent generator and no
burn-in, returns `rows'`, and the rows of both calls are `L` rows that, taken together, are in `S`. -/
noncomputable def resumedRowsProb (niter burnin thin seed niter' seed' : Int) {L : ℕ} (S : Set (Fin L → Fin n → ℝ)) : ℝ≥0∞ :=
  ∫⁻ g, μ {g' | ∃ (f0 : ℕ) (rows rows' : List (Fin n → ℝ)) (hne : rows ≠ []),
    (∀ f ≥ f0, w.run ((e.withGen g).withFuel f) (callArgs A b x niter k burnin thin seed) = .ok rows) ∧
    (∀ f ≥ f0, w'.run ((e.withGen g').withFuel f) (callArgs A b (rows.getLast hne) niter' k 0 thin seed') = .ok rows') ∧
    ∃ h : (rows ++ rows').length = L, (fun i : Fin L => (rows ++ rows')[i.val]'(by omega)) ∈ S} ∂μ

/-- Cutting a run in two does not change the law of what comes out: the path put together from the two pieces has the law of the path of one run, and if
the first call ends with a recorded row, the rows of the two calls together have the law of the rows of one call with as many iterations. -/
structure Continues : Prop where
  paths : ∀ (niter burnin thin seed niter' burnin' thin' seed' : Int) (s : ℕ) (S : Set (ℕ → Fin n → ℝ)), MeasurableSet S →
    resumedPathProb w w' e μ A b x k niter burnin thin seed niter' burnin' thin' seed' s S =
      pathProb w e μ (callArgs A b x niter k burnin thin seed) ⟨rfl, rfl⟩ S
  rows : ∀ niter burnin thin seed niter' seed' : Int, GoodInts niter burnin thin → GoodInts niter' 0 thin →
    GoodInts (niter + niter') burnin thin → burnin < niter → thin ∣ niter - burnin →
    ∀ (L : ℕ) (S : Set (Fin L → Fin n → ℝ)), MeasurableSet S → (niter + niter' - burnin) / thin = L →
      resumedRowsProb w w' e μ A b x k niter burnin thin seed niter' seed' S =
        rowsProb w e μ (callArgs A b x (niter + niter') k burnin thin seed) S

/-- What can come out of calls made one after another with the same seed: `y` is `x`, or a row of a call that starts from such a point. Entropy and
uninitialised memory may differ from call to call. -/
inductive Chained (niter burnin thin seed : Int) : (Fin n → ℝ) → Prop
  | start : Chained niter burnin thin seed x
  | call {y z : Fin n → ℝ} {rows : List (Fin n → ℝ)} (hy : Chained niter burnin thin seed y) (rd : BitVec 32) (junk : (n : ℕ) → Fin n → ℝ) (fuel : ℕ)
      (h : w.run { e with rd := rd, junk := junk, fuel := fuel } (callArgs A b y niter k burnin thin seed) = .ok rows) (hz : z ∈ rows) :
      Chained niter burnin thin seed z

end

end PW
