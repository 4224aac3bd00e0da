import Verif.Spec.Stationary
import Verif.Spec.Walks
import Verif.Spec.Recording

/-!
# Specification: what a walk does in the long run

The counters of a call are of type `int`, so that a call makes fewer than `2³¹` iterations and "every row recorded after enough
iterations is close to uniform" is true of any walk: there are no such rows after `2³¹` iterations. The definitions below therefore
speak of the iterations themselves, of which there are as many as one likes, and of the rows of a call beside them.
-/

namespace PW
open MeasureTheory
open scoped ENNReal

/-- The walk moves along `path`: for every `t` the first `t` iterations return (given enough fuel for their unbounded loops) and
the position after them is `path t`. -/
def Walk.Path (w : Walk ℝ) (e : Env ℝ) (a : Args ℝ) (h : a.DimsOk) (path : ℕ → Fin a.A.c → ℝ) : Prop :=
  ∀ t, ∃ f0, ∀ f ≥ f0, w.PosAt (e.withFuel f) a h t (path t)

/-- Probability (over the generator, with law `μ`) that the walk moves along a path in `S`. -/
noncomputable def pathProb (w : Walk ℝ) (e : Env ℝ) [MeasurableSpace e.r.G] (μ : Measure e.r.G) (a : Args ℝ) (h : a.DimsOk)
    (S : Set (ℕ → Fin a.A.c → ℝ)) : ℝ≥0∞ :=
  μ {g | ∃ path, w.Path (e.withGen g) a h path ∧ path ∈ S}

/-- After `t` iterations from `x` the walk is distributed like `π`, up to `ε`: it falls in every region `T` with a probability within
`ε` of the share of `T`. The same holds of a row recorded at iteration `t` by any call. -/
def LawWithin {m n : ℕ} (w : Walk ℝ) (e : Env ℝ) [MeasurableSpace e.r.G] (μ : Measure e.r.G) (A : Matrix (Fin m) (Fin n) ℝ) (b : Fin m → ℝ)
    (x : Fin n → ℝ) (k seed : Int) (π : Measure (Fin n → ℝ)) (t : ℕ) (ε : ℝ) : Prop :=
  ∀ niter burnin thin : Int, ∀ T, MeasurableSet T →
    |(pathProb w e μ (callArgs A b x niter k burnin thin seed) ⟨rfl, rfl⟩ {p | p t ∈ T}).toReal - share π T| ≤ ε ∧
    (GoodInts niter burnin thin → ∀ j : ℕ, (j : Int) < (niter - burnin) / thin → rowTime burnin thin j = t →
      |(rowProb w e μ (callArgs A b x niter k burnin thin seed) j T).toReal - share π T| ≤ ε)

/-- After `t` iterations from `x` the walk is *not* distributed like `π`: it falls in the region `T` with a probability that differs from the share
of `T` by at least `ε`. The same holds of a row recorded at iteration `t` by any call. -/
def LawApart {m n : ℕ} (w : Walk ℝ) (e : Env ℝ) [MeasurableSpace e.r.G] (μ : Measure e.r.G) (A : Matrix (Fin m) (Fin n) ℝ) (b : Fin m → ℝ)
    (x : Fin n → ℝ) (k seed : Int) (π : Measure (Fin n → ℝ)) (t : ℕ) (ε : ℝ) (T : Set (Fin n → ℝ)) : Prop :=
  ∀ niter burnin thin : Int,
    ε ≤ |(pathProb w e μ (callArgs A b x niter k burnin thin seed) ⟨rfl, rfl⟩ {p | p t ∈ T}).toReal - share π T| ∧
    (GoodInts niter burnin thin → ∀ j : ℕ, (j : Int) < (niter - burnin) / thin → rowTime burnin thin j = t →
      ε ≤ |(rowProb w e μ (callArgs A b x niter k burnin thin seed) j T).toReal - share π T|)

/-- With probability at least `1 - δ` the mean of `φ` over `L` positions from `x` is within `ε` of `c`, if one position in every `τ` is used
after the first `B`. The same holds of the mean over the rows of any call that returns `L` rows. -/
def MeanWithin {m n : ℕ} (w : Walk ℝ) (e : Env ℝ) [MeasurableSpace e.r.G] (μ : Measure e.r.G) (A : Matrix (Fin m) (Fin n) ℝ) (b : Fin m → ℝ)
    (x : Fin n → ℝ) (k seed : Int) (φ : (Fin n → ℝ) → ℝ) (c : ℝ) (L : ℕ) (ε δ : ℝ) : Prop :=
  ∀ niter burnin thin : Int,
    (∀ B τ : ℕ, 1 ≤ τ → 1 - ENNReal.ofReal δ ≤ pathProb w e μ (callArgs A b x niter k burnin thin seed) ⟨rfl, rfl⟩
      {p | |(∑ i ∈ Finset.range L, φ (p (B + (i + 1) * τ))) / L - c| < ε}) ∧
    (GoodInts niter burnin thin → (niter - burnin) / thin = L →
      1 - ENNReal.ofReal δ ≤ closeProb w e μ (callArgs A b x niter k burnin thin seed) φ c ε)

/-- The same up to a horizon: only the first `H` iterations are spoken of, and only calls with at most `H` iterations. -/
def MeanWithinBy {m n : ℕ} (w : Walk ℝ) (e : Env ℝ) [MeasurableSpace e.r.G] (μ : Measure e.r.G) (A : Matrix (Fin m) (Fin n) ℝ) (b : Fin m → ℝ)
    (x : Fin n → ℝ) (k seed : Int) (φ : (Fin n → ℝ) → ℝ) (c : ℝ) (L H : ℕ) (ε δ : ℝ) : Prop :=
  ∀ niter burnin thin : Int,
    (∀ B τ : ℕ, 1 ≤ τ → B + L * τ ≤ H → 1 - ENNReal.ofReal δ ≤ pathProb w e μ (callArgs A b x niter k burnin thin seed) ⟨rfl, rfl⟩
      {p | |(∑ i ∈ Finset.range L, φ (p (B + (i + 1) * τ))) / L - c| < ε}) ∧
    (GoodInts niter burnin thin → (niter - burnin) / thin = L → niter ≤ H →
      1 - ENNReal.ofReal δ ≤ closeProb w e μ (callArgs A b x niter k burnin thin seed) φ c ε)

end PW
