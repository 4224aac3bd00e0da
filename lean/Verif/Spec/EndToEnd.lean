import Verif.Spec.Limit

/-!
# Specification: what the full-run drivers sample

The polytope `P` given by the user may have any dimension; its uniform distribution is described through coordinates of its affine hull.
-/

namespace PW
open MeasureTheory
open scoped ENNReal

/-- `u ↦ x₀ + B u` is a coordinate system of the affine hull of `P`. -/
structure IsChart {n d : ℕ} (P : Set (Fin n → ℝ)) (x₀ : Fin n → ℝ) (B : Matrix (Fin n) (Fin d) ℝ) : Prop where
  /-- different coordinates, different points -/
  inj : ∀ u, B.mulVec u = 0 → u = 0
  /-- every point of `P` has coordinates -/
  covers : ∀ x ∈ P, ∃ u, chart x₀ B u = x
  /-- `P` has full dimension in these coordinates -/
  solid : (interior {u | chart x₀ B u ∈ P}).Nonempty

/-- The uniform distribution on `P` (not normalised): Lebesgue measure in the coordinates of a chart. Another chart gives the same measure up to a constant factor
(`uniformIn_chart`). -/
noncomputable def uniformIn {n d : ℕ} (P : Set (Fin n → ℝ)) (x₀ : Fin n → ℝ) (B : Matrix (Fin n) (Fin d) ℝ) : Measure (Fin n → ℝ) :=
  (volume.restrict {u : Fin d → ℝ | chart x₀ B u ∈ P}).map (chart x₀ B)

/-- A driver, as a function of the walk object, the environment and `niter, burnin, thin, seed`. -/
abbrev Driver (n : ℕ) := Walk ℝ → Env ℝ → Int → Int → Int → Int → Out (List (Fin n → ℝ))

/-- The driver runs the walk it is given on one fixed problem, whatever the walk, and returns the images of its rows under a fixed map. -/
structure Driver.Inner {n : ℕ} (run : Driver n) where
  /-- number of rows of the problem -/
  r : ℕ
  /-- number of columns -/
  c : ℕ
  /-- its matrix -/
  M : Matrix (Fin r) (Fin c) ℝ
  /-- its right-hand side -/
  v : Fin r → ℝ
  /-- the starting point -/
  x : Fin c → ℝ
  /-- the number of constrained coordinates -/
  k : Int
  /-- the map -/
  L : (Fin c → ℝ) → Fin n → ℝ
  /-- this is what the driver does -/
  runs : ∀ w env niter burnin thin seed, run w env niter burnin thin seed = (w.run env (callArgs M v x niter k burnin thin seed)).map (List.map L)

/-- Probability (over the generator) that the driver returns (given enough fuel for the unbounded loops of the walk) and row `j` of its result lies in `T`. -/
noncomputable def driverRowProb {n : ℕ} (run : Env ℝ → Out (List (Fin n → ℝ))) (e : Env ℝ) [MeasurableSpace e.r.G] (μ : Measure e.r.G) (j : ℕ)
    (T : Set (Fin n → ℝ)) : ℝ≥0∞ :=
  μ {g | ∃ (f0 : ℕ) (rows : List (Fin n → ℝ)), (∀ f ≥ f0, run ((e.withGen g).withFuel f) = .ok rows) ∧ ∃ hj : j < rows.length, rows[j] ∈ T}

/-- Probability that the driver returns and the mean of `φ` over the rows it returns is within `ε` of `c`. -/
noncomputable def driverCloseProb {n : ℕ} (run : Env ℝ → Out (List (Fin n → ℝ))) (e : Env ℝ) [MeasurableSpace e.r.G] (μ : Measure e.r.G)
    (φ : (Fin n → ℝ) → ℝ) (c ε : ℝ) : ℝ≥0∞ :=
  μ {g | ∃ (f0 : ℕ) (rows : List (Fin n → ℝ)), (∀ f ≥ f0, run ((e.withGen g).withFuel f) = .ok rows) ∧ |rowMean φ rows - c| < ε}

/-- After `t` iterations of the walk the driver runs, the image of its position is distributed like `π`, up to `ε`; so is a row the driver returns if it was
recorded at iteration `t`. (The counters of a call are of type `int`; the first part speaks of any number of iterations.) -/
def Driver.LawWithin {n : ℕ} {run : Driver n} (I : run.Inner) (w : Walk ℝ) (e : Env ℝ) [MeasurableSpace e.r.G] (μ : Measure e.r.G) (seed : Int)
    (π : Measure (Fin n → ℝ)) (t : ℕ) (ε : ℝ) : Prop :=
  ∀ niter burnin thin : Int, ∀ T, MeasurableSet T →
    |(pathProb w e μ (callArgs I.M I.v I.x niter I.k burnin thin seed) ⟨rfl, rfl⟩ {p | I.L (p t) ∈ T}).toReal - share π T| ≤ ε ∧
    (GoodInts niter burnin thin → ∀ j : ℕ, (j : Int) < (niter - burnin) / thin → rowTime burnin thin j = t →
      |(driverRowProb (fun env => run w env niter burnin thin seed) e μ j T).toReal - share π T| ≤ ε)

/-- With probability at least `1 - δ` the mean of `φ` over the images of `N` positions is within `ε` of `a`, if one position in every `τ` is used after the first `B`; so is
the mean over the rows of a call of the driver that returns `N` rows. -/
def Driver.MeanWithin {n : ℕ} {run : Driver n} (I : run.Inner) (w : Walk ℝ) (e : Env ℝ) [MeasurableSpace e.r.G] (μ : Measure e.r.G) (seed : Int)
    (φ : (Fin n → ℝ) → ℝ) (a : ℝ) (N : ℕ) (ε δ : ℝ) : Prop :=
  ∀ niter burnin thin : Int,
    (∀ B τ : ℕ, 1 ≤ τ → 1 - ENNReal.ofReal δ ≤ pathProb w e μ (callArgs I.M I.v I.x niter I.k burnin thin seed) ⟨rfl, rfl⟩
      {p | |(∑ i ∈ Finset.range N, φ (I.L (p (B + (i + 1) * τ)))) / N - a| < ε}) ∧
    (GoodInts niter burnin thin → (niter - burnin) / thin = N →
      1 - ENNReal.ofReal δ ≤ driverCloseProb (fun env => run w env niter burnin thin seed) e μ φ a ε)

/-- `sparseFullWalkRun` with a fresh facial reduction object of tolerance `err`, on `{x | A x = b, last k coordinates ≥ 0}`. -/
noncomputable def sparseDriver (glp : Glpk ℝ) (E : Eigen ℝ) (err : ℝ) (fuel : ℕ) (gi : Int) (A : DMat ℝ) (b : Fin A.r → ℝ) (k : Int) : Driver A.c :=
  fun w env niter burnin thin seed => sparseFullWalkRun glp E err fuel gi (w.toSparse env) niter A ⟨A.r, b⟩ k burnin thin seed

/-- `denseFullWalkRun`, likewise. -/
noncomputable def denseDriver (glp : Glpk ℝ) (E : Eigen ℝ) (err : ℝ) (fuel : ℕ) (gi : Int) (A : DMat ℝ) (b : Fin A.r → ℝ) (k : Int) : Driver A.c :=
  fun w env niter burnin thin seed => denseFullWalkRun glp E err fuel gi (w.toDense env) niter A ⟨A.r, b⟩ k burnin thin seed

end PW
