import Verif.Spec.Gaussian
import Verif.Spec.Polytope
import Verif.Spec.Chain
import Verif.Model.Api
import Mathlib.MeasureTheory.Measure.Prod
import Mathlib.MeasureTheory.Integral.Bochner.Basic

/-!
# Specification: laws of the chain

An *ideal source* replaces the pseudo random generator: a probability measure `μ` on generator states such
that a call draws independent variables of the right law and leaves a fresh, independent generator behind.
`Verif/Lemmas/Stream.lean` constructs one.
-/

namespace PW
open MeasureTheory
open scoped ENNReal

/-- The generator state is random with law `μ`. `N d` is the law of a vector of `d` normal draws. Each call
returns a draw that is independent of the generator it leaves behind, whose law is `μ` again. -/
structure Source (r : Rng ℝ) [MeasurableSpace r.G] (μ : Measure r.G)
    (N : (d : ℕ) → Measure (Fin d → ℝ)) : Prop where
  /-- `μ` is a probability measure -/
  prob : IsProbabilityMeasure μ
  /-- so are the laws of the normal vectors -/
  probN : ∀ d, IsProbabilityMeasure (N d)
  /-- `d` normal draws -/
  gaussian : ∀ d, MeasurePreserving (r.gaussian d) μ ((N d).prod μ)
  /-- one uniform draw from `[0, 1]` -/
  uniform : MeasurePreserving r.uniform μ ((volume.restrict (Set.Icc (0 : ℝ) 1)).prod μ)

/-- The draws are independent standard normal and uniform variables. -/
def IdealSource (r : Rng ℝ) [MeasurableSpace r.G] (μ : Measure r.G) : Prop := Source r μ stdNormal

/-- A law that is symmetric under negation. -/
def SymmetricLaw {d : ℕ} (ν : Measure (Fin d → ℝ)) : Prop := ν.map (fun v => -v) = ν

section
variable {X G σ : Type} [MeasurableSpace X] [MeasurableSpace G]

/-- Probability that one iteration from position `x` with a random generator ends in `T`.
`start x g` is the state of the walk at position `x` with generator `g`, `pos` its position. -/
noncomputable def stepProb (μ : Measure G) (start : X → G → σ) (pos : σ → X) (step : σ → Out σ) (x : X)
    (T : Set X) : ℝ≥0∞ :=
  μ {g | ∃ s, step (start x g) = .ok s ∧ pos s ∈ T}

/-- Detailed balance: starting with law `π`, the probability of going from `S` to `T` in one iteration
equals that of going from `T` to `S`. -/
def Reversible (π : Measure X) (μ : Measure G) (start : X → G → σ) (pos : σ → X) (step : σ → Out σ) :
    Prop :=
  ∀ S T, MeasurableSet S → MeasurableSet T →
    ∫⁻ x in S, stepProb μ start pos step x T ∂π = ∫⁻ x in T, stepProb μ start pos step x S ∂π

/-- If the initial position has law `π` and the generator law `μ`, the position after any number `t` of
iterations is defined almost surely and has law `π`. -/
def Stationary (π : Measure X) (μ : Measure G) (start : X → G → σ) (pos : σ → X) (step : σ → Out σ) :
    Prop :=
  ∀ t T, MeasurableSet T →
    (π.prod μ) {p | ∃ s, iter step t (start p.1 p.2) = .ok s ∧ pos s ∈ T} = π T

end

/-- The environment in which every (re)seeded generator is in state `g`. -/
def Env.withGen (e : Env ℝ) (g : e.r.G) : Env ℝ := { e with r := { e.r with seed := fun _ => g } }

/-- The environment in which each unbounded loop of the model may run for `f` iterations. -/
def Env.withFuel {F : Type} (e : Env F) (f : ℕ) : Env F := { e with fuel := f }

/-- The call `generateCompleteWalk(niter, x, A, b, …)`: arguments `a` with initial point `x`. -/
def Args.from (a : Args ℝ) (x : Fin a.A.c → ℝ) : Args ℝ := { a with init := ⟨a.A.c, x⟩ }

/-- If the initial point has law `π` and the generator law `μ`, every row `generateCompleteWalk` returns has
law `π` (in particular the call returns, almost surely, if `π` is a probability measure). -/
def SamplesHaveLaw (w : Walk ℝ) (e : Env ℝ) [MeasurableSpace e.r.G] (μ : Measure e.r.G) (a : Args ℝ)
    (π : Measure (Fin a.A.c → ℝ)) : Prop :=
  ∀ (j : ℕ), (j : Int) < (a.niter - a.burnin) / a.thin → ∀ T : Set (Fin a.A.c → ℝ), MeasurableSet T →
    (π.prod μ) {p | ∃ rows : List (Fin a.A.c → ℝ), w.run (e.withGen p.2) (a.from p.1) = .ok rows ∧
      ∃ hj : j < rows.length, rows[j] ∈ T} = π T

/-- The law of every returned row is `π` up to `δ`: if the initial point has law `π` and the generator law `μ`, then the
probability that the call returns (given enough fuel for its unbounded loops) and row `j` lies in `T` differs from
`π T` by at most `δ j`, for every measurable set `T`. -/
def SamplesNearLaw (w : Walk ℝ) (e : Env ℝ) [MeasurableSpace e.r.G] (μ : Measure e.r.G) (a : Args ℝ)
    (π : Measure (Fin a.A.c → ℝ)) (δ : ℕ → ℝ≥0∞) : Prop :=
  ∀ (j : ℕ), (j : Int) < (a.niter - a.burnin) / a.thin → ∀ T : Set (Fin a.A.c → ℝ), MeasurableSet T →
    (π.prod μ) {p | ∃ (f0 : ℕ) (rows : List (Fin a.A.c → ℝ)),
      (∀ f ≥ f0, w.run ((e.withGen p.2).withFuel f) (a.from p.1) = .ok rows) ∧ ∃ hj : j < rows.length, rows[j] ∈ T}
        ≤ π T + δ j ∧
    π T ≤ (π.prod μ) {p | ∃ (f0 : ℕ) (rows : List (Fin a.A.c → ℝ)),
      (∀ f ≥ f0, w.run ((e.withGen p.2).withFuel f) (a.from p.1) = .ok rows) ∧ ∃ hj : j < rows.length, rows[j] ∈ T} + δ j

/-- Probability (over the generator, with law `μ`) that the call with arguments `a` returns (given enough fuel for its
unbounded loops) and row `j` of the result lies in `T`. -/
noncomputable def rowProb (w : Walk ℝ) (e : Env ℝ) [MeasurableSpace e.r.G] (μ : Measure e.r.G) (a : Args ℝ) (j : ℕ)
    (T : Set (Fin a.A.c → ℝ)) : ℝ≥0∞ :=
  μ {g | ∃ (f0 : ℕ) (rows : List (Fin a.A.c → ℝ)),
    (∀ f ≥ f0, w.run ((e.withGen g).withFuel f) a = .ok rows) ∧ ∃ hj : j < rows.length, rows[j] ∈ T}

/-- The arguments of a call for the polytope given by `A` and `b`, started at `x`. -/
abbrev callArgs {m n : ℕ} (A : Matrix (Fin m) (Fin n) ℝ) (b : Fin m → ℝ) (x : Fin n → ℝ) (niter k burnin thin seed : Int) :
    Args ℝ := ⟨niter, ⟨n, x⟩, ⟨m, n, A⟩, ⟨m, b⟩, k, burnin, thin, seed⟩

/-- Row `j` of the result is the position after this many iterations. -/
def rowTime (burnin thin : Int) (j : ℕ) : ℕ := (burnin + ((j : Int) + 1) * thin).toNat

/-- The share of `T` in the mass of `π`. -/
noncomputable def share {X : Type} [MeasurableSpace X] (π : Measure X) (T : Set X) : ℝ := (π T).toReal / (π Set.univ).toReal

/-- The mean of `φ` over the rows. -/
noncomputable def rowMean {X : Type} (φ : X → ℝ) (rows : List X) : ℝ := (rows.map φ).sum / rows.length

/-- The mean of `φ` under the law proportional to `π`. -/
noncomputable def average {X : Type} [MeasurableSpace X] (π : Measure X) (φ : X → ℝ) : ℝ := (∫ x, φ x ∂π) / (π Set.univ).toReal

/-- Probability (over the generator, with law `μ`) that the call with arguments `a` returns (given enough fuel for its
unbounded loops) and the mean of `φ` over the rows it returns is within `ε` of `c`. -/
noncomputable def closeProb (w : Walk ℝ) (e : Env ℝ) [MeasurableSpace e.r.G] (μ : Measure e.r.G) (a : Args ℝ)
    (φ : (Fin a.A.c → ℝ) → ℝ) (c ε : ℝ) : ℝ≥0∞ :=
  μ {g | ∃ (f0 : ℕ) (rows : List (Fin a.A.c → ℝ)),
    (∀ f ≥ f0, w.run ((e.withGen g).withFuel f) a = .ok rows) ∧ |rowMean φ rows - c| < ε}

/-- The points at Euclidean distance at most `h` from `K`. -/
def Thicken {n : ℕ} (K : Set (Fin n → ℝ)) (h : ℝ) : Set (Fin n → ℝ) := {y | ∃ x ∈ K, ∑ i, (y i - x i) ^ 2 ≤ h ^ 2}

/-- Lebesgue measure restricted to the polytope `A x ≤ b` (the uniform distribution, not normalised). -/
noncomputable def uniformOn {m n : ℕ} (A : Matrix (Fin m) (Fin n) ℝ) (b : Fin m → ℝ) :
    Measure (Fin n → ℝ) := volume.restrict (Poly A b)

/-- `x₀ + B u`: coordinates `u` on the affine space through `x₀` spanned by the columns of `B`. -/
def chart {n d : ℕ} (x₀ : Fin n → ℝ) (B : Matrix (Fin n) (Fin d) ℝ) (u : Fin d → ℝ) : Fin n → ℝ :=
  x₀ + B.mulVec u

/-- The columns of `B` are a basis of the kernel of `A`. -/
structure IsKernelBasis {m n d : ℕ} (A : Matrix (Fin m) (Fin n) ℝ) (B : Matrix (Fin n) (Fin d) ℝ) :
    Prop where
  /-- the columns are in the kernel -/
  mul_zero : A * B = 0
  /-- they are independent -/
  inj : ∀ u, B.mulVec u = 0 → u = 0
  /-- they span the kernel -/
  span : ∀ v, A.mulVec v = 0 → ∃ u, B.mulVec u = v

/-- The uniform distribution (not normalised) on `{A x = b, last k coordinates ≥ 0}`, where `A x₀ = b`: the
image of Lebesgue measure under a linear chart of the affine space `A x = b`. Another chart gives the same
measure up to a constant factor. -/
noncomputable def uniformOnEq {n d : ℕ} (x₀ : Fin n → ℝ) (B : Matrix (Fin n) (Fin d) ℝ) (k : ℕ) :
    Measure (Fin n → ℝ) :=
  (volume.restrict {u : Fin d → ℝ | chart x₀ B u ∈ TailNonneg n k}).map (chart x₀ B)

end PW
