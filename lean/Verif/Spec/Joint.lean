import Verif.Spec.EndToEnd
import Mathlib.MeasureTheory.Constructions.Pi

/-!
# Specification: several samples together

The rows of a call are not independent: each is computed from the one before. The definitions below say how close they come.
-/

namespace PW
open MeasureTheory
open scoped ENNReal

/-- The times are at least `gap` after the start and at least `gap` apart from each other. -/
def Apart {L : ℕ} (gap : ℕ) (t : Fin L → ℕ) : Prop := (∀ i, gap ≤ t i) ∧ ∀ i j, i < j → t i + gap ≤ t j

/-- Probability (over the generator, with law `μ`) that the call returns exactly `L` rows and that these rows, taken together, are in `S`. -/
noncomputable def rowsProb (w : Walk ℝ) (e : Env ℝ) [MeasurableSpace e.r.G] (μ : Measure e.r.G) (a : Args ℝ) {L : ℕ}
    (S : Set (Fin L → Fin a.A.c → ℝ)) : ℝ≥0∞ :=
  μ {g | ∃ (f0 : ℕ) (rows : List (Fin a.A.c → ℝ)),
    (∀ f ≥ f0, w.run ((e.withGen g).withFuel f) a = .ok rows) ∧ ∃ h : rows.length = L, (fun i : Fin L => rows[i.val]'(by omega)) ∈ S}

/-- The law of `L` independent draws from `π` (scaled to total mass one). -/
noncomputable def independent {n : ℕ} (π : Measure (Fin n → ℝ)) (L : ℕ) : Measure (Fin L → Fin n → ℝ) :=
  Measure.pi fun _ => (π Set.univ)⁻¹ • π

/-- Positions of the walk from `x` at `L` times that are `gap` apart are, jointly, distributed like `L` independent draws from `π`, up to `ε`: together they
fall in every (measurable) set `S` of `L`-tuples with a probability within `ε` of that of independent draws. The same holds of the rows of every call
that returns `L` rows and thins by `gap` or more. -/
def JointWithin {m n : ℕ} (w : Walk ℝ) (e : Env ℝ) [MeasurableSpace e.r.G] (μ : Measure e.r.G) (A : Matrix (Fin m) (Fin n) ℝ) (b : Fin m → ℝ)
    (x : Fin n → ℝ) (k seed : Int) (π : Measure (Fin n → ℝ)) (L gap : ℕ) (ε : ℝ) : Prop :=
  ∀ niter burnin thin : Int, ∀ S : Set (Fin L → Fin n → ℝ), MeasurableSet S →
    (∀ t : Fin L → ℕ, Apart gap t →
      |(pathProb w e μ (callArgs A b x niter k burnin thin seed) ⟨rfl, rfl⟩ {p | (fun i => p (t i)) ∈ S}).toReal -
        (independent π L S).toReal| ≤ ε) ∧
    (GoodInts niter burnin thin → (niter - burnin) / thin = L → (gap : Int) ≤ thin →
      |(rowsProb w e μ (callArgs A b x niter k burnin thin seed) S).toReal - (independent π L S).toReal| ≤ ε)

/-- Probability that a driver returns exactly `L` rows and that these rows, taken together, are in `S`. -/
noncomputable def driverRowsProb {n : ℕ} (run : Env ℝ → Out (List (Fin n → ℝ))) (e : Env ℝ) [MeasurableSpace e.r.G] (μ : Measure e.r.G) {L : ℕ}
    (S : Set (Fin L → Fin n → ℝ)) : ℝ≥0∞ :=
  μ {g | ∃ (f0 : ℕ) (rows : List (Fin n → ℝ)),
    (∀ f ≥ f0, run ((e.withGen g).withFuel f) = .ok rows) ∧ ∃ h : rows.length = L, (fun i : Fin L => rows[i.val]'(by omega)) ∈ S}

/-- The same for the walk a driver runs, its positions carried over to the coordinates of the caller, and for the rows the driver returns. -/
def Driver.JointWithin {n : ℕ} {run : Driver n} (I : run.Inner) (w : Walk ℝ) (e : Env ℝ) [MeasurableSpace e.r.G] (μ : Measure e.r.G) (seed : Int)
    (π : Measure (Fin n → ℝ)) (L gap : ℕ) (ε : ℝ) : Prop :=
  ∀ niter burnin thin : Int, ∀ S : Set (Fin L → Fin n → ℝ), MeasurableSet S →
    (∀ t : Fin L → ℕ, Apart gap t →
      |(pathProb w e μ (callArgs I.M I.v I.x niter I.k burnin thin seed) ⟨rfl, rfl⟩ {p | (fun i => I.L (p (t i))) ∈ S}).toReal -
        (independent π L S).toReal| ≤ ε) ∧
    (GoodInts niter burnin thin → (niter - burnin) / thin = L → (gap : Int) ≤ thin →
      |(driverRowsProb (fun env => run w env niter burnin thin seed) e μ S).toReal - (independent π L S).toReal| ≤ ε)

end PW
