import Verif.Spec.Joint

/-!
# Specification: two runs of a driver with the same law
-/

namespace PW
open MeasureTheory
open scoped ENNReal

/-- Two runs of a driver, with a walk object and a generator each, return matrices with the same law: if the counters say that `L` rows are recorded, the
`L` rows of the one are in a (measurable) set `S` of `L`-tuples with the probability that those of the other are. The two may be given different seeds. -/
def SameRows {n : ℕ} (run : Driver n) (w : Walk ℝ) (e : Env ℝ) [MeasurableSpace e.r.G] (μ : Measure e.r.G) (w' : Walk ℝ) (e' : Env ℝ)
    [MeasurableSpace e'.r.G] (μ' : Measure e'.r.G) : Prop :=
  ∀ niter burnin thin seed seed' : Int, GoodInts niter burnin thin → ∀ (L : ℕ) (S : Set (Fin L → Fin n → ℝ)), MeasurableSet S →
    (niter - burnin) / thin = L →
      driverRowsProb (fun env => run w' env niter burnin thin seed') e' μ' S = driverRowsProb (fun env => run w env niter burnin thin seed) e μ S

end PW
