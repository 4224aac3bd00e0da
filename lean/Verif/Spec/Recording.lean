import Verif.Model.Scalar

/-!
# Specification: which integer arguments can be recorded

Elementary conditions on the three `int` arguments `niter`, `burnin`, `thin` of `generateCompleteWalk`,
independent of the recording code.
-/

namespace PW

/-- The integers for which the call is defined: `niter - burnin` fits an `int`, `thin` is not zero, the
quotient of the two is not negative (and is not `INT_MIN / -1`), and the loop counter can pass `niter`. -/
structure Recordable (niter burnin thin : Int) : Prop where
  noOverflow : intMin ≤ niter - burnin ∧ niter - burnin ≤ intMax
  thin_ne : thin ≠ 0
  notMin : ¬ (niter - burnin = intMin ∧ thin = -1)
  notNegative : (0 < thin → -thin < niter - burnin) ∧ (thin < 0 → niter - burnin < -thin)
  counter : niter < intMax

/-- The number of rows of the result. -/
def rowCount (niter burnin thin : Int) : ℕ := (niter - burnin).natAbs / thin.natAbs

/-- The time at which row `j` is written, if ever. -/
def recTime (burnin thin : Int) (j : ℕ) : Int := burnin + ((j : Int) + 1) * thin

/-- Row `j` is written at all: `thin` is positive and the time of the row is one of `1, 2, …`. -/
def rowWritten (burnin thin : Int) (j : ℕ) : Prop := 0 < thin ∧ 1 ≤ recTime burnin thin j

end PW
