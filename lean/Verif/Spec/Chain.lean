import Verif.Model.Scalar

/-!
# Specification: the chain behind a walk

Independent of burn-in, thinning and recording.
-/

namespace PW

/-- The state after exactly `t` iterations of `step` from `s` (abnormal outcomes propagate). -/
def iter {σ : Type} (step : σ → Out σ) : ℕ → σ → Out σ
  | 0, s => .ok s
  | t + 1, s => (iter step t s).bind step

/-- The documented range of the integer arguments. -/
structure GoodInts (niter burnin thin : Int) : Prop where
  thin_pos : 1 ≤ thin
  burnin_nonneg : 0 ≤ burnin
  burnin_le : burnin ≤ niter
  niter_lt : niter < intMax
  thin_int : thin ≤ intMax

/-- A wider range: `burnin` may exceed `niter`, `niter` may be negative. -/
structure SaneInts (niter burnin thin : Int) : Prop where
  thin_pos : 1 ≤ thin
  burnin_nonneg : 0 ≤ burnin
  niter_lt : niter < intMax
  thin_int : thin ≤ intMax

theorem GoodInts.sane {niter burnin thin : Int} (h : GoodInts niter burnin thin) :
    SaneInts niter burnin thin := ⟨h.thin_pos, h.burnin_nonneg, h.niter_lt, h.thin_int⟩

/-- `t` steps of the chain succeed and end in state `st`. -/
def After {σ : Type} (step : σ → Out σ) (start : Out σ) (t : ℕ) (st : σ) : Prop :=
  start.bind (iter step t) = .ok st

end PW
