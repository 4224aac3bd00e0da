import Verif.Lemmas.ErgodicMean
import Mathlib.MeasureTheory.Integral.Layercake

/-! # A chain is not close to a law that is not invariant, at two successive times -/

namespace PW
open MeasureTheory Set Filter Topology
open scoped ENNReal

variable {X W : Type} [MeasurableSpace X] [MeasurableSpace W]

theorem Bdd.indicator_one {S : Set X} (hS : MeasurableSet S) : Bdd 1 (S.indicator (1 : X → ℝ)) :=
  ⟨measurable_one.indicator hS, fun y => by
    by_cases hy : y ∈ S
    · rw [indicator_of_mem hy]; simp
    · rw [indicator_of_notMem hy]; simp⟩

/-- The tail of a function is an integrable function of the level. -/
theorem tail_int (M : Measure X) [IsProbabilityMeasure M] (f : X → ℝ) :
    Integrable (fun t : ℝ => M.real {a | t ≤ f a}) (volume.restrict (Ioc (0 : ℝ) 1)) := by
  have h : Antitone fun t : ℝ => M.real {a | t ≤ f a} := fun s t hst =>
    measureReal_mono fun a (ha : t ≤ f a) => hst.trans ha
  exact (Bdd.int (M := 1) ⟨h.measurable, fun t => by
    rw [abs_of_nonneg measureReal_nonneg]; exact measureReal_le_one⟩ _)

/-- Two laws that are close on all regions are close on all functions with values in `[0, 1]`. -/
theorem close_fun {M P : Measure X} [IsProbabilityMeasure M] [IsProbabilityMeasure P] {ε : ℝ}
    (h : ∀ U, MeasurableSet U → |M.real U - P.real U| ≤ ε) {f : X → ℝ} (hf : Bdd 1 f) (h0 : ∀ x, 0 ≤ f x) :
    |∫ x, f x ∂M - ∫ x, f x ∂P| ≤ ε := by
  have hb : ∀ x, f x ≤ 1 := fun x => (le_abs_self _).trans (hf.le x)
  rw [(hf.int M).integral_eq_integral_Ioc_meas_le (ae_of_all _ h0) (ae_of_all _ hb),
    (hf.int P).integral_eq_integral_Ioc_meas_le (ae_of_all _ h0) (ae_of_all _ hb),
    ← integral_sub (tail_int M f) (tail_int P f)]
  have := norm_integral_le_of_norm_le_const (μ := volume.restrict (Ioc (0 : ℝ) 1))
    (f := fun t : ℝ => M.real {a | t ≤ f a} - P.real {a | t ≤ f a}) (C := ε)
    (ae_of_all _ fun t => h _ (measurableSet_le measurable_const hf.meas))
  rw [Real.norm_eq_abs] at this
  simpa using this

/-- The law of the position after `t` steps. -/
theorem exists_law {ν : Measure W} [IsProbabilityMeasure ν] {T : X → W → X} (hT : Measurable fun p : X × W => T p.1 p.2) (x : X)
    (t : ℕ) : ∃ M : Measure X, IsProbabilityMeasure M ∧ ∀ (C : ℝ) (f : X → ℝ), Bdd C f → (avg ν T)^[t] f x = ∫ y, f y ∂M := by
  induction t with
  | zero => exact ⟨Measure.dirac x, inferInstance, fun C f hf => (integral_dirac' f x hf.meas.stronglyMeasurable).symm⟩
  | succ t ih =>
    obtain ⟨M, hM, hl⟩ := ih
    refine ⟨(M.prod ν).map fun p => T p.1 p.2, Measure.isProbabilityMeasure_map hT.aemeasurable, fun C f hf => ?_⟩
    rw [Function.iterate_succ_apply, hl C _ (hf.avg hT), integral_map hT.aemeasurable hf.meas.aestronglyMeasurable]
    exact (integral_prod (fun p : X × W => f (T p.1 p.2)) ((hf.comp hT).int _)).symm

/-- If one step changes the probability of `S` under `P` by `δ`, the chain is, at time `t` or `t + 1`, at distance at least `δ / 2`
from `P`. -/
theorem never_close {P : Measure X} [IsProbabilityMeasure P] {ν : Measure W} [IsProbabilityMeasure ν] {T : X → W → X}
    (hT : Measurable fun p : X × W => T p.1 p.2) {S : Set X} (hS : MeasurableSet S) (x : X) (t : ℕ) :
    ∃ U, MeasurableSet U ∧ ∃ s, (s = t ∨ s = t + 1) ∧
      |∫ y, avg ν T (S.indicator 1) y ∂P - P.real S| / 2 ≤ |(avg ν T)^[s] (U.indicator 1) x - P.real U| := by
  by_contra hcon
  push Not at hcon
  set δ := |∫ y, avg ν T (S.indicator 1) y ∂P - P.real S| with hδ
  obtain ⟨M, hM, hl⟩ := exists_law (ν := ν) hT x t
  have bS : Bdd 1 (avg ν T (S.indicator 1)) := (Bdd.indicator_one hS).avg hT
  have h0 : ∀ y, 0 ≤ avg ν T (S.indicator 1) y := fun y => integral_nonneg fun w => indicator_nonneg (fun _ _ => zero_le_one) _
  have h1 : |∫ y, avg ν T (S.indicator 1) y ∂M - ∫ y, avg ν T (S.indicator 1) y ∂P| ≤ δ / 2 := by
    refine close_fun (fun U hU => ?_) bS h0
    have := hcon U hU t (Or.inl rfl)
    rw [hl 1 _ (Bdd.indicator_one hU), integral_indicator_one hU] at this
    exact this.le
  have h2 := hcon S hS (t + 1) (Or.inr rfl)
  rw [Function.iterate_succ_apply, hl 1 _ bS] at h2
  have h3 : δ ≤ |∫ y, avg ν T (S.indicator 1) y ∂P - ∫ y, avg ν T (S.indicator 1) y ∂M| +
      |∫ y, avg ν T (S.indicator 1) y ∂M - P.real S| := abs_sub_le _ _ _
  rw [abs_sub_comm] at h1
  linarith

end PW
