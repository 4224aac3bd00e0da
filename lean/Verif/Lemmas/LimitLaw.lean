import Verif.Lemmas.UniformRows
import Mathlib.MeasureTheory.Measure.Sub

/-! # A chain with a minorisation condition has a limit law -/

namespace PW
open MeasureTheory Set Filter Topology
open scoped ENNReal

variable {X W : Type} [MeasurableSpace X] [MeasurableSpace W]

/-- The law of the position one step later. -/
noncomputable def push (ν : Measure W) (T : X → W → X) (ρ : Measure X) : Measure X := (ρ.prod ν).map fun p => T p.1 p.2

/-- What the minorising measure leaves over, step after step. -/
noncomputable def resid (ν : Measure W) (T : X → W → X) (m : Measure X) : ℕ → Measure X
  | 0 => m
  | t + 1 => push ν T (resid ν T m t) - (resid ν T m t univ) • m

section
variable {ν : Measure W} [IsProbabilityMeasure ν] {T : X → W → X} (hT : Measurable fun p : X × W => T p.1 p.2)
include hT

theorem lintegral_push (ρ : Measure X) [SFinite ρ] {F : X → ℝ≥0∞} (hF : Measurable F) : ∫⁻ y, F y ∂(push ν T ρ) = ∫⁻ x, stepE ν T F x ∂ρ := by
  unfold push
  rw [lintegral_map hF hT]
  exact lintegral_prod (fun p : X × W => F (T p.1 p.2)) (hF.comp hT).aemeasurable

theorem push_apply (ρ : Measure X) [SFinite ρ] {S : Set X} (hS : MeasurableSet S) : push ν T ρ S = ∫⁻ x, stepE ν T (S.indicator 1) x ∂ρ := by
  rw [← lintegral_push hT ρ (measurable_one.indicator hS), lintegral_indicator_one hS]

theorem push_univ (ρ : Measure X) [SFinite ρ] : push ν T ρ univ = ρ univ := by
  rw [push_apply hT ρ MeasurableSet.univ]
  have : ∀ x, stepE ν T (univ.indicator 1) x = 1 := fun x => by
    unfold stepE
    simp
  simp only [this, lintegral_const, one_mul]

theorem push_finite (ρ : Measure X) [IsFiniteMeasure ρ] : IsFiniteMeasure (push ν T ρ) :=
  ⟨by rw [push_univ hT]; exact measure_lt_top _ _⟩

variable {K : Set X} (mK : MeasurableSet K) (hK : ∀ x ∈ K, ∀ᵐ w ∂ν, T x w ∈ K) {m : Measure X} (hmK : ∀ᵐ x ∂m, x ∈ K)
  (hm : ∀ x ∈ K, ∀ F : X → ℝ≥0∞, Measurable F → ∫⁻ y, F y ∂m ≤ stepE ν T F x) (hm1 : m univ ≤ 1)

include mK hK in
theorem push_keep (ρ : Measure X) [SFinite ρ] (hρ : ∀ᵐ x ∂ρ, x ∈ K) : ∀ᵐ x ∂(push ν T ρ), x ∈ K := by
  rw [ae_iff]
  show push ν T ρ Kᶜ = 0
  rw [push_apply hT ρ mK.compl, lintegral_congr_ae (g := fun _ => 0)]
  · simp
  filter_upwards [hρ] with x hx
  unfold stepE
  rw [lintegral_congr_ae (g := fun _ => 0)]
  · simp
  filter_upwards [hK x hx] with w hw
  exact indicator_of_notMem (fun h : _ ∈ Kᶜ => h hw) _

include hm in
theorem push_minor (ρ : Measure X) [SFinite ρ] (hρ : ∀ᵐ x ∂ρ, x ∈ K) : (ρ univ) • m ≤ push ν T ρ := by
  refine Measure.le_iff.2 fun S hS => ?_
  rw [Measure.smul_apply, smul_eq_mul, push_apply hT ρ hS, mul_comm, ← lintegral_const]
  refine lintegral_mono_ae (hρ.mono fun x hx => ?_)
  have := hm x hx _ (measurable_one.indicator hS)
  rwa [lintegral_indicator_one hS] at this

include mK hK hmK hm hm1

theorem resid_props (t : ℕ) : IsFiniteMeasure (resid ν T m t) ∧ (∀ᵐ x ∂(resid ν T m t), x ∈ K) ∧
    resid ν T m t univ = m univ * (1 - m univ) ^ t := by
  induction t with
  | zero => exact ⟨⟨lt_of_le_of_lt hm1 ENNReal.one_lt_top⟩, hmK, by rw [pow_zero, mul_one]; rfl⟩
  | succ t ih =>
    obtain ⟨h1, h2, h3⟩ := ih
    have hp := push_finite hT (resid ν T m t) (ν := ν)
    have hle : resid ν T m (t + 1) ≤ push ν T (resid ν T m t) := Measure.sub_le
    have hmin := push_minor hT hm (resid ν T m t) h2
    have hfm : IsFiniteMeasure (resid ν T m t univ • m) := ⟨lt_of_le_of_lt (hmin univ) (measure_lt_top _ _)⟩
    refine ⟨⟨lt_of_le_of_lt (hle univ) (measure_lt_top _ _)⟩, ?_, ?_⟩
    · exact (Measure.absolutelyContinuous_of_le hle).ae_le (push_keep hT mK hK _ h2)
    · show (push ν T (resid ν T m t) - (resid ν T m t univ) • m) univ = _
      rw [Measure.sub_apply MeasurableSet.univ hmin, push_univ hT, Measure.smul_apply, smul_eq_mul]
      have hne : resid ν T m t univ ≠ ⊤ := measure_ne_top _ _
      have : resid ν T m t univ - resid ν T m t univ * m univ = resid ν T m t univ * (1 - m univ) := by
        rw [ENNReal.mul_sub fun _ _ => hne, mul_one]
      rw [this, h3, pow_succ, mul_assoc]

theorem resid_step (t : ℕ) {F : X → ℝ≥0∞} (hF : Measurable F) :
    ∫⁻ x, stepE ν T F x ∂(resid ν T m t) = ∫⁻ x, F x ∂(resid ν T m (t + 1)) + resid ν T m t univ * ∫⁻ x, F x ∂m := by
  obtain ⟨h1, h2, h3⟩ := resid_props hT mK hK hmK hm hm1 t
  have hmin := push_minor hT hm (resid ν T m t) h2
  have hp := push_finite hT (resid ν T m t) (ν := ν)
  have hfm : IsFiniteMeasure (resid ν T m t univ • m) := ⟨lt_of_le_of_lt (hmin univ) (measure_lt_top _ _)⟩
  rw [← lintegral_push hT _ hF, ← smul_eq_mul, ← lintegral_smul_measure, ← lintegral_add_measure]
  show _ = ∫⁻ x, F x ∂((push ν T (resid ν T m t) - (resid ν T m t univ) • m) + _)
  rw [Measure.sub_add_cancel_of_le hmin]

/-- The limit law. -/
theorem exists_limit (hm0 : m univ ≠ 0) : ∃ P : Measure X, IsProbabilityMeasure P ∧ (∀ᵐ x ∂P, x ∈ K) ∧
    ∀ M (f : X → ℝ), Bdd M f → ∫ x, avg ν T f x ∂P = ∫ x, f x ∂P := by
  have hp := resid_props hT mK hK hmK hm hm1
  have hmass : ∑' t, resid ν T m t univ = 1 := by
    have : ∀ t, resid ν T m t univ = m univ * (1 - m univ) ^ t := fun t => (hp t).2.2
    simp only [this]
    rw [ENNReal.tsum_mul_left, ENNReal.tsum_geometric, ENNReal.sub_sub_cancel ENNReal.one_ne_top hm1,
      ENNReal.mul_inv_cancel hm0 (ne_top_of_le_ne_top ENNReal.one_ne_top hm1)]
  have hP : IsProbabilityMeasure (Measure.sum (resid ν T m)) := ⟨by rw [Measure.sum_apply _ MeasurableSet.univ]; exact hmass⟩
  refine ⟨Measure.sum (resid ν T m), hP, ?_, ?_⟩
  · exact Measure.ae_sum_iff.2 fun t => (hp t).2.1
  · have hpush : push ν T (Measure.sum (resid ν T m)) = Measure.sum (resid ν T m) := by
      refine Measure.ext fun S hS => ?_
      have mS : Measurable (S.indicator (1 : X → ℝ≥0∞)) := measurable_one.indicator hS
      rw [push_apply hT _ hS, lintegral_sum_measure]
      simp only [resid_step hT mK hK hmK hm hm1 _ mS]
      rw [ENNReal.tsum_add, ENNReal.tsum_mul_right, hmass, one_mul, ← lintegral_indicator_one hS, lintegral_sum_measure, add_comm]
      exact (tsum_eq_zero_add' (f := fun t => ∫⁻ a, S.indicator 1 a ∂(resid ν T m t)) ENNReal.summable).symm
    intro M f hf
    have e1 : ∫ x, f x ∂(push ν T (Measure.sum (resid ν T m))) = ∫ x, avg ν T f x ∂(Measure.sum (resid ν T m)) := by
      unfold push
      rw [integral_map hT.aemeasurable hf.meas.aestronglyMeasurable]
      exact integral_prod _ ((hf.comp hT).int _)
    rw [← e1, hpush]

/-- Geometric convergence to the limit law. -/
theorem mixes_limit (hm0 : m univ ≠ 0) : ∃ P : Measure X, Mixes P ν T K (m univ).toReal 1 := by
  obtain ⟨P, hP, hPK, hinv⟩ := exists_limit hT mK hK hmK hm hm1 hm0
  have hmt : m univ ≠ ⊤ := ne_top_of_le_ne_top ENNReal.one_ne_top hm1
  have hfin : IsFiniteMeasure m := ⟨hmt.lt_top⟩
  refine ⟨P, hT, hK, hPK, hP, ENNReal.toReal_pos hm0 hmt, (ENNReal.toReal_mono ENNReal.one_ne_top hm1).trans (by simp), one_pos, ?_⟩
  intro M f hf lo hi hlo hhi t x hx
  refine uniform_converge (n₀ := 1) hT hK hmK hm rfl hPK one_pos hf (fun t => ?_) hlo hhi t hx
  induction t with
  | zero => rfl
  | succ t ih => rw [Function.iterate_succ_apply', hinv M _ (hf.avgIter hT t), ih]

end

end PW
