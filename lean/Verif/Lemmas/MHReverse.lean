import Verif.Lemmas.Metropolis
import Mathlib.MeasureTheory.Function.AEEqOfLIntegral

/-! # A reversible Metropolis-Hastings chain has a symmetric transition density -/

namespace PW
open MeasureTheory Set
open scoped ENNReal

section
variable {Y Ξ G σ : Type} [MeasurableSpace Y] [MeasurableSpace Ξ] [MeasurableSpace G]
  {l : Measure Y} {ν : Measure Ξ} [IsProbabilityMeasure ν] {K : Set Y}
  {prop : Y → Ξ → Y} {a : Y → Y → ℝ} {q : Y → Y → ℝ≥0∞}

/-- Flow of a Metropolis-Hastings chain from `S` to `T`, both inside `K`. -/
theorem mh_flow [SFinite l] {μ : Measure G} [IsProbabilityMeasure μ] (hK : MeasurableSet K)
    {start : Y → G → σ} {pos : σ → Y} {step : σ → Out σ} {f : Y → G → Y × G}
    (h : StepKernel (l.restrict K) μ (ν.prod unitLaw) start step f (mhMove K prop a))
    (hpos : ∀ x g, pos (start x g) = x) {V : Set Y} (hVK : V ⊆ K)
    (hp : ∀ u ∈ V, Measurable (prop u)) (hq : Measurable fun p : Y × Y => q p.1 p.2)
    (hlaw : ∀ u ∈ V, ν.map (prop u) = l.withDensity (q u)) (ha : Measurable fun p : Y × Y => a p.1 p.2)
    (ha0 : ∀ u v, 0 ≤ a u v) (ha1 : ∀ u v, a u v ≤ 1)
    (S T : Set Y) (hS : MeasurableSet S) (hT : MeasurableSet T) (hSV : S ⊆ V) (hTV : T ⊆ V) :
    ∫⁻ x in S, stepProb μ start pos step x T ∂(l.restrict K) =
      (∫⁻ u in S, ∫⁻ v in T, q u v * ENNReal.ofReal (a u v) ∂l ∂l) +
        ∫⁻ u in S ∩ T, (∫⁻ v, q u v * ENNReal.ofReal (1 - K.indicator (a u) v) ∂l) ∂l := by
  have hq1 : ∀ u, Measurable (q u) := fun u => hq.comp measurable_prodMk_left
  have ha' : ∀ u, Measurable (a u) := fun u => ha.comp measurable_prodMk_left
  have hrS : (l.restrict K).restrict S = l.restrict S := by
    rw [Measure.restrict_restrict hS, inter_eq_left.2 (hSV.trans hVK)]
  have key := h.stepProb_ae hpos T hT
  rw [lintegral_congr_ae (ae_restrict_of_ae key), hrS]
  have hpt : ∀ u ∈ S, ∫⁻ w, T.indicator 1 (mhMove K prop a u w) ∂(ν.prod unitLaw) =
      (∫⁻ v in T, q u v * ENNReal.ofReal (a u v) ∂l) +
        T.indicator (fun u => ∫⁻ v, q u v * ENNReal.ofReal (1 - K.indicator (a u) v) ∂l) u := by
    intro u hu
    rw [mh_expect hK u (hp u (hSV hu)) (hq1 u) (hlaw u (hSV hu)) (ha' u) (ha0 u) (ha1 u) (T.indicator 1)
      (measurable_one.indicator hT)]
    congr 1
    · have e : ∀ v, q u v * ENNReal.ofReal (a u v) * T.indicator (1 : Y → ℝ≥0∞) v =
          T.indicator (fun v => q u v * ENNReal.ofReal (a u v)) v := by
        intro v
        by_cases hv : v ∈ T
        · rw [indicator_of_mem hv, indicator_of_mem hv]; simp
        · rw [indicator_of_notMem hv, indicator_of_notMem hv, mul_zero]
      simp only [e]
      rw [lintegral_indicator hT, Measure.restrict_restrict hT, inter_eq_left.2 (hTV.trans hVK)]
    · by_cases hu' : u ∈ T
      · rw [indicator_of_mem hu', indicator_of_mem hu']
        simp
      · rw [indicator_of_notMem hu', indicator_of_notMem hu']
        simp
  rw [setLIntegral_congr_fun hS hpt]
  have hm1 : Measurable fun u => ∫⁻ v in T, q u v * ENNReal.ofReal (a u v) ∂l :=
    Measurable.lintegral_prod_right' (f := fun p : Y × Y => q p.1 p.2 * ENNReal.ofReal (a p.1 p.2))
      (hq.mul ha.ennreal_ofReal)
  rw [lintegral_add_left hm1]
  congr 1
  rw [lintegral_indicator hT, Measure.restrict_restrict hT, inter_comm]

/-- A reversible Metropolis-Hastings chain has a symmetric transition density, almost everywhere. -/
theorem mh_reversible_ae [SFinite l] {μ : Measure G} [IsProbabilityMeasure μ] (hK : MeasurableSet K)
    {start : Y → G → σ} {pos : σ → Y} {step : σ → Out σ} {f : Y → G → Y × G}
    (h : StepKernel (l.restrict K) μ (ν.prod unitLaw) start step f (mhMove K prop a))
    (hpos : ∀ x g, pos (start x g) = x) {V : Set Y} (hV : MeasurableSet V) (hVK : V ⊆ K) (hfin : l V ≠ ∞)
    (hp : ∀ u ∈ V, Measurable (prop u)) (hq : Measurable fun p : Y × Y => q p.1 p.2)
    (hlaw : ∀ u ∈ V, ν.map (prop u) = l.withDensity (q u)) (ha : Measurable fun p : Y × Y => a p.1 p.2)
    (ha0 : ∀ u v, 0 ≤ a u v) (ha1 : ∀ u v, a u v ≤ 1)
    (hrev : Reversible (l.restrict K) μ start pos step) :
    ∀ᵐ p ∂(l.restrict V).prod (l.restrict V), q p.1 p.2 * ENNReal.ofReal (a p.1 p.2) =
      q p.2 p.1 * ENNReal.ofReal (a p.2 p.1) := by
  have hmq : Measurable fun p : Y × Y => q p.1 p.2 * ENNReal.ofReal (a p.1 p.2) := hq.mul ha.ennreal_ofReal
  have hmq' : Measurable fun p : Y × Y => q p.2 p.1 * ENNReal.ofReal (a p.2 p.1) := hmq.comp measurable_swap
  have hq1 : ∀ u ∈ V, ∫⁻ v, q u v ∂l = 1 := by
    intro u hu
    have : IsProbabilityMeasure (ν.map (prop u)) := Measure.isProbabilityMeasure_map (hp u hu).aemeasurable
    rw [← setLIntegral_univ, ← withDensity_apply _ MeasurableSet.univ, ← hlaw u hu, measure_univ]
  -- the rejection term is finite
  have hrej : ∀ U ⊆ V, MeasurableSet U →
      ∫⁻ u in U, (∫⁻ v, q u v * ENNReal.ofReal (1 - K.indicator (a u) v) ∂l) ∂l ≠ ∞ := by
    intro U hU hUm
    refine ne_top_of_le_ne_top hfin ?_
    calc ∫⁻ u in U, (∫⁻ v, q u v * ENNReal.ofReal (1 - K.indicator (a u) v) ∂l) ∂l
        ≤ ∫⁻ u in U, 1 ∂l := by
          refine setLIntegral_mono measurable_const fun u hu => ?_
          rw [← hq1 u (hU hu)]
          refine lintegral_mono fun v => ?_
          refine mul_le_of_le_one_right (zero_le) ?_
          rw [ENNReal.ofReal_le_one]
          have : 0 ≤ K.indicator (a u) v := indicator_nonneg (fun v _ => ha0 u v) v
          linarith
      _ = l U := by simp
      _ ≤ l V := measure_mono hU
  have heq : ∀ S T, MeasurableSet S → MeasurableSet T → S ⊆ V → T ⊆ V →
      ∫⁻ u in S, ∫⁻ v in T, q u v * ENNReal.ofReal (a u v) ∂l ∂l =
        ∫⁻ u in S, ∫⁻ v in T, q v u * ENNReal.ofReal (a v u) ∂l ∂l := by
    intro S T hS hT hSV hTV
    have e := hrev S T hS hT
    rw [mh_flow hK h hpos hVK hp hq hlaw ha ha0 ha1 S T hS hT hSV hTV,
      mh_flow hK h hpos hVK hp hq hlaw ha ha0 ha1 T S hT hS hTV hSV, inter_comm T S] at e
    have e2 := (ENNReal.add_left_inj (hrej (S ∩ T) (inter_subset_left.trans hSV) (hS.inter hT))).1 e
    rw [e2, lintegral_lintegral_swap hmq.aemeasurable]
  have : IsFiniteMeasure (l.restrict V) := ⟨by rw [Measure.restrict_apply_univ]; exact hfin.lt_top⟩
  have happly : ∀ (F : Y × Y → ℝ≥0∞), Measurable F → ∀ S T : Set Y, MeasurableSet S → MeasurableSet T →
      (((l.restrict V).prod (l.restrict V)).withDensity F) (S ×ˢ T) =
        ∫⁻ u in S ∩ V, ∫⁻ v in T ∩ V, F (u, v) ∂l ∂l := by
    intro F hF S T hS hT
    rw [withDensity_apply _ (hS.prod hT), ← Measure.prod_restrict, Measure.restrict_restrict hS,
      Measure.restrict_restrict hT, lintegral_prod _ hF.aemeasurable]
  have hI : ∫⁻ p, q p.1 p.2 * ENNReal.ofReal (a p.1 p.2) ∂(l.restrict V).prod (l.restrict V) ≠ ∞ := by
    rw [lintegral_prod _ hmq.aemeasurable]
    refine ne_top_of_le_ne_top hfin ?_
    calc ∫⁻ u in V, ∫⁻ v in V, q u v * ENNReal.ofReal (a u v) ∂l ∂l
        ≤ ∫⁻ u in V, 1 ∂l := by
          refine setLIntegral_mono measurable_const fun u hu => ?_
          rw [← hq1 u hu]
          refine (setLIntegral_le_lintegral _ _).trans (lintegral_mono fun v => ?_)
          refine mul_le_of_le_one_right (zero_le) ?_
          rw [ENNReal.ofReal_le_one]; exact ha1 u v
      _ = l V := by simp
  rw [← Filter.EventuallyEq]
  refine (withDensity_eq_iff hmq.aemeasurable hmq'.aemeasurable hI).1 ?_
  have : IsFiniteMeasure (((l.restrict V).prod (l.restrict V)).withDensity
      fun p => q p.1 p.2 * ENNReal.ofReal (a p.1 p.2)) := isFiniteMeasure_withDensity hI
  refine Measure.ext_prod fun {S T} hS hT => ?_
  rw [happly _ hmq S T hS hT, happly _ hmq' S T hS hT]
  exact heq _ _ (hS.inter hV) (hT.inter hV) inter_subset_right inter_subset_right

end
end PW
