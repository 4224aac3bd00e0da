import Verif.Lemmas.ParaFlow
import Mathlib.MeasureTheory.Integral.IntervalIntegral.IntegrationByParts

/-! # The uniform distribution of the parallelogram is not invariant: the flow through a thin strip -/

namespace PW
open Matrix MeasureTheory Set Filter
open scoped ENNReal Topology

theorem measurable_fieldMove (Φ : MetricField 2) (D : ℝ) {S : Set (Fin 2 → ℝ)} (hS : MeasurableSet S) :
    Measurable fun x => fieldMove Φ D x S := by
  have h1 := measurable_mhMove (measurableSet_poly paraA paraB) (Φ.meas_prop D) (Φ.meas_acc D)
  exact Measurable.lintegral_prod_right'
    (f := fun p : (Fin 2 → ℝ) × ((Fin 2 → ℝ) × ℝ) =>
      S.indicator (1 : (Fin 2 → ℝ) → ℝ≥0∞) (mhMove (Poly paraA paraB) (Φ.prop D) (Φ.acc D) p.1 p.2))
    ((measurable_one.indicator hS).comp h1)

theorem unitLaw_lt_one : unitLaw (Iio (1 : ℝ)) = 1 := by
  have e : Iio (1 : ℝ) ∩ Icc 0 1 = Ico 0 1 := by
    ext v; simp only [mem_inter_iff, mem_Iio, mem_Icc, mem_Ico]
    exact ⟨fun h => ⟨h.2.1, h.1⟩, fun h => ⟨h.2, h.1, h.2.le⟩⟩
  unfold unitLaw
  rw [Measure.restrict_apply measurableSet_Iio, e, Real.volume_Ico]
  norm_num

theorem MetricField.meas_acc_at (Φ : MetricField 2) (D : ℝ) (x : Fin 2 → ℝ) : Measurable (Φ.acc D x) := by
  have h := Φ.meas_acc D
  generalize Φ.acc D = f at h
  exact h.comp (measurable_prodMk_left (x := x))

theorem fieldMove_eq (Φ : MetricField 2) {D : ℝ} (hD : 0 < D) {S : Set (Fin 2 → ℝ)} (hS : MeasurableSet S)
    {x : Fin 2 → ℝ} (hx : x ∉ S) (q : (Fin 2 → ℝ) → ℝ≥0∞) (e : q = fun z => ENNReal.ofReal (Φ.dens D x z)) :
    fieldMove Φ D x S = ∫⁻ v in Poly paraA paraB, q v * ENNReal.ofReal (Φ.acc D x v) *
      S.indicator (1 : (Fin 2 → ℝ) → ℝ≥0∞) v := by
  have hp : Measurable (Φ.prop D x) := (Φ.meas_prop D).comp (measurable_prodMk_left (x := x))
  have hq : Measurable fun z => ENNReal.ofReal (Φ.dens D x z) :=
    ((Φ.meas_dens D).comp (measurable_prodMk_left (x := x))).ennreal_ofReal
  have ha : Measurable (Φ.acc D x) := Φ.meas_acc_at D x
  have hI : Measurable (S.indicator (1 : (Fin 2 → ℝ) → ℝ≥0∞)) := measurable_one.indicator hS
  have hl := Φ.law hD x
  rw [← e] at hl hq
  have e0 : S.indicator (1 : (Fin 2 → ℝ) → ℝ≥0∞) x = 0 := indicator_of_notMem hx _
  unfold fieldMove
  have key := mh_expect (l := volume) (prop := Φ.prop D) (measurableSet_poly paraA paraB) x hp hq hl ha
    (Φ.acc_nonneg D x) (Φ.acc_le D x) _ hI
  rw [key, e0]
  simp only [mul_zero, lintegral_zero, add_zero]

theorem fieldMove_le_accept (Φ : MetricField 2) {D : ℝ} (hD : 0 < D) {S : Set (Fin 2 → ℝ)} (hS : MeasurableSet S)
    {x : Fin 2 → ℝ} (hx : x ∉ S) {c : ℝ} (hc : ∀ z ∈ S, Φ.acc D x z ≤ c) :
    fieldMove Φ D x S ≤ ENNReal.ofReal c * stdNormal 2 (Φ.prop D x ⁻¹' S) := by
  have hp : Measurable (Φ.prop D x) := (Φ.meas_prop D).comp (measurable_prodMk_left (x := x))
  have hq : Measurable fun z => ENNReal.ofReal (Φ.dens D x z) :=
    ((Φ.meas_dens D).comp (measurable_prodMk_left (x := x))).ennreal_ofReal
  have e : stdNormal 2 (Φ.prop D x ⁻¹' S) = ∫⁻ z in S, ENNReal.ofReal (Φ.dens D x z) := by
    rw [← Measure.map_apply hp hS, Φ.law hD x, withDensity_apply _ hS]
  have h2 : ENNReal.ofReal c * stdNormal 2 (Φ.prop D x ⁻¹' S) =
      ∫⁻ z in S, ENNReal.ofReal c * ENNReal.ofReal (Φ.dens D x z) := by
    rw [e]; exact (lintegral_const_mul _ hq).symm
  rw [fieldMove_eq Φ hD hS hx _ rfl, h2, ← lintegral_indicator hS]
  refine (setLIntegral_le_lintegral _ _).trans (lintegral_mono fun z => ?_)
  by_cases hz : z ∈ S
  · rw [indicator_of_mem hz, indicator_of_mem hz, Pi.one_apply, mul_one, mul_comm]
    exact mul_le_mul' (ENNReal.ofReal_le_ofReal (hc z hz)) le_rfl
  · rw [indicator_of_notMem hz, mul_zero]; exact zero_le

theorem ParaField.stay {Φ : MetricField 2} {p q : (Fin 2 → ℝ) → ℝ} (h : ParaField Φ p q) {D : ℝ} (hD : 0 < D) :
    ∃ t₀ : ℝ, 0 < t₀ ∧ t₀ ≤ 1 / 16 ∧ ∀ t, t ≤ t₀ → ∀ x ∈ wallStrip t,
      fieldMove Φ D x (wallStrip t) + stdNormal 2 (awaySet D) ≤ 1 := by
  obtain ⟨t₀, h0, h1, h2⟩ := h.leaves hD
  refine ⟨t₀, h0, h1, fun t ht x hx => ?_⟩
  have hm : MeasurableSet (awaySet D) := (isOpen_awaySet D).measurableSet
  have e : stdNormal 2 (awaySet D) =
      ∫⁻ w, (awaySet D ×ˢ Iio (1 : ℝ)).indicator (1 : (Fin 2 → ℝ) × ℝ → ℝ≥0∞) w ∂(stdNormal 2).prod unitLaw := by
    rw [lintegral_indicator_one (hm.prod measurableSet_Iio), Measure.prod_prod, unitLaw_lt_one, mul_one]
  unfold fieldMove
  rw [e, ← lintegral_add_right _ (measurable_one.indicator (hm.prod measurableSet_Iio))]
  calc _ ≤ ∫⁻ _, 1 ∂(stdNormal 2).prod unitLaw := by
        refine lintegral_mono fun w => ?_
        by_cases hw : w ∈ awaySet D ×ˢ Iio (1 : ℝ)
        · obtain ⟨a, b, c⟩ := h2 t ht x hx w.1 hw.1
          have hmv : mhMove (Poly paraA paraB) (Φ.prop D) (Φ.acc D) x w = Φ.prop D x w.1 := by
            unfold mhMove
            rw [if_pos ⟨interior_subset _ _ a, by rw [c]; exact hw.2⟩]
          rw [hmv, indicator_of_notMem b, indicator_of_mem hw, zero_add]
          exact le_rfl
        · rw [indicator_of_notMem hw, add_zero]
          by_cases hz : mhMove (Poly paraA paraB) (Φ.prop D) (Φ.acc D) x w ∈ wallStrip t
          · rw [indicator_of_mem hz]; exact le_rfl
          · rw [indicator_of_notMem hz]; exact zero_le_one
    _ = 1 := by simp

/-! ## The dominating function is integrable -/

theorem sqrt_add_le' {a b : ℝ} (ha : 0 ≤ a) (hb : 0 ≤ b) : √(a + b) ≤ √a + √b := by
  rw [Real.sqrt_le_left (by positivity)]
  nlinarith [Real.sq_sqrt ha, Real.sq_sqrt hb, Real.sqrt_nonneg a, Real.sqrt_nonneg b,
    mul_nonneg (Real.sqrt_nonneg a) (Real.sqrt_nonneg b)]

theorem edge_le {y : ℝ} (h0 : 0 < y) (h1 : y < 1) : edge y ≤ (1 - y) ^ (-(1 / 2) : ℝ) + y ^ (-(1 / 2) : ℝ) := by
  have h2 : 0 < 1 - y := by linarith
  have e : ∀ u : ℝ, 0 < u → u ^ (-(1 / 2) : ℝ) = √(1 / u) := by
    intro u hu
    rw [Real.rpow_neg hu.le, ← Real.sqrt_eq_rpow, one_div, Real.sqrt_inv]
  rw [e _ h0, e _ h2]
  unfold edge
  exact sqrt_add_le' (by positivity) (by positivity)

theorem lintegral_rpow_lt : ∫⁻ y in Ioo (0 : ℝ) 1, ENNReal.ofReal (y ^ (-(1 / 2) : ℝ)) < ∞ := by
  have h := intervalIntegral.intervalIntegrable_rpow' (a := 0) (b := 1) (r := -(1 / 2)) (by norm_num)
  rw [intervalIntegrable_iff_integrableOn_Ioo_of_le zero_le_one] at h
  exact h.lintegral_lt_top

theorem lintegral_edge_lt : ∫⁻ y in Ioo (0 : ℝ) 1, ENNReal.ofReal (edge y) < ∞ := by
  have hm : Measurable fun y : ℝ => ENNReal.ofReal (y ^ (-(1 / 2) : ℝ)) :=
    (measurable_id.pow_const _).ennreal_ofReal
  have hr : ∫⁻ y in Ioo (0 : ℝ) 1, ENNReal.ofReal ((1 - y) ^ (-(1 / 2) : ℝ)) =
      ∫⁻ y in Ioo (0 : ℝ) 1, ENNReal.ofReal (y ^ (-(1 / 2) : ℝ)) := by
    rw [← lintegral_indicator measurableSet_Ioo, ← lintegral_indicator measurableSet_Ioo,
      ← lintegral_sub_left_eq_self _ (1 : ℝ)]
    refine lintegral_congr fun y => ?_
    by_cases hy : y ∈ Ioo (0 : ℝ) 1
    · have hy' : 1 - y ∈ Ioo (0 : ℝ) 1 := ⟨by linarith [hy.2], by linarith [hy.1]⟩
      rw [indicator_of_mem hy, indicator_of_mem hy', sub_sub_cancel]
    · have hy' : 1 - y ∉ Ioo (0 : ℝ) 1 := fun h' => hy ⟨by linarith [h'.2], by linarith [h'.1]⟩
      rw [indicator_of_notMem hy, indicator_of_notMem hy']
  calc ∫⁻ y in Ioo (0 : ℝ) 1, ENNReal.ofReal (edge y)
      ≤ ∫⁻ y in Ioo (0 : ℝ) 1, (ENNReal.ofReal ((1 - y) ^ (-(1 / 2) : ℝ)) + ENNReal.ofReal (y ^ (-(1 / 2) : ℝ))) := by
        refine setLIntegral_mono ((hm.comp (measurable_const.sub measurable_id)).add hm) fun y hy => ?_
        rw [← ENNReal.ofReal_add (Real.rpow_nonneg (by linarith [hy.2]) _) (Real.rpow_nonneg hy.1.le _)]
        exact ENNReal.ofReal_le_ofReal (edge_le hy.1 hy.2)
    _ = (∫⁻ y in Ioo (0 : ℝ) 1, ENNReal.ofReal ((1 - y) ^ (-(1 / 2) : ℝ))) +
          ∫⁻ y in Ioo (0 : ℝ) 1, ENNReal.ofReal (y ^ (-(1 / 2) : ℝ)) := lintegral_add_right _ hm
    _ < ∞ := by rw [hr]; exact ENNReal.add_lt_top.2 ⟨lintegral_rpow_lt, lintegral_rpow_lt⟩

theorem measurable_edge : Measurable edge := by
  unfold edge
  exact Real.continuous_sqrt.measurable.comp
    ((measurable_const.div (measurable_const.sub measurable_id)).add (measurable_const.div measurable_id))

/-- The dominating function. -/
noncomputable def wallBound (D : ℝ) (x : Fin 2 → ℝ) : ℝ≥0∞ :=
  (Interior paraA paraB).indicator (fun x => ENNReal.ofReal (3 / √D * (edge (x 0 + x 1) * edge (x 1)))) x

theorem lintegral_wallBound (D : ℝ) : ∫⁻ x, wallBound D x ≠ ∞ := by
  have he : ∀ y, 0 ≤ edge y := fun y => Real.sqrt_nonneg _
  have e : ∀ x : Fin 2 → ℝ, wallBound D x = ENNReal.ofReal (3 / √D) *
      ((Ioo (0 : ℝ) 1).indicator (fun y => ENNReal.ofReal (edge y)) (x 0 + x 1) *
        (Ioo (0 : ℝ) 1).indicator (fun y => ENNReal.ofReal (edge y)) (x 1)) := by
    intro x
    unfold wallBound
    by_cases hx : x ∈ Interior paraA paraB
    · obtain ⟨a, b⟩ := para_interior.1 hx
      rw [indicator_of_mem hx, indicator_of_mem (show x 0 + x 1 ∈ Ioo (0 : ℝ) 1 from a),
        indicator_of_mem (show x 1 ∈ Ioo (0 : ℝ) 1 from b), ENNReal.ofReal_mul (by positivity),
        ENNReal.ofReal_mul (he _)]
    · rw [indicator_of_notMem hx]
      by_cases ha : x 0 + x 1 ∈ Ioo (0 : ℝ) 1
      · by_cases hb : x 1 ∈ Ioo (0 : ℝ) 1
        · exact absurd (para_interior.2 ⟨ha, hb⟩) hx
        · rw [indicator_of_notMem hb, mul_zero, mul_zero]
      · rw [indicator_of_notMem ha, zero_mul, mul_zero]
  have hm : Measurable ((Ioo (0 : ℝ) 1).indicator fun y => ENNReal.ofReal (edge y)) :=
    measurable_edge.ennreal_ofReal.indicator measurableSet_Ioo
  simp only [e]
  have hm2 : Measurable fun x : Fin 2 → ℝ => (Ioo (0 : ℝ) 1).indicator (fun y => ENNReal.ofReal (edge y)) (x 0 + x 1) *
      (Ioo (0 : ℝ) 1).indicator (fun y => ENNReal.ofReal (edge y)) (x 1) :=
    (hm.comp ((measurable_pi_apply 0).add (measurable_pi_apply 1))).mul (hm.comp (measurable_pi_apply 1))
  rw [lintegral_const_mul _ hm2, lintegral_shear _ _ hm hm, lintegral_indicator measurableSet_Ioo]
  exact (ENNReal.mul_lt_top ENNReal.ofReal_lt_top (ENNReal.mul_lt_top lintegral_edge_lt lintegral_edge_lt)).ne

/-! ## The flow -/

/-- Entering the strip of width `t` from outside, per unit of width, tends to zero. -/
theorem ParaField.inflow {Φ : MetricField 2} {p q : (Fin 2 → ℝ) → ℝ} (h : ParaField Φ p q) {D : ℝ} (hD : 0 < D) :
    Tendsto (fun k : ℕ => ∫⁻ x, (Interior paraA paraB \ wallStrip (1 / ((k : ℝ) + 1))).indicator
      (fun x => ENNReal.ofReal ((k : ℝ) + 1) * fieldMove Φ D x (wallStrip (1 / ((k : ℝ) + 1)))) x) atTop (𝓝 0) := by
  have key := tendsto_lintegral_of_dominated_convergence (μ := (volume : Measure (Fin 2 → ℝ)))
    (F := fun k : ℕ => (Interior paraA paraB \ wallStrip (1 / ((k : ℝ) + 1))).indicator
      (fun x => ENNReal.ofReal ((k : ℝ) + 1) * fieldMove Φ D x (wallStrip (1 / ((k : ℝ) + 1)))))
    (f := fun _ => 0) (wallBound D) ?_ ?_ (lintegral_wallBound D) ?_
  · simpa using key
  · intro k
    exact ((measurable_fieldMove Φ D (measurableSet_wallStrip _)).const_mul _).indicator
      ((measurableSet_interior _ _).diff (measurableSet_wallStrip _))
  · intro k
    refine Eventually.of_forall fun x => ?_
    have hk : (0 : ℝ) < (k : ℝ) + 1 := by positivity
    by_cases hx : x ∈ Interior paraA paraB \ wallStrip (1 / ((k : ℝ) + 1))
    · show (Interior paraA paraB \ wallStrip (1 / ((k : ℝ) + 1))).indicator _ x ≤ _
      rw [indicator_of_mem hx]
      unfold wallBound
      rw [indicator_of_mem hx.1]
      have h1 := fieldMove_le_accept Φ hD (measurableSet_wallStrip (1 / ((k : ℝ) + 1))) hx.2
        (c := 1) fun z _ => Φ.acc_le D x z
      rw [ENNReal.ofReal_one, one_mul] at h1
      have h2 := h1.trans (h.propose_strip hD hx.1 (t := 1 / ((k : ℝ) + 1)) (by positivity))
      refine (mul_le_mul_right h2 _).trans ?_
      rw [← ENNReal.ofReal_mul hk.le]
      refine ENNReal.ofReal_le_ofReal (le_of_eq ?_)
      field_simp
    · show (Interior paraA paraB \ wallStrip (1 / ((k : ℝ) + 1))).indicator _ x ≤ _
      rw [indicator_of_notMem hx]; exact zero_le
  · refine Eventually.of_forall fun x => ?_
    by_cases hx : x ∈ Interior paraA paraB
    · rw [ENNReal.tendsto_nhds_zero]
      intro ε hε
      set B := 3 / √D * (edge (x 0 + x 1) * edge (x 1)) with hB
      have hB0 : 0 ≤ B := mul_nonneg (by positivity) (mul_nonneg (Real.sqrt_nonneg _) (Real.sqrt_nonneg _))
      -- a real bound
      obtain ⟨δ, hδ0, hδ⟩ : ∃ δ : ℝ, 0 < δ ∧ ENNReal.ofReal (δ * B) ≤ ε := by
        rcases eq_or_ne ε ∞ with rfl | hε'
        · exact ⟨1, one_pos, le_top⟩
        · have hpos : 0 < ε.toReal := ENNReal.toReal_pos hε.ne' hε'
          refine ⟨ε.toReal / (B + 1), by positivity, ?_⟩
          refine (ENNReal.ofReal_le_ofReal ?_).trans (ENNReal.ofReal_toReal hε').le
          rw [div_mul_eq_mul_div, div_le_iff₀ (by positivity)]
          exact mul_le_mul_of_nonneg_left (by linarith) hpos.le
      obtain ⟨t₀, ht0, ht⟩ := h.enters hD hx hδ0
      obtain ⟨N, hN⟩ := exists_nat_one_div_lt ht0
      filter_upwards [eventually_ge_atTop N] with k hkN
      have hk : (0 : ℝ) < (k : ℝ) + 1 := by positivity
      have htk : 1 / ((k : ℝ) + 1) ≤ t₀ := by
        refine le_trans (one_div_le_one_div_of_le (by positivity) ?_) hN.le
        have : (N : ℝ) ≤ k := by exact_mod_cast hkN
        linarith
      obtain ⟨hxS, hacc⟩ := ht _ htk
      show (Interior paraA paraB \ wallStrip (1 / ((k : ℝ) + 1))).indicator _ x ≤ _
      rw [indicator_of_mem (show x ∈ Interior paraA paraB \ wallStrip (1 / ((k : ℝ) + 1)) from ⟨hx, hxS⟩)]
      have h1 := fieldMove_le_accept Φ hD (measurableSet_wallStrip (1 / ((k : ℝ) + 1))) hxS hacc
      have h2 := h1.trans (mul_le_mul_right (h.propose_strip hD hx (t := 1 / ((k : ℝ) + 1)) (by positivity)) _)
      refine (mul_le_mul_right h2 _).trans (le_trans (le_of_eq ?_) hδ)
      rw [← ENNReal.ofReal_mul hδ0.le, ← ENNReal.ofReal_mul hk.le]
      congr 1
      rw [← hB]
      field_simp
    · have : ∀ k : ℕ, (Interior paraA paraB \ wallStrip (1 / ((k : ℝ) + 1))).indicator
          (fun x => ENNReal.ofReal ((k : ℝ) + 1) * fieldMove Φ D x (wallStrip (1 / ((k : ℝ) + 1)))) x = 0 :=
        fun k => indicator_of_notMem (fun h' => hx h'.1) _
      simp only [this]
      exact tendsto_const_nhds

/-- The uniform distribution is not invariant. -/
theorem ParaField.not_invariant {Φ : MetricField 2} {p q : (Fin 2 → ℝ) → ℝ} (h : ParaField Φ p q) {D : ℝ} (hD : 0 < D)
    (hinv : ∀ S, MeasurableSet S → ∫⁻ x, fieldMove Φ D x S ∂uniformOn paraA paraB = uniformOn paraA paraB S) : False := by
  obtain ⟨t₀, ht0, ht1, hstay⟩ := h.stay hD
  set c := stdNormal 2 (awaySet D) with hc
  have hc0 : c ≠ 0 := stdNormal_open_pos (isOpen_awaySet D) (awaySet_nonempty hD)
  have hVK : Interior paraA paraB =ᵐ[volume] Poly paraA paraB :=
    poly_boundary_null (x₀ := ![0, 1 / 2]) (by rw [para_interior]; simp; norm_num)
  have flow : ∀ t, t ≤ t₀ → c * volume (wallStrip t) ≤
      ∫⁻ x in Interior paraA paraB \ wallStrip t, fieldMove Φ D x (wallStrip t) := by
    intro t ht
    have hSm := measurableSet_wallStrip t
    have hSV : wallStrip t ⊆ Interior paraA paraB := wallStrip_interior (by linarith)
    have h1 := hinv _ hSm
    unfold uniformOn at h1
    rw [← Measure.restrict_congr_set hVK, Measure.restrict_apply hSm, inter_eq_self_of_subset_left hSV,
      ← lintegral_inter_add_sdiff _ _ hSm, inter_eq_self_of_subset_right hSV] at h1
    have hm := measurable_fieldMove Φ D hSm
    have h2 : (∫⁻ x in wallStrip t, fieldMove Φ D x (wallStrip t)) + c * volume (wallStrip t) ≤ volume (wallStrip t) := by
      rw [← setLIntegral_const, ← lintegral_add_left hm]
      calc _ ≤ ∫⁻ _ in wallStrip t, 1 := setLIntegral_mono measurable_const fun x hx => hstay t ht x hx
        _ = volume (wallStrip t) := by simp
    have hfin : ∫⁻ x in wallStrip t, fieldMove Φ D x (wallStrip t) ≠ ∞ := by
      refine ne_top_of_le_ne_top ?_ (le_self_add.trans h2)
      rw [volume_wallStrip]
      exact (ENNReal.mul_lt_top ENNReal.ofReal_lt_top ENNReal.ofReal_lt_top).ne
    rw [← h1] at h2
    exact (ENNReal.add_le_add_iff_left hfin).1 (h2.trans_eq' (by rw [h1]))
  have hlim := h.inflow hD
  have hev : ∀ᶠ k : ℕ in atTop, c * ENNReal.ofReal (1 / 8) ≤
      ∫⁻ x, (Interior paraA paraB \ wallStrip (1 / ((k : ℝ) + 1))).indicator
        (fun x => ENNReal.ofReal ((k : ℝ) + 1) * fieldMove Φ D x (wallStrip (1 / ((k : ℝ) + 1)))) x := by
    obtain ⟨N, hN⟩ := exists_nat_one_div_lt ht0
    filter_upwards [eventually_ge_atTop N] with k hkN
    have hk : (0 : ℝ) < (k : ℝ) + 1 := by positivity
    have htk : 1 / ((k : ℝ) + 1) ≤ t₀ := by
      refine le_trans (one_div_le_one_div_of_le (by positivity) ?_) hN.le
      have : (N : ℝ) ≤ k := by exact_mod_cast hkN
      linarith
    rw [lintegral_indicator ((measurableSet_interior _ _).diff (measurableSet_wallStrip _)),
      lintegral_const_mul _ (measurable_fieldMove Φ D (measurableSet_wallStrip _))]
    refine le_trans (le_of_eq ?_) (mul_le_mul_right (flow _ htk) _)
    rw [volume_wallStrip]
    have e : ENNReal.ofReal ((k : ℝ) + 1) * ENNReal.ofReal (1 / ((k : ℝ) + 1)) = 1 := by
      rw [← ENNReal.ofReal_mul hk.le, mul_one_div_cancel hk.ne', ENNReal.ofReal_one]
    calc c * ENNReal.ofReal (1 / 8) = (ENNReal.ofReal ((k : ℝ) + 1) * ENNReal.ofReal (1 / ((k : ℝ) + 1))) *
          (c * ENNReal.ofReal (1 / 8)) := by rw [e, one_mul]
      _ = _ := by ring
  have hle := ge_of_tendsto hlim hev
  rw [nonpos_iff_eq_zero, mul_eq_zero] at hle
  rcases hle with hle | hle
  · exact hc0 hle
  · rw [ENNReal.ofReal_eq_zero] at hle; norm_num at hle

end PW
