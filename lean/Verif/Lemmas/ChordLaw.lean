import Verif.Lemmas.Stationary
import Mathlib.MeasureTheory.Integral.Lebesgue.Map
import Mathlib.MeasureTheory.Group.LIntegral
import Mathlib.MeasureTheory.Measure.Lebesgue.EqHaar

/-! # Uniform draws on chords -/

namespace PW
open MeasureTheory Set
open scoped ENNReal

variable {d : ℕ}

/-- Lebesgue measure is invariant under exchanging the two points of a pair on a common line. -/
theorem chord_swap (c : Fin d → ℝ) {H : (Fin d → ℝ) × (Fin d → ℝ) → ℝ≥0∞} (hH : Measurable H) :
    ∫⁻ y, ∫⁻ t : ℝ, H (y, y + t • c) = ∫⁻ z, ∫⁻ t : ℝ, H (z + t • c, z) := by
  have m1 : Measurable fun p : (Fin d → ℝ) × ℝ => H (p.1, p.1 + p.2 • c) :=
    hH.comp (measurable_fst.prodMk (measurable_fst.add (measurable_snd.smul_const c)))
  have m2 : Measurable fun p : (Fin d → ℝ) × ℝ => H (p.1 + p.2 • c, p.1) :=
    hH.comp ((measurable_fst.add (measurable_snd.smul_const c)).prodMk measurable_fst)
  rw [lintegral_lintegral_swap (f := fun y (t : ℝ) => H (y, y + t • c)) m1.aemeasurable,
    lintegral_lintegral_swap (f := fun z (t : ℝ) => H (z + t • c, z)) m2.aemeasurable,
    ← lintegral_neg_eq_self (μ := (volume : Measure ℝ)) (fun t => ∫⁻ y, H (y + t • c, y))]
  refine lintegral_congr fun t => ?_
  rw [← lintegral_add_right_eq_self (fun y => H (y + -t • c, y)) (t • c)]
  refine lintegral_congr fun y => ?_
  simp

theorem measurable_onLine (c : Fin d → ℝ) {K : (Fin d → ℝ) → ℝ≥0∞} (hK : Measurable K) (y : Fin d → ℝ) :
    Measurable fun t : ℝ => K (y + t • c) :=
  hK.comp (measurable_const.add (measurable_id.smul_const c))

/-- The length (in units of `c`) of the part of the line `y + t c` inside `U`. -/
noncomputable def lineLen (U : Set (Fin d → ℝ)) (c y : Fin d → ℝ) : ℝ≥0∞ := ∫⁻ t : ℝ, U.indicator 1 (y + t • c)

theorem lineLen_eq {U : Set (Fin d → ℝ)} (hU : MeasurableSet U) (c y : Fin d → ℝ) :
    lineLen U c y = volume {t : ℝ | y + t • c ∈ U} := by
  have hm : Measurable fun t : ℝ => y + t • c := measurable_const.add (measurable_id.smul_const c)
  have : MeasurableSet {t : ℝ | y + t • c ∈ U} := hm hU
  rw [← lintegral_indicator_one this]
  rfl

theorem lineLen_translate (U : Set (Fin d → ℝ)) (c y : Fin d → ℝ) (s : ℝ) : lineLen U c (y + s • c) = lineLen U c y := by
  unfold lineLen
  rw [← lintegral_add_left_eq_self (μ := (volume : Measure ℝ)) (fun t => U.indicator 1 (y + t • c)) s]
  refine lintegral_congr fun t => ?_
  rw [add_smul, add_assoc]

theorem measurable_lineLen {V : Type} [MeasurableSpace V] {U : Set (Fin d → ℝ)} (hU : MeasurableSet U)
    {c : V → Fin d → ℝ} (hc : Measurable c) : Measurable fun p : (Fin d → ℝ) × V => lineLen U (c p.2) p.1 := by
  have m : Measurable fun q : ((Fin d → ℝ) × V) × ℝ => U.indicator (1 : (Fin d → ℝ) → ℝ≥0∞) (q.1.1 + q.2 • c q.1.2) := by
    have h0 : Measurable (U.indicator (1 : (Fin d → ℝ) → ℝ≥0∞)) := measurable_one.indicator hU
    have h1 : Measurable fun q : ((Fin d → ℝ) × V) × ℝ => q.1.1 + q.2 • c q.1.2 :=
      (measurable_fst.comp measurable_fst).add (measurable_snd.smul (hc.comp (measurable_snd.comp measurable_fst)))
    exact h0.comp h1
  exact m.lintegral_prod_right'

/-- Average of `F` over the chord. -/
noncomputable def chordMean (U : Set (Fin d → ℝ)) (c : Fin d → ℝ) (F : (Fin d → ℝ) → ℝ≥0∞) (y : Fin d → ℝ) : ℝ≥0∞ :=
  (lineLen U c y)⁻¹ * ∫⁻ t : ℝ, U.indicator F (y + t • c)

theorem measurable_chordMean {V : Type} [MeasurableSpace V] {U : Set (Fin d → ℝ)} (hU : MeasurableSet U)
    {c : V → Fin d → ℝ} (hc : Measurable c) {F : (Fin d → ℝ) → ℝ≥0∞} (hF : Measurable F) :
    Measurable fun p : (Fin d → ℝ) × V => chordMean U (c p.2) F p.1 := by
  have m : Measurable fun q : ((Fin d → ℝ) × V) × ℝ => U.indicator F (q.1.1 + q.2 • c q.1.2) := by
    have h1 : Measurable fun q : ((Fin d → ℝ) × V) × ℝ => q.1.1 + q.2 • c q.1.2 :=
      (measurable_fst.comp measurable_fst).add (measurable_snd.smul (hc.comp (measurable_snd.comp measurable_fst)))
    exact (hF.indicator hU).comp h1
  exact (measurable_lineLen hU hc).inv.mul m.lintegral_prod_right'

/-- A uniform point of a chord through a uniform point is uniform. -/
theorem chordMean_invariant {U : Set (Fin d → ℝ)} (hU : MeasurableSet U) (c : Fin d → ℝ)
    (h0 : ∀ y ∈ U, lineLen U c y ≠ 0) (h1 : ∀ y ∈ U, lineLen U c y ≠ ⊤) {F : (Fin d → ℝ) → ℝ≥0∞} (hF : Measurable F) :
    ∫⁻ y in U, chordMean U c F y = ∫⁻ y in U, F y := by
  have hl : Measurable fun y => lineLen U c y :=
    (measurable_lineLen (V := Unit) hU (c := fun _ => c) measurable_const).comp (measurable_id.prodMk (measurable_const (a := ())))
  let H : (Fin d → ℝ) × (Fin d → ℝ) → ℝ≥0∞ := fun p => U.indicator (fun y => (lineLen U c y)⁻¹) p.1 * U.indicator F p.2
  have hH : Measurable H :=
    ((hl.inv.indicator hU).comp measurable_fst).mul ((hF.indicator hU).comp measurable_snd)
  have key := chord_swap c hH
  have e1 : ∫⁻ y in U, chordMean U c F y = ∫⁻ y, ∫⁻ t : ℝ, H (y, y + t • c) := by
    rw [← lintegral_indicator hU]
    refine lintegral_congr fun y => ?_
    show _ = ∫⁻ t : ℝ, U.indicator (fun y => (lineLen U c y)⁻¹) y * U.indicator F (y + t • c)
    rw [lintegral_const_mul _ (measurable_onLine c (hF.indicator hU) y)]
    by_cases hy : y ∈ U
    · rw [indicator_of_mem hy, indicator_of_mem hy]; rfl
    · rw [indicator_of_notMem hy, indicator_of_notMem hy, zero_mul]
  rw [e1, key, ← lintegral_indicator hU]
  refine lintegral_congr fun z => ?_
  show ∫⁻ t : ℝ, U.indicator (fun y => (lineLen U c y)⁻¹) (z + t • c) * U.indicator F z = _
  rw [lintegral_mul_const _ (measurable_onLine c (K := U.indicator fun y => (lineLen U c y)⁻¹) (hl.inv.indicator hU) z)]
  by_cases hz : z ∈ U
  · rw [indicator_of_mem hz]
    have e2 : ∀ t : ℝ, U.indicator (fun y => (lineLen U c y)⁻¹) (z + t • c) =
        (lineLen U c z)⁻¹ * U.indicator 1 (z + t • c) := by
      intro t
      by_cases ht : z + t • c ∈ U
      · rw [indicator_of_mem ht, indicator_of_mem ht, lineLen_translate]; simp
      · rw [indicator_of_notMem ht, indicator_of_notMem ht, mul_zero]
    rw [lintegral_congr e2, lintegral_const_mul _ (measurable_onLine c (measurable_one.indicator hU) z)]
    show (lineLen U c z)⁻¹ * lineLen U c z * F z = F z
    rw [ENNReal.inv_mul_cancel (h0 z hz) (h1 z hz), one_mul]
  · rw [indicator_of_notMem hz, mul_zero]

/-- The mean inverse chord length, through a set that meets every chord line in length at least `l`. -/
theorem lintegral_inv_lineLen {U W : Set (Fin d → ℝ)} (hU : MeasurableSet U) (hW : MeasurableSet W) (c : Fin d → ℝ)
    (l : ℝ≥0∞) (h : ∀ y ∈ U, l ≤ lineLen W c y) : l * ∫⁻ y in U, (lineLen U c y)⁻¹ ≤ volume W := by
  have hl : Measurable fun y => lineLen U c y :=
    (measurable_lineLen (V := Unit) hU (c := fun _ => c) measurable_const).comp (measurable_id.prodMk (measurable_const (a := ())))
  let H : (Fin d → ℝ) × (Fin d → ℝ) → ℝ≥0∞ := fun p => U.indicator (fun y => (lineLen U c y)⁻¹) p.1 * W.indicator 1 p.2
  have hH : Measurable H :=
    ((hl.inv.indicator hU).comp measurable_fst).mul ((measurable_one.indicator hW).comp measurable_snd)
  have key := chord_swap c hH
  calc l * ∫⁻ y in U, (lineLen U c y)⁻¹ = ∫⁻ y in U, l * (lineLen U c y)⁻¹ := (lintegral_const_mul _ hl.inv).symm
    _ ≤ ∫⁻ y, ∫⁻ t : ℝ, H (y, y + t • c) := by
      rw [← lintegral_indicator hU]
      refine lintegral_mono fun y => ?_
      show _ ≤ ∫⁻ t : ℝ, U.indicator (fun y => (lineLen U c y)⁻¹) y * W.indicator 1 (y + t • c)
      rw [lintegral_const_mul _ (measurable_onLine c (measurable_one.indicator hW) y)]
      by_cases hy : y ∈ U
      · rw [indicator_of_mem hy, indicator_of_mem hy, mul_comm]
        exact mul_le_mul_right (h y hy) _
      · rw [indicator_of_notMem hy, indicator_of_notMem hy, zero_mul]
    _ = ∫⁻ z, ∫⁻ t : ℝ, H (z + t • c, z) := key
    _ ≤ ∫⁻ z, W.indicator 1 z := by
      refine lintegral_mono fun z => ?_
      show ∫⁻ t : ℝ, U.indicator (fun y => (lineLen U c y)⁻¹) (z + t • c) * W.indicator 1 z ≤ _
      rw [lintegral_mul_const _ (measurable_onLine c (K := U.indicator fun y => (lineLen U c y)⁻¹) (hl.inv.indicator hU) z)]
      have e2 : ∀ t : ℝ, U.indicator (fun y => (lineLen U c y)⁻¹) (z + t • c) =
          (lineLen U c z)⁻¹ * U.indicator 1 (z + t • c) := by
        intro t
        by_cases ht : z + t • c ∈ U
        · rw [indicator_of_mem ht, indicator_of_mem ht, lineLen_translate]; simp
        · rw [indicator_of_notMem ht, indicator_of_notMem ht, mul_zero]
      rw [lintegral_congr e2, lintegral_const_mul _ (measurable_onLine c (measurable_one.indicator hU) z)]
      show (lineLen U c z)⁻¹ * lineLen U c z * W.indicator 1 z ≤ W.indicator 1 z
      exact mul_le_of_le_one_left' (ENNReal.inv_mul_le_one _)
    _ = volume W := lintegral_indicator_one hW

/-- A uniform draw from `[0, 1]`, mapped to `[-q, p]`. -/
theorem unit_segment {p q : ℝ} (hpq : 0 < p + q) {f : ℝ → ℝ≥0∞} (hf : Measurable f) :
    ENNReal.ofReal (p + q) * ∫⁻ v, f (v * (p + q) - q) ∂unitLaw = ∫⁻ t in Icc (-q) p, f t := by
  have hg : Measurable fun v : ℝ => v * (p + q) - q := (measurable_id.mul_const _).sub_const _
  have e : (fun v : ℝ => v * (p + q) - q) ⁻¹' Icc (-q) p = Icc 0 1 := by
    ext v
    simp only [mem_preimage, mem_Icc]
    constructor
    · rintro ⟨h1, h2⟩
      exact ⟨by by_contra h; nlinarith, by by_contra h; nlinarith⟩
    · rintro ⟨h1, h2⟩
      exact ⟨by nlinarith, by nlinarith⟩
  have hmap : ENNReal.ofReal (p + q) • Measure.map (fun v : ℝ => v * (p + q) - q) volume = volume := by
    have h1 : (fun v : ℝ => v * (p + q) - q) = (fun x => x + -q) ∘ (fun v => v * (p + q)) := by funext v; simp [sub_eq_add_neg]
    rw [h1, ← Measure.map_map (measurable_add_const (-q)) (measurable_mul_const (p + q))]
    have h2 := Real.smul_map_volume_mul_right (a := p + q) hpq.ne'
    rw [abs_of_pos hpq] at h2
    rw [← Measure.map_smul, h2]
    exact (measurePreserving_add_right volume (-q)).map_eq
  have hr : ∫⁻ v, f (v * (p + q) - q) ∂unitLaw = ∫⁻ t in Icc (-q) p, f t ∂(Measure.map (fun v : ℝ => v * (p + q) - q) volume) := by
    rw [setLIntegral_map measurableSet_Icc hf hg, e]
  conv_rhs => rw [← hmap]
  rw [hr, Measure.restrict_smul, lintegral_smul_measure]
  rfl

/-- Sampling a sub-segment that misses at most `ε` at each end changes averages of functions bounded by 1 by at most
`2 ε / length`. -/
theorem segment_near {U : Set (Fin d → ℝ)} (hU : MeasurableSet U) (c y : Fin d → ℝ) {p q ε : ℝ} (hpq : 0 < p + q) (hε : 0 ≤ ε)
    (hin : ∀ t, -q ≤ t → t ≤ p → y + t • c ∈ U) (hout : ∀ t, y + t • c ∈ U → -q - ε ≤ t ∧ t ≤ p + ε)
    {F : (Fin d → ℝ) → ℝ≥0∞} (hF : Measurable F) (h1 : ∀ z, F z ≤ 1) :
    (∫⁻ v, F (y + (v * (p + q) - q) • c) ∂unitLaw) ≤ chordMean U c F y + ENNReal.ofReal (2 * ε) * (lineLen U c y)⁻¹ ∧
    chordMean U c F y ≤ (∫⁻ v, F (y + (v * (p + q) - q) • c) ∂unitLaw) + ENNReal.ofReal (2 * ε) * (lineLen U c y)⁻¹ := by
  have hline : Measurable fun t : ℝ => y + t • c := measurable_const.add (measurable_id.smul_const c)
  have hf : Measurable fun t : ℝ => F (y + t • c) := hF.comp hline
  set a := ∫⁻ v, F (y + (v * (p + q) - q) • c) ∂unitLaw with ha
  have hJ := unit_segment hpq hf
  rw [← ha] at hJ
  set L := lineLen U c y with hL
  have ha1 : a ≤ 1 := (lintegral_mono fun v => h1 _).trans (by simp)
  -- lengths
  have hLp : ENNReal.ofReal (p + q) ≤ L := by
    rw [hL, lineLen_eq hU]
    calc ENNReal.ofReal (p + q) = volume (Icc (-q) p) := by rw [Real.volume_Icc]; congr 1; ring
      _ ≤ _ := measure_mono fun t ht => hin t ht.1 ht.2
  have hLe : L ≤ ENNReal.ofReal (p + q) + ENNReal.ofReal (2 * ε) := by
    rw [← ENNReal.ofReal_add hpq.le (by linarith), hL, lineLen_eq hU]
    calc _ ≤ volume (Icc (-q - ε) (p + ε)) := measure_mono fun t ht => hout t ht
      _ = _ := by rw [Real.volume_Icc]; congr 1; ring
  have hL0 : L ≠ 0 := fun h => by rw [h] at hLp; simp at hLp; linarith
  have hLt : L ≠ ⊤ := ne_top_of_le_ne_top (ENNReal.add_ne_top.2 ⟨ENNReal.ofReal_ne_top, ENNReal.ofReal_ne_top⟩) hLe
  -- integrals
  set I := ∫⁻ t : ℝ, U.indicator F (y + t • c) with hI
  have hJI : ENNReal.ofReal (p + q) * a ≤ I := by
    rw [hJ, hI, ← lintegral_indicator measurableSet_Icc]
    refine lintegral_mono fun t => ?_
    by_cases ht : t ∈ Icc (-q) p
    · rw [indicator_of_mem ht, indicator_of_mem (hin t ht.1 ht.2)]
    · rw [indicator_of_notMem ht]; exact zero_le
  have hIJ : I ≤ ENNReal.ofReal (p + q) * a + ENNReal.ofReal (2 * ε) := by
    rw [hJ, hI, ← lintegral_indicator measurableSet_Icc]
    have hs : ∀ t : ℝ, U.indicator F (y + t • c) ≤ (Icc (-q) p).indicator (fun t => F (y + t • c)) t +
        ((Icc (-q - ε) (-q)).indicator 1 t + (Icc p (p + ε)).indicator 1 t) := by
      intro t
      by_cases hu : y + t • c ∈ U
      · rw [indicator_of_mem hu]
        by_cases ht : t ∈ Icc (-q) p
        · rw [indicator_of_mem ht]; exact le_self_add
        · refine le_trans ?_ (le_add_left le_rfl)
          have := hout t hu
          rcases lt_or_ge t (-q) with h | h
          · rw [indicator_of_mem (show t ∈ Icc (-q - ε) (-q) from ⟨this.1, h.le⟩)]
            exact (h1 _).trans le_self_add
          · have hp : p ≤ t := by by_contra h'; exact ht ⟨h, (not_le.1 h').le⟩
            rw [indicator_of_mem (show t ∈ Icc p (p + ε) from ⟨hp, this.2⟩)]
            exact (h1 _).trans le_add_self
      · rw [indicator_of_notMem hu]; exact zero_le
    refine (lintegral_mono hs).trans (le_of_eq ?_)
    rw [lintegral_add_left (hf.indicator measurableSet_Icc),
      lintegral_add_left (measurable_one.indicator measurableSet_Icc), lintegral_indicator_one measurableSet_Icc,
      lintegral_indicator_one measurableSet_Icc, Real.volume_Icc, Real.volume_Icc, ← ENNReal.ofReal_add (by linarith) (by linarith)]
    congr 2; ring
  -- divide by the length
  have hdiv : ∀ x : ℝ≥0∞, x = L⁻¹ * (L * x) := fun x => by rw [← mul_assoc, ENNReal.inv_mul_cancel hL0 hLt, one_mul]
  have hmean : chordMean U c F y = L⁻¹ * I := rfl
  constructor
  · rw [hmean, mul_comm _ L⁻¹, ← mul_add, hdiv a]
    refine mul_le_mul_right ?_ _
    calc L * a ≤ (ENNReal.ofReal (p + q) + ENNReal.ofReal (2 * ε)) * a := mul_le_mul_left hLe _
      _ = ENNReal.ofReal (p + q) * a + ENNReal.ofReal (2 * ε) * a := add_mul _ _ _
      _ ≤ I + ENNReal.ofReal (2 * ε) := add_le_add hJI (mul_le_of_le_one_right' ha1)
  · rw [hmean, mul_comm _ L⁻¹, hdiv a, ← mul_add]
    refine mul_le_mul_right ?_ _
    exact hIJ.trans (add_le_add (mul_le_mul_left hLp _) le_rfl)

/-- The ideal step, in random directions, leaves the uniform distribution invariant. -/
theorem chordMean_invariant_rand {V : Type} [MeasurableSpace V] (ν : Measure V) [IsProbabilityMeasure ν] {U : Set (Fin d → ℝ)}
    (hU : MeasurableSet U) {c : V → Fin d → ℝ} (hc : Measurable c)
    (hlen : ∀ᵐ v ∂ν, ∀ y ∈ U, lineLen U (c v) y ≠ 0 ∧ lineLen U (c v) y ≠ ⊤)
    {F : (Fin d → ℝ) → ℝ≥0∞} (hF : Measurable F) :
    ∫⁻ y in U, ∫⁻ v, chordMean U (c v) F y ∂ν = ∫⁻ y in U, F y := by
  have mM := measurable_chordMean hU hc hF
  rw [lintegral_lintegral_swap (f := fun y v => chordMean U (c v) F y) mM.aemeasurable]
  have : ∀ᵐ v ∂ν, ∫⁻ y in U, chordMean U (c v) F y = ∫⁻ y in U, F y := by
    filter_upwards [hlen] with v hv
    exact chordMean_invariant hU (c v) (fun y hy => (hv y hy).1) (fun y hy => (hv y hy).2) hF
  rw [lintegral_congr_ae this]
  simp

theorem measurable_chordErr {V : Type} [MeasurableSpace V] {U : Set (Fin d → ℝ)} (hU : MeasurableSet U) {c : V → Fin d → ℝ}
    (hc : Measurable c) (a : ℝ≥0∞) : Measurable fun p : (Fin d → ℝ) × V => a * (lineLen U (c p.2) p.1)⁻¹ :=
  (measurable_lineLen hU hc).inv.const_mul a

/-- The mean error. -/
theorem chordErr_le {V : Type} [MeasurableSpace V] (ν : Measure V) [IsProbabilityMeasure ν] {U W : Set (Fin d → ℝ)}
    (hU : MeasurableSet U) (hW : MeasurableSet W) {c : V → Fin d → ℝ} (hc : Measurable c) {ε h : ℝ} (hε : 0 ≤ ε) (hh : 0 < h)
    (hWl : ∀ᵐ v ∂ν, ∀ y ∈ U, ENNReal.ofReal (2 * h) ≤ lineLen W (c v) y) :
    ∫⁻ y in U, ∫⁻ v, ENNReal.ofReal (2 * ε) * (lineLen U (c v) y)⁻¹ ∂ν ≤ ENNReal.ofReal (ε / h) * volume W := by
  have mK := measurable_chordErr hU hc (ENNReal.ofReal (2 * ε))
  have mL1 : ∀ v, Measurable fun y => (lineLen U (c v) y)⁻¹ := fun v => by
    have := (measurable_lineLen (V := Unit) hU (c := fun _ => c v) measurable_const).inv.comp
      (measurable_id.prodMk (measurable_const (a := ())))
    exact this
  rw [lintegral_lintegral_swap (f := fun y v => ENNReal.ofReal (2 * ε) * (lineLen U (c v) y)⁻¹) mK.aemeasurable]
  have : ∀ᵐ v ∂ν, ∫⁻ y in U, ENNReal.ofReal (2 * ε) * (lineLen U (c v) y)⁻¹ ≤ ENNReal.ofReal (ε / h) * volume W := by
    filter_upwards [hWl] with v hv
    have h3 := lintegral_inv_lineLen hU hW (c v) (ENNReal.ofReal (2 * h)) hv
    rw [lintegral_const_mul _ (mL1 v)]
    have e : ENNReal.ofReal (2 * ε) = ENNReal.ofReal (ε / h) * ENNReal.ofReal (2 * h) := by
      rw [← ENNReal.ofReal_mul (by positivity)]
      congr 1; field_simp
    rw [e, mul_assoc]
    exact mul_le_mul_right h3 _
  refine (lintegral_mono_ae this).trans ?_
  simp

/-- One Hit-and-Run step from the uniform distribution on `U`, in random directions `c v`, when the sampled segments miss
at most `ε` at each end. -/
theorem hitRun_near {V : Type} [MeasurableSpace V] (ν : Measure V) [IsProbabilityMeasure ν] {U W : Set (Fin d → ℝ)}
    (hU : MeasurableSet U) (hW : MeasurableSet W) {c : V → Fin d → ℝ} (hc : Measurable c) {ε h : ℝ} (hε : 0 ≤ ε) (hh : 0 < h)
    (hWl : ∀ᵐ v ∂ν, ∀ y ∈ U, ENNReal.ofReal (2 * h) ≤ lineLen W (c v) y)
    (hlen : ∀ᵐ v ∂ν, ∀ y ∈ U, lineLen U (c v) y ≠ 0 ∧ lineLen U (c v) y ≠ ⊤)
    {F : (Fin d → ℝ) → ℝ≥0∞} (hF : Measurable F) (h1 : ∀ z, F z ≤ 1) (N : (Fin d → ℝ) → V → ℝ≥0∞)
    (hnext : ∀ y ∈ U, ∀ᵐ v ∂ν, ∃ p q : ℝ, 0 < p + q ∧ (∀ t, -q ≤ t → t ≤ p → y + t • c v ∈ U) ∧
      (∀ t, y + t • c v ∈ U → -q - ε ≤ t ∧ t ≤ p + ε) ∧ N y v = ∫⁻ val, F (y + (val * (p + q) - q) • c v) ∂unitLaw) :
    (∫⁻ y in U, ∫⁻ v, N y v ∂ν) ≤ (∫⁻ y in U, F y) + ENNReal.ofReal (ε / h) * volume W ∧
    (∫⁻ y in U, F y) ≤ (∫⁻ y in U, ∫⁻ v, N y v ∂ν) + ENNReal.ofReal (ε / h) * volume W := by
  have hideal := chordMean_invariant_rand ν hU hc hlen hF
  have herr := chordErr_le ν hU hW hc hε hh hWl
  have mK := measurable_chordErr hU hc (ENNReal.ofReal (2 * ε))
  have mE : Measurable fun y => ∫⁻ v, ENNReal.ofReal (2 * ε) * (lineLen U (c v) y)⁻¹ ∂ν := mK.lintegral_prod_right'
  have mE' : ∀ y, Measurable fun v => ENNReal.ofReal (2 * ε) * (lineLen U (c v) y)⁻¹ := fun y => by
    have h2 : Measurable fun v : V => (y, v) := measurable_prodMk_left
    have := mK.comp h2
    exact this
  have hseg : ∀ y ∈ U, ∀ᵐ v ∂ν,
      N y v ≤ chordMean U (c v) F y + ENNReal.ofReal (2 * ε) * (lineLen U (c v) y)⁻¹ ∧
      chordMean U (c v) F y ≤ N y v + ENNReal.ofReal (2 * ε) * (lineLen U (c v) y)⁻¹ := by
    intro y hy
    filter_upwards [hnext y hy] with v hv
    obtain ⟨p, q, hpq, hin, hout, hn⟩ := hv
    rw [hn]
    exact segment_near hU (c v) y hpq hε hin hout hF h1
  constructor
  · have h2 : (∫⁻ y in U, ∫⁻ v, N y v ∂ν) ≤
        ∫⁻ y in U, ((∫⁻ v, chordMean U (c v) F y ∂ν) + ∫⁻ v, ENNReal.ofReal (2 * ε) * (lineLen U (c v) y)⁻¹ ∂ν) := by
      refine setLIntegral_mono' hU fun y hy => ?_
      rw [← lintegral_add_right _ (mE' y)]
      exact lintegral_mono_ae ((hseg y hy).mono fun v hv => hv.1)
    rw [lintegral_add_right _ mE, hideal] at h2
    exact h2.trans (add_le_add le_rfl herr)
  · have h2 : (∫⁻ y in U, ∫⁻ v, chordMean U (c v) F y ∂ν) ≤
        ∫⁻ y in U, ((∫⁻ v, N y v ∂ν) + ∫⁻ v, ENNReal.ofReal (2 * ε) * (lineLen U (c v) y)⁻¹ ∂ν) := by
      refine setLIntegral_mono' hU fun y hy => ?_
      rw [← lintegral_add_right _ (mE' y)]
      exact lintegral_mono_ae ((hseg y hy).mono fun v hv => hv.2)
    rw [lintegral_add_right _ mE, hideal] at h2
    exact h2.trans (add_le_add le_rfl herr)

end PW
