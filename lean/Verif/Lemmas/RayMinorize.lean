import Verif.Lemmas.ChordLaw

/-! # A random line through a point reaches every set -/

namespace PW
open MeasureTheory Set
open scoped ENNReal

variable {d : ℕ}

/-- Change of scale on `ℝᵈ`. -/
theorem lintegral_smul_space {H : (Fin d → ℝ) → ℝ≥0∞} (hH : Measurable H) {τ : ℝ} (hτ : 0 < τ) :
    ∫⁻ w, H (τ • w) = ENNReal.ofReal ((τ ^ d)⁻¹) * ∫⁻ z, H z := by
  have h := Measure.map_addHaar_smul (volume : Measure (Fin d → ℝ)) hτ.ne'
  have e : ∫⁻ w, H (τ • w) = ∫⁻ z, H z ∂(Measure.map (fun w : Fin d → ℝ => τ • w) volume) :=
    (lintegral_map hH (measurable_const_smul τ)).symm
  rw [e, h, lintegral_smul_measure, Module.finrank_fin_fun, abs_of_pos (by positivity), smul_eq_mul]

/-- Change of scale on `ℝ`. -/
theorem lintegral_mul_line {H : ℝ → ℝ≥0∞} (hH : Measurable H) {a : ℝ} (ha : 0 < a) :
    ∫⁻ s, H s = ENNReal.ofReal a * ∫⁻ τ, H (τ * a) := by
  have h := Real.smul_map_volume_mul_right ha.ne'
  have e : ∫⁻ τ, H (τ * a) = ∫⁻ z, H z ∂(Measure.map (· * a) volume) :=
    (lintegral_map hH (measurable_mul_const a)).symm
  rw [e]
  conv_lhs => rw [← h]
  rw [lintegral_smul_measure, abs_of_pos ha, smul_eq_mul]

/-- The line through `y` in the direction of a random vector with a density `f` that is at least `c₁` near the origin
meets a bounded set with at least proportional length. `N` measures the length of vectors. -/
theorem ray_minorize {N : (Fin d → ℝ) → ℝ} (hNm : Measurable N) (hNs : ∀ (a : ℝ) w, 0 ≤ a → N (a • w) = a * N w)
    (hNp : ∀ w, w ≠ 0 → 0 < N w) {f : (Fin d → ℝ) → ℝ≥0∞} {c₁ : ℝ≥0∞}
    (hc₁ : ∀ w, N w ≤ 1 → c₁ ≤ f w) (hd : 1 ≤ d) {D : ℝ}
    {G : (Fin d → ℝ) → ℝ≥0∞} (hG : Measurable G) (y : Fin d → ℝ) (hD : ∀ z, G (y + z) ≠ 0 → N z ≤ D) :
    c₁ * ENNReal.ofReal ((2 ^ (d + 1) * D ^ (d - 1))⁻¹) * ∫⁻ z, G z ≤
      ∫⁻ w, f w * ∫⁻ s : ℝ, G (y + s • (N w)⁻¹ • w) := by
  have hne : ∀ᵐ w ∂(volume : Measure (Fin d → ℝ)), w ≠ 0 := by
    have : Nonempty (Fin d) := ⟨⟨0, by omega⟩⟩
    rw [ae_iff]; simp
  let S : Set (Fin d → ℝ) := {w | 1 / 2 ≤ N w ∧ N w ≤ 1}
  have hS : MeasurableSet S := (measurableSet_le measurable_const hNm).inter (measurableSet_le hNm measurable_const)
  -- integrate along the half lines through the shell
  have mJ : Measurable fun p : (Fin d → ℝ) × ℝ => S.indicator (1 : (Fin d → ℝ) → ℝ≥0∞) p.1 * G (y + p.2 • p.1) :=
    ((measurable_one.indicator hS).comp measurable_fst).mul
      (hG.comp (measurable_const.add (measurable_snd.smul measurable_fst)))
  have s1 : c₁ * ENNReal.ofReal (1 / 2) * ∫⁻ w, ∫⁻ τ in Ioi (0 : ℝ), S.indicator (1 : (Fin d → ℝ) → ℝ≥0∞) w * G (y + τ • w) ≤
      ∫⁻ w, f w * ∫⁻ s : ℝ, G (y + s • (N w)⁻¹ • w) := by
    have mI : Measurable fun w => ∫⁻ τ in Ioi (0 : ℝ), S.indicator (1 : (Fin d → ℝ) → ℝ≥0∞) w * G (y + τ • w) :=
      mJ.lintegral_prod_right'
    rw [← lintegral_const_mul _ mI]
    refine lintegral_mono fun w => ?_
    by_cases hw : w ∈ S
    · have hN0 : 0 < N w := by have := hw.1; linarith
      have hmeas : Measurable fun s : ℝ => G (y + s • (N w)⁻¹ • w) := measurable_onLine _ hG y
      have hmeas2 : Measurable fun s : ℝ => G (y + s • w) := measurable_onLine _ hG y
      have e : ∫⁻ s : ℝ, G (y + s • (N w)⁻¹ • w) = ENNReal.ofReal (N w) * ∫⁻ τ : ℝ, G (y + τ • w) := by
        rw [lintegral_mul_line hmeas hN0]
        congr 1
        refine lintegral_congr fun τ => ?_
        rw [smul_smul, mul_assoc, mul_inv_cancel₀ hN0.ne', mul_one]
      rw [e, mul_assoc, indicator_of_mem hw]
      refine mul_le_mul' (hc₁ w hw.2) (mul_le_mul' (ENNReal.ofReal_le_ofReal hw.1) ?_)
      refine (setLIntegral_le_lintegral _ _).trans (le_of_eq ?_)
      simp
    · rw [indicator_of_notMem hw]
      simp
  refine le_trans ?_ s1
  -- exchange the integrals and rescale
  have s2 : ∫⁻ w, ∫⁻ τ in Ioi (0 : ℝ), S.indicator (1 : (Fin d → ℝ) → ℝ≥0∞) w * G (y + τ • w) =
      ∫⁻ z, ∫⁻ τ in Ioi (0 : ℝ), ENNReal.ofReal ((τ ^ d)⁻¹) * (S.indicator (1 : (Fin d → ℝ) → ℝ≥0∞) (τ⁻¹ • z) * G (y + z)) := by
    have mK : Measurable fun p : (Fin d → ℝ) × ℝ =>
        ENNReal.ofReal ((p.2 ^ d)⁻¹) * (S.indicator (1 : (Fin d → ℝ) → ℝ≥0∞) (p.2⁻¹ • p.1) * G (y + p.1)) := by
      refine Measurable.mul ?_ (Measurable.mul ?_ ?_)
      · exact ((measurable_snd.pow_const d).inv).ennreal_ofReal
      · exact (measurable_one.indicator hS).comp (measurable_snd.inv.smul measurable_fst)
      · exact hG.comp (measurable_const.add measurable_fst)
    rw [lintegral_lintegral_swap (f := fun w τ => S.indicator (1 : (Fin d → ℝ) → ℝ≥0∞) w * G (y + τ • w)) mJ.aemeasurable,
      lintegral_lintegral_swap (f := fun z τ =>
        ENNReal.ofReal ((τ ^ d)⁻¹) * (S.indicator (1 : (Fin d → ℝ) → ℝ≥0∞) (τ⁻¹ • z) * G (y + z))) mK.aemeasurable]
    refine setLIntegral_congr_fun measurableSet_Ioi fun τ hτ => ?_
    have hτ0 : (0 : ℝ) < τ := hτ
    have mH : Measurable fun z => S.indicator (1 : (Fin d → ℝ) → ℝ≥0∞) (τ⁻¹ • z) * G (y + z) :=
      ((measurable_one.indicator hS).comp (measurable_const_smul τ⁻¹)).mul (hG.comp (measurable_const.add measurable_id))
    have := lintegral_smul_space mH hτ0
    show ∫⁻ w, S.indicator (1 : (Fin d → ℝ) → ℝ≥0∞) w * G (y + τ • w) = ∫⁻ z, _ * (_ * _)
    rw [lintegral_const_mul _ mH, ← this]
    refine lintegral_congr fun w => ?_
    rw [smul_smul, inv_mul_cancel₀ hτ0.ne', one_smul]
  rw [s2]
  have s3 : ∫⁻ z, G z = ∫⁻ z, G (y + z) := (lintegral_add_left_eq_self (fun z => G z) y).symm
  have hconst : c₁ * ENNReal.ofReal ((2 ^ (d + 1) * D ^ (d - 1))⁻¹) * ∫⁻ z, G z =
      c₁ * ENNReal.ofReal (1 / 2) * ∫⁻ z, ENNReal.ofReal ((2 ^ d * D ^ (d - 1))⁻¹) * G (y + z) := by
    have mGy : Measurable fun z => G (y + z) := hG.comp (measurable_const.add measurable_id)
    rw [lintegral_const_mul _ mGy, ← s3, mul_assoc, mul_assoc, ← mul_assoc
      (ENNReal.ofReal (1 / 2)), ← ENNReal.ofReal_mul (by norm_num)]
    congr 3
    rw [pow_succ, mul_right_comm, mul_inv]
    ring
  rw [hconst]
  refine mul_le_mul_right ?_ _
  refine lintegral_mono_ae ?_
  filter_upwards [hne] with z hz
  by_cases h0 : G (y + z) = 0
  · simp [h0]
  have hNz := hNp z hz
  have hNzD := hD z h0
  have hD0 : 0 < D := hNz.trans_le hNzD
  -- the scales at which `z` comes from the shell
  have hsub : ∀ τ ∈ Icc (N z) (2 * N z), ENNReal.ofReal (((2 * N z) ^ d)⁻¹) * G (y + z) ≤
      ENNReal.ofReal ((τ ^ d)⁻¹) * (S.indicator (1 : (Fin d → ℝ) → ℝ≥0∞) (τ⁻¹ • z) * G (y + z)) := by
    intro τ hτ
    have hτ0 : 0 < τ := hNz.trans_le hτ.1
    have hin : τ⁻¹ • z ∈ S := by
      have e : N (τ⁻¹ • z) = τ⁻¹ * N z := hNs _ _ (by positivity)
      show 1 / 2 ≤ N (τ⁻¹ • z) ∧ N (τ⁻¹ • z) ≤ 1
      rw [e, inv_mul_eq_div, le_div_iff₀ hτ0, div_le_one hτ0]
      exact ⟨by linarith [hτ.2], hτ.1⟩
    rw [indicator_of_mem hin, Pi.one_apply, one_mul]
    refine mul_le_mul' (ENNReal.ofReal_le_ofReal ?_) le_rfl
    exact inv_anti₀ (by positivity) (pow_le_pow_left₀ hτ0.le hτ.2 d)
  have hdpow : ∀ a : ℝ, a ^ d = a ^ (d - 1) * a := fun a => by rw [← pow_succ]; congr 1; omega
  calc ENNReal.ofReal ((2 ^ d * D ^ (d - 1))⁻¹) * G (y + z)
      ≤ ENNReal.ofReal (N z) * (ENNReal.ofReal (((2 * N z) ^ d)⁻¹) * G (y + z)) := by
        rw [← mul_assoc, ← ENNReal.ofReal_mul hNz.le]
        refine mul_le_mul' (ENNReal.ofReal_le_ofReal ?_) le_rfl
        have e : N z * ((2 * N z) ^ d)⁻¹ = (2 ^ d * N z ^ (d - 1))⁻¹ := by
          rw [mul_pow, hdpow (N z)]
          field_simp
        rw [e]
        exact inv_anti₀ (by positivity) (mul_le_mul_of_nonneg_left (pow_le_pow_left₀ hNz.le hNzD _) (by positivity))
    _ = ∫⁻ _ in Icc (N z) (2 * N z), ENNReal.ofReal (((2 * N z) ^ d)⁻¹) * G (y + z) := by
        rw [setLIntegral_const, Real.volume_Icc, mul_comm]
        congr 2; ring
    _ ≤ ∫⁻ τ in Icc (N z) (2 * N z),
          ENNReal.ofReal ((τ ^ d)⁻¹) * (S.indicator (1 : (Fin d → ℝ) → ℝ≥0∞) (τ⁻¹ • z) * G (y + z)) :=
        setLIntegral_mono' measurableSet_Icc hsub
    _ ≤ _ := lintegral_mono_set fun τ hτ => hNz.trans_le hτ.1

/-- One Hit-and-Run step from any point of `U` reaches every subset of `T₀` with at least proportional probability, if
`T₀` is at distance at least `ε` from the complement of `U`. -/
theorem hitRun_minorize {V : Type} [MeasurableSpace V] (ν : Measure V) {U T₀ : Set (Fin d → ℝ)}
    {N : (Fin d → ℝ) → ℝ} (hNm : Measurable N) (hNs : ∀ (a : ℝ) w, 0 ≤ a → N (a • w) = a * N w)
    (hNp : ∀ w, w ≠ 0 → 0 < N w) {f : (Fin d → ℝ) → ℝ≥0∞} (hf : Measurable f) {c₁ : ℝ≥0∞}
    (hc₁ : ∀ w, N w ≤ 1 → c₁ ≤ f w) (hd : 1 ≤ d) {w : V → Fin d → ℝ} (hw : Measurable w)
    (hlaw : ν.map w = volume.withDensity f) {c : V → Fin d → ℝ} (hc : ∀ᵐ v ∂ν, c v = (N (w v))⁻¹ • w v) {D : ℝ}
    (hD0 : 0 < D) (hD : ∀ y ∈ U, ∀ z ∈ U, N (y - z) ≤ D) (hT₀ : MeasurableSet T₀) {ε : ℝ}
    (hmargin : ∀ᵐ v ∂ν, ∀ z ∈ T₀, z + ε • c v ∈ U ∧ z - ε • c v ∈ U) (hT₀U : T₀ ⊆ U)
    {F : (Fin d → ℝ) → ℝ≥0∞} (hF : Measurable F) {y : Fin d → ℝ} (hy : y ∈ U) (Φ : V → ℝ≥0∞)
    (hnext : ∀ᵐ v ∂ν, ∃ p q : ℝ, 0 < p + q ∧ (∀ t, -q ≤ t → t ≤ p → y + t • c v ∈ U) ∧
      (∀ t, y + t • c v ∈ U → -q - ε ≤ t ∧ t ≤ p + ε) ∧ Φ v = ∫⁻ val, F (y + (val * (p + q) - q) • c v) ∂unitLaw) :
    ENNReal.ofReal D⁻¹ * (c₁ * ENNReal.ofReal ((2 ^ (d + 1) * D ^ (d - 1))⁻¹)) * ∫⁻ z in T₀, F z ≤ ∫⁻ v, Φ v ∂ν := by
  have hac : ν.map w ≪ volume := by rw [hlaw]; exact withDensity_absolutelyContinuous _ _
  have hne : ∀ᵐ v ∂ν, w v ≠ 0 := by
    have h0 : ∀ᵐ u ∂(volume : Measure (Fin d → ℝ)), u ≠ 0 := by
      have : Nonempty (Fin d) := ⟨⟨0, by omega⟩⟩
      rw [ae_iff]; simp
    exact ae_of_ae_map hw.aemeasurable (hac.ae_le h0)
  have mG : Measurable (T₀.indicator F) := hF.indicator hT₀
  -- the conditional expectation, given the direction
  have h1 : ∀ᵐ v ∂ν, ENNReal.ofReal D⁻¹ * ∫⁻ s : ℝ, T₀.indicator F (y + s • (N (w v))⁻¹ • w v) ≤ Φ v := by
    filter_upwards [hc, hne, hmargin, hnext] with v hcv hv hmv hnv
    obtain ⟨p, q, hpq, hin, hout, hΦ⟩ := hnv
    rw [← hcv]
    have hNw := hNp _ hv
    have hNc : N (c v) = 1 := by rw [hcv, hNs _ _ (by positivity), inv_mul_cancel₀ hNw.ne']
    have hlen : p + q ≤ D := by
      have := hD _ (hin p (by linarith) le_rfl) _ (hin (-q) le_rfl (by linarith))
      have e : y + p • c v - (y + -q • c v) = (p + q) • c v := by rw [add_smul, neg_smul]; abel
      rwa [e, hNs _ _ hpq.le, hNc, mul_one] at this
    have hfm : Measurable fun t : ℝ => F (y + t • c v) := measurable_onLine _ hF y
    have hseg := unit_segment hpq hfm
    have hle : ∫⁻ s : ℝ, T₀.indicator F (y + s • c v) ≤ ENNReal.ofReal D * Φ v := by
      calc ∫⁻ s : ℝ, T₀.indicator F (y + s • c v) ≤ ∫⁻ t in Icc (-q) p, F (y + t • c v) := by
            rw [← lintegral_indicator measurableSet_Icc]
            refine lintegral_mono fun t => ?_
            by_cases ht : y + t • c v ∈ T₀
            · obtain ⟨ha, hb⟩ := hmv _ ht
              have e1 : y + t • c v + ε • c v = y + (t + ε) • c v := by rw [add_smul, add_assoc]
              have e2 : y + t • c v - ε • c v = y + (t - ε) • c v := by rw [sub_smul, add_sub_assoc]
              rw [e1] at ha
              rw [e2] at hb
              have h2 := (hout _ ha).2
              have h3 := (hout _ hb).1
              rw [indicator_of_mem ht, indicator_of_mem (show t ∈ Icc (-q) p from ⟨by linarith, by linarith⟩)]
            · rw [indicator_of_notMem ht]; exact zero_le
        _ = ENNReal.ofReal (p + q) * Φ v := by rw [hΦ, ← hseg]
        _ ≤ ENNReal.ofReal D * Φ v := mul_le_mul_left (ENNReal.ofReal_le_ofReal hlen) _
    calc ENNReal.ofReal D⁻¹ * ∫⁻ s : ℝ, T₀.indicator F (y + s • c v) ≤ ENNReal.ofReal D⁻¹ * (ENNReal.ofReal D * Φ v) :=
          mul_le_mul_right hle _
      _ = Φ v := by rw [← mul_assoc, ← ENNReal.ofReal_mul (by positivity), inv_mul_cancel₀ hD0.ne', ENNReal.ofReal_one, one_mul]
  refine le_trans ?_ (lintegral_mono_ae h1)
  have mL : Measurable fun u : Fin d → ℝ => ∫⁻ s : ℝ, T₀.indicator F (y + s • (N u)⁻¹ • u) := by
    have : Measurable fun p : (Fin d → ℝ) × ℝ => T₀.indicator F (y + p.2 • (N p.1)⁻¹ • p.1) :=
      mG.comp (measurable_const.add (measurable_snd.smul ((hNm.comp measurable_fst).inv.smul measurable_fst)))
    exact this.lintegral_prod_right'
  have mL' : Measurable fun v => ∫⁻ s : ℝ, T₀.indicator F (y + s • (N (w v))⁻¹ • w v) := mL.comp hw
  rw [lintegral_const_mul _ mL', mul_assoc]
  refine mul_le_mul_right ?_ _
  have e : (∫⁻ v, (∫⁻ s : ℝ, T₀.indicator F (y + s • (N (w v))⁻¹ • w v)) ∂ν) =
      ∫⁻ u, f u * ∫⁻ s : ℝ, T₀.indicator F (y + s • (N u)⁻¹ • u) := by
    rw [← lintegral_map mL hw, hlaw, lintegral_withDensity_eq_lintegral_mul _ hf mL]
    rfl
  rw [e, ← lintegral_indicator hT₀]
  refine ray_minorize hNm hNs hNp hc₁ hd mG y fun z hz => ?_
  have hz' : y + z ∈ T₀ := by
    by_contra h
    exact hz (indicator_of_notMem h _)
  have := hD _ (hT₀U hz') _ hy
  rwa [add_sub_cancel_left] at this

/-- A Gaussian density is bounded below near its mean. -/
theorem gaussDensity_lower {P : Matrix (Fin d) (Fin d) ℝ} {z : Fin d → ℝ} (hz : z ⬝ᵥ P.mulVec z ≤ 1) :
    Real.sqrt P.det * (Real.sqrt (2 * Real.pi))⁻¹ ^ d * Real.exp (-1 / 2) ≤ gaussDensity P 0 z := by
  unfold gaussDensity
  rw [sub_zero]
  refine mul_le_mul_of_nonneg_left (Real.exp_le_exp.2 ?_) (by positivity)
  linarith

end PW
