import Verif.Lemmas.Sphere
import Verif.Lemmas.RayMinorize
import Mathlib.MeasureTheory.Function.JacobianOneDim

/-! # The sum of two independent random directions has a density -/

namespace PW
open MeasureTheory ProbabilityTheory Set Matrix
open scoped ENNReal

variable {d : ℕ}

theorem volume_ac_stdNormal (d : ℕ) : (volume : Measure (Fin d → ℝ)) ≪ stdNormal d := by
  rw [stdNormal_eq]
  refine withDensity_absolutelyContinuous' (measurable_gaussDensity _ _).ennreal_ofReal.aemeasurable (ae_of_all _ fun z => ?_)
  have : 0 < gaussDensity 1 0 z := by
    unfold gaussDensity
    rw [det_one, Real.sqrt_one]
    have := Real.pi_pos
    positivity
  simpa using this

theorem stdNormal_ne_zero (hd : 1 ≤ d) : ∀ᵐ z ∂(stdNormal d), z ≠ 0 := by
  have h0 : ∀ᵐ u ∂(volume : Measure (Fin d → ℝ)), u ≠ 0 := by
    have : Nonempty (Fin d) := ⟨⟨0, by omega⟩⟩
    rw [ae_iff]; simp
  rw [stdNormal_eq]
  exact (withDensity_absolutelyContinuous _ _).ae_le h0

/-- A normal variable `t` at height `N` makes an angle with density: the length of the sum of its direction and the horizontal unit
vector is spread over `[1/2, 3/2]`. -/
theorem angle_line : ∃ c : ℝ≥0∞, c ≠ 0 ∧ ∀ N : ℝ, 1 ≤ N → N ≤ 2 → ∀ h : ℝ → ℝ≥0∞, Measurable h →
    c * ∫⁻ r in Icc (1 / 2 : ℝ) (3 / 2), h r ≤ ∫⁻ t, h (Real.sqrt (2 + 2 * ((Real.sqrt (t * t + N * N))⁻¹ * t))) ∂(gaussianReal 0 1) := by
  refine ⟨ENNReal.ofReal ((Real.sqrt (2 * Real.pi))⁻¹ * Real.exp (-32)) * ENNReal.ofReal (1 / 2), ?_, fun N hN1 hN2 h mh => ?_⟩
  · have := Real.pi_pos
    refine mul_ne_zero ?_ (by simp)
    simp only [ne_eq, ENNReal.ofReal_eq_zero, not_le]
    positivity
  set s := Icc (1 / 2 : ℝ) (3 / 2) with hs
  let τ : ℝ → ℝ := fun r => r ^ 2 / 2 - 1
  let q : ℝ → ℝ := fun r => Real.sqrt (1 - τ r ^ 2)
  let ψ : ℝ → ℝ := fun r => N * (τ r / q r)
  have hτ : ∀ r ∈ s, -(7 / 8) ≤ τ r ∧ τ r ≤ 1 / 8 := fun r hr => by
    obtain ⟨h1, h2⟩ := hr
    simp only [τ]
    constructor <;> nlinarith
  have hq2 : ∀ r ∈ s, 15 / 64 ≤ 1 - τ r ^ 2 := fun r hr => by
    have := hτ r hr; nlinarith
  have hq : ∀ r ∈ s, 3 / 8 ≤ q r := fun r hr => by
    refine Real.le_sqrt_of_sq_le ?_
    have := hq2 r hr; nlinarith
  have hqsq : ∀ r ∈ s, q r ^ 2 = 1 - τ r ^ 2 := fun r hr => Real.sq_sqrt (by have := hq2 r hr; linarith)
  have hq1 : ∀ r, q r ≤ 1 := fun r => Real.sqrt_le_one.2 (by have := sq_nonneg (τ r); linarith)
  -- the inverse of the length
  set R : ℝ → ℝ := fun t => Real.sqrt (2 + 2 * ((Real.sqrt (t * t + N * N))⁻¹ * t)) with hR
  have hinv : ∀ r ∈ s, R (ψ r) = r := fun r hr => by
    have hq0 : 0 < q r := by have := hq r hr; linarith
    have h1 : ψ r * ψ r + N * N = (N / q r) ^ 2 := by
      have := hqsq r hr
      simp only [ψ]
      field_simp
      rw [this]; ring
    have h2 : (Real.sqrt (ψ r * ψ r + N * N))⁻¹ * ψ r = τ r := by
      rw [h1, Real.sqrt_sq (by positivity)]
      simp only [ψ]
      have : N ≠ 0 := by linarith
      field_simp
    simp only [hR]
    rw [h2, show 2 + 2 * τ r = r ^ 2 by simp only [τ]; ring, Real.sqrt_sq (by have := hr.1; linarith)]
  have hinj : InjOn ψ s := fun a ha b hb hab => by rw [← hinv a ha, ← hinv b hb, hab]
  have hder : ∀ r ∈ s, HasDerivWithinAt ψ (N * (r / q r ^ 3)) s r := fun r hr => by
    have hq0 : 0 < q r := by have := hq r hr; linarith
    have dτ : HasDerivAt τ r r := by
      have := ((hasDerivAt_pow 2 r).div_const 2).sub_const 1
      refine this.congr_deriv ?_
      simp
    have dq : HasDerivAt q (-(τ r * r) / q r) r := by
      have h1 : HasDerivAt (fun r => 1 - τ r ^ 2) (-(2 * τ r * r)) r := by
        have := (dτ.pow 2).const_sub 1
        refine this.congr_deriv ?_
        simp
      have := h1.sqrt (by have := hq2 r hr; linarith)
      refine this.congr_deriv ?_
      show -(2 * τ r * r) / (2 * q r) = _
      field_simp
    have := (dτ.div dq hq0.ne').const_mul N
    refine (this.congr_deriv ?_).hasDerivWithinAt
    have h3 := hqsq r hr
    have : r * q r - τ r * (-(τ r * r) / q r) = r / q r := by
      field_simp
      rw [h3]; ring
    rw [this]
    field_simp
  have hψ : ∀ r ∈ s, |ψ r| ≤ 8 := fun r hr => by
    have h1 := hq r hr
    have h2 := hτ r hr
    simp only [ψ]
    rw [abs_mul, abs_div, abs_of_pos (show (0 : ℝ) < N by linarith), abs_of_pos (show 0 < q r by linarith), ← mul_div_assoc,
      div_le_iff₀ (by linarith)]
    have h3 : |τ r| ≤ 7 / 8 := abs_le.2 ⟨h2.1, by linarith⟩
    nlinarith [abs_nonneg (τ r)]
  have mR : Measurable fun t => h (R t) := mh.comp (by fun_prop)
  have e1 : ∫⁻ t, h (R t) ∂(gaussianReal 0 1) = ∫⁻ t, gaussianPDF 0 1 t * h (R t) := by
    rw [gaussianReal_of_var_ne_zero 0 one_ne_zero, lintegral_withDensity_eq_lintegral_mul _ (measurable_gaussianPDF 0 1) mR]
    rfl
  show _ ≤ ∫⁻ t, h (R t) ∂(gaussianReal 0 1)
  rw [e1]
  have hpdf : ∀ t, |t| ≤ 8 → ENNReal.ofReal ((Real.sqrt (2 * Real.pi))⁻¹ * Real.exp (-32)) ≤ gaussianPDF 0 1 t := fun t ht => by
    unfold gaussianPDF gaussianPDFReal
    refine ENNReal.ofReal_le_ofReal ?_
    simp only [NNReal.coe_one, mul_one, sub_zero]
    refine mul_le_mul_of_nonneg_left (Real.exp_le_exp.2 ?_) (by positivity)
    have := sq_le_sq' (abs_le.1 ht).1 (abs_le.1 ht).2
    linarith
  have mim : MeasurableSet (ψ '' s) :=
    measurable_image_of_fderivWithin measurableSet_Icc (fun r hr => (hder r hr).hasFDerivWithinAt) hinj
  calc ENNReal.ofReal ((Real.sqrt (2 * Real.pi))⁻¹ * Real.exp (-32)) * ENNReal.ofReal (1 / 2) * ∫⁻ r in s, h r
      = ENNReal.ofReal ((Real.sqrt (2 * Real.pi))⁻¹ * Real.exp (-32)) * ∫⁻ r in s, ENNReal.ofReal (1 / 2) * h r := by
        rw [mul_assoc, lintegral_const_mul _ mh]
    _ ≤ ENNReal.ofReal ((Real.sqrt (2 * Real.pi))⁻¹ * Real.exp (-32)) * ∫⁻ r in s, ENNReal.ofReal |N * (r / q r ^ 3)| * h (R (ψ r)) := by
        refine mul_le_mul_right (setLIntegral_mono' measurableSet_Icc fun r hr => ?_) _
        rw [hinv r hr]
        refine mul_le_mul_left (ENNReal.ofReal_le_ofReal ?_) _
        have h1 := hq r hr
        have hq0 : 0 < q r := by linarith
        have h2 : q r ^ 3 ≤ 1 := pow_le_one₀ hq0.le (hq1 r)
        have h3 : r ≤ r / q r ^ 3 := by
          rw [le_div_iff₀ (by positivity)]
          have := hr.1; nlinarith
        refine le_trans ?_ (le_abs_self _)
        have := hr.1
        nlinarith
    _ = ENNReal.ofReal ((Real.sqrt (2 * Real.pi))⁻¹ * Real.exp (-32)) * ∫⁻ t in ψ '' s, h (R t) := by
        rw [lintegral_image_eq_lintegral_abs_deriv_mul measurableSet_Icc hder hinj]
    _ = ∫⁻ t in ψ '' s, ENNReal.ofReal ((Real.sqrt (2 * Real.pi))⁻¹ * Real.exp (-32)) * h (R t) := (lintegral_const_mul _ mR).symm
    _ ≤ ∫⁻ t in ψ '' s, gaussianPDF 0 1 t * h (R t) := by
        refine setLIntegral_mono' mim fun t ht => ?_
        obtain ⟨r, hr, rfl⟩ := ht
        exact mul_le_mul_left (hpdf _ (hψ r hr)) _
    _ ≤ _ := setLIntegral_le_lintegral _ _

/-- The angle between a random direction and a fixed one. -/
theorem angle_minorize (hd : 2 ≤ d) : ∃ c : ℝ≥0∞, c ≠ 0 ∧ ∀ a : Fin d → ℝ, len a = 1 → ∀ h : ℝ → ℝ≥0∞, Measurable h →
    c * ∫⁻ r in Icc (1 / 2 : ℝ) (3 / 2), h r ≤ ∫⁻ z, h (Real.sqrt (2 + 2 * (hat z ⬝ᵥ a))) ∂(stdNormal d) := by
  obtain ⟨k, rfl⟩ : ∃ k, d = k + 1 := ⟨d - 1, by omega⟩
  obtain ⟨c, hc, hline⟩ := angle_line
  let S : Set (Fin k → ℝ) := {y | 1 ≤ len y ∧ len y ≤ 2}
  have hS : MeasurableSet S := (measurableSet_le measurable_const measurable_len).inter (measurableSet_le measurable_len measurable_const)
  have hSpos : stdNormal k S ≠ 0 := by
    intro h0
    have h1 := volume_ac_stdNormal k h0
    have clen : Continuous (len (d := k)) := Real.continuous_sqrt.comp (Continuous.dotProduct continuous_id continuous_id)
    have hopen : IsOpen {y : Fin k → ℝ | 1 < len y ∧ len y < 2} :=
      (isOpen_lt continuous_const clen).inter (isOpen_lt clen continuous_const)
    have hne : ({y : Fin k → ℝ | 1 < len y ∧ len y < 2}).Nonempty := by
      refine ⟨Pi.single (⟨0, by omega⟩ : Fin k) (3 / 2 : ℝ), ?_⟩
      have : len (Pi.single (⟨0, by omega⟩ : Fin k) (3 / 2 : ℝ) : Fin k → ℝ) = 3 / 2 := by
        unfold len
        rw [single_dotProduct, Pi.single_eq_same, Real.sqrt_mul_self (by norm_num)]
      show 1 < len _ ∧ len _ < 2
      rw [this]; norm_num
    exact hopen.measure_ne_zero volume hne
      (measure_mono_null (show {y : Fin k → ℝ | 1 < len y ∧ len y < 2} ⊆ S from fun y hy => ⟨hy.1.le, hy.2.le⟩) h1)
  refine ⟨stdNormal k S * c, mul_ne_zero hSpos hc, fun a ha h mh => ?_⟩
  have m0 : Measurable fun t : ℝ => h (Real.sqrt (2 + 2 * t)) := mh.comp (by fun_prop)
  have hE0 : len (Pi.single (0 : Fin (k + 1)) (1 : ℝ)) = 1 := by
    unfold len
    rw [single_dotProduct, Pi.single_eq_same, mul_one, Real.sqrt_one]
  rw [lintegral_dot_hat m0 (ha.trans hE0.symm)]
  have hp := (measurePreserving_piFinSuccAbove (fun _ : Fin (k + 1) => gaussianReal 0 1) 0).symm
  have m1 : Measurable fun z : Fin (k + 1) → ℝ => h (Real.sqrt (2 + 2 * (hat z ⬝ᵥ Pi.single 0 1))) :=
    m0.comp ((Continuous.dotProduct continuous_id continuous_const).measurable.comp measurable_hat)
  have e : ∀ p : ℝ × (Fin k → ℝ), hat ((MeasurableEquiv.piFinSuccAbove (fun _ : Fin (k + 1) => ℝ) 0).symm p) ⬝ᵥ Pi.single 0 1 =
      (Real.sqrt (p.1 * p.1 + len p.2 * len p.2))⁻¹ * p.1 := by
    intro p
    have hz : (MeasurableEquiv.piFinSuccAbove (fun _ : Fin (k + 1) => ℝ) 0).symm p = Fin.cons p.1 p.2 := by
      simp [MeasurableEquiv.piFinSuccAbove]
      rfl
    rw [hz, dotProduct_single, mul_one, hat, Pi.smul_apply, smul_eq_mul, Fin.cons_zero]
    congr 2
    unfold len
    rw [Real.mul_self_sqrt (dot_self_nonneg _)]
    congr 1
    simp [dotProduct, Fin.sum_univ_succ]
  have h1 : ∫⁻ z, h (Real.sqrt (2 + 2 * (hat z ⬝ᵥ Pi.single 0 1))) ∂(stdNormal (k + 1)) =
      ∫⁻ p, h (Real.sqrt (2 + 2 * ((Real.sqrt (p.1 * p.1 + len p.2 * len p.2))⁻¹ * p.1))) ∂((gaussianReal 0 1).prod (stdNormal k)) := by
    unfold stdNormal
    rw [← hp.lintegral_comp m1]
    simp only [e]
  have m2 : Measurable fun p : ℝ × (Fin k → ℝ) =>
      h (Real.sqrt (2 + 2 * ((Real.sqrt (p.1 * p.1 + len p.2 * len p.2))⁻¹ * p.1))) := by
    have : Measurable fun p : ℝ × (Fin k → ℝ) => len p.2 := measurable_len.comp measurable_snd
    refine mh.comp (Real.continuous_sqrt.measurable.comp (measurable_const.add (measurable_const.mul (Measurable.mul ?_ measurable_fst))))
    exact (Real.continuous_sqrt.measurable.comp ((measurable_fst.mul measurable_fst).add (this.mul this))).inv
  rw [h1, lintegral_prod_symm _ m2.aemeasurable]
  calc stdNormal k S * c * ∫⁻ r in Icc (1 / 2 : ℝ) (3 / 2), h r = ∫⁻ _ in S, (c * ∫⁻ r in Icc (1 / 2 : ℝ) (3 / 2), h r) ∂(stdNormal k) := by
        rw [setLIntegral_const]; ring
    _ ≤ ∫⁻ y in S, ∫⁻ t, h (Real.sqrt (2 + 2 * ((Real.sqrt (t * t + len y * len y))⁻¹ * t))) ∂(gaussianReal 0 1) ∂(stdNormal k) :=
        setLIntegral_mono' hS fun y hy => hline (len y) hy.1 hy.2 h mh
    _ ≤ _ := setLIntegral_le_lintegral _ _

/-- **Two random directions**: the law of their sum has a density that is bounded below on `1/2 ≤ |w| ≤ 3/2`. -/
theorem two_step (hd : 2 ≤ d) : ∃ a : ℝ≥0∞, a ≠ 0 ∧ ∀ G : (Fin d → ℝ) → ℝ≥0∞, Measurable G →
    (∀ w, G w ≠ 0 → 1 / 2 ≤ len w ∧ len w ≤ 3 / 2) →
    a * ∫⁻ w, G w ≤ ∫⁻ v, ∫⁻ v', G (hat v + hat v') ∂(stdNormal d) ∂(stdNormal d) := by
  obtain ⟨c, hc, hangle⟩ := angle_minorize hd
  have hne := stdNormal_ne_zero (d := d) (by omega)
  set c₁ := ENNReal.ofReal (Real.sqrt (1 : Matrix (Fin d) (Fin d) ℝ).det * (Real.sqrt (2 * Real.pi))⁻¹ ^ d * Real.exp (-1 / 2)) with hc₁
  set c₃ := c₁ * ENNReal.ofReal ((2 ^ (d + 1) * (3 / 2 : ℝ) ^ (d - 1))⁻¹) with hc₃
  have hc₃0 : c₃ ≠ 0 := by
    have := Real.pi_pos
    refine mul_ne_zero ?_ ?_
    · rw [hc₁, det_one, Real.sqrt_one]
      simp only [ne_eq, ENNReal.ofReal_eq_zero, not_le]
      positivity
    · simp only [ne_eq, ENNReal.ofReal_eq_zero, not_le]
      positivity
  refine ⟨c * (c₃ * 2⁻¹), mul_ne_zero hc (mul_ne_zero hc₃0 (by simp)), fun G mG hsupp => ?_⟩
  have msum : Measurable fun p : (Fin d → ℝ) × (Fin d → ℝ) => hat p.1 + hat p.2 :=
    (measurable_hat.comp measurable_fst).add (measurable_hat.comp measurable_snd)
  set μ := ((stdNormal d).prod (stdNormal d)).map fun p => hat p.1 + hat p.2 with hμ
  have : IsProbabilityMeasure μ := Measure.isProbabilityMeasure_map msum.aemeasurable
  have hrot : RotInvariant μ := by
    intro Q h1 h2
    have h3 : ((stdNormal d).prod (stdNormal d)).map (Prod.map (fun v => Q *ᵥ v) fun v => Q *ᵥ v) = (stdNormal d).prod (stdNormal d) := by
      rw [← Measure.map_prod_map _ _ (measurable_mulVec Q) (measurable_mulVec Q), stdNormal_rot h1]
    have e : (fun v => Q *ᵥ v) ∘ (fun p : (Fin d → ℝ) × (Fin d → ℝ) => hat p.1 + hat p.2) =
        (fun p => hat p.1 + hat p.2) ∘ Prod.map (fun v => Q *ᵥ v) fun v => Q *ᵥ v := by
      funext p
      simp only [Function.comp_apply, Prod.map_fst, Prod.map_snd]
      rw [Matrix.mulVec_add, hat_rot h2, hat_rot h2]
    rw [hμ, Measure.map_map (measurable_mulVec Q) msum, e, ← Measure.map_map msum
      ((measurable_mulVec Q).prodMap (measurable_mulVec Q)), h3]
  have mp : Measurable fun p : (Fin d → ℝ) × (Fin d → ℝ) => len p.1 • hat p.2 :=
    (measurable_len.comp measurable_fst).smul (measurable_hat.comp measurable_snd)
  have e1 : ∫⁻ v, ∫⁻ v', G (hat v + hat v') ∂(stdNormal d) ∂(stdNormal d) =
      ∫⁻ z, ∫⁻ v, ∫⁻ v', G (len (hat v + hat v') • hat z) ∂(stdNormal d) ∂(stdNormal d) ∂(stdNormal d) := by
    have h1 : ∫⁻ v, ∫⁻ v', G (hat v + hat v') ∂(stdNormal d) ∂(stdNormal d) = ∫⁻ w, G w ∂μ := by
      rw [hμ, lintegral_map mG msum]
      exact (lintegral_prod (fun p : (Fin d → ℝ) × (Fin d → ℝ) => G (hat p.1 + hat p.2)) (mG.comp msum).aemeasurable).symm
    have h2 : ∫⁻ w, G w ∂μ = ∫⁻ z, ∫⁻ w, G (len w • hat z) ∂μ ∂(stdNormal d) := by
      conv_lhs => rw [polar (by omega) hrot]
      rw [lintegral_map mG mp]
      exact lintegral_prod_symm (fun p : (Fin d → ℝ) × (Fin d → ℝ) => G (len p.1 • hat p.2)) (mG.comp mp).aemeasurable
    rw [h1, h2]
    refine lintegral_congr fun z => ?_
    have mz : Measurable fun w : Fin d → ℝ => G (len w • hat z) := mG.comp (measurable_len.smul_const _)
    rw [hμ, lintegral_map mz msum]
    exact lintegral_prod (fun p : (Fin d → ℝ) × (Fin d → ℝ) => G (len (hat p.1 + hat p.2) • hat z)) (mz.comp msum).aemeasurable
  rw [e1]
  have e2 : ∀ z, c * ∫⁻ r in Icc (1 / 2 : ℝ) (3 / 2), G (r • hat z) ≤
      ∫⁻ v, ∫⁻ v', G (len (hat v + hat v') • hat z) ∂(stdNormal d) ∂(stdNormal d) := by
    intro z
    have mz : Measurable fun r : ℝ => G (r • hat z) := mG.comp (measurable_id.smul_const _)
    calc c * ∫⁻ r in Icc (1 / 2 : ℝ) (3 / 2), G (r • hat z) = ∫⁻ _, (c * ∫⁻ r in Icc (1 / 2 : ℝ) (3 / 2), G (r • hat z)) ∂(stdNormal d) := by
          simp
      _ ≤ _ := by
        refine lintegral_mono_ae ?_
        filter_upwards [hne] with v hv
        refine (hangle (hat v) (len_hat hv) _ mz).trans (le_of_eq (lintegral_congr_ae ?_))
        filter_upwards [hne] with v' hv'
        have : Real.sqrt (2 + 2 * (hat v' ⬝ᵥ hat v)) = len (hat v + hat v') := by
          unfold len
          congr 1
          rw [dotProduct_add, add_dotProduct, add_dotProduct, ← len_sq (hat v), ← len_sq (hat v'), len_hat hv, len_hat hv',
            dotProduct_comm (hat v) (hat v')]
          ring
        rw [this]
  have mI : Measurable fun z : Fin d → ℝ => ∫⁻ r in Icc (1 / 2 : ℝ) (3 / 2), G (r • hat z) := by
    have : Measurable fun p : (Fin d → ℝ) × ℝ => G (p.2 • hat p.1) :=
      mG.comp (measurable_snd.smul (measurable_hat.comp measurable_fst))
    exact this.lintegral_prod_right'
  refine le_trans ?_ (lintegral_mono e2)
  rw [lintegral_const_mul _ mI, mul_assoc]
  refine mul_le_mul_right ?_ _
  -- both halves of the line contribute the same
  have hray := ray_minorize (d := d) (N := len) measurable_len (fun a w ha => by rw [len_smul, abs_of_nonneg ha]) (fun w hw => len_pos hw)
    (f := fun w => ENNReal.ofReal (gaussDensity 1 0 w)) (c₁ := c₁)
    (fun w hw => ENNReal.ofReal_le_ofReal (gaussDensity_lower (by
      rw [Matrix.one_mulVec, ← len_sq]
      have := len_nonneg w
      nlinarith))) (by omega) (D := 3 / 2) mG 0 (fun z hz => by rw [zero_add] at hz; exact (hsupp z hz).2)
  have e3 : ∫⁻ w, ENNReal.ofReal (gaussDensity 1 0 w) * ∫⁻ s : ℝ, G (0 + s • (len w)⁻¹ • w) =
      ∫⁻ z, (∫⁻ s : ℝ, G (s • hat z)) ∂(stdNormal d) := by
    have mL : Measurable fun z : Fin d → ℝ => ∫⁻ s : ℝ, G (s • hat z) := by
      have : Measurable fun p : (Fin d → ℝ) × ℝ => G (p.2 • hat p.1) :=
        mG.comp (measurable_snd.smul (measurable_hat.comp measurable_fst))
      exact this.lintegral_prod_right'
    rw [stdNormal_eq]
    unfold gaussLaw
    rw [lintegral_withDensity_eq_lintegral_mul _ (measurable_gaussDensity _ _).ennreal_ofReal mL]
    refine lintegral_congr fun w => ?_
    simp only [Pi.mul_apply, zero_add]
    rfl
  rw [e3] at hray
  have e4 : ∫⁻ z, (∫⁻ s : ℝ, G (s • hat z)) ∂(stdNormal d) ≤ 2 * ∫⁻ z, (∫⁻ r in Icc (1 / 2 : ℝ) (3 / 2), G (r • hat z)) ∂(stdNormal d) := by
    have hneg : ∫⁻ z, (∫⁻ r in Icc (1 / 2 : ℝ) (3 / 2), G (r • hat (-z))) ∂(stdNormal d) =
        ∫⁻ z, (∫⁻ r in Icc (1 / 2 : ℝ) (3 / 2), G (r • hat z)) ∂(stdNormal d) := by
      rw [← lintegral_rot (Q := -1) (by simp) mI]
      refine lintegral_congr fun z => ?_
      rw [Matrix.neg_mulVec, Matrix.one_mulVec]
    rw [two_mul]
    conv_rhs => rw [← hneg]
    rw [hneg]
    nth_rewrite 2 [← hneg]
    rw [← lintegral_add_left mI]
    refine lintegral_mono_ae ?_
    filter_upwards [hne] with z hz
    have hl : ∀ s : ℝ, G (s • hat z) ≠ 0 → 1 / 2 ≤ |s| ∧ |s| ≤ 3 / 2 := fun s hs => by
      have := hsupp _ hs
      rwa [len_smul, len_hat hz, mul_one] at this
    have hn : hat (-z) = -hat z := by rw [hat, hat, len_neg, smul_neg]
    have mz : Measurable fun r : ℝ => G (r • hat z) := mG.comp (measurable_id.smul_const _)
    have e5 : ∫⁻ r in Icc (1 / 2 : ℝ) (3 / 2), G (r • hat (-z)) = ∫⁻ r in Icc (-(3 / 2) : ℝ) (-(1 / 2)), G (r • hat z) := by
      have h1 := (Measure.measurePreserving_neg (volume : Measure ℝ)).setLIntegral_comp_preimage
        (measurableSet_Icc (a := (-(3 / 2) : ℝ)) (b := -(1 / 2))) mz
      rw [← h1]
      have h2 : (Neg.neg ⁻¹' Icc (-(3 / 2) : ℝ) (-(1 / 2))) = Icc (1 / 2) (3 / 2) := by
        ext t; simp only [mem_preimage, mem_Icc, neg_le_neg_iff]; tauto
      rw [h2]
      refine lintegral_congr fun r => ?_
      rw [hn, smul_neg, neg_smul]
    rw [e5, ← lintegral_union measurableSet_Icc]
    · rw [← setLIntegral_univ, ← lintegral_indicator MeasurableSet.univ, ← lintegral_indicator (measurableSet_Icc.union measurableSet_Icc)]
      refine lintegral_mono fun s => ?_
      rw [indicator_of_mem (mem_univ s)]
      by_cases h0 : G (s • hat z) = 0
      · rw [h0]; exact zero_le
      obtain ⟨h1, h2⟩ := hl s h0
      rw [indicator_of_mem]
      rcases abs_cases s with ⟨ha, hb⟩ | ⟨ha, hb⟩
      · left; exact ⟨by linarith, by linarith⟩
      · right; exact ⟨by linarith, by linarith⟩
    · rw [Set.disjoint_left]
      intro t h1 h2
      have := h1.1; have := h2.2
      linarith
  calc c₃ * 2⁻¹ * ∫⁻ w, G w = 2⁻¹ * (c₃ * ∫⁻ w, G w) := by ring
    _ ≤ 2⁻¹ * (2 * ∫⁻ z, (∫⁻ r in Icc (1 / 2 : ℝ) (3 / 2), G (r • hat z)) ∂(stdNormal d)) := mul_le_mul_right (hray.trans e4) _
    _ = _ := by rw [← mul_assoc, ENNReal.inv_mul_cancel (by simp) (by simp), one_mul]

end PW
