import Verif.Lemmas.Plane
import Verif.Props.DenseBarrierLaw
import Mathlib.Analysis.SpecialFunctions.Pow.Asymptotics
import Mathlib.Analysis.SpecialFunctions.Integrals.Basic

/-!
# A dense barrier walk on a parallelogram does not leave the uniform distribution invariant

Near the wall `x₀ + x₁ = 1` the walk proposes along the second coordinate axis instead of along the wall. From a strip of width
`t` at the wall it leaves with a probability bounded below, but it enters the strip with probability `o(t)`.
-/

namespace PW
open Matrix MeasureTheory Set Filter
open scoped ENNReal Topology

/-- Distances to the two walls of a unit interval, squared and inverted. -/
noncomputable def wallTerm (y : ℝ) : ℝ := 1 / (1 - y) ^ 2 + 1 / y ^ 2

/-- A metric field on the parallelogram comparable to the Dikin metric. -/
structure ParaField (Φ : MetricField 2) (p q : (Fin 2 → ℝ) → ℝ) : Prop where
  hess : ∀ x ∈ Interior paraA paraB, Φ.H x = !![p x, p x; p x, p x + q x]
  p_lo : ∀ x ∈ Interior paraA paraB, 1 / 2 * wallTerm (x 0 + x 1) ≤ p x
  p_hi : ∀ x ∈ Interior paraA paraB, p x ≤ 3 / 2 * wallTerm (x 0 + x 1)
  q_lo : ∀ x ∈ Interior paraA paraB, 1 / 2 * wallTerm (x 1) ≤ q x
  q_hi : ∀ x ∈ Interior paraA paraB, q x ≤ 3 / 2 * wallTerm (x 1)

theorem wallTerm_ge {y : ℝ} (h0 : 0 < y) (h1 : y < 1) : 8 ≤ wallTerm y := by
  unfold wallTerm
  have h2 : 0 < 1 - y := by linarith
  rw [div_add_div _ _ (by positivity) (by positivity), le_div_iff₀ (by positivity)]
  have e : y * (1 - y) ≤ 1 / 4 := by nlinarith [sq_nonneg (y - 1 / 2)]
  have e0 : 0 < y * (1 - y) := mul_pos h0 h2
  have e3 : (1 - y) ^ 2 * y ^ 2 = (y * (1 - y)) ^ 2 := by ring
  have e4 : 1 * y ^ 2 + (1 - y) ^ 2 * 1 = 1 - 2 * (y * (1 - y)) := by ring
  rw [e3, e4]
  nlinarith

theorem wallTerm_ge_one {y : ℝ} : 1 / (1 - y) ^ 2 ≤ wallTerm y := by
  unfold wallTerm
  have : 0 ≤ 1 / y ^ 2 := by positivity
  linarith

theorem wallTerm_le {y a b : ℝ} (ha : 0 < a) (hb : 0 < b) (h0 : a ≤ y) (h1 : b ≤ 1 - y) :
    wallTerm y ≤ 1 / b ^ 2 + 1 / a ^ 2 := by
  unfold wallTerm
  exact add_le_add (one_div_le_one_div_of_le (by positivity) (pow_le_pow_left₀ hb.le h1 2))
    (one_div_le_one_div_of_le (by positivity) (pow_le_pow_left₀ ha.le h0 2))

namespace ParaField
variable {Φ : MetricField 2} {p q : (Fin 2 → ℝ) → ℝ} (h : ParaField Φ p q)
include h

theorem p_ge {x : Fin 2 → ℝ} (hx : x ∈ Interior paraA paraB) : 4 ≤ p x := by
  obtain ⟨⟨a, b⟩, _⟩ := para_interior.1 hx
  have := h.p_lo x hx
  have := wallTerm_ge a b
  linarith

theorem q_ge {x : Fin 2 → ℝ} (hx : x ∈ Interior paraA paraB) : 4 ≤ q x := by
  obtain ⟨_, a, b⟩ := para_interior.1 hx
  have := h.q_lo x hx
  have := wallTerm_ge a b
  linarith

theorem L_eq {x : Fin 2 → ℝ} (hx : x ∈ Interior paraA paraB) :
    Φ.L x = !![√(p x), 0; √(p x), √(q x)] := by
  have hp := h.p_ge hx
  have hq := h.q_ge hx
  refine IsCholesky.unique (Φ.chol x) ?_
  rw [h.hess x hx]
  exact para_cholesky (by linarith) (by linarith)

theorem prop_eq {D : ℝ} {x : Fin 2 → ℝ} (hx : x ∈ Interior paraA paraB) (ξ : Fin 2 → ℝ) :
    Φ.prop D x ξ 0 = x 0 + √D * (ξ 0 / √(p x)) ∧ Φ.prop D x ξ 1 = x 1 + √D * ((ξ 1 - ξ 0) / √(q x)) := by
  have hp : 0 < √(p x) := Real.sqrt_pos.2 (by linarith [h.p_ge hx])
  have hq : 0 < √(q x) := Real.sqrt_pos.2 (by linarith [h.q_ge hx])
  have hI : (!![√(p x), 0; √(p x), √(q x)] : Matrix (Fin 2) (Fin 2) ℝ)⁻¹ =
      !![1 / √(p x), 0; -(1 / √(q x)), 1 / √(q x)] := by
    refine Matrix.inv_eq_left_inv ?_
    ext i j
    fin_cases i <;> fin_cases j <;> simp [Matrix.mul_apply, Fin.sum_univ_two] <;> field_simp
  unfold MetricField.prop
  rw [h.L_eq hx, hI]
  constructor
  · simp [dotProduct, Fin.sum_univ_two]; ring
  · simp [dotProduct, Fin.sum_univ_two]; ring

theorem logd_eq (D : ℝ) {x : Fin 2 → ℝ} (hx : x ∈ Interior paraA paraB) (z : Fin 2 → ℝ) :
    Φ.logd D x z = Real.log (√(p x) * √(q x)) -
      1 / 2 / D * (p x * ((z 0 + z 1) - (x 0 + x 1)) ^ 2 + q x * (z 1 - x 1) ^ 2) := by
  unfold MetricField.logd denseLogDens
  rw [h.L_eq hx, h.hess x hx, Matrix.det_fin_two_of]
  congr 1
  · congr 1; ring
  · congr 1
    simp [Matrix.mulVec, dotProduct, Fin.sum_univ_two]; ring

end ParaField

/-- The strip of width `t` at the wall. -/
def wallStrip (t : ℝ) : Set (Fin 2 → ℝ) :=
  {x | x 0 + x 1 ∈ Ioo (1 - t) 1 ∧ x 1 ∈ Ioo (7 / 16 : ℝ) (9 / 16)}

theorem measurableSet_wallStrip (t : ℝ) : MeasurableSet (wallStrip t) :=
  (((measurable_pi_apply 0).add (measurable_pi_apply 1)) measurableSet_Ioo).inter
    ((measurable_pi_apply 1) measurableSet_Ioo)

theorem wallStrip_interior {t : ℝ} (ht : t ≤ 1) : wallStrip t ⊆ Interior paraA paraB := by
  rintro x ⟨⟨a, b⟩, c, d⟩
  rw [para_interior]
  exact ⟨⟨by linarith, b⟩, by linarith, by linarith⟩

theorem volume_wallStrip (t : ℝ) : volume (wallStrip t) = ENNReal.ofReal t * ENNReal.ofReal (1 / 8) := by
  rw [← lintegral_indicator_one (measurableSet_wallStrip t)]
  have e : ∀ x : Fin 2 → ℝ, (wallStrip t).indicator (1 : (Fin 2 → ℝ) → ℝ≥0∞) x =
      (Ioo (1 - t) 1).indicator 1 (x 0 + x 1) * (Ioo (7 / 16 : ℝ) (9 / 16)).indicator 1 (x 1) := by
    intro x
    by_cases h1 : x 0 + x 1 ∈ Ioo (1 - t) 1 <;> by_cases h2 : x 1 ∈ Ioo (7 / 16 : ℝ) (9 / 16)
    · rw [indicator_of_mem (show x ∈ wallStrip t from ⟨h1, h2⟩), indicator_of_mem h1, indicator_of_mem h2]; simp
    · rw [indicator_of_notMem (fun hx : x ∈ wallStrip t => h2 hx.2), indicator_of_notMem h2, mul_zero]
    · rw [indicator_of_notMem (fun hx : x ∈ wallStrip t => h1 hx.1), indicator_of_notMem h1, zero_mul]
    · rw [indicator_of_notMem (fun hx : x ∈ wallStrip t => h1 hx.1), indicator_of_notMem h1, zero_mul]
  simp only [e]
  rw [lintegral_shear _ _ (measurable_one.indicator measurableSet_Ioo) (measurable_one.indicator measurableSet_Ioo),
    lintegral_indicator_one measurableSet_Ioo, lintegral_indicator_one measurableSet_Ioo, Real.volume_Ioo,
    Real.volume_Ioo]
  congr 2 <;> norm_num

/-- Probability of ending in `S` after one Metropolis-Hastings move. -/
noncomputable def fieldMove (Φ : MetricField 2) (D : ℝ) (x : Fin 2 → ℝ) (S : Set (Fin 2 → ℝ)) : ℝ≥0∞ :=
  ∫⁻ w, S.indicator 1 (mhMove (Poly paraA paraB) (Φ.prop D) (Φ.acc D) x w) ∂(stdNormal 2).prod unitLaw

theorem wallTerm_sqrt_le {y : ℝ} (h0 : 0 < y) (h1 : y < 1) : √(wallTerm y) ≤ 1 / (1 - y) + 1 / y := by
  have h2 : 0 < 1 - y := by linarith
  have a : 0 < 1 / (1 - y) := by positivity
  have b : 0 < 1 / y := by positivity
  rw [Real.sqrt_le_left (by positivity)]
  unfold wallTerm
  have e1 : 1 / (1 - y) ^ 2 = (1 / (1 - y)) ^ 2 := by rw [div_pow, one_pow]
  have e2 : 1 / y ^ 2 = (1 / y) ^ 2 := by rw [div_pow, one_pow]
  rw [e1, e2]
  nlinarith [mul_pos a b]

/-- The dominating function: an inverse square root at both ends of the interval. -/
noncomputable def edge (y : ℝ) : ℝ := √(1 / (1 - y) + 1 / y)

namespace ParaField
variable {Φ : MetricField 2} {p q : (Fin 2 → ℝ) → ℝ} (h : ParaField Φ p q)
include h

/-- The probability of proposing a point of the strip is at most proportional to its width, with an integrable factor. -/
theorem propose_strip {D : ℝ} (hD : 0 < D) {x : Fin 2 → ℝ} (hx : x ∈ Interior paraA paraB) {t : ℝ} (ht : 0 ≤ t) :
    stdNormal 2 (Φ.prop D x ⁻¹' wallStrip t) ≤ ENNReal.ofReal (t * (3 / √D * (edge (x 0 + x 1) * edge (x 1)))) := by
  have hp1 := h.p_ge hx
  have hq1 := h.q_ge hx
  have hp : 0 < √(p x) := Real.sqrt_pos.2 (by linarith)
  have hq : 0 < √(q x) := Real.sqrt_pos.2 (by linarith)
  have hs : 0 < √D := Real.sqrt_pos.2 hD
  set a := √(p x) with ha
  set b := √(q x) with hb
  have hsub : Φ.prop D x ⁻¹' wallStrip t ⊆
      {ξ | (x 0 + x 1) + (√D * (1 / a - 1 / b) * ξ 0 + √D * (1 / b) * ξ 1) ∈ Ioo (1 - t) 1} := by
    intro ξ hξ
    have h1 := hξ.1
    obtain ⟨e0, e1⟩ := h.prop_eq (D := D) hx ξ
    rw [e0, e1] at h1
    have e : x 0 + √D * (ξ 0 / a) + (x 1 + √D * ((ξ 1 - ξ 0) / b)) =
        (x 0 + x 1) + (√D * (1 / a - 1 / b) * ξ 0 + √D * (1 / b) * ξ 1) := by ring
    rw [e] at h1
    exact h1
  obtain ⟨hβ, hα⟩ := gaussian_strip (x 0 + x 1) (√D * (1 / a - 1 / b)) (√D * (1 / b)) (1 - t) 1
  have hle : stdNormal 2 (Φ.prop D x ⁻¹' wallStrip t) ≤ ENNReal.ofReal (t * (1 / √D * min b (2 * a))) := by
    refine (measure_mono hsub).trans ?_
    have hB := hβ (by positivity)
    have e1 : (1 - (1 - t)) / |√D * (1 / b)| = t * (1 / √D * b) := by
      rw [abs_of_pos (by positivity)]; field_simp; ring
    rw [e1] at hB
    rcases le_or_gt b (2 * a) with hc | hc
    · rw [min_eq_left hc]; exact hB
    · rw [min_eq_right hc.le]
      have h5 : 1 / b < 1 / (2 * a) := one_div_lt_one_div_of_lt (by positivity) hc
      have h6 : 1 / (2 * a) = 1 / a - 1 / (2 * a) := by field_simp; ring
      have h7 : 1 / (2 * a) < 1 / a - 1 / b := by linarith
      have h8 : 0 < 1 / a - 1 / b := lt_trans (by positivity) h7
      refine (hα (by positivity)).trans (ENNReal.ofReal_le_ofReal ?_)
      rw [abs_of_pos (by positivity), div_le_iff₀ (by positivity)]
      have e2 : t * (1 / √D * (2 * a)) * (√D * (1 / a - 1 / b)) = t * (2 * a * (1 / a - 1 / b)) := by
        field_simp
      rw [e2]
      have h9 : 1 ≤ 2 * a * (1 / a - 1 / b) := by
        have := mul_lt_mul_of_pos_left h7 (show 0 < 2 * a by positivity)
        rw [mul_one_div_cancel (by positivity)] at this
        exact this.le
      nlinarith
  refine hle.trans (ENNReal.ofReal_le_ofReal (mul_le_mul_of_nonneg_left ?_ ht))
  obtain ⟨⟨y0, y1⟩, y2, y3⟩ := para_interior.1 hx
  -- `min b (2a) ≤ sqrt (2 a b)`
  have k1 : a ≤ 3 / 2 * (1 / (1 - (x 0 + x 1)) + 1 / (x 0 + x 1)) := by
    have h1 := wallTerm_sqrt_le y0 y1
    have h2 : a ≤ √(3 / 2 * wallTerm (x 0 + x 1)) := Real.sqrt_le_sqrt (h.p_hi x hx)
    rw [Real.sqrt_mul (by norm_num)] at h2
    have h3 : √(3 / 2 : ℝ) ≤ 3 / 2 := by rw [Real.sqrt_le_left (by norm_num)]; norm_num
    exact h2.trans (mul_le_mul h3 h1 (Real.sqrt_nonneg _) (by norm_num))
  have k2 : b ≤ 3 / 2 * (1 / (1 - x 1) + 1 / x 1) := by
    have h1 := wallTerm_sqrt_le y2 y3
    have h2 : b ≤ √(3 / 2 * wallTerm (x 1)) := Real.sqrt_le_sqrt (h.q_hi x hx)
    rw [Real.sqrt_mul (by norm_num)] at h2
    have h3 : √(3 / 2 : ℝ) ≤ 3 / 2 := by rw [Real.sqrt_le_left (by norm_num)]; norm_num
    exact h2.trans (mul_le_mul h3 h1 (Real.sqrt_nonneg _) (by norm_num))
  have k3 : min b (2 * a) ≤ √(2 * a * b) := by
    rw [Real.le_sqrt (le_min hq.le (by positivity)) (by positivity)]
    have m1 := min_le_left b (2 * a)
    have m2 := min_le_right b (2 * a)
    have m0 : 0 ≤ min b (2 * a) := le_min hq.le (by positivity)
    calc (min b (2 * a)) ^ 2 = min b (2 * a) * min b (2 * a) := sq _
      _ ≤ b * (2 * a) := mul_le_mul m1 m2 m0 hq.le
      _ = 2 * a * b := by ring
  have s1 : 0 < 1 - (x 0 + x 1) := by linarith
  have s3 : 0 < 1 - x 1 := by linarith
  have k4 : √(2 * a * b) ≤ 3 * (edge (x 0 + x 1) * edge (x 1)) := by
    unfold edge
    rw [Real.sqrt_le_left (by positivity), mul_pow, mul_pow, Real.sq_sqrt (by positivity), Real.sq_sqrt (by positivity)]
    have u1 : 0 < 1 / (1 - (x 0 + x 1)) + 1 / (x 0 + x 1) := by positivity
    have u2 : 0 < 1 / (1 - x 1) + 1 / x 1 := by positivity
    have := mul_le_mul k1 k2 hq.le (by positivity)
    nlinarith [mul_pos u1 u2]
  calc 1 / √D * min b (2 * a) ≤ 1 / √D * (3 * (edge (x 0 + x 1) * edge (x 1))) :=
        mul_le_mul_of_nonneg_left (k3.trans k4) (by positivity)
    _ = _ := by ring

end ParaField

theorem log_lin (c M : ℝ) (hc : 0 < c) : ∃ P₀ : ℝ, ∀ P, P₀ ≤ P → Real.log (4 * √P) - c * P ≤ -M := by
  refine ⟨(max 1 ((4 + |M|) / c)) ^ 2, fun P hP => ?_⟩
  have h1 : 1 ≤ max 1 ((4 + |M|) / c) := le_max_left _ _
  have hP0 : 0 < P := lt_of_lt_of_le (by positivity) hP
  have h2 : max 1 ((4 + |M|) / c) ≤ √P := by
    rw [Real.le_sqrt (by linarith) hP0.le]; exact hP
  set s := √P with hs
  have h3 : 1 ≤ s := h1.trans h2
  have h4 : (4 + |M|) / c ≤ s := (le_max_right _ _).trans h2
  rw [div_le_iff₀ hc] at h4
  have h5 : Real.log (4 * s) ≤ 4 * s := (Real.log_le_sub_one_of_pos (by positivity)).trans (by linarith)
  have h6 : P = s ^ 2 := (Real.sq_sqrt hP0.le).symm
  rw [h6]
  have h7 : |M| ≤ s * |M| := le_mul_of_one_le_left (abs_nonneg M) h3
  have h8 := le_abs_self M
  nlinarith

theorem stdNormal_open_pos {d : ℕ} {U : Set (Fin d → ℝ)} (hU : IsOpen U) (hne : U.Nonempty) :
    stdNormal d U ≠ 0 := by
  have hm : Measurable fun z : Fin d → ℝ => ENNReal.ofReal (gaussDensity (1 : Matrix (Fin d) (Fin d) ℝ) 0 z) := by
    refine Measurable.ennreal_ofReal ?_
    unfold gaussDensity
    refine measurable_const.mul (Real.measurable_exp.comp ((Measurable.neg ?_).div_const 2))
    simp only [sub_zero, Matrix.one_mulVec, dotProduct]
    exact Finset.measurable_sum _ fun i _ => (measurable_pi_apply i).mul (measurable_pi_apply i)
  have hac : (volume : Measure (Fin d → ℝ)) ≪ stdNormal d := by
    rw [stdNormal_eq]
    refine withDensity_absolutelyContinuous' hm.aemeasurable (Eventually.of_forall fun z => ?_)
    rw [Ne, ENNReal.ofReal_eq_zero, not_le]
    unfold gaussDensity
    rw [Matrix.det_one, Real.sqrt_one, one_mul]
    have : 0 < Real.sqrt (2 * Real.pi) := Real.sqrt_pos.2 (by positivity)
    positivity
  exact fun h0 => (hU.measure_pos volume hne).ne' (hac h0)

/-- Draws that carry the walk away from the wall. -/
def awaySet (D : ℝ) : Set (Fin 2 → ℝ) := {ξ | |ξ 0| < 1 ∧ √D * (ξ 0 - ξ 1) ∈ Ioo (1 / 2 : ℝ) (3 / 4)}

theorem isOpen_awaySet (D : ℝ) : IsOpen (awaySet D) :=
  (isOpen_lt (continuous_apply 0).abs continuous_const).inter
    (isOpen_Ioo.preimage (continuous_const.mul ((continuous_apply 0).sub (continuous_apply 1))))

theorem awaySet_nonempty {D : ℝ} (hD : 0 < D) : (awaySet D).Nonempty := by
  have hs : 0 < √D := Real.sqrt_pos.2 hD
  refine ⟨![0, -(5 / 8) / √D], ?_, ?_⟩
  · simp
  · have e : √D * ((![0, -(5 / 8) / √D] : Fin 2 → ℝ) 0 - (![0, -(5 / 8) / √D] : Fin 2 → ℝ) 1) = 5 / 8 := by
      simp; field_simp
    rw [e]; constructor <;> norm_num

/-- Close to the wall the metric is large. -/
theorem ParaField.p_large {Φ : MetricField 2} {p q : (Fin 2 → ℝ) → ℝ} (h : ParaField Φ p q) (P₀ : ℝ) :
    ∃ t₀ : ℝ, 0 < t₀ ∧ t₀ ≤ 1 / 16 ∧ ∀ t, t ≤ t₀ → ∀ x ∈ wallStrip t, P₀ ≤ p x := by
  have hpos : 0 < √(2 * (|P₀| + 1)) := Real.sqrt_pos.2 (by positivity)
  refine ⟨min (1 / 16) (1 / √(2 * (|P₀| + 1))), lt_min (by norm_num) (by positivity), min_le_left _ _,
    fun t ht x hx => ?_⟩
  have ht1 : t ≤ 1 := ht.trans ((min_le_left _ _).trans (by norm_num))
  have h1 := h.p_lo x (wallStrip_interior ht1 hx)
  have h2 := wallTerm_ge_one (y := x 0 + x 1)
  obtain ⟨⟨a, b⟩, _⟩ := hx
  set s := 1 - (x 0 + x 1) with hs
  have hs0 : 0 < s := by linarith
  have hs1 : s ≤ 1 / √(2 * (|P₀| + 1)) := by
    have := ht.trans (min_le_right _ _)
    linarith
  have h3 : s ^ 2 ≤ 1 / (2 * (|P₀| + 1)) := by
    calc s ^ 2 ≤ (1 / √(2 * (|P₀| + 1))) ^ 2 := pow_le_pow_left₀ hs0.le hs1 2
      _ = 1 / (2 * (|P₀| + 1)) := by rw [div_pow, one_pow, Real.sq_sqrt (by positivity)]
  have h4 : 2 * (|P₀| + 1) ≤ 1 / s ^ 2 := by
    rw [le_div_iff₀ (by positivity)]
    rw [le_div_iff₀ (by positivity)] at h3
    linarith
  have := le_abs_self P₀
  linarith

theorem strip_q {Φ : MetricField 2} {p q : (Fin 2 → ℝ) → ℝ} (h : ParaField Φ p q) {t : ℝ} (ht : t ≤ 1)
    {x : Fin 2 → ℝ} (hx : x ∈ wallStrip t) : q x ≤ 16 := by
  have h1 := h.q_hi x (wallStrip_interior ht hx)
  have h2 := wallTerm_le (y := x 1) (a := 7 / 16) (b := 7 / 16) (by norm_num) (by norm_num) hx.2.1.le
    (by have := hx.2.2; linarith)
  norm_num at h2
  linarith

/-- From the strip the walk leaves with a probability bounded below. -/
theorem ParaField.leaves {Φ : MetricField 2} {p q : (Fin 2 → ℝ) → ℝ} (h : ParaField Φ p q) {D : ℝ} (hD : 0 < D) :
    ∃ t₀ : ℝ, 0 < t₀ ∧ t₀ ≤ 1 / 16 ∧ ∀ t, t ≤ t₀ → ∀ x ∈ wallStrip t, ∀ ξ ∈ awaySet D,
      Φ.prop D x ξ ∈ Interior paraA paraB ∧ Φ.prop D x ξ ∉ wallStrip t ∧ Φ.acc D x (Φ.prop D x ξ) = 1 := by
  obtain ⟨P₀, hP₀⟩ := log_lin (1 / (512 * D)) (400 / D) (by positivity)
  obtain ⟨t₀, h0, h1, h2⟩ := h.p_large (max P₀ (256 * D))
  refine ⟨t₀, h0, h1, fun t ht x hx ξ hξ => ?_⟩
  have ht1 : t ≤ 1 := by linarith
  have hxV := wallStrip_interior ht1 hx
  have hpx := h2 t ht x hx
  have hp4 := h.p_ge hxV
  have hq4 := h.q_ge hxV
  have hq16 := strip_q h ht1 hx
  obtain ⟨e0, e1⟩ := h.prop_eq (D := D) hxV ξ
  set z := Φ.prop D x ξ with hz
  have hsD : 0 < √D := Real.sqrt_pos.2 hD
  have ha : 16 * √D ≤ √(p x) := by
    rw [Real.le_sqrt (by positivity) (by linarith), mul_pow, Real.sq_sqrt hD.le]
    have := (le_max_right _ _).trans hpx
    linarith
  have hb2 : 2 ≤ √(q x) := by rw [Real.le_sqrt (by norm_num) (by linarith)]; linarith
  have hb4 : √(q x) ≤ 4 := by rw [Real.sqrt_le_left (by norm_num)]; linarith
  obtain ⟨hξ0, hξ1, hξ2⟩ := hξ
  have ha0 : 0 < √(p x) := lt_of_lt_of_le (by positivity) ha
  have hb0 : 0 < √(q x) := by linarith
  -- the two displacements
  have w2a : √D * ((ξ 1 - ξ 0) / √(q x)) < -(1 / 8) := by
    have : √D * ((ξ 1 - ξ 0) / √(q x)) = -((√D * (ξ 0 - ξ 1)) / √(q x)) := by ring
    rw [this, neg_lt_neg_iff, lt_div_iff₀ hb0]; linarith
  have w2b : -(3 / 8) < √D * ((ξ 1 - ξ 0) / √(q x)) := by
    have : √D * ((ξ 1 - ξ 0) / √(q x)) = -((√D * (ξ 0 - ξ 1)) / √(q x)) := by ring
    rw [this, neg_lt_neg_iff, div_lt_iff₀ hb0]; linarith
  have w0 : |√D * (ξ 0 / √(p x))| < 1 / 16 := by
    rw [abs_mul, abs_div, abs_of_pos hsD, abs_of_pos ha0, ← mul_div_assoc, div_lt_iff₀ ha0]
    nlinarith
  obtain ⟨w0a, w0b⟩ := abs_lt.1 w0
  obtain ⟨⟨xa, xb⟩, xc, xd⟩ := hx
  have hzV : z ∈ Interior paraA paraB := by
    rw [para_interior, e0, e1]
    refine ⟨⟨?_, ?_⟩, ?_, ?_⟩ <;> linarith
  refine ⟨hzV, fun hzS => ?_, ?_⟩
  · have := hzS.1.1
    rw [e0, e1] at this
    linarith
  · refine min_eq_left (Real.one_le_exp ?_)
    rw [h.logd_eq D hzV x, h.logd_eq D hxV z]
    have hpz := h.p_hi z hzV
    have hqz := h.q_hi z hzV
    have hpz4 := h.p_ge hzV
    have hqz4 := h.q_ge hzV
    have k1 := wallTerm_le (y := z 0 + z 1) (a := 1 / 2) (b := 1 / 16) (by norm_num) (by norm_num)
      (by rw [e0, e1]; linarith) (by rw [e0, e1]; linarith)
    have k2 := wallTerm_le (y := z 1) (a := 1 / 16) (b := 1 / 2) (by norm_num) (by norm_num)
      (by rw [e1]; linarith) (by rw [e1]; linarith)
    norm_num at k1 k2
    have u1 : (x 0 + x 1 - (z 0 + z 1)) ^ 2 ≤ 1 := by
      rw [e0, e1, sq_le_one_iff_abs_le_one, abs_le]; constructor <;> linarith
    have u2 : (x 1 - z 1) ^ 2 ≤ 1 := by
      rw [e1, sq_le_one_iff_abs_le_one, abs_le]; constructor <;> linarith
    have u3 : (1 / 16 : ℝ) ^ 2 ≤ (z 0 + z 1 - (x 0 + x 1)) ^ 2 := by
      rw [e0, e1]
      refine sq_le_sq.2 ?_
      rw [abs_of_pos (by norm_num : (0 : ℝ) < 1 / 16), abs_of_neg (by linarith)]; linarith
    have l1 : 0 ≤ Real.log (√(p z) * √(q z)) := by
      refine Real.log_nonneg ?_
      have a1 : 1 ≤ √(p z) := by rw [Real.one_le_sqrt]; linarith
      have a2 : 1 ≤ √(q z) := by rw [Real.one_le_sqrt]; linarith
      exact one_le_mul_of_one_le_of_one_le a1 a2
    have l2 : Real.log (√(p x) * √(q x)) ≤ Real.log (4 * √(p x)) := by
      refine Real.log_le_log (by positivity) ?_
      rw [mul_comm]; exact mul_le_mul_of_nonneg_right hb4 (Real.sqrt_nonneg _)
    have l3 := hP₀ (p x) ((le_max_left _ _).trans hpx)
    have l4 : p z * (x 0 + x 1 - (z 0 + z 1)) ^ 2 + q z * (x 1 - z 1) ^ 2 ≤ 800 := by
      have a1 : p z * (x 0 + x 1 - (z 0 + z 1)) ^ 2 ≤ p z := mul_le_of_le_one_right (by linarith) u1
      have a2 : q z * (x 1 - z 1) ^ 2 ≤ q z := mul_le_of_le_one_right (by linarith) u2
      linarith
    have l5 : p x * (1 / 256) ≤ p x * (z 0 + z 1 - (x 0 + x 1)) ^ 2 + q x * (z 1 - x 1) ^ 2 := by
      have a1 : 0 ≤ q x * (z 1 - x 1) ^ 2 := mul_nonneg (by linarith) (sq_nonneg _)
      have a2 := mul_le_mul_of_nonneg_left u3 (show 0 ≤ p x by linarith)
      norm_num at a2
      linarith
    have l6 := mul_le_mul_of_nonneg_left l4 (show 0 ≤ 1 / 2 / D by positivity)
    have l7 := mul_le_mul_of_nonneg_left l5 (show 0 ≤ 1 / 2 / D by positivity)
    have e5 : 1 / 2 / D * 800 = 400 / D := by ring
    have e6 : 1 / 2 / D * (p x * (1 / 256)) = 1 / (512 * D) * p x := by field_simp; ring
    rw [e5] at l6
    rw [e6] at l7
    linarith

/-- From a fixed point, entering a thin strip is almost never accepted. -/
theorem ParaField.enters {Φ : MetricField 2} {p q : (Fin 2 → ℝ) → ℝ} (h : ParaField Φ p q) {D : ℝ} (hD : 0 < D)
    {x : Fin 2 → ℝ} (hx : x ∈ Interior paraA paraB) {ε : ℝ} (hε : 0 < ε) :
    ∃ t₀ : ℝ, 0 < t₀ ∧ ∀ t, t ≤ t₀ → x ∉ wallStrip t ∧ ∀ z ∈ wallStrip t, Φ.acc D x z ≤ ε := by
  obtain ⟨⟨y0, y1⟩, y2, y3⟩ := para_interior.1 hx
  set d := 1 - (x 0 + x 1) with hd
  have hd0 : 0 < d := by linarith
  obtain ⟨P₀, hP₀⟩ := log_lin (1 / 2 / D * (d / 2) ^ 2) ((p x + q x) * (1 / 2 / D) - Real.log ε) (by positivity)
  obtain ⟨t₀, h0, h1, h2⟩ := h.p_large P₀
  refine ⟨min t₀ (d / 2), lt_min h0 (by positivity), fun t ht => ⟨fun hxS => ?_, fun z hz => ?_⟩⟩
  · have := hxS.1.1
    have := ht.trans (min_le_right _ _)
    linarith
  · have ht0 := ht.trans (min_le_left _ _)
    have htd := ht.trans (min_le_right _ _)
    have ht1 : t ≤ 1 := by linarith
    have hzV := wallStrip_interior ht1 hz
    have hpz := h2 t ht0 z hz
    have l3 := hP₀ (p z) hpz
    have hq16 := strip_q h ht1 hz
    have hpz4 := h.p_ge hzV
    have hqz4 := h.q_ge hzV
    have hpx4 := h.p_ge hx
    have hqx4 := h.q_ge hx
    refine (min_le_right _ _).trans ?_
    rw [← Real.le_log_iff_exp_le hε, h.logd_eq D hzV x, h.logd_eq D hx z]
    obtain ⟨⟨za, zb⟩, zc, zd⟩ := hz
    have u1 : (z 0 + z 1 - (x 0 + x 1)) ^ 2 ≤ 1 := by
      rw [sq_le_one_iff_abs_le_one, abs_le]; constructor <;> linarith
    have u2 : (z 1 - x 1) ^ 2 ≤ 1 := by
      rw [sq_le_one_iff_abs_le_one, abs_le]; constructor <;> linarith
    have u3 : (d / 2) ^ 2 ≤ (x 0 + x 1 - (z 0 + z 1)) ^ 2 := by
      refine sq_le_sq.2 ?_
      rw [abs_of_pos (by positivity), abs_of_neg (by linarith)]; linarith
    have l1 : 0 ≤ Real.log (√(p x) * √(q x)) := by
      refine Real.log_nonneg ?_
      have a1 : 1 ≤ √(p x) := by rw [Real.one_le_sqrt]; linarith
      have a2 : 1 ≤ √(q x) := by rw [Real.one_le_sqrt]; linarith
      exact one_le_mul_of_one_le_of_one_le a1 a2
    have hb4 : √(q z) ≤ 4 := by rw [Real.sqrt_le_left (by norm_num)]; linarith
    have hb0 : 0 < √(q z) := Real.sqrt_pos.2 (by linarith)
    have ha0 : 0 < √(p z) := Real.sqrt_pos.2 (by linarith)
    have l2 : Real.log (√(p z) * √(q z)) ≤ Real.log (4 * √(p z)) := by
      refine Real.log_le_log (by positivity) ?_
      rw [mul_comm]; exact mul_le_mul_of_nonneg_right hb4 (Real.sqrt_nonneg _)
    have l4 : p x * (z 0 + z 1 - (x 0 + x 1)) ^ 2 + q x * (z 1 - x 1) ^ 2 ≤ p x + q x := by
      have a1 : p x * (z 0 + z 1 - (x 0 + x 1)) ^ 2 ≤ p x := mul_le_of_le_one_right (by linarith) u1
      have a2 : q x * (z 1 - x 1) ^ 2 ≤ q x := mul_le_of_le_one_right (by linarith) u2
      linarith
    have l5 : p z * (d / 2) ^ 2 ≤ p z * (x 0 + x 1 - (z 0 + z 1)) ^ 2 + q z * (x 1 - z 1) ^ 2 := by
      have a1 : 0 ≤ q z * (x 1 - z 1) ^ 2 := mul_nonneg (by linarith) (sq_nonneg _)
      have a2 := mul_le_mul_of_nonneg_left u3 (show 0 ≤ p z by linarith)
      linarith
    have l6 := mul_le_mul_of_nonneg_left l4 (show 0 ≤ 1 / 2 / D by positivity)
    have l7 := mul_le_mul_of_nonneg_left l5 (show 0 ≤ 1 / 2 / D by positivity)
    linarith

end PW
