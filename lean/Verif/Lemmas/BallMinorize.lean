import Verif.Lemmas.TwoStep
import Verif.Lemmas.UniformErgodic
import Mathlib.Analysis.Convex.Basic

/-! # The ball walk reaches every set near the centre of a ball in the polytope -/

namespace PW
open MeasureTheory Set Matrix
open scoped ENNReal

variable {d : ℕ}

/-- A random direction is close to any given one with a probability that does not depend on it. -/
theorem aim_pos (hd : 1 ≤ d) {η : ℝ} (hη : 0 < η) :
    ∃ p : ℝ≥0∞, p ≠ 0 ∧ ∀ e : Fin d → ℝ, len e = 1 → p = stdNormal d {v | len (hat v - e) ≤ η} := by
  let e₀ : Fin d → ℝ := Pi.single ⟨0, by omega⟩ 1
  have he₀ : len e₀ = 1 := by
    unfold len
    rw [single_dotProduct, one_mul]
    simp [e₀]
  have mS : ∀ e : Fin d → ℝ, MeasurableSet {v : Fin d → ℝ | len (hat v - e) ≤ η} := fun e =>
    measurableSet_le (measurable_len.comp (measurable_hat.sub_const e)) measurable_const
  refine ⟨stdNormal d {v | len (hat v - e₀) ≤ η}, fun h0 => ?_, fun e he => ?_⟩
  · have h1 := volume_ac_stdNormal d h0
    have clen : Continuous fun v : Fin d → ℝ => len (v - e₀) :=
      (Real.continuous_sqrt.comp (Continuous.dotProduct continuous_id continuous_id)).comp (continuous_id.sub continuous_const)
    have hopen : IsOpen {v : Fin d → ℝ | len (v - e₀) < min (η / 2) (1 / 2)} := isOpen_lt clen continuous_const
    have hne : ({v : Fin d → ℝ | len (v - e₀) < min (η / 2) (1 / 2)}).Nonempty := by
      refine ⟨e₀, ?_⟩
      show len (e₀ - e₀) < _
      rw [sub_self, len_zero]
      exact lt_min (by linarith) (by norm_num)
    refine hopen.measure_ne_zero volume hne (measure_mono_null ?_ h1)
    intro v hv
    have hv1 : len (v - e₀) < η / 2 := lt_of_lt_of_le hv (min_le_left _ _)
    have hv2 : len (v - e₀) < 1 / 2 := lt_of_lt_of_le hv (min_le_right _ _)
    have hv0 : v ≠ 0 := by
      rintro rfl
      rw [zero_sub, len_neg, he₀] at hv2
      norm_num at hv2
    have hp := len_pos hv0
    have h2 : hat v - e₀ = ((len v)⁻¹ - 1) • v + (v - e₀) := by
      rw [hat, sub_smul, one_smul]; abel
    have h3 : len (((len v)⁻¹ - 1) • v) = |1 - len v| := by
      rw [len_smul]
      nth_rewrite 2 [← abs_of_pos hp]
      rw [← abs_mul]
      congr 1
      rw [sub_mul, inv_mul_cancel₀ hp.ne', one_mul]
    have h4 : |1 - len v| ≤ len (v - e₀) := by
      have h5 := len_add_le (v - e₀) e₀
      have h6 := len_sub_le v (v - e₀)
      rw [sub_add_cancel, he₀] at h5
      rw [sub_sub_cancel, he₀] at h6
      rw [abs_le]; constructor <;> linarith
    show len (hat v - e₀) ≤ η
    rw [h2]
    refine (len_add_le _ _).trans ?_
    rw [h3]; linarith
  · obtain ⟨Q, h1, h2, h3⟩ := exists_rot (he₀.trans he.symm)
    rw [← h3]
    conv_rhs => rw [← stdNormal_rot h1]
    rw [Measure.map_apply (measurable_mulVec Q) (mS _)]
    congr 1
    ext v
    show len (hat v - e₀) ≤ η ↔ len (hat (Q *ᵥ v) - Q *ᵥ e₀) ≤ η
    rw [hat_rot h2, ← Matrix.mulVec_sub, len_rot h2]

/-- A unit vector orthogonal to a given one. -/
theorem exists_orth (hd : 2 ≤ d) (h : Fin d → ℝ) : ∃ e : Fin d → ℝ, len e = 1 ∧ e ⬝ᵥ h = 0 := by
  have key : ∃ u : Fin d → ℝ, u ≠ 0 ∧ u ⬝ᵥ h = 0 := by
    let i : Fin d := ⟨0, by omega⟩
    let j : Fin d := ⟨1, by omega⟩
    have hij : i ≠ j := by simp [i, j, Fin.ext_iff]
    by_cases h0 : h i = 0
    · refine ⟨Pi.single i 1, fun h1 => ?_, by rw [single_dotProduct, h0, mul_zero]⟩
      have := congrFun h1 i
      simp at this
    · refine ⟨Pi.single i (h j) + Pi.single j (-h i), fun h1 => ?_, ?_⟩
      · have := congrFun h1 j
        simp [Pi.single_eq_of_ne hij.symm] at this
        exact h0 this
      · rw [add_dotProduct, single_dotProduct, single_dotProduct]; ring
  obtain ⟨u, hu, huh⟩ := key
  exact ⟨hat u, len_hat hu, by rw [hat, smul_dotProduct, huh, smul_zero]⟩

/-- From a point at distance at most `2 s` of `c` one can step to the sphere of radius `s` about `c`. -/
theorem exists_aim (hd : 2 ≤ d) {s : ℝ} (hs : 0 < s) {x c : Fin d → ℝ} (h : len (x - c) ≤ 2 * s) :
    ∃ e : Fin d → ℝ, len e = 1 ∧ len (x + s • e - c) = s := by
  obtain ⟨u, hu, huh⟩ := exists_orth hd (c - x)
  have hl := len_nonneg (x - c)
  set r := len (x - c) with hr
  have hr2 : (c - x) ⬝ᵥ (c - x) = r ^ 2 := by rw [← len_sq, ← len_sub_comm]
  have hu2 : u ⬝ᵥ u = 1 := by rw [← len_sq, hu, one_pow]
  set β := Real.sqrt (s ^ 2 - r ^ 2 / 4) with hβ
  have hβ2 : β ^ 2 = s ^ 2 - r ^ 2 / 4 := Real.sq_sqrt (by nlinarith)
  have hlen : ∀ a : ℝ, a ^ 2 = 1 / 4 → len (a • (c - x) + β • u) = s := by
    intro a ha
    unfold len
    have e : (a • (c - x) + β • u) ⬝ᵥ (a • (c - x) + β • u) = s ^ 2 := by
      simp only [add_dotProduct, dotProduct_add, smul_dotProduct, dotProduct_smul, smul_eq_mul]
      rw [hr2, hu2, huh, dotProduct_comm (c - x) u, huh]
      nlinarith
    rw [e, Real.sqrt_sq hs.le]
  refine ⟨s⁻¹ • ((1 / 2 : ℝ) • (c - x) + β • u), ?_, ?_⟩
  · rw [len_smul, hlen _ (by norm_num), abs_of_pos (by positivity), inv_mul_cancel₀ hs.ne']
  · rw [smul_smul, mul_inv_cancel₀ hs.ne', one_smul, ← hlen (-(1 / 2)) (by norm_num)]
    congr 1
    have : (-(1 / 2) : ℝ) • (c - x) = (1 / 2 : ℝ) • (c - x) - (c - x) := by
      rw [neg_smul, eq_sub_iff_add_eq]
      nth_rewrite 2 [← one_smul ℝ (c - x)]
      rw [← neg_smul, ← add_smul]; norm_num
    rw [this]
    abel

open Classical in
/-- The ball walk in `K` with step `s`. -/
noncomputable def ballMove (K : Set (Fin d → ℝ)) (s : ℝ) (x v : Fin d → ℝ) : Fin d → ℝ :=
  if x + s • hat v ∈ K then x + s • hat v else x

theorem measurable_ballMove {K : Set (Fin d → ℝ)} (hK : MeasurableSet K) (s : ℝ) :
    Measurable fun p : (Fin d → ℝ) × (Fin d → ℝ) => ballMove K s p.1 p.2 := by
  have h1 : Measurable fun p : (Fin d → ℝ) × (Fin d → ℝ) => p.1 + s • hat p.2 :=
    measurable_fst.add ((measurable_hat.comp measurable_snd).const_smul s)
  unfold ballMove
  exact Measurable.ite (h1 hK) h1 measurable_fst

theorem ballMove_mem {K : Set (Fin d → ℝ)} (s : ℝ) {x : Fin d → ℝ} (hx : x ∈ K) (v : Fin d → ℝ) : ballMove K s x v ∈ K := by
  unfold ballMove
  split
  · assumption
  · exact hx

section
variable {K : Set (Fin d → ℝ)} {s : ℝ}

/-- A step in a direction close to a good one. -/
theorem aim_step {η : ℝ} {p : ℝ≥0∞} (hp : ∀ e : Fin d → ℝ, len e = 1 → p = stdNormal d {v | len (hat v - e) ≤ η}) {x e : Fin d → ℝ}
    (he : len e = 1) {F : (Fin d → ℝ) → ℝ≥0∞} {q : ℝ≥0∞}
    (h : ∀ u : Fin d → ℝ, len (u - e) ≤ η → x + s • u ∈ K ∧ q ≤ F (x + s • u)) : p * q ≤ stepE (stdNormal d) (ballMove K s) F x := by
  have mS : MeasurableSet {v : Fin d → ℝ | len (hat v - e) ≤ η} :=
    measurableSet_le (measurable_len.comp (measurable_hat.sub_const e)) measurable_const
  rw [hp e he, mul_comm, ← setLIntegral_const]
  refine (setLIntegral_mono' mS fun v hv => ?_).trans (setLIntegral_le_lintegral _ _)
  obtain ⟨h1, h2⟩ := h (hat v) hv
  unfold ballMove
  rw [if_pos h1]
  exact h2

/-- **Minorisation for the ball walk.** If the convex bounded set `K` contains a ball of radius greater than the step `s`, then after
a fixed number of steps every set near the centre of the ball is reached from every point of `K` with at least proportional
probability. -/
theorem ball_minorize (hd : 2 ≤ d) (hconv : Convex ℝ K) (hs : 0 < s) {c : Fin d → ℝ} {ρ : ℝ} (hρ : s < ρ)
    (hball : ∀ y, len (y - c) ≤ ρ → y ∈ K) {D : ℝ} (hD : ∀ y ∈ K, len (y - c) ≤ D) (hKm : MeasurableSet K) :
    ∃ n₀ : ℕ, 0 < n₀ ∧ ∃ b : ℝ≥0∞, b ≠ 0 ∧ ∃ δ : ℝ, 0 < δ ∧ δ ≤ ρ ∧ ∀ x ∈ K, ∀ F : (Fin d → ℝ) → ℝ≥0∞, Measurable F →
      b * ∫⁻ y in {y | len (y - c) ≤ δ}, F y ≤ (stepE (stdNormal d) (ballMove K s))^[n₀] F x := by
  have hT := measurable_ballMove hKm s
  set D' := max D 1 with hD'
  have hD'1 : 0 < D' := lt_of_lt_of_le one_pos (le_max_right _ _)
  set η := min (1 / 4) (min (ρ / D') ((ρ - s) / s)) with hη
  have hρ0 : 0 < ρ := hs.trans hρ
  have hη0 : 0 < η := lt_min (by norm_num) (lt_min (by positivity) (div_pos (by linarith) hs))
  have hη1 : η ≤ 1 / 4 := min_le_left _ _
  have hη2 : η * D' ≤ ρ := by
    have : η ≤ ρ / D' := (min_le_right _ _).trans (min_le_left _ _)
    rwa [le_div_iff₀ hD'1] at this
  have hη3 : η * s ≤ ρ - s := by
    have : η ≤ (ρ - s) / s := (min_le_right _ _).trans (min_le_right _ _)
    rwa [le_div_iff₀ hs] at this
  obtain ⟨p, hp0, hp⟩ := aim_pos (d := d) (by omega) hη0
  let A : Set (Fin d → ℝ) := {y | y ∈ K ∧ |len (y - c) - s| ≤ s / 4}
  -- one step from near the centre
  have hnear : ∀ x, len (x - c) ≤ 2 * s → ∀ (F : (Fin d → ℝ) → ℝ≥0∞) (q : ℝ≥0∞), (∀ y ∈ A, q ≤ F y) →
      p * q ≤ stepE (stdNormal d) (ballMove K s) F x := by
    intro x hx F q hq
    obtain ⟨e, he, hxe⟩ := exists_aim hd hs hx
    refine aim_step hp he fun u hu => ?_
    have e1 : x + s • u - c = (x + s • e - c) + s • (u - e) := by rw [smul_sub]; abel
    have e2 : len (s • (u - e)) ≤ s * η := by rw [len_smul, abs_of_pos hs]; exact mul_le_mul_of_nonneg_left hu hs.le
    have h1 : len (x + s • u - c) ≤ s + s * η := by
      rw [e1]; refine (len_add_le _ _).trans ?_; rw [hxe]; linarith
    have h2 : s ≤ len (x + s • u - c) + s * η := by
      have := len_sub_le (x + s • u - c) (s • (u - e))
      rw [e1, add_sub_cancel_right, hxe] at this
      rw [e1]; linarith
    have hmem : x + s • u ∈ K := hball _ (by nlinarith)
    refine ⟨hmem, hq _ ⟨hmem, ?_⟩⟩
    rw [abs_le]; constructor <;> nlinarith
  -- a fixed number of steps leads to `A`
  have hreach : ∀ (F : (Fin d → ℝ) → ℝ≥0∞) (q : ℝ≥0∞), (∀ y ∈ A, q ≤ F y) → ∀ N : ℕ, ∀ x ∈ K, len (x - c) ≤ 2 * s + N * (s / 2) →
      p ^ (N + 1) * q ≤ (stepE (stdNormal d) (ballMove K s))^[N + 1] F x := by
    intro F q hq N
    induction N with
    | zero =>
      intro x hx hl
      rw [zero_add, pow_one, Function.iterate_one]
      exact hnear x (by simpa using hl) F q hq
    | succ N ih =>
      intro x hx hl
      rw [Function.iterate_succ_apply', pow_succ', mul_assoc]
      by_cases h2 : len (x - c) ≤ 2 * s
      · refine hnear x h2 _ _ fun y hy => ih y hy.1 ?_
        have := (abs_le.1 hy.2).2
        have : (0 : ℝ) ≤ N * (s / 2) := by positivity
        linarith
      · have h3 : 2 * s < len (x - c) := not_le.1 h2
        set r := len (x - c) with hr
        have hr0 : 0 < r := by linarith
        have hcx : len (c - x) = r := (len_sub_comm _ _)
        set e := r⁻¹ • (c - x) with he
        have hre : r • e = c - x := by rw [he, smul_smul, mul_inv_cancel₀ hr0.ne', one_smul]
        have hle : len e = 1 := by rw [he, len_smul, hcx, abs_of_pos (by positivity), inv_mul_cancel₀ hr0.ne']
        refine aim_step hp hle fun u hu => ?_
        have hrD : r ≤ D' := (hD x hx).trans (le_max_left _ _)
        have hb : c + r • (u - e) ∈ K := hball _ (by
          rw [add_sub_cancel_left, len_smul, abs_of_pos hr0]
          calc r * len (u - e) ≤ D' * η := mul_le_mul hrD hu (len_nonneg _) hD'1.le
            _ ≤ ρ := by rw [mul_comm]; exact hη2)
        have hmem : x + s • u ∈ K := by
          have h4 := hconv hx hb (a := 1 - s / r) (b := s / r) (by rw [sub_nonneg, div_le_one hr0]; linarith) (by positivity) (by ring)
          have h5 : (1 - s / r) • x + (s / r) • (c + r • (u - e)) = x + s • u := by
            have : c = x + r • e := by rw [hre]; abel
            rw [this, smul_sub, show x + r • e + (r • u - r • e) = x + r • u by abel, smul_add, smul_smul, div_mul_cancel₀ _ hr0.ne',
              sub_smul, one_smul]
            abel
          rwa [h5] at h4
        refine ⟨hmem, ih _ hmem ?_⟩
        have e1 : x + s • u - c = (s - r) • e + s • (u - e) := by
          have : c = x + r • e := by rw [hre]; abel
          rw [this, smul_sub, sub_smul]; abel
        have h6 : len (x + s • u - c) ≤ (r - s) + s * η := by
          rw [e1]
          refine (len_add_le _ _).trans ?_
          rw [len_smul _ e, len_smul _ (u - e), hle, abs_of_pos hs, abs_sub_comm, abs_of_pos (by linarith), mul_one]
          exact add_le_add le_rfl (mul_le_mul_of_nonneg_left hu hs.le)
        push_cast at hl
        nlinarith
  -- two steps from `A`
  obtain ⟨a, ha0, htwo⟩ := two_step hd
  set δ := min (s / 4) (ρ - s) with hδ
  have hδ0 : 0 < δ := lt_min (by positivity) (by linarith)
  have hδ1 : δ ≤ s / 4 := min_le_left _ _
  have hδ2 : δ ≤ ρ - s := min_le_right _ _
  set B : Set (Fin d → ℝ) := {y | len (y - c) ≤ δ} with hB
  have mB : MeasurableSet B := measurableSet_le (measurable_len.comp (measurable_id.sub_const c)) measurable_const
  have hlast : ∀ F : (Fin d → ℝ) → ℝ≥0∞, Measurable F → ∀ y ∈ A,
      a * (ENNReal.ofReal ((s ^ d)⁻¹) * ∫⁻ z in B, F z) ≤ (stepE (stdNormal d) (ballMove K s))^[2] F y := by
    intro F mF y hy
    have hA := abs_le.1 hy.2
    set H := B.indicator F with hH
    have mH : Measurable H := mF.indicator mB
    have hsp : ∫⁻ w, H (y + s • w) = ENNReal.ofReal ((s ^ d)⁻¹) * ∫⁻ z in B, F z := by
      rw [lintegral_smul_space (H := fun w => H (y + w)) (mH.comp (measurable_const.add measurable_id)) hs,
        lintegral_add_left_eq_self (fun z => H z) y, hH, lintegral_indicator mB]
    rw [← hsp]
    refine (htwo (fun w => H (y + s • w)) (mH.comp (measurable_const.add (measurable_id.const_smul s))) fun w hw => ?_).trans ?_
    · have hz : y + s • w ∈ B := by
        by_contra hc
        exact hw (indicator_of_notMem hc _)
      have hz' : len (y + s • w - c) ≤ δ := hz
      have h1 : len (s • w) = s * len w := by rw [len_smul, abs_of_pos hs]
      have h2 := len_sub_le (y + s • w - c) (y - c)
      have h3 := len_sub_le (y - c) (y + s • w - c)
      rw [show y + s • w - c - (y - c) = s • w by abel, h1] at h2
      have h4 := len_sub_le (y + s • w - c) (s • w)
      rw [show y + s • w - c - s • w = y - c by abel, h1] at h4
      constructor <;> nlinarith [hA.1, hA.2]
    · show _ ≤ stepE (stdNormal d) (ballMove K s) (stepE (stdNormal d) (ballMove K s) F) y
      refine lintegral_mono fun v => lintegral_mono fun v' => ?_
      show H (y + s • (hat v + hat v')) ≤ F (ballMove K s (ballMove K s y v) v')
      by_cases hz : y + s • (hat v + hat v') ∈ B
      · have hz' : len (y + s • (hat v + hat v') - c) ≤ δ := hz
        have hmid : y + s • hat v ∈ K := hball _ (by
          have h1 := len_sub_le (y + s • (hat v + hat v') - c) (s • hat v')
          rw [show y + s • (hat v + hat v') - c - s • hat v' = y + s • hat v - c by rw [smul_add]; abel, len_smul, abs_of_pos hs] at h1
          have := len_hat_le v'
          nlinarith)
        have hend : y + s • hat v + s • hat v' ∈ K := by
          rw [add_assoc, ← smul_add]
          exact hball _ (by linarith)
        rw [hH, indicator_of_mem hz]
        unfold ballMove
        rw [if_pos hmid, if_pos hend, add_assoc, ← smul_add]
      · rw [hH, indicator_of_notMem hz]; exact zero_le
  obtain ⟨N, hN⟩ := exists_nat_gt ((D - 2 * s) / (s / 2))
  have hN' : D ≤ 2 * s + N * (s / 2) := by
    rw [div_lt_iff₀ (by positivity)] at hN; linarith
  refine ⟨N + 3, by omega, p ^ (N + 1) * (a * ENNReal.ofReal ((s ^ d)⁻¹)), ?_, δ, hδ0, by linarith, fun x hx F mF => ?_⟩
  · refine mul_ne_zero (pow_ne_zero _ hp0) (mul_ne_zero ha0 ?_)
    simp only [ne_eq, ENNReal.ofReal_eq_zero, not_le]
    positivity
  · have h1 := hreach ((stepE (stdNormal d) (ballMove K s))^[2] F) _ (hlast F mF) N x hx ((hD x hx).trans hN')
    rw [← Function.iterate_add_apply] at h1
    refine le_trans (le_of_eq ?_) h1
    ring

end

end PW
