import Verif.Lemmas.Gaussian
import Mathlib.Analysis.InnerProductSpace.PiL2

/-! # Euclidean length, rotations, and random directions -/

namespace PW
open MeasureTheory Set Matrix
open scoped ENNReal

variable {d : ℕ}

/-- Euclidean length. -/
noncomputable def len (w : Fin d → ℝ) : ℝ := Real.sqrt (w ⬝ᵥ w)

/-- The direction of `w`. -/
noncomputable def hat (w : Fin d → ℝ) : Fin d → ℝ := (len w)⁻¹ • w

theorem len_eq_norm (w : Fin d → ℝ) : len w = ‖(WithLp.toLp 2 w : EuclideanSpace ℝ (Fin d))‖ := by
  rw [EuclideanSpace.norm_eq]
  unfold len
  congr 1
  exact Finset.sum_congr rfl fun i _ => by rw [Real.norm_eq_abs, sq_abs, sq]

theorem len_nonneg (w : Fin d → ℝ) : 0 ≤ len w := Real.sqrt_nonneg _

theorem dot_self_nonneg (w : Fin d → ℝ) : 0 ≤ w ⬝ᵥ w := Finset.sum_nonneg fun i _ => mul_self_nonneg _

theorem len_sq (w : Fin d → ℝ) : len w ^ 2 = w ⬝ᵥ w := Real.sq_sqrt (dot_self_nonneg w)

theorem len_add_le (a b : Fin d → ℝ) : len (a + b) ≤ len a + len b := by
  rw [len_eq_norm, len_eq_norm, len_eq_norm]; exact norm_add_le _ _

theorem len_neg (a : Fin d → ℝ) : len (-a) = len a := by
  rw [len_eq_norm, len_eq_norm]; exact norm_neg (WithLp.toLp 2 a)

theorem len_sub_comm (a b : Fin d → ℝ) : len (a - b) = len (b - a) := by rw [← len_neg, neg_sub]

theorem len_sub_le (a b : Fin d → ℝ) : len (a - b) ≤ len a + len b := by
  rw [len_eq_norm, len_eq_norm, len_eq_norm]; exact norm_sub_le _ _

theorem len_smul (t : ℝ) (a : Fin d → ℝ) : len (t • a) = |t| * len a := by
  rw [len_eq_norm, len_eq_norm]; exact norm_smul t (WithLp.toLp 2 a)

theorem len_zero : len (0 : Fin d → ℝ) = 0 := by simp [len]

theorem len_pos {w : Fin d → ℝ} (hw : w ≠ 0) : 0 < len w := by
  rw [len_eq_norm, norm_pos_iff]
  intro h
  exact hw (by simpa using congrArg WithLp.ofLp h)

theorem len_hat {w : Fin d → ℝ} (hw : w ≠ 0) : len (hat w) = 1 := by
  have := len_pos hw
  rw [hat, len_smul, abs_of_pos (by positivity), inv_mul_cancel₀ this.ne']

theorem len_hat_le (w : Fin d → ℝ) : len (hat w) ≤ 1 := by
  by_cases hw : w = 0
  · rw [hw, hat, smul_zero, len_zero]; norm_num
  · rw [len_hat hw]

theorem measurable_len : Measurable (len (d := d)) :=
  (Real.continuous_sqrt.comp (Continuous.dotProduct continuous_id continuous_id)).measurable

theorem measurable_hat : Measurable (hat (d := d)) := measurable_len.inv.smul measurable_id

/-! ## Rotations -/

/-- Two vectors of equal length differ by an orthogonal transformation. -/
theorem exists_rot {a b : Fin d → ℝ} (h : len a = len b) : ∃ Q : Matrix (Fin d) (Fin d) ℝ, Q * Qᵀ = 1 ∧ Qᵀ * Q = 1 ∧ Q *ᵥ a = b := by
  by_cases hab : a = b
  · exact ⟨1, by simp, by simp, by simp [hab]⟩
  set u := a - b with hu
  have hu0 : u ≠ 0 := sub_ne_zero.2 hab
  have hp : 0 < u ⬝ᵥ u := by rw [← len_sq]; exact pow_pos (len_pos hu0) 2
  have hl : a ⬝ᵥ a = b ⬝ᵥ b := by rw [← len_sq, ← len_sq, h]
  have hua : 2 * (u ⬝ᵥ a) = u ⬝ᵥ u := by
    rw [hu]
    simp only [sub_dotProduct, dotProduct_sub]
    rw [dotProduct_comm a b]; linarith
  set c := 2 / (u ⬝ᵥ u) with hc
  have hcc : c * (u ⬝ᵥ u) = 2 := div_mul_cancel₀ _ hp.ne'
  have hsq : vecMulVec u u * vecMulVec u u = (u ⬝ᵥ u) • vecMulVec u u := by
    ext i j
    simp only [Matrix.mul_apply, vecMulVec_apply, Matrix.smul_apply, smul_eq_mul, dotProduct, Finset.sum_mul]
    exact Finset.sum_congr rfl fun k _ => by ring
  set Q : Matrix (Fin d) (Fin d) ℝ := 1 - c • vecMulVec u u with hQ
  have hT : Qᵀ = Q := by
    rw [hQ, transpose_sub, transpose_one, transpose_smul]
    congr 2
    ext i j
    simp [vecMulVec_apply, mul_comm]
  have hQQ : Q * Q = 1 := by
    have h1 : (c • vecMulVec u u) * (c • vecMulVec u u) = c • vecMulVec u u + c • vecMulVec u u := by
      rw [Matrix.smul_mul, Matrix.mul_smul, hsq, smul_smul, smul_smul, show c * c * (u ⬝ᵥ u) = c + c by rw [mul_assoc, hcc]; ring, add_smul]
    rw [hQ, Matrix.sub_mul, Matrix.one_mul, Matrix.mul_sub, Matrix.mul_one, h1]
    abel
  refine ⟨Q, by rw [hT, hQQ], by rw [hT, hQQ], ?_⟩
  have h1 : vecMulVec u u *ᵥ a = (u ⬝ᵥ a) • u := by
    ext i
    simp only [mulVec, dotProduct, vecMulVec_apply, Pi.smul_apply, smul_eq_mul, Finset.sum_mul]
    exact Finset.sum_congr rfl fun k _ => by ring
  rw [hQ, Matrix.sub_mulVec, Matrix.one_mulVec, Matrix.smul_mulVec, h1, smul_smul,
    show c * (u ⬝ᵥ a) = 1 by rw [← hua] at hcc; linarith, one_smul, hu]
  abel

theorem dot_rot {Q : Matrix (Fin d) (Fin d) ℝ} (hQ : Qᵀ * Q = 1) (a b : Fin d → ℝ) : (Q *ᵥ a) ⬝ᵥ (Q *ᵥ b) = a ⬝ᵥ b := by
  rw [Matrix.dotProduct_mulVec, ← Matrix.mulVec_transpose, Matrix.mulVec_mulVec, hQ, Matrix.one_mulVec]

theorem len_rot {Q : Matrix (Fin d) (Fin d) ℝ} (hQ : Qᵀ * Q = 1) (a : Fin d → ℝ) : len (Q *ᵥ a) = len a := by
  unfold len; rw [dot_rot hQ]

theorem hat_rot {Q : Matrix (Fin d) (Fin d) ℝ} (hQ : Qᵀ * Q = 1) (a : Fin d → ℝ) : hat (Q *ᵥ a) = Q *ᵥ hat a := by
  unfold hat; rw [len_rot hQ, Matrix.mulVec_smul]

theorem measurable_mulVec {k : ℕ} (M : Matrix (Fin k) (Fin d) ℝ) : Measurable fun v : Fin d → ℝ => M *ᵥ v :=
  Continuous.measurable (Continuous.matrix_mulVec continuous_const continuous_id)

theorem stdNormal_rot {Q : Matrix (Fin d) (Fin d) ℝ} (hQ : Q * Qᵀ = 1) : (stdNormal d).map (fun v => Q *ᵥ v) = stdNormal d := by
  have h := stdNormal_map_congr Q (1 : Matrix (Fin d) (Fin d) ℝ) (by rw [hQ]; simp)
  rw [h]
  simp

theorem lintegral_rot {Q : Matrix (Fin d) (Fin d) ℝ} (hQ : Q * Qᵀ = 1) {F : (Fin d → ℝ) → ℝ≥0∞} (hF : Measurable F) :
    ∫⁻ v, F (Q *ᵥ v) ∂(stdNormal d) = ∫⁻ v, F v ∂(stdNormal d) := by
  conv_rhs => rw [← stdNormal_rot hQ]
  rw [lintegral_map hF (measurable_mulVec Q)]

/-- The law of a function of the angle to a direction does not depend on the direction. -/
theorem lintegral_dot_hat {F : ℝ → ℝ≥0∞} (hF : Measurable F) {a b : Fin d → ℝ} (h : len a = len b) :
    ∫⁻ z, F (hat z ⬝ᵥ a) ∂(stdNormal d) = ∫⁻ z, F (hat z ⬝ᵥ b) ∂(stdNormal d) := by
  obtain ⟨Q, h1, h2, h3⟩ := exists_rot h
  have m : Measurable fun z : Fin d → ℝ => F (hat z ⬝ᵥ b) :=
    hF.comp ((Continuous.dotProduct continuous_id continuous_const).measurable.comp measurable_hat)
  rw [← lintegral_rot h1 m]
  refine lintegral_congr fun z => ?_
  rw [hat_rot h2, ← h3, dot_rot h2]

theorem integral_dot_hat {F : ℝ → ℂ} (hF : Measurable F) {a b : Fin d → ℝ} (h : len a = len b) :
    ∫ z, F (hat z ⬝ᵥ a) ∂(stdNormal d) = ∫ z, F (hat z ⬝ᵥ b) ∂(stdNormal d) := by
  obtain ⟨Q, h1, h2, h3⟩ := exists_rot h
  have m : Measurable fun z : Fin d → ℝ => F (hat z ⬝ᵥ b) :=
    hF.comp ((Continuous.dotProduct continuous_id continuous_const).measurable.comp measurable_hat)
  have e : ∫ z, F (hat z ⬝ᵥ b) ∂(stdNormal d) = ∫ z, F (hat (Q *ᵥ z) ⬝ᵥ b) ∂(stdNormal d) := by
    conv_lhs => rw [← stdNormal_rot h1]
    rw [integral_map (measurable_mulVec Q).aemeasurable m.aestronglyMeasurable]
  rw [e]
  refine integral_congr_ae (ae_of_all _ fun z => ?_)
  simp only
  rw [hat_rot h2, ← h3, dot_rot h2]

/-- A law that is invariant under rotations. -/
def RotInvariant (μ : Measure (Fin d → ℝ)) : Prop :=
  ∀ Q : Matrix (Fin d) (Fin d) ℝ, Q * Qᵀ = 1 → Qᵀ * Q = 1 → μ.map (fun v => Q *ᵥ v) = μ

theorem dual_eq_dot (L : StrongDual ℝ (Fin d → ℝ)) : ∃ t : Fin d → ℝ, ∀ w, L w = t ⬝ᵥ w := by
  refine ⟨fun i => L (Pi.single i 1), fun w => ?_⟩
  conv_lhs => rw [← Finset.univ_sum_single w]
  rw [map_sum, dotProduct]
  refine Finset.sum_congr rfl fun i _ => ?_
  have : (Pi.single i (w i) : Fin d → ℝ) = w i • Pi.single i (1 : ℝ) := by
    rw [← Pi.single_smul, smul_eq_mul, mul_one]
  rw [this, map_smul, smul_eq_mul, mul_comm]

/-- The wave `exp(i t)`. -/
noncomputable def wave (t : ℝ) : ℂ := Complex.exp (t * Complex.I)

theorem measurable_wave : Measurable wave := by unfold wave; fun_prop

theorem norm_wave (t : ℝ) : ‖wave t‖ = 1 := Complex.norm_exp_ofReal_mul_I t

/-- **Polar coordinates**: a rotation invariant vector has a direction independent of its length. -/
theorem polar (hd : 1 ≤ d) {μ : Measure (Fin d → ℝ)} [IsProbabilityMeasure μ] (hμ : RotInvariant μ) :
    μ = (μ.prod (stdNormal d)).map fun p => len p.1 • hat p.2 := by
  have mp : Measurable fun p : (Fin d → ℝ) × (Fin d → ℝ) => len p.1 • hat p.2 :=
    (measurable_len.comp measurable_fst).smul (measurable_hat.comp measurable_snd)
  have : IsProbabilityMeasure ((μ.prod (stdNormal d)).map fun p => len p.1 • hat p.2) :=
    Measure.isProbabilityMeasure_map mp.aemeasurable
  have hne : ∀ᵐ z ∂(stdNormal d), z ≠ 0 := by
    have h0 : ∀ᵐ u ∂(volume : Measure (Fin d → ℝ)), u ≠ 0 := by
      have : Nonempty (Fin d) := ⟨⟨0, by omega⟩⟩
      rw [ae_iff]; simp
    rw [stdNormal_eq]
    exact (withDensity_absolutelyContinuous _ _).ae_le h0
  have mdot : Measurable fun p : (Fin d → ℝ) × (Fin d → ℝ) => p.1 ⬝ᵥ p.2 :=
    (Continuous.dotProduct continuous_fst continuous_snd).measurable
  -- the characteristic function depends on the length only
  have hrot : ∀ a b : Fin d → ℝ, len a = len b → ∫ w, wave (a ⬝ᵥ w) ∂μ = ∫ w, wave (b ⬝ᵥ w) ∂μ := by
    intro a b hab
    obtain ⟨Q, h1, h2, h3⟩ := exists_rot hab
    have m : Measurable fun w : Fin d → ℝ => wave (b ⬝ᵥ w) :=
      measurable_wave.comp (Continuous.dotProduct continuous_const continuous_id).measurable
    conv_rhs => rw [← hμ Q h1 h2]
    rw [integral_map (measurable_mulVec Q).aemeasurable m.aestronglyMeasurable]
    refine integral_congr_ae (ae_of_all _ fun w => ?_)
    simp only
    rw [← h3, dot_rot h2]
  refine Measure.ext_of_charFunDual (funext fun L => ?_)
  obtain ⟨t, ht⟩ := dual_eq_dot L
  rw [charFunDual_apply, charFunDual_apply]
  have e1 : ∀ w, Complex.exp (L w * Complex.I) = wave (t ⬝ᵥ w) := fun w => by rw [ht]; rfl
  simp only [e1]
  have mt : Measurable fun w : Fin d → ℝ => wave (t ⬝ᵥ w) :=
    measurable_wave.comp (Continuous.dotProduct continuous_const continuous_id).measurable
  rw [integral_map mp.aemeasurable mt.aestronglyMeasurable]
  have i2 : Integrable (fun p : (Fin d → ℝ) × (Fin d → ℝ) => wave (t ⬝ᵥ (len p.1 • hat p.2))) (μ.prod (stdNormal d)) :=
    Integrable.of_bound (mt.comp mp).aestronglyMeasurable 1 (ae_of_all _ fun p => (norm_wave _).le)
  have mB : Measurable fun p : (Fin d → ℝ) × (Fin d → ℝ) => wave ((len t • hat p.2) ⬝ᵥ p.1) :=
    measurable_wave.comp (mdot.comp (((measurable_hat.comp measurable_snd).const_smul (len t)).prodMk measurable_fst))
  have i3 : Integrable (fun p : (Fin d → ℝ) × (Fin d → ℝ) => wave ((len t • hat p.2) ⬝ᵥ p.1)) (μ.prod (stdNormal d)) :=
    Integrable.of_bound mB.aestronglyMeasurable 1 (ae_of_all _ fun p => (norm_wave _).le)
  calc ∫ w, wave (t ⬝ᵥ w) ∂μ = ∫ z, (∫ w, wave (t ⬝ᵥ w) ∂μ) ∂(stdNormal d) := by simp
    _ = ∫ z, (∫ w, wave ((len t • hat z) ⬝ᵥ w) ∂μ) ∂(stdNormal d) := by
        refine integral_congr_ae ?_
        filter_upwards [hne] with z hz
        refine hrot _ _ ?_
        rw [len_smul, len_hat hz, abs_of_nonneg (len_nonneg t), mul_one]
    _ = ∫ w, (∫ z, wave ((len t • hat z) ⬝ᵥ w) ∂(stdNormal d)) ∂μ := (integral_integral_swap i3).symm
    _ = ∫ w, (∫ z, wave (t ⬝ᵥ (len w • hat z)) ∂(stdNormal d)) ∂μ := by
        refine integral_congr_ae (ae_of_all _ fun w => ?_)
        have h1 : ∀ z, (len t • hat z) ⬝ᵥ w = hat z ⬝ᵥ (len t • w) := fun z => by
          rw [smul_dotProduct, dotProduct_smul]
        have h2 : ∀ z, t ⬝ᵥ (len w • hat z) = hat z ⬝ᵥ (len w • t) := fun z => by
          rw [dotProduct_smul, dotProduct_smul, dotProduct_comm]
        simp only [h1, h2]
        refine integral_dot_hat measurable_wave ?_
        rw [len_smul, len_smul, abs_of_nonneg (len_nonneg _), abs_of_nonneg (len_nonneg _), mul_comm]
    _ = ∫ p, wave (t ⬝ᵥ (len p.1 • hat p.2)) ∂(μ.prod (stdNormal d)) := (integral_prod _ i2).symm

end PW
