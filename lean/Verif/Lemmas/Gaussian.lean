import Verif.Spec.Gaussian
import Mathlib.MeasureTheory.Measure.Lebesgue.EqHaar
import Mathlib.MeasureTheory.Measure.CharacteristicFunction.Basic
import Mathlib.Probability.Distributions.Gaussian.CharFun
import Mathlib.MeasureTheory.Integral.Pi
import Mathlib.LinearAlgebra.Matrix.PosDef
import Mathlib.Analysis.Matrix.Order

/-! # Gaussian laws: densities of linear images -/

namespace PW
open MeasureTheory ProbabilityTheory Matrix
open scoped ENNReal MatrixOrder

instance (d : ℕ) : IsProbabilityMeasure (stdNormal d) := by unfold stdNormal; infer_instance

theorem lintegral_pi_prod : ∀ {n : ℕ} (μ : Fin n → Measure ℝ) [∀ i, SigmaFinite (μ i)]
    (f : Fin n → ℝ → ℝ≥0∞), (∀ i, Measurable (f i)) →
    ∫⁻ v, ∏ i, f i (v i) ∂Measure.pi μ = ∏ i, ∫⁻ t, f i t ∂μ i
  | 0, μ, _, f, _ => by simp
  | n + 1, μ, _, f, hf => by
    have hp := (measurePreserving_piFinSuccAbove μ 0).symm
    have hm : Measurable fun v : Fin (n + 1) → ℝ => ∏ i, f i (v i) :=
      Finset.measurable_prod _ fun i _ => (hf i).comp (measurable_pi_apply i)
    rw [← hp.lintegral_comp hm]
    have hm' := hm.comp hp.measurable
    refine (lintegral_prod _ hm'.aemeasurable).trans ?_
    have e : ∀ (t : ℝ) (v : (i : Fin n) → ℝ),
        (∏ i, f i ((MeasurableEquiv.piFinSuccAbove (fun _ : Fin (n + 1) => ℝ) 0).symm (t, v) i)) =
          f 0 t * ∏ i, f i.succ (v i) := by
      intro t v
      rw [Fin.prod_univ_succ]
      simp [MeasurableEquiv.piFinSuccAbove]
    simp only [Function.comp_def]
    simp_rw [e]
    have h2 : Measurable fun v : Fin n → ℝ => ∏ i, f i.succ (v i) :=
      Finset.measurable_prod _ fun i _ => (hf i.succ).comp (measurable_pi_apply i)
    simp_rw [lintegral_const_mul _ h2]
    have ih := lintegral_pi_prod (fun i => μ (Fin.succAbove 0 i)) (fun i => f i.succ) fun i => hf _
    rw [ih, lintegral_mul_const _ (hf 0), Fin.prod_univ_succ]
    rfl

/-- Product of measures with densities. -/
theorem pi_withDensity {n : ℕ} (f : Fin n → ℝ → ℝ≥0∞) (hf : ∀ i, Measurable (f i))
    [∀ i, SigmaFinite ((volume : Measure ℝ).withDensity (f i))] :
    Measure.pi (fun i => (volume : Measure ℝ).withDensity (f i)) =
      (volume : Measure (Fin n → ℝ)).withDensity fun v => ∏ i, f i (v i) := by
  refine Measure.pi_eq fun s hs => ?_
  rw [withDensity_apply _ (MeasurableSet.univ_pi hs), volume_pi, Measure.restrict_pi_pi,
    lintegral_pi_prod _ _ hf]
  refine Finset.prod_congr rfl fun i _ => ?_
  rw [withDensity_apply _ (hs i)]

theorem stdNormal_eq (d : ℕ) : stdNormal d = gaussLaw (1 : Matrix (Fin d) (Fin d) ℝ) 0 := by
  have e : gaussianReal 0 1 = (volume : Measure ℝ).withDensity (gaussianPDF 0 1) :=
    gaussianReal_of_var_ne_zero 0 one_ne_zero
  have : IsProbabilityMeasure ((volume : Measure ℝ).withDensity (gaussianPDF 0 1)) := by
    rw [← e]; infer_instance
  unfold stdNormal gaussLaw
  rw [e, pi_withDensity _ fun _ => measurable_gaussianPDF 0 1]
  congr 1
  funext v
  unfold gaussianPDF gaussDensity
  rw [← ENNReal.ofReal_prod_of_nonneg fun i _ => gaussianPDFReal_nonneg 0 1 _]
  congr 1
  simp only [gaussianPDFReal, NNReal.coe_one, mul_one, sub_zero, det_one, Real.sqrt_one, one_mul,
    one_mulVec]
  rw [Finset.prod_mul_distrib, Finset.prod_const, Finset.card_univ, Fintype.card_fin, ← Real.exp_sum]
  congr 2
  rw [dotProduct, ← Finset.sum_div, Finset.sum_neg_distrib]
  congr 3
  funext i
  ring

/-- Push-forward of a measure with density under an invertible linear map. -/
theorem map_withDensity_linear {d : ℕ} (S : Matrix (Fin d) (Fin d) ℝ) (hS : S.det ≠ 0)
    (x : Fin d → ℝ) (f : (Fin d → ℝ) → ℝ≥0∞) (hf : Measurable f) :
    ((volume : Measure (Fin d → ℝ)).withDensity f).map (fun v => x + S.mulVec v) =
      volume.withDensity fun z => ENNReal.ofReal |S.det|⁻¹ * f (S⁻¹.mulVec (z - x)) := by
  have hu : IsUnit S.det := isUnit_iff_ne_zero.2 hS
  have mS : Measurable fun v : Fin d → ℝ => x + S.mulVec v :=
    (measurable_const).add (Continuous.measurable (Continuous.matrix_mulVec continuous_const continuous_id))
  have mS' : Measurable fun v : Fin d → ℝ => S⁻¹.mulVec (v - x) :=
    Continuous.measurable (Continuous.matrix_mulVec continuous_const (continuous_id.sub continuous_const))
  -- volume transforms
  have hvol : (volume : Measure (Fin d → ℝ)).map (fun v => x + S.mulVec v) =
      ENNReal.ofReal |S.det|⁻¹ • volume := by
    have h := Real.map_matrix_volume_pi_eq_smul_volume_pi hS
    have e : (fun v => x + S.mulVec v) = (fun v => x + v) ∘ (Matrix.toLin' S) := by
      funext v; simp
    rw [e, ← Measure.map_map (measurable_const_add x)
      (Continuous.measurable (LinearMap.continuous_of_finiteDimensional _)), h, Measure.map_smul,
      map_add_left_eq_self, abs_inv]
  have hm : Measurable fun z => f (S⁻¹.mulVec (z - x)) := hf.comp mS'
  ext T hT
  rw [Measure.map_apply mS hT, withDensity_apply _ (mS hT), withDensity_apply _ hT,
    lintegral_const_mul _ hm, ← smul_eq_mul, ← lintegral_smul_measure,
    ← Measure.restrict_smul, ← hvol, setLIntegral_map hT hm mS]
  refine lintegral_congr fun v => ?_
  congr 1
  simp [Matrix.mulVec_mulVec, Matrix.nonsing_inv_mul _ hu]

theorem measurable_gaussDensity {d : ℕ} (P : Matrix (Fin d) (Fin d) ℝ) (x : Fin d → ℝ) :
    Measurable fun z => gaussDensity P x z := by
  unfold gaussDensity
  refine Continuous.measurable ?_
  refine continuous_const.mul (Real.continuous_exp.comp ?_)
  refine (Continuous.neg ?_).div_const _
  exact Continuous.dotProduct (continuous_id.sub continuous_const)
    (Continuous.matrix_mulVec continuous_const (continuous_id.sub continuous_const))

/-- Square invertible case. -/
theorem stdNormal_map_square {d : ℕ} (S P : Matrix (Fin d) (Fin d) ℝ) (hP : P * (S * S.transpose) = 1)
    (x : Fin d → ℝ) : (stdNormal d).map (fun v => x + S.mulVec v) = gaussLaw P x := by
  have hd : P.det * (S.det * S.det) = 1 := by
    have := congrArg Matrix.det hP
    simpa using this
  have hS : S.det ≠ 0 := fun h => by simp [h] at hd
  have hu : IsUnit S.det := isUnit_iff_ne_zero.2 hS
  have hPe : P = (S⁻¹).transpose * S⁻¹ := by
    have h1 : (S * S.transpose) * P = 1 := mul_eq_one_comm.1 hP
    have h2 : S.transpose * P = S⁻¹ := by
      calc S.transpose * P = S⁻¹ * (S * S.transpose * P) := by
            rw [← Matrix.mul_assoc, ← Matrix.mul_assoc, Matrix.nonsing_inv_mul _ hu, Matrix.one_mul]
        _ = S⁻¹ := by rw [h1, Matrix.mul_one]
    calc P = (S⁻¹).transpose * S.transpose * P := by
            rw [← Matrix.transpose_mul, Matrix.mul_nonsing_inv _ hu, Matrix.transpose_one, Matrix.one_mul]
      _ = _ := by rw [Matrix.mul_assoc, h2]
  rw [stdNormal_eq]
  unfold gaussLaw
  have hmm : Measurable fun z : Fin d → ℝ => ENNReal.ofReal (gaussDensity 1 0 z) :=
    ENNReal.measurable_ofReal.comp (measurable_gaussDensity _ _)
  rw [map_withDensity_linear S hS x _ hmm]
  congr 1
  funext z
  rw [← ENNReal.ofReal_mul (by positivity)]
  congr 1
  unfold gaussDensity
  have h1 : Real.sqrt P.det = |S.det|⁻¹ := by
    have : P.det = (|S.det|⁻¹) ^ 2 := by
      rw [inv_pow, sq_abs]
      refine eq_inv_of_mul_eq_one_left ?_
      rw [sq]; exact hd
    rw [this, Real.sqrt_sq (by positivity)]
  have h2 : (S⁻¹.mulVec (z - x) - 0) ⬝ᵥ (1 : Matrix (Fin d) (Fin d) ℝ).mulVec (S⁻¹.mulVec (z - x) - 0) =
      (z - x) ⬝ᵥ P.mulVec (z - x) := by
    rw [sub_zero, one_mulVec, hPe, ← Matrix.mulVec_mulVec, Matrix.mulVec_transpose,
      dotProduct_comm (z - x), ← Matrix.dotProduct_mulVec]
  rw [h2, h1, Matrix.det_one, Real.sqrt_one]
  ring

/-- The law of a linear image of a standard normal vector depends on `W Wᵀ` only. -/
theorem stdNormal_map_congr {n k d : ℕ} (W : Matrix (Fin d) (Fin n) ℝ) (S : Matrix (Fin d) (Fin k) ℝ)
    (h : W * W.transpose = S * S.transpose) :
    (stdNormal n).map (fun v => W.mulVec v) = (stdNormal k).map (fun v => S.mulVec v) := by
  have hm : ∀ {a : ℕ} (M : Matrix (Fin d) (Fin a) ℝ), Measurable fun v : Fin a → ℝ => M.mulVec v :=
    fun M => Continuous.measurable (Continuous.matrix_mulVec continuous_const continuous_id)
  have key : ∀ {a : ℕ} (M : Matrix (Fin d) (Fin a) ℝ) (L : StrongDual ℝ (Fin d → ℝ)),
      charFunDual ((stdNormal a).map fun v => M.mulVec v) L =
        Complex.exp (-((((fun i => L (Pi.single i 1)) ⬝ᵥ (M * M.transpose).mulVec
          (fun i => L (Pi.single i 1)) : ℝ)) : ℂ) / 2) := by
    intro a M L
    have e : ∀ v : Fin a → ℝ, L (M.mulVec v) =
        ∑ i, (M.transpose.mulVec fun i => L (Pi.single i 1)) i * v i := by
      intro v
      have h1 : L (M.mulVec v) = (fun i => L (Pi.single i 1)) ⬝ᵥ M.mulVec v := by
        conv_lhs => rw [← Finset.univ_sum_single (M.mulVec v)]
        rw [map_sum, dotProduct]
        refine Finset.sum_congr rfl fun i _ => ?_
        have : (Pi.single i (M.mulVec v i) : Fin d → ℝ) = M.mulVec v i • Pi.single i (1 : ℝ) := by
          rw [← Pi.single_smul, smul_eq_mul, mul_one]
        rw [this, map_smul, smul_eq_mul, mul_comm]
      rw [h1, Matrix.mulVec_transpose, Matrix.dotProduct_mulVec]
      rfl
    rw [charFunDual_apply, integral_map (hm M).aemeasurable
      (Measurable.aestronglyMeasurable (by fun_prop))]
    simp_rw [e, Complex.ofReal_sum, Finset.sum_mul, Complex.exp_sum]
    unfold stdNormal
    rw [integral_fintype_prod_eq_prod
      (f := fun i (x : ℝ) => Complex.exp (((M.transpose.mulVec fun i => L (Pi.single i 1)) i * x : ℝ) * Complex.I))]
    simp_rw [Complex.ofReal_mul, ← charFun_apply_real, charFun_gaussianReal]
    rw [← Complex.exp_sum]
    congr 1
    have : (((fun i => L (Pi.single i 1)) ⬝ᵥ (M * M.transpose).mulVec (fun i => L (Pi.single i 1)) : ℝ)) =
        ∑ i, (M.transpose.mulVec fun i => L (Pi.single i 1)) i ^ 2 := by
      rw [← Matrix.mulVec_mulVec, Matrix.dotProduct_mulVec, ← Matrix.mulVec_transpose, dotProduct]
      exact Finset.sum_congr rfl fun i _ => (sq _).symm
    rw [this]
    push_cast
    rw [← Finset.sum_neg_distrib, Finset.sum_div]
    refine Finset.sum_congr rfl fun i _ => ?_
    ring
  have i1 : IsProbabilityMeasure ((stdNormal n).map fun v => W.mulVec v) :=
    Measure.isProbabilityMeasure_map (hm W).aemeasurable
  have i2 : IsProbabilityMeasure ((stdNormal k).map fun v => S.mulVec v) :=
    Measure.isProbabilityMeasure_map (hm S).aemeasurable
  refine Measure.ext_of_charFunDual (funext fun L => ?_)
  rw [key, key, h]

/-- **Affine images of a standard normal vector.** If `W Wᵀ` is invertible with inverse `P`, then
`x + W ξ` has the Gaussian density with mean `x` and precision `P`. -/
theorem stdNormal_map {n d : ℕ} (W : Matrix (Fin d) (Fin n) ℝ) (P : Matrix (Fin d) (Fin d) ℝ)
    (hP : P * (W * W.transpose) = 1) (x : Fin d → ℝ) :
    (stdNormal n).map (fun v => x + W.mulVec v) = gaussLaw P x := by
  have hps : (W * W.transpose).PosSemidef := by
    have := Matrix.posSemidef_self_mul_conjTranspose W
    simpa using this
  obtain ⟨B, hB⟩ := CStarAlgebra.nonneg_iff_eq_star_mul_self.1 hps.nonneg
  have hB' : W * W.transpose = B.transpose * (B.transpose).transpose := by
    rw [hB, Matrix.star_eq_conjTranspose, Matrix.conjTranspose_eq_transpose_of_trivial,
      Matrix.transpose_transpose]
  have h1 := stdNormal_map_congr W B.transpose hB'
  have hm : ∀ {a : ℕ} (M : Matrix (Fin d) (Fin a) ℝ), Measurable fun v : Fin a → ℝ => M.mulVec v :=
    fun M => Continuous.measurable (Continuous.matrix_mulVec continuous_const continuous_id)
  have h2 := stdNormal_map_square B.transpose P (by rw [← hB']; exact hP) x
  rw [← h2]
  have e1 : (fun v => x + W.mulVec v) = (fun v => x + v) ∘ fun v => W.mulVec v := rfl
  have e2 : (fun v => x + B.transpose.mulVec v) = (fun v => x + v) ∘ fun v => B.transpose.mulVec v := rfl
  rw [e1, e2, ← Measure.map_map (measurable_const_add x) (hm _),
    ← Measure.map_map (measurable_const_add x) (hm _), h1]

end PW
