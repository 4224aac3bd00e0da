import Verif.Lemmas.KernelMetric
import Verif.Lemmas.MeasMatrix
import Verif.Lemmas.Metropolis
import Verif.Lemmas.Gaussian

/-! # The sparse barrier walks as Metropolis-Hastings chains on the kernel of `A` -/

namespace PW
open Matrix MeasureTheory
open scoped ENNReal
variable {m n d : ℕ}

theorem sparse_proposal_real {E : Eigen ℝ} (hE : E.SparseLLTSolveExact) {A : Matrix (Fin m) (Fin n) ℝ}
    (hA : IndepRows A) {G : Fin n → ℝ} (hG : ∀ i, 0 < G i) (D : ℝ) (x v : Fin n → ℝ) :
    SparseBarrier.proposal E D G A x v = x + Real.sqrt D • (dirMat A G *ᵥ v) := by
  have hp := scaled_posDef hA hG
  have hu := PosDef.isUnit_det hp
  unfold dirMat
  generalize hS : A * diagonal (invSqrt G) = S at hp hu
  have hsc : scaleCols A (invSqrt G) = S := by rw [scaleCols_eq, hS]
  have hsol : E.sparseLLTSolve (S * Sᵀ) (S *ᵥ v) = (S * Sᵀ)⁻¹ *ᵥ (S *ᵥ v) := by
    have := congrArg ((S * Sᵀ)⁻¹ *ᵥ ·) (hE (S * Sᵀ) (S *ᵥ v) hp)
    simpa [Matrix.nonsing_inv_mul _ hu] using this
  funext i
  have h1 : SparseBarrier.proposal E D G A x v i = x i + Real.sqrt D * (invSqrt G i *
      (v i - (Sᵀ *ᵥ E.sparseLLTSolve (S * Sᵀ) (S *ᵥ v)) i)) := by
    simp only [SparseBarrier.proposal, mulVec_real, mulMat_real, transp_eq, rsc_sqrt, hsc]
  rw [h1, hsol, ← Matrix.mulVec_mulVec, Matrix.sub_mulVec, Matrix.one_mulVec, Pi.add_apply, Pi.smul_apply,
    Matrix.mulVec_diagonal, Pi.sub_apply, Matrix.mulVec_mulVec, Matrix.mulVec_mulVec, smul_eq_mul]

/-- The log density at `z` of the Gaussian proposal at `x`, up to a constant. -/
noncomputable def kerLogDens (A : Matrix (Fin m) (Fin n) ℝ) (D : ℝ) (G x z : Fin n → ℝ) : ℝ :=
  1 / 2 * ((∑ i, Real.log (G i)) +
    Real.log ((A * diagonal (invSqrt G)) * (A * diagonal (invSqrt G))ᵀ).det) -
    1 / 2 / D * ∑ i, (z i - x i) * (G i * (z i - x i))

theorem cholesky_logdet {L M : Matrix (Fin n) (Fin n) ℝ} (h : IsCholesky L M) :
    2 * logDiagSum L = Real.log M.det := by
  have h1 : M.det = L.det * L.det := by rw [← h.mul_eq, Matrix.det_mul, Matrix.det_transpose]
  have h2 : L.det = ∏ i, L i i := Matrix.det_of_lowerTriangular L (by
    intro i j hij
    exact h.lower i j hij)
  have h3 : ∀ i ∈ Finset.univ, L i i ≠ 0 := fun i _ => (h.diag_pos i).ne'
  have h4 : L.det ≠ 0 := by rw [h2]; exact Finset.prod_ne_zero_iff.2 h3
  rw [h1, Real.log_mul h4 h4, h2, Real.log_prod h3]
  simp only [logDiagSum, vsum_real]
  simp only [rsc_log]
  ring

theorem sparse_logDensity_real {E : Eigen ℝ} (hE : E.SparseLLTLExact)
    {A : Matrix (Fin m) (Fin n) ℝ}
    (hA : IndepRows A) {G : Fin n → ℝ} (hG : ∀ i, 0 < G i) (hLU : E.SparseLUExact) (D : ℝ)
    (x z : Fin n → ℝ) (hxz : A *ᵥ x = A *ᵥ z) :
    SparseBarrier.logDensity E D G A x z = kerLogDens A D G x z := by
  have hp := scaled_posDef hA hG
  unfold kerLogDens
  generalize hS : A * diagonal (invSqrt G) = S at hp
  have hsc : scaleCols A (invSqrt G) = S := by rw [scaleCols_eq, hS]
  obtain ⟨p, hch⟩ := hE (S * Sᵀ) hp
  have hdet := cholesky_logdet hch
  rw [Matrix.det_submatrix_equiv_self] at hdet
  have hdiff : A *ᵥ (fun i => z i - x i) = 0 := by
    have : (fun i => z i - x i) = z - x := rfl
    rw [this, Matrix.mulVec_sub, hxz, sub_self]
  have hu := PosDef.isUnit_det hA.posDef
  have hsol : E.sparseLUSolve (A * Aᵀ) 0 = 0 := by
    have := congrArg ((A * Aᵀ)⁻¹ *ᵥ ·) (hLU (A * Aᵀ) 0 hu)
    simpa [Matrix.nonsing_inv_mul _ hu] using this
  simp only [SparseBarrier.logDensity, mulVec_real, mulMat_real, transp_eq, hsc, vsum_real, rsc_log,
    two_real, half_real, hdiff, hsol, Matrix.mulVec_zero, Pi.zero_apply, sub_zero]
  rw [hdet]

/-- The Gaussian density in kernel coordinates is a constant times the exponential of the log density the
code computes. -/
theorem gaussDensity_kernel {A : Matrix (Fin m) (Fin n) ℝ} (hA : IndepRows A)
    {B : Matrix (Fin n) (Fin d) ℝ} (hB : IsKernelBasis A B) {D : ℝ} (hD : 0 < D) :
    ∃ c : ℝ, 0 < c ∧ ∀ G : Fin n → ℝ, (∀ i, 0 < G i) → ∀ x₀ u v,
      gaussDensity ((1 / D) • (Bᵀ * diagonal G * B)) u v =
        c * Real.exp (kerLogDens A D G (chart x₀ B u) (chart x₀ B v)) := by
  obtain ⟨c, hc, hdet⟩ := det_kernel hA hB
  refine ⟨Real.sqrt ((1 / D) ^ d * c) * (Real.sqrt (2 * Real.pi))⁻¹ ^ d,
    by have := Real.pi_pos; positivity, fun G hG x₀ u v => ?_⟩
  have hHd := (scaled_posDef hA hG).det_pos
  have hdet' := hdet G hG
  unfold kerLogDens gaussDensity
  generalize (A * diagonal (invSqrt G)) * (A * diagonal (invSqrt G))ᵀ = H at hHd hdet'
  have hP : 0 < ∏ i, G i := Finset.prod_pos fun i _ => hG i
  have h1 : Real.sqrt (((1 / D) • (Bᵀ * diagonal G * B)).det) = Real.sqrt ((1 / D) ^ d * c) *
      Real.exp (1 / 2 * ((∑ i, Real.log (G i)) + Real.log H.det)) := by
    rw [Matrix.det_smul, hdet', Fintype.card_fin, ← mul_assoc, Real.sqrt_mul (by positivity)]
    congr 1
    rw [← Real.log_prod (fun i _ => (hG i).ne'), ← Real.log_mul hP.ne' hHd.ne']
    rw [Real.sqrt_eq_rpow, Real.rpow_def_of_pos (by positivity), mul_comm]
  have h2 : (v - u) ⬝ᵥ ((1 / D) • (Bᵀ * diagonal G * B)) *ᵥ (v - u) =
      1 / D * ∑ i, (chart x₀ B v i - chart x₀ B u i) * (G i * (chart x₀ B v i - chart x₀ B u i)) := by
    have hw : ∀ i, chart x₀ B v i - chart x₀ B u i = (B *ᵥ (v - u)) i := fun i => by
      simp [chart, Matrix.mulVec_sub]
    simp only [hw]
    rw [Matrix.smul_mulVec, dotProduct_smul, smul_eq_mul, ← Matrix.mulVec_mulVec, ← Matrix.mulVec_mulVec]
    congr 1
    rw [Matrix.dotProduct_mulVec, Matrix.vecMul_transpose, dotProduct]
    simp [Matrix.mulVec_diagonal]
  rw [h1, h2, sub_eq_add_neg, Real.exp_add]
  have h3 : -(1 / D * ∑ i, (chart x₀ B v i - chart x₀ B u i) * (G i * (chart x₀ B v i - chart x₀ B u i))) / 2 =
      -(1 / 2 / D * ∑ i, (chart x₀ B v i - chart x₀ B u i) * (G i * (chart x₀ B v i - chart x₀ B u i))) := by
    ring
  rw [h3]
  ring

end PW
