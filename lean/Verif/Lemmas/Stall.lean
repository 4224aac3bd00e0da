import Verif.Lemmas.Continue
import Verif.Props.SparseUserLaw
import Verif.Props.SparseBallConverges

/-! # How often a Metropolis-Hastings walk stays put -/

namespace PW
open Matrix MeasureTheory Set
open scoped ENNReal
variable {m n d : ℕ}

/-! ## Linear algebra -/

theorem det_ge {H : Matrix (Fin d) (Fin d) ℝ} (hH : H.IsHermitian) {c : ℝ} (hc : 0 ≤ c) (h : ∀ v : Fin d → ℝ, c * (v ⬝ᵥ v) ≤ v ⬝ᵥ H *ᵥ v) : c ^ d ≤ H.det := by
  have h1 : ∀ i, c ≤ hH.eigenvalues i := by
    intro i
    have h2 := h (hH.eigenvectorBasis i)
    have h3 := hH.eigenvalues_eq i
    have h4 : ((hH.eigenvectorBasis i : EuclideanSpace ℝ (Fin d)).ofLp ⬝ᵥ (hH.eigenvectorBasis i).ofLp) = 1 := by
      have h5 := hH.eigenvectorBasis.orthonormal.1 i
      have h6 : ‖hH.eigenvectorBasis i‖ ^ 2 = 1 := by rw [h5, one_pow]
      rw [EuclideanSpace.norm_sq_eq] at h6
      rw [← h6]
      exact Finset.sum_congr rfl fun j _ => by rw [Real.norm_eq_abs, sq_abs, sq]
    rw [h4, mul_one] at h2
    rw [h3]
    exact h2
  rw [hH.det_eq_prod_eigenvalues]
  calc c ^ d = ∏ _i : Fin d, c := by rw [Finset.prod_const, Finset.card_univ, Fintype.card_fin]
    _ ≤ ∏ i, hH.eigenvalues i := Finset.prod_le_prod (fun _ _ => hc) fun i _ => h1 i
    _ = _ := by simp

/-! ## The standard normal law -/

theorem stdNormal_sq (d : ℕ) (i : Fin d) : ∫⁻ ξ, ENNReal.ofReal (ξ i ^ 2) ∂(stdNormal d) = 1 := by
  have h1 : MeasurePreserving (fun ξ : Fin d → ℝ => ξ i) (stdNormal d) (ProbabilityTheory.gaussianReal 0 1) :=
    measurePreserving_eval (fun _ : Fin d => ProbabilityTheory.gaussianReal 0 1) i
  have h2 : Measurable fun x : ℝ => ENNReal.ofReal (x ^ 2) := (measurable_id.pow_const 2).ennreal_ofReal
  have h3 : ∫⁻ ξ, ENNReal.ofReal (ξ i ^ 2) ∂(stdNormal d) = ∫⁻ x, ENNReal.ofReal (x ^ 2) ∂(ProbabilityTheory.gaussianReal 0 1) := h1.lintegral_comp h2
  rw [h3]
  have h4 := ProbabilityTheory.variance_id_gaussianReal (μ := 0) (v := 1)
  have h5 := ProbabilityTheory.variance_eq_sub (ProbabilityTheory.memLp_id_gaussianReal (μ := 0) (v := 1) 2)
  rw [h4] at h5
  simp only [ProbabilityTheory.integral_id_gaussianReal, id_eq, Pi.pow_apply] at h5
  have hint : Integrable (fun x : ℝ => x ^ 2) (ProbabilityTheory.gaussianReal 0 1) := (ProbabilityTheory.memLp_id_gaussianReal (μ := 0) (v := 1) 2).integrable_sq
  rw [← ofReal_integral_eq_lintegral_ofReal hint (ae_of_all _ fun x => sq_nonneg x)]
  simp at h5
  rw [← h5, ENNReal.ofReal_one]

theorem measurable_sumSq (d : ℕ) : Measurable fun ξ : Fin d → ℝ => ∑ i, ξ i ^ 2 :=
  Finset.measurable_sum _ fun i _ => (measurable_pi_apply i).pow_const 2

/-- Markov's inequality for the squared length. -/
theorem stdNormal_ball (d : ℕ) {r : ℝ} (hr : 0 < r) : ENNReal.ofReal (1 - d / r) ≤ stdNormal d {ξ | ∑ i, ξ i ^ 2 ≤ r} := by
  have hm := measurable_sumSq d
  have h1 : ∫⁻ ξ, ENNReal.ofReal (∑ i, ξ i ^ 2) ∂(stdNormal d) = d := by
    have : ∀ ξ : Fin d → ℝ, ENNReal.ofReal (∑ i, ξ i ^ 2) = ∑ i, ENNReal.ofReal (ξ i ^ 2) := fun ξ => ENNReal.ofReal_sum_of_nonneg fun i _ => sq_nonneg _
    simp only [this]
    rw [lintegral_finsetSum _ fun i _ => ((measurable_pi_apply i).pow_const 2).ennreal_ofReal]
    simp only [stdNormal_sq]
    simp
  have h2 := mul_meas_ge_le_lintegral (μ := stdNormal d) hm.ennreal_ofReal (ENNReal.ofReal r)
  rw [h1] at h2
  have h3 : stdNormal d {ξ | ENNReal.ofReal r ≤ ENNReal.ofReal (∑ i, ξ i ^ 2)} ≤ ENNReal.ofReal (d / r) := by
    rw [ENNReal.ofReal_div_of_pos hr, ENNReal.ofReal_natCast, ENNReal.le_div_iff_mul_le (Or.inl (by simpa using hr)) (Or.inl ENNReal.ofReal_ne_top), mul_comm]
    exact h2
  have h4 : {ξ : Fin d → ℝ | ∑ i, ξ i ^ 2 ≤ r}ᶜ ⊆ {ξ | ENNReal.ofReal r ≤ ENNReal.ofReal (∑ i, ξ i ^ 2)} := fun ξ hξ => by
    have hξ : ¬ ∑ i, ξ i ^ 2 ≤ r := hξ
    exact ENNReal.ofReal_le_ofReal (not_le.1 hξ).le
  have hms : MeasurableSet {ξ : Fin d → ℝ | ∑ i, ξ i ^ 2 ≤ r} := measurableSet_le hm measurable_const
  have h5 := (measure_mono h4).trans h3
  rw [prob_compl_eq_one_sub hms] at h5
  have h6 : (1 : ℝ≥0∞) ≤ ENNReal.ofReal (d / r) + stdNormal d {ξ | ∑ i, ξ i ^ 2 ≤ r} := tsub_le_iff_right.1 h5
  rw [ENNReal.ofReal_sub _ (by positivity), ENNReal.ofReal_one]
  exact tsub_le_iff_left.2 h6

/-! ## A lower bound on the probability of a move -/

/-- A basis of the kernel of `A`, orthonormal for a diagonal metric. -/
theorem exists_metricBasis {A : Matrix (Fin m) (Fin n) ℝ} {G : Fin n → ℝ} (hG : ∀ i, 0 < G i) :
    ∃ (d : ℕ) (B : Matrix (Fin n) (Fin d) ℝ), IsKernelBasis A B ∧ Bᵀ * diagonal G * B = 1 := by
  have hs : ∀ i, 0 < Real.sqrt (G i) := fun i => Real.sqrt_pos.2 (hG i)
  obtain ⟨d, Z, hZ⟩ := exists_kernelBasis (A * diagonal fun i => (Real.sqrt (G i))⁻¹)
  obtain ⟨Q, hQ, hQQ⟩ := exists_orthoBasis hZ
  refine ⟨d, (diagonal fun i => (Real.sqrt (G i))⁻¹) * Q, ⟨?_, fun u hu => ?_, fun v hv => ?_⟩, ?_⟩
  · rw [← Matrix.mul_assoc]; exact hQ.mul_zero
  · refine hQ.inj u ?_
    rw [← Matrix.mulVec_mulVec] at hu
    funext i
    have h1 := congrFun hu i
    rw [Matrix.mulVec_diagonal] at h1
    exact (mul_eq_zero.1 h1).resolve_left (inv_ne_zero (hs i).ne')
  · obtain ⟨u, hu⟩ := hQ.span (fun i => Real.sqrt (G i) * v i) (by
      rw [← Matrix.mulVec_mulVec, ← hv]
      congr 1
      funext i
      rw [Matrix.mulVec_diagonal, inv_mul_cancel_left₀ (hs i).ne'])
    refine ⟨u, ?_⟩
    rw [← Matrix.mulVec_mulVec, hu]
    funext i
    rw [Matrix.mulVec_diagonal, inv_mul_cancel_left₀ (hs i).ne']
  · have h1 : (diagonal fun i => (Real.sqrt (G i))⁻¹) * diagonal G * (diagonal fun i => (Real.sqrt (G i))⁻¹) = (1 : Matrix (Fin n) (Fin n) ℝ) := by
      rw [Matrix.diagonal_mul_diagonal, Matrix.diagonal_mul_diagonal, ← Matrix.diagonal_one]
      congr 1
      funext i
      have h2 := Real.mul_self_sqrt (hG i).le
      have h3 := (hs i).ne'
      field_simp
      rw [sq]; exact h2.symm
    rw [Matrix.transpose_mul, Matrix.diagonal_transpose]
    calc Qᵀ * (diagonal fun i => (Real.sqrt (G i))⁻¹) * diagonal G * ((diagonal fun i => (Real.sqrt (G i))⁻¹) * Q)
        = Qᵀ * ((diagonal fun i => (Real.sqrt (G i))⁻¹) * diagonal G * (diagonal fun i => (Real.sqrt (G i))⁻¹)) * Q := by simp only [Matrix.mul_assoc]
      _ = 1 := by rw [h1, Matrix.mul_one, hQQ]

theorem metric_form (B : Matrix (Fin n) (Fin d) ℝ) (G : Fin n → ℝ) (v : Fin d → ℝ) :
    v ⬝ᵥ (Bᵀ * diagonal G * B) *ᵥ v = ∑ i, G i * (B *ᵥ v) i ^ 2 := by
  rw [← Matrix.mulVec_mulVec, ← Matrix.mulVec_mulVec, Matrix.dotProduct_mulVec, Matrix.vecMul_transpose]
  unfold dotProduct
  refine Finset.sum_congr rfl fun i _ => ?_
  rw [Matrix.mulVec_diagonal]; ring

/-- The Gaussian density with precision `s • 1`. -/
theorem gaussDensity_smul_one (s : ℝ) (v : Fin d → ℝ) :
    gaussDensity (s • (1 : Matrix (Fin d) (Fin d) ℝ)) 0 v = Real.sqrt (s ^ d) * (Real.sqrt (2 * Real.pi))⁻¹ ^ d * Real.exp (-(s * (v ⬝ᵥ v)) / 2) := by
  unfold gaussDensity
  rw [Matrix.det_smul, Matrix.det_one, mul_one, Fintype.card_fin, sub_zero, Matrix.smul_mulVec, Matrix.one_mulVec, dotProduct_smul, smul_eq_mul]

theorem gaussDensity_ge {c₁ c₂ D : ℝ} (h0 : 0 < c₁) (h2 : 0 < c₂) (hD : 0 < D) {H : Matrix (Fin d) (Fin d) ℝ} (hH : H.IsHermitian)
    (hlo : ∀ v : Fin d → ℝ, c₁ * (v ⬝ᵥ v) ≤ v ⬝ᵥ H *ᵥ v) (hhi : ∀ v : Fin d → ℝ, v ⬝ᵥ H *ᵥ v ≤ c₂ * (v ⬝ᵥ v)) (u v : Fin d → ℝ) :
    Real.sqrt ((c₁ / c₂) ^ d) * gaussDensity ((c₂ / D) • (1 : Matrix (Fin d) (Fin d) ℝ)) 0 (v - u) ≤ gaussDensity ((1 / D) • H) u v := by
  rw [gaussDensity_smul_one]
  unfold gaussDensity
  have e1 : Real.sqrt ((c₁ / c₂) ^ d) * Real.sqrt ((c₂ / D) ^ d) = Real.sqrt ((c₁ / D) ^ d) := by
    rw [← Real.sqrt_mul (by positivity), ← mul_pow]
    congr 2
    field_simp
  have e2 : Real.sqrt ((c₁ / D) ^ d) ≤ Real.sqrt ((1 / D) • H).det := by
    refine Real.sqrt_le_sqrt ?_
    rw [Matrix.det_smul, Fintype.card_fin]
    have := mul_le_mul_of_nonneg_left (det_ge hH h0.le hlo) (show 0 ≤ (1 / D) ^ d by positivity)
    rw [← mul_pow] at this
    refine le_trans (le_of_eq ?_) this
    congr 1; field_simp
  have e3 : -((v - u) ⬝ᵥ ((1 / D) • H) *ᵥ (v - u)) / 2 ≥ -(c₂ / D * ((v - u) ⬝ᵥ (v - u))) / 2 := by
    rw [Matrix.smul_mulVec, dotProduct_smul, smul_eq_mul]
    have h3 := mul_le_mul_of_nonneg_left (hhi (v - u)) (show 0 ≤ 1 / D by positivity)
    have h4 : c₂ / D * ((v - u) ⬝ᵥ (v - u)) = 1 / D * (c₂ * ((v - u) ⬝ᵥ (v - u))) := by field_simp
    rw [h4]
    exact div_le_div_of_nonneg_right (neg_le_neg h3) (by norm_num)
  rw [← mul_assoc, ← mul_assoc, e1]
  exact mul_le_mul (mul_le_mul_of_nonneg_right e2 (by positivity)) (Real.exp_le_exp.2 e3) (Real.exp_pos _).le (by positivity)

theorem gaussLaw_ball {s : ℝ} (hs : 0 < s) (ρ : ℝ) :
    ∫⁻ v in {v : Fin d → ℝ | v ⬝ᵥ v ≤ ρ}, ENNReal.ofReal (gaussDensity (s • (1 : Matrix (Fin d) (Fin d) ℝ)) 0 v) =
      stdNormal d {ξ | ∑ i, ξ i ^ 2 ≤ s * ρ} := by
  have hms : MeasurableSet {v : Fin d → ℝ | v ⬝ᵥ v ≤ ρ} := measurableSet_le (by
    refine Finset.measurable_sum _ fun i _ => (measurable_pi_apply i).mul (measurable_pi_apply i)) measurable_const
  have h1 : (stdNormal d).map (fun v => (0 : Fin d → ℝ) + ((Real.sqrt s)⁻¹ • (1 : Matrix (Fin d) (Fin d) ℝ)).mulVec v) = gaussLaw (s • 1) 0 := by
    refine stdNormal_map_square _ _ ?_ 0
    have hq := Real.mul_self_sqrt hs.le
    have hq0 : Real.sqrt s ≠ 0 := (Real.sqrt_pos.2 hs).ne'
    rw [Matrix.transpose_smul, Matrix.transpose_one, Matrix.smul_mul, Matrix.one_mul, Matrix.smul_mul, Matrix.one_mul, smul_smul, smul_smul]
    have : s * ((Real.sqrt s)⁻¹ * (Real.sqrt s)⁻¹) = 1 := by rw [← mul_inv, hq, mul_inv_cancel₀ hs.ne']
    rw [← mul_assoc] at this
    simp only [smul_smul, this, one_smul, mul_assoc] at *
    first | done | simp [this]
  have h2 : gaussLaw (s • (1 : Matrix (Fin d) (Fin d) ℝ)) 0 {v : Fin d → ℝ | v ⬝ᵥ v ≤ ρ} = ∫⁻ v in {v : Fin d → ℝ | v ⬝ᵥ v ≤ ρ},
      ENNReal.ofReal (gaussDensity (s • (1 : Matrix (Fin d) (Fin d) ℝ)) 0 v) := by
    unfold gaussLaw
    rw [withDensity_apply _ hms]
  have hmf : Measurable fun v : Fin d → ℝ => (0 : Fin d → ℝ) + ((Real.sqrt s)⁻¹ • (1 : Matrix (Fin d) (Fin d) ℝ)).mulVec v :=
    Continuous.measurable (continuous_const.add (Continuous.matrix_mulVec continuous_const continuous_id))
  rw [← h2, ← h1, Measure.map_apply hmf hms]
  congr 1
  ext ξ
  show (0 + ((Real.sqrt s)⁻¹ • (1 : Matrix (Fin d) (Fin d) ℝ)).mulVec ξ) ⬝ᵥ (0 + ((Real.sqrt s)⁻¹ • (1 : Matrix (Fin d) (Fin d) ℝ)).mulVec ξ) ≤ ρ ↔ _
  rw [zero_add, Matrix.smul_mulVec, Matrix.one_mulVec, dotProduct_smul, smul_dotProduct, smul_eq_mul, smul_eq_mul, ← mul_assoc, ← mul_inv,
    Real.mul_self_sqrt hs.le, inv_mul_le_iff₀ hs]
  have : ξ ⬝ᵥ ξ = ∑ i, ξ i ^ 2 := Finset.sum_congr rfl fun i _ => (sq _).symm
  rw [this]
  rfl

section
variable {A : Matrix (Fin m) (Fin n) ℝ} (hA : IndepRows A) {k : ℕ} {D : ℝ} (hD : 0 < D) {x : Fin n → ℝ} (hx : x ∈ TailPos n k)
  (hb : ∃ M, ∀ y ∈ PolyEq A (A *ᵥ x) k, ∀ i, |y i| ≤ M) {Gf : (Fin n → ℝ) → Fin n → ℝ} (hGm : ∀ i, Measurable fun x => Gf x i)
  (hGpos : ∀ x ∈ TailPos n k, ∀ i, 0 < Gf x i)
include hA hD hx hb hGm hGpos

/-- If the metric varies little on an ellipsoid around `x`, the walk leaves `x` with a probability that depends on how little, not on `x`. -/
theorem sparse_stay_le (hmn : m < n) {c₁ c₂ ρ : ℝ} (h0 : 0 < c₁) (h1 : c₁ ≤ 1) (h2 : 1 ≤ c₂)
    (hloc : ∀ z, A *ᵥ z = A *ᵥ x → ∑ i, Gf x i * (z i - x i) ^ 2 ≤ ρ → z ∈ TailPos n k ∧ ∀ i, c₁ * Gf x i ≤ Gf z i ∧ Gf z i ≤ c₂ * Gf x i) :
    ((stdNormal n).prod unitLaw) {w | mhMove (TailNonneg n k) (sparseProp A D Gf) (sparseAccept A D Gf) x w = x} ≤
      1 - ENNReal.ofReal (Real.sqrt ((c₁ / c₂) ^ (n - m))) * stdNormal (n - m) {ξ | ∑ i, ξ i ^ 2 ≤ c₂ / D * ρ} := by
  obtain ⟨d, B, hB, hBB⟩ := exists_metricBasis (A := A) (hGpos x hx)
  have hcard := kernelBasis_card hA hB
  obtain rfl : d = n - m := by omega
  obtain ⟨c, hc, hdens⟩ := gaussDensity_kernel hA hB hD
  have h := sparse_mhData_of hA hD hx hB hb hGm hGpos hc hdens
  have hc2 : 0 < c₂ := by linarith
  have hch0 : chart x B 0 = x := by show x + B *ᵥ 0 = x; rw [Matrix.mulVec_zero, add_zero]
  have hu : chart x B 0 ∈ relInterior A k x := by rw [hch0]; exact ⟨hx, rfl⟩
  have hsub : ∀ v i, chart x B v i - x i = (B *ᵥ v) i := fun v i => by show x i + (B *ᵥ v) i - x i = _; ring
  have hchA : ∀ v, A *ᵥ chart x B v = A *ᵥ x := fun v => by
    show A *ᵥ (x + B *ᵥ v) = _
    rw [Matrix.mulVec_add, Matrix.mulVec_mulVec, hB.mul_zero, Matrix.zero_mulVec, add_zero]
  have hnorm : ∀ v, ∑ i, Gf x i * (B *ᵥ v) i ^ 2 = v ⬝ᵥ v := fun v => by rw [← metric_form, hBB, Matrix.one_mulVec]
  have hball : ∀ v, v ⬝ᵥ v ≤ ρ → chart x B v ∈ TailPos n k ∧ ∀ i, c₁ * Gf x i ≤ Gf (chart x B v) i ∧ Gf (chart x B v) i ≤ c₂ * Gf x i := fun v hv =>
    hloc _ (hchA v) (by simp only [hsub]; rw [hnorm]; exact hv)
  have hSsub : {v : Fin (n - m) → ℝ | v ⬝ᵥ v ≤ ρ} ⊆ chart x B ⁻¹' TailNonneg n k := fun v hv => tailPos_subset n k (hball v hv).1
  have hms : MeasurableSet {v : Fin (n - m) → ℝ | v ⬝ᵥ v ≤ ρ} := measurableSet_le (by
    refine Finset.measurable_sum _ fun i _ => (measurable_pi_apply i).mul (measurable_pi_apply i)) measurable_const
  -- the density of a move
  have hlow : ∀ v, v ⬝ᵥ v ≤ ρ → ENNReal.ofReal (Real.sqrt ((c₁ / c₂) ^ (n - m))) *
      ENNReal.ofReal (gaussDensity ((c₂ / D) • (1 : Matrix (Fin (n - m)) (Fin (n - m)) ℝ)) 0 v) ≤
      mhDens (chart x B) (sparseAccept A D Gf) (sparseCoordDens A D Gf x B c) 0 v := by
    intro v hv
    obtain ⟨hz, hG⟩ := hball v hv
    unfold mhDens sparseCoordDens
    rw [← ENNReal.ofReal_mul (Real.sqrt_nonneg _), ← ENNReal.ofReal_mul (by positivity)]
    refine ENNReal.ofReal_le_ofReal ?_
    unfold sparseAccept
    have key : ∀ p q : ℝ, c * Real.exp p * min 1 (Real.exp (q - p)) = min (c * Real.exp p) (c * Real.exp q) := by
      intro p q
      rw [mul_min_of_nonneg _ _ (by positivity), mul_one, mul_assoc, ← Real.exp_add]
      congr 3; ring_nf
    rw [key, ← hdens _ (fun i => hGpos _ hz i), ← hdens _ (fun i => by rw [hch0]; exact hGpos _ hx i), hch0, hBB]
    refine le_min ?_ ?_
    · have := gaussDensity_ge (u := 0) (v := v) h0 hc2 hD (H := (1 : Matrix (Fin (n - m)) (Fin (n - m)) ℝ)) Matrix.isHermitian_one
        (fun v => by
          rw [Matrix.one_mulVec]
          have : 0 ≤ v ⬝ᵥ v := Finset.sum_nonneg fun i _ => mul_self_nonneg _
          calc c₁ * (v ⬝ᵥ v) ≤ 1 * (v ⬝ᵥ v) := mul_le_mul_of_nonneg_right h1 this
            _ = _ := one_mul _)
        (fun v => by
          rw [Matrix.one_mulVec]
          have : 0 ≤ v ⬝ᵥ v := Finset.sum_nonneg fun i _ => mul_self_nonneg _
          calc v ⬝ᵥ v = 1 * (v ⬝ᵥ v) := (one_mul _).symm
            _ ≤ _ := mul_le_mul_of_nonneg_right h2 this)
      rw [sub_zero] at this
      exact this
    · have hH : (Bᵀ * diagonal (Gf (chart x B v)) * B).IsHermitian := by
        unfold Matrix.IsHermitian
        rw [Matrix.conjTranspose_eq_transpose_of_trivial, Matrix.transpose_mul, Matrix.transpose_mul, Matrix.diagonal_transpose, Matrix.transpose_transpose,
          Matrix.mul_assoc]
      have := gaussDensity_ge (u := v) (v := 0) h0 hc2 hD hH
        (fun w => by
          rw [metric_form, ← hnorm, Finset.mul_sum]
          refine Finset.sum_le_sum fun i _ => ?_
          rw [← mul_assoc]
          exact mul_le_mul_of_nonneg_right (hG i).1 (sq_nonneg _))
        (fun w => by
          rw [metric_form, ← hnorm, Finset.mul_sum]
          refine Finset.sum_le_sum fun i _ => ?_
          rw [← mul_assoc]
          exact mul_le_mul_of_nonneg_right (hG i).2 (sq_nonneg _))
      refine le_trans (le_of_eq ?_) this
      rw [gaussDensity_smul_one, gaussDensity_smul_one, zero_sub, neg_dotProduct_neg]
  have hmove : ENNReal.ofReal (Real.sqrt ((c₁ / c₂) ^ (n - m))) * stdNormal (n - m) {ξ | ∑ i, ξ i ^ 2 ≤ c₂ / D * ρ} ≤
      ∫⁻ v in chart x B ⁻¹' TailNonneg n k, mhDens (chart x B) (sparseAccept A D Gf) (sparseCoordDens A D Gf x B c) 0 v := by
    rw [← gaussLaw_ball (div_pos hc2 hD) ρ, ← lintegral_const_mul' _ _ ENNReal.ofReal_ne_top]
    refine le_trans (setLIntegral_mono' hms fun v hv => hlow v hv) ?_
    exact lintegral_mono_set hSsub
  have mM := meas_at (measurable_mhMove h.measC h.measP h.measa) x
  have hexp := h.expect hu (F := ({x} : Set (Fin n → ℝ)).indicator 1) (measurable_one.indicator (measurableSet_singleton x))
  rw [hch0] at hexp
  have e1 : ∫⁻ w, ({x} : Set (Fin n → ℝ)).indicator 1 (mhMove (TailNonneg n k) (sparseProp A D Gf) (sparseAccept A D Gf) x w) ∂((stdNormal n).prod unitLaw) =
      ((stdNormal n).prod unitLaw) {w | mhMove (TailNonneg n k) (sparseProp A D Gf) (sparseAccept A D Gf) x w = x} :=
    lintegral_indicator_one (mM (measurableSet_singleton x))
  rw [← e1, hexp, indicator_of_mem (mem_singleton x), Pi.one_apply, mul_one]
  have e2 : ∫⁻ v in chart x B ⁻¹' TailNonneg n k, mhDens (chart x B) (sparseAccept A D Gf) (sparseCoordDens A D Gf x B c) 0 v *
      ({x} : Set (Fin n → ℝ)).indicator 1 (chart x B v) = 0 := by
    have hne : Nonempty (Fin (n - m)) := ⟨⟨0, by omega⟩⟩
    have h3 : ∀ᵐ v : Fin (n - m) → ℝ, v ≠ 0 := by
      rw [ae_iff]
      have : {a : Fin (n - m) → ℝ | ¬ a ≠ 0} = {0} := by ext; simp
      rw [this]
      exact measure_singleton _
    refine (lintegral_congr_ae ?_).trans lintegral_zero
    filter_upwards [ae_restrict_of_ae h3] with v hv
    rw [indicator_of_notMem, mul_zero]
    intro hm
    have hm : x + B *ᵥ v = x := hm
    exact hv (hB.inj v (add_eq_left.1 hm))
  rw [e2, zero_add]
  have ht := h.total hu
  refine (ENNReal.le_sub_of_add_le_right ?_ ?_)
  · exact ne_top_of_le_ne_top ENNReal.one_ne_top (hmove.trans (ht ▸ le_self_add))
  · rw [add_comm]
    exact (add_le_add_left hmove _).trans ht.le

end


/-! ## Standing still for several iterations -/

section
variable {X W G : Type} [MeasurableSpace X] [MeasurableSpace W] [MeasurableSpace G] {μ : Measure G} [IsProbabilityMeasure μ] {ν : Measure W}
  {f : X → G → X × G} {T : X → W → X} [MeasurableSingletonClass X]

/-- The chain stands still for `t` steps with the `t`-th power of the probability that it stands still for one. -/
theorem stall_start_eq (mf : Measurable fun p : X × G => f p.1 p.2) (hd : Drives μ ν f T) (mT : Measurable fun p : X × W => T p.1 p.2) (x : X) (t : ℕ) :
    μ {g | ∀ i ≤ t, posAt f x i g = x} = ν {w | T x w = x} ^ t := by
  induction t with
  | zero =>
    have : {g | ∀ i ≤ 0, posAt f x i g = x} = univ := eq_univ_of_forall fun g i hi => by
      obtain rfl : i = 0 := by omega
      rfl
    rw [this, measure_univ, pow_zero]
  | succ t ih =>
    have hS : ∀ t, MeasurableSet {p : X × G | ∀ i ≤ t, posAt f p.1 i p.2 = x} := fun t => by
      have : {p : X × G | ∀ i ≤ t, posAt f p.1 i p.2 = x} = ⋂ i ∈ Set.Iic t, {p : X × G | posAt f p.1 i p.2 = x} := by ext; simp
      rw [this]
      exact MeasurableSet.biInter (Set.to_countable _) fun i _ => measurable_posAt_joint mf i (measurableSet_singleton x)
    have hset : {g | ∀ i ≤ t + 1, posAt f x i g = x} = {g | f x g ∈ {p : X × G | ∀ i ≤ t, posAt f p.1 i p.2 = x}} := by
      ext g
      constructor
      · intro h i hi
        show posAt f (f x g).1 i (f x g).2 = x
        rw [← posAt_succ]
        exact h (i + 1) (by omega)
      · intro h i hi
        cases i with
        | zero => rfl
        | succ i => rw [posAt_succ]; exact h i (by omega)
    have mfx : Measurable fun g => f x g := mf.comp measurable_prodMk_left
    have e1 := hd _ (measurable_one.indicator (hS t)) x
    have e2 : ∫⁻ g, ({p : X × G | ∀ i ≤ t, posAt f p.1 i p.2 = x}).indicator 1 (f x g) ∂μ = μ {g | ∀ i ≤ t + 1, posAt f x i g = x} := by
      rw [hset]; exact lintegral_indicator_one (mfx (hS t))
    rw [← e2, e1]
    have e3 : ∀ w, ∫⁻ g, ({p : X × G | ∀ i ≤ t, posAt f p.1 i p.2 = x}).indicator 1 (T x w, g) ∂μ =
        ({w | T x w = x}).indicator (fun _ => ν {w | T x w = x} ^ t) w := by
      intro w
      by_cases hw : T x w = x
      · rw [indicator_of_mem (show w ∈ {w | T x w = x} from hw), hw]
        have : ∫⁻ g, ({p : X × G | ∀ i ≤ t, posAt f p.1 i p.2 = x}).indicator 1 (x, g) ∂μ = μ {g | ∀ i ≤ t, posAt f x i g = x} :=
          lintegral_indicator_one (measurable_prodMk_left (hS t))
        rw [this]; exact ih
      · rw [indicator_of_notMem (show w ∉ {w | T x w = x} from hw)]
        refine (lintegral_congr fun g => ?_).trans lintegral_zero
        rw [indicator_of_notMem]
        intro h
        exact hw (h 0 (Nat.zero_le _))
    simp only [e3]
    have hmS : MeasurableSet {w | T x w = x} := (meas_at mT x) (measurableSet_singleton x)
    rw [lintegral_indicator_const hmS, pow_succ]

theorem stall_start (mf : Measurable fun p : X × G => f p.1 p.2) (hd : Drives μ ν f T) (mT : Measurable fun p : X × W => T p.1 p.2) {q : ℝ≥0∞} {x : X}
    (hq : ν {w | T x w = x} ≤ q) (t : ℕ) : μ {g | ∀ i ≤ t, posAt f x i g = x} ≤ q ^ t := by
  rw [stall_start_eq mf hd mT]
  exact pow_le_pow_left' hq t

theorem stall_after (mf : Measurable fun p : X × G => f p.1 p.2) (hd : Drives μ ν f T) (mT : Measurable fun p : X × W => T p.1 p.2)
    (hdiag : MeasurableSet {p : X × X | p.1 = p.2}) {q : ℝ≥0∞} {K : Set X}
    (hq : ∀ x ∈ K, ν {w | T x w = x} ≤ q) {x : X} (s t : ℕ) (hK : ∀ᵐ g ∂μ, posAt f x s g ∈ K) :
    μ {g | ∀ i ≤ t, posAt f x (s + i) g = posAt f x s g} ≤ q ^ t := by
  have hS : MeasurableSet {p : (ℕ → X) × G | ∀ i ≤ t, posAt f (p.1 s) i p.2 = p.1 s} := by
    have : {p : (ℕ → X) × G | ∀ i ≤ t, posAt f (p.1 s) i p.2 = p.1 s} = ⋂ i ∈ Set.Iic t, {p : (ℕ → X) × G | posAt f (p.1 s) i p.2 = p.1 s} := by ext; simp
    rw [this]
    refine MeasurableSet.biInter (Set.to_countable _) fun i _ => ?_
    have m1 : Measurable fun p : (ℕ → X) × G => p.1 s := (measurable_pi_apply s).comp measurable_fst
    have m2 : Measurable fun p : (ℕ → X) × G => posAt f (p.1 s) i p.2 := (measurable_posAt_joint mf i).comp (m1.prodMk measurable_snd)
    exact (m2.prodMk m1) hdiag
  have key := fresh_generator mf hd s x (measurable_one.indicator hS)
  have hgoal : {g | ∀ i ≤ t, posAt f x (s + i) g = posAt f x s g} =
      {g | (histAt f s (x, g), genAt f s (x, g)) ∈ {p : (ℕ → X) × G | ∀ i ≤ t, posAt f (p.1 s) i p.2 = p.1 s}} := by
    ext g
    have h1 : histAt f s (x, g) s = posAt f x s g := by show posAt f x (min s s) g = _; rw [min_self]
    show (∀ i ≤ t, posAt f x (s + i) g = posAt f x s g) ↔ ∀ i ≤ t, posAt f (histAt f s (x, g) s) i (genAt f s (x, g)) = histAt f s (x, g) s
    rw [h1]
    simp only [posAt_add]
  have mpair : Measurable fun g => (histAt f s (x, g), genAt f s (x, g)) :=
    ((measurable_histAt mf s).comp measurable_prodMk_left).prodMk ((measurable_genAt mf s).comp measurable_prodMk_left)
  have e1 : ∫⁻ g, ({p : (ℕ → X) × G | ∀ i ≤ t, posAt f (p.1 s) i p.2 = p.1 s}).indicator 1 (histAt f s (x, g), genAt f s (x, g)) ∂μ =
      μ {g | ∀ i ≤ t, posAt f x (s + i) g = posAt f x s g} := by
    rw [hgoal]; exact lintegral_indicator_one (mpair hS)
  rw [← e1, key]
  refine (lintegral_mono_ae (g := fun _ => q ^ t) ?_).trans (by rw [lintegral_const, measure_univ, mul_one])
  filter_upwards [hK] with g hg
  have h1 : histAt f s (x, g) s = posAt f x s g := by show posAt f x (min s s) g = _; rw [min_self]
  have e2 : ∫⁻ g', ({p : (ℕ → X) × G | ∀ i ≤ t, posAt f (p.1 s) i p.2 = p.1 s}).indicator 1 (histAt f s (x, g), g') ∂μ =
      μ {g' | ∀ i ≤ t, posAt f (posAt f x s g) i g' = posAt f x s g} := by
    rw [← h1]; exact lintegral_indicator_one (measurable_prodMk_left hS)
  rw [e2]
  exact stall_start mf hd mT (hq _ hg) t

end

end PW
