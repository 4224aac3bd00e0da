import Verif.Props.AnyArith
import Verif.Lemmas.DenseMH
import Verif.Lemmas.DenseForm
import Verif.Spec.Metric
import Verif.Lemmas.SparseMH

/-!
# C33 with exact arithmetic: the numbers of the accept/reject step

The same facts as `C33_dense` and `C33_sparse`, with every quantity written out in ordinary mathematics.
-/

namespace PW
open Matrix
variable {m n : ℕ}

/-- `½ log det H - δᵀ H δ / (2D)`: the logarithm, up to a constant, of the density at displacement `δ` of the
Gaussian with precision `H / D`. -/
noncomputable def Spec.logGauss (D : ℝ) (H : Matrix (Fin n) (Fin n) ℝ) (δ : Fin n → ℝ) : ℝ :=
  1 / 2 * Real.log H.det - δ ⬝ᵥ H *ᵥ δ / (2 * D)

/-- The metric of the sparse walks: `w i / x i ^ 2` on the last `k` coordinates, `ε` on the others. -/
noncomputable def Spec.sparseMetric (ε : ℝ) (k : ℕ) (w x : Fin n → ℝ) (i : Fin n) : ℝ :=
  if n - k ≤ i.val then w i / x i ^ 2 else ε

/-- `½ (log det G + log det (A G⁻¹ Aᵀ)) - δᵀ G δ / (2D)`, `G` diagonal: the logarithm, up to a constant, of the density
at displacement `δ ∈ ker A` of the Gaussian with precision `G / D` restricted to `ker A`. -/
noncomputable def Spec.logGaussKer (A : Matrix (Fin m) (Fin n) ℝ) (D : ℝ) (G δ : Fin n → ℝ) : ℝ :=
  1 / 2 * (Real.log (diagonal G).det + Real.log (A * (diagonal G)⁻¹ * Aᵀ).det) -
    δ ⬝ᵥ diagonal G *ᵥ δ / (2 * D)

theorem generateHessian_ok {σ : Type} {cls : BarrierClass ℝ σ} {o o' : σ} {x : Fin n → ℝ}
    {A : Matrix (Fin m) (Fin n) ℝ} {b : Fin m → ℝ} {H : Matrix (Fin n) (Fin n) ℝ}
    (h : generateHessian cls o x A b = .ok (H, o')) :
    ∃ w : Fin m → ℝ, cls.generateWeight o x A b = .ok (⟨m, w⟩, o') ∧ H = barrierHess w A b x := by
  unfold generateHessian at h
  obtain ⟨⟨⟨l, w⟩, o1⟩, hw, h⟩ := Out.bind_eq_ok.1 h
  by_cases hl : l = m
  · subst hl
    rw [dif_pos rfl] at h
    cases h
    exact ⟨w, hw, hessianOf_real _ _ _ _⟩
  · rw [dif_neg hl] at h; cases h

theorem logDensity_logGauss {L H : Matrix (Fin n) (Fin n) ℝ} (h : IsCholesky L H) (D : ℝ) (x z : Fin n → ℝ) :
    BarrierWalk.logDensity D L H x z = Spec.logGauss D H (z - x) := by
  rw [dense_logDensity_real h, denseLogDens_sub, denseLogDens, Spec.logGauss]
  have : Real.log H.det = 2 * Real.log L.det := by
    rw [← h.mul_eq, Matrix.det_mul, Matrix.det_transpose, Real.log_mul h.det_pos.ne' h.det_pos.ne']; ring
  rw [this]
  ring

theorem accepts_real (ρ u : ℝ) : Spec.Accepts ρ u ↔ u < min 1 ρ := by
  unfold Spec.Accepts
  by_cases h : ρ < 1
  · simp [h, min_eq_right h.le]
  · simp [h, min_eq_left (not_lt.1 h)]

/-- **C33** (dense, exact): one completed accept/reject step at `x` with weights `w`, hence metric
`H = Σ wᵢ aᵢaᵢᵀ/sᵢ²`, positive definite. With `L` the Cholesky factor of `H`, `ξ` the Gaussian draw and `u` the
uniform draw, the proposal is `z = x + sqrt(D) L⁻¹ ξ`; if `z` violates a constraint the walk stays; otherwise the
weights are computed at `z`, giving `H'`, and if `H'` is positive definite the walk moves to `z` exactly when
`u < min(1, exp(g' - g))`, `g = ½ log det H - δᵀHδ/(2D)`, `g' = ½ log det H' - δᵀH'δ/(2D')`, `δ = z - x`. -/
theorem C33_dense_exact {σ : Type} (cls : BarrierClass ℝ σ) (E : Eigen ℝ) (hE : E.LltExact) (hLU : E.LuExact)
    (r : Rng ℝ) (A : Matrix (Fin m) (Fin n) ℝ) (b : Fin m → ℝ) (x x' : Fin n → ℝ) (o o' : σ) (g g' : r.G)
    (h : BarrierWalk.step cls E r A b (x, o, g) = .ok (x', o', g')) :
    ∃ (w : Fin m → ℝ) (o1 : σ), cls.generateWeight o x A b = .ok (⟨m, w⟩, o1) ∧
      ((barrierHess w A b x).PosDef → ∃ L z, IsCholesky L (barrierHess w A b x) ∧
        z = x + Real.sqrt (cls.distTerm o1) • L⁻¹ *ᵥ (r.gaussian n g).1 ∧
        (((∃ i, b i < (A *ᵥ z) i) ∧ x' = x) ∨
         ((∀ i, (A *ᵥ z) i ≤ b i) ∧ ∃ (w' : Fin m → ℝ) (o2 : σ), cls.generateWeight o1 z A b = .ok (⟨m, w'⟩, o2) ∧
          ((barrierHess w' A b z).PosDef →
            ((r.uniform (r.gaussian n g).2).1 < min 1 (Real.exp
                (Spec.logGauss (cls.distTerm o2) (barrierHess w' A b z) (z - x) -
                 Spec.logGauss (cls.distTerm o1) (barrierHess w A b x) (z - x))) → x' = z) ∧
            (¬ (r.uniform (r.gaussian n g).2).1 < min 1 (Real.exp
                (Spec.logGauss (cls.distTerm o2) (barrierHess w' A b z) (z - x) -
                 Spec.logGauss (cls.distTerm o1) (barrierHess w A b x) (z - x))) → x' = x))))) := by
  have hm : 0 < m := by
    rcases Nat.eq_zero_or_pos m with rfl | hm
    · exfalso
      simp only [BarrierWalk.step, BarrierWalk.generateSample] at h
      obtain ⟨ho, hH, h⟩ := Out.bind_eq_ok.1 h
      obtain ⟨c, hc, h⟩ := Out.bind_eq_ok.1 h
      rw [inPolytope_zero] at hc
      cases hc
    · exact hm
  have hpass : ∀ z, Spec.PassesDense A b z ↔ ∀ i, (A *ᵥ z) i ≤ b i := fun z => by
    rw [← inPolytope_iff_passes, inPolytope_real z A b hm]; simp
  obtain ⟨H, o1, hH, z, hz, h⟩ := C33_dense cls E r A b x x' o o' g g' h
  obtain ⟨w, hw, rfl⟩ := generateHessian_ok hH
  refine ⟨w, o1, hw, fun hpd => ⟨_, z, hE _ hpd, ?_, ?_⟩⟩
  · rw [hz, dense_proposal_real hLU (hE _ hpd), Matrix.smul_mulVec]
  · rcases h with ⟨h1, h2⟩ | ⟨h1, Hz, o2, hHz, gxz, gzx, u, hgxz, hgzx, hu, h2, h3⟩
    · rw [hpass] at h1
      push Not at h1
      exact .inl ⟨h1, h2⟩
    · obtain ⟨w', hw', rfl⟩ := generateHessian_ok hHz
      refine .inr ⟨(hpass _).1 h1, w', o2, hw', fun hpd' => ?_⟩
      rw [logDensity_logGauss (hE _ hpd)] at hgxz
      rw [logDensity_logGauss (hE _ hpd')] at hgzx
      rw [accepts_real, hgxz, hgzx, hu] at h2 h3
      exact ⟨h2, h3⟩

theorem generateG_ok {σ : Type} {cls : SparseBarrierClass ℝ σ} {ERR : ℝ} {junk : Fin n → ℝ} {o o' : σ} {x : Fin n → ℝ}
    {A : Matrix (Fin m) (Fin n) ℝ} {k : ℕ} {G : Fin n → ℝ}
    (h : generateG cls ERR junk o x A k = .ok (G, o')) :
    ∃ w : Fin n → ℝ, cls.generateWeight junk o x A k = .ok (⟨n, w⟩, o') ∧ G = Spec.sparseMetric ERR k w x := by
  unfold generateG at h
  obtain ⟨⟨⟨l, w⟩, o1⟩, hw, h⟩ := Out.bind_eq_ok.1 h
  by_cases hl : l = n
  · subst hl
    rw [dif_pos rfl] at h
    cases h
    refine ⟨w, hw, funext fun i => ?_⟩
    unfold metricG generateSlackInverse Spec.sparseMetric
    by_cases hi : isTail k i = true
    · have := (isTail_iff i).1 hi
      simp only [hi, if_true, this, DVec.at]
      show 1 / x i * w i * (1 / x i) = w i / x i ^ 2
      ring
    · have := mt (isTail_iff (k := k) i).2 hi
      simp [hi, this]
  · rw [dif_neg hl] at h; cases h

theorem diag_gram {A : Matrix (Fin m) (Fin n) ℝ} {G : Fin n → ℝ} (hG : ∀ i, 0 < G i) :
    (A * diagonal (invSqrt G)) * (A * diagonal (invSqrt G))ᵀ = A * (diagonal G)⁻¹ * Aᵀ := by
  have h4 : (diagonal G)⁻¹ = diagonal (fun i => (G i)⁻¹) := by
    apply Matrix.inv_eq_right_inv
    rw [Matrix.diagonal_mul_diagonal]
    have : (fun i => G i * (G i)⁻¹) = fun _ => 1 := funext fun i => mul_inv_cancel₀ (hG i).ne'
    rw [this, Matrix.diagonal_one]
  rw [Matrix.transpose_mul, Matrix.diagonal_transpose, h4, ← Matrix.mul_assoc, Matrix.mul_assoc A,
    Matrix.diagonal_mul_diagonal]
  congr 3
  funext i
  unfold invSqrt
  rw [rsc_sqrt, Real.mul_self_sqrt (by have := hG i; positivity), one_div]

theorem scaled_gram {A : Matrix (Fin m) (Fin n) ℝ} {G : Fin n → ℝ} (hG : ∀ i, 0 < G i) :
    scaleCols A (invSqrt G) * (scaleCols A (invSqrt G))ᵀ = A * (diagonal G)⁻¹ * Aᵀ := by
  rw [scaleCols_eq]; exact diag_gram hG

theorem kerLogDens_eq {A : Matrix (Fin m) (Fin n) ℝ} {G : Fin n → ℝ} (hG : ∀ i, 0 < G i) (D : ℝ) (x z : Fin n → ℝ) :
    kerLogDens A D G x z = Spec.logGaussKer A D G (z - x) := by
  unfold kerLogDens Spec.logGaussKer
  have h1 : (diagonal G).det = ∏ i, G i := Matrix.det_diagonal
  have h2 : Real.log (diagonal G).det = ∑ i, Real.log (G i) := by
    rw [h1, Real.log_prod fun i _ => (hG i).ne']
  rw [h2, diag_gram hG]
  have h5 : (z - x) ⬝ᵥ diagonal G *ᵥ (z - x) = ∑ i, (z i - x i) * (G i * (z i - x i)) := by
    simp [dotProduct, Matrix.mulVec_diagonal]
  rw [h5]
  ring

/-- **C33** (sparse, exact): one completed accept/reject step at `x` with weights `w`, hence diagonal metric `G` (`wᵢ/xᵢ²`
on the last `k` coordinates, `ERR` elsewhere), positive. With `ξ` the Gaussian draw and `u` the uniform draw, the
proposal is `z = x + sqrt(D) G^{-1/2} (ξ - P ξ)`, `P` the orthogonal projection on the row space of `A G^{-1/2}`; if one
of the last `k` coordinates of `z` is negative the walk stays; otherwise, with `Gx` and `Gz` the metrics recomputed at
`x` and `z` (both positive), the walk moves to `z` exactly when `u < min(1, exp(g' - g))`, `g` and `g'` the log densities
of the two Gaussians on `ker A`. -/
theorem C33_sparse_exact {σ : Type} (cls : SparseBarrierClass ℝ σ) (ERR : ℝ) (E : Eigen ℝ) (hE : E.Exact) (r : Rng ℝ)
    (junk : Fin n → ℝ) (A : Matrix (Fin m) (Fin n) ℝ) (hA : IndepRows A) (k : ℕ) (x x' : Fin n → ℝ) (o o' : σ)
    (g g' : r.G) (h : SparseBarrier.step cls ERR E r junk A k (x, o, g) = .ok (x', o', g')) :
    ∃ (w : Fin n → ℝ) (o1 : σ), cls.generateWeight junk o x A k = .ok (⟨n, w⟩, o1) ∧
      ((∀ i, 0 < Spec.sparseMetric ERR k w x i) → ∃ z,
        (∀ S : Matrix (Fin m) (Fin n) ℝ, (S = A * diagonal fun i => Real.sqrt (1 / Spec.sparseMetric ERR k w x i)) →
          z = x + Real.sqrt (cls.distTerm o1) • (fun i => Real.sqrt (1 / Spec.sparseMetric ERR k w x i) *
            ((r.gaussian n g).1 i - (Sᵀ *ᵥ (S * Sᵀ)⁻¹ *ᵥ S *ᵥ (r.gaussian n g).1) i))) ∧
        (((∃ i : Fin n, n - k ≤ i.val ∧ z i < 0) ∧ x' = x) ∨
         ((∀ i : Fin n, n - k ≤ i.val → 0 ≤ z i) ∧
          ∃ (wx : Fin n → ℝ) (o2 : σ), cls.generateWeight junk o1 x A k = .ok (⟨n, wx⟩, o2) ∧
          ∃ (wz : Fin n → ℝ) (o3 : σ), cls.generateWeight junk o2 z A k = .ok (⟨n, wz⟩, o3) ∧
          ((∀ i, 0 < Spec.sparseMetric ERR k wx x i) → (∀ i, 0 < Spec.sparseMetric ERR k wz z i) →
            ((r.uniform (r.gaussian n g).2).1 < min 1 (Real.exp
                (Spec.logGaussKer A (cls.distTerm o3) (Spec.sparseMetric ERR k wz z) (z - x) -
                 Spec.logGaussKer A (cls.distTerm o2) (Spec.sparseMetric ERR k wx x) (z - x))) → x' = z) ∧
            (¬ (r.uniform (r.gaussian n g).2).1 < min 1 (Real.exp
                (Spec.logGaussKer A (cls.distTerm o3) (Spec.sparseMetric ERR k wz z) (z - x) -
                 Spec.logGaussKer A (cls.distTerm o2) (Spec.sparseMetric ERR k wx x) (z - x))) → x' = x))))) := by
  have hk : 1 ≤ k ∧ k ≤ n := by
    by_contra hk
    have hk : k = 0 ∨ n < k := by omega
    simp only [SparseBarrier.step, SparseBarrier.generateSample] at h
    rw [if_pos hk] at h
    cases h
  have hpass : ∀ z : Fin n → ℝ, Spec.PassesSparse k z ↔ ∀ i : Fin n, n - k ≤ i.val → 0 ≤ z i := fun z => by
    rw [← inPolytopeK_iff_passes z hk.2, inPolytopeK_real z k hk.1 hk.2]; simp
  obtain ⟨G, o1, hG, z, hz, h⟩ := C33_sparse cls ERR E r junk A k x x' o o' g g' h
  obtain ⟨w, hw, rfl⟩ := generateG_ok hG
  refine ⟨w, o1, hw, fun hpos => ⟨z, ?_, ?_⟩⟩
  · intro S hS
    rw [hz, sparse_proposal_real hE.sparseLLTSolve hA hpos]
    congr 2
    unfold dirMat
    have hS' : A * diagonal (invSqrt (Spec.sparseMetric ERR k w x)) = S := hS.symm
    rw [hS']
    funext i
    rw [← Matrix.mulVec_mulVec, Matrix.mulVec_diagonal, Matrix.sub_mulVec, Matrix.one_mulVec, Pi.sub_apply,
      Matrix.mulVec_mulVec, Matrix.mulVec_mulVec, Matrix.mul_assoc]
    rfl
  · rcases h with ⟨h1, h2⟩ | ⟨h1, Gx, o2, hGx, Gz, o3, hGz, gxz, gzx, u, hgxz, hgzx, hu, h2, h3⟩
    · rw [hpass] at h1
      push Not at h1
      obtain ⟨i, hi, h1⟩ := h1
      exact .inl ⟨⟨i, hi, h1⟩, h2⟩
    · obtain ⟨wx, hwx, rfl⟩ := generateG_ok hGx
      obtain ⟨wz, hwz, rfl⟩ := generateG_ok hGz
      refine .inr ⟨(hpass _).1 h1, wx, o2, hwx, wz, o3, hwz, fun hpx hpz => ?_⟩
      have hAz : A *ᵥ x = A *ᵥ z := by
        rw [hz, proposal_ker hE.sparseLLTSolve]
        rw [scaleCols_eq]
        exact scaled_posDef hA hpos
      rw [sparse_logDensity_real hE.sparseLLTL hA hpx hE.sparseLU _ _ _ hAz, kerLogDens_eq hpx] at hgxz
      rw [sparse_logDensity_real hE.sparseLLTL hA hpz hE.sparseLU _ _ _ hAz.symm, kerLogDens_eq hpz] at hgzx
      have hneg : ∀ (D : ℝ) (G : Fin n → ℝ), Spec.logGaussKer A D G (x - z) = Spec.logGaussKer A D G (z - x) :=
        fun D G => by unfold Spec.logGaussKer; rw [← neg_sub z x, quad_neg]
      rw [hneg] at hgzx
      rw [accepts_real, hgxz, hgzx, hu] at h2 h3
      exact ⟨h2, h3⟩

end PW
