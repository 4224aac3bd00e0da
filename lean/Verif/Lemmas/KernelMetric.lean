import Verif.Lemmas.LinAlg
import Verif.Spec.Stationary
import Mathlib.Data.Matrix.ColumnRowPartitioned
import Mathlib.LinearAlgebra.Matrix.SchurComplement

/-! # The Gaussian of the sparse barrier walks, in coordinates of the kernel of `A` -/

namespace PW
open Matrix
variable {m n d : ℕ}

theorem invSqrt_real (G : Fin n → ℝ) : invSqrt G = fun i => Real.sqrt (1 / G i) := rfl

theorem invSqrt_pos {G : Fin n → ℝ} (hG : ∀ i, 0 < G i) (i : Fin n) : 0 < invSqrt G i := by
  rw [invSqrt_real]; exact Real.sqrt_pos.2 (by have := hG i; positivity)

theorem invSqrt_sq {G : Fin n → ℝ} (hG : ∀ i, 0 < G i) (i : Fin n) :
    G i * (invSqrt G i * invSqrt G i) = 1 := by
  rw [invSqrt_real]
  have h := hG i
  show G i * (Real.sqrt (1 / G i) * Real.sqrt (1 / G i)) = 1
  rw [Real.mul_self_sqrt (by positivity)]
  field_simp

/-- `G^(-1/2) (I - P)`, `P` the orthogonal projection on the row space of `A G^(-1/2)`. -/
noncomputable def dirMat (A : Matrix (Fin m) (Fin n) ℝ) (G : Fin n → ℝ) : Matrix (Fin n) (Fin n) ℝ :=
  diagonal (invSqrt G) *
    (1 - (A * diagonal (invSqrt G))ᵀ * ((A * diagonal (invSqrt G)) * (A * diagonal (invSqrt G))ᵀ)⁻¹ *
      (A * diagonal (invSqrt G)))

/-- Coordinates with respect to the columns of `B`. -/
noncomputable def coordMat (B : Matrix (Fin n) (Fin d) ℝ) : Matrix (Fin d) (Fin n) ℝ := (Bᵀ * B)⁻¹ * Bᵀ

theorem scaled_posDef {A : Matrix (Fin m) (Fin n) ℝ} (hA : IndepRows A) {G : Fin n → ℝ} (hG : ∀ i, 0 < G i) :
    ((A * diagonal (invSqrt G)) * (A * diagonal (invSqrt G))ᵀ).PosDef := by
  have := (hA.scaleCols (s := invSqrt G) fun i => (invSqrt_pos hG i).ne').posDef
  rwa [scaleCols_eq] at this

/-- Orthogonal projection on the kernel of `S`. -/
theorem projKer_ker {S : Matrix (Fin m) (Fin n) ℝ} (hu : IsUnit (S * Sᵀ).det) :
    S * (1 - Sᵀ * (S * Sᵀ)⁻¹ * S) = 0 := by
  rw [Matrix.mul_sub, Matrix.mul_one, ← Matrix.mul_assoc, ← Matrix.mul_assoc, Matrix.mul_nonsing_inv _ hu,
    Matrix.one_mul, sub_self]

theorem projKer_transpose (S : Matrix (Fin m) (Fin n) ℝ) :
    (1 - Sᵀ * (S * Sᵀ)⁻¹ * S)ᵀ = 1 - Sᵀ * (S * Sᵀ)⁻¹ * S := by
  rw [Matrix.transpose_sub, Matrix.transpose_one, Matrix.transpose_mul, Matrix.transpose_mul,
    Matrix.transpose_transpose, Matrix.transpose_nonsing_inv, Matrix.transpose_mul, Matrix.transpose_transpose,
    Matrix.mul_assoc]

theorem mul_projKer {l : ℕ} {S : Matrix (Fin m) (Fin n) ℝ} {N : Matrix (Fin l) (Fin n) ℝ} (hN : N * Sᵀ = 0) :
    N * (1 - Sᵀ * (S * Sᵀ)⁻¹ * S) = N := by
  rw [Matrix.mul_sub, Matrix.mul_one, ← Matrix.mul_assoc, ← Matrix.mul_assoc, hN, Matrix.zero_mul,
    Matrix.zero_mul, sub_zero]

theorem dirMat_ker {A : Matrix (Fin m) (Fin n) ℝ} (hA : IndepRows A) {G : Fin n → ℝ} (hG : ∀ i, 0 < G i) :
    A * dirMat A G = 0 := by
  have h := projKer_ker (PosDef.isUnit_det (scaled_posDef hA hG))
  unfold dirMat
  rw [← Matrix.mul_assoc]
  exact h

theorem kernelBasis_indep {A : Matrix (Fin m) (Fin n) ℝ} {B : Matrix (Fin n) (Fin d) ℝ}
    (hB : IsKernelBasis A B) : IndepCols B := hB.inj

theorem coordMat_mul {B : Matrix (Fin n) (Fin d) ℝ} (hB : IndepCols B) : coordMat B * B = 1 := by
  unfold coordMat
  rw [Matrix.mul_assoc, Matrix.nonsing_inv_mul _ (PosDef.isUnit_det hB.posDef)]

theorem coordMat_mulVec {A : Matrix (Fin m) (Fin n) ℝ} {B : Matrix (Fin n) (Fin d) ℝ}
    (hB : IsKernelBasis A B) {v : Fin n → ℝ} (hv : A *ᵥ v = 0) : B *ᵥ (coordMat B *ᵥ v) = v := by
  obtain ⟨u, rfl⟩ := hB.span v hv
  rw [Matrix.mulVec_mulVec (M := coordMat B), coordMat_mul hB.inj, Matrix.one_mulVec]

theorem coordMat_mul_ker {A : Matrix (Fin m) (Fin n) ℝ} {B : Matrix (Fin n) (Fin d) ℝ}
    (hB : IsKernelBasis A B) {l : ℕ} {M : Matrix (Fin n) (Fin l) ℝ} (hM : A * M = 0) :
    B * (coordMat B * M) = M := by
  ext i j
  have h : A *ᵥ (fun i => M i j) = 0 := by
    funext r
    exact congrFun (congrFun hM r) j
  have := congrFun (coordMat_mulVec hB h) i
  rw [← this]
  rw [← Matrix.mul_assoc, Matrix.mulVec_mulVec]
  rfl

/-- **Covariance of the sparse proposal** in kernel coordinates: `(Bᵀ G B)⁻¹`. -/
theorem prec_mul_cov {A : Matrix (Fin m) (Fin n) ℝ} (hA : IndepRows A) {B : Matrix (Fin n) (Fin d) ℝ}
    (hB : IsKernelBasis A B) {G : Fin n → ℝ} (hG : ∀ i, 0 < G i) :
    (Bᵀ * diagonal G * B) * ((coordMat B * dirMat A G) * (coordMat B * dirMat A G)ᵀ) = 1 := by
  have hW := coordMat_mul_ker hB (dirMat_ker hA hG)
  have hinv : diagonal G * diagonal (invSqrt G) = diagonal fun i => (invSqrt G i)⁻¹ := by
    rw [Matrix.diagonal_mul_diagonal]
    congr 1; funext i
    have h1 := invSqrt_sq hG i
    have h2 := (invSqrt_pos hG i).ne'
    field_simp
    linarith [h1, mul_assoc (G i) (invSqrt G i) (invSqrt G i)]
  have hinv2 : (diagonal fun i => (invSqrt G i)⁻¹) * diagonal (invSqrt G) = (1 : Matrix (Fin n) (Fin n) ℝ) := by
    rw [Matrix.diagonal_mul_diagonal, ← Matrix.diagonal_one]
    congr 1; funext i; exact inv_mul_cancel₀ (invSqrt_pos hG i).ne'
  have hBA : Bᵀ * Aᵀ = 0 := by rw [← Matrix.transpose_mul, hB.mul_zero, Matrix.transpose_zero]
  have hkill : (Bᵀ * diagonal fun i => (invSqrt G i)⁻¹) * (A * diagonal (invSqrt G))ᵀ = 0 := by
    rw [Matrix.transpose_mul, Matrix.diagonal_transpose, Matrix.mul_assoc, ← Matrix.mul_assoc (diagonal _),
      hinv2, Matrix.one_mul, hBA]
  have h1 : (Bᵀ * diagonal G * B) * (coordMat B * dirMat A G) = Bᵀ * diagonal fun i => (invSqrt G i)⁻¹ := by
    rw [Matrix.mul_assoc (Bᵀ * diagonal G), hW]
    unfold dirMat
    rw [← Matrix.mul_assoc (Bᵀ * diagonal G), Matrix.mul_assoc Bᵀ (diagonal G), hinv]
    exact mul_projKer hkill
  have h2 : (Bᵀ * diagonal fun i => (invSqrt G i)⁻¹) * (dirMat A G)ᵀ = Bᵀ := by
    unfold dirMat
    rw [Matrix.transpose_mul, projKer_transpose, Matrix.diagonal_transpose, ← Matrix.mul_assoc,
      mul_projKer hkill, Matrix.mul_assoc, hinv2, Matrix.mul_one]
  rw [← Matrix.mul_assoc, h1, Matrix.transpose_mul, ← Matrix.mul_assoc, h2, ← Matrix.transpose_mul,
    coordMat_mul hB.inj, Matrix.transpose_one]

/-! ## Determinants -/

theorem kernelBasis_card {A : Matrix (Fin m) (Fin n) ℝ} (hA : IndepRows A) {B : Matrix (Fin n) (Fin d) ℝ}
    (hB : IsKernelBasis A B) : d + m = n := by
  have hu := PosDef.isUnit_det hA.posDef
  let f : ((Fin d → ℝ) × (Fin m → ℝ)) →ₗ[ℝ] (Fin n → ℝ) :=
    (Matrix.mulVecLin B).coprod (Matrix.mulVecLin Aᵀ)
  have hf : ∀ p, f p = B *ᵥ p.1 + Aᵀ *ᵥ p.2 := fun p => rfl
  have hAB : ∀ u, A *ᵥ (B *ᵥ u) = 0 := fun u => by
    rw [Matrix.mulVec_mulVec, hB.mul_zero, Matrix.zero_mulVec]
  have hinj : Function.Injective f := by
    rw [injective_iff_map_eq_zero]
    rintro ⟨u, y⟩ h
    rw [hf] at h
    have h1 : (A * Aᵀ) *ᵥ y = 0 := by
      have := congrArg (A *ᵥ ·) h
      simpa [Matrix.mulVec_add, hAB] using this
    have hy : y = 0 := by
      have := congrArg ((A * Aᵀ)⁻¹ *ᵥ ·) h1
      simpa [Matrix.nonsing_inv_mul _ hu] using this
    subst hy
    have : B *ᵥ u = 0 := by simpa using h
    rw [hB.inj u this]; rfl
  have hsurj : Function.Surjective f := by
    intro v
    have hk : A *ᵥ (v - Aᵀ *ᵥ ((A * Aᵀ)⁻¹ *ᵥ (A *ᵥ v))) = 0 := by
      rw [Matrix.mulVec_sub, Matrix.mulVec_mulVec, Matrix.mulVec_mulVec, Matrix.mul_nonsing_inv _ hu,
        Matrix.one_mulVec, sub_self]
    obtain ⟨u, hu'⟩ := hB.span _ hk
    refine ⟨(u, (A * Aᵀ)⁻¹ *ᵥ (A *ᵥ v)), ?_⟩
    rw [hf, hu']
    simp
  have := (LinearEquiv.ofBijective f ⟨hinj, hsurj⟩).finrank_eq
  simpa using this

/-- `det (Bᵀ G B) = c · det G · det (A G⁻¹ Aᵀ)` with a positive constant that does not depend on `G`. -/
theorem det_kernel {A : Matrix (Fin m) (Fin n) ℝ} (hA : IndepRows A) {B : Matrix (Fin n) (Fin d) ℝ}
    (hB : IsKernelBasis A B) : ∃ c : ℝ, 0 < c ∧ ∀ G : Fin n → ℝ, (∀ i, 0 < G i) →
      (Bᵀ * diagonal G * B).det =
        c * ((∏ i, G i) * ((A * diagonal (invSqrt G)) * (A * diagonal (invSqrt G))ᵀ).det) := by
  have hcard := kernelBasis_card hA hB
  let e : Fin d ⊕ Fin m ≃ Fin n := finSumFinEquiv.trans (finCongr hcard)
  let M : Matrix (Fin n) (Fin m) ℝ → Matrix (Fin n) (Fin n) ℝ := fun X =>
    (Matrix.fromCols B X).submatrix id e.symm
  have hBA : Bᵀ * Aᵀ = 0 := by rw [← Matrix.transpose_mul, hB.mul_zero, Matrix.transpose_zero]
  have hM : ∀ X N Y, ((M X)ᵀ * N * M Y).det =
      (Matrix.fromBlocks (Bᵀ * N * B) (Bᵀ * N * Y) (Xᵀ * N * B) (Xᵀ * N * Y)).det := by
    intro X N Y
    have : (M X)ᵀ * N * M Y = ((Matrix.fromCols B X)ᵀ * N * Matrix.fromCols B Y).submatrix e.symm e.symm := rfl
    rw [this, Matrix.det_submatrix_equiv_self, Matrix.transpose_fromCols, Matrix.fromRows_mul,
      Matrix.fromRows_mul_fromCols]
  have hBB : 0 < (Bᵀ * B).det := hB.inj |> fun h => (IndepCols.posDef h).det_pos
  have hAA : 0 < (A * Aᵀ).det := hA.posDef.det_pos
  have h0 : (M Aᵀ).det * (M Aᵀ).det = (Bᵀ * B).det * (A * Aᵀ).det := by
    have := hM Aᵀ 1 Aᵀ
    simp only [Matrix.mul_one, Matrix.transpose_transpose, hBA, hB.mul_zero] at this
    rw [Matrix.det_fromBlocks_zero₂₁, Matrix.det_mul, Matrix.det_transpose] at this
    exact this
  refine ⟨(Bᵀ * B).det / (A * Aᵀ).det, by positivity, fun G hG => ?_⟩
  set H := (A * diagonal (invSqrt G)) * (A * diagonal (invSqrt G))ᵀ with hH
  have hHd : 0 < H.det := (scaled_posDef hA hG).det_pos
  let X : Matrix (Fin n) (Fin m) ℝ := diagonal (invSqrt G) * diagonal (invSqrt G) * Aᵀ
  have hGX : diagonal G * X = Aᵀ := by
    show diagonal G * (diagonal (invSqrt G) * diagonal (invSqrt G) * Aᵀ) = Aᵀ
    rw [← Matrix.mul_assoc, Matrix.diagonal_mul_diagonal, Matrix.diagonal_mul_diagonal]
    have : (fun i => G i * (invSqrt G i * invSqrt G i)) = fun _ => (1 : ℝ) := funext (invSqrt_sq hG)
    rw [this]; simp
  have hAX : A * X = H := by
    show A * (diagonal (invSqrt G) * diagonal (invSqrt G) * Aᵀ) = H
    rw [hH, Matrix.transpose_mul, Matrix.diagonal_transpose]
    simp only [Matrix.mul_assoc]
  have hXG : Xᵀ * diagonal G = A := by
    have := congrArg Matrix.transpose hGX
    rwa [Matrix.transpose_mul, Matrix.diagonal_transpose, Matrix.transpose_transpose] at this
  have h1 : (M X).det * (∏ i, G i) * (M X).det = (Bᵀ * diagonal G * B).det * H.det := by
    have := hM X (diagonal G) X
    rw [Matrix.mul_assoc Bᵀ (diagonal G) X, hGX, hBA, hXG, hAX, hB.mul_zero,
      Matrix.det_fromBlocks_zero₂₁, Matrix.det_mul, Matrix.det_mul, Matrix.det_transpose,
      Matrix.det_diagonal] at this
    exact this
  have h2 : (M Aᵀ).det * (M X).det = (Bᵀ * B).det * H.det := by
    have := hM Aᵀ 1 X
    simp only [Matrix.mul_one, Matrix.transpose_transpose, hB.mul_zero, hAX] at this
    rw [Matrix.det_fromBlocks_zero₂₁, Matrix.det_mul, Matrix.det_transpose] at this
    exact this
  have hMA : (M Aᵀ).det * (M Aᵀ).det ≠ 0 := by rw [h0]; positivity
  have h3 : ((Bᵀ * diagonal G * B).det * H.det) * ((Bᵀ * B).det * (A * Aᵀ).det) =
      (∏ i, G i) * ((Bᵀ * B).det * H.det) * ((Bᵀ * B).det * H.det) := by
    rw [← h1, ← h0, ← h2]; ring
  rw [div_mul_eq_mul_div, eq_div_iff hAA.ne']
  have h4 : H.det * (Bᵀ * B).det ≠ 0 := by positivity
  apply mul_left_cancel₀ h4
  linear_combination h3

end PW
