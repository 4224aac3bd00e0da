import Mathlib.Analysis.InnerProductSpace.GramSchmidtOrtho
import Mathlib.Analysis.Matrix.Order
import Verif.Spec.LP
import Verif.Lemmas.LinAlg

/-! # The factorisations used as contracts exist: QR, pivoted QR, Cholesky, LDLᵀ -/

namespace PW
open Classical Matrix
variable {d m n : ℕ}

/-- Gram-Schmidt in coordinates. -/
theorem exists_ortho (f : Fin d → Fin d → ℝ) : ∃ Q : Matrix (Fin d) (Fin d) ℝ, Qᵀ * Q = 1 ∧
    (∀ i j, i < j → ∑ k, Q k j * f i k = 0) ∧
    (∀ i, LinearIndependent ℝ (fun t : Set.Iic i => f t) → ∑ k, Q k i * f i k ≠ 0) := by
  let F : Fin d → EuclideanSpace ℝ (Fin d) := fun i => WithLp.toLp 2 (f i)
  have hfr : Module.finrank ℝ (EuclideanSpace ℝ (Fin d)) = Fintype.card (Fin d) := by simp
  let e := InnerProductSpace.gramSchmidtOrthonormalBasis hfr F
  have hin : ∀ (u : EuclideanSpace ℝ (Fin d)) i, ∑ k, u k * f i k = inner ℝ u (F i) := by
    intro u i
    rw [PiLp.inner_apply]
    refine Finset.sum_congr rfl fun k _ => ?_
    simp [F, mul_comm]
  let Q0 : Matrix (Fin d) (Fin d) ℝ := Matrix.of fun k i => e i k
  refine ⟨Q0, ?_, ?_, ?_⟩
  · funext i j
    rw [Matrix.mul_apply, Matrix.one_apply]
    have := orthonormal_iff_ite.1 e.orthonormal i j
    rw [← this, PiLp.inner_apply]
    refine Finset.sum_congr rfl fun k _ => ?_
    simp [Matrix.transpose_apply, mul_comm, Q0]
  · intro i j hij
    show ∑ k, e j k * f i k = 0
    rw [hin]
    exact InnerProductSpace.gramSchmidtOrthonormalBasis_inv_triangular hfr F hij
  · intro i hli
    show ∑ k, e i k * f i k ≠ 0
    rw [hin]
    have hli' : LinearIndependent ℝ (F ∘ ((↑) : Set.Iic i → Fin d)) := by
      have := hli.map' (WithLp.linearEquiv 2 ℝ (Fin d → ℝ)).symm.toLinearMap (LinearEquiv.ker _)
      exact this
    have hne := InnerProductSpace.gramSchmidt_ne_zero_coe (𝕜 := ℝ) i hli'
    have hn0 : InnerProductSpace.gramSchmidtNormed ℝ F i ≠ 0 := by
      unfold InnerProductSpace.gramSchmidtNormed
      rw [smul_ne_zero_iff]
      refine ⟨?_, hne⟩
      simp [hne]
    show inner ℝ (InnerProductSpace.gramSchmidtOrthonormalBasis hfr F i) (F i) ≠ 0
    rw [InnerProductSpace.gramSchmidtOrthonormalBasis_apply hfr hn0]
    unfold InnerProductSpace.gramSchmidtNormed
    rw [inner_smul_left]
    have hself : inner ℝ (InnerProductSpace.gramSchmidt ℝ F i) (F i) =
        inner ℝ (InnerProductSpace.gramSchmidt ℝ F i) (InnerProductSpace.gramSchmidt ℝ F i) := by
      conv_lhs => rw [InnerProductSpace.gramSchmidt_def'' ℝ F i]
      rw [inner_add_right, inner_sum]
      rw [Finset.sum_eq_zero, add_zero]
      intro j hj
      rw [inner_smul_right, InnerProductSpace.gramSchmidt_orthogonal ℝ F
        (ne_of_gt (Finset.mem_Iio.1 hj)), mul_zero]
    rw [hself]
    refine mul_ne_zero ?_ ?_
    · simp [hne]
    · exact inner_self_ne_zero.2 hne

theorem exists_isQR (M : Matrix (Fin d) (Fin n) ℝ) : ∃ f : QR ℝ d n, IsQR f M := by
  obtain ⟨Q, h1, h2, -⟩ := exists_ortho (d := d) fun i k => if h : i.val < n then M k ⟨i.val, h⟩ else 0
  refine ⟨⟨Q, Qᵀ * M, id⟩, h1, ?_, ?_⟩
  · show M = Q * (Qᵀ * M)
    rw [← Matrix.mul_assoc, mul_eq_one_comm.1 h1, Matrix.one_mul]
  · intro i j hij
    have := h2 ⟨j.val, lt_trans hij i.isLt⟩ i hij
    simp only [j.isLt, dif_pos] at this
    show (Qᵀ * M) i j = 0
    rw [Matrix.mul_apply]
    exact this

/-- Extend an injection of an initial segment to a permutation. -/
theorem exists_perm_extend {rk : ℕ} (hr : rk ≤ n) (c : Fin rk → Fin n) (hc : Function.Injective c) :
    ∃ σ : Equiv.Perm (Fin n), ∀ i : Fin rk, σ (i.castLE hr) = c i := by
  let e : {x : Fin n // x.val < rk} ≃ {x : Fin n // x ∈ Set.range c} :=
    Equiv.ofBijective (fun x => ⟨c ⟨x.1.val, x.2⟩, ⟨_, rfl⟩⟩) ⟨by
      intro x y hxy
      have := hc (Subtype.ext_iff.1 hxy)
      simp only [Fin.mk.injEq] at this
      exact Subtype.ext (Fin.ext this), by
      rintro ⟨x, i, rfl⟩
      exact ⟨⟨i.castLE hr, i.isLt⟩, rfl⟩⟩
  refine ⟨e.extendSubtype, fun i => ?_⟩
  rw [Equiv.extendSubtype_apply_of_mem e _ i.isLt]
  rfl

theorem exists_isPivotedQR (M : Matrix (Fin d) (Fin n) ℝ) :
    ∃ (f : QR ℝ d n) (rk : ℕ), IsPivotedQR f M rk := by
  let col : Fin n → Fin d → ℝ := fun j k => M k j
  obtain ⟨rk, g, hg1, hg2, hg3⟩ : ∃ (rk : ℕ) (g : Fin rk → Fin d → ℝ), (∀ i, g i ∈ Set.range col) ∧
      Submodule.span ℝ (Set.range g) = Submodule.span ℝ (Set.range col) ∧ LinearIndependent ℝ g :=
    ⟨_, Submodule.exists_fun_fin_finrank_span_eq ℝ (Set.range col)⟩
  choose c hc using hg1
  have hcinj : Function.Injective c := by
    intro i j hij
    apply hg3.injective
    rw [← hc, ← hc, hij]
  have hrn : rk ≤ n := by simpa using Fintype.card_le_of_injective c hcinj
  have hrd : rk ≤ d := by simpa using hg3.fintype_card_le_finrank
  obtain ⟨σ, hσ⟩ := exists_perm_extend hrn c hcinj
  let f : Fin d → Fin d → ℝ := fun i => if h : i.val < rk then g ⟨i.val, h⟩ else 0
  obtain ⟨Q, h1, h2, h3⟩ := exists_ortho f
  -- `Q` is orthogonal to all columns from `rk` on
  have hzero : ∀ (i : Fin d), rk ≤ i.val → ∀ j, ∑ k, Q k i * M k j = 0 := by
    intro i hi j
    let φ : (Fin d → ℝ) →ₗ[ℝ] ℝ :=
      { toFun := fun v => ∑ k, Q k i * v k
        map_add' := fun v w => by
          rw [← Finset.sum_add_distrib]; exact Finset.sum_congr rfl fun k _ => by simp; ring
        map_smul' := fun t v => by
          simp only [Pi.smul_apply, smul_eq_mul, RingHom.id_apply, Finset.mul_sum]
          exact Finset.sum_congr rfl fun k _ => by ring }
    have hle : Submodule.span ℝ (Set.range g) ≤ LinearMap.ker φ := by
      rw [Submodule.span_le]
      rintro _ ⟨t, rfl⟩
      have := h2 ⟨t.val, by omega⟩ i (by rw [Fin.lt_def]; simp; omega)
      simp only [f, t.isLt, dif_pos] at this
      exact this
    have hmem : col j ∈ Submodule.span ℝ (Set.range g) := by
      rw [hg2]; exact Submodule.subset_span ⟨j, rfl⟩
    exact hle hmem
  have hlead : ∀ (i : Fin d) (j : Fin n) (hj : j.val < rk), ∑ k, Q k i * M k (σ j) = ∑ k, Q k i * f ⟨j.val, by omega⟩ k := by
    intro i j hj
    have e : σ j = c ⟨j.val, hj⟩ := hσ ⟨j.val, hj⟩
    refine Finset.sum_congr rfl fun k _ => ?_
    have := congrFun (hc ⟨j.val, hj⟩) k
    rw [e]
    show Q k i * col (c ⟨j.val, hj⟩) k = _
    rw [this]
    simp only [f, hj, dif_pos]
  refine ⟨⟨Q, Qᵀ * M.submatrix id σ, σ⟩, rk, h1, σ.bijective, ?_, ?_, ⟨hrd, hrn⟩, ?_, ?_⟩
  · intro i j
    show M i (σ j) = (Q * (Qᵀ * M.submatrix id σ)) i j
    rw [← Matrix.mul_assoc, mul_eq_one_comm.1 h1, Matrix.one_mul]
    rfl
  · intro i j hij
    show (Qᵀ * M.submatrix id σ) i j = 0
    rw [Matrix.mul_apply]
    show ∑ k, Q k i * M k (σ j) = 0
    by_cases hj : j.val < rk
    · rw [hlead i j hj]
      exact h2 _ _ hij
    · exact hzero i (by omega) _
  · intro i j hij hi
    show (Qᵀ * M.submatrix id σ) i j ≠ 0
    rw [Matrix.mul_apply]
    show ∑ k, Q k i * M k (σ j) ≠ 0
    rw [hlead i j (by omega)]
    have e : (⟨j.val, by omega⟩ : Fin d) = i := Fin.ext hij.symm
    rw [e]
    apply h3
    have e2 : (fun t : Set.Iic i => f t) = fun t : Set.Iic i =>
        g ⟨t.1.val, lt_of_le_of_lt (Fin.le_def.1 t.2) hi⟩ := by
      funext t
      have : t.1.val < rk := lt_of_le_of_lt (Fin.le_def.1 t.2) hi
      simp only [f, this, dif_pos]
    rw [e2]
    refine hg3.comp _ ?_
    intro s t hst
    simp only [Fin.mk.injEq] at hst
    exact Subtype.ext (Fin.ext hst)
  · intro i j hi
    show (Qᵀ * M.submatrix id σ) i j = 0
    rw [Matrix.mul_apply]
    exact hzero i hi _

open scoped MatrixOrder in
theorem exists_isCholesky (M : Matrix (Fin n) (Fin n) ℝ) (hM : M.PosDef) : ∃ L, IsCholesky L M := by
  obtain ⟨B, hB⟩ := CStarAlgebra.nonneg_iff_eq_star_mul_self.mp hM.posSemidef.nonneg
  rw [Matrix.star_eq_conjTranspose, Matrix.conjTranspose_eq_transpose_of_trivial] at hB
  obtain ⟨f, hf⟩ := exists_isQR B
  have hMR : f.Rᵀ * f.R = M := by
    rw [hB]
    conv_rhs => rw [hf.mul_eq]
    rw [Matrix.transpose_mul, Matrix.mul_assoc, ← Matrix.mul_assoc f.Qᵀ, hf.orth, Matrix.one_mul]
  have hdet : f.R.det ≠ 0 := by
    intro h0
    have h1 : M.det = 0 := by rw [← hMR, Matrix.det_mul, h0, mul_zero]
    exact hM.det_pos.ne' h1
  have hup : f.R.BlockTriangular id := fun i j hij => hf.upper i j hij
  have hdiag : ∀ i, f.R i i ≠ 0 := by
    rw [Matrix.det_of_isUpperTriangular hup] at hdet
    exact fun i => (Finset.prod_ne_zero_iff.1 hdet) i (Finset.mem_univ i)
  let S : Fin n → ℝ := fun i => SignType.sign (f.R i i)
  have hS : ∀ i, S i * S i = 1 := by
    intro i
    rcases lt_or_gt_of_ne (hdiag i) with h | h
    · simp [S, sign_neg h]
    · simp [S, sign_pos h]
  refine ⟨f.Rᵀ * Matrix.diagonal S, ?_, ?_, ?_⟩
  · intro i j hij
    rw [Matrix.mul_diagonal, Matrix.transpose_apply, hf.upper j i hij, zero_mul]
  · intro i
    rw [Matrix.mul_diagonal, Matrix.transpose_apply]
    rcases lt_or_gt_of_ne (hdiag i) with h | h
    · simp [S, sign_neg h, h]
    · simp [S, sign_pos h, h]
  · rw [Matrix.transpose_mul, Matrix.diagonal_transpose, Matrix.transpose_transpose, Matrix.mul_assoc,
      ← Matrix.mul_assoc (Matrix.diagonal S), Matrix.diagonal_mul_diagonal]
    have : (Matrix.diagonal fun i => S i * S i) = (1 : Matrix (Fin n) (Fin n) ℝ) := by
      rw [funext hS, ← Matrix.diagonal_one]
    rw [this, Matrix.one_mul, hMR]

theorem exists_isLDLT (M : Matrix (Fin n) (Fin n) ℝ) (hM : M.PosDef) (pat : Fin n → Fin n → Bool) :
    ∃ f : LDLT ℝ n, IsLDLT f M pat := by
  obtain ⟨L, hL⟩ := exists_isCholesky M hM
  refine ⟨⟨L * Matrix.diagonal fun i => (L i i)⁻¹, fun i j => decide (j ≤ i), fun i => L i i * L i i⟩,
    ?_, ?_, ?_, ?_, ?_, ?_, ?_, ?_, ?_⟩
  · intro i
    show (L * Matrix.diagonal fun i => (L i i)⁻¹) i i = 1
    rw [Matrix.mul_diagonal, mul_inv_cancel₀ (hL.diag_pos i).ne']
  · intro i j hij
    show (L * Matrix.diagonal fun i => (L i i)⁻¹) i j = 0
    rw [Matrix.mul_diagonal, hL.lower i j hij, zero_mul]
  · exact fun i => (mul_pos (hL.diag_pos i) (hL.diag_pos i)).ne'
  · show (L * Matrix.diagonal fun i => (L i i)⁻¹) * (Matrix.diagonal fun i => L i i * L i i) *
      (L * Matrix.diagonal fun i => (L i i)⁻¹)ᵀ = M
    rw [Matrix.transpose_mul, Matrix.diagonal_transpose, Matrix.mul_assoc L, Matrix.diagonal_mul_diagonal,
      Matrix.mul_assoc L, ← Matrix.mul_assoc (Matrix.diagonal _), Matrix.diagonal_mul_diagonal]
    have : (Matrix.diagonal fun i => (L i i)⁻¹ * (L i i * L i i) * (L i i)⁻¹) =
        (1 : Matrix (Fin n) (Fin n) ℝ) := by
      rw [← Matrix.diagonal_one]
      congr 1
      funext i
      have := (hL.diag_pos i).ne'
      field_simp
    rw [this, Matrix.one_mul, hL.mul_eq]
  · intro i j h; simpa using h
  · intro i; simp
  · intro i j h
    have : i < j := by simpa using h
    show (L * Matrix.diagonal fun i => (L i i)⁻¹) i j = 0
    rw [Matrix.mul_diagonal, hL.lower i j this, zero_mul]
  · intro i j h _; simpa using h
  · intro i j l _ h _ _; simpa using h

end PW
