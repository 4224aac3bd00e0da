import Verif.Spec.Mirror
import Verif.Lemmas.Repeat
import Verif.Lemmas.Isometry

/-! # Metrics and moves on the mirror image of a polytope -/

namespace PW
open Matrix MeasureTheory Set
variable {m n : ℕ}

theorem IsCholesky.mirror {L M : Matrix (Fin n) (Fin n) ℝ} (h : IsCholesky L M) {s : Fin n → ℝ} (hs : ∀ j, s j * s j = 1) :
    IsCholesky (diagonal s * L * diagonal s) (diagonal s * M * diagonal s) where
  lower i j hij := by rw [mul_diagonal, diagonal_mul, h.lower i j hij, mul_zero, zero_mul]
  diag_pos i := by
    rw [mul_diagonal, diagonal_mul, mul_right_comm, hs, one_mul]; exact h.diag_pos i
  mul_eq := by
    have e1 : diagonal s * diagonal s = (1 : Matrix (Fin n) (Fin n) ℝ) := by
      rw [diagonal_mul_diagonal]; simp only [hs]; exact diagonal_one
    rw [transpose_mul, transpose_mul, diagonal_transpose, ← h.mul_eq]
    calc diagonal s * L * diagonal s * (diagonal s * (Lᵀ * diagonal s)) = diagonal s * L * (diagonal s * diagonal s) * (Lᵀ * diagonal s) := by
          simp only [Matrix.mul_assoc]
      _ = _ := by rw [e1, Matrix.mul_one]; simp only [Matrix.mul_assoc]

theorem mirror_eq (s v y : Fin n → ℝ) : mirror s v y = diagonal s *ᵥ y + v := funext fun j => by
  show s j * y j + v j = (diagonal s *ᵥ y) j + v j
  rw [mulVec_diagonal]

theorem measurable_mirror (s v : Fin n → ℝ) : Measurable (mirror s v) :=
  measurable_pi_lambda _ fun j => (measurable_const.mul (measurable_pi_apply j)).add_const _

section
variable {s : Fin n → ℝ} (hs : ∀ j, s j * s j = 1) (v : Fin n → ℝ) {Φ Φ' : MetricField n}
  (hH : ∀ x, Φ'.H (mirror s v x) = diagonal s * Φ.H x * diagonal s)
include hs

theorem diag_sq : diagonal s * diagonal s = (1 : Matrix (Fin n) (Fin n) ℝ) := by
  rw [diagonal_mul_diagonal]; simp only [hs]; exact diagonal_one

theorem diag_orth : diagonal s * (diagonal s)ᵀ = (1 : Matrix (Fin n) (Fin n) ℝ) := by rw [diagonal_transpose]; exact diag_sq hs

theorem stdNormal_flip : MeasurePreserving (fun w => diagonal s *ᵥ w) (stdNormal n) (stdNormal n) :=
  ⟨measurable_mulVec _, stdNormal_rot (diag_orth hs)⟩

include hH

namespace MetricField

theorem L_mirror (x : Fin n → ℝ) : Φ'.L (mirror s v x) = diagonal s * Φ.L x * diagonal s :=
  IsCholesky.unique (M := Φ'.H (mirror s v x)) (Φ'.chol _) (hH x ▸ (Φ.chol x).mirror hs)

theorem prop_mirror (D : ℝ) (x w : Fin n → ℝ) : Φ'.prop D (mirror s v x) (diagonal s *ᵥ w) = mirror s v (Φ.prop D x w) := by
  unfold prop
  have hi : (diagonal s : Matrix (Fin n) (Fin n) ℝ)⁻¹ = diagonal s := inv_eq_right_inv (diag_sq hs)
  rw [L_mirror hs v hH, mirror_eq, mirror_eq, Matrix.mul_inv_rev, Matrix.mul_inv_rev, hi, mulVec_add, smul_mulVec, smul_mulVec, mulVec_smul, mulVec_mulVec, mulVec_mulVec]
  have : diagonal s * ((Φ.L x)⁻¹ * diagonal s) * diagonal s = diagonal s * (Φ.L x)⁻¹ := by
    simp only [Matrix.mul_assoc]; rw [diag_sq hs, Matrix.mul_one]
  rw [this]
  abel

theorem logd_mirror (D : ℝ) (x z : Fin n → ℝ) : Φ'.logd D (mirror s v x) (mirror s v z) = Φ.logd D x z := by
  unfold logd denseLogDens
  have hd : (diagonal s : Matrix (Fin n) (Fin n) ℝ).det * (diagonal s : Matrix (Fin n) (Fin n) ℝ).det = 1 := by
    rw [← det_mul, diag_sq hs, det_one]
  have e1 : mirror s v z - mirror s v x = diagonal s *ᵥ (z - x) := by
    rw [mirror_eq, mirror_eq, add_sub_add_right_eq_sub, ← mulVec_sub]
  rw [L_mirror hs v hH, hH, e1, det_mul, det_mul, mul_right_comm, hd, one_mul, mulVec_mulVec]
  have e2 : diagonal s * Φ.H x * diagonal s * diagonal s = diagonal s * Φ.H x := by rw [Matrix.mul_assoc, diag_sq hs, Matrix.mul_one]
  rw [e2, ← mulVec_mulVec]
  congr 2
  rw [dotProduct_mulVec, vecMul_mulVec, diagonal_transpose, diag_sq hs, vecMul_one]

theorem acc_mirror (D : ℝ) (x z : Fin n → ℝ) : Φ'.acc D (mirror s v x) (mirror s v z) = Φ.acc D x z := by
  unfold acc
  rw [logd_mirror hs v hH, logd_mirror hs v hH]

theorem move_mirror {C C' : Set (Fin n → ℝ)} (hC : ∀ y, mirror s v y ∈ C' ↔ y ∈ C) (D : ℝ) (x : Fin n → ℝ) (w : (Fin n → ℝ) × ℝ) :
    mhMove C' (Φ'.prop D) (Φ'.acc D) (mirror s v x) (Prod.map (fun w => diagonal s *ᵥ w) id w) = mirror s v (mhMove C (Φ.prop D) (Φ.acc D) x w) := by
  have e1 : Φ'.prop D (mirror s v x) (Prod.map (fun w => diagonal s *ᵥ w) id w).1 = mirror s v (Φ.prop D x w.1) := prop_mirror hs v hH D x w.1
  have e2 := acc_mirror hs v hH D x (Φ.prop D x w.1)
  unfold mhMove
  by_cases hc : Φ.prop D x w.1 ∈ C ∧ w.2 < Φ.acc D x (Φ.prop D x w.1)
  · rw [if_pos hc, if_pos (by rw [e1, e2]; exact ⟨(hC _).2 hc.1, hc.2⟩), e1]
  · rw [if_neg hc, if_neg]
    rw [e1, e2]
    exact fun h' => hc ⟨(hC _).1 h'.1, h'.2⟩

end MetricField
end

namespace Mirrored
variable {s v : Fin n → ℝ} {π : Equiv.Perm (Fin m)} {A : Matrix (Fin m) (Fin n) ℝ} {b : Fin m → ℝ} {A' : Matrix (Fin m) (Fin n) ℝ} {b' : Fin m → ℝ}
  (h : Mirrored s v π A b A' b')
include h

theorem sq (j : Fin n) : s j * s j = 1 := by rcases h.sign j with e | e <;> rw [e] <;> norm_num

/-- The slack of corresponding constraints. -/
theorem slack (y : Fin n → ℝ) (i : Fin m) : b' (π i) - (A' *ᵥ mirror s v y) (π i) = b i - (A *ᵥ y) i := by
  have e : (A' *ᵥ mirror s v y) (π i) = (A *ᵥ y) i + ∑ j, A' (π i) j * v j := by
    show ∑ j, A' (π i) j * (s j * y j + v j) = (∑ j, A i j * y j) + _
    rw [← Finset.sum_add_distrib]
    refine Finset.sum_congr rfl fun j _ => ?_
    have h1 : A' (π i) j * s j = A i j := by rw [h.mat, mul_assoc, h.sq, mul_one]
    rw [mul_add, ← mul_assoc, h1]
  rw [e, h.rhs]; ring

theorem mem_poly (y : Fin n → ℝ) : mirror s v y ∈ Poly A' b' ↔ y ∈ Poly A b := by
  constructor
  · intro hy i
    have h1 := h.slack y i
    have h2 : (A' *ᵥ mirror s v y) (π i) ≤ b' (π i) := hy (π i)
    show (A *ᵥ y) i ≤ b i
    linarith
  · intro hy i
    have h1 := h.slack y (π.symm i)
    rw [Equiv.apply_symm_apply] at h1
    have h2 : (A *ᵥ y) (π.symm i) ≤ b (π.symm i) := hy _
    show (A' *ᵥ mirror s v y) i ≤ b' i
    linarith

theorem mem_interior (y : Fin n → ℝ) : mirror s v y ∈ Interior A' b' ↔ y ∈ Interior A b := by
  constructor
  · intro hy i
    have h1 := h.slack y i
    have h2 : (A' *ᵥ mirror s v y) (π i) < b' (π i) := hy (π i)
    show (A *ᵥ y) i < b i
    linarith
  · intro hy i
    have h1 := h.slack y (π.symm i)
    rw [Equiv.apply_symm_apply] at h1
    have h2 : (A *ᵥ y) (π.symm i) < b (π.symm i) := hy _
    show (A' *ᵥ mirror s v y) i < b' i
    linarith

theorem back (y : Fin n → ℝ) : ∃ z, mirror s v z = y ∧ ∀ j, z j = s j * (y j - v j) :=
  ⟨fun j => s j * (y j - v j), funext fun j => by show s j * (s j * (y j - v j)) + v j = y j; rw [← mul_assoc, h.sq]; ring, fun _ => rfl⟩

theorem bounded (hb : ∃ M, ∀ y ∈ Poly A b, ∀ i, |y i| ≤ M) : ∃ M, ∀ y ∈ Poly A' b', ∀ i, |y i| ≤ M := by
  obtain ⟨M, hM⟩ := hb
  refine ⟨M + ∑ i, |v i|, fun y hy i => ?_⟩
  obtain ⟨z, hz, -⟩ := h.back y
  subst hz
  have h1 := hM z ((h.mem_poly z).1 hy) i
  have h2 : |v i| ≤ ∑ i, |v i| := Finset.single_le_sum (f := fun i => |v i|) (fun i _ => abs_nonneg _) (Finset.mem_univ i)
  have h3 : |s i * z i| = |z i| := by rcases h.sign i with e | e <;> rw [e] <;> simp
  show |s i * z i + v i| ≤ _
  exact (abs_add_le _ _).trans (add_le_add (h3.le.trans h1) h2)

theorem hessian {w w' : Fin m → ℝ} (y : Fin n → ℝ) (hw : ∀ i, w' (π i) = w i) :
    hessianOf w' (mirror s v y) A' b' = diagonal s * hessianOf w y A b * diagonal s := by
  rw [hessianOf_real, hessianOf_real]
  ext i k
  rw [mul_diagonal, diagonal_mul, Matrix.mul_apply, Matrix.mul_apply, Finset.mul_sum, Finset.sum_mul, ← Equiv.sum_comp π]
  refine Finset.sum_congr rfl fun l _ => ?_
  rw [mul_diagonal, mul_diagonal, transpose_apply, transpose_apply, h.slack, hw, h.mat, h.mat]
  ring

theorem lev_mirror (y : Fin n → ℝ) (i : Fin m) : lev (normals (mirror s v y) A' b') (π i) = lev (normals y A b) i := by
  have e : normals (mirror s v y) A' b' = (normals y A b * diagonal s).submatrix π.symm id := by
    ext l j
    rw [submatrix_apply, mul_diagonal]
    obtain ⟨i, rfl⟩ := π.surjective l
    rw [Equiv.symm_apply_apply]
    show A' (π i) j / (b' (π i) - (A' *ᵥ mirror s v y) (π i)) = A i j / (b i - (A *ᵥ y) i) * s j
    rw [h.slack, h.mat]; ring
  set N := normals y A b with hN
  have hi : (diagonal s : Matrix (Fin n) (Fin n) ℝ)⁻¹ = diagonal s := inv_eq_right_inv (diag_sq h.sq)
  have e2 : (normals (mirror s v y) A' b')ᵀ * normals (mirror s v y) A' b' = diagonal s * (Nᵀ * N) * diagonal s := by
    rw [e, transpose_submatrix, submatrix_mul_equiv, submatrix_id_id, transpose_mul, diagonal_transpose]
    simp only [Matrix.mul_assoc]
  unfold lev
  rw [e2, Matrix.mul_inv_rev, Matrix.mul_inv_rev, hi, e]
  have e3 : (N * diagonal s).submatrix π.symm id * (diagonal s * ((Nᵀ * N)⁻¹ * diagonal s)) * ((N * diagonal s).submatrix π.symm id)ᵀ =
      (N * (Nᵀ * N)⁻¹ * Nᵀ).submatrix π.symm π.symm := by
    have h0 : (N * diagonal s) * (diagonal s * ((Nᵀ * N)⁻¹ * diagonal s)) * (N * diagonal s)ᵀ = N * (Nᵀ * N)⁻¹ * Nᵀ := by
      rw [transpose_mul, diagonal_transpose]
      calc (N * diagonal s) * (diagonal s * ((Nᵀ * N)⁻¹ * diagonal s)) * (diagonal s * Nᵀ)
          = N * (diagonal s * diagonal s) * (Nᵀ * N)⁻¹ * (diagonal s * diagonal s) * Nᵀ := by simp only [Matrix.mul_assoc]
        _ = _ := by rw [diag_sq h.sq, Matrix.mul_one, Matrix.mul_one]
    rw [← h0]; rfl
  rw [e3, submatrix_apply, Equiv.symm_apply_apply]

end Mirrored

end PW
