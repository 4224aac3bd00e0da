import Verif.Spec.Leverage
import Verif.Lemmas.LinAlg
import Mathlib.LinearAlgebra.Matrix.Trace

/-! # Leverage scores -/

namespace PW
open Classical Matrix
variable {m n : ℕ}

section
variable (M : Matrix (Fin m) (Fin n) ℝ) (h : IndepCols M)
include h

theorem gram_det : IsUnit (Mᵀ * M).det := PosDef.isUnit_det h.posDef

theorem proj_sq : (M * (Mᵀ * M)⁻¹ * Mᵀ) * (M * (Mᵀ * M)⁻¹ * Mᵀ) = M * (Mᵀ * M)⁻¹ * Mᵀ := by
  have := gram_det M h
  calc (M * (Mᵀ * M)⁻¹ * Mᵀ) * (M * (Mᵀ * M)⁻¹ * Mᵀ)
      = M * ((Mᵀ * M)⁻¹ * (Mᵀ * M)) * (Mᵀ * M)⁻¹ * Mᵀ := by simp only [Matrix.mul_assoc]
    _ = _ := by rw [Matrix.nonsing_inv_mul _ this, Matrix.mul_one]

omit h in
theorem proj_transpose : (M * (Mᵀ * M)⁻¹ * Mᵀ)ᵀ = M * (Mᵀ * M)⁻¹ * Mᵀ := by
  rw [Matrix.transpose_mul, Matrix.transpose_mul, Matrix.transpose_transpose,
    Matrix.transpose_nonsing_inv, Matrix.transpose_mul, Matrix.transpose_transpose, Matrix.mul_assoc]

/-- A leverage score is the squared norm of a row of the projection. -/
theorem lev_eq_sum_sq (i : Fin m) : lev M i = ∑ j, ((M * (Mᵀ * M)⁻¹ * Mᵀ) i j) ^ 2 := by
  have h1 := congrFun (congrFun (proj_sq M h) i) i
  rw [lev, ← h1, Matrix.mul_apply]
  refine Finset.sum_congr rfl fun j _ => ?_
  have h2 := congrFun (congrFun (proj_transpose M) i) j
  rw [Matrix.transpose_apply] at h2
  rw [h2, sq]

theorem lev_nonneg (i : Fin m) : 0 ≤ lev M i := by
  rw [lev_eq_sum_sq M h]; exact Finset.sum_nonneg fun j _ => sq_nonneg _

theorem lev_le_one (i : Fin m) : lev M i ≤ 1 := by
  have h1 := lev_eq_sum_sq M h i
  have h2 : lev M i ^ 2 ≤ lev M i := by
    conv_rhs => rw [h1]
    exact Finset.single_le_sum (f := fun j => ((M * (Mᵀ * M)⁻¹ * Mᵀ) i j) ^ 2)
      (fun j _ => sq_nonneg _) (Finset.mem_univ i)
  nlinarith [lev_nonneg M h i]

/-- The leverage scores sum to the dimension. -/
theorem lev_sum : ∑ i, lev M i = n := by
  have : ∑ i, lev M i = (M * (Mᵀ * M)⁻¹ * Mᵀ).trace := rfl
  rw [this, Matrix.trace_mul_comm, ← Matrix.mul_assoc, Matrix.mul_nonsing_inv _ (gram_det M h),
    Matrix.trace_one, Fintype.card_fin]

/-- The code's formula computes leverage scores when the inverse is exact. -/
theorem levScores_real {E : Eigen ℝ} (hE : E.InvExact) (i : Fin m) : levScores E M i = lev M i := by
  unfold levScores
  simp only [mulMat_real, transp_eq, vsum_real]
  rw [hE _ (gram_det M h), lev, Matrix.mul_apply (M := M * (Mᵀ * M)⁻¹)]
  rfl

/-- Invariance under an invertible change of variables. -/
theorem lev_mul (T : Matrix (Fin n) (Fin n) ℝ) (hT : IsUnit T.det) (i : Fin m) :
    lev (M * T) i = lev M i := by
  have hT' : IsUnit Tᵀ.det := by rwa [Matrix.det_transpose]
  have e : (M * T)ᵀ * (M * T) = Tᵀ * (Mᵀ * M) * T := by
    rw [Matrix.transpose_mul]; simp only [Matrix.mul_assoc]
  have e2 : (M * T) * ((M * T)ᵀ * (M * T))⁻¹ * (M * T)ᵀ = M * (Mᵀ * M)⁻¹ * Mᵀ := by
    rw [e, Matrix.mul_inv_rev, Matrix.mul_inv_rev, Matrix.transpose_mul]
    calc M * T * (T⁻¹ * ((Mᵀ * M)⁻¹ * Tᵀ⁻¹)) * (Tᵀ * Mᵀ)
        = M * (T * T⁻¹) * (Mᵀ * M)⁻¹ * (Tᵀ⁻¹ * Tᵀ) * Mᵀ := by simp only [Matrix.mul_assoc]
      _ = _ := by rw [Matrix.mul_nonsing_inv _ hT, Matrix.nonsing_inv_mul _ hT', Matrix.mul_one,
        Matrix.mul_one]
  rw [lev, e2, lev]

theorem IndepCols.mul (T : Matrix (Fin n) (Fin n) ℝ) (hT : IsUnit T.det) : IndepCols (M * T) := by
  intro x hx
  rw [← Matrix.mulVec_mulVec] at hx
  have := h _ hx
  have h2 : T⁻¹ *ᵥ (T *ᵥ x) = 0 := by rw [this, Matrix.mulVec_zero]
  rwa [Matrix.mulVec_mulVec, Matrix.nonsing_inv_mul _ hT, Matrix.one_mulVec] at h2

/-- Scaling rows by non-zero factors keeps the columns independent. -/
theorem IndepCols.scale {s : Fin m → ℝ} (hs : ∀ i, s i ≠ 0) :
    IndepCols (fun i j => s i * M i j : Matrix (Fin m) (Fin n) ℝ) := by
  intro x hx
  apply h
  funext i
  have := congrFun hx i
  simp only [Matrix.mulVec, dotProduct, mul_assoc, ← Finset.mul_sum, Pi.zero_apply] at this
  exact (mul_eq_zero.1 this).resolve_left (hs i)
end

theorem scaledA_real (x : Fin n → ℝ) (A : Matrix (Fin m) (Fin n) ℝ) (b : Fin m → ℝ) :
    scaledA x A b = normals x A b := by
  funext i j
  show 1 / (b i - mulVec A x i) * A i j = A i j / (b i - (A *ᵥ x) i)
  rw [mulVec_real]; ring

theorem Interior.slack_pos {x : Fin n → ℝ} {A : Matrix (Fin m) (Fin n) ℝ} {b : Fin m → ℝ}
    (hx : x ∈ Interior A b) (i : Fin m) : 0 < b i - (A *ᵥ x) i := sub_pos.2 (hx i)

theorem normals_indep {x : Fin n → ℝ} {A : Matrix (Fin m) (Fin n) ℝ} {b : Fin m → ℝ}
    (hx : x ∈ Interior A b) (hA : IndepCols A) : IndepCols (normals x A b) := by
  have := hA.scale (s := fun i => (b i - (A *ᵥ x) i)⁻¹) (M := A)
    (fun i => inv_ne_zero (Interior.slack_pos hx i).ne')
  have e : normals x A b = fun i j => (b i - (A *ᵥ x) i)⁻¹ * A i j := by
    funext i j; unfold normals; ring
  rw [e]; exact this

theorem powScaled_real (alpha : ℝ) (w : Fin m → ℝ) (M : Matrix (Fin m) (Fin n) ℝ) :
    powScaled alpha w M = scaledRows w (alpha / 2) M := by
  funext i j
  show w i ^ (alpha * half) * M i j = w i ^ (alpha / 2) * M i j
  rw [half_real]; ring_nf

theorem scaledRows_indep {M : Matrix (Fin m) (Fin n) ℝ} (h : IndepCols M) {w : Fin m → ℝ}
    (hw : ∀ i, 0 < w i) (p : ℝ) : IndepCols (scaledRows w p M) :=
  h.scale (s := fun i => w i ^ p) (M := M) fun i => (Real.rpow_pos_of_pos (hw i) p).ne'

/-- With independent columns there are at least as many rows as columns. -/
theorem IndepCols.le {M : Matrix (Fin m) (Fin n) ℝ} (h : IndepCols M) : n ≤ m := by
  have h1 := lev_sum M h
  have h2 : ∑ i, lev M i ≤ ∑ _i : Fin m, (1 : ℝ) := Finset.sum_le_sum fun i _ => lev_le_one M h i
  rw [h1] at h2
  simp at h2
  exact_mod_cast h2

end PW
