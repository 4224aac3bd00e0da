import Verif.Lemmas.Geometry
import Verif.Spec.Contracts
import Mathlib.Algebra.Order.Star.Real

/-! # Linear algebra facts used for the exact-arithmetic theorems -/

namespace PW
open Classical Matrix
variable {m n : ℕ}

theorem IndepRows.injective {A : Matrix (Fin m) (Fin n) ℝ} (h : IndepRows A) :
    Function.Injective A.vecMul := by
  intro y z hyz
  have : (y - z) ᵥ* A = 0 := by rw [Matrix.sub_vecMul]; exact sub_eq_zero.2 hyz
  exact sub_eq_zero.1 (h _ this)

theorem IndepCols.injective {A : Matrix (Fin m) (Fin n) ℝ} (h : IndepCols A) :
    Function.Injective A.mulVec := by
  intro y z hyz
  have : A *ᵥ (y - z) = 0 := by rw [Matrix.mulVec_sub]; exact sub_eq_zero.2 hyz
  exact sub_eq_zero.1 (h _ this)

/-- `A Aᵀ` is positive definite for independent rows. -/
theorem IndepRows.posDef {A : Matrix (Fin m) (Fin n) ℝ} (h : IndepRows A) : (A * Aᵀ).PosDef := by
  have := Matrix.PosDef.mul_conjTranspose_self A h.injective
  rwa [Matrix.conjTranspose_eq_transpose_of_trivial] at this

/-- `Aᵀ A` is positive definite for independent columns. -/
theorem IndepCols.posDef {A : Matrix (Fin m) (Fin n) ℝ} (h : IndepCols A) : (Aᵀ * A).PosDef := by
  have := Matrix.PosDef.conjTranspose_mul_self A h.injective
  rwa [Matrix.conjTranspose_eq_transpose_of_trivial] at this

theorem PosDef.isUnit_det {M : Matrix (Fin n) (Fin n) ℝ} (h : M.PosDef) : IsUnit M.det :=
  (Matrix.isUnit_iff_isUnit_det M).1 h.isUnit

/-- Scaling columns by non-zero factors keeps the rows independent. -/
theorem IndepRows.scaleCols {A : Matrix (Fin m) (Fin n) ℝ} (h : IndepRows A) {s : Fin n → ℝ}
    (hs : ∀ i, s i ≠ 0) : IndepRows (scaleCols A s) := by
  intro y hy
  apply h
  funext j
  have := congrFun hy j
  simp only [Matrix.vecMul, dotProduct, PW.scaleCols, Pi.zero_apply] at *
  simp only [← mul_assoc, ← Finset.sum_mul] at this
  exact (mul_eq_zero.1 this).resolve_right (hs j)

theorem scaleCols_eq (A : Matrix (Fin m) (Fin n) ℝ) (s : Fin n → ℝ) :
    scaleCols A s = A * Matrix.diagonal s := by
  funext i j; simp [PW.scaleCols, Matrix.mul_diagonal]

/-- The kernel projection lands in the kernel of `A`. -/
theorem kernelProject_ker {E : Eigen ℝ} (hE : E.SparseLUExact) {A : Matrix (Fin m) (Fin n) ℝ}
    (hA : IsUnit (A * Aᵀ).det) (v : Fin n → ℝ) : A *ᵥ kernelProject E A v = 0 := by
  have h1 : kernelProject E A v = v - Aᵀ *ᵥ E.sparseLUSolve (A * Aᵀ) (A *ᵥ v) := by
    funext i; simp [kernelProject, mulVec_real, mulMat_real, transp_eq]
  rw [h1, Matrix.mulVec_sub, Matrix.mulVec_mulVec, hE _ _ hA, sub_self]

theorem normalize_ker {A : Matrix (Fin m) (Fin n) ℝ} {z : Fin n → ℝ} (h : A *ᵥ z = 0) :
    A *ᵥ normalize z = 0 := by
  have : normalize z = (1 / norm2 z) • z := by funext i; simp [normalize]; ring
  rw [this, Matrix.mulVec_smul, h, smul_zero]

/-- The sparse barrier proposal moves in the kernel of `A`. -/
theorem proposal_ker {E : Eigen ℝ} (hE : E.SparseLLTSolveExact) {A : Matrix (Fin m) (Fin n) ℝ} {D : ℝ}
    {G : Fin n → ℝ} (hG : (scaleCols A (invSqrt G) * (scaleCols A (invSqrt G))ᵀ).PosDef)
    (x v : Fin n → ℝ) : A *ᵥ SparseBarrier.proposal E D G A x v = A *ᵥ x := by
  set h := invSqrt G
  set AG := scaleCols A h with hAG
  set z := AGᵀ *ᵥ E.sparseLLTSolve (AG * AGᵀ) (AG *ᵥ v)
  have h1 : SparseBarrier.proposal E D G A x v = x + Real.sqrt D • (Matrix.diagonal h *ᵥ (v - z)) := by
    funext i
    simp only [SparseBarrier.proposal, mulVec_real, mulMat_real, transp_eq, rsc_sqrt, Pi.add_apply,
      Pi.smul_apply, smul_eq_mul, Matrix.mulVec_diagonal, Pi.sub_apply]
    rfl
  rw [h1, Matrix.mulVec_add, Matrix.mulVec_smul, Matrix.mulVec_mulVec, ← scaleCols_eq, ← hAG,
    Matrix.mulVec_sub, Matrix.mulVec_mulVec, hE _ _ hG, sub_self, smul_zero, add_zero]

end PW
