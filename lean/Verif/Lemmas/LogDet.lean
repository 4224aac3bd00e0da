import Verif.Lemmas.Leverage
import Verif.Lemmas.QRExists
import Mathlib.Analysis.Matrix.Spectrum
import Mathlib.Analysis.Convex.SpecificFunctions.Basic

/-!
# How the log determinant of a weighted Gram matrix responds to a change of the weights

With leverage scores `σ` of the rows of `B`: `∑ σᵢ log cᵢ ≤ log det(Bᵀ C B) - log det(BᵀB) ≤ ∑ σᵢ (cᵢ - 1)`.
-/

namespace PW
open Classical Matrix
variable {m n : ℕ}

/-- Two positive quadratic forms can be diagonalised together. -/
theorem simul_diag {B : Matrix (Fin m) (Fin n) ℝ} (hB : IndepCols B) (c : Fin m → ℝ) :
    ∃ (V : Matrix (Fin n) (Fin n) ℝ) (l : Fin n → ℝ), IsUnit V.det ∧ (B * V)ᵀ * (B * V) = 1 ∧
      (B * V)ᵀ * diagonal c * (B * V) = diagonal l := by
  obtain ⟨L, hL⟩ := exists_isCholesky _ hB.posDef
  have hdet : IsUnit L.det := by
    have h := PosDef.isUnit_det hB.posDef
    rw [← hL.mul_eq, Matrix.det_mul] at h
    exact isUnit_of_mul_isUnit_left h
  have hdetT : IsUnit Lᵀ.det := by rwa [Matrix.det_transpose]
  set T := (Lᵀ)⁻¹ with hT
  have hTd : IsUnit T.det := by
    rw [hT]; exact (Matrix.isUnit_nonsing_inv_det_iff).2 hdetT
  set Q := B * T with hQ
  have hQQ : Qᵀ * Q = 1 := by
    rw [hQ, Matrix.transpose_mul]
    have e : Tᵀ * Bᵀ * (B * T) = Tᵀ * (Bᵀ * B) * T := by simp only [Matrix.mul_assoc]
    rw [e, ← hL.mul_eq, hT, Matrix.transpose_nonsing_inv, Matrix.transpose_transpose]
    calc L⁻¹ * (L * Lᵀ) * Lᵀ⁻¹ = (L⁻¹ * L) * (Lᵀ * Lᵀ⁻¹) := by simp only [Matrix.mul_assoc]
      _ = 1 := by rw [Matrix.nonsing_inv_mul _ hdet, Matrix.mul_nonsing_inv _ hdetT, Matrix.mul_one]
  have hH : (Qᵀ * diagonal c * Q).IsHermitian := by
    unfold Matrix.IsHermitian
    rw [Matrix.conjTranspose_eq_transpose_of_trivial]
    clear_value Q
    rw [Matrix.transpose_mul, Matrix.transpose_mul, Matrix.transpose_transpose, Matrix.diagonal_transpose,
      Matrix.mul_assoc]
  set U : Matrix (Fin n) (Fin n) ℝ := (hH.eigenvectorUnitary : Matrix (Fin n) (Fin n) ℝ) with hU
  have hUU : Uᵀ * U = 1 := by
    have := Unitary.coe_star_mul_self hH.eigenvectorUnitary
    rwa [Matrix.star_eq_conjTranspose, Matrix.conjTranspose_eq_transpose_of_trivial] at this
  have hdiag : Uᵀ * (Qᵀ * diagonal c * Q) * U = diagonal hH.eigenvalues := by
    have := hH.conjStarAlgAut_star_eigenvectorUnitary
    rw [Unitary.conjStarAlgAut_star_apply] at this
    rw [Matrix.star_eq_conjTranspose, Matrix.conjTranspose_eq_transpose_of_trivial] at this
    simpa using this
  have hUd : IsUnit U.det := by
    have := congrArg Matrix.det hUU
    rw [Matrix.det_mul, Matrix.det_one] at this
    exact IsUnit.of_mul_eq_one_right _ this
  refine ⟨T * U, hH.eigenvalues, ?_, ?_, ?_⟩
  · rw [Matrix.det_mul]; exact hTd.mul hUd
  · have e : (B * (T * U))ᵀ = Uᵀ * Qᵀ := by rw [← Matrix.mul_assoc, Matrix.transpose_mul Q U]
    rw [e, ← Matrix.mul_assoc B T U]
    calc Uᵀ * Qᵀ * (Q * U) = Uᵀ * (Qᵀ * Q) * U := by simp only [Matrix.mul_assoc]
      _ = 1 := by rw [hQQ, Matrix.mul_one, hUU]
  · have e : (B * (T * U))ᵀ = Uᵀ * Qᵀ := by rw [← Matrix.mul_assoc, Matrix.transpose_mul Q U]
    rw [e, ← Matrix.mul_assoc B T U, ← hdiag, ← hQ]
    clear_value Q
    simp only [Matrix.mul_assoc]

theorem lev_of_orthonormal {P : Matrix (Fin m) (Fin n) ℝ} (h : Pᵀ * P = 1) (i : Fin m) :
    lev P i = ∑ j, P i j ^ 2 := by
  unfold lev
  rw [h, inv_one, Matrix.mul_one, Matrix.mul_apply]
  exact Finset.sum_congr rfl fun j _ => by rw [Matrix.transpose_apply, sq]

theorem weightedGram_eq (B : Matrix (Fin m) (Fin n) ℝ) (c : Fin m → ℝ) (j k : Fin n) :
    (Bᵀ * diagonal c * B) j k = ∑ i, c i * B i j * B i k := by
  rw [Matrix.mul_assoc, Matrix.mul_apply]
  refine Finset.sum_congr rfl fun i _ => ?_
  rw [Matrix.transpose_apply, Matrix.diagonal_mul]; ring

theorem gram_det_pos {B : Matrix (Fin m) (Fin n) ℝ} (hB : IndepCols B) : 0 < (Bᵀ * B).det := hB.posDef.det_pos

/-- The response of the log determinant to a change of the weights, from below and from above. -/
theorem logdet_bounds {B : Matrix (Fin m) (Fin n) ℝ} (hB : IndepCols B) {c : Fin m → ℝ} (hc : ∀ i, 0 < c i) :
    0 < (Bᵀ * diagonal c * B).det ∧
    ∑ i, lev B i * Real.log (c i) ≤ Real.log (Bᵀ * diagonal c * B).det - Real.log (Bᵀ * B).det ∧
    Real.log (Bᵀ * diagonal c * B).det - Real.log (Bᵀ * B).det ≤ ∑ i, lev B i * (c i - 1) := by
  obtain ⟨V, l, hV, h1, h2⟩ := simul_diag hB c
  set P := B * V with hP
  have hlev : ∀ i, lev B i = ∑ j, P i j ^ 2 := fun i => by
    rw [← lev_mul B hB V hV i, ← hP, lev_of_orthonormal h1]
  have hl : ∀ j, l j = ∑ i, c i * P i j ^ 2 := by
    intro j
    have := congrFun (congrFun h2 j) j
    rw [weightedGram_eq, Matrix.diagonal_apply_eq] at this
    rw [← this]
    exact Finset.sum_congr rfl fun i _ => by ring
  have hone : ∀ j, ∑ i, P i j ^ 2 = 1 := by
    intro j
    have := congrFun (congrFun h1 j) j
    rw [Matrix.mul_apply, Matrix.one_apply_eq] at this
    rw [← this]
    exact Finset.sum_congr rfl fun i _ => by rw [Matrix.transpose_apply, sq]
  have hlpos : ∀ j, 0 < l j := by
    intro j
    rw [hl j]
    obtain ⟨i, hi⟩ : ∃ i, P i j ≠ 0 := by
      by_contra hcon
      push Not at hcon
      have := hone j
      simp [hcon] at this
    exact Finset.sum_pos' (fun i _ => mul_nonneg (hc i).le (sq_nonneg _))
      ⟨i, Finset.mem_univ _, mul_pos (hc i) (by positivity)⟩
  have hVV : 0 < V.det ^ 2 := by have := hV.ne_zero; positivity
  have hd1 : V.det ^ 2 * (Bᵀ * B).det = 1 := by
    have := congrArg Matrix.det h1
    rw [Matrix.det_one, hP, Matrix.transpose_mul] at this
    have e : Vᵀ * Bᵀ * (B * V) = Vᵀ * (Bᵀ * B) * V := by simp only [Matrix.mul_assoc]
    rw [← this, e, Matrix.det_mul, Matrix.det_mul, Matrix.det_transpose]; ring
  have hd2 : V.det ^ 2 * (Bᵀ * diagonal c * B).det = ∏ j, l j := by
    have := congrArg Matrix.det h2
    rw [Matrix.det_diagonal, hP, Matrix.transpose_mul] at this
    rw [← this]
    have e : Vᵀ * Bᵀ * diagonal c * (B * V) = Vᵀ * (Bᵀ * diagonal c * B) * V := by
      simp only [Matrix.mul_assoc]
    rw [e, Matrix.det_mul, Matrix.det_mul, Matrix.det_transpose]; ring
  have hprod : 0 < ∏ j, l j := Finset.prod_pos fun j _ => hlpos j
  have hdpos : 0 < (Bᵀ * diagonal c * B).det := by
    rw [← hd2] at hprod
    exact (pos_iff_pos_of_mul_pos hprod).1 hVV
  have hgpos := gram_det_pos hB
  have hdiff : Real.log (Bᵀ * diagonal c * B).det - Real.log (Bᵀ * B).det = ∑ j, Real.log (l j) := by
    rw [← Real.log_prod (s := Finset.univ) (f := l) (fun j _ => (hlpos j).ne'), ← hd2,
      Real.log_mul hVV.ne' hdpos.ne']
    have : Real.log (V.det ^ 2) + Real.log (Bᵀ * B).det = 0 := by
      rw [← Real.log_mul hVV.ne' hgpos.ne', hd1, Real.log_one]
    linarith
  refine ⟨hdpos, ?_, ?_⟩
  · rw [hdiff]
    calc ∑ i, lev B i * Real.log (c i) = ∑ j, ∑ i, P i j ^ 2 * Real.log (c i) := by
          rw [Finset.sum_comm]
          refine Finset.sum_congr rfl fun i _ => ?_
          rw [hlev i, Finset.sum_mul]
      _ ≤ ∑ j, Real.log (l j) := by
          refine Finset.sum_le_sum fun j _ => ?_
          have := strictConcaveOn_log_Ioi.concaveOn.le_map_sum (t := Finset.univ) (w := fun i => P i j ^ 2)
            (p := c) (fun i _ => sq_nonneg _) (hone j) (fun i _ => hc i)
          simp only [smul_eq_mul] at this
          rw [hl j]
          refine this.trans (le_of_eq ?_)
          congr 1
          exact Finset.sum_congr rfl fun i _ => by ring
  · rw [hdiff]
    calc ∑ j, Real.log (l j) ≤ ∑ j, (l j - 1) := Finset.sum_le_sum fun j _ => Real.log_le_sub_one_of_pos (hlpos j)
      _ = ∑ j, ∑ i, P i j ^ 2 * (c i - 1) := by
          refine Finset.sum_congr rfl fun j _ => ?_
          rw [hl j]
          nth_rw 1 [← hone j]
          rw [← Finset.sum_sub_distrib]
          exact Finset.sum_congr rfl fun i _ => by ring
      _ = ∑ i, lev B i * (c i - 1) := by
          rw [Finset.sum_comm]
          refine Finset.sum_congr rfl fun i _ => ?_
          rw [hlev i, Finset.sum_mul]

end PW
