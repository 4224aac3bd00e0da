import Verif.Props.SparseLSConverges
import Verif.Props.LSDefaults
import Verif.Props.Examples

/-!
# C74: concrete cases

The interval `[-1, 1]` and the segment of `Props/Examples.lean`, with tolerances and iteration limits that force the criterion to be
met, and the interval with a constraint whose normal is zero.
-/

namespace PW.RealToy
open PW Matrix

theorem quarter_rpow : (1 / 4 : ℝ) ^ (1 / (1 + Real.log ((2 : ℕ) : ℝ))) ≤ 1 / 2 := by
  have hl := Real.log_two_lt_d9
  have hl0 := Real.log_two_gt_d9
  have h : (1 / 2 : ℝ) ≤ 1 / (1 + Real.log ((2 : ℕ) : ℝ)) := by
    push_cast
    exact one_div_le_one_div_of_le (by linarith) (by linarith)
  calc (1 / 4 : ℝ) ^ (1 / (1 + Real.log ((2 : ℕ) : ℝ))) ≤ (1 / 4 : ℝ) ^ (((1 : ℕ) : ℝ) / (2 : ℕ)) :=
        Real.rpow_le_rpow_of_exponent_ge (by norm_num) (by norm_num) (by push_cast; exact h)
    _ ≤ 1 / 2 := rpow_div_le (by norm_num) (by norm_num) 1 2 (by norm_num) (by norm_num)

theorem iv1_lev (i : Fin 2) : lev (normals 0 ivA (ivB 1)) i = 1 / 2 := by
  rw [lev_one_col, Fin.sum_univ_two, iv_normals, iv_normals, iv_normals]
  fin_cases i <;> norm_num

/-- On `[-1, 1]` the default step is small enough; 7000 passes are enough for tolerance `1/10`, and the weights returned are near the
Lee-Sidford weights. -/
example : ∃ (v w : Fin 2 → ℝ), IsLSWeights (lsExponent 2) (normals 0 ivA (ivB 1)) v ∧
    lsWeightConv exactEigen (1 / 10) (1 / 10) 7000 (BState.fresh (0 : ℝ)).w 0 ivA (ivB 1) = .ok (w, true) ∧
    distSq w v ≤ (4 * (1 + Real.log (2 : ℕ)) * (1 / 10 / (lsExponent 2 - 1 / 10))) ^ 2 := by
  have hα := lsExponent_two
  obtain ⟨v, w, t, c, hv, -, -, hw, -, -, -, -, -, -, h1⟩ := C74_descent exactEigen exactEigen_exact.inv 1 (1 / 10) (1 / 10) (by norm_num)
    (by norm_num) 7000 (BState.fresh 0) _ (startsAtOnes_fresh 0 2) 0 ivA (ivB 1) le_rfl ivA_indep (iv_interior one_pos) (1 / 4)
    (by norm_num) (by norm_num) (fun i => by rw [iv1_lev]; exact quarter_rpow) (by linarith) (fun _ => by norm_num)
  have hc : c = true := (h1 fun _ => rfl).2.1 (by
    rw [show Int.toNat 7000 = 7000 from rfl]; norm_num; linarith)
  subst hc
  exact ⟨v, w, hv, hw, C74_converged exactEigen exactEigen_exact.inv _ _ (by norm_num) _ (BState.fresh 0) _ (startsAtOnes_fresh 0 2)
    (fun _ => one_pos) 0 ivA (ivB 1) ivA_indep (iv_interior one_pos) (by linarith) v hv w hw⟩

/-- The interval meets the hypotheses of `C74_program`. -/
example : ∃ v : Fin 2 → ℝ, (∀ i, 0 < v i) ∧ ∀ u : Fin 2 → ℝ, (∀ i, 0 < u i) →
    lsObjective (lsExponent 2) (normals 0 ivA (ivB 1)) u ≤ lsObjective (lsExponent 2) (normals 0 ivA (ivB 1)) v := by
  obtain ⟨v, hv⟩ := (C74_exists_iff 0 ivA (ivB 1) ivA_indep (iv_interior one_pos)).2 iv_rows
  exact ⟨v, (C74_program 0 ivA (ivB 1) le_rfl ivA_indep (iv_interior one_pos) v).1 hv⟩

/-- `x ≤ 1`, `-x ≤ 1`, `0 ≤ 1`. -/
def padA : Matrix (Fin 3) (Fin 1) ℝ := Matrix.of fun i _ => if i = 0 then 1 else if i = 1 then -1 else 0

theorem padA_indep : IndepCols padA := by
  intro x hx
  have h0 := congrFun hx 0
  simp [padA, Matrix.mulVec, dotProduct] at h0
  funext i
  rw [Subsingleton.elim i 0]
  exact h0

/-- A harmless redundant row with zero normal makes the weights fail to exist, and the loop run to its limit. -/
example (M : Int) : (¬ ∃ w, IsLSWeights (lsExponent 3) (normals 0 padA fun _ => 1) w) ∧
    ∃ w, lsWeightConv exactEigen (1 / 100) (1 / 10) M (BState.fresh (0 : ℝ)).w 0 padA (fun _ => 1) = .ok (w, false) := by
  have hx : (0 : Fin 1 → ℝ) ∈ Interior padA fun _ => 1 := by
    intro i; rw [Matrix.mulVec_zero]; exact one_pos
  have h2 : ∀ j, padA 2 j = 0 := fun j => by simp [padA]
  constructor
  · rw [C74_exists_iff 0 padA _ padA_indep hx]
    intro h
    obtain ⟨j, hj⟩ := h 2
    exact hj (h2 j)
  · obtain ⟨w, c, hw⟩ : ∃ w c, lsWeightConv exactEigen (1 / 100) (1 / 10) M (BState.fresh (0 : ℝ)).w 0 padA (fun _ => 1) = .ok (w, c) := by
      unfold lsWeightConv
      rw [warmStart_iff.2 (startsAtOnes_fresh 0 3), Out.ok_bind]
      exact ⟨_, _, rfl⟩
    have h3 : (1 / 100 : ℝ) ≤ lsExponent 3 := by
      have h : (1 / 2 : ℝ) ≤ Real.log 3 := by
        have := Real.log_two_gt_d9
        have := Real.log_le_log (by norm_num) (show (2 : ℝ) ≤ 3 by norm_num)
        linarith
      have : (2 : ℝ) / (2 * (1 + Real.log 3)) ≤ 2 / 3 := by
        rw [div_le_div_iff₀ (by linarith) (by norm_num)]; linarith
      unfold lsExponent
      push_cast
      linarith
    have := C74_zero_row exactEigen exactEigen_exact.inv _ _ M (BState.fresh 0) _ (startsAtOnes_fresh 0 3) (fun _ => one_pos) 0 padA
      _ padA_indep hx h3 2 h2 w c hw
    exact ⟨w, by rw [hw, this]⟩

example (M : Int) := C74_floor exactEigen exactEigen_exact.inv (1 / 100) (1 / 10) (by norm_num) M (BState.fresh 0) _
  (startsAtOnes_fresh 0 2) (fun _ => by norm_num)

example (M : Int) := C74_default_step exactEigen exactEigen_exact.inv (1 / 100) (by norm_num) M (BState.fresh 0) (startsAtOnes_fresh 0 2)

/-! ## The segment -/

theorem segment_colev (i : Fin 2) : colev (colScaled rowOnes (slackScale (1 / 8) 2 (fun _ => 1) midpoint2)) i = 1 / 2 := by
  have e : ∀ r j, colScaled rowOnes (slackScale (1 / 8) 2 (fun _ => 1) midpoint2) r j = 1 / 2 := by
    intro r j
    simp [colScaled, rowOnes, slackScale, midpoint2]
  unfold colev
  rw [Matrix.inv_subsingleton]
  simp only [dotProduct, Matrix.mulVec_diagonal, Fin.sum_univ_one, Matrix.mul_apply, Fin.sum_univ_two, Matrix.transpose_apply, e,
    Ring.inverse_eq_inv]
  norm_num

/-- On the segment, with regularisation constant `1/8`. -/
example : ∃ (v w : Fin 2 → ℝ), IsSparseLSWeights (lsExponent 2) (1 / 8) rowOnes 2 midpoint2 v ∧
    sparseLSWeightConv exactEigen (1 / 8) (1 / 10) (1 / 10) 7000 (BState.fresh (0 : ℝ)).w (fun _ => 0) midpoint2 rowOnes 2 =
      .ok (w, true) ∧
    distSq w v ≤ (4 * (1 + Real.log (2 : ℕ)) * (1 / 10 / (lsExponent 2 - 1 / 10))) ^ 2 := by
  have hα := lsExponent_two
  obtain ⟨v, w, t, c, hv, -, hw, -, -, -, -, -, -, -, h1⟩ := C74_sparse_descent exactEigen exactEigen_exact.ldlt (1 / 8) 1 (1 / 10)
    (1 / 10) (by norm_num) (by norm_num) (by norm_num) 7000 2 le_rfl le_rfl (BState.fresh 0) _ (startsAtOnes_fresh 0 2) (fun _ => 0)
    midpoint2 rowOnes rowOnes_indep midpoint2_pos (1 / 4) (by norm_num) (by norm_num)
    (fun i _ => by rw [segment_colev]; exact quarter_rpow) (by linarith) (fun _ _ => by norm_num)
  have hc : c = true := (h1 fun _ _ => rfl).2.1 (by
    rw [show Int.toNat 7000 = 7000 from rfl]; norm_num; linarith)
  subst hc
  exact ⟨v, w, hv, hw, C74_sparse_converged exactEigen exactEigen_exact.ldlt _ _ _ (by norm_num) (by norm_num) _ 2 (BState.fresh 0) _
    (startsAtOnes_fresh 0 2) (fun _ _ => one_pos) _ midpoint2 rowOnes rowOnes_indep midpoint2_pos (by linarith) v hv w hw⟩

/-- Both coordinates of the segment vary. -/
example : ∃ w, IsSparseLSWeights (lsExponent 2) (1 / 8) rowOnes 2 midpoint2 w := by
  refine (C74_sparse_exists_iff rowOnes_indep (by norm_num) midpoint2_pos).2 fun i _ => ⟨fun j => if j = 0 then 1 else -1, ?_, ?_⟩
  · funext r; simp [rowOnes, Matrix.mulVec, dotProduct, Fin.sum_univ_two]
  · fin_cases i <;> simp

end PW.RealToy
