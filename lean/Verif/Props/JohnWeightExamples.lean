import Verif.Props.SparseJohnConverges
import Verif.Props.Examples

/-!
# C73: concrete cases

The triangle and the segment of `Props/Examples.lean`, with tolerances and iteration limits that force the criterion to be met.
-/

namespace PW.RealToy
open PW Matrix

/-- On the triangle 500 passes are enough for tolerance `1/10`, and the weights returned are near the John weights. -/
example : ∃ (v w : Fin 3 → ℝ), IsJohnWeights (denseJohnAlpha 3 2) ((2 : ℕ) / (2 * (3 : ℕ))) (normals triX triA triB) v ∧
    johnWeightConv exactEigen (1 / 10) 500 (BState.fresh (0 : ℝ)).w triX triA triB = .ok (w, true) ∧
    distSq w v ≤ (3 : ℕ) * (24 * johnLog 3 2 * ((3 : ℕ) / (2 : ℕ)) * (1 / 10)) ^ 2 := by
  obtain ⟨v, hv, -⟩ := C73_exists triX triA triB (by norm_num) triA_indep triX_interior
  obtain ⟨w, t, c, -, h2, -, -, -, h6, -, h8⟩ := C73_fresh exactEigen exactEigen_exact.inv 1 (1 / 10) (by norm_num) 500 (by norm_num)
    (BState.fresh 0) (startsAtOnes_fresh 0 3) triX triA triB (by norm_num) triA_indep triX_interior v hv
  have hc : c = true := h6 (by norm_num)
  subst hc
  exact ⟨v, w, hv, h2, h8 rfl⟩

/-- The triangle meets the extra hypothesis of `C73_program`. -/
example : ∃ v : Fin 3 → ℝ, (∀ i, 0 < v i) ∧ ∀ u : Fin 3 → ℝ, (∀ i, 0 < u i) →
    johnObjective (denseJohnAlpha 3 2) ((2 : ℕ) / (2 * (3 : ℕ))) (normals triX triA triB) u ≤
    johnObjective (denseJohnAlpha 3 2) ((2 : ℕ) / (2 * (3 : ℕ))) (normals triX triA triB) v := by
  obtain ⟨v, hv, -⟩ := C73_exists triX triA triB (by norm_num) triA_indep triX_interior
  exact ⟨v, (C73_program triX triA triB (by norm_num) triA_indep triX_interior (by norm_num) v).1 hv⟩

/-- A second call on the same object, at another point, starts from the weights of the first. -/
example : ∃ (o : BState ℝ) (w0 w v : Fin 3 → ℝ), StartsFrom o.w 3 w0 ∧ JohnStart o.w 3 2 ∧
    IsJohnWeights (denseJohnAlpha 3 2) ((2 : ℕ) / (2 * (3 : ℕ))) (normals triX triA triB) v ∧
    johnWeightConv exactEigen (1 / 10) 1400 o.w triX triA triB = .ok (w, true) ∧
    distSq w v ≤ (3 : ℕ) * (24 * johnLog 3 2 * ((3 : ℕ) / (2 : ℕ)) * (1 / 10)) ^ 2 := by
  have hy : (fun _ => 1 / 8 : Fin 2 → ℝ) ∈ Interior triA triB := by
    intro i
    fin_cases i <;> simp [triA, triB, Matrix.mulVec, dotProduct, Fin.sum_univ_two] <;> norm_num
  obtain ⟨v', hv', -⟩ := C73_exists _ triA triB (by norm_num) triA_indep hy
  obtain ⟨w0, t, c, -, -, -, -, -, -, -, -, hst, hs⟩ := C73_any exactEigen exactEigen_exact.inv 1 (1 / 10) (by norm_num) 500
    (by norm_num) (BState.fresh 0) _ (startsAtOnes_fresh 0 3) (johnStart_of_ones (startsAtOnes_fresh 0 3) (by norm_num)) _ triA triB
    (by norm_num) triA_indep hy v' hv'
  obtain ⟨v, hv, -⟩ := C73_exists triX triA triB (by norm_num) triA_indep triX_interior
  obtain ⟨w, t, c, -, h2, -, -, -, h6, -, h8, -⟩ := C73_any exactEigen exactEigen_exact.inv 1 (1 / 10) (by norm_num) 1400
    (by norm_num) ⟨0, ⟨3, w0⟩⟩ _ hst hs triX triA triB (by norm_num) triA_indep triX_interior v hv
  have hc : c = true := h6 (by norm_num)
  subst hc
  exact ⟨⟨0, ⟨3, w0⟩⟩, w0, w, v, hst, hs, hv, h2, h8 rfl⟩

/-- On the segment 301 passes are enough for tolerance `1/10`. -/
example : ∃ (v w : Fin 2 → ℝ), IsSparseJohnWeights (sparseJohnExponent ((2 : ℕ) - (1 : ℕ)) (2 : ℕ)) (((2 : ℕ) - (1 : ℕ)) / (2 * (2 : ℕ)))
      1 rowOnes 2 midpoint2 v ∧
    sparseJohnWeightConv exactEigen 1 (1 / 10) 301 (BState.fresh (0 : ℝ)).w (fun _ => 0) midpoint2 rowOnes 2 = .ok (w, true) ∧
    distSq w v ≤ (2 : ℕ) * (24 * Real.logb 2 (2 * (2 : ℕ) / ((2 : ℕ) - (1 : ℕ))) * ((2 : ℕ) / ((2 : ℕ) - (1 : ℕ))) * (1 / 10)) ^ 2 := by
  obtain ⟨v, hv, -⟩ := C73_sparse_exists 1 one_ne_zero midpoint2 rowOnes rowOnes_indep 2 (by norm_num) (by norm_num) midpoint2_pos
  obtain ⟨w, t, c, -, h2, -, -, -, h6, -, h8⟩ := C73_sparse_fresh exactEigen exactEigen_exact.ldlt 1 1 (1 / 10) one_ne_zero (by norm_num) 301
    (by norm_num) (BState.fresh 0) (startsAtOnes_fresh 0 2) 2 le_rfl (fun _ => 0) midpoint2 rowOnes rowOnes_indep (by norm_num)
    (by norm_num) midpoint2_pos v hv
  have hc : c = true := h6 (by norm_num)
  subst hc
  exact ⟨v, w, hv, h2, h8 rfl⟩

end PW.RealToy
