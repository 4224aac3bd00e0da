import Verif.Props.Examples
import Verif.Props.AcceptExact
import Verif.Props.FixedConst
import Verif.Props.JohnConverges
import Verif.Props.SparseJohnConverges
import Verif.Props.LSConverges
import Verif.Props.SparseLSConverges

/-!
# Concrete cases: weights, metrics, acceptance

The theorems about weights and acceptance (C24–C33, C73, C74) applied on the triangle and the segment of `Props/Examples`.
-/

namespace PW.RealToy
open PW Matrix

/-! ### C24: converged weights are reproduced -/

/-- The John walk on the triangle: 500 passes meet the criterion `1/10`, and a second call at the same point returns the same weights. -/
example : ∃ w : Fin 3 → ℝ, (johnClass exactEigen 1 (1 / 10) 500).generateWeight (BState.fresh 0) triX triA triB =
      .ok (⟨3, w⟩, { BState.fresh 0 with w := ⟨3, w⟩ }) ∧
    (johnClass exactEigen 1 (1 / 10) 500).generateWeight { BState.fresh 0 with w := ⟨3, w⟩ } triX triA triB =
      .ok (⟨3, w⟩, { BState.fresh 0 with w := ⟨3, w⟩ }) := by
  obtain ⟨v, hv, -⟩ := C73_exists triX triA triB (by norm_num) triA_indep triX_interior
  obtain ⟨w, t, c, h1, h2, -, -, -, h6, -⟩ := C73_fresh exactEigen exactEigen_exact.inv 1 (1 / 10) (by norm_num) 500 (by norm_num)
    (BState.fresh 0) (startsAtOnes_fresh 0 3) triX triA triB (by norm_num) triA_indep triX_interior v hv
  have hc : c = true := h6 (by norm_num)
  subst hc
  obtain ⟨w', t', c', -, h2', -, -, -, hp, -⟩ := C22_john exactEigen exactEigen_exact.inv 1 (1 / 10) 500 (by norm_num) (BState.fresh 0)
    (startsAtOnes_fresh 0 3) triX triA triB (by norm_num) triA_indep triX_interior
  rw [h2] at h2'
  cases h2'
  refine ⟨w, C24_john exactEigen 1 (1 / 10) 500 (BState.fresh 0) triX triA triB w (by norm_num) h2 ?_⟩
  have h0 := (hp 0).1
  have : w 0 ≠ -1 := by norm_num at h0; linarith
  show decide (w 0 = ((-1 : ℤ) : ℝ)) = false
  rw [decide_eq_false_iff_not]
  push_cast
  exact this

/-- An object holding the exact John weights of the point keeps them, whatever the tolerance. -/
example (LIM : ℝ) (hL : 0 < LIM) : ∃ v : Fin 3 → ℝ, (johnClass exactEigen 1 LIM 50).generateWeight { BState.fresh 0 with w := ⟨3, v⟩ }
    triX triA triB = .ok (⟨3, v⟩, { BState.fresh 0 with w := ⟨3, v⟩ }) := by
  obtain ⟨v, hv, -⟩ := C73_exists triX triA triB (by norm_num) triA_indep triX_interior
  refine ⟨v, C24_john_exact exactEigen exactEigen_exact.inv 1 LIM 50 (by norm_num) (BState.fresh 0) triX triA triB v (by norm_num) triA_indep
    triX_interior hv.pos fun i => ?_⟩
  rw [add_assoc, ← hv.eq i]
  norm_num
  exact hL

/-- The same for Lee–Sidford weights. -/
example (GLIM : ℝ) (hG : 0 < GLIM) : ∃ v : Fin 3 → ℝ, (dikinLSClass exactEigen 1 GLIM (1 / 10) 50).generateWeight
    { BState.fresh 0 with w := ⟨3, v⟩ } triX triA triB = .ok (⟨3, v⟩, { BState.fresh 0 with w := ⟨3, v⟩ }) := by
  obtain ⟨v, hv⟩ := (C74_exists_iff triX triA triB triA_indep triX_interior).2 (fun i => by
    fin_cases i
    exacts [⟨0, by simp [triA]⟩, ⟨1, by simp [triA]⟩, ⟨0, by simp [triA]⟩])
  refine ⟨v, C24_ls_exact exactEigen exactEigen_exact.inv 1 GLIM (1 / 10) 50 (BState.fresh 0) triX triA triB v (by norm_num) triA_indep
    triX_interior hv.pos ?_⟩
  have : ∀ i, lsExponent 3 * (1 - lev (scaledRows v (lsExponent 3 / 2) (normals triX triA triB)) i / v i) = 0 := by
    intro i
    rw [← hv.eq i, div_self (hv.pos i).ne']
    ring
  simpa only [this, ne_eq, OfNat.ofNat_ne_zero, not_false_eq_true, zero_pow, Finset.sum_const_zero, Real.sqrt_zero] using hG

/-- The same for the sparse classes on the segment. -/
example (LIM : ℝ) (hL : 0 < LIM) : ∃ v : Fin 2 → ℝ, (sparseJohnClass exactEigen 1 1 LIM 50).generateWeight (fun _ => 0)
    { BState.fresh 0 with w := ⟨2, v⟩ } midpoint2 rowOnes 2 = .ok (⟨2, v⟩, { BState.fresh 0 with w := ⟨2, v⟩ }) := by
  obtain ⟨v, hv, -⟩ := C73_sparse_exists 1 one_ne_zero midpoint2 rowOnes rowOnes_indep 2 (by norm_num) (by norm_num) midpoint2_pos
  refine ⟨v, C24_sparseJohn_exact exactEigen exactEigen_exact.ldlt 1 1 LIM one_ne_zero hL 50 (by norm_num) (BState.fresh 0) (fun _ => 0)
    midpoint2 rowOnes rowOnes_indep 2 (by norm_num) le_rfl midpoint2_pos v hv.head hv.pos fun i hi => ?_⟩
  rw [add_assoc, ← hv.eq i hi]
  norm_num
  exact hL

example (GLIM : ℝ) (hG : 0 < GLIM) : ∃ v : Fin 2 → ℝ, (sparseDikinLSClass exactEigen (1 / 8) 1 GLIM (1 / 10) 50).generateWeight (fun _ => 0)
    { BState.fresh 0 with w := ⟨2, v⟩ } midpoint2 rowOnes 2 = .ok (⟨2, v⟩, { BState.fresh 0 with w := ⟨2, v⟩ }) := by
  obtain ⟨v, hv⟩ := (C74_sparse_exists_iff (ERR := 1 / 8) (k := 2) rowOnes_indep (by norm_num) midpoint2_pos).2
    fun i _ => ⟨fun j => if j = 0 then 1 else -1, by
      funext r; simp [rowOnes, Matrix.mulVec, dotProduct, Fin.sum_univ_two], by fin_cases i <;> simp⟩
  refine ⟨v, C24_sparseLS_exact exactEigen exactEigen_exact.ldlt (1 / 8) 1 GLIM (1 / 10) (by norm_num) 50 (BState.fresh 0) (fun _ => 0)
    midpoint2 rowOnes rowOnes_indep 2 (by norm_num) le_rfl midpoint2_pos v hv.head hv.pos ?_⟩
  have : ∀ i : Fin 2, (if 2 - 2 ≤ i.val then (lsExponent 2 * (1 - colev (colScaled rowOnes (slackScale (1 / 8) 2
      (fun i => v i ^ (lsExponent 2 / 2)) midpoint2)) i / v i)) ^ 2 else 0) = 0 := by
    intro i
    have hi : 2 - 2 ≤ i.val := by norm_num
    rw [if_pos hi, ← hv.eq i hi, div_self (hv.pos i hi).ne']
    ring
  have e : (∑ i : Fin 2, if 2 - 2 ≤ i.val then (lsExponent 2 * (1 - colev (colScaled rowOnes (slackScale (1 / 8) 2
      (fun i => v i ^ (lsExponent 2 / 2)) midpoint2)) i / v i)) ^ 2 else 0) = 0 := Finset.sum_eq_zero fun i _ => this i
  exact (congrArg Real.sqrt e).trans Real.sqrt_zero |>.trans_lt hG

/-! ### C26: metrics -/

/-- The Hessian of the triangle with weights 1, 2, 3. -/
example : (hessianOf ![1, 2, 3] triX triA triB).PosDef :=
  (C26_posDef exactEigen exactEigen_exact.llt ![1, 2, 3] (fun i => by fin_cases i <;> simp) triX triA triB triA_indep triX_interior).1

/-- The metric of the Vaidya walk on the triangle. -/
example : ∃ H o', generateHessian (vaidyaClass exactEigen 1) (BState.fresh 0) triX triA triB = .ok (H, o') ∧ H.PosDef ∧
    IsCholesky (exactEigen.lltL H) H := by
  have hH := generateHessian_vaidya (E := exactEigen) exactEigen_exact.inv 1 (BState.fresh 0) triA_indep triX_interior
  have := C26_library exactEigen exactEigen_exact.inv exactEigen_exact.llt _ (.vaidya 1) (BState.fresh 0) _ (fresh_good 0 3) triX triA triB
    triA_indep (by norm_num) triX_interior _ hH
  exact ⟨_, _, hH, this.1, this.2.1⟩

/-- The metric of the sparse Dikin walk on the segment. -/
example : ∃ G o', generateG (sparseDikinClass 1) 1 (fun _ => 0) (BState.fresh 0) midpoint2 rowOnes 2 = .ok (G, o') ∧ ∀ i, 0 < G i := by
  have hG := generateG_dikin 1 1 (fun _ => 0) (BState.fresh 0) midpoint2 rowOnes 2
  refine ⟨_, _, hG, (C26_sparse_library exactEigen exactEigen_exact.ldlt 1 one_pos _ (.dikin 1) (BState.fresh 0) 2 (by norm_num) le_rfl (by norm_num)
    (fun w0 h i _ => ?_) (fun _ => 0) midpoint2 rowOnes rowOnes_indep midpoint2_pos _ _ hG).1⟩
  exact fresh_good 0 2 w0 h i

/-! ### C27, C32: constants -/

/-- A million constraints in dimension 10000: the product does not fit an `int`. A hundred constraints in dimension 10: it does. -/
example : (vaidyaClass exactEigen 1).setDistTerm (BState.fresh 0) (10000 : ℕ) (1000000 : ℕ) = .ub .signedOverflow ∧
    SetsDist (vaidyaClass exactEigen 1).setDistTerm (vaidyaClass exactEigen 1).distTerm (10 : ℕ) (100 : ℕ) (vaidyaConst 1 10 100) ∧
    0 < vaidyaConst 1 10 100 :=
  ⟨(C27_overflow exactEigen 1 1 (BState.fresh 0) 10000 1000000 (by norm_num [intMax])).1,
    (C27_dense_partial exactEigen 1 1 1 1 1 10 100).2.1 (by norm_num [intMax]), (C27_positive 1 one_ne_zero 10 100 (by norm_num) (by norm_num)).2.1⟩

/-- More equations than unknowns: the sparse John walk asks for the logarithm of a negative dimension. -/
example : (sparseJohnClass exactEigen 1 1 1 5).setDistTerm (BState.fresh 0) (-1) 3 = .ub .negativeSize :=
  (C27_negative_dimension exactEigen 1 1 1 1 1 5 (BState.fresh 0) (-1) 3 (by norm_num)).1

/-- The sparse Vaidya walk on the segment takes steps of the documented size. -/
example : (Walk.sparseBarrier (sparseVaidyaClass exactEigen 1 1) 1 exactEigen (BState.fresh 0)).run env segArgs =
    (Walk.sparseBarrier ((sparseVaidyaClass exactEigen 1 1).withConst (vaidyaConst 1 1 2)) 1 exactEigen (BState.fresh 0)).run env segArgs :=
  C27_sparse_samples exactEigen 1 _ (BState.fresh 0) env segArgs segK (by norm_num [segArgs]) _ (.vaidya 1)

/-- Three constraints in the plane: the exponents agree. Four in space: they do not. -/
example : johnAlpha (F := ℝ) 3 2 = .ok (sparseJohnAlpha (F := ℝ) (2 : ℕ) (3 : ℕ)) ∧
    johnAlpha (F := ℝ) 4 3 ≠ .ok (sparseJohnAlpha (F := ℝ) (3 : ℕ) (4 : ℕ)) :=
  ⟨(C32_iff 3 2 (by norm_num) (by norm_num)).2 (by norm_num), fun h => absurd ((C32_iff 4 3 (by norm_num) (by norm_num)).1 h) (by norm_num)⟩

/-! ### C28: leverage scores -/

/-- Scores of `x₁ + x₂` at `x = (1/2, 1/2)` with weights 1, the first coordinate free. -/
example : leverageScore exactEigen (fun _ => 0) rowOnes (fun _ => some 1) midpoint2 2 1 1 =
    colev (colScaled rowOnes ![2, 1 / midpoint2 1]) 1 ∧ leverageScore exactEigen (fun _ => 0) rowOnes (fun _ => some 1) midpoint2 2 1 0 = 0 := by
  have hp := midpoint2_pos 1 (by norm_num)
  have h := C28_leverage exactEigen exactEigen_exact.ldlt (fun _ => 0) rowOnes rowOnes_indep (fun _ => some 1) midpoint2 2 1
    ![2, 1 / midpoint2 1] (fun i => by fin_cases i <;> simp [hp.ne']) (fun i hi => by
      have : i = 0 := Fin.ext (by omega)
      subst this; rfl) (fun i hi => ⟨1, rfl, by
        have : i = 1 := Fin.ext (by have := i.isLt; omega)
        subst this; rfl⟩)
  exact ⟨(h 1).trans (if_pos (by norm_num)), (h 0).trans (if_neg (by norm_num))⟩

end PW.RealToy
