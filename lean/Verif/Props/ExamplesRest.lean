import Verif.Props.ExamplesApplied
import Verif.Props.ExamplesMore
import Verif.Props.ExamplesContinue
import Verif.Props.ExamplesStall
import Verif.Props.ExamplesRuns
import Verif.Props.ExamplesLaws
import Verif.Props.StrongDrivers

/-!
# Concrete cases: the remaining conditional theorems, applied

As in `ExamplesApplied`: each example applies the named theorem to concrete data, so every hypothesis of the theorem is met there.
-/

namespace PW
open Matrix MeasureTheory Set

section
variable {err : ℝ}

example (hS : FRSetting exactGlpk exactEigen err simplexA) (h1 : err ≤ 1) :=
  C99_sparse_vaidya hS h1 (b := simplexB) (k := 3) (by decide) ⟨_, simplexMid_mem⟩ simplexA_bdd simplexA_not_cone simplexA_right (fuel := 4)
    (by decide) 0 simplexA_chart one_le_two exactEigen_exact 1 one_pos 1 one_ne_zero simplexA_no_overflow

example (hS : FRSetting exactGlpk exactEigen err simplexA) (h1 : err ≤ 1) :=
  C99_sparse_hitRun hS h1 (b := simplexB) (k := 3) (by decide) ⟨_, simplexMid_mem⟩ simplexA_bdd simplexA_not_cone simplexA_right (fuel := 4)
    (by decide) 0 simplexA_chart le_rfl exactEigen_exact.sparseLU 2 simplex_diam

example (hS : FRSetting exactGlpk exactEigen err simplexA) (h1 : err ≤ 1) :=
  C99_sparse_ball hS h1 (b := simplexB) (k := 3) (by decide) ⟨_, simplexMid_mem⟩ simplexA_bdd simplexA_not_cone simplexA_right (fuel := 4)
    (by decide) 0 simplexA_chart le_rfl exactEigen_exact.sparseLU (R := 1 / 4) (by norm_num) (u₀ := 0) simplex_step simplexA_disc

example (hS : FRSetting exactGlpk exactEigen err segA) (h1 : err ≤ 1) :=
  C99_dense_dikin hS h1 exactEigen_householderQR exactEigen_exact.inv (b := segB) (k := 2) (by decide) ⟨_, segA_mid, half_pos2⟩
    segA_abs (fuel := 3) (by decide) 0 (isChart_of_kernel segA_kernel segA_mid.1 half_pos2) rfl exactEigen_exact (1 / 2) (by norm_num)

theorem simplexA_rightK : rightK simplexA.val simplexB (3 : Int).toNat = 3 := by
  have h : ∀ i : Fin 3, 3 - 3 ≤ i.val ∧ ∃ x ∈ PolyEq simplexA.val simplexB (3 : Int).toNat, x i ≠ 0 := fun i =>
    ⟨by omega, simplexMid, simplexMid_mem, (simplexMid_pos i (Nat.zero_le _)).ne'⟩
  exact (Nat.card_congr (Equiv.subtypeUnivEquiv h)).trans (Nat.card_fin 3)

example (hS : FRSetting exactGlpk exactEigen err simplexA) (h1 : err ≤ 1) :=
  C84_sparse_john hS h1 (b := simplexB) (k := 3) (by decide) ⟨_, simplexMid_mem⟩ simplexA_bdd simplexA_not_cone simplexA_right (fuel := 4)
    (by decide) 0 simplexA_chart one_le_two (by rw [simplexA_right, simplexA_rightK]; norm_num) exactEigen_exact 1 one_pos 1 one_ne_zero

example (hS : FRSetting exactGlpk exactEigen err longA) (h1 : err ≤ 1) :=
  C90_dikin hS h1 (b := longB) (k := 3) (by decide) ⟨_, long_point⟩ long_not_cone long_one long_bdd long_inside (fuel := 4) (by decide) 0 long_isChart le_rfl
    exactEigen_exact 1 one_pos 1 one_ne_zero

end

/-! ## Calls of single classes -/

example := C101_span (.ball 1) trivial streamEnv boxA (fun _ => 1) 0 3 0 1 7 (by constructor <;> norm_num [intMax]) (by decide)

example := C102_dikin exactEigen exactEigen_exact 1 one_pos 5 (by norm_num) ones3_indep (by decide) 3 ⟨by decide, by decide⟩

example := C59_sparse 1 (1 / 1000) (by norm_num) exactEigen exactEigen_exact.sparseLU streamEnv streamLaw streamRng_ideal simplexArgs RealToy.simplexInts rfl
  ⟨by decide, by decide⟩ ones3_indep (by decide) (fun _ => 1 / 3) third_pos (by rw [show simplexArgs.A.val *ᵥ (fun _ => 1 / 3) = fun _ => 1 from simplex_start]; exact simplex_narrow)
  simplexBasis ones3_kernel

theorem sparseJohnStart_of_ones {w : DVec ℝ} {m n k : ℕ} (h : StartsAtOnes w n) (hmn : m < n) (hk : n - m ≤ k) : SparseJohnStart w m n k := by
  intro w0 h0 i _
  have e : w0 = fun _ => 1 := by
    have h1 := warmStart_iff.2 h
    have h2 := warmStart_iff.2 h0
    rw [h1] at h2
    exact (Out.ok.inj h2).symm
  have h1 : (n : ℝ) - m ≤ k := by
    have : n ≤ k + m := by omega
    have : (n : ℝ) ≤ k + m := by exact_mod_cast this
    linarith
  have h2 : (0 : ℝ) < (n : ℝ) - m := by
    have : (m : ℝ) < n := by exact_mod_cast hmn
    linarith
  have h3 : ((n : ℝ) - m) / (2 * k) ≤ 1 := by rw [div_le_one (by linarith)]; linarith
  have h4 : 0 ≤ ((n : ℝ) - m) / (2 * k) := by apply div_nonneg <;> linarith
  rw [e]
  exact ⟨h3, by show (1 : ℝ) ≤ _; linarith⟩

/-- C12 on the segment, from its middle along a diagonal of the plane: the conclusion holds of every result the search has. -/
example (fuel : ℕ) (t : ℝ) := C12_chord_sparse (k := 2) (by decide) le_rfl midpoint2 RealToy.axis RealToy.axis_unit (tailPos_subset _ _ midpoint2_pos) 1 (1 / 100) t fuel

example := C72_chord_iff (by decide) RealToy.sqA (fun _ => 1) 0 RealToy.axis RealToy.axis_unit ((RealToy.sq_mem _).2 (by simp)) 3 (1 / 100)

example := C72_sparse_chord_iff (k := 2) (by decide) le_rfl midpoint2 RealToy.axis RealToy.axis_unit (tailPos_subset _ _ midpoint2_pos) 1 (1 / 100)

/-- C73 from the weights a fresh object starts with, on the segment. -/
example : ∃ (w : Fin 2 → ℝ), ∃ v : Fin 2 → ℝ, IsSparseJohnWeights (sparseJohnExponent ((2 : ℕ) - (1 : ℕ)) (2 : ℕ)) ((((2 : ℕ) : ℝ) - (1 : ℕ)) / (2 * (2 : ℕ))) 1 rowOnes 2 midpoint2 v ∧
    sparseJohnWeightConv exactEigen 1 (1 / 10) 1300 (BState.fresh 0).w (fun _ => 0) midpoint2 rowOnes 2 = .ok (w, true) := by
  obtain ⟨v, hv, -⟩ := C73_sparse_exists 1 one_ne_zero midpoint2 rowOnes rowOnes_indep 2 (by norm_num) (by norm_num) midpoint2_pos
  obtain ⟨w, t, c, h1, h2, h3, h4, h5, h6, -⟩ := C73_sparse_any exactEigen exactEigen_exact.ldlt 1 1 (1 / 10) one_ne_zero (by norm_num) 1300 (by norm_num)
    (BState.fresh 0) _ (startsAtOnes_fresh 0 2) 2 (sparseJohnStart_of_ones (startsAtOnes_fresh (0 : ℝ) 2) (by norm_num) (by norm_num)) le_rfl (fun _ => 0) midpoint2 rowOnes rowOnes_indep
    (by norm_num) (by norm_num) midpoint2_pos v hv
  have hc : c = true := h6 (by norm_num)
  subst hc
  exact ⟨w, v, hv, h2⟩

/-- C73: a fresh object, and one left with the weights `5/4`, agree on the segment. -/
example (w w' : Fin 2 → ℝ) (hw : sparseJohnWeightConv exactEigen 1 (1 / 10) 1300 (BState.fresh 0).w (fun _ => 0) midpoint2 rowOnes 2 = .ok (w, true))
    (hw' : sparseJohnWeightConv exactEigen 1 (1 / 10) 1300 ⟨2, fun _ => 5 / 4⟩ (fun _ => 0) midpoint2 rowOnes 2 = .ok (w', true)) :=
  C73_sparse_history exactEigen exactEigen_exact.ldlt 1 (1 / 10) one_ne_zero (by norm_num) 1300 1300 (by norm_num) (by norm_num)
    (BState.fresh 0) ⟨0, ⟨2, fun _ => 5 / 4⟩⟩ _ (fun _ => 5 / 4) (startsAtOnes_fresh 0 2) (.stored two_pos rfl (by norm_num)) 2
    (sparseJohnStart_of_ones (startsAtOnes_fresh (0 : ℝ) 2) (by norm_num) (by norm_num))
    (fun w0 h0 i _ => by
      have h1 := warmStart_iff.2 h0
      have h2 := warmStart_iff.2 (StartsFrom.stored (w := (⟨2, fun _ => 5 / 4⟩ : DVec ℝ)) two_pos rfl (by norm_num))
      rw [h1] at h2
      rw [Out.ok.inj h2]
      constructor <;> norm_num [DVec.at]) le_rfl (fun _ => 0) (fun _ => 0) midpoint2 rowOnes rowOnes_indep
    (by norm_num) (by norm_num) midpoint2_pos w w' hw hw'

example (x : Fin 1 → ℝ) := C75_lattice (1 / 2) streamEnv (1 : Matrix (Fin 1) (Fin 1) ℝ) (fun _ => 1) one_pos x 10 0 0 1 7 (by constructor <;> norm_num [intMax])

example (x : Fin 1 → ℝ) := C75_line_never (1 / 2) (1 : Matrix (Fin 1) (Fin 1) ℝ) (fun _ => 1) one_pos x

/-- A step that is longer than the simplex is wide: the sparse ball walk stays where it is. -/
example : ∃ rows, (Walk.sparseBall 10 exactEigen).run streamEnv (callArgs ones3 (fun _ => 1) (fun _ => 1 / 3) 5 3 0 1 7) = .ok rows ∧
    (rows.length : Int) = (5 - 0) / 1 ∧ ∀ y ∈ rows, y = fun _ => 1 / 3 :=
  C76_stuck 10 exactEigen_exact.sparseLU streamEnv ones3_indep (by decide) (fun _ => 1) (k := 3) ⟨by decide, by decide⟩ (fun _ => 1 / 3) simplex_start
    (fun y hy => (simplex_diam y hy _ ⟨simplex_start, tailPos_subset _ _ third_pos⟩).trans_lt (by norm_num)) 5 0 1 7 (by constructor <;> norm_num [intMax])

end PW
