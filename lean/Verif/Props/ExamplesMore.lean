import Verif.Props.Examples
import Verif.Props.ExamplesApplied
import Verif.Props.StrongLaw
import Verif.Props.HitRunLimit
import Verif.Props.JohnWeightExamples
import Verif.Props.LSWeightExamples
import Verif.Props.ChordExact
import Verif.Props.FRExact
import Verif.Props.FullRunSparse
import Verif.Props.DenseNotUniform
import Verif.Props.Defaults
import Verif.Props.CentersExact

/-!
# Concrete cases: more theorems, applied

As in `Props/ExamplesApplied`: each example applies the named theorem at concrete arguments, so every hypothesis of the theorem is met there.
-/

namespace PW
open Matrix MeasureTheory Set
open PW.RealToy

/-! ## Strong law and limit law (C97, C98) -/

example := C97_sparse_vaidya exactEigen exactEigen_exact 1 one_pos (1 / 2) (by norm_num) ones3_indep (by decide) 3 ⟨by decide, by decide⟩
    (fun _ => 1) simplex_bdd (fun _ => 1 / 3) simplex_start third_pos simplexBasis ones3_kernel (fun _ => 1 / 3) simplex_start third_pos
    (fun y => y (0 : Fin 3)) (measurable_pi_apply _) 1 one_pos first_le (by decide) (BState.fresh 0) streamEnv streamLaw streamRng_ideal 7
example := C97_sparse_user squareClass exactEigen exactEigen_exact 1 one_pos ones3_indep 3 ⟨by decide, by decide⟩ (D := 2) two_pos
    (wf := fun x i => 1 + x i * x i)
    (measurable_pi_lambda _ fun i => measurable_const.add ((measurable_pi_apply i).mul (measurable_pi_apply i)))
    (fun x _ i _ => by have := mul_self_nonneg (x i); linarith)
    (fun _ => 1) simplex_bdd (fun _ => 1 / 3) simplex_start third_pos simplexBasis ones3_kernel (fun _ => 1 / 3) simplex_start third_pos
    (fun y => y (0 : Fin 3)) (measurable_pi_apply _) 1 one_pos first_le () ⟨(), rfl, rfl, fun _ _ _ => rfl⟩ streamEnv streamLaw streamRng_ideal 7

theorem box_first (y : Fin 2 → ℝ) (hy : y ∈ Poly boxA fun _ => 1) : |y 0| ≤ 1 := (squareArgs_mem y).1 hy 0

example := C97_dense_dikin exactEigen exactEigen_exact (1 / 2) (by norm_num) (by decide) boxA_axis boxA_bdd box_centre
    (fun y => y 0) (measurable_pi_apply 0) 1 one_pos box_first (BState.fresh 0) streamEnv streamLaw streamRng_ideal 0 7
example := C97_dense_vaidya exactEigen exactEigen_exact (1 / 2) (by norm_num) (by decide) boxA_axis boxA_bdd box_centre
    (fun y => y 0) (measurable_pi_apply 0) 1 one_pos box_first (by decide) (BState.fresh 0) streamEnv streamLaw streamRng_ideal 0 7
example := C97_sparse_ball exactEigen_exact.sparseLU ones3_indep (by decide) (k := 3) ⟨by decide, by decide⟩ simplex_bdd (R := 1 / 4)
    (by norm_num) simplex_start simplex_step' simplex_disc ones3_kernel (fun y => y (0 : Fin 3)) (measurable_pi_apply _) 1 one_pos first_le
    streamEnv streamLaw streamRng_ideal (x := fun _ => 1 / 3) ⟨simplex_start, tailPos_subset _ _ third_pos⟩ 7
example := C98_sparse_hitrun exactEigen_exact.sparseLU ones3_indep (by decide) 3 ⟨by decide, by decide⟩ (fun _ => 1) (fun _ => 1 / 3) simplex_start third_pos 2
    simplex_diam simplexBasis ones3_kernel

/-! ## Dimension checks, seeds, queries (C04, C06, C12, C16, C32) -/

example : (Walk.hitRun 1 1).run RealToy.env triArgs ≠ .throws .badDims := fun h =>
  (C04_library (.hitRun 1 1) (.hitRun 1 1) RealToy.env triArgs (by intro h; cases h)).1 h ⟨rfl, rfl⟩
example : (Walk.ball 1).run RealToy.env { triArgs with b := ⟨2, fun _ => 1⟩ } = .throws .badDims :=
  (C04_library (.ball 1) (.ball 1) RealToy.env { triArgs with b := ⟨2, fun _ => 1⟩ } (by intro h; cases h)).2 fun h => absurd h.2 (by decide)
example : BitVec.ofInt 32 42 ≠ BitVec.ofInt 32 (-42) := fun h => absurd (C06_seed_injective 42 (-42) ⟨by decide, by decide⟩ ⟨by decide, by decide⟩ h) (by decide)
example := C06_seed_word (.ball (1 : ℝ)) rng (fun _ _ => 0) 5 triArgs (by decide) 0 7 8
example := C06_seeds_distinguished 42 (-42) ⟨by decide, by decide⟩ ⟨by decide, by decide⟩ (by decide) (by decide) (by decide) 7 8 (fun _ _ => 0) 5
example := C16_barrier_metric rowOnes_indep (G := fun i => 1 + (i.val : ℝ)) fun i => by positivity
example : johnAlpha 6 4 = Out.ok (johnExponent 6 4) := C32_dense_partial 6 4 (by decide) (by decide)
example := C32_dense_le 7 3 (by decide) (by decide)
example := metricG_pos (ERR := 1) one_pos (fun _ => 0) (x := midpoint2) (w := fun _ => 2) (k := 2) midpoint2_pos fun _ _ => two_pos

/-! ## Metropolis step and reversibility (C33 - C36) -/

example : mhAccept (-1 : ℝ) 1 (1 / 10) = true ∧ mhAccept (-1 : ℝ) 1 (1 / 2) = false := by
  have h1 : Real.exp (-1 - 1) < 1 / 2 := by
    have h := Real.exp_lt_exp.2 (show (-1 - 1 : ℝ) < -1 by norm_num)
    exact h.trans_le (by have := Real.exp_neg_one_lt_d9; linarith)
  have h2 : (1 : ℝ) / 10 < Real.exp (-1 - 1) := by
    have h3 := Real.exp_neg_one_gt_d9
    have h4 : Real.exp (-1 - 1 : ℝ) = Real.exp (-1) * Real.exp (-1) := by rw [← Real.exp_add]; norm_num
    rw [h4]; nlinarith
  refine ⟨(C33_real _ _ _).1.2 (lt_min (by norm_num) h2), ?_⟩
  rw [Bool.eq_false_iff]
  intro h
  exact absurd ((C33_real _ _ _).1.1 h) (not_lt.2 ((min_le_right _ _).trans h1.le))
example := C35_dikin_reversible_iff_partial exactEigen exactEigen_exact streamRng streamLaw streamRng_ideal paraA paraB para_indep (by decide) 1 ⟨1, ⟨0, fun _ => 0⟩⟩
    one_pos _ para_point
example := C35_vaidya_reversible_iff_partial exactEigen exactEigen_exact streamRng streamLaw streamRng_ideal paraA paraB para_indep (by decide) 1 ⟨1, ⟨0, fun _ => 0⟩⟩
    one_pos _ para_point
example := C35_vaidya_not_reversible exactEigen exactEigen_exact streamRng streamLaw streamRng_ideal 1 ⟨1, ⟨0, fun _ => 0⟩⟩ one_pos
example := C35_dikin_not_stationary exactEigen exactEigen_exact streamRng streamLaw streamRng_ideal 1 ⟨1, ⟨0, fun _ => 0⟩⟩ one_pos
theorem boxA_indepCols : IndepCols boxA := by
  intro x hx
  have h0 := congrFun hx 0
  have h1 := congrFun hx 2
  simp [boxA, Matrix.mulVec, dotProduct, Fin.sum_univ_two] at h0 h1
  funext i
  fin_cases i <;> simp [h0, h1]
example := C35_dikin_axis_partial exactEigen exactEigen_exact streamRng streamLaw streamRng_ideal boxA (fun _ => 1) boxA_indepCols (by decide) boxA_axis 1
    ⟨1, ⟨0, fun _ => 0⟩⟩ one_pos _ box_centre
example := C36_dikin_stationary exactEigen exactEigen_exact 1 one_pos streamRng streamLaw streamRng_ideal (fun _ => 0) ones3 ones3_indep 3 (by decide) (by decide) 1
    ⟨1, ⟨0, fun _ => 0⟩⟩ one_pos _ third_pos simplexBasis ones3_kernel
example := C36_vaidya_reversible exactEigen exactEigen_exact 1 one_pos streamRng streamLaw streamRng_ideal (fun _ => 0) ones3 ones3_indep 3 (by decide) (by decide)
    (by decide) 1 ⟨1, ⟨0, fun _ => 0⟩⟩ one_pos _ third_pos simplexBasis ones3_kernel
example := C36_vaidya_stationary exactEigen exactEigen_exact 1 one_pos streamRng streamLaw streamRng_ideal (fun _ => 0) ones3 ones3_indep 3 (by decide) (by decide)
    (by decide) 1 ⟨1, ⟨0, fun _ => 0⟩⟩ one_pos _ third_pos simplexBasis ones3_kernel
example := C36_proposal_density exactEigen exactEigen_exact ones3 ones3_indep simplexBasis ones3_kernel 1 one_pos
example := uniformOnEq_chart ones3_kernel ones3_kernel (x₀ := fun _ => 1 / 3) (x₁ := ![1 / 2, 1 / 4, 1 / 4])
    (by rw [simplex_start]; funext i; simp [ones3, Matrix.mulVec, dotProduct, Fin.sum_univ_three]; norm_num) 3
example := C78_vaidya_not_convergent exactEigen exactEigen_exact (1 / 2) (by norm_num) _ para_point (BState.fresh 0) streamEnv streamLaw streamRng_ideal 0 7

/-! ## Facial reduction (C41, C49, C51, C68, C71, C77) -/

example {err : ℝ} (hS : FRSetting exactGlpk exactEigen err faceA) (h1 : err ≤ 1) (gi : Int) :=
  C41_terminates_partial hS h1 faceB (k := 3) (by decide) face_pos (fun h => by have h0 : (1 / 2 : ℝ) = 0 := congrFun h (0 : Fin 3); norm_num at h0)
    ⟨1, fun y hy i => (abs_le.1 (face_box hy i)).2⟩ (fuel := 4) (by decide) gi true
example := C41_large_err exactGlpk_exact exactGlpk_zero exactEigen_sparseQR (err := 5 / 4) (by norm_num) (by norm_num) 100 0 true
example {err : ℝ} (hS : FRSetting exactGlpk exactEigen err faceA) (h1 : err ≤ 1) := C49_valid_k_rejected hS h1 (fuel := 4) (by decide) 0 10 0 1 7
example {err : ℝ} (hS : FRSetting exactGlpk exactEigen err twiceA) (h1 : err ≤ 1) := C49_redundant_row hS h1 (fuel := 4) (by decide) 0 10 0 1 7
example : (∃ err, err ≤ 1 ∧ FRSetting exactGlpk exactEigen err twiceA) := by
  obtain ⟨err, h1, h2⟩ := exists_frSetting twiceA
  exact ⟨err, h1, h2⟩
/-- The reduction of the face `x₃ = 0` of the simplex keeps two coordinates and one equation. -/
example {err : ℝ} (hS : FRSetting exactGlpk exactEigen err faceA) (h1 : err ≤ 1) : ∃ out gi',
    FacialReduction.reduce exactGlpk exactEigen err 4 0 faceA ⟨faceA.r, faceB⟩ 3 true = .ok (out, gi') ∧
      out.sparse.c = survivorCount faceA.val faceB 3 ∧ out.sparse.r = survivorRank faceA.val faceB 3 := by
  obtain ⟨out, gi', h⟩ := C41_terminates_partial hS h1 faceB (k := 3) (by decide) face_pos (fun h => by have h0 : (1 / 2 : ℝ) = 0 := congrFun h (0 : Fin 3); norm_num at h0)
    ⟨1, fun y hy i => (abs_le.1 (face_box hy i)).2⟩ (fuel := 4) (by decide) 0 true
  exact ⟨out, gi', h, C68_dimensions hS (k := 3) ⟨_, face_pos⟩ h⟩
example : ((faceA.r : Int) - survivorRank faceA.val faceB 3) = (faceA.c : Int) - survivorCount faceA.val faceB 3 :=
  (C71_right_iff faceA faceB (k := 3) (by decide)).1 face_right
example : ∃ p, (denseCenterLP triA ⟨3, triB⟩).Optimal p := by
  refine (C77_dense_attains triA triB ⟨triX, triX_mem⟩).2 ?_
  rintro ⟨z, hz⟩
  have h0 := hz 0
  have h1 := hz 1
  have h2 := hz 2
  simp [triA, Matrix.mulVec, dotProduct, Fin.sum_univ_two] at h0 h1 h2
  linarith
example : ∃ p, (sparseCenterLP rowOnes ⟨1, fun _ => 1⟩ 2).Optimal p := by
  refine (C77_sparse_attains rowOnes (fun _ => 1) 2 le_rfl ⟨midpoint2, ?_, tailPos_subset _ _ midpoint2_pos⟩).2 ?_
  · funext i; simp [rowOnes, midpoint2, Matrix.mulVec, dotProduct]
  · rintro ⟨z, hz, hp⟩
    have h0 := congrFun hz 0
    have h1 := hp 0 (by norm_num)
    have h2 := hp 1 (by norm_num)
    simp [rowOnes, Matrix.mulVec, dotProduct, Fin.sum_univ_two] at h0
    linarith

/-! ## Chord search (C72) -/

example := C72_step_iff (by decide) 1 (1 / 100) rng triA triB (triX, (0 : ℕ)) triX_mem
example := C72_sparse_step_iff (k := 2) (by decide) le_rfl 1 (1 / 100) exactEigen rng rowOnes (midpoint2, (0 : ℕ)) (tailPos_subset _ _ midpoint2_pos)
example := C72_hitRun_returns_iff 1 (1 / 100) RealToy.env unitDraws triArgs ⟨rfl, rfl⟩ (by constructor <;> decide) (by decide) triX_mem
example := C72_sparseHitRun_returns_iff 1 (1 / 100) exactEigen RealToy.env unitDraws segArgs ⟨rfl, rfl⟩ ⟨by decide, by decide⟩ (by constructor <;> decide)
    (tailPos_subset _ _ midpoint2_pos)
example := staysInside_hitRun 1 (1 / 100) RealToy.env unitDraws

/-! ## Weights (C73, C74) -/

example : ∃ v : Fin 3 → ℝ, Filter.Tendsto (fun t => (johnUpdate triX triA triB)^[t] fun _ => 1) Filter.atTop (nhds v) := by
  obtain ⟨v, hv, -⟩ := C73_exists triX triA triB (by norm_num) triA_indep triX_interior
  exact ⟨v, C73_limit triX triA triB (by norm_num) triA_indep triX_interior v hv⟩
/-- A fresh object, and one that was used at another point, find nearly the same John weights. -/
example : ∃ (o : BState ℝ) (w w' : Fin 3 → ℝ), johnWeightConv exactEigen (1 / 10) 1400 o.w triX triA triB = .ok (w, true) ∧
    johnWeightConv exactEigen (1 / 10) 1400 (BState.fresh (0 : ℝ)).w triX triA triB = .ok (w', true) ∧
    distSq w w' ≤ (3 : ℕ) * (48 * johnLog 3 2 * ((3 : ℕ) / (2 : ℕ)) * (1 / 10)) ^ 2 := by
  have hy : (fun _ => 1 / 8 : Fin 2 → ℝ) ∈ Interior triA triB := by
    intro i
    fin_cases i <;> simp [triA, triB, Matrix.mulVec, dotProduct, Fin.sum_univ_two] <;> norm_num
  obtain ⟨v', hv', -⟩ := C73_exists _ triA triB (by norm_num) triA_indep hy
  have hj := johnStart_of_ones (startsAtOnes_fresh (0 : ℝ) 3) (n := 2) (by norm_num)
  obtain ⟨w0, t, c, -, -, -, -, -, -, -, -, hst, hs⟩ := C73_any exactEigen exactEigen_exact.inv 1 (1 / 10) (by norm_num) 500
    (by norm_num) (BState.fresh 0) _ (startsAtOnes_fresh 0 3) hj _ triA triB (by norm_num) triA_indep hy v' hv'
  obtain ⟨v, hv, -⟩ := C73_exists triX triA triB (by norm_num) triA_indep triX_interior
  obtain ⟨w, t, c, -, h2, -, -, -, h6, -, -, -⟩ := C73_any exactEigen exactEigen_exact.inv 1 (1 / 10) (by norm_num) 1400
    (by norm_num) ⟨0, ⟨3, w0⟩⟩ _ hst hs triX triA triB (by norm_num) triA_indep triX_interior v hv
  obtain ⟨w', t', c', -, h2', -, -, -, h6', -, -, -⟩ := C73_any exactEigen exactEigen_exact.inv 1 (1 / 10) (by norm_num) 1400
    (by norm_num) (BState.fresh 0) _ (startsAtOnes_fresh 0 3) hj triX triA triB (by norm_num) triA_indep triX_interior v hv
  have hc : c = true := h6 (by norm_num)
  have hc' : c' = true := h6' (by norm_num)
  subst hc hc'
  exact ⟨⟨0, ⟨3, w0⟩⟩, w, w', h2, h2', C73_history exactEigen exactEigen_exact.inv (1 / 10) (by norm_num) 1400 1400 (by norm_num) (by norm_num)
    ⟨0, ⟨3, w0⟩⟩ (BState.fresh 0) _ _ hst (startsAtOnes_fresh 0 3) hs hj triX triA triB (by norm_num) triA_indep triX_interior w w' h2 h2'⟩
example (v w : Fin 2 → ℝ) := C74_unique 0 ivA (ivB 1) ivA_indep (iv_interior one_pos) v w
example (v w : Fin 2 → ℝ) := C74_sparse_unique rowOnes_indep (ERR := 1 / 8) (by norm_num) (k := 2) midpoint2_pos v w

/-! ## Other (C34, C84, C85, C87, C89, C90, C95) -/

/-- The proposals of `DikinWalk` at an interior point of the parallelogram do not have the law of the Dikin ellipsoid: the Hessian there is not diagonal. -/
example (o : BState ℝ) : ∃ H, generateHessian (dikinClass 1) o ![0, 1 / 2] paraA paraB = .ok (H, o) ∧
    (Measure.map (BarrierWalk.proposal exactEigen 1 H ![0, 1 / 2]) (stdNormal 2) = gaussLaw ((1 / (1 : ℝ)) • H) ![0, 1 / 2] ↔ H.IsDiag) := by
  have h := C20_hessian 1 ⟨0, ⟨4, fun _ => 1⟩⟩ ![0, 1 / 2] paraA paraB
  exact ⟨_, C20_hessian 1 o _ _ _, C34_iff_partial exactEigen exactEigen_exact (dikinClass 1) (.dikin 1) ⟨0, ⟨4, fun _ => 1⟩⟩ ⟨0, ⟨4, fun _ => 1⟩⟩
    (goodStart_of_pos fun _ => one_pos) _ paraA paraB para_indep (by decide) para_point _ h 1 one_pos⟩
example : handedK simplexA.val simplexB 3 = rightK simplexA.val simplexB (3 : Int).toNat :=
  handedK_regular (A := simplexA.val) ones3_indep (by decide) ⟨_, simplexMid_mem, simplexMid_pos⟩
example {err : ℝ} (hS : FRSetting exactGlpk exactEigen err longA) (h1 : err ≤ 1) :=
  C90_half hS h1 (fuel := 4) (by decide) 0 exactEigen_exact 1 one_pos 1 one_ne_zero
example := C95_ball_unthinned (by decide) 1 ⟨_, box_centre⟩ boxA_bdd streamEnv streamLaw streamRng_ideal (fun _ => 0) 12 0 10 7
    (by constructor <;> norm_num [intMax]) (by decide)

end PW
