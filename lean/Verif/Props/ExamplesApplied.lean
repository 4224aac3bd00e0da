import Verif.Props.JointDrivers
import Verif.Props.Handed
import Verif.Props.SparseUserLaw
import Verif.Props.SparseJohnLaw
import Verif.Props.DenseNotUniform
import Verif.Props.HitRunAverages

/-!
# Concrete cases: the theorems about laws, applied

Each example applies the named theorem to a concrete polytope (the square `boxA`, the simplex `ones3`, the face `faceA`, the segment `segA`): the statement of the
example is the conclusion of the theorem at these arguments, so every hypothesis of the theorem is met there.
-/

namespace PW
open Matrix MeasureTheory Set

theorem third_pos : (fun _ => 1 / 3 : Fin 3 → ℝ) ∈ TailPos 3 3 := fun _ _ => by show (0 : ℝ) < 1 / 3; norm_num

theorem first_le (y : Fin 3 → ℝ) (hy : y ∈ PolyEq ones3 (fun _ => 1) (3 : Int).toNat) : |y 0| ≤ 1 := by
  have := simplex_box y hy 0
  exact abs_le.2 ⟨by linarith [this.1], this.2⟩

theorem box_centre : (0 : Fin 2 → ℝ) ∈ Interior boxA fun _ => 1 := fun i => by rw [Matrix.mulVec_zero]; exact one_pos

theorem box_step : |(1 : ℝ)| / Real.sqrt ((2 : ℕ) : ℝ) < 1 := by
  rw [abs_one, div_lt_one (lt_trans one_pos one_lt_sqrt_two)]; exact one_lt_sqrt_two

theorem simplex_step' : |(1 / 4 : ℝ)| / Real.sqrt (((3 : ℕ) : ℝ) - ((1 : ℕ) : ℝ)) < 1 / 3 := by
  have e : (((3 : ℕ) : ℝ) - ((1 : ℕ) : ℝ)) = ((2 : ℕ) : ℝ) := by norm_num
  rw [e]
  exact simplex_step

/-! ## Sparse barrier walks: C64, C65, C79, C80, C95 -/

/-- C64, Vaidya, on the simplex. -/
example := C64_vaidya exactEigen exactEigen_exact 1 one_pos (1 / 2) (by norm_num) ones3_indep (by decide) 3 ⟨by decide, by decide⟩
    (fun _ => 1) simplex_bdd (fun _ => 1 / 3) simplex_start third_pos simplexBasis ones3_kernel (fun _ => 1 / 3) simplex_start third_pos (by decide) (1 / 100)
    (by norm_num)

/-- C65, Dikin, on the simplex: the mean of the first coordinate. -/
example := C65_dikin exactEigen exactEigen_exact 1 one_pos (1 / 2) (by norm_num) ones3_indep (by decide) 3 ⟨by decide, by decide⟩
    (fun _ => 1) simplex_bdd (fun _ => 1 / 3) simplex_start third_pos simplexBasis ones3_kernel (fun _ => 1 / 3) simplex_start third_pos
    (fun y => y (0 : Fin 3)) (measurable_pi_apply _) 1 one_pos first_le (1 / 100) (1 / 20) (by norm_num) (by norm_num)

/-- C79, John, on the simplex: the mean of the first coordinate. -/
example := C79_averages exactEigen exactEigen_exact 1 one_pos (1 / 2) (by norm_num) ones3_indep (by decide) 3 ⟨by decide, by decide⟩ (by decide)
    (fun _ => 1) simplex_bdd (fun _ => 1 / 3) simplex_start third_pos simplexBasis ones3_kernel (fun _ => 1 / 3) simplex_start third_pos
    (fun y => y (0 : Fin 3)) (measurable_pi_apply _) 1 one_pos first_le (1 / 100) (1 / 20) (by norm_num) (by norm_num)

/-- C80, a walk with the user's own weights `1 + x_i²`. -/
example := C80_averages squareClass exactEigen exactEigen_exact 1 one_pos ones3_indep 3 ⟨by decide, by decide⟩ (D := 2) two_pos
    (wf := fun x i => 1 + x i * x i)
    (measurable_pi_lambda _ fun i => measurable_const.add ((measurable_pi_apply i).mul (measurable_pi_apply i)))
    (fun x _ i _ => by have := mul_self_nonneg (x i); linarith)
    (fun _ => 1) simplex_bdd (fun _ => 1 / 3) simplex_start third_pos simplexBasis ones3_kernel (fun _ => 1 / 3) simplex_start third_pos
    (fun y => y (0 : Fin 3)) (measurable_pi_apply _) 1 one_pos first_le (1 / 100) (1 / 20) (by norm_num) (by norm_num)

/-- The weights of that class are what C80 asks for. -/
example : WeightsAre squareClass () ones3 3 2 fun x i => 1 + x i * x i := ⟨(), rfl, rfl, fun _ _ _ => rfl⟩

/-- C95, Vaidya, ten rows. -/
example := C95_sparse_vaidya exactEigen exactEigen_exact 1 one_pos (1 / 2) (by norm_num) ones3_indep (by decide) 3 ⟨by decide, by decide⟩
    (fun _ => 1) simplex_bdd (fun _ => 1 / 3) simplex_start third_pos simplexBasis ones3_kernel (fun _ => 1 / 3) simplex_start third_pos (by decide) 10 (1 / 100)
    (by norm_num)

/-- C95, the user's own weights, ten rows. -/
example := C95_sparse_user squareClass exactEigen exactEigen_exact 1 one_pos ones3_indep 3 ⟨by decide, by decide⟩ (D := 2) two_pos
    (wf := fun x i => 1 + x i * x i)
    (measurable_pi_lambda _ fun i => measurable_const.add ((measurable_pi_apply i).mul (measurable_pi_apply i)))
    (fun x _ i _ => by have := mul_self_nonneg (x i); linarith)
    (fun _ => 1) simplex_bdd (fun _ => 1 / 3) simplex_start third_pos simplexBasis ones3_kernel (fun _ => 1 / 3) simplex_start third_pos 10 (1 / 100)
    (by norm_num)

/-! ## Dense barrier walks on the square: C66, C95 -/

example := C66_vaidya exactEigen exactEigen_exact (1 / 2) (by norm_num) (by decide) boxA_axis boxA_bdd box_centre (by decide) (1 / 100) (by norm_num)

example := C66_dikin_average exactEigen exactEigen_exact (1 / 2) (by norm_num) (by decide) boxA_axis boxA_bdd box_centre
    (fun y => y (0 : Fin 2)) (measurable_pi_apply _) 1 one_pos (fun y hy => (squareArgs_mem y).1 hy 0) (1 / 100) (1 / 20) (by norm_num) (by norm_num)

example := C95_dense_dikin exactEigen exactEigen_exact (1 / 2) (by norm_num) (by decide) boxA_axis boxA_bdd box_centre 10 (1 / 100) (by norm_num)

example := C95_dense_vaidya exactEigen exactEigen_exact (1 / 2) (by norm_num) (by decide) boxA_axis boxA_bdd box_centre (by decide) 10 (1 / 100) (by norm_num)

/-! ## Ball walks: C75, C76, C95 -/

example := C75_rows (le_refl 2) boxA_bdd one_ne_zero box_step box_ball

example := C75_average (le_refl 2) boxA_bdd one_ne_zero box_step box_ball ((squareArgs_mem fun _ => 1).2 fun i => by simp)
    (fun y => y (0 : Fin 2)) (measurable_pi_apply _) 1 one_pos (fun y hy => (squareArgs_mem y).1 hy 0) (1 / 100) (1 / 20) (by norm_num) (by norm_num)

example := C95_ball (le_refl 2) boxA_bdd one_ne_zero box_step box_ball

example := C76_rows exactEigen_exact.sparseLU ones3_indep (by decide) (k := 3) ⟨by decide, by decide⟩ simplex_bdd (R := 1 / 4)
    (by norm_num) (x₀ := fun _ => 1 / 3) simplex_start simplex_step' simplex_disc ones3_kernel

example := C76_average exactEigen_exact.sparseLU ones3_indep (by decide) (k := 3) ⟨by decide, by decide⟩ simplex_bdd (R := 1 / 4)
    (by norm_num) (x₀ := fun _ => 1 / 3) simplex_start simplex_step' simplex_disc ones3_kernel (x := fun _ => 1 / 3)
    ⟨simplex_start, tailPos_subset _ _ third_pos⟩
    (fun y => y (0 : Fin 3)) (measurable_pi_apply _) 1 one_pos first_le (1 / 100) (1 / 20) (by norm_num) (by norm_num)

example := C95_sparse_ball exactEigen_exact.sparseLU ones3_indep (by decide) (k := 3) ⟨by decide, by decide⟩ simplex_bdd (R := 1 / 4)
    (by norm_num) (x₀ := fun _ => 1 / 3) simplex_start simplex_step' simplex_disc ones3_kernel

example := C95_sparse_ball_limit exactEigen_exact.sparseLU ones3_indep (by decide) (k := 3) ⟨by decide, by decide⟩ simplex_bdd (R := 1 / 4)
    (by norm_num) (x₀ := fun _ => 1 / 3) simplex_start simplex_step' simplex_disc ones3_kernel 10 (1 / 100) (by norm_num)

/-- C76 on the segment `{x ≥ 0 | x₁ + x₂ = 1}`. -/
example := C76_lattice (A := segA.val) segA_indep rfl

example := C76_line_never (A := segA.val) segA_indep rfl (1 / 2) (fun _ => 1 / 2) segA_kernel segB (k := 2) ⟨by decide, by decide⟩ fun _ => 1 / 2

/-! ## Hit-and-Run: C60, C61, C95 -/

example := C60_sparse exactEigen_exact.sparseLU ones3_indep (by decide) 3 ⟨by decide, by decide⟩ (fun _ => 1) (fun _ => 1 / 3) simplex_start third_pos 2
    simplex_diam simplexBasis ones3_kernel

example := C61_sparse exactEigen_exact.sparseLU ones3_indep (by decide) 3 ⟨by decide, by decide⟩ (fun _ => 1) (fun _ => 1 / 3) simplex_start third_pos 2
    simplex_diam simplexBasis ones3_kernel

example := C95_sparse_hitrun exactEigen_exact.sparseLU ones3_indep (by decide) 3 ⟨by decide, by decide⟩ (fun _ => 1) (fun _ => 1 / 3) simplex_start third_pos 2
    simplex_diam simplexBasis ones3_kernel

example := C95_sparse_hitrun_limit exactEigen_exact.sparseLU ones3_indep (by decide) 3 ⟨by decide, by decide⟩ (fun _ => 1) (fun _ => 1 / 3) simplex_start
    third_pos 2 simplex_diam simplexBasis ones3_kernel 10 (1 / 100) (by norm_num)

example := C95_hitrun (le_refl 2) boxA (fun _ => 1) ⟨_, box_centre⟩ boxA_bdd

/-! ## The drivers on the simplex and on the face: C84, C96 -/

section Drivers
variable {err : ℝ}

example (hS : FRSetting exactGlpk exactEigen err faceA) (h1 : err ≤ 1) :=
  C84_sparse_dikin_average hS h1 (b := faceB) (k := 3) (by decide) ⟨_, face_pos⟩ ⟨1, fun y hy => face_box hy⟩ face_not_cone face_right (fuel := 4) (by decide) 0
    face_chart le_rfl exactEigen_exact 1 one_pos 1 one_ne_zero

theorem simplexA_handed : handedK simplexA.val simplexB 3 ≤ 3 := by
  rw [simplexA_right]
  have h : rightK simplexA.val simplexB (3 : Int).toNat ≤ 3 := by
    unfold rightK
    exact (Finite.card_subtype_le _).trans (Nat.card_fin 3).le
  exact_mod_cast h

theorem simplexA_no_overflow : handedK simplexA.val simplexB 3 * ((2 : ℕ) : Int) ≤ 2 ^ 31 - 1 := by
  have := simplexA_handed
  push_cast
  omega

example (hS : FRSetting exactGlpk exactEigen err simplexA) (h1 : err ≤ 1) :=
  C84_sparse_vaidya hS h1 (b := simplexB) (k := 3) (by decide) ⟨_, simplexMid_mem⟩ simplexA_bdd simplexA_not_cone simplexA_right (fuel := 4)
    (by decide) 0 simplexA_chart one_le_two exactEigen_exact 1 one_pos 1 one_ne_zero simplexA_no_overflow

example (hS : FRSetting exactGlpk exactEigen err simplexA) (h1 : err ≤ 1) :=
  C84_sparse_vaidya_average hS h1 (b := simplexB) (k := 3) (by decide) ⟨_, simplexMid_mem⟩ simplexA_bdd simplexA_not_cone simplexA_right (fuel := 4)
    (by decide) 0 simplexA_chart one_le_two exactEigen_exact 1 one_pos 1 one_ne_zero simplexA_no_overflow

example (hS : FRSetting exactGlpk exactEigen err simplexA) (h1 : err ≤ 1) :=
  C96_sparse_vaidya hS h1 (b := simplexB) (k := 3) (by decide) ⟨_, simplexMid_mem⟩ simplexA_bdd simplexA_not_cone simplexA_right (fuel := 4)
    (by decide) 0 simplexA_chart one_le_two exactEigen_exact 1 one_pos 1 one_ne_zero simplexA_no_overflow

example (hS : FRSetting exactGlpk exactEigen err simplexA) (h1 : err ≤ 1) :=
  C84_sparse_hitRun_average hS h1 (b := simplexB) (k := 3) (by decide) ⟨_, simplexMid_mem⟩ simplexA_bdd simplexA_not_cone simplexA_right (fuel := 4)
    (by decide) 0 simplexA_chart le_rfl exactEigen_exact.sparseLU 2 simplex_diam

example (hS : FRSetting exactGlpk exactEigen err simplexA) (h1 : err ≤ 1) :=
  C96_sparse_hitRun hS h1 (b := simplexB) (k := 3) (by decide) ⟨_, simplexMid_mem⟩ simplexA_bdd simplexA_not_cone simplexA_right (fuel := 4)
    (by decide) 0 simplexA_chart le_rfl exactEigen_exact.sparseLU 2 simplex_diam

example (hS : FRSetting exactGlpk exactEigen err simplexA) (h1 : err ≤ 1) :=
  C84_sparse_ball_average hS h1 (b := simplexB) (k := 3) (by decide) ⟨_, simplexMid_mem⟩ simplexA_bdd simplexA_not_cone simplexA_right (fuel := 4)
    (by decide) 0 simplexA_chart le_rfl exactEigen_exact.sparseLU (R := 1 / 4) (by norm_num) (u₀ := 0) simplex_step simplexA_disc

example (hS : FRSetting exactGlpk exactEigen err simplexA) (h1 : err ≤ 1) :=
  C96_sparse_ball hS h1 (b := simplexB) (k := 3) (by decide) ⟨_, simplexMid_mem⟩ simplexA_bdd simplexA_not_cone simplexA_right (fuel := 4)
    (by decide) 0 simplexA_chart le_rfl exactEigen_exact.sparseLU (R := 1 / 4) (by norm_num) (u₀ := 0) simplex_step simplexA_disc

example (hS : FRSetting exactGlpk exactEigen err simplexA) (h1 : err ≤ 1) :=
  C84_dense_hitRun_average hS h1 exactEigen_householderQR exactEigen_exact.inv (b := simplexB) (k := 3) (by decide) ⟨_, simplexMid_mem, simplexMid_pos⟩
    simplexA_bdd (fuel := 4) (by decide) 0 simplexA_chart le_rfl

example (hS : FRSetting exactGlpk exactEigen err simplexA) (h1 : err ≤ 1) :=
  C84_dense_ball_average hS h1 exactEigen_householderQR exactEigen_exact.inv (b := simplexB) (k := 3) (by decide) ⟨_, simplexMid_mem, simplexMid_pos⟩
    simplexA_bdd (fuel := 4) (by decide) 0 simplexA_chart le_rfl (R := 1 / 4) (by norm_num) (u₀ := 0) simplex_step simplexA_disc

theorem segA_abs : ∃ C, ∀ y ∈ PolyEq segA.val segB 2, ∀ i, |y i| ≤ C := ⟨1, fun y hy (i : Fin 2) => by
  obtain ⟨a1, a2, a3⟩ := segA_mem.1 hy
  rw [abs_le]
  fin_cases i <;> constructor <;> simp <;> linarith⟩

theorem half_pos2 : (fun _ => 1 / 2 : Fin 2 → ℝ) ∈ TailPos 2 2 := fun _ _ => by show (0 : ℝ) < 1 / 2; norm_num

example (hS : FRSetting exactGlpk exactEigen err segA) (h1 : err ≤ 1) :=
  C96_dense_dikin hS h1 exactEigen_householderQR exactEigen_exact.inv (b := segB) (k := 2) (by decide) ⟨_, segA_mid, half_pos2⟩
    segA_abs (fuel := 3) (by decide) 0 (isChart_of_kernel segA_kernel segA_mid.1 half_pos2) rfl exactEigen_exact (1 / 2) (by norm_num)

/-- There is such a setting. -/
example : (∃ err, err ≤ 1 ∧ FRSetting exactGlpk exactEigen err faceA) ∧ (∃ err, err ≤ 1 ∧ FRSetting exactGlpk exactEigen err simplexA) ∧
    ∃ err, err ≤ 1 ∧ FRSetting exactGlpk exactEigen err segA :=
  ⟨exists_frSetting _, exists_frSetting _, exists_frSetting _⟩

end Drivers

/-! ## The dense walks on the parallelogram: C78 -/

example := C78_dikin exactEigen exactEigen_exact 1 one_ne_zero
example := C78_vaidya exactEigen exactEigen_exact 1 one_ne_zero

/-! ## `sparseFullWalkRun` with a redundant equation: C90 -/

section Handed
variable {err : ℝ}

theorem long_one : 1 ≤ handedK longA.val longB 3 ∧ handedK longA.val longB 3 ≤ (survivorCount longA.val longB 3 : ℕ) := by
  show 1 ≤ handedK longM longB 3 ∧ handedK longM longB 3 ≤ (survivorCount longM longB 3 : ℕ)
  rw [long_handed, long_count]; norm_num

theorem long_inside : ∃ y ∈ HandedSet longA.val longB 3, ∀ i, Handed longA.val longB 3 i → 0 < y i :=
  ⟨![0, 1 / 2, 1 / 2], (long_set _).2 (by norm_num [Matrix.cons_val_two, Matrix.tail_cons]), fun i hi => by
    have key : ∀ i : Fin 3, 1 ≤ i.val → 0 < (![0, 1 / 2, 1 / 2] : Fin 3 → ℝ) i := by
      intro i; fin_cases i <;> norm_num
    exact key i ((long_handed_iff i).1 hi)⟩

theorem long_not_cone : ¬ CoordCone (PolyEq longA.val longB 3) 3 := by
  apply not_coordCone_of_zero
  intro h
  have h1 : (0 : ℝ) + 0 = 1 := ((long_mem _).1 h).1.1
  norm_num at h1

theorem long_outside : ∃ y ∈ HandedSet longA.val longB 3, y ∉ PolyEq longA.val longB 3 := by
  refine ⟨![-1 / 4, 1 / 4, 3 / 4], (long_set _).2 (by norm_num [Matrix.cons_val_two, Matrix.tail_cons]), fun h => ?_⟩
  have h3 : (0 : ℝ) ≤ -1 / 4 := ((long_mem _).1 h).2.1
  norm_num at h3

example (hS : FRSetting exactGlpk exactEigen err longA) (h1 : err ≤ 1) :=
  C90_dikin_average hS h1 (b := longB) (k := 3) (by decide) ⟨_, long_point⟩ long_not_cone long_one long_bdd long_inside (fuel := 4) (by decide) 0 long_isChart le_rfl
    exactEigen_exact 1 one_pos 1 one_ne_zero

theorem long_no_overflow : handedK longA.val longB 3 * ((1 : ℕ) : Int) ≤ 2 ^ 31 - 1 := by
  have : handedK longA.val longB 3 = 2 := long_handed
  rw [this]; norm_num

example (hS : FRSetting exactGlpk exactEigen err longA) (h1 : err ≤ 1) :=
  C90_vaidya hS h1 (b := longB) (k := 3) (by decide) ⟨_, long_point⟩ long_not_cone long_one long_bdd long_inside (fuel := 4) (by decide) 0 long_isChart le_rfl
    exactEigen_exact 1 one_pos 1 one_ne_zero long_no_overflow

example (hS : FRSetting exactGlpk exactEigen err longA) (h1 : err ≤ 1) :=
  C90_vaidya_average hS h1 (b := longB) (k := 3) (by decide) ⟨_, long_point⟩ long_not_cone long_one long_bdd long_inside (fuel := 4) (by decide) 0 long_isChart le_rfl
    exactEigen_exact 1 one_pos 1 one_ne_zero long_no_overflow

example (hS : FRSetting exactGlpk exactEigen err longA) (h1 : err ≤ 1) :=
  C90_john hS h1 (b := longB) (k := 3) (by decide) ⟨_, long_point⟩ long_not_cone long_one long_bdd long_inside (fuel := 4) (by decide) 0 long_isChart le_rfl
    (by have : handedK longA.val longB 3 = 2 := long_handed
        rw [this]; norm_num) exactEigen_exact 1 one_pos 1 one_ne_zero

example (hS : FRSetting exactGlpk exactEigen err longA) (h1 : err ≤ 1) :=
  C90_outside hS h1 (b := longB) (k := 3) (by decide) ⟨_, long_point⟩ long_not_cone long_one long_bdd long_inside (fuel := 4) (by decide) 0 long_isChart le_rfl
    exactEigen_exact 1 one_pos 1 one_ne_zero long_outside

example := C90_outside_share (A := longM) (b := longB) (k := 3) long_bdd long_isChart long_outside

/-- On the simplex the right number is handed over, and the two sets agree. -/
example : HandedSet simplexA.val simplexB 3 = PolyEq simplexA.val simplexB 3 := (C90_right simplexA.val simplexB (k := 3) (by decide)).1 simplexA_right

end Handed

end PW
