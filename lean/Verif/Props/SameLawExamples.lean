import Verif.Props.Isometry
import Verif.Props.ExamplesMore
import Verif.Props.ExamplesContinue

/-!
# Concrete cases of C108 and C109
-/

namespace PW
open Matrix MeasureTheory Set
open PW.RealToy

/-- A generator none of whose uniform draws are those of `streamEnv`: it returns `1 - u` for `u`. -/
noncomputable def flipEnv : Env ℝ :=
  ⟨{ streamRng with uniform := fun g => (1 - (streamRng.uniform g).1, (streamRng.uniform g).2) }, 5, fun _ _ => 3, 0⟩

noncomputable instance : MeasurableSpace flipEnv.r.G := inferInstanceAs (MeasurableSpace streamRng.G)

theorem flipEnv_gaussian (d : ℕ) : flipEnv.r.gaussian d = streamRng.gaussian d := by
  have h : ∀ (g : streamRng.G) i, flipEnv.r.normalState g i = streamRng.normalState g i := by
    intro g i
    induction i with
    | zero => rfl
    | succ i ih =>
      show (streamRng.normal (flipEnv.r.normalState g i).1 (flipEnv.r.normalState g i).2).2 = _
      rw [ih]; rfl
  funext g
  exact Prod.ext (funext fun i : Fin d => congrArg (fun s : streamRng.N × streamRng.G => (streamRng.normal s.1 s.2).1) (h g i)) (congrArg (fun s : streamRng.N × streamRng.G => s.2) (h g d))

theorem flipEnv_ideal : IdealSource flipEnv.r streamLaw where
  prob := streamRng_ideal.prob
  probN d := streamRng_ideal.probN d
  gaussian d := by rw [flipEnv_gaussian]; exact streamRng_ideal.gaussian d
  uniform := by
    have := streamRng_ideal.prob
    have h1 : MeasurePreserving (fun u : ℝ => 1 - u) (volume.restrict (Icc (0 : ℝ) 1)) (volume.restrict (Icc (0 : ℝ) 1)) := by
      have h := (Measure.measurePreserving_sub_left (volume : Measure ℝ) 1).restrict_preimage (measurableSet_Icc (a := (0 : ℝ)) (b := 1))
      have e : (fun u : ℝ => 1 - u) ⁻¹' Icc (0 : ℝ) 1 = Icc 0 1 := by
        ext u; simp only [mem_preimage, mem_Icc]; constructor <;> rintro ⟨a, b⟩ <;> constructor <;> linarith
      rwa [e] at h
    exact (h1.prod (MeasurePreserving.id streamLaw)).comp streamRng_ideal.uniform

example := C108_ball streamEnv streamLaw streamRng_ideal flipEnv streamLaw flipEnv_ideal 1 boxA (fun _ => 1) (by decide) (fun _ => 0) 0
example := C108_hitrun streamEnv streamLaw streamRng_ideal flipEnv streamLaw flipEnv_ideal 1 (1 / 10) one_ne_zero (by norm_num) (by decide) boxA (fun _ => 1)
  boxA_bdd (fun _ => 0) box_centre 0
example := C108_dense_dikin streamEnv streamLaw streamRng_ideal flipEnv streamLaw flipEnv_ideal exactEigen exactEigen_exact 1 one_ne_zero boxA (fun _ => 1)
  (by decide) boxA_bdd _ box_centre 0 (BState.fresh 0) (BState.fresh 0)
example := C108_dense_vaidya streamEnv streamLaw streamRng_ideal flipEnv streamLaw flipEnv_ideal exactEigen exactEigen_exact 1 one_ne_zero boxA (fun _ => 1)
  (by decide) boxA_bdd _ box_centre 0 (by decide) (BState.fresh 0) (BState.fresh 0)
example := C108_sparse_ball streamEnv streamLaw streamRng_ideal flipEnv streamLaw flipEnv_ideal 1 exactEigen_exact.sparseLU ones3_indep (fun _ => 1) (k := 3)
  ⟨by decide, by decide⟩ (fun _ => 1 / 3)
example := C108_sparse_hitrun streamEnv streamLaw streamRng_ideal flipEnv streamLaw flipEnv_ideal 1 (1 / 100) (by norm_num) exactEigen_exact.sparseLU ones3_indep (by decide) 3
  ⟨by decide, by decide⟩ (fun _ => 1) simplex_narrow (fun _ => 1 / 3) simplex_start third_pos
example := C108_sparse_dikin streamEnv streamLaw streamRng_ideal flipEnv streamLaw flipEnv_ideal exactEigen exactEigen_exact 1 one_pos (1 / 2) (by norm_num)
  ones3_indep (by decide) 3 ⟨by decide, by decide⟩ (fun _ => 1) simplex_bdd (fun _ => 1 / 3) simplex_start third_pos (BState.fresh 0) (BState.fresh 1)
example := C108_sparse_vaidya streamEnv streamLaw streamRng_ideal flipEnv streamLaw flipEnv_ideal exactEigen exactEigen_exact 1 one_pos (1 / 2) (by norm_num)
  ones3_indep (by decide) 3 ⟨by decide, by decide⟩ (fun _ => 1) simplex_bdd (fun _ => 1 / 3) simplex_start third_pos (by decide) (BState.fresh 0) (BState.fresh 1)
example := C108_sparse_user streamEnv streamLaw streamRng_ideal flipEnv streamLaw flipEnv_ideal squareClass exactEigen exactEigen_exact 1 one_pos ones3_indep 3
  ⟨by decide, by decide⟩ (D := 2) two_pos (wf := fun x i => 1 + x i * x i)
  (measurable_pi_lambda _ fun i => measurable_const.add ((measurable_pi_apply i).mul (measurable_pi_apply i)))
  (fun x _ i _ => by have := mul_self_nonneg (x i); linarith)
  (fun _ => 1) simplex_bdd (fun _ => 1 / 3) simplex_start third_pos () () ⟨(), rfl, rfl, fun _ _ _ => rfl⟩ ⟨(), rfl, rfl, fun _ _ _ => rfl⟩

/-- The eleventh row of a run: the two programs put it left of the centre with the same probability, with different seeds. -/
example (seed seed' : Int) :
    rowsProb (.hitRun 1 (1 / 10)) flipEnv streamLaw (callArgs boxA (fun _ => 1) (fun _ => 0) 22 0 0 2 seed') {p : Fin 11 → Fin 2 → ℝ | p 10 0 < 0} =
      rowsProb (.hitRun 1 (1 / 10)) streamEnv streamLaw (callArgs boxA (fun _ => 1) (fun _ => 0) 22 0 0 2 seed) {p : Fin 11 → Fin 2 → ℝ | p 10 0 < 0} :=
  (C108_hitrun streamEnv streamLaw streamRng_ideal flipEnv streamLaw flipEnv_ideal 1 (1 / 10) one_ne_zero (by norm_num) (by decide) boxA (fun _ => 1)
    boxA_bdd (fun _ => 0) box_centre 0).rows 22 0 2 seed seed' (by constructor <;> norm_num [intMax]) 11 _
    (measurableSet_lt ((measurable_pi_apply 0).comp (measurable_pi_apply 10)) measurable_const) (by norm_num)

/-! ## A tilted square -/

/-- The rotation by the angle of the 3-4-5 triangle. -/
noncomputable def tilt : Matrix (Fin 2) (Fin 2) ℝ := !![3 / 5, -(4 / 5); 4 / 5, 3 / 5]

theorem tilt_orth : tilt * tiltᵀ = 1 := by
  ext i j
  fin_cases i <;> fin_cases j <;> simp [tilt, Matrix.mul_apply, Fin.sum_univ_two] <;> norm_num

theorem tilted_mulVec {m n : ℕ} {Q : Matrix (Fin n) (Fin n) ℝ} (hQ : Q * Qᵀ = 1) (A : Matrix (Fin m) (Fin n) ℝ) (v y : Fin n → ℝ) :
    (A * Qᵀ) *ᵥ (Q *ᵥ y + v) = A *ᵥ y + (A * Qᵀ) *ᵥ v := by
  rw [mulVec_add, mulVec_mulVec, Matrix.mul_assoc, rot_other hQ, Matrix.mul_one]

/-- What a user who changes to new coordinates `Q y + v` passes. -/
theorem tilted_mem {m n : ℕ} {Q : Matrix (Fin n) (Fin n) ℝ} (hQ : Q * Qᵀ = 1) (A : Matrix (Fin m) (Fin n) ℝ) (b : Fin m → ℝ) (v y : Fin n → ℝ) :
    Q *ᵥ y + v ∈ Poly (A * Qᵀ) (b + (A * Qᵀ) *ᵥ v) ↔ y ∈ Poly A b := by
  refine forall_congr' fun i => ?_
  show ((A * Qᵀ) *ᵥ (Q *ᵥ y + v)) i ≤ (b + (A * Qᵀ) *ᵥ v) i ↔ (A *ᵥ y) i ≤ b i
  rw [tilted_mulVec hQ]
  exact add_le_add_iff_right _

theorem tilted_interior {m n : ℕ} {Q : Matrix (Fin n) (Fin n) ℝ} (hQ : Q * Qᵀ = 1) (A : Matrix (Fin m) (Fin n) ℝ) (b : Fin m → ℝ) (v y : Fin n → ℝ) :
    Q *ᵥ y + v ∈ Interior (A * Qᵀ) (b + (A * Qᵀ) *ᵥ v) ↔ y ∈ Interior A b := by
  refine forall_congr' fun i => ?_
  show ((A * Qᵀ) *ᵥ (Q *ᵥ y + v)) i < (b + (A * Qᵀ) *ᵥ v) i ↔ (A *ᵥ y) i < b i
  rw [tilted_mulVec hQ]
  exact add_lt_add_iff_right _

example (v : Fin 2 → ℝ) := C109_ball streamEnv streamLaw streamRng_ideal flipEnv streamLaw flipEnv_ideal tilt tilt_orth v boxA (fun _ => 1)
  (boxA * tiltᵀ) _ (tilted_mem tilt_orth boxA (fun _ => 1) v) 1 (by decide) (by decide) (fun _ => 0) 0
example (v : Fin 2 → ℝ) := C109_hitrun streamEnv streamLaw streamRng_ideal flipEnv streamLaw flipEnv_ideal tilt tilt_orth v boxA (fun _ => 1)
  (boxA * tiltᵀ) _ (tilted_mem tilt_orth boxA (fun _ => 1) v) 1 (1 / 10) one_ne_zero (by norm_num) (by decide) boxA_bdd (fun _ => 0) box_centre
  ((tilted_interior tilt_orth boxA (fun _ => 1) v _).2 box_centre) 0

end PW
