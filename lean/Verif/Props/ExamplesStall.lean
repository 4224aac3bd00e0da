import Verif.Props.ExamplesMore
import Verif.Props.Skew

/-!
# Concrete cases for C102 and C103
-/

namespace PW
open Matrix MeasureTheory Set
open PW.RealToy

/-- On the triangle, SparseDikinWalk with radius `1/2` stands still in an iteration with probability at most `11/12`. -/
example := C102_dikin_small exactEigen exactEigen_exact 1 one_pos (1 / 2) (by norm_num) ones3_indep (by decide) 3 ⟨by decide, by decide⟩
    (fun _ => 1) simplex_bdd streamEnv streamLaw streamRng_ideal (fun _ => 1 / 3) simplex_start third_pos (BState.fresh 0)
example := C102_vaidya exactEigen exactEigen_exact 1 one_pos (1 / 2) (by norm_num) ones3_indep (by decide) 3 ⟨by decide, by decide⟩
    (fun _ => 1) simplex_bdd streamEnv streamLaw streamRng_ideal (fun _ => 1 / 3) simplex_start third_pos (by decide) (BState.fresh 0)

/-- The bound is not trivial: ten iterations in a row without a move have probability at most `(11/12) ^ 10 < 1/2`. -/
example : stallProb (.sparseBarrier (sparseDikinClass (1 / 2)) 1 exactEigen (BState.fresh 0)) streamEnv streamLaw ones3 (fun _ => 1) (fun _ => 1 / 3) 3 100 0 1 7 50 10 ≤
    ENNReal.ofReal (1 / 2) := by
  refine (C102_dikin_small exactEigen exactEigen_exact 1 one_pos (1 / 2) (by norm_num) ones3_indep (by decide) 3 ⟨by decide, by decide⟩
    (fun _ => 1) simplex_bdd streamEnv streamLaw streamRng_ideal (fun _ => 1 / 3) simplex_start third_pos (BState.fresh 0) 100 0 1 7 50 10).trans ?_
  have e1 : (1 : ENNReal) - ENNReal.ofReal ((1 - (1 / 2) ^ 2) / 3 ^ (3 - 1)) = ENNReal.ofReal (11 / 12) := by
    rw [← ENNReal.ofReal_one, ← ENNReal.ofReal_sub _ (by norm_num)]
    norm_num
  rw [e1, ← ENNReal.ofReal_pow (by norm_num)]
  exact ENNReal.ofReal_le_ofReal (by norm_num)

/-- A user's class whose weights depend on the point and lie between `1` and `2`. -/
noncomputable def boundedClass : SparseBarrierClass ℝ Unit where
  setDistTerm _ _ _ := .ok ()
  distTerm _ := 2
  generateWeight {_ n} _ _ x _ _ := .ok (⟨n, fun i => 1 + x i * x i / (1 + x i * x i)⟩, ())

theorem boundedClass_weights (y : Fin 3 → ℝ) (i : Fin 3) : (1 : ℝ) ≤ 1 + y i * y i / (1 + y i * y i) ∧ 1 + y i * y i / (1 + y i * y i) ≤ 2 := by
  have h := mul_self_nonneg (y i)
  have h1 : 0 ≤ y i * y i / (1 + y i * y i) := div_nonneg h (by linarith)
  have h2 : y i * y i / (1 + y i * y i) ≤ 1 := (div_le_one (by linarith)).2 (by linarith)
  constructor <;> linarith

example := C102_user boundedClass exactEigen exactEigen_exact 1 one_pos ones3_indep (by decide) 3 ⟨by decide, by decide⟩ (D := 2) two_pos
    (wf := fun x i => 1 + x i * x i / (1 + x i * x i))
    (measurable_pi_lambda _ fun i => measurable_const.add (((measurable_pi_apply i).mul (measurable_pi_apply i)).div
      (measurable_const.add ((measurable_pi_apply i).mul (measurable_pi_apply i)))))
    one_pos one_le_two (fun y _ i _ => boundedClass_weights y i)
    (fun _ => 1) simplex_bdd streamEnv streamLaw streamRng_ideal (fun _ => 1 / 3) simplex_start third_pos () ⟨(), rfl, rfl, fun _ _ _ => rfl⟩

/-- A polygon in which DikinWalk of radius `1/2` returns its starting point a thousand times over, with probability at least `0.99`. -/
example : ∃ (m : ℕ) (A : Matrix (Fin m) (Fin 2) ℝ) (b : Fin m → ℝ), (0 : Fin 2 → ℝ) ∈ Interior A b ∧
    ENNReal.ofReal (1 - 1 / 100) ≤ stallProb (.barrier (dikinClass (1 / 2)) exactEigen (BState.fresh 0)) streamEnv streamLaw A b 0 0 1000 0 1 7 0 1000 := by
  obtain ⟨m, A, b, -, h, -, hst⟩ := C103_dikin (1 / 2) (by norm_num) 1000 (1 / 100) (by norm_num)
  exact ⟨m, A, b, h, hst exactEigen exactEigen_exact streamEnv streamLaw streamRng_ideal (BState.fresh 0) 0 1000 0 1 7⟩
example : ∃ (m : ℕ) (A : Matrix (Fin m) (Fin 2) ℝ) (b : Fin m → ℝ), (0 : Fin 2 → ℝ) ∈ Interior A b ∧
    ENNReal.ofReal (1 - 1 / 100) ≤ stallProb (.barrier (vaidyaClass exactEigen (1 / 2)) exactEigen (BState.fresh 0)) streamEnv streamLaw A b 0 0 1000 0 1 7 0 1000 := by
  obtain ⟨m, A, b, -, h, -, hst⟩ := C103_vaidya (1 / 2) (by norm_num) 1000 (1 / 100) (by norm_num)
  exact ⟨m, A, b, h, hst exactEigen exactEigen_exact streamEnv streamLaw streamRng_ideal (BState.fresh 0) 0 1000 0 1 7⟩
example := C103_sparse exactEigen exactEigen_exact 1 one_pos (1 / 2) (by norm_num) 1000000 streamEnv streamLaw streamRng_ideal (BState.fresh 0)

end PW
