import Verif.Props.ExamplesApplied
import Verif.Props.ExamplesMore
import Verif.Props.ConcentrateDrivers

/-!
# Concrete cases for C104 and C105

Each example applies the named theorem to a concrete polytope (the square `boxA`, the simplex `ones3`), so every hypothesis of the theorem is met there.
-/

namespace PW
open Matrix MeasureTheory Set

example := C104_ball (le_refl 2) boxA_bdd one_ne_zero box_step box_ball

example := C104_enough (le_refl 2) boxA_bdd one_ne_zero box_step box_ball

example := C104_sparse_ball exactEigen_exact.sparseLU ones3_indep (by decide) (k := 3) ⟨by decide, by decide⟩ simplex_bdd (R := 1 / 4) (by norm_num)
  (x₀ := fun _ => 1 / 3) simplex_start simplex_step' simplex_disc ones3_kernel

example := C104_hitrun (le_refl 2) boxA (fun _ => 1) ⟨_, box_centre⟩ boxA_bdd

example := C104_sparse_hitrun exactEigen_exact.sparseLU ones3_indep (by decide) 3 ⟨by decide, by decide⟩ (fun _ => 1) (fun _ => 1 / 3) simplex_start
  third_pos 2 simplex_diam simplexBasis ones3_kernel

variable {err : ℝ}

example (hS : FRSetting exactGlpk exactEigen err simplexA) (h1 : err ≤ 1) :=
  C105_sparse_hitRun hS h1 (b := simplexB) (k := 3) (by decide) ⟨_, simplexMid_mem⟩ simplexA_bdd simplexA_not_cone simplexA_right (fuel := 4)
    (by decide) 0 simplexA_chart le_rfl exactEigen_exact.sparseLU 2 simplex_diam

example (hS : FRSetting exactGlpk exactEigen err simplexA) (h1 : err ≤ 1) :=
  C105_sparse_ball hS h1 (b := simplexB) (k := 3) (by decide) ⟨_, simplexMid_mem⟩ simplexA_bdd simplexA_not_cone simplexA_right (fuel := 4)
    (by decide) 0 simplexA_chart le_rfl exactEigen_exact.sparseLU (R := 1 / 4) (by norm_num) (u₀ := 0) simplex_step simplexA_disc

example (hS : FRSetting exactGlpk exactEigen err simplexA) (h1 : err ≤ 1) :=
  C105_dense_hitRun hS h1 exactEigen_householderQR exactEigen_exact.inv (b := simplexB) (k := 3) (by decide) ⟨_, simplexMid_mem, simplexMid_pos⟩
    simplexA_bdd (fuel := 4) (by decide) 0 simplexA_chart le_rfl

example (hS : FRSetting exactGlpk exactEigen err simplexA) (h1 : err ≤ 1) :=
  C105_dense_ball hS h1 exactEigen_householderQR exactEigen_exact.inv (b := simplexB) (k := 3) (by decide) ⟨_, simplexMid_mem, simplexMid_pos⟩
    simplexA_bdd (fuel := 4) (by decide) 0 simplexA_chart le_rfl (R := 1 / 4) (by norm_num) (u₀ := 0) simplex_step simplexA_disc

end PW
