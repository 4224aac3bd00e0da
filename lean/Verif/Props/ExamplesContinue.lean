import Verif.Props.ExamplesMore
import Verif.Props.Continue
import Verif.Props.SameSeed

/-!
# Concrete cases for C100 and C101
-/

namespace PW
open Matrix MeasureTheory Set
open PW.RealToy

example := C100_ball 1 boxA (fun _ => 1) (by decide) streamEnv streamLaw streamRng_ideal (fun _ => 1) 0
example := C100_sparse_ball 1 exactEigen_exact.sparseLU ones3_indep (fun _ => 1) (k := 3) ⟨by decide, by decide⟩ streamEnv streamLaw streamRng_ideal
    (fun _ => 1 / 3)
example := C100_hitrun 1 (1 / 100) one_ne_zero (by norm_num) (le_refl 2) boxA (fun _ => 1) boxA_bdd streamEnv streamLaw streamRng_ideal _ box_centre 0

/-- Twenty rows of Hit-and-Run on the square, asked for in two calls: the first 30 iterations, of which 10 are burnt, then 20 more. -/
example (S : Set (Fin 20 → Fin 2 → ℝ)) (hS : MeasurableSet S) :
    resumedRowsProb (.hitRun 1 (1 / 100)) (.hitRun 1 (1 / 100)) streamEnv streamLaw boxA (fun _ => 1) (fun _ => 0) 0 30 10 2 7 20 8 S =
      rowsProb (.hitRun 1 (1 / 100)) streamEnv streamLaw (callArgs boxA (fun _ => 1) (fun _ => 0) 50 0 10 2 7) S :=
  (C100_hitrun 1 (1 / 100) one_ne_zero (by norm_num) (le_refl 2) boxA (fun _ => 1) boxA_bdd streamEnv streamLaw streamRng_ideal _ box_centre 0).rows
    30 10 2 7 20 8 (by constructor <;> norm_num [intMax]) (by constructor <;> norm_num [intMax]) (by constructor <;> norm_num [intMax])
    (by norm_num) (by norm_num) 20 S hS (by norm_num)

theorem simplex_narrow (y : Fin 3 → ℝ) (hy : y ∈ PolyEq ones3 (fun _ => 1) (3 : Int).toNat) (z : Fin 3 → ℝ)
    (hz : z ∈ PolyEq ones3 (fun _ => 1) (3 : Int).toNat) : ∑ i, (y i - z i) ^ 2 < (2 ^ 10000 * |(1 : ℝ)|) ^ 2 := by
  refine lt_of_le_of_lt (simplex_diam y hy z hz) ?_
  rw [abs_one, mul_one]
  refine pow_lt_pow_left₀ ?_ two_pos.le two_ne_zero
  calc (2 : ℝ) = 2 ^ 1 := (pow_one 2).symm
    _ < 2 ^ 10000 := pow_lt_pow_right₀ one_lt_two (by norm_num)

example := C100_sparse_hitrun 1 (1 / 100) (by norm_num) exactEigen_exact.sparseLU ones3_indep (by decide) 3 ⟨by decide, by decide⟩ (fun _ => 1)
    simplex_narrow streamEnv streamLaw streamRng_ideal (fun _ => 1 / 3) simplex_start third_pos
example := C100_sparse_dikin exactEigen exactEigen_exact 1 one_pos (1 / 2) (by norm_num) ones3_indep (by decide) 3 ⟨by decide, by decide⟩
    (fun _ => 1) simplex_bdd streamEnv streamLaw streamRng_ideal (fun _ => 1 / 3) simplex_start third_pos (BState.fresh 0) (BState.fresh 5)
example := C100_sparse_vaidya exactEigen exactEigen_exact 1 one_pos (1 / 2) (by norm_num) ones3_indep (by decide) 3 ⟨by decide, by decide⟩
    (fun _ => 1) simplex_bdd streamEnv streamLaw streamRng_ideal (fun _ => 1 / 3) simplex_start third_pos (by decide) (BState.fresh 0) (BState.fresh 5)
example := C100_sparse_user squareClass exactEigen exactEigen_exact 1 one_pos ones3_indep 3 ⟨by decide, by decide⟩ (D := 2) two_pos
    (wf := fun x i => 1 + x i * x i)
    (measurable_pi_lambda _ fun i => measurable_const.add ((measurable_pi_apply i).mul (measurable_pi_apply i)))
    (fun x _ i _ => by have := mul_self_nonneg (x i); linarith)
    (fun _ => 1) simplex_bdd streamEnv streamLaw streamRng_ideal (fun _ => 1 / 3) simplex_start third_pos
    () () ⟨(), rfl, rfl, fun _ _ _ => rfl⟩ ⟨(), rfl, rfl, fun _ _ _ => rfl⟩
example := C100_dense_dikin exactEigen exactEigen_exact (1 / 2) (by norm_num) boxA (fun _ => 1) (by decide) boxA_bdd streamEnv streamLaw
    streamRng_ideal _ box_centre 0 (BState.fresh 0) (BState.fresh 5)
example := C100_dense_vaidya exactEigen exactEigen_exact (1 / 2) (by norm_num) boxA (fun _ => 1) (by decide) boxA_bdd streamEnv streamLaw
    streamRng_ideal _ box_centre 0 (by decide) (BState.fresh 0) (BState.fresh 5)

/-- On the square, calls of one iteration with the same seed stay on a line, and there are such calls: whatever the generator does, the call returns a row. -/
example (g : streamEnv.r.G) : (∃ v : Fin 2 → ℝ, ∀ x y, Chained (.ball 1) (streamEnv.withGen g) boxA (fun _ => 1) x 0 1 0 1 7 y → ∃ c : ℝ, y = x + c • v) ∧
    ∃ row rows, (Walk.ball 1).run (streamEnv.withGen g) (callArgs boxA (fun _ => 1) (fun _ => 0) 1 0 0 1 7) = .ok rows ∧ row ∈ rows ∧
      Chained (.ball 1) (streamEnv.withGen g) boxA (fun _ => 1) (fun _ => 0) 0 1 0 1 7 row := by
  have hg : GoodInts 1 0 1 := by constructor <;> norm_num [intMax]
  refine ⟨C101_line (.ball 1) trivial (streamEnv.withGen g) boxA (fun _ => 1) 0 0 1 7 hg (by decide), ?_⟩
  obtain ⟨f0, rows, h, -⟩ := returns_of_chain (.ball 1) (streamEnv.withGen g) (callArgs boxA (fun _ => 1) (fun _ => 0) 1 0 0 1 7) hg ⟨rfl, rfl⟩
    (by intro h; cases h) univ (fun t => by
      obtain ⟨f0, h0⟩ := ball_follows 1 streamEnv boxA (fun _ => 1) (by decide) (fun _ => 0) 1 0 0 1 7 g t
      refine ⟨f0, fun f hf => ?_⟩
      obtain ⟨s, hs, _⟩ := h0 f hf
      exact ⟨s, hs, trivial⟩)
  have hlen := C01_shape (.ball 1) _ _ hg rows (h f0 le_rfl)
  have hlen : (rows.length : Int) = (1 - 0) / 1 := hlen
  have hpos : 0 < rows.length := by omega
  exact ⟨rows[0], rows, h f0 le_rfl, List.getElem_mem hpos, Chained.call Chained.start streamEnv.rd streamEnv.junk f0 (h f0 le_rfl) (List.getElem_mem hpos)⟩

example := C101_null (.hitRun 1 1) trivial streamEnv boxA (fun _ => 1) 0 1 0 1 7 (by constructor <;> norm_num [intMax]) (by decide) (by decide) (fun _ => 0)
example := C101_sparse_null (.sparseHitRun 1 1 exactEigen) trivial streamEnv ones3 (fun _ => 1) 3 1 0 1 7 (by constructor <;> norm_num [intMax]) (by decide)
    ones3_kernel (by decide) (fun _ => 1 / 3) (fun _ => 1 / 3)

end PW
