import Verif.Props.Drift
import Verif.Props.Examples

/-!
# C82: concrete cases
-/

namespace PW.RealToy
open PW Matrix

/-- The segment with a right-hand side (5) that the initial point does not satisfy. -/
noncomputable def offArgs : Args ℝ := { segArgs with b := ⟨1, fun _ => 5⟩ }

theorem offDims : offArgs.DimsOk := ⟨rfl, rfl⟩

/-- An infeasible start: the walk runs, and every row misses `b` by exactly as much as the start. -/
example : ∃ rows, (Walk.sparseBall 1 exactEigen).run env offArgs = .ok rows ∧ ∀ x ∈ rows, rowOnes *ᵥ x - (fun _ => 5) = fun _ => -4 := by
  obtain ⟨rows, h⟩ := C54_returns (Walk.sparseBall 1 exactEigen) env segArgs (.sparseBall _ _) segInts segDims (fun _ => segK)
  have h' : (Walk.sparseBall 1 exactEigen).run env offArgs = .ok rows :=
    (C82_rhs_unused (Walk.sparseBall 1 exactEigen) rfl env segArgs ⟨1, fun _ => 5⟩ rfl).trans h
  refine ⟨rows, h', fun x hx => ?_⟩
  have := C82_residual_kept env offArgs offDims _ (.ball 1 exactEigen exactEigen_exact.sparseLU) rowOnes_indep segInts.sane rows h' x hx
  refine Eq.trans this ?_
  have e := seg_eq
  funext i
  show (segArgs.A.val *ᵥ segArgs.x0 segDims) i - 5 = -4
  rw [e]
  show (1 : ℝ) - 5 = -4
  norm_num

/-- A run that meets the hypotheses of `C82_rows`, with `ρ = 0`: the direction computed with an exact solver lies in the kernel. -/
example : ∃ rows, (Walk.sparseBall 1 exactEigen).run env segArgs = .ok rows ∧ ∀ x ∈ rows, |∑ j, (x : Fin 2 → ℝ) j - 1| ≤ 0 := by
  obtain ⟨rows, h⟩ := C54_returns (Walk.sparseBall 1 exactEigen) env segArgs (.sparseBall _ _) segInts segDims (fun _ => segK)
  obtain ⟨B, -, -, hB, -⟩ := C82_bounds_exist (ext := fun x : ℝ => some (x : EReal)) (Walk.sparseBall 1 exactEigen) env segArgs segDims
    (fun _ => 1) 10 (fun t _ x _ => ⟨x, fun j => rfl⟩)
  refine ⟨rows, h, fun x hx => ?_⟩
  obtain ⟨ξ, hξ, h1⟩ := C82_rows (rounding_real 0) (Walk.sparseBall 1 exactEigen) rfl env segArgs segDims segInts.sane (fun _ => 1) midpoint2 1
    (fun j => rfl) B 0 hB (fun t _ s _ x' c z γ ζ _ hD _ _ hz => by
      obtain ⟨rfl, -⟩ := hD
      have hz' : ζ = _ := funext fun j => (EReal.coe_injective (Option.some.inj (hz j))).symm
      have hk := normalize_ker (kernelProject_ker exactEigen_exact.sparseLU seg_unit (env.r.gaussian 2 s.2).1)
      have hs := congrFun hk (0 : Fin 1)
      have : ∑ j : Fin 2, (1 : ℝ) * ζ j = 0 := by
        rw [hz']
        exact hs
      rw [show ∑ j : Fin segArgs.A.c, (1 : ℝ) * ζ j = 0 from this, mul_zero, abs_zero]) le_rfl rows h x hx
  have hx' : ξ = x := funext fun j => (EReal.coe_injective (Option.some.inj (hξ j))).symm
  have e0 : ∑ j : Fin 2, (1 : ℝ) * midpoint2 j = 1 := congrFun seg_eq (0 : Fin 1)
  have h1 : |∑ j : Fin 2, (1 : ℝ) * ξ j - 1| ≤ |∑ j : Fin 2, (1 : ℝ) * midpoint2 j - 1| + ((segArgs.niter : ℤ) : ℝ) *
      (0 + (∑ j : Fin 2, |(1 : ℝ)|) * ((3 - 2 * 0) * 0 * B / (1 - 0) ^ 2 + 0 / (1 - 0))) := h1
  rw [e0, hx'] at h1
  have e3 : ∀ y : Fin 2 → ℝ, |∑ j, (1 : ℝ) * y j - 1| ≤ |(1 : ℝ) - 1| + ((segArgs.niter : ℤ) : ℝ) *
      (0 + (∑ j : Fin 2, |(1 : ℝ)|) * ((3 - 2 * 0) * 0 * B / (1 - 0) ^ 2 + 0 / (1 - 0))) → |∑ j, y j - 1| ≤ 0 := by
    intro y hy
    simpa using hy
  exact e3 x h1

end PW.RealToy
