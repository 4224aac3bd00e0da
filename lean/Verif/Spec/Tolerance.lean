import Verif.Spec.LP

/-!
# Specification: an LP solver with a tolerance
-/

namespace PW
open Matrix

/-- The bound holds up to `δ`. -/
def Kind.HoldsUpTo (δ : ℝ) : Kind → ℝ → ℝ → Prop
  | .FR, _, _ => True
  | .LO, v, β => β - δ ≤ v
  | .UP, v, β => v ≤ β + δ
  | .FX, v, β => |v - β| ≤ δ

/-- `x` satisfies every row and column bound up to `δ`. -/
def LP.FeasibleUpTo (lp : LP ℝ) (δ : ℝ) (x : Fin lp.c → ℝ) : Prop :=
  (∀ i, (lp.rowKind i).HoldsUpTo δ ((lp.mat *ᵥ x) i) (lp.rowBnd i)) ∧
  (∀ j, (lp.colKind j).HoldsUpTo δ (x j) (lp.colBnd j))

/-- An LP solver with tolerance `δ`, as GLPK is: its answers satisfy the bounds up to `δ`, and are optimal up to `δ` when there is an
optimum. If the problem is infeasible it reports zeros, or takes a point that is feasible up to `δ` for a solution. -/
structure Glpk.Within (glp : Glpk ℝ) (δ : ℝ) : Prop where
  feasible : ∀ lp : LP ℝ, (∃ x, lp.Feasible x) → lp.FeasibleUpTo δ (glp.solve lp)
  optimal : ∀ lp : LP ℝ, ∀ x, lp.Optimal x → lp.obj ⬝ᵥ x - δ ≤ lp.obj ⬝ᵥ glp.solve lp
  infeasible : ∀ lp : LP ℝ, (¬ ∃ x, lp.Feasible x) → (glp.solve lp = fun _ => 0) ∨ lp.FeasibleUpTo δ (glp.solve lp)

/-- The polytope `{v | A v = b, v_j ≥ 0 for j ≥ xdim}` is well separated at the tolerance `δ`: it has a point whose constrained coordinates,
except those that vanish on the whole polytope, are larger than `δ (1 + |v|₁) / err`. -/
def Separated {m n : ℕ} (A : Matrix (Fin m) (Fin n) ℝ) (b : Fin m → ℝ) (xdim : ℕ) (δ err : ℝ) : Prop :=
  ∃ v ∈ PolyFrom A b xdim, ∀ j : Fin n, xdim ≤ j.val → (∃ w ∈ PolyFrom A b xdim, 0 < w j) → δ * (1 + ∑ i, |v i|) < err * v j

end PW
