import Verif.Spec.Contracts
import Verif.Spec.Polytope

/-!
# Specification: linear programs, LP solver and QR contracts, facial reduction vocabulary
-/

namespace PW
open Matrix

/-- Meaning of GLPK's bound kinds for a row or column value `v` and bound `β`. -/
def Kind.Holds : Kind → ℝ → ℝ → Prop
  | .FR, _, _ => True
  | .LO, v, β => β ≤ v
  | .UP, v, β => v ≤ β
  | .FX, v, β => v = β

/-- `x` satisfies every row and column bound. -/
def LP.Feasible (lp : LP ℝ) (x : Fin lp.c → ℝ) : Prop :=
  (∀ i, (lp.rowKind i).Holds ((lp.mat *ᵥ x) i) (lp.rowBnd i)) ∧
  (∀ j, (lp.colKind j).Holds (x j) (lp.colBnd j))

/-- `x` is feasible and maximises the objective. -/
def LP.Optimal (lp : LP ℝ) (x : Fin lp.c → ℝ) : Prop :=
  lp.Feasible x ∧ ∀ x', lp.Feasible x' → lp.obj ⬝ᵥ x' ≤ lp.obj ⬝ᵥ x

/-- An exact LP solver: returns a feasible point whenever there is one, an optimal one whenever there is
one. -/
structure Glpk.Exact (glp : Glpk ℝ) : Prop where
  feasible : ∀ lp : LP ℝ, (∃ x, lp.Feasible x) → lp.Feasible (glp.solve lp)
  optimal : ∀ lp : LP ℝ, (∃ x, lp.Optimal x) → lp.Optimal (glp.solve lp)

/-- What the code additionally assumes (it never asks for the solver's status): the reported values of an
infeasible problem are all zero. GLPK's documentation does not promise this. -/
def Glpk.ZeroIfInfeasible (glp : Glpk ℝ) : Prop :=
  ∀ lp : LP ℝ, (¬ ∃ x, lp.Feasible x) → glp.solve lp = fun _ => 0

/-- Column-pivoted QR: `M P = Q R`, `Q` orthogonal, `R` upper trapezoidal of rank `rk` with non-zero
leading diagonal and zero rows from `rk` on. -/
structure IsPivotedQR {d n : ℕ} (f : QR ℝ d n) (M : Matrix (Fin d) (Fin n) ℝ) (rk : ℕ) : Prop where
  orth : f.Qᵀ * f.Q = 1
  perm : Function.Bijective f.perm
  mul_eq : ∀ i j, M i (f.perm j) = (f.Q * f.R) i j
  upper : ∀ (i : Fin d) (j : Fin n), j.val < i.val → f.R i j = 0
  rank_le : rk ≤ d ∧ rk ≤ n
  diag : ∀ (i : Fin d) (j : Fin n), i.val = j.val → i.val < rk → f.R i j ≠ 0
  zero : ∀ (i : Fin d) (j : Fin n), rk ≤ i.val → f.R i j = 0

/-- `SparseQR` in exact arithmetic. -/
def Eigen.SparseQRExact (E : Eigen ℝ) : Prop :=
  ∀ {d n : ℕ} (M : Matrix (Fin d) (Fin n) ℝ), ∃ rk, IsPivotedQR (E.sparseQR M) M rk

/-- The threshold `err` separates the non-zero pivots of (the transposes of) all submatrices of `A` from
zero: rank decisions `|R_ii| > err` are exact for them. -/
def Eigen.PivotGap (E : Eigen ℝ) (err : ℝ) {m n : ℕ} (A : Matrix (Fin m) (Fin n) ℝ) : Prop :=
  ∀ {p q : ℕ} (f : Fin p → Fin m) (g : Fin q → Fin n), Function.Injective f → Function.Injective g →
    ∀ (i : Fin q) (j : Fin p), i.val = j.val → (E.sparseQR (A.submatrix f g)ᵀ).R i j ≠ 0 →
      err < |(E.sparseQR (A.submatrix f g)ᵀ).R i j|

/-- `HouseholderQR`: `M = Q R`, `Q` orthogonal, `R` upper trapezoidal. -/
structure IsQR {d n : ℕ} (f : QR ℝ d n) (M : Matrix (Fin d) (Fin n) ℝ) : Prop where
  orth : f.Qᵀ * f.Q = 1
  mul_eq : M = f.Q * f.R
  upper : ∀ (i : Fin d) (j : Fin n), j.val < i.val → f.R i j = 0

/-- `HouseholderQR` in exact arithmetic. -/
def Eigen.HouseholderExact (E : Eigen ℝ) : Prop :=
  ∀ {d n : ℕ} (M : Matrix (Fin d) (Fin n) ℝ), IsQR (E.householderQR M) M

/-- `y` certifies that coordinate `i` vanishes on `{v | A v = b, v_j ≥ 0 for j ≥ xdim}`:
`Aᵀ y = (0, z)`, `z ≥ 0`, `z_i = 1`, `⟨b, y⟩ = 0`. -/
structure Certifies {m n : ℕ} (A : Matrix (Fin m) (Fin n) ℝ) (b : Fin m → ℝ) (xdim : ℕ) (i : Fin n)
    (y : Fin m → ℝ) : Prop where
  free : ∀ j : Fin n, j.val < xdim → (Aᵀ *ᵥ y) j = 0
  nonneg : ∀ j : Fin n, xdim ≤ j.val → 0 ≤ (Aᵀ *ᵥ y) j
  one : (Aᵀ *ᵥ y) i = 1
  orth : b ⬝ᵥ y = 0

/-- `{v | A v = b, v_j ≥ 0 for j ≥ xdim}`: the first `xdim` coordinates are free. -/
def PolyFrom {m n : ℕ} (A : Matrix (Fin m) (Fin n) ℝ) (b : Fin m → ℝ) (xdim : ℕ) : Set (Fin n → ℝ) :=
  {v | A *ᵥ v = b ∧ ∀ j : Fin n, xdim ≤ j.val → 0 ≤ v j}

theorem polyEq_eq_polyFrom {m n : ℕ} (A : Matrix (Fin m) (Fin n) ℝ) (b : Fin m → ℝ) (k : ℕ) :
    PolyEq A b k = PolyFrom A b (n - k) := rfl

end PW
