import Verif.Model.Utils
import Mathlib.LinearAlgebra.Matrix.PosDef
import Mathlib.LinearAlgebra.Matrix.NonsingularInverse

/-!
# Contracts of external code, used as hypotheses by the exact-arithmetic theorems

Each is what the documentation of the external routine promises when arithmetic is exact. They are shown
satisfiable in `Verif/Lemmas/ContractsSat.lean`.
-/

namespace PW

/-- `std::uniform_real_distribution<>(0, 1)` returns values in `[0, 1]`. -/
def Rng.UnitDraws (r : Rng ℝ) : Prop := ∀ g, 0 ≤ (r.uniform g).1 ∧ (r.uniform g).1 ≤ 1

/-- `L` is a Cholesky factor of `M`: lower triangular, positive diagonal, `L Lᵀ = M`. -/
structure IsCholesky {n : ℕ} (L M : Matrix (Fin n) (Fin n) ℝ) : Prop where
  lower : ∀ i j, i < j → L i j = 0
  diag_pos : ∀ i, 0 < L i i
  mul_eq : L * L.transpose = M

/-- `LLT`: the Cholesky factor of a symmetric positive definite matrix. -/
def Eigen.LltExact (E : Eigen ℝ) : Prop :=
  ∀ {n : ℕ} (M : Matrix (Fin n) (Fin n) ℝ), M.PosDef → IsCholesky (E.lltL M) M

/-- `FullPivLU::solve` on a nonsingular matrix. -/
def Eigen.LuExact (E : Eigen ℝ) : Prop :=
  ∀ {n : ℕ} (M : Matrix (Fin n) (Fin n) ℝ) (v : Fin n → ℝ), IsUnit M.det →
    M.mulVec (E.luSolve M v) = v

/-- `inverse()` of a nonsingular matrix. -/
def Eigen.InvExact (E : Eigen ℝ) : Prop :=
  ∀ {n : ℕ} (M : Matrix (Fin n) (Fin n) ℝ), IsUnit M.det → E.inv M = M⁻¹

/-- `SparseLU::solve` on a nonsingular matrix. -/
def Eigen.SparseLUExact (E : Eigen ℝ) : Prop :=
  ∀ {n : ℕ} (M : Matrix (Fin n) (Fin n) ℝ) (v : Fin n → ℝ), IsUnit M.det →
    M.mulVec (E.sparseLUSolve M v) = v

/-- `SimplicialLLT::solve` on a symmetric positive definite matrix. -/
def Eigen.SparseLLTSolveExact (E : Eigen ℝ) : Prop :=
  ∀ {n : ℕ} (M : Matrix (Fin n) (Fin n) ℝ) (v : Fin n → ℝ), M.PosDef →
    M.mulVec (E.sparseLLTSolve M v) = v

/-- `SimplicialLLT::matrixL`: the Cholesky factor of some symmetric permutation of the matrix (the fill-in
reducing ordering). -/
def Eigen.SparseLLTLExact (E : Eigen ℝ) : Prop :=
  ∀ {n : ℕ} (M : Matrix (Fin n) (Fin n) ℝ), M.PosDef →
    ∃ p : Equiv.Perm (Fin n), IsCholesky (E.sparseLLTL M) (M.submatrix p p)

/-- `f` is an `L D Lᵀ` factorisation of `M` whose stored pattern is closed under elimination. -/
structure IsLDLT {m : ℕ} (f : LDLT ℝ m) (M : Matrix (Fin m) (Fin m) ℝ) (pat : Fin m → Fin m → Bool) :
    Prop where
  /-- unit diagonal -/
  diag_one : ∀ i, f.L i i = 1
  /-- lower triangular -/
  lower : ∀ i j, i < j → f.L i j = 0
  /-- non-zero pivots -/
  D_ne : ∀ i, f.D i ≠ 0
  /-- the factorisation -/
  mul_eq : f.L * Matrix.diagonal f.D * f.L.transpose = M
  /-- only the lower triangle is stored -/
  pat_lower : ∀ i j, f.pat i j = true → j ≤ i
  /-- the diagonal is stored -/
  pat_diag : ∀ i, f.pat i i = true
  /-- entries that are not stored are zero -/
  pat_L : ∀ i j, f.pat i j = false → f.L i j = 0
  /-- the lower triangle of the argument's pattern is contained in the factor's -/
  pat_sup : ∀ i j, j ≤ i → pat i j = true → f.pat i j = true
  /-- elimination of column `l` fills in `(i, j)` -/
  pat_fill : ∀ i j l, l < j → j ≤ i → f.pat i l = true → f.pat j l = true → f.pat i j = true

/-- `SimplicialLDLT` with the natural ordering on a symmetric positive definite matrix, given a pattern
that covers its non-zero entries. -/
def Eigen.LdltExact (E : Eigen ℝ) : Prop :=
  ∀ {m : ℕ} (M : Matrix (Fin m) (Fin m) ℝ) (pat : Fin m → Fin m → Bool), M.PosDef →
    (∀ i j, M i j ≠ 0 → pat i j = true) → IsLDLT (E.ldlt M pat) M pat

/-- All of Eigen's square solvers and factorisations used by the walks. -/
structure Eigen.Exact (E : Eigen ℝ) : Prop where
  llt : E.LltExact
  lu : E.LuExact
  inv : E.InvExact
  sparseLU : E.SparseLUExact
  sparseLLTSolve : E.SparseLLTSolveExact
  sparseLLTL : E.SparseLLTLExact
  ldlt : E.LdltExact

end PW
