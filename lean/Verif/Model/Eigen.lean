import Verif.Model.Scalar

/-!
# Eigen's matrix decompositions (external code)

Decompositions are parameters of the model; `Verif/Spec/Contracts.lean` states what the exact-arithmetic
theorems assume about them.
-/

namespace PW

/-- Result of `SimplicialLDLT` with natural ordering: unit lower factor, its stored pattern, diagonal.
Used in src/sparse/LeverageScore.cpp:24-28. -/
structure LDLT (F : Type) (m : ℕ) where
  /-- `matrixL()` as a sparse matrix (unit diagonal stored) -/
  L : Matrix (Fin m) (Fin m) F
  /-- which entries of `L` are stored -/
  pat : Fin m → Fin m → Bool
  /-- `vectorD()` -/
  D : Fin m → F

/-- Result of a (Householder or sparse) QR decomposition of a `d × n` matrix `M`. -/
structure QR (F : Type) (d n : ℕ) where
  /-- `householderQ()` -/
  Q : Matrix (Fin d) (Fin d) F
  /-- `matrixR()` / upper triangle of `matrixQR()` -/
  R : Matrix (Fin d) (Fin n) F
  /-- `colsPermutation().indices()` (identity for `HouseholderQR`) -/
  perm : Fin n → Fin n

/-- The decompositions of Eigen used by the code. -/
structure Eigen (F : Type) where
  /-- `LLT<MatrixXd>(M).matrixL()`; src/dense/BarrierWalk.cpp:43-44, 58-59 -/
  lltL : {n : ℕ} → Matrix (Fin n) (Fin n) F → Matrix (Fin n) (Fin n) F
  /-- `FullPivLU<MatrixXd>(M).solve(v)`; src/dense/BarrierWalk.cpp:45-47 -/
  luSolve : {n : ℕ} → Matrix (Fin n) (Fin n) F → (Fin n → F) → Fin n → F
  /-- `M.inverse()`; src/dense/VaidyaWalk.cpp:13, JohnWalk.cpp:34, DikinLSWalk.cpp:40 -/
  inv : {n : ℕ} → Matrix (Fin n) (Fin n) F → Matrix (Fin n) (Fin n) F
  /-- `SparseLU(M).solve(v)`; src/sparse/SparseBallWalk.cpp:22,33, SparseHitRun.cpp:64,69,
  SparseBarrierWalk.cpp:86,119 -/
  sparseLUSolve : {n : ℕ} → Matrix (Fin n) (Fin n) F → (Fin n → F) → Fin n → F
  /-- `SimplicialLLT(M).solve(v)`; src/sparse/SparseBarrierWalk.cpp:43-49 -/
  sparseLLTSolve : {n : ℕ} → Matrix (Fin n) (Fin n) F → (Fin n → F) → Fin n → F
  /-- `SimplicialLLT(M).matrixL()` (factor of a symmetrically permuted `M`);
  src/sparse/SparseBarrierWalk.cpp:73-78 -/
  sparseLLTL : {n : ℕ} → Matrix (Fin n) (Fin n) F → Matrix (Fin n) (Fin n) F
  /-- `SimplicialLDLT` with natural ordering, given the stored pattern of the argument;
  src/sparse/LeverageScore.cpp:24-28 -/
  ldlt : {m : ℕ} → Matrix (Fin m) (Fin m) F → (Fin m → Fin m → Bool) → LDLT F m
  /-- `SparseQR`; src/utils/FacialReduction.cpp:111-113 -/
  sparseQR : {d n : ℕ} → Matrix (Fin d) (Fin n) F → QR F d n
  /-- `HouseholderQR`; src/utils/FacialReduction.cpp:173-176 -/
  householderQR : {d n : ℕ} → Matrix (Fin d) (Fin n) F → QR F d n

end PW
