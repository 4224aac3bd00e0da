import Mathlib.Analysis.Real.Sqrt
import Mathlib.Analysis.SpecialFunctions.Log.Base
import Mathlib.Analysis.SpecialFunctions.Pow.Real
import Mathlib.Data.Matrix.Mul
import Verif.Model.Out

/-!
# Arithmetic and the small part of Eigen that the code uses element-wise

`Scalar F` collects the operations of `double` the code uses, **without any law**. The code is
modelled over an arbitrary `Scalar F`; `Float` (IEEE binary64) and `ℝ` are instances.
-/

namespace PW

/-- Operations of `double` used by `/repo/src`. No laws are assumed. -/
class Scalar (F : Type) extends Add F, Sub F, Mul F, Div F, Neg F, Zero F, One F where
  /-- conversion of an integer (`int`, `Index`) to `double` -/
  ofInt : Int → F
  /-- `std::sqrt` -/
  sqrt : F → F
  /-- `std::exp` -/
  exp : F → F
  /-- `std::log` -/
  log : F → F
  /-- `std::log2` -/
  log2 : F → F
  /-- `std::pow` / `array().pow` -/
  pow : F → F → F
  /-- `std::abs` / `cwiseAbs` -/
  abs : F → F
  /-- `a < b` -/
  lt : F → F → Bool
  /-- `a <= b` -/
  le : F → F → Bool
  /-- `a == b` -/
  eq : F → F → Bool

/-- Exact real arithmetic (the idealisation used for the mathematical properties). -/
@[reducible] noncomputable instance instScalarReal : Scalar ℝ where
  ofInt z := (z : ℝ)
  sqrt := Real.sqrt
  exp := Real.exp
  log := Real.log
  log2 := Real.logb 2
  pow a b := a ^ b
  abs a := |a|
  lt a b := decide (a < b)
  le a b := decide (a ≤ b)
  eq a b := decide (a = b)

/-- IEEE binary64, as implemented by Lean's `Float`: the arithmetic the code really uses. -/
instance instScalarFloat : Scalar Float where
  zero := 0.0
  one := 1.0
  ofInt := Float.ofInt
  sqrt := Float.sqrt
  exp := Float.exp
  log := Float.log
  log2 := Float.log2
  pow := Float.pow
  abs := Float.abs
  lt a b := decide (a < b)
  le a b := decide (a ≤ b)
  eq a b := a == b

section
variable {F : Type} [Scalar F]

/-- `std::min(a, b)`: returns `b` if `b < a`, else `a`. -/
def cmin (a b : F) : F := if Scalar.lt b a then b else a

/-- `std::max(a, b)` and Eigen's coefficient-wise maximum: returns `b` if `a < b`, else `a`. -/
def cmax (a b : F) : F := if Scalar.lt a b then b else a

/-- literal `2.0` / `2` -/
def two : F := Scalar.ofInt 2
/-- literal `0.5` -/
def half : F := 1 / Scalar.ofInt 2

/-- Sum of the coefficients of a vector. Eigen's summation order is unspecified; the model sums from
index 0 upwards. -/
def vsum {n : ℕ} (v : Fin n → F) : F := (List.finRange n).foldl (fun s i => s + v i) 0

/-- Inner product. -/
def vdot {n : ℕ} (v w : Fin n → F) : F := vsum fun i => v i * w i

/-- `A * x`. -/
def mulVec {m n : ℕ} (A : Matrix (Fin m) (Fin n) F) (x : Fin n → F) : Fin m → F :=
  fun i => vsum fun j => A i j * x j

/-- `A * B`. -/
def mulMat {m n l : ℕ} (A : Matrix (Fin m) (Fin n) F) (B : Matrix (Fin n) (Fin l) F) :
    Matrix (Fin m) (Fin l) F :=
  fun i j => vsum fun t => A i t * B t j

/-- `A.transpose()`. -/
def transp {m n : ℕ} (A : Matrix (Fin m) (Fin n) F) : Matrix (Fin n) (Fin m) F := fun i j => A j i

/-- `v.norm()`. -/
def norm2 {n : ℕ} (v : Fin n → F) : F := Scalar.sqrt (vsum fun i => v i * v i)

/-- `v.maxCoeff()`; an empty vector is an assertion failure. (With NaN entries Eigen's result is
unspecified; the model folds with `cmax`.) -/
def maxCoeff : {n : ℕ} → (Fin n → F) → Out F
  | 0, _ => .ub .emptyReduction
  | n + 1, v => .ok ((List.finRange n).foldl (fun s i => cmax s (v i.succ)) (v 0))

/-- `v.minCoeff()`; an empty vector is an assertion failure. -/
def minCoeff : {n : ℕ} → (Fin n → F) → Out F
  | 0, _ => .ub .emptyReduction
  | n + 1, v => .ok ((List.finRange n).foldl (fun s i => cmin s (v i.succ)) (v 0))

end

/-- A dynamically sized vector (`VectorXd`). -/
structure DVec (F : Type) where
  /-- `rows()` -/
  n : ℕ
  /-- coefficients -/
  val : Fin n → F

/-- A dynamically sized matrix (`MatrixXd` or `SparseMatrix<double>`). -/
structure DMat (F : Type) where
  /-- `rows()` -/
  r : ℕ
  /-- `cols()` -/
  c : ℕ
  /-- coefficients -/
  val : Matrix (Fin r) (Fin c) F

/-- View a dynamically sized vector at a known size. -/
def DVec.at {F : Type} (v : DVec F) {n : ℕ} (h : v.n = n) : Fin n → F := fun i => v.val (i.cast h.symm)

end PW
