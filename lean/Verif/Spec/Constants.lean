import Verif.Model.Sparse
import Mathlib.Analysis.SpecialFunctions.Pow.Real
import Verif.Model.Scalar
import Verif.Lemmas.Real

/-! # Specification: the documented step constants (README, section on the walks) -/

namespace PW

/-- `q = 2 (1 + ln n)`. -/
noncomputable def qOf (n : ℕ) : ℝ := 2 * (1 + Real.log n)

/-- The documented step constants for dimension `d` and `n` constraints. -/
noncomputable def dikinConst (R : ℝ) (d : ℕ) : ℝ := R ^ 2 / d
/-- `r² / √(n d)` -/
noncomputable def vaidyaConst (R : ℝ) (d n : ℕ) : ℝ := R ^ 2 / Real.sqrt (n * d)
/-- `r² / d^1.5` -/
noncomputable def johnConst (R : ℝ) (d : ℕ) : ℝ := R ^ 2 / (d : ℝ) ^ (3 / 2 : ℝ)
/-- `r² / ((1 + q)(1 + q²))` -/
noncomputable def lsConst (R : ℝ) (n : ℕ) : ℝ := R ^ 2 / ((1 + qOf n) * (1 + qOf n ^ 2))

/-- The documented step constant of each dense class in dimension `d` with `n` constraints. -/
inductive DocConst (E : Eigen ℝ) (d n : ℕ) : BarrierClass ℝ (BState ℝ) → ℝ → Prop
  | dikin (R) : DocConst E d n (dikinClass R) (dikinConst R d)
  | vaidya (R) : DocConst E d n (vaidyaClass E R) (vaidyaConst R d n)
  | john (R LIM M) : DocConst E d n (johnClass E R LIM M) (johnConst R d)
  | leeSidford (R GLIM STEP M) : DocConst E d n (dikinLSClass E R GLIM STEP M) (lsConst R n)

/-- The documented step constant of each sparse class in dimension `d` with `n` constraints. -/
inductive SparseDocConst (E : Eigen ℝ) (ERR : ℝ) (d n : ℕ) : SparseBarrierClass ℝ (BState ℝ) → ℝ → Prop
  | dikin (R) : SparseDocConst E ERR d n (sparseDikinClass R) (dikinConst R d)
  | vaidya (R) : SparseDocConst E ERR d n (sparseVaidyaClass E ERR R) (vaidyaConst R d n)
  | john (R LIM M) : SparseDocConst E ERR d n (sparseJohnClass E ERR R LIM M) (johnConst R d)
  | leeSidford (R GLIM STEP M) : SparseDocConst E ERR d n (sparseDikinLSClass E ERR R GLIM STEP M) (lsConst R n)

end PW
