import Verif.Spec.RoundingOps
import Verif.Model.Sparse

/-!
# Specification: the random directions of sparse Hit-and-Run in floating point
-/

namespace PW
open Finset

/-- The random numbers of one iteration of sparse Hit-and-Run: the Gaussian vector, after the computed projection on the kernel of `A`, is
finite, its norm neither underflows nor overflows, and its residual `A v` (in exact arithmetic; `α` is the value of `A`) is at most `η |v|`;
the uniform number is in `[0, 1]`. -/
structure Rng.KernelDrawsOk {F : Type} [Scalar F] {m n : ℕ} (r : Rng F) (E : Eigen F) (A : Matrix (Fin m) (Fin n) F) (α : Fin m → Fin n → ℝ)
    (ext : F → Option EReal) (u θ Ω η : ℝ) (g : r.G) : Prop where
  direction : ∃ v : Fin n → ℝ, HasValues ext (kernelProject E A (r.gaussian n g).1) v ∧ 0 < ∑ j, v j ^ 2 ∧ n * θ ≤ u * ∑ j, v j ^ 2 ∧
    2 * ∑ j, v j ^ 2 ≤ Ω ∧ ∀ i, |∑ j, α i j * v j| ≤ η * Real.sqrt (∑ j, v j ^ 2)
  uniform : ∃ y : ℝ, ext (r.uniform (r.gaussian n g).2).1 = some (y : EReal) ∧ 0 ≤ y ∧ y ≤ 1

end PW
