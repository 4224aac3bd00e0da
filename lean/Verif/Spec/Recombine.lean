import Verif.Spec.Polytope
import Verif.Spec.Stationary
import Mathlib.LinearAlgebra.Matrix.Determinant.Basic

/-!
# Specification: two descriptions of the same constrained polytope
-/

namespace PW
variable {m n : ℕ}

/-- The equations `A' y = b'` are those of `A x = b`, combined by the invertible matrix `M`, with coordinate `j` measured in
units that make it `δ j` times as large: `A' diag(δ) = M A`. -/
structure Recombined (M : Matrix (Fin m) (Fin m) ℝ) (δ : Fin n → ℝ) (A A' : Matrix (Fin m) (Fin n) ℝ) : Prop where
  det : M.det ≠ 0
  pos : ∀ j, 0 < δ j
  mat : ∀ i j, A' i j * δ j = ∑ l, M i l * A l j

/-- The last `k` coordinates are not moved. -/
def TailZero (k : ℕ) (v : Fin n → ℝ) : Prop := ∀ i : Fin n, n - k ≤ i.val → v i = 0

/-- No proposal of the call lands exactly on the boundary: every point the walk proposes has its last `k` coordinates all
positive, or one of them negative. (An ideal generator makes this almost sure.) -/
def AvoidsBoundary (cls : SparseBarrierClass ℝ (BState ℝ)) (ERR : ℝ) (E : Eigen ℝ) (o : BState ℝ) (e : Env ℝ)
    (A : Matrix (Fin m) (Fin n) ℝ) (x : Fin n → ℝ) (k seed : Int) : Prop :=
  ∀ o', cls.setDistTerm o ((n : Int) - m) k = .ok o' → ∀ (t : ℕ) (s : (Fin n → ℝ) × BState ℝ × e.r.G),
    iter (SparseBarrier.step cls ERR E e.r (e.junk n) A k.toNat) t (x, o', e.r.initRng seed e.rd) = .ok s →
    ∀ z og, SparseBarrier.generateSample cls ERR E e.r (e.junk n) A k.toNat s.1 s.2.1 s.2.2 = .ok (z, og) →
      z ∈ TailPos n k.toNat ∨ z ∉ TailNonneg n k.toNat

end PW
