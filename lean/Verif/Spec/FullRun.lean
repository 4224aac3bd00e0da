import Verif.Spec.Walks
import Verif.Spec.Polytope

/-! # Specification: walks that stay in the polytope they are given -/

namespace PW
open Matrix

/-- Started in `{x | A x ≤ b}` with sane integers, the walk returns only points of it. -/
def DenseWalk.StaysInside (walk : DenseWalk ℝ) : Prop :=
  ∀ (niter burnin thin seed : Int) (A : DMat ℝ) (b : Fin A.r → ℝ) (x : Fin A.c → ℝ) (S : Samples ℝ),
    SaneInts niter burnin thin → x ∈ Poly A.val b →
    walk niter ⟨A.c, x⟩ A ⟨A.r, b⟩ burnin thin seed = .ok S →
    ∃ h : A.c = S.c, ∀ row ∈ S.rows, row ∘ Fin.cast h ∈ Poly A.val b

/-- Started in `{x | A x = b, last k coordinates ≥ 0}`, the rows of `A` being independent, with sane
integers, the walk returns only points of it. -/
def SparseWalk.StaysInside (walk : SparseWalk ℝ) : Prop :=
  ∀ (niter burnin thin seed : Int) (A : DMat ℝ) (b : Fin A.r → ℝ) (k : Int) (x : Fin A.c → ℝ)
    (S : Samples ℝ),
    SaneInts niter burnin thin → 1 ≤ k → k ≤ A.c → IndepRows A.val → x ∈ PolyEq A.val b k.toNat →
    walk niter ⟨A.c, x⟩ A ⟨A.r, b⟩ k burnin thin seed = .ok S →
    ∃ h : A.c = S.c, ∀ row ∈ S.rows, row ∘ Fin.cast h ∈ PolyEq A.val b k.toNat

/-- Whatever the right hand side, the walk returns only points with the same value of `A x` as its initial point, and keeps the last `k`
coordinates non-negative. -/
def SparseWalk.KeepsFibre (walk : SparseWalk ℝ) : Prop :=
  ∀ (niter burnin thin seed : Int) (A : DMat ℝ) (b : Fin A.r → ℝ) (k : Int) (x : Fin A.c → ℝ)
    (S : Samples ℝ),
    SaneInts niter burnin thin → 1 ≤ k → k ≤ A.c → IndepRows A.val → x ∈ TailNonneg A.c k.toNat →
    walk niter ⟨A.c, x⟩ A ⟨A.r, b⟩ k burnin thin seed = .ok S →
    ∃ h : A.c = S.c, ∀ row ∈ S.rows, A.val *ᵥ (row ∘ Fin.cast h) = A.val *ᵥ x ∧ row ∘ Fin.cast h ∈ TailNonneg A.c k.toNat

end PW
