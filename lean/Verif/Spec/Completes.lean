import Verif.Spec.Walks

/-! # Specification: the arguments on which a Ball or barrier walk is expected to return -/

namespace PW
variable {F : Type} [Scalar F]

/-- The Ball and barrier walks of the library together with what they need of the dimensions: at least one
constraint (dense) or nothing beyond a valid `k` (sparse); John divides by the number of columns; Vaidya multiplies the two dimensions
as `int`; the sparse John and Lee-Sidford walks need `A.cols() > A.rows()`. -/
inductive Walk.NeedsMet (a : Args F) : Walk F → Prop
  | ball (R) : 1 ≤ a.A.r → NeedsMet a (.ball R)
  | dikin (R E o) : 1 ≤ a.A.r → NeedsMet a (.barrier (dikinClass R) E o)
  | vaidya (R E o) : 1 ≤ a.A.r → IsInt ((a.A.c : Int) * a.A.r) → NeedsMet a (.barrier (vaidyaClass E R) E o)
  | john (R LIM MAXITER E o) : 1 ≤ a.A.r → 1 ≤ a.A.c →
      NeedsMet a (.barrier (johnClass E R LIM MAXITER) E o)
  | dikinLS (R GLIM STEP MAXITER E o) : 1 ≤ a.A.r →
      NeedsMet a (.barrier (dikinLSClass E R GLIM STEP MAXITER) E o)
  | sparseBall (R E) : NeedsMet a (.sparseBall R E)
  | sparseDikin (R ERR E o) : NeedsMet a (.sparseBarrier (sparseDikinClass R) ERR E o)
  | sparseVaidya (R ERR E o) : IsInt (a.k * ((a.A.c : Int) - a.A.r)) →
      NeedsMet a (.sparseBarrier (sparseVaidyaClass E ERR R) ERR E o)
  | sparseJohn (R ERR LIM MAXITER E o) : a.A.r < a.A.c →
      NeedsMet a (.sparseBarrier (sparseJohnClass E ERR R LIM MAXITER) ERR E o)
  | sparseDikinLS (R ERR GLIM STEP MAXITER E o) : a.A.r < a.A.c →
      NeedsMet a (.sparseBarrier (sparseDikinLSClass E ERR R GLIM STEP MAXITER) ERR E o)

end PW
