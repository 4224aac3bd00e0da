import Verif.Model.Api
import Verif.Spec.Chain

/-!
# Specification vocabulary for the walk API
-/

namespace PW
variable {F : Type} [Scalar F]

/-- The dimensions of `init`, `A`, `b` agree. -/
def Args.DimsOk (a : Args F) : Prop := a.init.n = a.A.c ∧ a.A.r = a.b.n

/-- `k` is in the documented range `1 … A.cols()`. -/
def Args.KOk (a : Args F) : Prop := 1 ≤ a.k ∧ a.k ≤ a.A.c

instance (a : Args F) : Decidable a.DimsOk := inferInstanceAs (Decidable (_ ∧ _))
instance (a : Args F) : Decidable a.KOk := inferInstanceAs (Decidable (_ ∧ _))

/-- `init` as a vector of length `A.cols()`. -/
def Args.x0 (a : Args F) (h : a.DimsOk) : Fin a.A.c → F := a.init.at h.1

/-- `b` as a vector of length `A.rows()`. -/
def Args.rhs (a : Args F) (h : a.DimsOk) : Fin a.A.r → F := a.b.at h.2.symm

/-- The state of the chain of walk `w` after `t` iterations from `init`: no recording involved. -/
def Walk.chain (w : Walk F) (e : Env F) (a : Args F) (h : a.DimsOk) (t : ℕ) : Out (w.State e a.A.c) :=
  (w.start e a.A.r (a.x0 h) a.k a.seed).bind (iter (w.step e a.A.val (a.rhs h) a.k) t)

/-- `x` is the position of the chain after exactly `t` steps. -/
def Walk.PosAt (w : Walk F) (e : Env F) (a : Args F) (h : a.DimsOk) (t : ℕ) (x : Fin a.A.c → F) : Prop :=
  ∃ st, w.chain e a h t = .ok st ∧ w.pos e st = x

/-- The walk classes shipped with the library, with arbitrary constructor parameters and arbitrary current
member values `o`. -/
inductive Walk.Library : Walk F → Prop
  | ball (R) : Library (.ball R)
  | hitRun (R ERR) : Library (.hitRun R ERR)
  | barrier (R E o) : Library (.barrier (barrierClass R) E o)
  | dikin (R E o) : Library (.barrier (dikinClass R) E o)
  | vaidya (R E o) : Library (.barrier (vaidyaClass E R) E o)
  | john (R LIM MAXITER E o) : Library (.barrier (johnClass E R LIM MAXITER) E o)
  | dikinLS (R GLIM STEP MAXITER E o) : Library (.barrier (dikinLSClass E R GLIM STEP MAXITER) E o)
  | sparseBall (R E) : Library (.sparseBall R E)
  | sparseHitRun (R ERR E) : Library (.sparseHitRun R ERR E)
  | sparseBarrier (ERR E o) : Library (.sparseBarrier sparseBarrierClass ERR E o)
  | sparseDikin (R ERR E o) : Library (.sparseBarrier (sparseDikinClass R) ERR E o)
  | sparseVaidya (R ERR E o) : Library (.sparseBarrier (sparseVaidyaClass E ERR R) ERR E o)
  | sparseJohn (R ERR LIM MAXITER E o) :
      Library (.sparseBarrier (sparseJohnClass E ERR R LIM MAXITER) ERR E o)
  | sparseDikinLS (R ERR GLIM STEP MAXITER E o) :
      Library (.sparseBarrier (sparseDikinLSClass E ERR R GLIM STEP MAXITER) ERR E o)

/-- `w` and `w'` are the same library walk (same class, same constructor parameters), possibly with
different member values left behind by earlier calls (uninitialised ones included). -/
inductive Walk.SameWalk : Walk F → Walk F → Prop
  | ball (R) : SameWalk (.ball R) (.ball R)
  | hitRun (R ERR) : SameWalk (.hitRun R ERR) (.hitRun R ERR)
  | barrier (R E o o') : SameWalk (.barrier (barrierClass R) E o) (.barrier (barrierClass R) E o')
  | dikin (R E o o') : SameWalk (.barrier (dikinClass R) E o) (.barrier (dikinClass R) E o')
  | vaidya (R E o o') : SameWalk (.barrier (vaidyaClass E R) E o) (.barrier (vaidyaClass E R) E o')
  | john (R LIM MAXITER E o o') :
      SameWalk (.barrier (johnClass E R LIM MAXITER) E o) (.barrier (johnClass E R LIM MAXITER) E o')
  | dikinLS (R GLIM STEP MAXITER E o o') :
      SameWalk (.barrier (dikinLSClass E R GLIM STEP MAXITER) E o)
        (.barrier (dikinLSClass E R GLIM STEP MAXITER) E o')
  | sparseBall (R E) : SameWalk (.sparseBall R E) (.sparseBall R E)
  | sparseHitRun (R ERR E) : SameWalk (.sparseHitRun R ERR E) (.sparseHitRun R ERR E)
  | sparseBarrier (ERR E o o') :
      SameWalk (.sparseBarrier sparseBarrierClass ERR E o) (.sparseBarrier sparseBarrierClass ERR E o')
  | sparseDikin (R ERR E o o') :
      SameWalk (.sparseBarrier (sparseDikinClass R) ERR E o)
        (.sparseBarrier (sparseDikinClass R) ERR E o')
  | sparseVaidya (R ERR E o o') :
      SameWalk (.sparseBarrier (sparseVaidyaClass E ERR R) ERR E o)
        (.sparseBarrier (sparseVaidyaClass E ERR R) ERR E o')
  | sparseJohn (R ERR LIM MAXITER E o o') :
      SameWalk (.sparseBarrier (sparseJohnClass E ERR R LIM MAXITER) ERR E o)
        (.sparseBarrier (sparseJohnClass E ERR R LIM MAXITER) ERR E o')
  | sparseDikinLS (R ERR GLIM STEP MAXITER E o o') :
      SameWalk (.sparseBarrier (sparseDikinLSClass E ERR R GLIM STEP MAXITER) ERR E o)
        (.sparseBarrier (sparseDikinLSClass E ERR R GLIM STEP MAXITER) ERR E o')

end PW

namespace PW
variable {F : Type} [Scalar F]

/-- A Ball walk or any barrier walk (dense). -/
inductive Walk.DenseMH : Walk F → Prop
  | ball (R) : DenseMH (.ball R)
  | barrier {σ : Type} (cls : BarrierClass F σ) (E o) : DenseMH (.barrier cls E o)

/-- A sparse Ball walk or any sparse barrier walk. -/
inductive Walk.SparseMH : Walk F → Prop
  | ball (R E) : SparseMH (.sparseBall R E)
  | barrier {σ : Type} (cls : SparseBarrierClass F σ) (ERR E o) : SparseMH (.sparseBarrier cls ERR E o)

end PW
