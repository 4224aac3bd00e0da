import Verif.Model.Utils

/-!
# The public walk API in one place

A `Walk` is a constructed walk object of any class (the barrier constructors take an arbitrary record of
virtual functions, so they cover `DikinWalk`, `VaidyaWalk`, `JohnWalk`, `DikinLSWalk`, their sparse
counterparts and user subclasses).
-/

namespace PW

/-- A walk object. `o` is the current state of the object's members.
src/dense/{BallWalk,HitRun,BarrierWalk}.hpp, src/sparse/{SparseBallWalk,SparseHitRun,SparseBarrierWalk}.hpp. -/
inductive Walk (F : Type) : Type 1
  /-- `BallWalk(r)` -/
  | ball (R : F)
  /-- `HitAndRun(r, err)` -/
  | hitRun (R ERR : F)
  /-- any `BarrierWalk` subclass -/
  | barrier {σ : Type} (cls : BarrierClass F σ) (E : Eigen F) (o : σ)
  /-- `SparseBallWalk(r)` -/
  | sparseBall (R : F) (E : Eigen F)
  /-- `SparseHitAndRun(r, err)` -/
  | sparseHitRun (R ERR : F) (E : Eigen F)
  /-- any `SparseBarrierWalk` subclass, `ERR` its `err` parameter -/
  | sparseBarrier {σ : Type} (cls : SparseBarrierClass F σ) (ERR : F) (E : Eigen F) (o : σ)

/-- Arguments of `generateCompleteWalk` (`k` is only a parameter of the sparse walks).
src/dense/RandomWalk.hpp:25-26, src/sparse/SparseRandomWalk.hpp:26-35. -/
structure Args (F : Type) where
  /-- `niter` -/
  niter : Int
  /-- `init` -/
  init : DVec F
  /-- `A` -/
  A : DMat F
  /-- `b` -/
  b : DVec F
  /-- `k` (sparse walks) -/
  k : Int
  /-- `burnin` -/
  burnin : Int
  /-- `thin` -/
  thin : Int
  /-- `seed` -/
  seed : Int

/-- What the environment supplies to a call: the random library, the entropy word of
`std::random_device`, the content of uninitialised memory, and the fuel of the model's loops. -/
structure Env (F : Type) where
  /-- random library -/
  r : Rng F
  /-- entropy word -/
  rd : BitVec 32
  /-- uninitialised memory -/
  junk : (n : ℕ) → Fin n → F
  /-- fuel for each chord search loop -/
  fuel : ℕ

variable {F : Type} [Scalar F]

/-- Is it one of the sparse classes? -/
def Walk.isSparse : Walk F → Bool
  | .ball .. | .hitRun .. | .barrier .. => false
  | .sparseBall .. | .sparseHitRun .. | .sparseBarrier .. => true

/-- `generateCompleteWalk` by dynamic dispatch (the `generateCompleteWalk` definitions of
`Verif/Model/Dense.lean` and `Verif/Model/Sparse.lean`, see there for the citations). -/
def Walk.run (w : Walk F) (e : Env F) (a : Args F) : Out (List (Fin a.A.c → F)) :=
  match w with
  | .ball R => BallWalk.generateCompleteWalk R e.r a.niter a.init a.A a.b a.burnin a.thin a.seed e.rd
  | .hitRun R ERR =>
    HitRun.generateCompleteWalk R ERR e.fuel e.r a.niter a.init a.A a.b a.burnin a.thin a.seed e.rd
  | .barrier cls E o =>
    (BarrierWalk.generateCompleteWalk cls E e.r o a.niter a.init a.A a.b a.burnin a.thin a.seed
      e.rd).map Prod.fst
  | .sparseBall R E =>
    SparseBallWalk.generateCompleteWalk R E e.r a.niter a.init a.A a.b a.k a.burnin a.thin a.seed e.rd
  | .sparseHitRun R ERR E =>
    SparseHitRun.generateCompleteWalk R ERR e.fuel E e.r a.niter a.init a.A a.b a.k a.burnin a.thin
      a.seed e.rd
  | .sparseBarrier cls ERR E o =>
    (SparseBarrier.generateCompleteWalk cls ERR E e.r o a.niter a.init a.A a.b a.k a.burnin a.thin
      a.seed e.rd (e.junk _)).map Prod.fst

/-- A dense walk object behind a `RandomWalk*`, as `denseFullWalkRun` calls it.
src/utils/FullWalkRun.hpp:32, 39. -/
def Walk.toDense (w : Walk F) (e : Env F) : DenseWalk F := fun niter init A b burnin thin seed =>
  (w.run e ⟨niter, init, A, b, 0, burnin, thin, seed⟩).map fun rows => ⟨A.c, rows⟩

/-- A sparse walk object behind a `SparseRandomWalk*`, as `sparseFullWalkRun` calls it.
src/utils/FullWalkRun.hpp:64, 72. -/
def Walk.toSparse (w : Walk F) (e : Env F) : SparseWalk F := fun niter init A b k burnin thin seed =>
  (w.run e ⟨niter, init, A, b, k, burnin, thin, seed⟩).map fun rows => ⟨A.c, rows⟩

/-- The state a walk carries from one iteration to the next: the position, the object's members (barrier
walks) and the generator. -/
def Walk.State (w : Walk F) (e : Env F) (n : ℕ) : Type :=
  match w with
  | .ball _ | .hitRun .. | .sparseBall .. | .sparseHitRun .. => (Fin n → F) × e.r.G
  | .barrier (σ := σ) .. | .sparseBarrier (σ := σ) .. => (Fin n → F) × σ × e.r.G

/-- The position component. -/
def Walk.pos (w : Walk F) (e : Env F) {n : ℕ} : w.State e n → Fin n → F :=
  match w with
  | .ball _ | .hitRun .. | .sparseBall .. | .sparseHitRun .. | .barrier .. | .sparseBarrier .. =>
    fun s => s.1

/-- One iteration of the walk's loop (the `step` definitions of `Verif/Model/Dense.lean` and
`Verif/Model/Sparse.lean`). -/
def Walk.step (w : Walk F) (e : Env F) {m n : ℕ} (A : Matrix (Fin m) (Fin n) F) (b : Fin m → F)
    (k : Int) : w.State e n → Out (w.State e n) :=
  match w with
  | .ball R => BallWalk.step R e.r A b
  | .hitRun R ERR => HitRun.step R ERR e.fuel e.r A b
  | .barrier cls E _ => BarrierWalk.step cls E e.r A b
  | .sparseBall R E => SparseBallWalk.step R E e.r A k.toNat
  | .sparseHitRun R ERR E => SparseHitRun.step R ERR e.fuel E e.r A k.toNat
  | .sparseBarrier cls ERR E _ => SparseBarrier.step cls ERR E e.r (e.junk n) A k.toNat

/-- The state before the first iteration (generator seeded, `setDistTerm` called for barrier walks:
src/dense/BarrierWalk.cpp:82, src/sparse/SparseBarrierWalk.cpp:117; the model calls it before computing `total_samples`, the code
just after; neither has side effects on the other). -/
def Walk.start (w : Walk F) (e : Env F) {n : ℕ} (m : ℕ) (x : Fin n → F) (k seed : Int) :
    Out (w.State e n) :=
  match w with
  | .ball _ | .hitRun .. | .sparseBall .. | .sparseHitRun .. => .ok (x, e.r.initRng seed e.rd)
  | .barrier cls _ o => (cls.setDistTerm o n m).bind fun o => .ok (x, o, e.r.initRng seed e.rd)
  | .sparseBarrier cls _ _ o =>
    (cls.setDistTerm o ((n : Int) - m) k).bind fun o => .ok (x, o, e.r.initRng seed e.rd)

end PW
