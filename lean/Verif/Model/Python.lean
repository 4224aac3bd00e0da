import Verif.Model.Ctor

/-!
# Subclasses written in Python

`pybind11/PybindExt.cpp` exports every walk class. A Python class statement can derive from an exported class and define methods; which of
them the C++ code sees is decided by the trampoline classes (lines 6-141): the exported class must have been registered with a trampoline
(`py::class_<C, Base, PyC>`), and the trampoline must redefine the virtual function. An object whose Python type is the exported class itself
is a plain C++ object (`py::init` builds the trampoline object only for proper subclasses).

Simplifications: what Python code does is a function of its arguments and of the attributes `π` of the Python object; an override may call
`super().generateWeight` at most once per call; an override does not call `generateCompleteWalk` of the object it is running in; NumPy conversions
are not modelled. `setDistTerm`, `DIST_TERM` and `R` are not exported, so Python code can neither call, read nor write them.
-/

namespace PW
variable {F : Type} [Scalar F]

/-- A method defined in Python with arguments `α` and result `β` that may first ask the inherited method (`super()`) for its result. -/
structure PyMethod (π α β : Type) where
  /-- is the inherited method called? -/
  callsSuper : π → α → Bool
  /-- the returned value and the new attributes (or an error), given the inherited result if it was asked for -/
  result : π → α → Option β → Out (β × π)

/-- Run a Python method; `base` is the inherited one, on the C++ members `σ` of the object. -/
def PyMethod.call {σ π α β : Type} (f : PyMethod π α β) (base : σ → α → Out (β × σ)) (o : σ × π) (x : α) : Out (β × σ × π) :=
  if f.callsSuper o.2 x then
    (base o.1 x).bind fun p => (f.result o.2 x (some p.1)).map fun q => (q.1, p.2, q.2)
  else (f.result o.2 x none).map fun q => (q.1, o.1, q.2)

/-- The methods a Python subclass of a dense walk class defines (`none`: not defined, inherited). -/
structure PyDense (F π : Type) where
  /-- `def generateCompleteWalk(self, niter, init, A, b, burnin, thin, seed)` -/
  generateCompleteWalk : Option (DenseWalk F)
  /-- `def generateWeight(self, x, A, b)` -/
  generateWeight : Option ((m n : ℕ) → PyMethod π ((Fin n → F) × Matrix (Fin m) (Fin n) F × (Fin m → F)) (DVec F))
  /-- `def setDistTerm(self, d, n)` -/
  setDistTerm : Option (π → Int → Int → Out π)

/-- The trampoline `PyBarrierWalk<C>` as a record of virtual functions over the C++ members and the Python attributes.
pybind11/PybindExt.cpp:25-59. -/
def PyBarrierWalk {σ π : Type} (cls : BarrierClass F σ) (s : PyDense F π) : BarrierClass F (σ × π) where
  setDistTerm o d n := match s.setDistTerm with
    | some f => (f o.2 d n).map fun p => (o.1, p)
    | none => (cls.setDistTerm o.1 d n).map fun o' => (o', o.2)
  distTerm o := cls.distTerm o.1
  generateWeight {m n} o x A b := match s.generateWeight with
    | some f => (f m n).call (fun o p => cls.generateWeight o p.1 p.2.1 p.2.2) o (x, A, b)
    | none => (cls.generateWeight o.1 x A b).map fun p => (p.1, p.2, o.2)

/-- The dense walk classes exported to Python, with an object of that class; those after `barrier` are registered with
`PyBarrierWalk<C>`. pybind11/PybindExt.cpp:260, 296, 310, 326, 387, 400, 413, 433. -/
inductive DenseNative (F : Type) : Type 1
  /-- `RandomWalk`, registered with `PyRandomWalk<>` -/
  | randomWalk
  /-- `BallWalk`, registered without a trampoline -/
  | ball (R : F)
  /-- `HitAndRun`, registered without a trampoline -/
  | hitRun (R ERR : F)
  /-- `BarrierWalk`, `DikinWalk`, `VaidyaWalk`, `DikinLSWalk`, `JohnWalk` -/
  | barrier {σ : Type} (cls : BarrierClass F σ) (E : Eigen F) (o : σ)

/-- The methods of the Python object: `none` if its type is the exported class itself; else a subclass with attributes `p`. -/
abbrev PyType (S : Type → Type) := Option (Σ π : Type, S π × π)

/-- `walk->generateCompleteWalk(..)` called by C++ code, e.g. `denseFullWalkRun`, on an object that Python created.
pybind11/PybindExt.cpp:6-59; `PYBIND11_OVERRIDE_PURE` raises an error if there is no override. -/
def DenseNative.virtualCall (c : DenseNative F) (t : PyType (PyDense F)) (e : Env F) : DenseWalk F :=
  match c, t with
  | .randomWalk, none => RandomWalk.generateCompleteWalk
  | .randomWalk, some s => match s.2.1.generateCompleteWalk with
    | some f => f
    | none => fun _ _ _ _ _ _ _ => .throws .pureVirtual
  | .ball R, _ => (Walk.ball R).toDense e
  | .hitRun R ERR, _ => (Walk.hitRun R ERR).toDense e
  | .barrier cls E o, none => (Walk.barrier cls E o).toDense e
  | .barrier cls E o, some s => match s.2.1.generateCompleteWalk with
    | some f => f
    | none => (Walk.barrier (PyBarrierWalk cls s.2.1) E (o, s.2.2)).toDense e

/-- `walk.generateCompleteWalk(..)` called by Python code: Python looks for a Python definition first; the exported method makes a virtual
call. pybind11/PybindExt.cpp:267, 358. -/
def DenseNative.pythonCall (c : DenseNative F) (t : PyType (PyDense F)) (e : Env F) : DenseWalk F :=
  match t with
  | some s => match s.2.1.generateCompleteWalk with
    | some f => f
    | none => c.virtualCall t e
  | none => c.virtualCall t e

/-- The methods a Python subclass of a sparse walk class defines. -/
structure PySparse (F π : Type) where
  /-- `def generateCompleteWalk(self, niter, init, A, b, k, burnin, thin, seed)` -/
  generateCompleteWalk : Option (SparseWalk F)
  /-- `def generateWeight(self, x, A, k)` -/
  generateWeight : Option ((m n : ℕ) → PyMethod π ((Fin n → F) × Matrix (Fin m) (Fin n) F × ℕ) (DVec F))
  /-- `def setDistTerm(self, d, n)` -/
  setDistTerm : Option (π → Int → Int → Out π)

/-- The trampoline `PySparseBarrierWalk<C>`. pybind11/PybindExt.cpp:93-141. -/
def PySparseBarrierWalk {σ π : Type} (cls : SparseBarrierClass F σ) (s : PySparse F π) : SparseBarrierClass F (σ × π) where
  setDistTerm o d n := match s.setDistTerm with
    | some f => (f o.2 d n).map fun p => (o.1, p)
    | none => (cls.setDistTerm o.1 d n).map fun o' => (o', o.2)
  distTerm o := cls.distTerm o.1
  generateWeight {m n} junk o x A k := match s.generateWeight with
    | some f => (f m n).call (fun o p => cls.generateWeight junk o p.1 p.2.1 p.2.2) o (x, A, k)
    | none => (cls.generateWeight junk o.1 x A k).map fun p => (p.1, p.2, o.2)

/-- The sparse walk classes exported to Python. pybind11/PybindExt.cpp:492, 535, 549, 565, 630, 645, 660, 680. -/
inductive SparseNative (F : Type) : Type 1
  /-- `SparseRandomWalk`, registered with `PySparseRandomWalk<>` -/
  | randomWalk
  /-- `SparseBallWalk`, registered without a trampoline -/
  | ball (R : F) (E : Eigen F)
  /-- `SparseHitAndRun`, registered without a trampoline -/
  | hitRun (R ERR : F) (E : Eigen F)
  /-- `SparseBarrierWalk`, `SparseDikinWalk`, `SparseVaidyaWalk`, `SparseJohnWalk`, `SparseDikinLSWalk`, registered with
  `PySparseBarrierWalk<C>` -/
  | barrier {σ : Type} (cls : SparseBarrierClass F σ) (ERR : F) (E : Eigen F) (o : σ)

/-- `walk->generateCompleteWalk(..)` called by C++ code, e.g. `sparseFullWalkRun`. pybind11/PybindExt.cpp:64-141. -/
def SparseNative.virtualCall (c : SparseNative F) (t : PyType (PySparse F)) (e : Env F) : SparseWalk F :=
  match c, t with
  | .randomWalk, none => SparseRandomWalk.generateCompleteWalk
  | .randomWalk, some s => match s.2.1.generateCompleteWalk with
    | some f => f
    | none => fun _ _ _ _ _ _ _ _ => .throws .pureVirtual
  | .ball R E, _ => (Walk.sparseBall R E).toSparse e
  | .hitRun R ERR E, _ => (Walk.sparseHitRun R ERR E).toSparse e
  | .barrier cls ERR E o, none => (Walk.sparseBarrier cls ERR E o).toSparse e
  | .barrier cls ERR E o, some s => match s.2.1.generateCompleteWalk with
    | some f => f
    | none => (Walk.sparseBarrier (PySparseBarrierWalk cls s.2.1) ERR E (o, s.2.2)).toSparse e

/-- `walk.generateCompleteWalk(..)` called by Python code. pybind11/PybindExt.cpp:504, 599. -/
def SparseNative.pythonCall (c : SparseNative F) (t : PyType (PySparse F)) (e : Env F) : SparseWalk F :=
  match t with
  | some s => match s.2.1.generateCompleteWalk with
    | some f => f
    | none => c.virtualCall t e
  | none => c.virtualCall t e

end PW
