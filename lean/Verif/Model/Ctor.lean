import Verif.Model.Api

/-!
# Constructors, default arguments, and the Python entry points

C++ default arguments are modelled by Lean default arguments of functions in namespace `Cpp`; the defaults the Python module gives
(`py::arg(..) = ..`) by those in namespace `Py`. Both construct the same C++ classes: `py::init<..>` passes its arguments on by
position. Classes derived in Python: `Model/Python.lean`.
-/

namespace PW
variable {F : Type} [Scalar F]

/-- The decimal literal `num · 10^-e` (for doubles: a correctly rounded quotient of two exactly representable integers, which is what
the literal denotes for the small values used). -/
def dec (num : Int) (e : ℕ) : F := Scalar.ofInt num / Scalar.ofInt (10 ^ e)

namespace Cpp

/-- `BallWalk(double r)`. src/dense/BallWalk.hpp:16. -/
def ballWalk (r : F) : Walk F := .ball r
/-- `HitAndRun(double r, double err = 1e-6)`. src/dense/HitRun.hpp:15. -/
def hitAndRun (r : F) (err : F := dec 1 6) : Walk F := .hitRun r err
/-- `DikinWalk(double r)`. src/dense/DikinWalk.hpp:14. `DIST_TERM` is uninitialised. -/
def dikinWalk (E : Eigen F) (junk : F) (r : F) : Walk F := .barrier (dikinClass r) E (BState.fresh junk)
/-- `VaidyaWalk(double r)`. src/dense/VaidyaWalk.hpp:14. -/
def vaidyaWalk (E : Eigen F) (junk : F) (r : F) : Walk F := .barrier (vaidyaClass E r) E (BState.fresh junk)
/-- `JohnWalk(double r, double lim = 1e-5, int max_iter = 1000)`. src/dense/JohnWalk.hpp:16, `w_i` at line 53. -/
def johnWalk (E : Eigen F) (junk : F) (r : F) (lim : F := dec 1 5) (max_iter : Int := 1000) : Walk F :=
  .barrier (johnClass E r lim max_iter) E (BState.fresh junk)
/-- `DikinLSWalk(double r, double g_lim = 0.01, double step_size = 0.1, int max_iter = 1000)`. src/dense/DikinLSWalk.hpp:17. -/
def dikinLSWalk (E : Eigen F) (junk : F) (r : F) (g_lim : F := dec 1 2) (step_size : F := dec 1 1) (max_iter : Int := 1000) : Walk F :=
  .barrier (dikinLSClass E r g_lim step_size max_iter) E (BState.fresh junk)
/-- `SparseBallWalk(double r)`. src/sparse/SparseBallWalk.hpp:12 (its `ERR` of 0.0 is not used). -/
def sparseBallWalk (E : Eigen F) (r : F) : Walk F := .sparseBall r E
/-- `SparseHitAndRun(double r, double err = 1e-6)`. src/sparse/SparseHitRun.hpp:13. -/
def sparseHitAndRun (E : Eigen F) (r : F) (err : F := dec 1 6) : Walk F := .sparseHitRun r err E
/-- `SparseDikinWalk(double r, double err = 1e-6)`. src/sparse/SparseDikinWalk.hpp:14. -/
def sparseDikinWalk (E : Eigen F) (junk : F) (r : F) (err : F := dec 1 6) : Walk F :=
  .sparseBarrier (sparseDikinClass r) err E (BState.fresh junk)
/-- `SparseVaidyaWalk(double r, double err = 1e-6)`. src/sparse/SparseVaidyaWalk.hpp:14. -/
def sparseVaidyaWalk (E : Eigen F) (junk : F) (r : F) (err : F := dec 1 6) : Walk F :=
  .sparseBarrier (sparseVaidyaClass E err r) err E (BState.fresh junk)
/-- `SparseJohnWalk(double r, double lim = 1e-5, int max_iter = 1000, double err = 1e-5)`. src/sparse/SparseJohnWalk.hpp:16. -/
def sparseJohnWalk (E : Eigen F) (junk : F) (r : F) (lim : F := dec 1 5) (max_iter : Int := 1000) (err : F := dec 1 5) : Walk F :=
  .sparseBarrier (sparseJohnClass E err r lim max_iter) err E (BState.fresh junk)
/-- `SparseDikinLSWalk(double r, double g_lim = 0.01, double step_size = 0.1, int max_iter = 1000, double err = 1e-6)`.
src/sparse/SparseDikinLSWalk.hpp:18. -/
def sparseDikinLSWalk (E : Eigen F) (junk : F) (r : F) (g_lim : F := dec 1 2) (step_size : F := dec 1 1) (max_iter : Int := 1000)
    (err : F := dec 1 6) : Walk F :=
  .sparseBarrier (sparseDikinLSClass E err r g_lim step_size max_iter) err E (BState.fresh junk)
/-- `FacialReduction(double err_dc = 1e-5)`: its tolerance (the other member, `global_index`, starts at 0).
src/utils/FacialReduction.hpp:55. -/
def facialReduction (err_dc : F := dec 1 5) : F := err_dc

end Cpp

namespace Py

/-- `dense.BallWalk(r=0.5)`. pybind11/PybindExt.cpp:297-308. -/
def ballWalk (r : F := half) : Walk F := Cpp.ballWalk r
/-- `dense.HitAndRun(r=0.5, err=0.01)`. pybind11/PybindExt.cpp:311-324. -/
def hitAndRun (r : F := half) (err : F := dec 1 2) : Walk F := Cpp.hitAndRun r err
/-- `dense.DikinWalk(r=0.5)`. pybind11/PybindExt.cpp:388-398. -/
def dikinWalk (E : Eigen F) (junk : F) (r : F := half) : Walk F := Cpp.dikinWalk E junk r
/-- `dense.VaidyaWalk(r=0.5)`. pybind11/PybindExt.cpp:401-411. -/
def vaidyaWalk (E : Eigen F) (junk : F) (r : F := half) : Walk F := Cpp.vaidyaWalk E junk r
/-- `dense.JohnWalk(r=0.5, lim=1e-5, max_iter=1000)`. pybind11/PybindExt.cpp:434-448. -/
def johnWalk (E : Eigen F) (junk : F) (r : F := half) (lim : F := dec 1 5) (max_iter : Int := 1000) : Walk F :=
  Cpp.johnWalk E junk r lim max_iter
/-- `dense.DikinLSWalk(r=0.5, g_lim=0.01, step_size=0.1, max_iter=1000)`. pybind11/PybindExt.cpp:414-431. -/
def dikinLSWalk (E : Eigen F) (junk : F) (r : F := half) (g_lim : F := dec 1 2) (step_size : F := dec 1 1)
    (max_iter : Int := 1000) : Walk F := Cpp.dikinLSWalk E junk r g_lim step_size max_iter
/-- `sparse.SparseBallWalk(r=0.5)`. pybind11/PybindExt.cpp:536-547. -/
def sparseBallWalk (E : Eigen F) (r : F := half) : Walk F := Cpp.sparseBallWalk E r
/-- `sparse.SparseHitAndRun(r=0.5, err=0.01)`. pybind11/PybindExt.cpp:550-563. -/
def sparseHitAndRun (E : Eigen F) (r : F := half) (err : F := dec 1 2) : Walk F := Cpp.sparseHitAndRun E r err
/-- `sparse.SparseDikinWalk(r=0.5, err=1e-6)`. pybind11/PybindExt.cpp:631-643. -/
def sparseDikinWalk (E : Eigen F) (junk : F) (r : F := half) (err : F := dec 1 6) : Walk F := Cpp.sparseDikinWalk E junk r err
/-- `sparse.SparseVaidyaWalk(r=0.5, err=1e-6)`. pybind11/PybindExt.cpp:646-658. -/
def sparseVaidyaWalk (E : Eigen F) (junk : F) (r : F := half) (err : F := dec 1 6) : Walk F := Cpp.sparseVaidyaWalk E junk r err
/-- `sparse.SparseJohnWalk(r=0.5, lim=1e-5, max_iter=1000, err=1e-6)`. pybind11/PybindExt.cpp:661-678. -/
def sparseJohnWalk (E : Eigen F) (junk : F) (r : F := half) (lim : F := dec 1 5) (max_iter : Int := 1000)
    (err : F := dec 1 6) : Walk F := Cpp.sparseJohnWalk E junk r lim max_iter err
/-- `sparse.SparseDikinLSWalk(r=0.5, g_lim=0.01, step_size=0.1, max_iter=1000, err=1e-6)`. pybind11/PybindExt.cpp:681-700. -/
def sparseDikinLSWalk (E : Eigen F) (junk : F) (r : F := half) (g_lim : F := dec 1 2) (step_size : F := dec 1 1)
    (max_iter : Int := 1000) (err : F := dec 1 6) : Walk F := Cpp.sparseDikinLSWalk E junk r g_lim step_size max_iter err
/-- `FacialReduction(err_dc=1e-6)`. pybind11/PybindExt.cpp:451-460. -/
def facialReduction (err_dc : F := dec 1 6) : F := Cpp.facialReduction err_dc

/-- `walk.generateCompleteWalk(niter, init, A, b, burnin=0, thin=1, seed=-1)` of a dense walk.
pybind11/PybindExt.cpp:267-293, 358-384. -/
def generateCompleteWalk (w : Walk F) (e : Env F) (niter : Int) (init : DVec F) (A : DMat F) (b : DVec F) (burnin : Int := 0)
    (thin : Int := 1) (seed : Int := -1) : Out (List (Fin A.c → F)) := w.run e ⟨niter, init, A, b, 0, burnin, thin, seed⟩

/-- `walk.generateCompleteWalk(niter, init, A, b, k, burnin=0, thin=1, seed=-1)` of a sparse walk.
pybind11/PybindExt.cpp:504-532, 599-627. -/
def sparseGenerateCompleteWalk (w : Walk F) (e : Env F) (niter : Int) (init : DVec F) (A : DMat F) (b : DVec F) (k : Int)
    (burnin : Int := 0) (thin : Int := 1) (seed : Int := -1) : Out (List (Fin A.c → F)) :=
  w.run e ⟨niter, init, A, b, k, burnin, thin, seed⟩

/-- `denseFullWalkRun(niter, A, b, k, walk, fr, dc, burnin=0, thin=1, seed=-1)`, `err` and `gi` the members of `fr`.
pybind11/PybindExt.cpp:147-179; the same defaults in C++, src/utils/FullWalkRun.hpp:32. -/
def denseFullWalkRun (glp : Glpk F) (E : Eigen F) (err : F) (fuel : ℕ) (gi : Int) (niter : Int) (A : DMat F) (b : DVec F) (k : Int)
    (walk : DenseWalk F) (burnin : Int := 0) (thin : Int := 1) (seed : Int := -1) : Out (List (Fin A.c → F)) :=
  PW.denseFullWalkRun glp E err fuel gi walk niter A b k burnin thin seed

/-- `sparseFullWalkRun(niter, A, b, k, walk, fr, sc, burnin=0, thin=1, seed=-1)`.
pybind11/PybindExt.cpp:181-213; the same defaults in C++, src/utils/FullWalkRun.hpp:64. -/
def sparseFullWalkRun (glp : Glpk F) (E : Eigen F) (err : F) (fuel : ℕ) (gi : Int) (niter : Int) (A : DMat F) (b : DVec F) (k : Int)
    (walk : SparseWalk F) (burnin : Int := 0) (thin : Int := 1) (seed : Int := -1) : Out (List (Fin A.c → F)) :=
  PW.sparseFullWalkRun glp E err fuel gi walk niter A b k burnin thin seed

end Py

end PW
