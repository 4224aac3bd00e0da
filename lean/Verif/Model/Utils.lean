import Verif.Model.Sparse

/-!
# Linear programs, initial points, facial reduction and the full-run drivers (src/utils)

Sparse matrices are modelled by their coefficients. Products with the 0/1 selection matrices `V`, `P`
(one stored `1` per column resp. row) are modelled as the selection of columns resp. rows they perform.
`int` sizes (`A.rows()`, `1 + A.rows()*(A.cols()+1)`, …) are assumed to fit in an `int`.
-/

namespace PW

variable {F : Type} [Scalar F] {m n d : ℕ}

/-- GLPK bound kinds `GLP_FR`, `GLP_LO`, `GLP_UP`, `GLP_FX` (glpk.h); `GLP_DB` is not used. -/
inductive Kind
  | FR
  | LO
  | UP
  | FX
  deriving DecidableEq, Repr

/-- A GLPK problem (`glp_prob`), objective direction `GLP_MAX`. Lower and upper bound arguments are equal
in every call of the code, so one number per row/column is kept.
src/utils/SparseLP.cpp:5-43, src/utils/DenseCenter.cpp:7-49. -/
structure LP (F : Type) where
  /-- number of rows -/
  r : ℕ
  /-- number of columns -/
  c : ℕ
  /-- constraint matrix -/
  mat : Matrix (Fin r) (Fin c) F
  /-- objective coefficients -/
  obj : Fin c → F
  /-- row kinds -/
  rowKind : Fin r → Kind
  /-- row bounds -/
  rowBnd : Fin r → F
  /-- column kinds -/
  colKind : Fin c → Kind
  /-- column bounds -/
  colBnd : Fin c → F

/-- GLPK: `glp_simplex` on a fresh problem followed by `glp_get_col_prim` for every column. External.
src/utils/SparseLP.cpp:44-48, src/utils/DenseCenter.cpp:50-57. -/
structure Glpk (F : Type) where
  /-- primal values of the columns after `glp_simplex` -/
  solve : (lp : LP F) → Fin lp.c → F

/-- `SparseLP::findOptimalVector`. src/utils/SparseLP.cpp:3-53. `glp_add_rows`/`glp_add_cols` abort when
the number is 0. -/
def findOptimalVector (glp : Glpk F) (lp : LP F) : Out (Fin lp.c → F) :=
  if lp.r = 0 ∨ lp.c = 0 then .ub .glpkAbort else .ok (glp.solve lp)

/-! ## Initial points -/

/-- The LP `max δ, A x + δ 1 <= b, δ >= 0` of `DenseCenter`. Rows whose bound is never set (`b` too
short) keep GLPK's default `GLP_FR`. src/utils/DenseCenter.cpp:15-49. -/
def denseCenterLP (A : Matrix (Fin m) (Fin n) F) (b : DVec F) : LP F where
  r := m
  c := n + 1
  mat i j := if h : j.val < n then A i ⟨j.val, h⟩ else 1
  obj j := if j.val < n then 0 else 1
  rowKind i := if i.val < b.n then .UP else .FR
  rowBnd i := if h : i.val < b.n then b.val ⟨i.val, h⟩ else 0
  colKind j := if j.val < n then .FR else .LO
  colBnd _ := 0

/-- `DenseCenter::getInitialPoint`. src/utils/DenseCenter.cpp:3-61. There is no dimension check:
`glp_add_rows(lp, 0)` and `glp_set_row_bnds` on a missing row abort. -/
def DenseCenter.getInitialPoint (glp : Glpk F) (A : DMat F) (b : DVec F) : Out (Fin A.c → F) :=
  if A.r = 0 ∨ A.r < b.n then .ub .glpkAbort
  else .ok fun j => glp.solve (denseCenterLP A.val b) j.castSucc

/-- The LP `max δ, A x = b, x_j - δ >= 0 (last k), x_j >= 0 (last k), δ >= 0` of `SparseCenter`.
src/utils/SparseCenter.cpp:13-54. Row kinds follow `b.rows()`, rows of the matrix follow `A.rows()`. -/
def sparseCenterLP (A : Matrix (Fin m) (Fin n) F) (b : DVec F) (k : ℕ) : LP F where
  r := m + k
  c := n + 1
  mat i j :=
    if hi : i.val < m then
      if hj : j.val < n then A ⟨i.val, hi⟩ ⟨j.val, hj⟩ else 0
    else
      if j.val = n - k + (i.val - m) then 1 else if j.val = n then -1 else 0
  obj j := if j.val < n then 0 else 1
  rowKind i := if i.val < b.n then .FX else .LO
  rowBnd i := if h : i.val < b.n then b.val ⟨i.val, h⟩ else 0
  colKind j := if j.val < n - k then .FR else .LO
  colBnd _ := 0

/-- `SparseCenter::getInitialPoint`. src/utils/SparseCenter.cpp:3-66. Writing `row_bnds(i)` with
`i >= A.rows() + k` is out of range. -/
def SparseCenter.getInitialPoint (glp : Glpk F) (A : DMat F) (b : DVec F) (k : Int) :
    Out (Fin A.c → F) :=
  if k ≤ 0 ∨ (A.c : Int) < k then .throws .badK
  else if A.r + k.toNat < b.n then .ub .indexOutOfRange
  else (findOptimalVector glp (sparseCenterLP A.val b k.toNat)).map fun sol j => sol j.castSucc

/-! ## Facial reduction -/

/-- The row kinds and bounds of the LP in `findZ` before the loop: `GLP_FX` for the first `x_dim` rows and
the last row (`<b, y> = 0`), `GLP_LO` for the others; bounds 0.
src/utils/FacialReduction.cpp:24-41. -/
def findZRel (n xdim : ℕ) : Fin (n + 1) → Kind :=
  fun j => if j.val = n then .FX else if j.val < xdim then .FX else .LO

/-- The LP of `findZ` for given row kinds and bounds: matrix `[A^T; b^T]`, free columns, objective the last
coordinate of `y`. src/utils/FacialReduction.cpp:18-61, 77. -/
def findZLP (A : Matrix (Fin m) (Fin n) F) (b : Fin m → F) (rel : Fin (n + 1) → Kind)
    (bnd : Fin (n + 1) → F) : LP F where
  r := n + 1
  c := m
  mat i j := if h : i.val < n then A j ⟨i.val, h⟩ else b j
  obj j := if j.val + 1 = m then 1 else 0
  rowKind := rel
  rowBnd := bnd
  colKind _ := .FR
  colBnd _ := 0

/-- `v(i) = a`. -/
def setAt {α : Type} {n : ℕ} (v : Fin n → α) (i : ℕ) (a : α) : Fin n → α :=
  fun j => if j.val = i then a else v j

/-- The loop of `findZ` from index `i = global_index`, with `left = A.cols() - i` iterations to go.
Returns `z` if found, and the new `global_index`. src/utils/FacialReduction.cpp:63-88. -/
def findZLoop (glp : Glpk F) (A : Matrix (Fin m) (Fin n) F) (b : Fin m → F) :
    (left i : ℕ) → (rel : Fin (n + 1) → Kind) → (bnd : Fin (n + 1) → F) →
    Out (Option (Fin n → F) × ℕ)
  | 0, i, _, _ => .ok (none, i)
  | left + 1, i, rel, bnd =>
    let rel := setAt rel i .FX
    let bnd := setAt bnd i 1
    (findOptimalVector glp (findZLP A b rel bnd)).bind fun sol =>
    if !(Scalar.eq (vsum fun j => Scalar.abs (sol j)) 0) then
      .ok (some (mulVec (transp A) sol), i)
    else findZLoop glp A b left (i + 1) (setAt rel i .LO) (setAt bnd i 0)

/-- `findZ`. src/utils/FacialReduction.cpp:4-89. `obj_vec(obj_vec.rows() - 1) = 1` is out of range when `A`
has no rows. -/
def findZ (glp : Glpk F) (gi : ℕ) (A : Matrix (Fin m) (Fin n) F) (b : Fin m → F) (xdim : ℕ) :
    Out (Option (Fin n → F) × ℕ) :=
  if m = 0 then .ub .indexOutOfRange
  else findZLoop glp A b (n - gi) gi (findZRel n xdim) fun _ => 0

/-- The columns kept by `pickV`: the first `x_dim` and those with `z(i) < ERR_DC`, in order.
src/utils/FacialReduction.cpp:91-107. -/
def pickV (ERR : F) (z : Fin n → F) (xdim : ℕ) : List (Fin n) :=
  (List.finRange n).filter fun i => decide (i.val < xdim) || Scalar.lt (z i) ERR

/-- The rows kept by `pickP`, in pivot order: those `perm(i)` with `|R(i,i)| > ERR_DC`,
`i < min(R.rows(), R.cols())`, for the QR decomposition of `AV.transpose()`.
src/utils/FacialReduction.cpp:109-126. -/
def pickP (E : Eigen F) (ERR : F) (AV : Matrix (Fin m) (Fin n) F) : List (Fin m) :=
  let qr := E.sparseQR (transp AV)
  (List.finRange m).filterMap fun i =>
    if h : i.val < n then
      if Scalar.lt ERR (Scalar.abs (qr.R ⟨i.val, h⟩ i)) then some (qr.perm i) else none
    else none

/-- `FRResult`: the reduced system and the accumulated `savedV`, which has `d` rows.
src/utils/FacialReduction.hpp:23-27. -/
structure FRResult (F : Type) (d : ℕ) where
  /-- `A.rows()` -/
  r : ℕ
  /-- `A.cols()` -/
  c : ℕ
  /-- `A` -/
  A : Matrix (Fin r) (Fin c) F
  /-- `b` -/
  b : Fin r → F
  /-- `savedV` -/
  V : Matrix (Fin d) (Fin c) F

/-- `P * A`, `P * b` with `P` the selection of `rows`. src/utils/FacialReduction.cpp:145-146, 160-161. -/
def FRResult.selectRows (s : FRResult F d) (rows : List (Fin s.r)) : FRResult F d where
  r := rows.length
  c := s.c
  A i j := s.A (rows.get i) j
  b i := s.b (rows.get i)
  V := s.V

/-- `savedV * V`, `A * V` with `V` the selection of `cols`. src/utils/FacialReduction.cpp:142-143. -/
def FRResult.selectCols (s : FRResult F d) (cols : List (Fin s.c)) : FRResult F d where
  r := s.r
  c := cols.length
  A i j := s.A i (cols.get j)
  b := s.b
  V i j := s.V i (cols.get j)

/-- One round after a certificate `z` was found: pickV, pickP.
src/utils/FacialReduction.cpp:140-146. -/
def frRound (E : Eigen F) (ERR : F) (xdim : ℕ) (s : FRResult F d) (z : Fin s.c → F) : FRResult F d :=
  let s' := s.selectCols (pickV ERR z xdim)
  s'.selectRows (pickP E ERR s'.A)

/-- `entireFacialReductionStep`, `fuel` bounding the recursion depth; also returns `global_index`.
src/utils/FacialReduction.cpp:128-148. -/
def entireFacialReductionStep (glp : Glpk F) (E : Eigen F) (ERR : F) (xdim : ℕ) :
    (fuel gi : ℕ) → FRResult F d → Out (FRResult F d × ℕ)
  | 0, _, _ => .timeout
  | fuel + 1, gi, s =>
    (findZ glp gi s.A s.b xdim).bind fun zg =>
    match zg.1 with
    | none => .ok (s, zg.2)
    | some z => entireFacialReductionStep glp E ERR xdim fuel zg.2 (frRound E ERR xdim s z)

/-- `FROutput`. src/utils/FacialReduction.hpp:39-47. With `sparse = true` the dense members stay empty. -/
structure FROutput (F : Type) (d : ℕ) where
  /-- `sparse_A`, `sparse_b`, `saved_V` -/
  sparse : FRResult F d
  /-- `dense_A` -/
  denseA : DMat F
  /-- `dense_b` -/
  denseb : DVec F
  /-- `Q` -/
  Q : DMat F
  /-- `z1` -/
  z1 : DVec F

/-- The start of `reduce`: identity `savedV`, then dependent rows removed.
src/utils/FacialReduction.cpp:155-161. -/
def frStart (E : Eigen F) (ERR : F) (A : Matrix (Fin m) (Fin n) F) (b : Fin m → F) : FRResult F n :=
  let s : FRResult F n := ⟨m, n, A, b, fun i j => if i = j then 1 else 0⟩
  s.selectRows (pickP E ERR A)

/-- `z1 = newR.transpose().inverse() * result.b`. src/utils/FacialReduction.cpp:173-181. `hrc`: the block
`R.block(0, 0, R.cols(), R.cols())` exists. -/
def denseZ1 (E : Eigen F) (s : FRResult F d) (hrc : s.r ≤ s.c) : Fin s.r → F :=
  let qr := E.householderQR (transp s.A)
  let newR : Matrix (Fin s.r) (Fin s.r) F := fun i j => if i ≤ j then qr.R (i.castLE hrc) j else 0
  mulVec (E.inv (transp newR)) s.b

/-- `dense_A = -1 * Q2.block(x_dim, 0, d - x_dim, d - n)`. src/utils/FacialReduction.cpp:184-185. -/
def denseAOf (E : Eigen F) (s : FRResult F d) (xdim : ℕ) :
    Matrix (Fin (s.c - xdim)) (Fin (s.c - s.r)) F :=
  let Q := (E.householderQR (transp s.A)).Q
  fun i j => Scalar.ofInt (-1) * Q ⟨xdim + i.val, by omega⟩ ⟨s.r + j.val, by omega⟩

/-- `dense_b = (Q1 * z1).tail(d - x_dim)`. src/utils/FacialReduction.cpp:183, 186. -/
def densebOf (E : Eigen F) (s : FRResult F d) (xdim : ℕ) (hrc : s.r ≤ s.c) :
    Fin (s.c - xdim) → F :=
  let Q := (E.householderQR (transp s.A)).Q
  fun i => vsum fun j => Q ⟨xdim + i.val, by omega⟩ (j.castLE hrc) * denseZ1 E s hrc j

/-- The second half of `reduce`: the dense form unless `sparse`. src/utils/FacialReduction.cpp:163-195.
More rows than columns makes `R.block` out of range; so would `x_dim` larger than the number of columns. -/
def frFinish (E : Eigen F) (s : FRResult F d) (xdim : ℕ) (sparse : Bool) : Out (FROutput F d) :=
  if sparse then
    .ok ⟨s, ⟨0, 0, fun _ _ => 0⟩, ⟨0, fun _ => 0⟩, ⟨0, 0, fun _ _ => 0⟩, ⟨0, fun _ => 0⟩⟩
  else if hrc : s.r ≤ s.c then
    if xdim ≤ s.c then
      .ok ⟨s, ⟨s.c - xdim, s.c - s.r, denseAOf E s xdim⟩, ⟨s.c - xdim, densebOf E s xdim hrc⟩,
        ⟨s.c, s.c, (E.householderQR (transp s.A)).Q⟩, ⟨s.r, denseZ1 E s hrc⟩⟩
    else .ub .indexOutOfRange
  else .ub .indexOutOfRange

/-- `FacialReduction::reduce`; `gi` is the member `global_index` before the call (uninitialised in a fresh
object), and is returned updated. `b = P * b` with `b` of the wrong length is an Eigen assertion failure.
src/utils/FacialReduction.cpp:150-196. -/
def FacialReduction.reduce (glp : Glpk F) (E : Eigen F) (ERR : F) (fuel : ℕ) (_gi : Int) (A : DMat F)
    (b : DVec F) (k : Int) (sparse : Bool) : Out (FROutput F A.c × Int) :=
  if k ≤ 0 ∨ (A.c : Int) < k then .throws .badK
  else if h : b.n = A.r then
    let xdim := A.c - k.toNat
    (entireFacialReductionStep glp E ERR xdim fuel xdim (frStart E ERR A.val (b.at h))).bind fun sg =>
    (frFinish E sg.1 xdim sparse).bind fun out => .ok (out, (sg.2 : Int))
  else .ub .sizeMismatch

/-! ## Full runs -/

/-- A sample matrix: rows of length `c`. -/
structure Samples (F : Type) where
  /-- `cols()` -/
  c : ℕ
  /-- the rows -/
  rows : List (Fin c → F)

/-- Any dense walk: the virtual `generateCompleteWalk(niter, init, A, b, burnin, thin, seed)` of a
`RandomWalk*`. src/dense/RandomWalk.hpp:25-26. -/
abbrev DenseWalk (F : Type) := Int → DVec F → DMat F → DVec F → Int → Int → Int → Out (Samples F)

/-- Any sparse walk, with the extra argument `k`. src/sparse/SparseRandomWalk.hpp:26-35. -/
abbrev SparseWalk (F : Type) := Int → DVec F → DMat F → DVec F → Int → Int → Int → Int → Out (Samples F)

/-- `RandomWalk::generateCompleteWalk` of the abstract base class (prints and returns `Zero(1,1)`).
src/dense/RandomWalk.cpp:16-20. -/
def RandomWalk.generateCompleteWalk : DenseWalk F := fun _ _ _ _ _ _ _ => .ok ⟨1, [fun _ => 0]⟩

/-- `SparseRandomWalk::generateCompleteWalk` of the abstract base class.
src/sparse/SparseRandomWalk.cpp:12-25. -/
def SparseRandomWalk.generateCompleteWalk : SparseWalk F := fun _ _ _ _ _ _ _ _ => .ok ⟨1, [fun _ => 0]⟩

/-- Apply `f` to every row, stopping at the first abnormal outcome. -/
def mapRows {α β : Type} (f : α → Out β) : List α → Out (List β)
  | [] => .ok []
  | a :: l => (f a).bind fun b => (mapRows f l).bind fun bs => .ok (b :: bs)

/-- `val << z1, row; res.row(i) = (Q * val).head(A.cols())`. src/utils/FullWalkRun.hpp:42-45. -/
def denseBack (fr : FROutput F d) {c : ℕ} (cols : ℕ) (row : Fin c → F) : Out (Fin cols → F) :=
  if hQ : c + fr.z1.n = fr.Q.c then
    let val : Fin fr.Q.c → F := fun j =>
      if h : j.val < fr.z1.n then fr.z1.val ⟨j.val, h⟩ else row ⟨j.val - fr.z1.n, by omega⟩
    let full := mulVec fr.Q.val val
    if hc : cols ≤ fr.Q.r then .ok fun j => full (j.castLE hc) else .ub .indexOutOfRange
  else .ub .sizeMismatch

/-- `denseFullWalkRun`; `gi` is the facial reduction object's `global_index`.
src/utils/FullWalkRun.hpp:32-48. -/
def denseFullWalkRun (glp : Glpk F) (E : Eigen F) (ERR : F) (fuel : ℕ) (gi : Int) (walk : DenseWalk F)
    (niter : Int) (A : DMat F) (b : DVec F) (k burnin thin seed : Int) : Out (List (Fin A.c → F)) :=
  if k ≤ 0 ∨ (A.c : Int) < k then .throws .badK
  else
    (FacialReduction.reduce glp E ERR fuel gi A b k false).bind fun fr =>
    (DenseCenter.getInitialPoint glp fr.1.denseA fr.1.denseb).bind fun x =>
    (walk niter ⟨_, x⟩ fr.1.denseA fr.1.denseb burnin thin seed).bind fun steps =>
    mapRows (denseBack fr.1 A.c) steps.rows

/-- `res.row(i) = saved_V * steps.row(i).transpose()`. src/utils/FullWalkRun.hpp:75. -/
def sparseBack (s : FRResult F d) {c : ℕ} (row : Fin c → F) : Out (Fin d → F) :=
  if h : s.c = c then .ok (mulVec s.V fun j => row (j.cast h)) else .ub .sizeMismatch

/-- `sparseFullWalkRun`, with `new_k = sparse_A.rows() - (A.rows() - k)`.
src/utils/FullWalkRun.hpp:64-78. -/
def sparseFullWalkRun (glp : Glpk F) (E : Eigen F) (ERR : F) (fuel : ℕ) (gi : Int)
    (walk : SparseWalk F) (niter : Int) (A : DMat F) (b : DVec F) (k burnin thin seed : Int) :
    Out (List (Fin A.c → F)) :=
  if k ≤ 0 ∨ (A.c : Int) < k then .throws .badK
  else
    (FacialReduction.reduce glp E ERR fuel gi A b k true).bind fun fr =>
    let s := fr.1.sparse
    let newK : Int := (s.r : Int) - ((A.r : Int) - k)
    let sA : DMat F := ⟨s.r, s.c, s.A⟩
    let sb : DVec F := ⟨s.r, s.b⟩
    (SparseCenter.getInitialPoint glp sA sb newK).bind fun x =>
    (walk niter ⟨_, x⟩ sA sb newK burnin thin seed).bind fun steps =>
    mapRows (sparseBack s) steps.rows

end PW
