import Verif.Model.Utils

/-!
# Sparse storage and the GLPK calls (src/utils/SparseLP.cpp, DenseCenter.cpp, SparseCenter.cpp, FacialReduction.cpp)

The rest of the model describes a sparse matrix by its coefficients and an LP by a record `LP`. This file models how the code builds
them: the stored entries, the triplet lists, the arrays `ia`, `ja`, `ar` with their running index, and one GLPK call after another, each
with the conditions under which GLPK exits. `Verif/Props/Storage.lean` proves that the result is the `LP` of `Verif/Model/Utils.lean`.
-/

namespace PW

variable {F : Type} [Scalar F]

/-! ## Loops and arrays -/

/-- A `for` loop over the listed values, stopping at the first abnormal outcome. -/
def forEach {σ α : Type} (f : σ → α → Out σ) : List α → σ → Out σ
  | [], s => .ok s
  | a :: l, s => (f s a).bind (forEach f l)

/-- `v[i] = a` on a `std::vector`. -/
def vecSet {α : Type} (v : List α) (i : ℕ) (a : α) : Out (List α) :=
  if i < v.length then .ok (v.set i a) else .ub .indexOutOfRange

/-- `v(i)` on an Eigen vector. -/
def DVec.get {α : Type} (v : DVec α) (i : ℕ) : Out α := if h : i < v.n then .ok (v.val ⟨i, h⟩) else .ub .indexOutOfRange

/-- `v(i) = a` on an Eigen vector. -/
def DVec.put {α : Type} (v : DVec α) (i : ℕ) (a : α) : Out (DVec α) :=
  if i < v.n then .ok ⟨v.n, fun j => if j.val = i then a else v.val j⟩ else .ub .indexOutOfRange

/-- `VectorXd::Zero(n)`. -/
def DVec.zeros {α : Type} [Zero α] (n : ℕ) : DVec α := ⟨n, fun _ => 0⟩

/-! ## Sparse matrices -/

/-- A column-major `SparseMatrix<double>`: for every column the stored entries, in storage order. src/utils/Common.hpp:9. -/
structure SpMat (F : Type) where
  /-- `rows()` -/
  r : ℕ
  /-- `cols()` and `outerSize()` -/
  c : ℕ
  /-- what `InnerIterator it(A, j)` visits: `it.row()`, `it.value()` -/
  col : Fin c → List (Fin r × F)

/-- `A.nonZeros()`: the number of stored entries. -/
def SpMat.nonZeros (A : SpMat F) : ℕ := ((List.finRange A.c).map fun j => (A.col j).length).sum

/-- `A.coeff(i, j)`: the stored entry or 0. -/
def SpMat.coeff (A : SpMat F) : Matrix (Fin A.r) (Fin A.c) F := fun i j =>
  match (A.col j).find? fun e => e.1 = i with
  | some e => e.2
  | none => 0

/-- No position is stored twice (an invariant of Eigen's sparse matrices). -/
def SpMat.Valid (A : SpMat F) : Prop := ∀ j, ((A.col j).map Prod.fst).Nodup

/-- An empty `r × c` matrix. -/
def SpMat.empty (r c : ℕ) : SpMat F := ⟨r, c, fun _ => []⟩

/-- `A.insert(i, j) = v`: the position must be in range and not stored yet (the order within a column does not matter here). -/
def SpMat.insert (A : SpMat F) (i j : ℕ) (v : F) : Out (SpMat F) :=
  if hi : i < A.r then
    if hj : j < A.c then
      if (A.col ⟨j, hj⟩).any fun e => e.1.val == i then .ub .indexOutOfRange
      else .ok ⟨A.r, A.c, fun l => if l.val = j then A.col l ++ [(⟨i, hi⟩, v)] else A.col l⟩
    else .ub .indexOutOfRange
  else .ub .indexOutOfRange

/-- One triplet of `setFromTriplets`: values at the same position are added. -/
def SpMat.addTriplet (A : SpMat F) (t : ℕ × ℕ × F) : Out (SpMat F) :=
  if hi : t.1 < A.r then
    if hj : t.2.1 < A.c then
      .ok ⟨A.r, A.c, fun l =>
        if l.val = t.2.1 then
          if (A.col l).any fun e => e.1.val == t.1 then (A.col l).map fun e => if e.1.val = t.1 then (e.1, e.2 + t.2.2) else e
          else A.col l ++ [(⟨t.1, hi⟩, t.2.2)]
        else A.col l⟩
    else .ub .indexOutOfRange
  else .ub .indexOutOfRange

/-- `mat.setFromTriplets(l.begin(), l.end())` on a fresh `r × c` matrix. -/
def SpMat.ofTriplets (r c : ℕ) (l : List (ℕ × ℕ × F)) : Out (SpMat F) := forEach SpMat.addTriplet l (SpMat.empty r c)

/-! ## GLPK -/

/-- The problem object `glp_prob`. Rows and columns are numbered from 1. Bound types are GLPK's codes `GLP_FR = 1`, `GLP_LO = 2`,
`GLP_UP = 3`, `GLP_DB = 4`, `GLP_FX = 5` (glpk.h). -/
structure GlpProb (F : Type) where
  /-- number of rows -/
  r : ℕ
  /-- number of columns -/
  c : ℕ
  /-- objective direction is `GLP_MAX` -/
  max : Bool
  /-- objective coefficients (0: constant term) -/
  obj : ℕ → F
  /-- row types -/
  rowType : ℕ → Int
  /-- row lower bounds -/
  rowLb : ℕ → F
  /-- row upper bounds -/
  rowUb : ℕ → F
  /-- column types -/
  colType : ℕ → Int
  /-- column lower bounds -/
  colLb : ℕ → F
  /-- column upper bounds -/
  colUb : ℕ → F
  /-- the constraint coefficients: row, column, value (GLPK drops zeros; a coefficient that is not listed is zero anyway) -/
  mat : List (ℕ × ℕ × F)

namespace GlpProb

/-- `glp_create_prob()`: minimisation, no rows or columns. Rows will be created free, columns fixed at zero. -/
def create : GlpProb F where
  r := 0
  c := 0
  max := false
  obj _ := 0
  rowType _ := 1
  rowLb _ := 0
  rowUb _ := 0
  colType _ := 5
  colLb _ := 0
  colUb _ := 0
  mat := []

/-- `glp_add_rows`: exits unless `k >= 1`. -/
def addRows (p : GlpProb F) (k : ℕ) : Out (GlpProb F) := if k = 0 then .ub .glpkAbort else .ok { p with r := p.r + k }

/-- `glp_add_cols`: exits unless `k >= 1`. -/
def addCols (p : GlpProb F) (k : ℕ) : Out (GlpProb F) := if k = 0 then .ub .glpkAbort else .ok { p with c := p.c + k }

/-- `glp_set_obj_dir(lp, GLP_MAX)`. -/
def setMax (p : GlpProb F) : GlpProb F := { p with max := true }

/-- `glp_set_obj_coef`: exits unless `0 <= j <= n`. -/
def setObjCoef (p : GlpProb F) (j : ℕ) (v : F) : Out (GlpProb F) :=
  if j ≤ p.c then .ok { p with obj := Function.update p.obj j v } else .ub .glpkAbort

/-- The bounds a type keeps: unused bounds become 0, a fixed variable takes the lower one; other codes exit. -/
def bounds (type : Int) (lb ub : F) : Out (F × F) :=
  if type = 1 then .ok (0, 0) else if type = 2 then .ok (lb, 0) else if type = 3 then .ok (0, ub)
  else if type = 4 then .ok (lb, ub) else if type = 5 then .ok (lb, lb) else .ub .glpkAbort

/-- `glp_set_row_bnds`: exits unless `1 <= i <= m`. -/
def setRowBnds (p : GlpProb F) (i : ℕ) (type : Int) (lb ub : F) : Out (GlpProb F) :=
  if 1 ≤ i ∧ i ≤ p.r then
    (bounds type lb ub).bind fun q => .ok { p with
      rowType := Function.update p.rowType i type, rowLb := Function.update p.rowLb i q.1, rowUb := Function.update p.rowUb i q.2 }
  else .ub .glpkAbort

/-- `glp_set_col_bnds`: exits unless `1 <= j <= n`. -/
def setColBnds (p : GlpProb F) (j : ℕ) (type : Int) (lb ub : F) : Out (GlpProb F) :=
  if 1 ≤ j ∧ j ≤ p.c then
    (bounds type lb ub).bind fun q => .ok { p with
      colType := Function.update p.colType j type, colLb := Function.update p.colLb j q.1, colUb := Function.update p.colUb j q.2 }
  else .ub .glpkAbort

/-- Reading entry `t` of the three arrays. -/
def triplet (ia ja : List ℕ) (ar : List F) (t : ℕ) : Out (ℕ × ℕ × F) :=
  match ia[t]?, ja[t]?, ar[t]? with
  | some i, some j, some v => .ok (i, j, v)
  | _, _, _ => .ub .indexOutOfRange

/-- `glp_load_matrix(lp, ne, ia, ja, ar)`: reads the entries `1, …, ne` of the arrays, exits on a row or column number out of range and
on two entries at the same position. -/
def loadMatrix (p : GlpProb F) (ne : ℕ) (ia ja : List ℕ) (ar : List F) : Out (GlpProb F) :=
  (mapRows (triplet ia ja ar) (List.range' 1 ne)).bind fun l =>
  if (∀ e ∈ l, (1 ≤ e.1 ∧ e.1 ≤ p.r) ∧ 1 ≤ e.2.1 ∧ e.2.1 ≤ p.c) ∧ (l.map fun e => (e.1, e.2.1)).Nodup then .ok { p with mat := l }
  else .ub .glpkAbort

/-- What a type code means (`GLP_DB` does not occur). -/
def kind (type : Int) : Kind := if type = 1 then .FR else if type = 2 then .LO else if type = 3 then .UP else .FX

/-- The bound that matters for a type. -/
def bound (type : Int) (lb ub : F) : F := if type = 3 then ub else lb

/-- The coefficient in row `i`, column `j`. -/
def coeff (p : GlpProb F) (i j : ℕ) : F :=
  match p.mat.find? fun e => e.1 = i ∧ e.2.1 = j with
  | some e => e.2.2
  | none => 0

/-- The linear program a problem object stands for, as a maximisation. -/
def toLP (p : GlpProb F) : LP F where
  r := p.r
  c := p.c
  mat i j := p.coeff (i + 1) (j + 1)
  obj j := if p.max then p.obj (j + 1) else -p.obj (j + 1)
  rowKind i := kind (p.rowType (i + 1))
  rowBnd i := bound (p.rowType (i + 1)) (p.rowLb (i + 1)) (p.rowUb (i + 1))
  colKind j := kind (p.colType (j + 1))
  colBnd j := bound (p.colType (j + 1)) (p.colLb (j + 1)) (p.colUb (j + 1))

/-- `glp_simplex(lp, NULL)` and then `glp_get_col_prim(lp, j + 1)` for `j < n`; exits on a column that does not exist.
src/utils/SparseLP.cpp:44-48, src/utils/DenseCenter.cpp:49-56. -/
def simplex (glp : Glpk F) (p : GlpProb F) (n : ℕ) : Out (Fin n → F) :=
  if h : n ≤ p.c then .ok fun j => glp.solve p.toLP (j.castLE h) else .ub .glpkAbort

end GlpProb

/-- The arrays of `glp_load_matrix` while they are filled, and the running index `ind`. -/
structure TripletArrays (F : Type) where
  /-- row numbers -/
  ia : List ℕ
  /-- column numbers -/
  ja : List ℕ
  /-- values -/
  ar : List F
  /-- next free index -/
  ind : ℕ

/-- `vector<int> ia (amount); …; int ind = 1;`. src/utils/SparseLP.cpp:8-12, 28; src/utils/DenseCenter.cpp:10-13, 34. -/
def TripletArrays.new (amount : ℕ) : TripletArrays F :=
  ⟨List.replicate amount 0, List.replicate amount 0, List.replicate amount 0, 1⟩

/-- `ia[ind] = i; ja[ind] = j; ar[ind] = v; ind ++;`. src/utils/SparseLP.cpp:35-39, src/utils/DenseCenter.cpp:38-41, 44-47. -/
def TripletArrays.push (s : TripletArrays F) (i j : ℕ) (v : F) : Out (TripletArrays F) :=
  (vecSet s.ia s.ind i).bind fun ia => (vecSet s.ja s.ind j).bind fun ja => (vecSet s.ar s.ind v).bind fun ar =>
  .ok ⟨ia, ja, ar, s.ind + 1⟩

/-! ## The programs -/

/-- The GLPK problem built by `SparseLP::findOptimalVector`. src/utils/SparseLP.cpp:5-43. The type codes are stored in vectors of
doubles; the conversion back to `int` is exact. -/
def SparseLP.build (A : SpMat F) (b c : DVec F) (rowRel : DVec Int) (colCons : DVec F) (colRel : DVec Int) : Out (GlpProb F) :=
  let amount := 1 + A.nonZeros
  (GlpProb.create.addRows A.r).bind fun p =>
  (p.addCols A.c).bind fun p =>
  (forEach (fun (p : GlpProb F) i => (c.get i).bind fun ci => p.setObjCoef (i + 1) ci) (List.range A.c) p).bind fun p =>
  let p := p.setMax
  (forEach (fun (p : GlpProb F) i => (rowRel.get i).bind fun t => (b.get i).bind fun v => p.setRowBnds (i + 1) t v v)
    (List.range A.r) p).bind fun p =>
  (forEach (fun (p : GlpProb F) i => (colRel.get i).bind fun t => (colCons.get i).bind fun v => p.setColBnds (i + 1) t v v)
    (List.range A.c) p).bind fun p =>
  (forEach (fun s j => forEach (fun (s : TripletArrays F) e => s.push (e.1.val + 1) (j.val + 1) e.2) (A.col j) s)
    (List.finRange A.c) (TripletArrays.new amount)).bind fun s =>
  p.loadMatrix (amount - 1) s.ia s.ja s.ar

/-- `SparseLP::findOptimalVector`, call by call. src/utils/SparseLP.cpp:3-53. -/
def SparseLP.findOptimalVector (glp : Glpk F) (A : SpMat F) (b c : DVec F) (rowRel : DVec Int) (colCons : DVec F)
    (colRel : DVec Int) : Out (Fin A.c → F) :=
  (SparseLP.build A b c rowRel colCons colRel).bind fun p => p.simplex glp A.c

/-- The GLPK problem built by `DenseCenter::getInitialPoint`. src/utils/DenseCenter.cpp:7-49. -/
def DenseCenter.build (A : DMat F) (b : DVec F) : Out (GlpProb F) :=
  let amount := 1 + A.r * (A.c + 1)
  let colLength := A.c + 1
  (GlpProb.create.addRows A.r).bind fun p =>
  (p.addCols colLength).bind fun p =>
  (p.setObjCoef colLength 1).bind fun p =>
  let p := p.setMax
  (forEach (fun (p : GlpProb F) i => (b.get i).bind fun v => p.setRowBnds (i + 1) 3 v v) (List.range b.n) p).bind fun p =>
  (forEach (fun (p : GlpProb F) i => p.setColBnds (i + 1) 1 0 0) (List.range (colLength - 1)) p).bind fun p =>
  (p.setColBnds colLength 2 0 0).bind fun p =>
  (forEach (fun s i =>
    (forEach (fun (s : TripletArrays F) j => s.push (i.val + 1) (j.val + 1) (A.val i j)) (List.finRange A.c) s).bind fun s =>
    s.push (i.val + 1) (A.c + 1) 1) (List.finRange A.r) (TripletArrays.new amount)).bind fun s =>
  p.loadMatrix (s.ind - 1) s.ia s.ja s.ar

/-- `DenseCenter::getInitialPoint`, call by call. src/utils/DenseCenter.cpp:3-61. -/
def DenseCenter.getInitialPointCalls (glp : Glpk F) (A : DMat F) (b : DVec F) : Out (Fin A.c → F) :=
  (DenseCenter.build A b).bind fun p => p.simplex glp A.c

/-- The coefficients of `obj_mat` in `SparseCenter::getInitialPoint`. src/utils/SparseCenter.cpp:38-52. -/
def SparseCenter.triplets (A : SpMat F) (k : ℕ) : List (ℕ × ℕ × F) :=
  ((List.finRange A.c).flatMap fun j => (A.col j).map fun e => (e.1.val, j.val, e.2)) ++
  (List.range k).flatMap fun i => [(A.r + i, A.c - k + i, 1), (A.r + i, A.c, -1)]

/-- `SparseCenter::getInitialPoint`, loop by loop. src/utils/SparseCenter.cpp:3-66. -/
def SparseCenter.getInitialPointCalls (glp : Glpk F) (A : SpMat F) (b : DVec F) (k : Int) : Out (Fin A.c → F) :=
  if k ≤ 0 ∨ (A.c : Int) < k then .throws .badK
  else
    let k := k.toNat
    let rowLength := A.r + k
    let colLength := A.c + 1
    ((DVec.zeros colLength).put (colLength - 1) (1 : F)).bind fun objVec =>
    (forEach (fun (s : DVec F × DVec Int) i => (b.get i).bind fun v => (s.1.put i v).bind fun bnds => (s.2.put i 5).bind fun rel =>
      .ok (bnds, rel)) (List.range b.n) (DVec.zeros rowLength, DVec.zeros rowLength)).bind fun s =>
    (forEach (fun (rel : DVec Int) i => rel.put i 2) (List.range' b.n (rowLength - b.n)) s.2).bind fun rowRel =>
    (forEach (fun (rel : DVec Int) i => rel.put i 1) (List.range (colLength - k - 1)) (DVec.zeros colLength)).bind fun colRel =>
    (forEach (fun (rel : DVec Int) i => rel.put i 2) (List.range' (colLength - k - 1) (k + 1)) colRel).bind fun colRel =>
    (SpMat.ofTriplets rowLength colLength (SparseCenter.triplets A k)).bind fun objMat =>
    (SparseLP.findOptimalVector glp objMat s.1 objVec rowRel (DVec.zeros colLength) colRel).bind fun sol =>
    -- `ans(i) = sol(i)` for `i < sol.rows() - 1`
    if h : objMat.c - 1 = A.c then .ok fun j => sol ⟨j.val, by omega⟩ else .ub .sizeMismatch

/-- `obj_mat` of `findZ`: the transpose of `A` with `b` as an extra row. src/utils/FacialReduction.cpp:17-18, 47-61. -/
def findZMat (A : SpMat F) (b : DVec F) : Out (SpMat F) :=
  (forEach (fun M j => forEach (fun (M : SpMat F) e => M.insert j.val e.1.val e.2) (A.col j) M) (List.finRange A.c)
    (SpMat.empty (A.c + 1) A.r)).bind fun M =>
  forEach (fun (M : SpMat F) i => (b.get i).bind fun v => M.insert A.c i v) (List.range b.n) M

/-- The loop of `findZ`. src/utils/FacialReduction.cpp:66-87. -/
def findZLoopCalls (glp : Glpk F) (A : SpMat F) (objMat : SpMat F) (objVec colBnds : DVec F) (colRel : DVec Int) :
    (left i : ℕ) → (rel : DVec Int) → (bnd : DVec F) → Out (Option (Fin A.c → F) × ℕ)
  | 0, i, _, _ => .ok (none, i)
  | left + 1, i, rel, bnd =>
    (rel.put i 5).bind fun rel => (bnd.put i 1).bind fun bnd =>
    (SparseLP.findOptimalVector glp objMat bnd objVec rel colBnds colRel).bind fun sol =>
    if !(Scalar.eq (vsum fun j => Scalar.abs (sol j)) 0) then
      if h : objMat.c = A.r then .ok (some (mulVec (transp A.coeff) fun j => sol (j.cast h.symm)), i) else .ub .sizeMismatch
    else (rel.put i 2).bind fun rel => (bnd.put i 0).bind fun bnd => findZLoopCalls glp A objMat objVec colBnds colRel left (i + 1) rel bnd

/-- `findZ`, loop by loop; `gi` is `global_index`. src/utils/FacialReduction.cpp:4-89. -/
def findZCalls (glp : Glpk F) (gi : ℕ) (A : SpMat F) (b : DVec F) (xdim : ℕ) : Out (Option (Fin A.c → F) × ℕ) :=
  let rowLength := A.c + 1
  let colLength := A.r
  if colLength = 0 then .ub .indexOutOfRange
  else
    ((DVec.zeros colLength).put (colLength - 1) (1 : F)).bind fun objVec =>
    (forEach (fun (rel : DVec Int) i => if i < xdim then rel.put i 5 else rel.put i 2) (List.range A.c) (DVec.zeros rowLength)).bind fun rel =>
    (rel.put A.c 5).bind fun rel =>
    (forEach (fun (rel : DVec Int) i => rel.put i 1) (List.range colLength) (DVec.zeros colLength)).bind fun colRel =>
    (findZMat A b).bind fun objMat =>
    findZLoopCalls glp A objMat objVec (DVec.zeros colLength) colRel (A.c - gi) gi rel (DVec.zeros rowLength)

/-- The triplets of `pickV` (before the transposition). src/utils/FacialReduction.cpp:94-102. -/
def pickVTriplets {n : ℕ} (ERR : F) (z : Fin n → F) (xdim : ℕ) : List (ℕ × ℕ × F) :=
  let l := (List.range (min xdim n)).map fun i => (i, i, (1 : F))
  (List.finRange n).foldl (fun (l : List (ℕ × ℕ × F)) i =>
    if xdim ≤ i.val ∧ Scalar.lt (z i) ERR then l ++ [(l.length, i.val, 1)] else l) l

/-- The triplets of `pickP`. src/utils/FacialReduction.cpp:115-121. -/
def pickPTriplets {m n : ℕ} (E : Eigen F) (ERR : F) (AV : Matrix (Fin m) (Fin n) F) : List (ℕ × ℕ × F) :=
  let qr := E.sparseQR (transp AV)
  (List.finRange m).foldl (fun (l : List (ℕ × ℕ × F)) i =>
    if h : i.val < n then
      if Scalar.lt ERR (Scalar.abs (qr.R ⟨i.val, h⟩ i)) then l ++ [(l.length, (qr.perm i).val, 1)] else l
    else l) []

end PW
