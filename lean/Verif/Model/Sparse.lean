import Verif.Model.Dense

/-!
# Sparse (constrained) walks (src/sparse)

Polytope `{x | A x = b, last k coordinates >= 0}`; `A` is `m × n`. Sparse matrices are modelled by
their coefficients; where the stored pattern matters (leverage scores) it is the set of non-zero
coefficients.
-/

namespace PW

variable {F : Type} [Scalar F] {m n : ℕ}

/-- Coordinate `i` is one of the last `k` (loop bounds `x.rows() - k <= i < x.rows()`,
e.g. src/sparse/SparseBarrierWalk.cpp:17). -/
def isTail (k : ℕ) (i : Fin n) : Bool := decide (n - k ≤ i.val)

/-- `z.tail(k)`; out of range if `k > n`. src/sparse/SparseRandomWalk.cpp:31. -/
def tail (z : Fin n → F) (k : ℕ) : Out (Fin k → F) :=
  if h : k ≤ n then .ok fun i => z ⟨n - k + i.val, by omega⟩ else .ub .indexOutOfRange

/-- `SparseRandomWalk::inPolytope`: `z.tail(k).minCoeff() >= 0`. src/sparse/SparseRandomWalk.cpp:27-32.
(`c >= 0` is `0 <= c`.) -/
def inPolytopeK (z : Fin n → F) (k : ℕ) : Out Bool :=
  (tail z k).bind fun t => (minCoeff t).bind fun c => .ok (Scalar.le 0 c)

/-- The two checks at the head of every sparse `generateCompleteWalk`, then the body at known
dimensions and valid `k`. src/sparse/SparseBallWalk.cpp:13-18, src/sparse/SparseHitRun.cpp:51-56,
src/sparse/SparseBarrierWalk.cpp:105-111. -/
def checkKDims {α : Type} (k : Int) (init : DVec F) (A : DMat F) (b : DVec F)
    (body : (Fin A.c → F) → (Fin A.r → F) → Out α) : Out α :=
  if k ≤ 0 ∨ (A.c : Int) < k then .throws .badK else checkDims init A b body

/-- The random direction projected on the kernel of `A`:
`z = A * rand; z = rand - A.transpose() * A_solver.solve(z);` with `A_solver` the LU factorisation of
`A * A.transpose()`. src/sparse/SparseBallWalk.cpp:30-33, src/sparse/SparseHitRun.cpp:67-69. -/
def kernelProject (E : Eigen F) (A : Matrix (Fin m) (Fin n) F) (rand : Fin n → F) : Fin n → F :=
  let z := mulVec A rand
  let y := mulVec (transp A) (E.sparseLUSolve (mulMat A (transp A)) z)
  fun i => rand i - y i

/-- `z /= z.norm()`. src/sparse/SparseBallWalk.cpp:34, src/sparse/SparseHitRun.cpp:70. -/
def normalize (z : Fin n → F) : Fin n → F := fun i => z i / norm2 z

/-! ## Sparse ball walk -/

/-- One iteration of the sparse ball walk. src/sparse/SparseBallWalk.cpp:28-39.
`d = A.cols() - A.rows()` is an `int`. -/
def SparseBallWalk.step (R : F) (E : Eigen F) (r : Rng F) (A : Matrix (Fin m) (Fin n) F) (k : ℕ)
    (s : (Fin n → F) × r.G) : Out ((Fin n → F) × r.G) :=
  let x := s.1
  let rand := (r.gaussian n s.2).1
  let g := (r.gaussian n s.2).2
  let z := normalize (kernelProject E A rand)
  let c := R / Scalar.sqrt (Scalar.ofInt ((n : Int) - m))
  let z' : Fin n → F := fun i => c * z i + x i
  (inPolytopeK z' k).bind fun c => if c then .ok (z', g) else .ok (x, g)

/-- `SparseBallWalk::generateCompleteWalk`. src/sparse/SparseBallWalk.cpp:3-45. -/
def SparseBallWalk.generateCompleteWalk (R : F) (E : Eigen F) (r : Rng F) (niter : Int)
    (init : DVec F) (A : DMat F) (b : DVec F) (k burnin thin seed : Int) (rd : BitVec 32) :
    Out (List (Fin A.c → F)) :=
  checkKDims k init A b fun x _ =>
    (runLoop (SparseBallWalk.step R E r A.val k.toNat) Prod.fst niter burnin thin
      (x, r.initRng seed rd)).map Prod.fst

/-! ## Sparse hit and run -/

/-- The doubling loop of `SparseHitAndRun::binarySearch`, `while (iter < MAXITER)`; `none` when the
iteration limit was reached. src/sparse/SparseHitRun.cpp:11-25. -/
def SparseHitRun.expand (inside : (Fin n → F) → Out Bool) (dir x : Fin n → F) :
    (iters : ℕ) → (farth : Fin n → F) → Out (Option (Fin n → F))
  | 0, _ => .ok none
  | iters + 1, farth =>
    let dist := distance x farth
    let farth' : Fin n → F := fun i => x i + two * dist * dir i
    (inside farth').bind fun c =>
    if !c then .ok (some farth') else SparseHitRun.expand inside dir x iters farth'

/-- `const int MAXITER = 10000`. src/sparse/SparseHitRun.cpp:11. -/
def SparseHitRun.maxIter : ℕ := 10000

/-- `SparseHitAndRun::binarySearch`. src/sparse/SparseHitRun.cpp:3-39. The bisection loop (lines 29-37)
is the same as in the dense class. -/
def SparseHitRun.binarySearch (R ERR : F) (fuel : ℕ) (k : ℕ) (dir x : Fin n → F) : Out F :=
  let farth : Fin n → F := fun i => x i + R * dir i
  (SparseHitRun.expand (inPolytopeK · k) dir x SparseHitRun.maxIter farth).bind fun o =>
  match o with
  | none => .ok 0
  | some farth =>
    (HitRun.bisect (inPolytopeK · k) ERR fuel x farth fun i => (x i + farth i) / two).bind
      fun mid => .ok (distance mid x)

/-- One iteration of sparse Hit-and-Run. src/sparse/SparseHitRun.cpp:67-75. -/
def SparseHitRun.step (R ERR : F) (fuel : ℕ) (E : Eigen F) (r : Rng F)
    (A : Matrix (Fin m) (Fin n) F) (k : ℕ) (s : (Fin n → F) × r.G) : Out ((Fin n → F) × r.G) :=
  let x := s.1
  let rand := (r.gaussian n s.2).1
  let g := (r.gaussian n s.2).2
  let z := normalize (kernelProject E A rand)
  (SparseHitRun.binarySearch R ERR fuel k z x).bind fun posSide =>
  (SparseHitRun.binarySearch R ERR fuel k (fun i => -z i) x).bind fun ns =>
  let negSide := -ns
  let val := (r.uniform g).1
  let g' := (r.uniform g).2
  let randomPoint := val * (posSide - negSide) + negSide
  .ok (fun i => randomPoint * z i + x i, g')

/-- `SparseHitAndRun::generateCompleteWalk`. src/sparse/SparseHitRun.cpp:41-83. -/
def SparseHitRun.generateCompleteWalk (R ERR : F) (fuel : ℕ) (E : Eigen F) (r : Rng F) (niter : Int)
    (init : DVec F) (A : DMat F) (b : DVec F) (k burnin thin seed : Int) (rd : BitVec 32) :
    Out (List (Fin A.c → F)) :=
  checkKDims k init A b fun x _ =>
    (runLoop (SparseHitRun.step R ERR fuel E r A.val k.toNat) Prod.fst niter burnin thin
      (x, r.initRng seed rd)).map Prod.fst

/-! ## Leverage scores -/

/-- Stored pattern of the sparse product `AG * AG.transpose()`: rows `r`, `s` meet in a column where
both have an entry. src/sparse/LeverageScore.cpp:20-22. -/
def productPattern (A : Matrix (Fin m) (Fin n) F) (r s : Fin m) : Bool :=
  (List.finRange n).any fun i => !(Scalar.eq (A r i) 0) && !(Scalar.eq (A s i) 0)

/-- The value `z` computed for entry `(j, i)` in the Takahashi recursion; `Lc`, `pat` are the reversed
factor and its pattern, `inv` the entries computed so far (upper triangle, `coeff` of an absent entry
is 0). The C++ loop runs over the stored rows of column `i` in increasing order and breaks at row
`>= i`. src/sparse/LeverageScore.cpp:56-62. -/
def takahashiEntry (Lc : Matrix (Fin m) (Fin m) F) (pat : Fin m → Fin m → Bool) (D : Fin m → F)
    (inv : Fin m → Fin m → F) (i j : Fin m) : F :=
  let z0 : F := if i = j then 1 / D i.rev else 0
  ((List.finRange m).filter fun l => pat l i && decide (l < i)).foldl
    (fun z l => z - Lc l i * (if l ≤ j then inv l j else inv j l)) z0

/-- `if (i <= j) inv.insert(i, j) = z; else inv.insert(j, i) = z;`. src/sparse/LeverageScore.cpp:63-64. -/
def insertSym (inv : Fin m → Fin m → F) (i j : Fin m) (z : F) : Fin m → Fin m → F :=
  if i ≤ j then fun a c => if a = i ∧ c = j then z else inv a c
  else fun a c => if a = j ∧ c = i then z else inv a c

/-- Column `i` of the recursion: the stored rows `j` of column `i`, in increasing order.
src/sparse/LeverageScore.cpp:54-65. -/
def takahashiCol (Lc : Matrix (Fin m) (Fin m) F) (pat : Fin m → Fin m → Bool) (D : Fin m → F)
    (inv : Fin m → Fin m → F) (i : Fin m) : Fin m → Fin m → F :=
  ((List.finRange m).filter fun j => pat j i).foldl
    (fun inv j => insertSym inv i j (takahashiEntry Lc pat D inv i j)) inv

/-- The whole recursion, columns in increasing order, starting from an empty matrix.
src/sparse/LeverageScore.cpp:40-66. -/
def takahashi (Lc : Matrix (Fin m) (Fin m) F) (pat : Fin m → Fin m → Bool) (D : Fin m → F) :
    Fin m → Fin m → F :=
  (List.finRange m).foldl (takahashiCol Lc pat D) fun _ _ => 0

/-- The inverse of `hess` restricted to the pattern of its factor: the recursion is run on the factor
with rows and columns reversed (`perm * L0 * perm`), and its result is reversed back.
src/sparse/LeverageScore.cpp:27-38, 68. -/
def sparseInverse (f : LDLT F m) : Fin m → Fin m → F :=
  let inv := takahashi (fun i j => f.L i.rev j.rev) (fun i j => f.pat i.rev j.rev) f.D
  fun r s => inv r.rev s.rev

/-- `inv.selfadjointView<Lower>()`. src/sparse/LeverageScore.cpp:71. -/
def lowerSym (inv : Fin m → Fin m → F) (r s : Fin m) : F := if s ≤ r then inv r s else inv s r

/-- `VectorXd G_sqrt = W * S_inv` with the first entries overwritten by `ERR`. `W` is a sparse diagonal
matrix, `none` = no stored entry. `junk` is the uninitialised memory of `S_inv`.
src/sparse/LeverageScore.cpp:10-17. -/
def levGSqrt (junk : Fin n → F) (W : Fin n → Option F) (x : Fin n → F) (ERR : F) (k : ℕ) : Fin n → F :=
  let SInv : Fin n → F := fun i => if isTail k i then 1 / x i else junk i
  fun i => if isTail k i then (match W i with
    | some w => w * SInv i
    | none => 0) else ERR

/-- `LeverageScore::generate`. src/sparse/LeverageScore.cpp:4-89. -/
def leverageScore (E : Eigen F) (junk : Fin n → F) (A : Matrix (Fin m) (Fin n) F)
    (W : Fin n → Option F) (x : Fin n → F) (ERR : F) (k : ℕ) : Fin n → F :=
  let GSqrt := levGSqrt junk W x ERR k
  let AG : Matrix (Fin m) (Fin n) F := fun r i => A r i * (1 / GSqrt i)
  let hess := mulMat AG (transp AG)
  let inv := sparseInverse (E.ldlt hess (productPattern A))
  let P : Matrix (Fin m) (Fin n) F := mulMat (lowerSym inv) AG
  fun i => if isTail k i then 1 - vsum fun r => AG r i * P r i else 0

/-! ## Sparse barrier walks -/

/-- The virtual functions of a `SparseBarrierWalk` subclass. src/sparse/SparseBarrierWalk.hpp:22-26, 57.
The argument `junk` stands for uninitialised memory the function may read. -/
structure SparseBarrierClass (F σ : Type) where
  /-- `setDistTerm(int d, int n)` -/
  setDistTerm : σ → Int → Int → Out σ
  /-- the member `DIST_TERM` -/
  distTerm : σ → F
  /-- `generateWeight(x, A, k)` -/
  generateWeight : {m n : ℕ} → (junk : Fin n → F) → σ → (Fin n → F) → Matrix (Fin m) (Fin n) F → ℕ →
    Out (DVec F × σ)

/-- `generateSlackInverse`: `1/x(i)` on the last `k` coordinates, uninitialised memory elsewhere.
src/sparse/SparseBarrierWalk.cpp:15-20. -/
def generateSlackInverse (junk x : Fin n → F) (k : ℕ) : Fin n → F :=
  fun i => if isTail k i then 1 / x i else junk i

/-- Diagonal of `G = slack_inv * W * slack_inv` with the first `n - k` entries overwritten by `ERR`.
src/sparse/SparseBarrierWalk.cpp:32-35, 62-65. All factors are diagonal; the model keeps diagonals. -/
def metricG (ERR : F) (junk x : Fin n → F) (w : Fin n → F) (k : ℕ) : Fin n → F :=
  let s := generateSlackInverse junk x k
  let G : Fin n → F := fun i => s i * w i * s i
  fun i => if isTail k i then G i else ERR

/-- Weights at `x` and the resulting metric. `slack_inv * W` with `W` of another size is an Eigen
assertion failure. src/sparse/SparseBarrierWalk.cpp:32-35, 62-65. -/
def generateG {σ : Type} (cls : SparseBarrierClass F σ) (ERR : F) (junk : Fin n → F) (o : σ)
    (x : Fin n → F) (A : Matrix (Fin m) (Fin n) F) (k : ℕ) : Out ((Fin n → F) × σ) :=
  (cls.generateWeight junk o x A k).bind fun wo =>
  if h : wo.1.n = n then .ok (metricG ERR junk x (wo.1.at h) k, wo.2) else .ub .sizeMismatch

/-- Diagonal of `G_inv_sqrt`: `diagonal().cwiseInverse().cwiseSqrt()`.
src/sparse/SparseBarrierWalk.cpp:37, 67. -/
def invSqrt (G : Fin n → F) : Fin n → F := fun i => Scalar.sqrt (1 / G i)

/-- `A * G_inv_sqrt`. src/sparse/SparseBarrierWalk.cpp:39, 68. -/
def scaleCols (A : Matrix (Fin m) (Fin n) F) (h : Fin n → F) : Matrix (Fin m) (Fin n) F :=
  fun r i => A r i * h i

/-- The proposal computed from the metric `G` and the Gaussian vector `rand`.
src/sparse/SparseBarrierWalk.cpp:37-53. -/
def SparseBarrier.proposal (E : Eigen F) (D : F) (G : Fin n → F) (A : Matrix (Fin m) (Fin n) F)
    (x rand : Fin n → F) : Fin n → F :=
  let h := invSqrt G
  let AG := scaleCols A h
  let res := mulMat AG (transp AG)
  let z := mulVec AG rand
  let z := mulVec (transp AG) (E.sparseLLTSolve res z)
  fun i => x i + Scalar.sqrt D * (h i * (rand i - z i))

/-- `generateSample`; the check of `k` at its head cannot fail when called from
`generateCompleteWalk`, it is modelled anyway. src/sparse/SparseBarrierWalk.cpp:22-54. -/
def SparseBarrier.generateSample {σ : Type} (cls : SparseBarrierClass F σ) (ERR : F) (E : Eigen F)
    (r : Rng F) (junk : Fin n → F) (A : Matrix (Fin m) (Fin n) F) (k : ℕ) (x : Fin n → F) (o : σ)
    (g : r.G) : Out ((Fin n → F) × σ × r.G) :=
  if k = 0 ∨ n < k then .throws .badK
  else
    (generateG cls ERR junk o x A k).bind fun Go =>
    let rand := (r.gaussian n g).1
    let g := (r.gaussian n g).2
    .ok (SparseBarrier.proposal E (cls.distTerm Go.2) Go.1 A x rand, Go.2, g)

/-- The log density computed from the metric `G` at `x` for the displacement `z - x`.
src/sparse/SparseBarrierWalk.cpp:67-92. `A_solver` is the LU factorisation of `A * A.transpose()`. -/
def SparseBarrier.logDensity (E : Eigen F) (D : F) (G : Fin n → F) (A : Matrix (Fin m) (Fin n) F)
    (x z : Fin n → F) : F :=
  let AG := scaleCols A (invSqrt G)
  let det1 := vsum fun i => Scalar.log (G i)
  let mat := mulMat AG (transp AG)
  let det2 := two * logDiagSum (E.sparseLLTL mat)
  let det := det1 + det2
  let diff : Fin n → F := fun i => z i - x i
  let Qx := mulVec (transp A) (E.sparseLUSolve (mulMat A (transp A)) (mulVec A diff))
  let Qx : Fin n → F := fun i => diff i - Qx i
  let dist := vsum fun i => Qx i * (G i * Qx i)
  half * det - half / D * dist

/-- `generateProposalDensity`. src/sparse/SparseBarrierWalk.cpp:56-93. -/
def SparseBarrier.generateProposalDensity {σ : Type} (cls : SparseBarrierClass F σ) (ERR : F)
    (E : Eigen F) (junk : Fin n → F) (A : Matrix (Fin m) (Fin n) F) (k : ℕ) (o : σ)
    (x z : Fin n → F) : Out (F × σ) :=
  (generateG cls ERR junk o x A k).bind fun Go =>
  .ok (SparseBarrier.logDensity E (cls.distTerm Go.2) Go.1 A x z, Go.2)

/-- One iteration of the sparse barrier walk. src/sparse/SparseBarrierWalk.cpp:121-128. -/
def SparseBarrier.step {σ : Type} (cls : SparseBarrierClass F σ) (ERR : F) (E : Eigen F) (r : Rng F)
    (junk : Fin n → F) (A : Matrix (Fin m) (Fin n) F) (k : ℕ) (s : (Fin n → F) × σ × r.G) :
    Out ((Fin n → F) × σ × r.G) :=
  let x := s.1
  (SparseBarrier.generateSample cls ERR E r junk A k x s.2.1 s.2.2).bind fun zog =>
  let z := zog.1
  let o := zog.2.1
  let g := zog.2.2
  (inPolytopeK z k).bind fun c =>
  if c then
    (SparseBarrier.generateProposalDensity cls ERR E junk A k o x z).bind fun p =>
    let gxz := p.1
    (SparseBarrier.generateProposalDensity cls ERR E junk A k p.2 z x).bind fun p =>
    let gzx := p.1
    let val := (r.uniform g).1
    let g := (r.uniform g).2
    .ok (if mhAccept gzx gxz val then z else x, p.2, g)
  else .ok (x, o, g)

/-- `SparseBarrierWalk::generateCompleteWalk`. src/sparse/SparseBarrierWalk.cpp:95-136.
`setDistTerm(A.cols() - A.rows(), k)`. `junk` is the uninitialised memory (its content may differ from
call to call; the theorems show that it does not matter). -/
def SparseBarrier.generateCompleteWalk {σ : Type} (cls : SparseBarrierClass F σ) (ERR : F)
    (E : Eigen F) (r : Rng F) (o : σ) (niter : Int) (init : DVec F) (A : DMat F) (b : DVec F)
    (k burnin thin seed : Int) (rd : BitVec 32) (junk : Fin A.c → F) :
    Out (List (Fin A.c → F) × σ) :=
  checkKDims k init A b fun x _ =>
    (cls.setDistTerm o ((A.c : Int) - A.r) k).bind fun o =>
    (runLoop (SparseBarrier.step cls ERR E r junk A.val k.toNat) Prod.fst niter burnin thin
      (x, o, r.initRng seed rd)).map fun p => (p.1, p.2.2.1)

/-! ### The library's sparse barrier classes -/

/-- `SparseBarrierWalk` itself. src/sparse/SparseBarrierWalk.cpp:3-13. -/
def sparseBarrierClass : SparseBarrierClass F (BState F) where
  setDistTerm o _ _ := .ok { o with dist := 0 }
  distTerm o := o.dist
  generateWeight {_ n} _ o _ _ _ := .ok (ones n, o)

/-- `SparseDikinWalk`. src/sparse/SparseDikinWalk.cpp:3-14. -/
def sparseDikinClass (R : F) : SparseBarrierClass F (BState F) where
  setDistTerm o d _ := .ok { o with dist := R * R / Scalar.ofInt d }
  distTerm o := o.dist
  generateWeight {_ n} _ o _ _ _ := .ok (ones n, o)

/-- `SparseVaidyaWalk::generateWeight`. src/sparse/SparseVaidyaWalk.cpp:4-22. -/
def sparseVaidyaWeight (E : Eigen F) (ERR : F) (junk x : Fin n → F) (A : Matrix (Fin m) (Fin n) F)
    (k : ℕ) : Fin n → F :=
  let W : Fin n → Option F := fun i => if isTail k i then some 1 else none
  let weights := leverageScore E junk A W x ERR k
  fun i => if isTail k i then weights i + Scalar.ofInt ((n : Int) - m) / Scalar.ofInt k
    else weights i

/-- `SparseVaidyaWalk`. src/sparse/SparseVaidyaWalk.cpp:4-26. `n * d` is an `int` product. -/
def sparseVaidyaClass (E : Eigen F) (ERR R : F) : SparseBarrierClass F (BState F) where
  setDistTerm o d n := (toInt (n * d)).bind fun nd =>
    .ok { o with dist := R * R / Scalar.sqrt (Scalar.ofInt nd) }
  distTerm o := o.dist
  generateWeight {_ n} junk o x A k := .ok (⟨n, sparseVaidyaWeight E ERR junk x A k⟩, o)

/-- `W.coeffRef(j, j) = pow(w_i(j), alpha * 0.5)` on the last `k` coordinates.
src/sparse/SparseJohnWalk.cpp:30-33, src/sparse/SparseDikinLSWalk.cpp:28-34. -/
def powDiag (alpha : F) (w : Fin n → F) (k : ℕ) : Fin n → Option F :=
  fun i => if isTail k i then some (Scalar.pow (w i) (alpha * half)) else none

/-- The first `n - k` entries set to 0. src/sparse/SparseJohnWalk.cpp:21-24,
src/sparse/SparseDikinLSWalk.cpp:22-25. -/
def zeroHead (w : Fin n → F) (k : ℕ) : Fin n → F := fun i => if isTail k i then w i else 0

/-- `alpha = 1 - 1/(log2(2.0 * n / d))`, `d = A.cols() - A.rows()`, `n = k`, all `double`.
src/sparse/SparseJohnWalk.cpp:9-11. -/
def sparseJohnAlpha (d k : Int) : F := 1 - 1 / Scalar.log2 (two * Scalar.ofInt k / Scalar.ofInt d)

/-- `beta = d / (2.0 * n)`. src/sparse/SparseJohnWalk.cpp:12. -/
def sparseJohnBeta (d k : Int) : F := Scalar.ofInt d / (two * Scalar.ofInt k)

/-- One fixed point update of the sparse John weights. src/sparse/SparseJohnWalk.cpp:30-35. -/
def sparseJohnNext (E : Eigen F) (ERR : F) (junk x : Fin n → F) (A : Matrix (Fin m) (Fin n) F)
    (k : ℕ) (w : Fin n → F) : Fin n → F :=
  let d : Int := (n : Int) - m
  let betaOnes := zeroHead (fun _ => sparseJohnBeta d k * 1) k
  let score := leverageScore E junk A (powDiag (sparseJohnAlpha d k) w k) x ERR k
  fun i => half * cmax (w i + score i + betaOnes i) (betaOnes i)

/-- `SparseJohnWalk::generateWeight`, also reporting convergence. src/sparse/SparseJohnWalk.cpp:4-44. -/
def sparseJohnWeightConv (E : Eigen F) (ERR LIM : F) (MAXITER : Int) (w : DVec F)
    (junk x : Fin n → F) (A : Matrix (Fin m) (Fin n) F) (k : ℕ) : Out ((Fin n → F) × Bool) :=
  (warmStart w n).bind fun w0 =>
  johnLoop (sparseJohnNext E ERR junk x A k) (fun nw w i => Scalar.abs (w i - nw i)) LIM
    MAXITER.toNat (zeroHead w0 k) (zeroHead w0 k)

/-- `SparseJohnWalk`. src/sparse/SparseJohnWalk.cpp:4-49. -/
def sparseJohnClass (E : Eigen F) (ERR R LIM : F) (MAXITER : Int) :
    SparseBarrierClass F (BState F) where
  setDistTerm _ d _ :=
    if d < 0 then .ub .negativeSize
    else .ok ⟨R * R / Scalar.pow (Scalar.ofInt d) (Scalar.ofInt 3 / Scalar.ofInt 2), ones d.toNat⟩
  distTerm o := o.dist
  generateWeight {_ n} junk o x A k :=
    (sparseJohnWeightConv E ERR LIM MAXITER o.w junk x A k).map fun wc =>
      (⟨n, wc.1⟩, { o with w := ⟨n, wc.1⟩ })

/-- The gradient of the sparse Lee-Sidford weights: `term1 - term2a .* term2b`.
src/sparse/SparseDikinLSWalk.cpp:19, 22-25, 28-41. -/
def sparseLSGrad (E : Eigen F) (ERR : F) (junk x : Fin n → F) (A : Matrix (Fin m) (Fin n) F) (k : ℕ)
    (w : Fin n → F) : Fin n → F :=
  let alpha : F := lsAlpha k
  let term1 := zeroHead (fun _ => alpha * 1) k
  let term2a : Fin n → F := fun i => if isTail k i then alpha / w i else 0
  let term2b := leverageScore E junk A (powDiag alpha w k) x ERR k
  fun i => term1 i - term2a i * term2b i

/-- `w_i = w_i - STEP_SIZE * grad; w_i(j) = max(w_i(j), ERR)` on the last `k`.
src/sparse/SparseDikinLSWalk.cpp:45-48. -/
def sparseLSUpdate (ERR STEP : F) (k : ℕ) (w g : Fin n → F) : Fin n → F :=
  let w' : Fin n → F := fun i => w i - STEP * g i
  fun i => if isTail k i then cmax (w' i) ERR else w' i

/-- `SparseDikinLSWalk::generateWeight`, also reporting convergence.
src/sparse/SparseDikinLSWalk.cpp:2-52. -/
def sparseLSWeightConv (E : Eigen F) (ERR GLIM STEP : F) (MAXITER : Int) (w : DVec F)
    (junk x : Fin n → F) (A : Matrix (Fin m) (Fin n) F) (k : ℕ) : Out ((Fin n → F) × Bool) :=
  (warmStart w n).bind fun w0 =>
  .ok (lsLoop (sparseLSGrad E ERR junk x A k) (sparseLSUpdate ERR STEP k) GLIM MAXITER.toNat
    (zeroHead w0 k))

/-- `SparseDikinLSWalk`. src/sparse/SparseDikinLSWalk.cpp:2-59. -/
def sparseDikinLSClass (E : Eigen F) (ERR R GLIM STEP : F) (MAXITER : Int) :
    SparseBarrierClass F (BState F) where
  setDistTerm _ d n :=
    if d < 0 then .ub .negativeSize
    else .ok ⟨R * R / ((1 + lsQ n) * (1 + lsQ n * lsQ n)), ones d.toNat⟩
  distTerm o := o.dist
  generateWeight {_ n} junk o x A k :=
    (sparseLSWeightConv E ERR GLIM STEP MAXITER o.w junk x A k).map fun wc =>
      (⟨n, wc.1⟩, { o with w := ⟨n, wc.1⟩ })

end PW
