import Verif.Model.Loop
import Verif.Model.Rng
import Verif.Model.Eigen

/-!
# Dense walks (src/dense)
-/

namespace PW

variable {F : Type} [Scalar F] {m n : ℕ}

/-- `RandomWalk::inPolytope`: `((A * vec) - b).maxCoeff() <= 0`. src/dense/RandomWalk.cpp:3-5. -/
def inPolytope (x : Fin n → F) (A : Matrix (Fin m) (Fin n) F) (b : Fin m → F) : Out Bool :=
  (maxCoeff fun i => mulVec A x i - b i).bind fun c => .ok (Scalar.le c 0)

/-- The dimension check at the head of every dense `generateCompleteWalk`, then the body at known
dimensions. src/dense/BallWalk.cpp:7-9, src/dense/HitRun.cpp:37-39, src/dense/BarrierWalk.cpp:73-75. -/
def checkDims {α : Type} (init : DVec F) (A : DMat F) (b : DVec F)
    (body : (Fin A.c → F) → (Fin A.r → F) → Out α) : Out α :=
  if h : init.n = A.c ∧ A.r = b.n then body (init.at h.1) (b.at h.2.symm)
  else .throws .badDims

/-! ## Ball walk -/

/-- One iteration of the Ball walk: proposal `generateGaussianRVNorm(n, gen) * R/sqrt(d) + x`,
accepted if in the polytope. src/dense/BallWalk.cpp:18-22. -/
def BallWalk.step (R : F) (r : Rng F) (A : Matrix (Fin m) (Fin n) F) (b : Fin m → F)
    (s : (Fin n → F) × r.G) : Out ((Fin n → F) × r.G) :=
  let dir := (r.gaussianNorm n s.2).1
  let g := (r.gaussianNorm n s.2).2
  let newX : Fin n → F := fun i => dir i * R / Scalar.sqrt (Scalar.ofInt n) + s.1 i
  (inPolytope newX A b).bind fun c => if c then .ok (newX, g) else .ok (s.1, g)

/-- `BallWalk::generateCompleteWalk`. src/dense/BallWalk.cpp:4-29. `rd` is the entropy word. -/
def BallWalk.generateCompleteWalk (R : F) (r : Rng F) (niter : Int) (init : DVec F) (A : DMat F)
    (b : DVec F) (burnin thin seed : Int) (rd : BitVec 32) : Out (List (Fin A.c → F)) :=
  checkDims init A b fun x b =>
    (runLoop (BallWalk.step R r A.val b) Prod.fst niter burnin thin (x, r.initRng seed rd)).map
      Prod.fst

/-! ## Hit and run -/

/-- `HitAndRun::distance`. src/dense/HitRun.cpp:3-5. -/
def distance (x y : Fin n → F) : F := norm2 fun i => x i - y i

/-- The doubling loop `while (true)` of `HitAndRun::binarySearch`; returns the first point found
outside. src/dense/HitRun.cpp:12-18. -/
def HitRun.expand (inside : (Fin n → F) → Out Bool) (dir x : Fin n → F) :
    (fuel : ℕ) → (farth : Fin n → F) → Out (Fin n → F)
  | 0, _ => .timeout
  | fuel + 1, farth =>
    let dist := distance x farth
    let farth' : Fin n → F := fun i => x i + two * dist * dir i
    (inside farth').bind fun c => if !c then .ok farth' else HitRun.expand inside dir x fuel farth'

/-- The bisection loop of `HitAndRun::binarySearch`
(`while (distance(left, right) > ERR || !inPolytope(mid))`). src/dense/HitRun.cpp:23-30. -/
def HitRun.bisect (inside : (Fin n → F) → Out Bool) (ERR : F) :
    (fuel : ℕ) → (left right mid : Fin n → F) → Out (Fin n → F)
  | fuel, left, right, mid =>
    (if Scalar.lt ERR (distance left right) then Out.ok true
      else (inside mid).bind fun c => .ok (!c)).bind fun continue_ =>
    if continue_ then
      match fuel with
      | 0 => .timeout
      | fuel + 1 =>
        let mid' : Fin n → F := fun i => (left i + right i) / two
        (inside mid').bind fun c =>
        if c then HitRun.bisect inside ERR fuel mid' right mid'
        else HitRun.bisect inside ERR fuel left mid' mid'
    else .ok mid

/-- `HitAndRun::binarySearch`. src/dense/HitRun.cpp:7-34. Each of the two loops gets `fuel`
iterations. -/
def HitRun.binarySearch (R ERR : F) (fuel : ℕ) (A : Matrix (Fin m) (Fin n) F) (b : Fin m → F)
    (dir x : Fin n → F) : Out F :=
  let farth : Fin n → F := fun i => x i + R * dir i
  (HitRun.expand (inPolytope · A b) dir x fuel farth).bind fun farth =>
  (HitRun.bisect (inPolytope · A b) ERR fuel x farth fun i => (x i + farth i) / two).bind fun mid =>
  .ok (distance mid x)

/-- One iteration of Hit-and-Run. src/dense/HitRun.cpp:49-55. -/
def HitRun.step (R ERR : F) (fuel : ℕ) (r : Rng F) (A : Matrix (Fin m) (Fin n) F) (b : Fin m → F)
    (s : (Fin n → F) × r.G) : Out ((Fin n → F) × r.G) :=
  let x := s.1
  let dir := (r.gaussianNorm n s.2).1
  let g := (r.gaussianNorm n s.2).2
  (HitRun.binarySearch R ERR fuel A b dir x).bind fun posSide =>
  (HitRun.binarySearch R ERR fuel A b (fun i => dir i * Scalar.ofInt (-1)) x).bind fun ns =>
  let negSide := ns * Scalar.ofInt (-1)
  let val := (r.uniform g).1
  let g' := (r.uniform g).2
  let randomPoint := val * (posSide - negSide) + negSide
  .ok (fun i => randomPoint * dir i + x i, g')

/-- `HitAndRun::generateCompleteWalk`. src/dense/HitRun.cpp:36-62. -/
def HitRun.generateCompleteWalk (R ERR : F) (fuel : ℕ) (r : Rng F) (niter : Int) (init : DVec F)
    (A : DMat F) (b : DVec F) (burnin thin seed : Int) (rd : BitVec 32) :
    Out (List (Fin A.c → F)) :=
  checkDims init A b fun x b =>
    (runLoop (HitRun.step R ERR fuel r A.val b) Prod.fst niter burnin thin
      (x, r.initRng seed rd)).map Prod.fst

/-! ## Barrier walks -/

/-- The virtual functions of a `BarrierWalk` subclass, over an object state `σ`.
src/dense/BarrierWalk.hpp:22, 42. `generateWeight` may have any length (the base class returns a
vector of length 1). -/
structure BarrierClass (F σ : Type) where
  /-- `setDistTerm(int d, int n)` -/
  setDistTerm : σ → Int → Int → Out σ
  /-- the member `DIST_TERM` -/
  distTerm : σ → F
  /-- `generateWeight(x, A, b)` -/
  generateWeight : {m n : ℕ} → σ → (Fin n → F) → Matrix (Fin m) (Fin n) F → (Fin m → F) →
    Out (DVec F × σ)

/-- `generateSlack`: `b - A * x`. src/dense/BarrierWalk.cpp:16-18. -/
def generateSlack (x : Fin n → F) (A : Matrix (Fin m) (Fin n) F) (b : Fin m → F) : Fin m → F :=
  fun i => b i - mulVec A x i

/-- `localNorm`: `((v.transpose() * m) * v)(0)`. src/dense/BarrierWalk.cpp:20-22. -/
def localNorm (v : Fin n → F) (M : Matrix (Fin n) (Fin n) F) : F :=
  vsum fun j => (vsum fun i => v i * M i j) * v j

/-- `A.transpose() * middle * A` with `middle = slack_inv * weights * slack_inv` diagonal.
src/dense/BarrierWalk.cpp:31-35. -/
def hessianOf (w : Fin m → F) (x : Fin n → F) (A : Matrix (Fin m) (Fin n) F) (b : Fin m → F) :
    Matrix (Fin n) (Fin n) F :=
  let slackInv : Fin m → F := fun i => 1 / generateSlack x A b i
  let middle : Fin m → F := fun i => slackInv i * w i * slackInv i
  mulMat (fun i j => transp A i j * middle j) A

/-- `generateHessian`. src/dense/BarrierWalk.cpp:29-36. A weight vector of the wrong length is an Eigen
assertion failure in `cwiseProduct`. -/
def generateHessian {σ : Type} (cls : BarrierClass F σ) (o : σ) (x : Fin n → F)
    (A : Matrix (Fin m) (Fin n) F) (b : Fin m → F) : Out (Matrix (Fin n) (Fin n) F × σ) :=
  (cls.generateWeight o x A b).bind fun wo =>
  if h : wo.1.n = m then .ok (hessianOf (wo.1.at h) x A b, wo.2) else .ub .sizeMismatch

/-- `L.diagonal().array().log().sum()`. src/dense/BarrierWalk.cpp:53, 60. -/
def logDiagSum (L : Matrix (Fin n) (Fin n) F) : F := vsum fun i => Scalar.log (L i i)

/-- The log proposal density (up to a constant) used in the accept/reject step:
`det + dist` with `dist = -(0.5/DIST_TERM) * localNorm(x - prop, hess)`.
src/dense/BarrierWalk.cpp:53-55 and 60-62. -/
def BarrierWalk.logDensity (D : F) (L hess : Matrix (Fin n) (Fin n) F) (x prop : Fin n → F) : F :=
  logDiagSum L + -(half / D) * localNorm (fun i => x i - prop i) hess

/-- `double alpha = min(1.0, exp(g_z_x-g_x_z)); val < alpha`.
src/dense/BarrierWalk.cpp:65-67, src/sparse/SparseBarrierWalk.cpp:125-127. -/
def mhAccept (gzx gxz val : F) : Bool :=
  Scalar.lt val (cmin 1 (Scalar.exp (gzx - gxz)))

/-- The proposal `x + sqrt(DIST_TERM) * (lu.solve(direction))`.
src/dense/BarrierWalk.cpp:43-47. -/
def BarrierWalk.proposal (E : Eigen F) (D : F) (hess : Matrix (Fin n) (Fin n) F)
    (x direction : Fin n → F) : Fin n → F :=
  let L := E.lltL hess
  let y := E.luSolve L direction
  fun i => x i + Scalar.sqrt D * y i

/-- `BarrierWalk::generateSample`. src/dense/BarrierWalk.cpp:38-69. -/
def BarrierWalk.generateSample {σ : Type} (cls : BarrierClass F σ) (E : Eigen F) (r : Rng F)
    (A : Matrix (Fin m) (Fin n) F) (b : Fin m → F) (x : Fin n → F) (o : σ) (g : r.G) :
    Out ((Fin n → F) × σ × r.G) :=
  (generateHessian cls o x A b).bind fun ho =>
  let hess := ho.1
  let o := ho.2
  let D := cls.distTerm o
  let L := E.lltL hess
  let direction := (r.gaussian n g).1
  let g := (r.gaussian n g).2
  let prop := BarrierWalk.proposal E D hess x direction
  (inPolytope prop A b).bind fun c =>
  if !c then .ok (x, o, g)
  else
    let gxz := BarrierWalk.logDensity D L hess x prop
    (generateHessian cls o prop A b).bind fun ho =>
    let hess := ho.1
    let o := ho.2
    let D := cls.distTerm o
    let L := E.lltL hess
    let gzx := BarrierWalk.logDensity D L hess x prop
    let val := (r.uniform g).1
    let g := (r.uniform g).2
    .ok (if mhAccept gzx gxz val then prop else x, o, g)

/-- One loop iteration: `x = generateSample(x, A, b, gen)`. src/dense/BarrierWalk.cpp:84-85. -/
def BarrierWalk.step {σ : Type} (cls : BarrierClass F σ) (E : Eigen F) (r : Rng F)
    (A : Matrix (Fin m) (Fin n) F) (b : Fin m → F) (s : (Fin n → F) × σ × r.G) :
    Out ((Fin n → F) × σ × r.G) :=
  BarrierWalk.generateSample cls E r A b s.1 s.2.1 s.2.2

/-- `BarrierWalk::generateCompleteWalk`; returns the samples and the updated walk object.
src/dense/BarrierWalk.cpp:71-92. -/
def BarrierWalk.generateCompleteWalk {σ : Type} (cls : BarrierClass F σ) (E : Eigen F) (r : Rng F)
    (o : σ) (niter : Int) (init : DVec F) (A : DMat F) (b : DVec F) (burnin thin seed : Int)
    (rd : BitVec 32) : Out (List (Fin A.c → F) × σ) :=
  checkDims init A b fun x b =>
    (cls.setDistTerm o A.c A.r).bind fun o =>
    (runLoop (BarrierWalk.step cls E r A.val b) Prod.fst niter burnin thin
      (x, o, r.initRng seed rd)).map fun p => (p.1, p.2.2.1)

/-! ### The library's barrier classes -/

/-- Members of the barrier walk objects: `DIST_TERM` (src/dense/BarrierWalk.hpp:55) and the warm-start
weights `w_i` (src/dense/JohnWalk.hpp:50, src/dense/DikinLSWalk.hpp:54). -/
structure BState (F : Type) where
  /-- `DIST_TERM` -/
  dist : F
  /-- `w_i` -/
  w : DVec F

/-- `VectorXd::Ones(n)`. -/
def ones (n : ℕ) : DVec F := ⟨n, fun _ => 1⟩

/-- A freshly constructed object: `DIST_TERM` is uninitialised (`junk`), `w_i = Zero(1) - Ones(1)`.
src/dense/JohnWalk.hpp:50, src/dense/DikinLSWalk.hpp:54. -/
def BState.fresh (junk : F) : BState F := ⟨junk, ⟨1, fun _ => 0 - 1⟩⟩

/-- `BarrierWalk` itself. src/dense/BarrierWalk.cpp:3-5, 24-27. -/
def barrierClass (R : F) : BarrierClass F (BState F) where
  setDistTerm o _ n := .ok { o with dist := R * R / Scalar.ofInt n }
  distTerm o := o.dist
  generateWeight o _ _ _ := .ok (ones 1, o)

/-- `DikinWalk`. src/dense/DikinWalk.cpp:3-10. -/
def dikinClass (R : F) : BarrierClass F (BState F) where
  setDistTerm o d _ := .ok { o with dist := R * R / Scalar.ofInt d }
  distTerm o := o.dist
  generateWeight {m _} o _ _ _ := .ok (ones m, o)

/-- Leverage scores of the rows of `M`:
`(M * (M.transpose() * M).inverse()).cwiseProduct(M).rowwise().sum()`.
src/dense/VaidyaWalk.cpp:13, src/dense/JohnWalk.cpp:34, src/dense/DikinLSWalk.cpp:40. -/
def levScores (E : Eigen F) (M : Matrix (Fin m) (Fin n) F) : Fin m → F :=
  let B := mulMat M (E.inv (mulMat (transp M) M))
  fun i => vsum fun j => B i j * M i j

/-- `slack_inv * A`. src/dense/VaidyaWalk.cpp:8-10, src/dense/JohnWalk.cpp:12-19,
src/dense/DikinLSWalk.cpp:19-21. -/
def scaledA (x : Fin n → F) (A : Matrix (Fin m) (Fin n) F) (b : Fin m → F) :
    Matrix (Fin m) (Fin n) F :=
  fun i j => 1 / generateSlack x A b i * A i j

/-- `VaidyaWalk::generateWeight`. src/dense/VaidyaWalk.cpp:7-18. -/
def vaidyaWeight (E : Eigen F) (x : Fin n → F) (A : Matrix (Fin m) (Fin n) F) (b : Fin m → F) :
    Fin m → F :=
  fun i => levScores E (scaledA x A b) i + Scalar.ofInt n / Scalar.ofInt m

/-- `VaidyaWalk`. src/dense/VaidyaWalk.cpp:3-18. `d * n` is an `int` product. -/
def vaidyaClass (E : Eigen F) (R : F) : BarrierClass F (BState F) where
  setDistTerm o d n := (toInt (d * n)).bind fun dn =>
    .ok { o with dist := R * R / Scalar.sqrt (Scalar.ofInt dn) }
  distTerm o := o.dist
  generateWeight {m _} o x A b := .ok (⟨m, vaidyaWeight E x A b⟩, o)

/-- `VectorXd(w.array().pow(alpha * 0.5)).asDiagonal() * A_x`.
src/dense/JohnWalk.cpp:32-33, src/dense/DikinLSWalk.cpp:35-38. -/
def powScaled (alpha : F) (w : Fin m → F) (Ax : Matrix (Fin m) (Fin n) F) :
    Matrix (Fin m) (Fin n) F :=
  fun i j => Scalar.pow (w i) (alpha * half) * Ax i j

/-- `if (w_i.coeffRef(0) == -1 || w_i.rows() != A.rows()) w_i = VectorXd::Ones(A.rows());`
src/dense/JohnWalk.cpp:15-17, src/dense/DikinLSWalk.cpp:15-17, src/sparse/SparseJohnWalk.cpp:14-16,
src/sparse/SparseDikinLSWalk.cpp:14-16. Reading coefficient 0 of an empty vector is out of range. -/
def warmStart (w : DVec F) (m : ℕ) : Out (Fin m → F) :=
  if h0 : 0 < w.n then
    if h : w.n = m then
      if Scalar.eq (w.val ⟨0, h0⟩) (Scalar.ofInt (-1)) then .ok fun _ => 1 else .ok (w.at h)
    else .ok fun _ => 1
  else .ub .indexOutOfRange

/-- The exponent of the dense John walk: `1 - 1/(log2(2 * A.rows() / A.cols()))` where the division
`2 * A.rows() / A.cols()` is an *integer* division. src/dense/JohnWalk.cpp:9. -/
def johnAlpha (m n : ℕ) : Out F :=
  if n = 0 then .ub .divByZero
  else .ok (1 - 1 / Scalar.log2 (Scalar.ofInt ((2 * m / n : ℕ) : Int)))

/-- `(double)A.cols() / (2 * A.rows())`. src/dense/JohnWalk.cpp:10. -/
def johnBeta (m n : ℕ) : F := Scalar.ofInt n / Scalar.ofInt (2 * m : ℕ)

/-- One fixed point update `0.5 * (w_i + score + beta_ones).cwiseMax(beta_ones)`.
src/dense/JohnWalk.cpp:32-36. -/
def johnNext (E : Eigen F) (alpha beta : F) (Ax : Matrix (Fin m) (Fin n) F) (w : Fin m → F) :
    Fin m → F :=
  fun i => half * cmax (w i + levScores E (powScaled alpha w Ax) i + beta) beta

/-- The fixed point loop. State: `w_i`, `next_weight`. src/dense/JohnWalk.cpp:29-40 and
src/sparse/SparseJohnWalk.cpp:28-40 (which compares `|w_i - next|` instead of `|next - w_i|`; `diff` is
the absolute difference vector). Returns the final `w_i` and whether the loop was left by `break`. -/
def johnLoop (next : (Fin m → F) → Fin m → F) (diff : (Fin m → F) → (Fin m → F) → Fin m → F) (LIM : F) :
    (iters : ℕ) → (w nextW : Fin m → F) → Out ((Fin m → F) × Bool)
  | 0, w, _ => .ok (w, false)
  | k + 1, _, nextW =>
    let w := nextW
    let nextW := next w
    (maxCoeff (diff nextW w)).bind fun c =>
    if Scalar.lt c LIM then .ok (w, true) else johnLoop next diff LIM k w nextW

/-- `JohnWalk::generateWeight`, also reporting whether the iteration stopped by its criterion.
src/dense/JohnWalk.cpp:8-44. -/
def johnWeightConv (E : Eigen F) (LIM : F) (MAXITER : Int) (w : DVec F) (x : Fin n → F)
    (A : Matrix (Fin m) (Fin n) F) (b : Fin m → F) : Out ((Fin m → F) × Bool) :=
  (johnAlpha m n).bind fun alpha =>
  (warmStart w m).bind fun w0 =>
  johnLoop (johnNext E alpha (johnBeta m n) (scaledA x A b))
    (fun nw w i => Scalar.abs (nw i - w i)) LIM MAXITER.toNat w0 w0

/-- `JohnWalk`. src/dense/JohnWalk.cpp:3-44. `MAXITER` is an `int` stored as `double`. -/
def johnClass (E : Eigen F) (R LIM : F) (MAXITER : Int) : BarrierClass F (BState F) where
  setDistTerm _ d n :=
    if n < 0 then .ub .negativeSize
    else .ok ⟨R * R / Scalar.pow (Scalar.ofInt d) (Scalar.ofInt 3 / Scalar.ofInt 2), ones n.toNat⟩
  distTerm o := o.dist
  generateWeight {m _} o x A b :=
    (johnWeightConv E LIM MAXITER o.w x A b).map fun wc => (⟨m, wc.1⟩, { o with w := ⟨m, wc.1⟩ })

/-- `q = 2.0 * (1.0 + log(n))`. src/dense/DikinLSWalk.cpp:5, 12; src/sparse/SparseDikinLSWalk.cpp:11, 56. -/
def lsQ (n : Int) : F := two * (1 + Scalar.log (Scalar.ofInt n))

/-- `alpha = 1.0 - (2.0/q)`. src/dense/DikinLSWalk.cpp:13; src/sparse/SparseDikinLSWalk.cpp:12. -/
def lsAlpha (n : Int) : F := 1 - two / lsQ n

/-- The literal `0.00001` of src/dense/DikinLSWalk.cpp:31. -/
def lsErr : F := 1 / Scalar.ofInt 100000

/-- `gradient = alpha * Ones - term2a .* term2b`. src/dense/DikinLSWalk.cpp:35-44. -/
def lsGrad (E : Eigen F) (alpha : F) (Ax : Matrix (Fin m) (Fin n) F) (w : Fin m → F) : Fin m → F :=
  fun i => alpha * 1 - (alpha * (1 / w i)) * levScores E (powScaled alpha w Ax) i

/-- The gradient descent loop; `update w grad` is the projected step. src/dense/DikinLSWalk.cpp:34-49 and
src/sparse/SparseDikinLSWalk.cpp:27-49. Returns the final `w_i` and whether it was left by `break`. -/
def lsLoop (grad : (Fin m → F) → Fin m → F) (update : (Fin m → F) → (Fin m → F) → Fin m → F)
    (GLIM : F) : (iters : ℕ) → (w : Fin m → F) → (Fin m → F) × Bool
  | 0, w => (w, false)
  | k + 1, w =>
    let g := grad w
    if Scalar.lt (norm2 g) GLIM then (w, true) else lsLoop grad update GLIM k (update w g)

/-- `DikinLSWalk::generateWeight`, also reporting whether the loop stopped by its criterion.
src/dense/DikinLSWalk.cpp:10-52. The update is `(w_i - STEPSIZE * gradient).cwiseMax(error)`. -/
def lsWeightConv (E : Eigen F) (GLIM STEP : F) (MAXITER : Int) (w : DVec F) (x : Fin n → F)
    (A : Matrix (Fin m) (Fin n) F) (b : Fin m → F) : Out ((Fin m → F) × Bool) :=
  (warmStart w m).bind fun w0 =>
  .ok (lsLoop (lsGrad E (lsAlpha m) (scaledA x A b))
    (fun w g i => cmax (w i - STEP * g i) (lsErr * 1)) GLIM MAXITER.toNat w0)

/-- `DikinLSWalk`. src/dense/DikinLSWalk.cpp:3-52. -/
def dikinLSClass (E : Eigen F) (R GLIM STEP : F) (MAXITER : Int) : BarrierClass F (BState F) where
  setDistTerm _ _ n :=
    if n < 0 then .ub .negativeSize
    else .ok ⟨R * R / ((1 + lsQ n) * (1 + lsQ n * lsQ n)), ones n.toNat⟩
  distTerm o := o.dist
  generateWeight {m _} o x A b :=
    (lsWeightConv E GLIM STEP MAXITER o.w x A b).map fun wc =>
      (⟨m, wc.1⟩, { o with w := ⟨m, wc.1⟩ })

end PW
