import Verif.Model.Scalar

/-!
# The sampling loop shared by all six `generateCompleteWalk` implementations

The six bodies contain the same recording code:
src/dense/BallWalk.cpp:14-28, src/dense/HitRun.cpp:44-61, src/dense/BarrierWalk.cpp:76-91,
src/sparse/SparseBallWalk.cpp:19-44, src/sparse/SparseHitRun.cpp:58-81,
src/sparse/SparseBarrierWalk.cpp:112-134. It is modelled once, over the step of the walk.
-/

namespace PW

variable {F : Type} {n : ℕ} {σ : Type}

/-- `results.row(idx) = x` (src/dense/BallWalk.cpp:25 and its five copies). -/
def writeRow (rows : List (Fin n → F)) (idx : Int) (x : Fin n → F) : Out (List (Fin n → F)) :=
  if 0 ≤ idx ∧ idx < (rows.length : Int) then .ok (rows.set idx.toNat x)
  else .ub .indexOutOfRange

/-- `if (i > burnin && (i - burnin) % thin == 0) results.row((int)((i - burnin)/thin - 1)) = x;`
src/dense/BallWalk.cpp:24-26 and its five copies. -/
def record (burnin thin i : Int) (rows : List (Fin n → F)) (x : Fin n → F) :
    Out (List (Fin n → F)) :=
  if burnin < i then
    (toInt (i - burnin)).bind fun t =>
    (intMod t thin).bind fun q =>
    if q = 0 then
      (intDiv t thin).bind fun e =>
      (toInt (e - 1)).bind fun idx => writeRow rows idx x
    else .ok rows
  else .ok rows

/-- The loop `for (int i = …; i <= niter; i++) { step; record }` with `left` iterations to go.
src/dense/BallWalk.cpp:16-27 and its five copies. The increment `i++` after the last iteration is
executed as well, hence the `toInt (i + 1)`. -/
def loopFrom (step : σ → Out σ) (pos : σ → Fin n → F) (burnin thin : Int) :
    (left : ℕ) → (i : Int) → σ → List (Fin n → F) → Out (List (Fin n → F) × σ)
  | 0, _, s, rows => .ok (rows, s)
  | left + 1, i, s, rows =>
    (step s).bind fun s' =>
    (record burnin thin i rows (pos s')).bind fun rows' =>
    (toInt (i + 1)).bind fun i' => loopFrom step pos burnin thin left i' s' rows'

/-- `int total_samples = (niter - burnin)/thin; MatrixXd results = MatrixXd::Zero(total_samples, n);`
followed by the loop. src/dense/BallWalk.cpp:14-28 and its five copies. A negative `total_samples`
is an Eigen assertion failure (or an impossible allocation). The loop runs `niter` times if
`niter >= 1`, else not at all (`Int.toNat`). -/
def runLoop [Scalar F] (step : σ → Out σ) (pos : σ → Fin n → F) (niter burnin thin : Int) (s : σ) :
    Out (List (Fin n → F) × σ) :=
  (toInt (niter - burnin)).bind fun t =>
  (intDiv t thin).bind fun total =>
  if total < 0 then .ub .negativeSize
  else loopFrom step pos burnin thin niter.toNat 1 s (List.replicate total.toNat fun _ => 0)

end PW
