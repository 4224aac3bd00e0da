# Formal model of polytopewalk in Lean 4

Sources: `/repo/src/{dense,sparse,utils}` and `/repo/pybind11` at the pinned commit. The code is not built or run here;
the tie between model and code is the citation (`file:lines`) carried by every model definition.

## 1. Shape of the model

* **Outcomes** (`Verif/Model/Out.lean`). Every API function returns `Out α`: `ok a`, `throws e`
  (C++ exception), `ub u` (undefined behaviour / failed Eigen assertion / GLPK abort: signed overflow, division by
  zero, negative size, index out of range, size mismatch, reduction of an empty vector) or `timeout`
  (the fuel given to a possibly non-terminating loop ran out). "Terminates" is `∃ fuel, … ≠ timeout`,
  "diverges" is `∀ fuel, … = timeout`.
* **Machine integers**: `int` values are `Int` with explicit range checks (`ub signedOverflow`).
  Eigen `Index` (64 bit) and container sizes are `Nat`; narrowing `int n = x.rows()` is assumed to fit.
* **Arithmetic** (`Verif/Model/Scalar.lean`). The code is modelled once, over an arbitrary type `F` with
  *operations and no laws* (`class Scalar F`). Theorems stated for every `Scalar F` hold in particular for IEEE
  doubles (`instance : Scalar Float`). Theorems about exact mathematics use `instance : Scalar ℝ`. Theorems about
  rounding (C62, C63, C82, C85–C88) assume the standard model of floating-point arithmetic with NaN, infinities and underflow
  (`structure Rounding`, `Verif/Spec/Rounding.lean`), proved for `Ieee p emin emax` (`Verif/Model/Ieee.lean`: round to nearest
  even over the reals; binary64 is an instance). Lean's `Float` is opaque to the kernel, so nothing is proved of it beyond the
  theorems for every `Scalar`. Fused multiply-add is not covered by the error bounds.
* **Matrices** are Mathlib's `Matrix (Fin m) (Fin n) F` / `Fin n → F`; the API level uses dynamically sized
  `DMat`/`DVec` so that the dimension checks are real checks.
* **External code** is a parameter: Eigen's decompositions (`structure Eigen F`), GLPK
  (`LP F → solution`), the C++ random library (`structure Rng`). See section 3 for what theorems assume of them.
* **Classes**: barrier walks are modelled over a record of their virtual functions (`BarrierClass`,
  `SparseBarrierClass`), so generic theorems cover user subclasses too; the library's classes are instances.
* **Uninitialised memory** is an explicit argument `junk`.
* **Layers.** `Verif/Model` = the program. `Verif/Spec` = small independent specifications in terms of which the theorems
  are stated. `Verif/Lemmas` = proofs' tools. `Verif/Props` = the property theorems `Cnn_*` with their
  non-vacuity `example`s.

## 2. What is modelled

| file in /repo/src | modelled in | not modelled |
|---|---|---|
| `dense/RandomWalk.hpp` | `Model/Rng` (`initializeRNG`, `generateGaussianRV`, `generateGaussianRVNorm`), `Model/Dense.inPolytope`, `Utils.RandomWalk.generateCompleteWalk` | `printType` |
| `dense/BallWalk.*` | `Dense.BallWalk.*` | `printType` |
| `dense/HitRun.*` | `Dense.HitRun.*`, `distance` | `printType` |
| `dense/BarrierWalk.*` | `Dense.BarrierWalk.*`, `generateSlack`, `localNorm`, `generateHessian`, `mhAccept` | `printType` |
| `dense/{Dikin,Vaidya,John,DikinLS}Walk.*` | `dikinClass`, `vaidyaClass`, `johnClass`, `dikinLSClass` and their helpers | `printType`, `std::string` names |
| `sparse/SparseRandomWalk.hpp` | `Sparse.inPolytopeK`, `checkKDims`, `Utils.SparseRandomWalk.generateCompleteWalk` | `printType` |
| `sparse/SparseBallWalk.*`, `SparseHitRun.*` | `Sparse.SparseBallWalk.*`, `Sparse.SparseHitRun.*` | |
| `sparse/SparseBarrierWalk.*` | `Sparse.SparseBarrier.*`, `metricG`, `generateSlackInverse`, `invSqrt`, `scaleCols` | |
| `sparse/Sparse{Dikin,Vaidya,John,DikinLS}Walk.*` | `sparseDikinClass`, `sparseVaidyaClass`, `sparseJohnClass`, `sparseDikinLSClass` | |
| `sparse/LeverageScore.*` | `leverageScore`, `takahashi*`, `productPattern`, `lowerSym` (loop by loop, sparsity pattern explicit) | storage order of compressed columns |
| `utils/SparseLP.*` | `LP`, `Kind`, `Glpk`, `findOptimalVector`; call by call: `GlpProb`, `TripletArrays`, `SparseLP.build` (`Model/Storage.lean`) | the simplex run itself |
| `utils/DenseCenter.*`, `SparseCenter.*` | `denseCenterLP`, `sparseCenterLP`, `*.getInitialPoint`; call by call: `*.getInitialPointCalls` | |
| `utils/FacialReduction.*` | `findZ*`, `pickV`, `pickP`, `frRound`, `entireFacialReductionStep`, `frFinish`, `reduce`; call by call: `findZCalls`, `pickVTriplets`, `pickPTriplets` | |
| `utils/FullWalkRun.hpp` | `denseFullWalkRun`, `sparseFullWalkRun` | |
| `utils/Common.hpp` | the aliases and constants used above | |

Constructors, default arguments (C++ and Python) and the Python entry points (`pybind11/PybindExt.cpp`) are in `Model/Ctor`; the trampolines, and which overrides in
Python subclasses C++ code sees, in `Model/Python` (an override is a function of its arguments and of the object's attributes); conversion of NumPy arrays is not modelled. Matrices are pure values: aliasing (`noalias`, in-place updates) is resolved by reading the
code. Sparse matrices are dense functions plus an explicit pattern where the code looks at the pattern (`LeverageScore`).

## 3. Trusted base

1. **Lean 4.33.0's kernel** (and the elaborator only as far as what the statements say). No `native_decide`, `bv_decide`,
   added axioms or unfinished proofs.
2. **Axioms**: `propext`, `Classical.choice`, `Quot.sound` — per theorem in `AXIOMS.md`.
3. **Model fidelity**: the definitions in `Verif/Model` say what the cited C++ does. Checked by reading only.
4. **Contracts on external code**, used as *hypotheses* (never axioms) of the theorems about exact mathematics:
   * `Spec/Contracts`: `Eigen.Exact` = LLT, LU, inverse, SparseLU, SparseLLT, SimplicialLDLT return exact factors/solutions
     when the matrix is positive definite / invertible. `Spec/LP`: `SparseQRExact`, `HouseholderExact`, `PivotGap`
     (no nonzero pivot smaller than the tolerance).
   * `Spec/LP`: `Glpk.Exact` = returns a feasible optimal point whenever an optimum exists;
     `ZeroIfInfeasible` (C39 needs it, C51 shows why).
     `Spec/Tolerance`: `Glpk.Within δ` = the same up to `δ` (C89; `looseGlpk_within` shows an inexact solver satisfying it).
   * `Spec/FullRun`: `KeepsFibre` = the walk leaves `A x` as it is at its start (proved for the sparse Ball walk and sparse Hit-and-Run).
   * `Rng.UnitDraws` = uniform draws lie in [0,1]; `IdealSource` (`Spec/Stationary`) = the draws are independent, exactly
     uniform and exactly standard normal, and the generator state after a draw is independent of it. mt19937 is not ideal;
     the distribution theorems (C34–C37, C53) are about the algorithm fed by ideal randomness.
   * **Satisfiable**: `Lemmas/ContractsSat` constructs `exactEigen` and `exactGlpk` satisfying all of them;
     `Lemmas/Stream.streamRng_ideal` constructs an ideal source. Theorems stated for every `Scalar F` use no contract.

## 4. Per property: what is modelled and how it is proved

| id | what is modelled | how it is proved |
|----|------------------|------------------|
| C01, C02 | the recording loop shared by the six `generateCompleteWalk` bodies (int arithmetic, row writes) | induction over iterations against the independent chain `Spec/Chain.iter` |
| C03 | same, all integers | **false**: negation witnesses + exact characterisation of the true part |
| C04, C05 | entry checks of every API function | case analysis for all shapes; C05's converse is **false** for `sparseFullWalkRun` |
| C06, C07 | `initializeRNG`, object state (`DIST_TERM`, `w_i`) threaded through calls | equational; history independence for all object states |
| C08 | two runs | corollary of C02 |
| C09, C17 | `inPolytope`, accept/reject in any arithmetic | invariant over the chain against `Spec/Membership` |
| C10, C11, C18 | the same over ℝ; chord sampling | invariant, convexity |
| C12–C14 | `binarySearch` with fuel | bisection invariant; termination by measure; **C13/C14 false**: divergence by induction on fuel |
| C15 | proposal vector | norm computation |
| C16 | projections with exact solver contract | linear algebra, invariant over the chain |
| C19 | `junk` argument | equality for all `junk` |
| C20–C23, C25 | weights | leverage score theory over ℝ (trace, projection), induction over iterations |
| C24 | weight loops, any arithmetic | unfolding of a converged loop, then its exact criterion |
| C26, C27 | Hessian, `setDistTerm`, and both along whole runs | positive definiteness; **C27 false** (int overflow) |
| C28 | `LeverageScore::generate` loop by loop, pattern explicit | Takahashi identity, induction over columns |
| C29–C31 | sparse weights | from C28 + trace identity |
| C32 | the two exponents | **false**: negation + agreement condition |
| C33 | accept/reject | case analysis, exact densities; **NaN clause false** |
| C34, C35 | law of the affine image of a standard Gaussian; Metropolis step with that proposal | change of variables; **false in general**: exact iff, negation on a parallelogram, true for axis-aligned rows |
| C36 | sparse proposal on `ker A`, density, acceptance | Gaussian density on a chart of the affine hull; detailed balance; induction over iterations |
| C37, C53 | Ball walk kernels | Fubini + translation invariance on the space / on a chart |
| C38, C46, C47 | LP assembly triplet by triplet, GLPK bound codes; all LPs asked along a search | equality of feasible sets; optimality contract; induction over the search |
| C39–C43, C45 | `findZ`, `pickV`, `pickP`, recursion with fuel, `global_index` | feasible set preserved per round; Farkas lemma (proved here); measure = number of columns; **C41, C43 false in corner cases** |
| C44 | QR based dense form | orthogonality |
| C48–C50, C52 | the two drivers | composition; **C49, C52 false in general** (wrong `new_k`, missing `saved_V`) |
| C51 | solver that returns anything on infeasible LPs | **false**: negation witness |
| C54 | completion in any arithmetic | the loop never reaches `ub`/`throws`/`timeout`; each proviso shown necessary |
| C55 | Dikin-type ellipsoid inside the polytope, dense and sparse | one term of the quadratic form bounds the relative slack change; sparse: projection contracts |
| C56 | `Model/Ctor`: constructors, C++ and Python default arguments | corollaries of C01, C02, C10, C17, C54 at the defaults; constants evaluated |
| C57 | the same | equality by unfolding for nine classes; negation: Hit-and-Run on [-4/5, 4/5] computed for both tolerances |
| C58 | Hit-and-Run terminates a.s.: outcome-valued functions are shown measurable (`Lemmas/PMeas.lean`), the directions for which a dyadic point of the search hits a facet are a null set (`Lemmas/HitRunAE.lean`: on each line parallel to the facet they solve a quadratic), the chain is an induction with Fubini (`Lemmas/AsReturns.lean`) | proved, dense and sparse; dimension ≥ 2 needed (`C58_dimension_one`); `C58_fuel`: the fuel of the model is not part of the behaviour |
| C59 | Law of Hit-and-Run: the ideal chord sampler preserves Lebesgue measure (`Lemmas/ChordLaw.lean`, by Fubini along lines); a sampled segment that misses `err` at each end changes a mean by `2 err / length`; the mean of 1/length is bounded by the volume of a thickening; errors add up along the chain (`Lemmas/NearLaw.lean`) | proved, dense and sparse; `C59_dense_biased` shows that exact uniformity fails |
| C60 | Convergence of Hit-and-Run: one step from any interior point has a density bounded below on a fixed small ball (polar integration, `Lemmas/RayMinorize.lean`), so expectations contract geometrically (`Lemmas/Doeblin.lean`); the limit is compared with uniform by the one-step error of C59 | proved, dense and sparse, from every interior start |
| C61 | Law of large numbers for Hit-and-Run: Markov property of the returned rows and covariance bounds from C60 (`Lemmas/Average.lean`), Chebyshev | proved, dense and sparse |
| C62 | Rounding model (`Spec/Rounding.lean`), IEEE arithmetic (`Model/Ieee.lean`) satisfies it; error analysis of sums in any order by induction on the summation tree; C09/C17 give that every row passed the computed test | proved |
| C63 | NaN propagates through the products and sums, stays in first position in the maximum, fails `<=` | proved |
| C64 | Sparse Dikin/Vaidya as a Metropolis-Hastings chain on the relative interior (`Lemmas/SparseMHStep.lean`), a general convergence theorem for such chains from every point (`Lemmas/Ergodic.lean`, `Lemmas/MHErgodic.lean`: overlap of the kernels + coupling), transport to the returned rows (`Lemmas/WalkErgodic.lean`) | proved |
| C65 | Mean-square law of large numbers for these chains (`Lemmas/ErgodicMean.lean`), Chebyshev | proved |
| C66 | Same machinery for the dense walks on axis-aligned polytopes | proved |
| C67 | `Spec/Recording.lean` gives the int triples and the content of every row elementary; induction over the loop for all ints | proved |
| C68 | `Spec/Survivors.lean`; invariants of `reduce` (facial reduction ends at the minimal face) | proved |
| C69 | As C68; the crash happens in the last step iff no equation is left | proved |
| C70 | As C68, C69, plus rank bookkeeping of the dense form; the walk is only assumed to complete on the problem it is handed, and `C70_library` discharges that for the shipped walks | proved |
| C71 | As C68, C69 | proved |
| C72 | `Spec/ChordEnd.lean`; induction over the bisection, bracket ends on a dyadic grid; lifted to steps and calls with monotonicity in the fuel | proved |
| C73 | `Spec/JohnWeights.lean`; the log-determinant as a potential squeezed between its first order bounds (`Lemmas/LogDet`, `Potential`, `JohnPotential`, `SparseJohnPotential`), the averaged map of the loop climbs it by the square of its step | proved |
| C74 | `Spec/LSWeights.lean`; the same potential, gradient steps in place of averages (`Lemmas/Descent`), a box `[l,1]` kept invariant by a floor for the scores (`Lemmas/LevFloor`); two intervals where the program cannot converge (`Props/LSDefaults`) | proved |
| C75 | Minorisation after a fixed number of steps: steps aimed at the centre, then two steps whose sum has a density near the centre (polar coordinates and rotations of the normal law, `Lemmas/Sphere`, `Lemmas/TwoStep`, `Lemmas/BallMinorize`), Doeblin contraction (`Lemmas/UniformErgodic`, `Lemmas/UniformRows`); invariants for the stuck and the one-dimensional walk | proved |
| C76 | The same chain in orthonormal coordinates of the kernel of `A` | proved |
| C77 | the centre LPs of C38 with any solver meeting the contract `Glpk.Exact` | LP duality from Farkas: a feasible bounded program attains its optimum; a correct solver may return any feasible point of a program without optimum |
| C78 | the dense barrier chain of C34 on a parallelogram: from the uniform distribution one step carries into a strip of width `t` along a wall a mass that is `o(t)`, and out of it a fixed share of its mass (`Lemmas/ParaFlow`, `Lemmas/ParaStationary`), so uniform is not invariant; a chain that were within `ε` of uniform at two successive times would almost preserve it (`Lemmas/NotConverge`) | proved |
| C79 | chain on (point, stored weights); the loop of `generateWeight` as a measurable map (`Lemmas/JohnMem`): the chain with exact weights converges (C64's argument); the real chain's one-step law differs from it by a quantity that goes to 0 with the tolerance at every interior point, summed over a fixed horizon by dominated convergence (`Lemmas/Perturb`, `KernelNear`, `PerturbMean`, `MemWalk`, `MemRows`) | proved |
| C80 | `SparseBarrierClass` as a parameter: the argument of C64, C65 for an arbitrary class with weights a function of the point | proved |
| C81 | `Model/Storage.lean`: compressed columns, GLPK calls and one-based triplet arrays; loop invariants show the problem object states the LP used elsewhere (`GlpProb.Represents`) | proved |
| C82 | any `Scalar` for independence of `b` and the form of a move; `Spec/Rounding.lean` for the drift, by induction on the iterations; exact part from C16 applied to `b := A init` | proved |
| C83 | `Model/Python`: trampolines as wrappers of the class records, virtual dispatch as `virtualCall`; a simulation lemma (`Lemmas/ClassSim`) carries runs over | partial: false for Ball/HitAndRun overrides, for `setDistTerm`, and for weights given to `SparseBarrierWalk` (never moves); negations proved |
| C84 | `Spec/EndToEnd`: charts of the affine hull, `Driver.Inner` (the driver runs the walk on one fixed problem and maps its rows back); `Lemmas/EndToEnd` builds it from facial reduction and the centre; the walk theorems are carried through the affine map | proved |
| C85 | `Spec/RoundingOps`: rounded `+ - * / sqrt`; `Lemmas/IeeeOps` proves it for binary64; `Lemmas/ChordRound`: one chord search ends near an accepted point, so each iterate is near a mixture of two accepted points, whatever the errors before | proved |
| C86 | over binary64 (`Model/Ieee`): invariants of the two search loops through monotone rounding and ties-to-even (`Lemmas/IeeeExact`, `Lemmas/IeeeOrder`); non-termination = `timeout` for every fuel | proved |
| C87 | `Lemmas/ChordFinite`: forward finiteness of each operation of a chord search (`RoundingFull`, proved for binary64 in `Lemmas/IeeeOps`), induction over the loops | proved |
| C88 | `Props/SparseHitRunRounding`: the loops of the sparse chord search as for C85 and C87, on the line through the current point; the residual of `A` along the line is bounded separately, induction over the run | proved |
| C89 | `Spec/Tolerance`: solver with tolerance `δ`, separation of the polytope; `Lemmas/FRTol`: the recursion of facial reduction takes the same branches as with an exact solver (a certificate exists iff the computed value passes the test against `err`), so the invariants of C48 apply; centres and drivers follow | proved |
| C90 | `Spec/Handed`: the set `Q` described by the parameter the driver passes; `Lemmas/Handed`: the problem on which the driver runs the walk describes `Q` (as in C84, without assuming the right parameter), then the limit theorems of the walks; convexity gives a positive share outside `P` when `Q` is larger | proved |
| C91 | relational: `Out.Rel` (`Lemmas/OutRel`) relates two runs step by step; the slack-scaled rows of the second description are those of the first in another order, so weights (fixed points of the same iteration, reordered), Hessians and membership agree | proved |
| C92 | the same relation with a shift `v` (all dense walks) or an affine map `a x + v` (ball, hit-and-run) between the positions | proved |
| C93 | a second matrix `A' = M A`; the projection on the kernel, the leverage scores and the acceptance ratio are shown not to depend on `M`; induction over the run | proved |
| C94 | a second matrix with `A' diag(δ) = M A` and positions `δ x + v`; the same relation between two runs; boundary proposals have probability zero for Dikin and Vaidya | proved |
| C95 | the joint law of the positions at `L` times is an iterated average; convergence from almost every point (or uniform rates) replaces them one by one by independent draws; rows through the recording theorem; for the ball walk without thinning an event of probability one that has probability zero for independent points | proved |
| C96 | C95 for the walk inside the driver, carried to the caller's coordinates by the maps of C84 | proved |
| C97 | `MeanConverges` (`Spec/StrongLaw`): one path per generator, all calls read it; Birkhoff's maximal ergodic inequality and the pointwise theorem for a stationary chain with trivial invariant functions (`Lemmas/Birkhoff`, `Lemmas/StrongLaw`), then from almost every start to every start | proved |
| C98 | limit law built as a series from a one-step minorisation (`Lemmas/LimitLaw`); its distance to uniform from the mixing bound of C60; joint law and strong law from C95 and C97's lemmas | proved |
| C99 | C97 and C98 for the inner walk, carried to the caller's coordinates by the affine map of the driver (C84's `Driver.Inner`) | proved |
| C100 | iterated integral over two independent generators (`Spec/Continue`); the generator left after s iterations is fresh and independent of the path so far (induction on s with `Drives`), so the glued path has the law of one path; row bookkeeping by `rowTime` | proved |
| C101 | inductive set of points reachable by chained calls with one seed (`Spec/Continue`); the directions drawn are a function of the generator state alone, whose sequence is the same in every call; translates of proper subspaces are null | proved |
| C102 | probability of no move in t consecutive iterations (`Spec/Stall`); from any point the proposal lies in an ellipsoid of the metric with a probability that depends on the dimension only, and there the metrics at both ends are within constant factors, which bounds the acceptance; induction over t with the strong Markov property of the model | proved |
| C103 | the same probability for the dense classes, from the centre of a parallelogram of slope s: the Cholesky factor is computed in closed form, the proposal `L⁻¹ξ` leaves the slab with probability tending to 1; on the slack form C102 applies | proved |
| C104 | the minorisation of C79/C98 bounds the drift of the conditional mean of the remaining sum; Hoeffding's lemma for each step and induction over the rows bound the exponential moment; Chernoff | proved |
| C105 | C104 for the inner call of a driver, transported along the lift as in C84 | proved |
| C106 | dependence on the solver (`Spec/LPCount`): every program solved either advances the index or removes a column; induction over rounds | proved |
| C107 | `Repeats` (`Spec/Repeat`); the metric of the longer description is a multiple of the original one (leverage scores divide among copies), a multiple of the metric and of the step size give the same proposals and acceptance probabilities, so the two chains agree iteration by iteration off a null set | proved |
| C108 | `SameLaw` (`Spec/SameLaw`); every walk follows a chain driven by independent moves, so the laws of the beginnings of the paths agree by induction and the law of a path is determined by its beginnings (projective limits are unique); for SparseJohnWalk the chain is one of positions and weights and is projected | proved |
| C109 | `SameLaw` for two polytopes with `Q y + v` in one iff `y` in the other; the chord search commutes with isometries (induction on fuel), the direction law is rotation invariant, then the transfer theorem of C108 | proved |
| C110 | `LawsApart` (`Spec/SameLaw`); on the axis-aligned square the law converges to the uniform one (C66), on the sheared one it stays away from it (C78), and the shear takes uniform to uniform | proved |
| C111 | `Renumbered`, `reorder` (`Spec/Renumber`); the one-step map is carried by the reordering of point and normal vector, which preserves the normal law (`Lemmas/Renumber`); the proposal of the barrier walks is carried because the projector and the diagonal metric are | proved |
| C112 | `Mirrored`, `Balanced`, `Alike` (`Spec/Mirror`); for a signed diagonal `S` the Cholesky factor of `S H S` is `S L S`, so the proposals are mirrored although the factor is not inverted as the literature has it (`Lemmas/Mirror`); C109 for the geometric walks, C111 for the sparse ones | proved |
| C113 | `SameRows` (`Spec/SameDriver`); the driver runs the walk on one fixed problem and maps the rows injectively (`Driver.Inner`), so C108 for that problem carries over | proved |
| C114 | `SameBackwards` (`Spec/Backwards`); detailed balance makes the move self-adjoint, so expected products of functions of consecutive positions can be reversed, and boxes determine the law (`Lemmas/Backwards`); the times of the rows are equally spaced; the converse and C35 give the counterexample | proved |
| C115 | `PositivePairs` (`Spec/Pairs`); averaging over a move is self-adjoint and does not increase second moments, and squares of sums and differences of averages are nonnegative (`Lemmas/Pairs`) | proved |

Convergence (C60, C61, C64–C66, C75, C76, C78–C80) is stated with `Spec/Limit.lean`: about the position after any number `t` of
iterations and about every row a call records at iteration `t`. About rows alone "after enough iterations" would be empty: the
counters are `int`, so no row is recorded after `2^31` iterations.

"False" means: the property a user would state does not hold of the code. Such a property keeps its full statement in
`properties.jsonl`, has status `partial`, a theorem proving the negation on a concrete input, and a `_partial` theorem with
the weakest extra hypothesis we found.

## 5. Findings

1. `thin = 0` divides by zero; negative `burnin`/`thin` give zero rows that were never visited; `burnin >= niter + thin` asks for a negative size; no integer is rejected (C03).
2. Hit-and-Run loops for ever on unbounded polytopes, `r = 0`, from boundary points whose direction leaves at once, and when a bisection point falls exactly on the boundary (C13, C14).
3. The Vaidya `int` product `A.rows()*A.cols()` overflows; `cols < rows` gives a negative radicand (C27).
4. Dense John uses integer division `2*n/d` in the exponent, sparse John a floating one (C32).
5. A NaN Metropolis ratio always accepts (C33).
6. Dense barrier walks propose `x + sqrt(D) L^-1 xi` instead of `L^-T`, so the proposal is not `N(x, D H^-1)` unless `H` is diagonal and detailed balance fails (C34, C35). On a parallelogram the uniform distribution is not invariant, whatever the radius, and the law of the samples stays a fixed distance away from it (C78).
7. `{0}` crashes facial reduction; `err_dc > 1` recurses for ever (C41); inconsistent redundant rows are dropped silently (C43); correctness needs GLPK to leave zero on infeasible LPs (C51).
8. `denseFullWalkRun` multiplies by `Q` of the reduced problem but omits `saved_V` (C52); `sparseFullWalkRun` subtracts the wrong difference for `new_k` (C49, C05).
9. The default `err` of HitAndRun and SparseHitAndRun is 1e-6 in C++ and 0.01 in Python, that of SparseJohnWalk 1e-5 and 1e-6, that of FacialReduction 1e-5 and 1e-6 (C57). In dimension one Hit-and-Run may never return (C58); its samples are biased towards the core by `err` (C59).
10. Base `BarrierWalk` weight `Ones(1)` mismatches; zero constraint rows reduce an empty vector (C54); John/Lee–Sidford warm starts make the weights depend on the visited history (C24, C26).
11. The default Lee–Sidford step and floor keep `generateWeight` from ever meeting its own stopping criterion on some intervals (C74).
12. `BallWalk` and `SparseBallWalk` take a step of fixed length: in dimension one they only visit a lattice, and with a step longer than the polytope they never move, silently (C75, C76).
13. On an unbounded polytope with a direction leaving every wall, the centre classes may return a boundary point without any report (C77).
14. Python subclasses (C83): `BallWalk`, `HitAndRun` and their sparse versions are registered without a trampoline, so C++ drivers ignore overrides; `DIST_TERM` cannot be set from Python, so an override of `setDistTerm` leaves it uninitialised and a subclass of `SparseBarrierWalk` with user weights never moves (`DIST_TERM = 0`); `RandomWalk()` can be instantiated and returns a 1 × 1 zero.
15. In double precision `HitAndRun` can loop forever (C86): the bisection ends only when the midpoint is inside and the bracket is shorter than `ERR`; from a start on the boundary with an odd significand (`[0, 0.3]` from 0.3) every midpoint rounds to the double outside, and with `ERR` below the spacing of doubles (default `1e-6`, coordinates from 2³³ on) the bracket cannot get short enough.
16. Facial reduction compares the answer of an LP solver with `err`: on polytopes thinner than the solver's tolerance it may take an interior coordinate for a vanishing one and crash (C89, `{x1 + x2 = ε, x ≥ 0}` with `ε` at most the tolerance); on well separated polytopes the tolerance does not matter.
17. With a redundant equation `sparseFullWalkRun` samples a larger set than the polytope (C90): on `{x ≥ 0 | x2 + x3 = 1 (twice), x1 = x2 - 1/2}` half of the rows, in the limit, have a negative coordinate, with an exact solver and exact arithmetic.
18. Every call re-seeds its generator, so a loop of short calls with one fixed seed, each from the last row of the one before, repeats the same directions: ball walks and Hit-and-Run then stay in the span of `niter` vectors (C101). With fresh seeds the loop is as good as one long run (C100).
19. Because of the proposal `L^-1 xi` of finding 6, the dense Dikin and Vaidya walks also stand still on skewed polygons, for as long as one likes (C103), where the sparse ones keep moving at a rate that depends on the dimension only (C102).
20. Barrier walks count constraints, not facets: writing every constraint N times divides the effective radius of DikinWalk by sqrt(N) and of VaidyaWalk by N^(1/4) (C107); nothing in the library removes duplicates before a dense walk.
21. DikinWalk and VaidyaWalk are not affine-invariant (C110), unlike the walks they are named after: the proposal multiplies the normal vector by the inverse of the lower Cholesky factor instead of its transpose (C78), so how the user writes the coordinates changes the law of the samples. BallWalk and HitAndRun are at least invariant under isometries (C109).
