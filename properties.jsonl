{"id": "C01", "title": "Result matrix has the documented shape", "statement": "For every walk class, if thin >= 1 and 0 <= burnin <= niter < INT_MAX, a generateCompleteWalk call that completes its niter steps returns a matrix with exactly (niter - burnin)/thin (floor) rows and dim(x) columns, and executes no undefined behaviour in the recording loop (no overflow, no out-of-range row, no negative size).", "quantifier": "all walk classes, polytopes, initial points, RNG streams and all int niter, burnin, thin in the documented range", "why_tests_cant": "tests use one triple (100, 10, 10); the index arithmetic must be right for all triples, including non-divisible ones and the int limits", "anchors": ["src/dense/BallWalk.cpp: BallWalk::generateCompleteWalk", "src/dense/HitRun.cpp: HitAndRun::generateCompleteWalk", "src/dense/BarrierWalk.cpp: BarrierWalk::generateCompleteWalk", "src/sparse/SparseBallWalk.cpp: SparseBallWalk::generateCompleteWalk", "src/sparse/SparseHitRun.cpp: SparseHitAndRun::generateCompleteWalk", "src/sparse/SparseBarrierWalk.cpp: SparseBarrierWalk::generateCompleteWalk"]}
{"id": "C02", "title": "Burn-in and thinning pick exactly the documented chain states", "statement": "Row j (0-based) of the returned matrix is the position of the chain after exactly burnin + (j+1)*thin steps from init; the underlying chain does not depend on burnin or thin.", "quantifier": "all walk classes, all inputs and RNG streams, all (niter, burnin, thin) in the documented range, all rows j", "why_tests_cant": "an off-by-one in the recorded step still returns plausible points; only an all-rows, all-parameters statement fixes which states are recorded", "anchors": ["src/dense/BallWalk.cpp: BallWalk::generateCompleteWalk", "src/dense/HitRun.cpp: HitAndRun::generateCompleteWalk", "src/dense/BarrierWalk.cpp: BarrierWalk::generateCompleteWalk", "src/sparse/SparseBallWalk.cpp: SparseBallWalk::generateCompleteWalk", "src/sparse/SparseHitRun.cpp: SparseHitAndRun::generateCompleteWalk", "src/sparse/SparseBarrierWalk.cpp: SparseBarrierWalk::generateCompleteWalk"]}
{"id": "C03", "title": "No returned row is anything but a visited state, whatever integers are passed", "statement": "For every combination of int niter, burnin, thin, a call that returns normally returns only rows that are positions visited by the chain (never uninitialised or zero filler rows), and out-of-range arguments are rejected with an exception.", "quantifier": "all int values of niter, burnin and thin", "why_tests_cant": "the argument space is 2^96; the failing regions (thin = 0, burnin > niter, burnin < 0, niter = INT_MAX) are never exercised by the tests", "anchors": ["src/dense/BallWalk.cpp: BallWalk::generateCompleteWalk", "src/dense/HitRun.cpp: HitAndRun::generateCompleteWalk", "src/dense/BarrierWalk.cpp: BarrierWalk::generateCompleteWalk", "src/sparse/SparseBallWalk.cpp: SparseBallWalk::generateCompleteWalk", "src/sparse/SparseHitRun.cpp: SparseHitAndRun::generateCompleteWalk", "src/sparse/SparseBarrierWalk.cpp: SparseBarrierWalk::generateCompleteWalk"]}
{"id": "C04", "title": "Dimension mismatches are rejected before anything happens", "statement": "Every generateCompleteWalk throws invalid_argument exactly when init, A and b disagree in dimension (after the k check for sparse walks), whatever the object's history and the random draws; with matching dimensions it never throws.", "quantifier": "all shapes of init, A, b; all walk classes and object histories", "why_tests_cant": "tests never pass mismatched shapes, and 'exactly when' ranges over all shapes", "anchors": ["src/dense/BallWalk.cpp: BallWalk::generateCompleteWalk", "src/dense/HitRun.cpp: HitAndRun::generateCompleteWalk", "src/dense/BarrierWalk.cpp: BarrierWalk::generateCompleteWalk", "src/sparse/SparseBallWalk.cpp: SparseBallWalk::generateCompleteWalk", "src/sparse/SparseHitRun.cpp: SparseHitAndRun::generateCompleteWalk", "src/sparse/SparseBarrierWalk.cpp: SparseBarrierWalk::generateCompleteWalk"]}
{"id": "C05", "title": "k outside 1..cols(A) is rejected everywhere", "statement": "Sparse generateCompleteWalk, SparseCenter.getInitialPoint, FacialReduction.reduce, denseFullWalkRun and sparseFullWalkRun throw invalid_argument for every k with k <= 0 or k > A.cols(), whatever the other arguments and the object's history; a k in range is never rejected.", "quantifier": "all ints k, all A, b, init and the remaining arguments", "why_tests_cant": "the check has to dominate all other effects for all inputs", "anchors": ["src/sparse/*: generateCompleteWalk", "src/utils/SparseCenter.cpp: getInitialPoint", "src/utils/FacialReduction.cpp: reduce", "src/utils/FullWalkRun.hpp: denseFullWalkRun, sparseFullWalkRun"]}
{"id": "C06", "title": "Seeded runs are reproducible", "statement": "With seed != -1 the result of generateCompleteWalk does not depend on the operating system's entropy; with seed == -1 it equals the run whose generator is seeded with the entropy word; -1 is the only special seed and distinct int seeds seed the generator differently.", "quantifier": "all walk classes, inputs, seeds and entropy values, in any arithmetic", "why_tests_cant": "a test compares two runs; hidden dependence on entropy shows only for some inputs", "anchors": ["src/dense/RandomWalk.cpp: RandomWalk::initializeRNG", "src/sparse/SparseRandomWalk.cpp: SparseRandomWalk::initializeRNG", "src/dense/BallWalk.cpp: BallWalk::generateCompleteWalk", "src/dense/HitRun.cpp: HitAndRun::generateCompleteWalk", "src/dense/BarrierWalk.cpp: BarrierWalk::generateCompleteWalk", "src/sparse/SparseBallWalk.cpp: SparseBallWalk::generateCompleteWalk", "src/sparse/SparseHitRun.cpp: SparseHitAndRun::generateCompleteWalk", "src/sparse/SparseBarrierWalk.cpp: SparseBarrierWalk::generateCompleteWalk"]}
{"id": "C07", "title": "Reusing a walk object does not change results", "statement": "The matrix returned by generateCompleteWalk depends only on its arguments and the constructor parameters, never on earlier generateCompleteWalk or generateWeight calls made on the same object (although John and Lee-Sidford objects keep warm-start weights).", "quantifier": "all library walk classes, all call histories before the call, all arguments", "why_tests_cant": "histories are unbounded; stale warm-start weights only show for particular sequences of polytopes", "anchors": ["src/dense/JohnWalk.cpp: setDistTerm, generateWeight", "src/dense/DikinLSWalk.cpp", "src/sparse/SparseJohnWalk.cpp", "src/sparse/SparseDikinLSWalk.cpp", "src/dense/BallWalk.cpp: BallWalk::generateCompleteWalk", "src/dense/HitRun.cpp: HitAndRun::generateCompleteWalk", "src/dense/BarrierWalk.cpp: BarrierWalk::generateCompleteWalk", "src/sparse/SparseBallWalk.cpp: SparseBallWalk::generateCompleteWalk", "src/sparse/SparseHitRun.cpp: SparseHitAndRun::generateCompleteWalk", "src/sparse/SparseBarrierWalk.cpp: SparseBarrierWalk::generateCompleteWalk"]}
{"id": "C08", "title": "A longer run extends a shorter one", "statement": "With the same seed, arguments and 0 <= burnin, thin >= 1, the rows returned for niter are a prefix of the rows returned for any niter' >= niter; and the rows for (burnin, thin) are rows burnin+thin-1, burnin+2*thin-1, ... of the (0, 1) run.", "quantifier": "all walk classes, inputs, seeds, niter <= niter', burnin, thin", "why_tests_cant": "relational property over pairs of runs of unbounded length", "anchors": ["src/dense/BallWalk.cpp: BallWalk::generateCompleteWalk", "src/dense/HitRun.cpp: HitAndRun::generateCompleteWalk", "src/dense/BarrierWalk.cpp: BarrierWalk::generateCompleteWalk", "src/sparse/SparseBallWalk.cpp: SparseBallWalk::generateCompleteWalk", "src/sparse/SparseHitRun.cpp: SparseHitAndRun::generateCompleteWalk", "src/sparse/SparseBarrierWalk.cpp: SparseBarrierWalk::generateCompleteWalk"]}
{"id": "C09", "title": "Dense Ball and barrier walks only ever return init or points that passed the membership test", "statement": "Every row returned by BallWalk and by any BarrierWalk subclass (including user-defined weights) is either init itself or a vector that the library's own test max(Az - b) <= 0 accepted, in any arithmetic (floating point included).", "quantifier": "all inputs, RNG streams, walk lengths, weight functions and arithmetics", "why_tests_cant": "tests only check row counts; rare steps could skip the test", "anchors": ["src/dense/RandomWalk.cpp: inPolytope", "src/dense/BallWalk.cpp", "src/dense/BarrierWalk.cpp: generateSample"]}
{"id": "C10", "title": "Dense Ball and barrier walks never leave the polytope", "statement": "If A init <= b, then every returned row x of BallWalk and of every BarrierWalk subclass satisfies A x <= b (exact arithmetic).", "quantifier": "all polytopes with at least one constraint, all feasible init, all RNG streams and lengths", "why_tests_cant": "one escaping step in an unbounded run breaks it", "anchors": ["src/dense/BallWalk.cpp", "src/dense/BarrierWalk.cpp", "src/dense/DikinWalk.cpp", "src/dense/VaidyaWalk.cpp", "src/dense/JohnWalk.cpp", "src/dense/DikinLSWalk.cpp"]}
{"id": "C11", "title": "Dense Hit-and-Run never leaves the polytope", "statement": "If A init <= b, every row returned by HitAndRun satisfies A x <= b (exact arithmetic, uniform draws in [0,1]), although the code never tests the new point.", "quantifier": "all polytopes, init, error parameters, radii, RNG streams, lengths", "why_tests_cant": "the new point is never checked at run time; correctness rests on convexity for all inputs", "anchors": ["src/dense/HitRun.cpp: binarySearch, generateCompleteWalk"]}
{"id": "C12", "title": "Chord end points are accurate to the error parameter", "statement": "When the chord search returns t for start x in the polytope and unit direction u, x + t u is in the polytope and some point x + s u with t < s <= t + err is not (so t is within err of the exact chord end); t > 0. Same for the sparse search unless it gave up.", "quantifier": "all polytopes, start points, unit directions, radii, err >= 0", "why_tests_cant": "real-valued inputs; bisection invariants hold only by induction on an unbounded loop", "anchors": ["src/dense/HitRun.cpp: binarySearch", "src/sparse/SparseHitRun.cpp: binarySearch"]}
{"id": "C13", "title": "Hit-and-Run terminates on bounded polytopes from interior points", "statement": "For a bounded polytope, a start strictly inside it, r != 0 and err > 0, every chord search terminates, and the whole walk terminates (for uniform draws strictly inside (0,1) the chain stays strictly inside).", "quantifier": "all bounded polytopes, interior starts, unit directions, r != 0, err > 0", "why_tests_cant": "termination over all real inputs cannot be tested", "anchors": ["src/dense/HitRun.cpp: binarySearch", "src/sparse/SparseHitRun.cpp: binarySearch"]}
{"id": "C14", "title": "Hit-and-Run always returns", "statement": "generateCompleteWalk of HitAndRun and SparseHitAndRun returns (normally or by exception) for every polytope, bounded or not, and every start in the polytope.", "quantifier": "all polytopes including unbounded ones, all starts, all radii", "why_tests_cant": "non-termination cannot be observed by a finite test", "anchors": ["src/dense/HitRun.cpp: binarySearch", "src/sparse/SparseHitRun.cpp: binarySearch"]}
{"id": "C15", "title": "Ball walk moves by exactly r/sqrt(d) or not at all", "statement": "Consecutive states of BallWalk (and SparseBallWalk, with d = cols - rows) are equal or at Euclidean distance exactly |r|/sqrt(d), provided the drawn direction is non-zero (exact arithmetic).", "quantifier": "all inputs, steps and non-degenerate draws", "why_tests_cant": "continuous inputs", "anchors": ["src/dense/BallWalk.cpp", "src/sparse/SparseBallWalk.cpp", "src/dense/RandomWalk.cpp: generateGaussianRVNorm"]}
{"id": "C16", "title": "Sparse walks preserve the equality constraints", "statement": "If A init = b and A A^T is nonsingular, every row returned by SparseBallWalk, SparseHitAndRun and every SparseBarrierWalk subclass satisfies A x = b exactly (exact arithmetic), although no step ever looks at b; for the barrier walks, as long as the metric at the visited points gives a nonsingular A G^-1 A^T, which is the case for the library classes while the last k coordinates are positive.", "quantifier": "all A with independent rows, b, init, k, weights, RNG streams, lengths", "why_tests_cant": "the projection algebra must hold for all matrices and compose over unboundedly many steps", "anchors": ["src/sparse/SparseBallWalk.cpp", "src/sparse/SparseHitRun.cpp", "src/sparse/SparseBarrierWalk.cpp: generateSample"]}
{"id": "C17", "title": "Sparse Ball and barrier walks keep the last k coordinates non-negative", "statement": "Every row returned by SparseBallWalk and every SparseBarrierWalk subclass is init or passed the test min(last k) >= 0 (any arithmetic); over exact arithmetic, if the last k coordinates of init are >= 0 so are those of every row.", "quantifier": "all inputs, k in range, RNG streams, lengths, weights", "why_tests_cant": "unbounded histories", "anchors": ["src/sparse/SparseRandomWalk.cpp: inPolytope", "src/sparse/SparseBallWalk.cpp", "src/sparse/SparseBarrierWalk.cpp"]}
{"id": "C18", "title": "Sparse Hit-and-Run stays in the polytope", "statement": "If A init = b, the last k coordinates of init are >= 0 and A A^T is nonsingular, every row returned by SparseHitAndRun is in {Ax = b, x >=_k 0} (exact arithmetic), including steps where the chord search gives up.", "quantifier": "all inputs, RNG streams, lengths", "why_tests_cant": "new points are never tested at run time", "anchors": ["src/sparse/SparseHitRun.cpp"]}
{"id": "C19", "title": "Uninitialised memory never influences results", "statement": "generateSlackInverse and LeverageScore.generate leave the first cols-k entries of a vector uninitialised; nevertheless the proposals, densities, weights and walks are the same whatever those entries hold.", "quantifier": "all contents of the uninitialised memory, all inputs", "why_tests_cant": "test runs see whatever the allocator returns, usually zeros", "anchors": ["src/sparse/SparseBarrierWalk.cpp: generateSlackInverse", "src/sparse/LeverageScore.cpp: LeverageScore::generate"]}
{"id": "C20", "title": "Dikin weights are all ones of the right length", "statement": "DikinWalk.generateWeight returns the all-ones vector with one entry per constraint, SparseDikinWalk one per coordinate; for every input the resulting Hessian is A^T S^-2 A, and the metric of SparseDikinWalk is diagonal with 1 / x_i^2 at the last k coordinates and err at the others.", "quantifier": "all inputs", "why_tests_cant": "all shapes", "anchors": ["src/dense/DikinWalk.cpp", "src/sparse/SparseDikinWalk.cpp", "src/dense/BarrierWalk.cpp: generateHessian"]}
{"id": "C21", "title": "Dense Vaidya weights", "statement": "At a strictly interior x of a polytope whose A has full column rank, VaidyaWalk.generateWeight returns weights w_i with d/n <= w_i <= 1 + d/n and sum exactly 2d (exact arithmetic).", "quantifier": "all A of full column rank, b, strictly interior x", "why_tests_cant": "tests check three polytopes", "anchors": ["src/dense/VaidyaWalk.cpp: generateWeight"]}
{"id": "C22", "title": "Dense John weights", "statement": "At a strictly interior x (A of full column rank, n >= d), JohnWalk.generateWeight on a fresh object returns weights w_i with d/(2n) < w_i <= 1 + d/(2n), whose sum after t fixed-point updates is exactly 3d/2 + (n - 3d/2)/2^t; on convergence the weights satisfy the fixed point equation w = score + d/(2n) within 2*lim in every coordinate, so the sum is within 2*n*lim of 3d/2.", "quantifier": "all A of full column rank, b, interior x, limits and iteration bounds", "why_tests_cant": "tests check three polytopes to 1e-2", "anchors": ["src/dense/JohnWalk.cpp: generateWeight"]}
{"id": "C23", "title": "Dense Lee-Sidford weights", "statement": "DikinLSWalk.generateWeight started from positive weights returns weights that are never below min(1e-5, start) and, when it stops by the gradient criterion, every weight differs from its leverage score by less than w_i*g_lim/alpha and hence |sum w - d| <= (g_lim/alpha) * sum w.", "quantifier": "all A of full column rank, b, interior x, parameters with alpha > 0", "why_tests_cant": "tests check three polytopes to 1e-2", "anchors": ["src/dense/DikinLSWalk.cpp: generateWeight"]}
{"id": "C24", "title": "Converged weights are stable under recomputation", "statement": "If generateWeight of a John or Lee-Sidford walk (dense or sparse) stopped because its convergence criterion was met, calling it again on the same object at the same point returns bit-for-bit the same vector (any arithmetic), so the density evaluated at x uses the same metric as the proposal drawn at x.", "quantifier": "all inputs, object states and arithmetics", "why_tests_cant": "a relational property over all states", "anchors": ["src/dense/JohnWalk.cpp", "src/dense/DikinLSWalk.cpp", "src/sparse/SparseJohnWalk.cpp", "src/sparse/SparseDikinLSWalk.cpp"]}
{"id": "C25", "title": "Weights are affine invariant", "statement": "Dikin, Vaidya, John and Lee-Sidford weights computed in exact arithmetic are unchanged by an invertible linear change of variables and a translation of the polytope.", "quantifier": "all polytopes, interior points, invertible matrices T, shifts", "why_tests_cant": "ranges over all transformations", "anchors": ["src/dense/VaidyaWalk.cpp", "src/dense/JohnWalk.cpp", "src/dense/DikinLSWalk.cpp"]}
{"id": "C26", "title": "The local metric is symmetric positive definite in the interior", "statement": "At every strictly interior point, if A has full column rank and the weights are positive, the matrix the barrier walks factorise is symmetric positive definite, so the Cholesky factorisation succeeds; for the sparse walks A G^-1 A^T is positive definite when A has independent rows.", "quantifier": "all polytopes, interior points, positive weights", "why_tests_cant": "all real inputs", "anchors": ["src/dense/BarrierWalk.cpp: generateHessian", "src/sparse/SparseBarrierWalk.cpp: generateSample"]}
{"id": "C27", "title": "Step-size constants", "statement": "Each barrier class scales its proposal by the documented constant (Dikin r^2/d, Vaidya r^2/sqrt(nd), John r^2/d^1.5, Lee-Sidford r^2/((1+q)(1+q^2)), q = 2(1+ln n)), for every dimension, and the constant is positive for r != 0 and d, n >= 1.", "quantifier": "all d, n, r", "why_tests_cant": "tests never look at it; integer overflow in d*n shows only for huge inputs", "anchors": ["src/dense/*Walk.cpp: setDistTerm", "src/sparse/*Walk.cpp: setDistTerm"]}
{"id": "C28", "title": "The sparse leverage-score routine computes exact leverage scores", "statement": "LeverageScore.generate (Takahashi-Fagan-Chin recursion on the sparsity pattern of the Cholesky factor) returns, for every coordinate i among the last k, exactly 1 - a_i^T (A G^-1 A^T)^-1 a_i with a_i the i-th column of A G^-1/2, and 0 for the others, whenever the factorisation is exact and its pattern is closed under fill-in.", "quantifier": "all sparse A with independent rows, all positive scalings, all fill-in-closed patterns, all sizes", "why_tests_cant": "the recursion reads entries written earlier; one missing pattern entry shows only for particular sparsity structures", "anchors": ["src/sparse/LeverageScore.cpp: LeverageScore::generate"]}
{"id": "C29", "title": "Sparse Vaidya weights", "statement": "At a point whose last k coordinates are positive, SparseVaidyaWalk.generateWeight returns 0 on the free coordinates and values in [d/k, 1 + d/k] on the last k, d = cols - rows; if k = cols they sum to exactly 2d.", "quantifier": "all A with independent rows, x, k", "why_tests_cant": "tests check three polytopes", "anchors": ["src/sparse/SparseVaidyaWalk.cpp: generateWeight"]}
{"id": "C30", "title": "Sparse John weights", "statement": "SparseJohnWalk.generateWeight on a fresh object returns 0 on free coordinates, values above d/(2k) on the last k (d <= k), and for k = cols the sum after t updates is exactly 3d/2 + (k - 3d/2)/2^t.", "quantifier": "all A with independent rows, positive points, k, iteration bounds", "why_tests_cant": "tests check three polytopes", "anchors": ["src/sparse/SparseJohnWalk.cpp: generateWeight"]}
{"id": "C31", "title": "Sparse Lee-Sidford weights", "statement": "SparseDikinLSWalk.generateWeight on a fresh object returns 0 on free coordinates and at least min(1, err) on the last k; if it stops by the gradient criterion each of the last k weights is within w_i*g_lim/alpha of its leverage score.", "quantifier": "all inputs", "why_tests_cant": "tests check three polytopes", "anchors": ["src/sparse/SparseDikinLSWalk.cpp: generateWeight"]}
{"id": "C32", "title": "Dense and sparse John walks use the same exponent", "statement": "For the same polytope (n constraints, dimension d) the dense and the sparse John weights use the same exponent alpha = 1 - 1/log2(2n/d).", "quantifier": "all n, d", "why_tests_cant": "agreement on the three tested shapes does not show agreement on all", "anchors": ["src/dense/JohnWalk.cpp: generateWeight", "src/sparse/SparseJohnWalk.cpp: generateWeight"]}
{"id": "C33", "title": "Metropolis acceptance rule", "statement": "A proposal outside the polytope is always rejected; inside, it is accepted exactly when the uniform draw is below min(1, exp(g(z,x) - g(x,z))); a proposal whose ratio is >= 1 is always accepted, one with undefined ratio never.", "quantifier": "all inputs, weights, draws, arithmetics", "why_tests_cant": "special values (NaN) appear only at boundary points", "anchors": ["src/dense/BarrierWalk.cpp: generateSample", "src/sparse/SparseBarrierWalk.cpp: generateCompleteWalk"]}
{"id": "C34", "title": "Dense barrier walks propose from N(x, DIST_TERM * H(x)^-1)", "statement": "The proposal of the dense barrier walks is Gaussian with mean x and covariance DIST_TERM * H(x)^-1, H(x) the weighted barrier Hessian, i.e. has the log density (up to a constant) that the acceptance step uses.", "quantifier": "all polytopes, interior points, weights", "why_tests_cant": "a wrong covariance is invisible when H is diagonal (the hypercubes used in the convergence tests)", "anchors": ["src/dense/BarrierWalk.cpp: generateSample"]}
{"id": "C35", "title": "Dense barrier walks leave the uniform distribution invariant", "statement": "One accept/reject step of DikinWalk and VaidyaWalk satisfies detailed balance with respect to the uniform distribution on the polytope.", "quantifier": "all polytopes and pairs of interior points", "why_tests_cant": "statistical tests on a hypercube cannot detect it in general", "anchors": ["src/dense/BarrierWalk.cpp: generateSample", "README.md"]}
{"id": "C36", "title": "Sparse barrier walks leave the uniform distribution invariant", "statement": "The sparse proposal at x is the Gaussian on x + ker A with covariance DIST_TERM * G^-1/2 (I - P) G^-1/2, its log density is the one generateProposalDensity computes up to a constant independent of x and z, and the accept/reject step of SparseDikinWalk and SparseVaidyaWalk satisfies detailed balance with respect to the uniform distribution on the polytope.", "quantifier": "all A with independent rows, pairs of points with positive last k coordinates", "why_tests_cant": "statistical tests are approximate and on one polytope", "anchors": ["src/sparse/SparseBarrierWalk.cpp: generateSample, generateProposalDensity, generateCompleteWalk"]}
{"id": "C37", "title": "Ball walk leaves the uniform distribution invariant", "statement": "For draws with a law symmetric under negation, the BallWalk step is reversible with respect to Lebesgue measure restricted to the polytope.", "quantifier": "all polytopes, radii and symmetric direction laws", "why_tests_cant": "measure-level statement", "anchors": ["src/dense/BallWalk.cpp"]}
{"id": "C38", "title": "Facial reduction asks the LP solver the right question", "statement": "The linear program built for index i has as feasible points exactly the y with A^T y = (0, z), z >= 0, z_i = 1, <b, y> = 0; the LPs built by the two centre classes have as feasible points exactly the (x, delta) with Ax + delta <= b, delta >= 0, respectively Ax = b, x_j >= delta on the last k, delta >= 0, last k x_j >= 0.", "quantifier": "all A, b, k, i", "why_tests_cant": "bound codes, offsets and transposition must be right for all shapes", "anchors": ["src/utils/FacialReduction.cpp: findZ", "src/utils/SparseLP.cpp", "src/utils/DenseCenter.cpp", "src/utils/SparseCenter.cpp"]}
{"id": "C39", "title": "Facial reduction preserves the polytope", "statement": "For a nonempty polytope {Ax = b, x >=_k 0}, v -> saved_V v maps {v : sparse_A v = sparse_b, v >= 0 on all but the first cols-k coordinates} bijectively onto it, for an exact LP solver and exact rank decisions.", "quantifier": "all A, b, k with a feasible point, any number of reduction rounds", "why_tests_cant": "recursive algorithm on real data; equality of infinite sets", "anchors": ["src/utils/FacialReduction.cpp: reduce, entireFacialReductionStep, findZ, pickV, pickP"]}
{"id": "C40", "title": "Facial reduction ends with a strictly feasible polytope", "statement": "If the input polytope is nonempty, the reduced polytope has a point whose constrained coordinates are all strictly positive.", "quantifier": "all A, b, k with a feasible point", "why_tests_cant": "needs a theorem of alternatives over all inputs", "anchors": ["src/utils/FacialReduction.cpp: findZ, entireFacialReductionStep"]}
{"id": "C41", "title": "Facial reduction terminates", "statement": "reduce returns for every input: each round removes at least one coordinate, so at most k rounds run.", "quantifier": "all inputs, all err_dc", "why_tests_cant": "recursion depth is unbounded a priori", "anchors": ["src/utils/FacialReduction.cpp: entireFacialReductionStep"]}
{"id": "C42", "title": "Resuming the search at the last index loses nothing", "statement": "Starting each round at the saved index instead of the first constrained coordinate never misses a certificate that a full search would find.", "quantifier": "all inputs, rounds", "why_tests_cant": "an optimisation whose validity is a theorem about all polytopes", "anchors": ["src/utils/FacialReduction.cpp: findZ (global_index)"]}
{"id": "C43", "title": "Facial reduction returns independent rows and never turns an infeasible polytope feasible", "statement": "sparse_A has linearly independent rows, and if {Ax = b, x >=_k 0} is empty then so is the reduced polytope.", "quantifier": "all A, b, k", "why_tests_cant": "inconsistent right hand sides are not tested", "anchors": ["src/utils/FacialReduction.cpp: pickP, reduce"]}
{"id": "C44", "title": "The dense form is equivalent to the sparse form", "statement": "With sparse = false, y -> Q [z1; y] is a bijection from {y : dense_A y <= dense_b} onto the reduced constrained polytope, and distances are preserved.", "quantifier": "all reduced systems with independent rows", "why_tests_cant": "equality of infinite sets", "anchors": ["src/utils/FacialReduction.cpp: reduce"]}
{"id": "C45", "title": "Facial reduction is a function of its arguments", "statement": "Calling reduce repeatedly on one FacialReduction object gives the same outcome for the same arguments, whatever was reduced before.", "quantifier": "all call histories", "why_tests_cant": "unbounded histories", "anchors": ["src/utils/FacialReduction.cpp: reduce, global_index"]}
{"id": "C46", "title": "DenseCenter returns a deepest point", "statement": "If the polytope is nonempty and the LP attains its optimum, getInitialPoint returns x with Ax <= b maximising min_i (b - Ax)_i; if the polytope has a strictly interior point, the result is strictly interior.", "quantifier": "all A, b", "why_tests_cant": "all polytopes", "anchors": ["src/utils/DenseCenter.cpp: getInitialPoint"]}
{"id": "C47", "title": "SparseCenter returns a deepest point", "statement": "If the polytope is nonempty and the LP attains its optimum, getInitialPoint returns x with Ax = b maximising the minimum of the last k coordinates; if a point with positive last k coordinates exists, the result has positive last k coordinates.", "quantifier": "all A, b, k", "why_tests_cant": "all polytopes", "anchors": ["src/utils/SparseCenter.cpp: getInitialPoint", "src/utils/SparseLP.cpp"]}
{"id": "C48", "title": "denseFullWalkRun returns points of the original polytope", "statement": "For a nonempty polytope {Ax = b, x >=_k 0} and any dense walk that stays in its polytope, every row returned by denseFullWalkRun is a point of the original polytope.", "quantifier": "all A, b, k, walks, RNG streams", "why_tests_cant": "the tested polytopes never lose a coordinate in facial reduction", "anchors": ["src/utils/FullWalkRun.hpp: denseFullWalkRun"]}
{"id": "C49", "title": "sparseFullWalkRun returns points of the original polytope", "statement": "For a nonempty polytope {Ax = b, x >=_k 0} and any sparse walk that stays in its polytope, every row returned by sparseFullWalkRun is a point of the original polytope, and the reduced problem handed to the walk constrains exactly the coordinates that remain constrained.", "quantifier": "all A, b, k, walks, RNG streams", "why_tests_cant": "the tested polytopes drop equally many rows and columns", "anchors": ["src/utils/FullWalkRun.hpp: sparseFullWalkRun"]}
{"id": "C50", "title": "Full runs return one row per recorded step in the original dimension", "statement": "denseFullWalkRun and sparseFullWalkRun return as many rows as the inner walk and A.cols() columns; row i is the image of the inner walk's row i.", "quantifier": "all inputs", "why_tests_cant": "all shapes", "anchors": ["src/utils/FullWalkRun.hpp"]}
{"id": "C51", "title": "Facial reduction relies on the solver only where an LP has a solution", "statement": "The points returned by facial reduction are correct for any LP solver that returns optimal solutions of LPs that have one, whatever it leaves in the column values when the LP is infeasible (the LP status is never inspected).", "quantifier": "all polytopes, all such solvers", "why_tests_cant": "the behaviour on infeasible LPs depends on the solver's internals", "anchors": ["src/utils/FacialReduction.cpp: findZ", "src/utils/SparseLP.cpp: findOptimalVector"]}
{"id": "C52", "title": "Full runs complete", "statement": "For a nonempty bounded polytope {Ax = b, x >=_k 0}, k in 1..cols, the two full-run drivers return whenever the inner walk returns on the reduced polytope: no exception, no out-of-range access, no divergence.", "quantifier": "all A, b, k, walks", "why_tests_cant": "the tested polytopes are full dimensional, of positive dimension and have no redundant rows", "anchors": ["src/utils/FullWalkRun.hpp", "src/utils/FacialReduction.cpp: reduce"]}
{"id": "C53", "title": "Sparse ball walk leaves the uniform distribution invariant", "statement": "For draws with a law symmetric under negation, SparseBallWalk started from a uniform point of {Ax = b, last k coordinates >= 0} returns rows each of which is uniformly distributed on it, and one iteration satisfies detailed balance.", "quantifier": "all A with independent rows, b, k, radii, symmetric direction laws, iteration counts", "why_tests_cant": "measure-level statement over all polytopes", "anchors": ["src/sparse/SparseBallWalk.cpp"]}
{"id": "C54", "title": "Ball and barrier walks always return on valid arguments", "statement": "On valid arguments (consistent sizes, k in range, burnin >= 0, thin >= 1, niter at least burnin; for dense walks at least one constraint; positive dimension where the weights divide by it; for Vaidya a product of dimensions that fits in an int), BallWalk, SparseBallWalk and the library's barrier walks return: they never throw, never loop for ever and never execute undefined behaviour, in any arithmetic (floating point, NaN and failed factorisations included).", "quantifier": "all walk objects and histories, inputs, seeds, lengths, arithmetics, linear algebra back ends", "why_tests_cant": "absence of a crash for all inputs and all NaN patterns", "anchors": ["src/dense/BallWalk.cpp", "src/dense/BarrierWalk.cpp", "src/sparse/SparseBallWalk.cpp", "src/sparse/SparseBarrierWalk.cpp"]}
{"id": "C55", "title": "The local ellipsoid of a barrier walk lies in the polytope", "statement": "At an interior point x, every z with (z-x)' H(x) (z-x) smaller than the smallest barrier weight is strictly inside the polytope and passes the membership test, H being the metric the walk computes at x: radius 1 for Dikin, d/n for Vaidya, d/2n for John. For a sparse walk a proposal whose normal vector xi has DIST_TERM*|xi|^2 below the smallest weight has strictly positive tail coordinates and is never rejected by the membership test; with bounded draws a sparse Dikin run never reaches the boundary.", "quantifier": "all polytopes, interior points, walk classes (user subclasses for the general form), draws, run lengths", "why_tests_cant": "quantifies over all points of an ellipsoid and all polytopes", "anchors": ["src/dense/BarrierWalk.cpp: generateHessian", "src/sparse/SparseBarrierWalk.cpp: generateSample"]}
{"id": "C56", "title": "Python defaults return every iterate and meet the provisos", "statement": "From Python, generateCompleteWalk(niter, init, A, b[, k]) without further arguments returns exactly niter rows, row j being the chain after j+1 iterations; a default-constructed Ball, Dikin, Vaidya, John or Lee-Sidford walk (dense or sparse) returns on every polytope of admissible sizes, with all rows in the polytope (sparse: with nonnegative constrained coordinates) when init is; the default tolerances are positive, and the one of FacialReduction at most 1.", "quantifier": "all walk objects, polytopes, initial points, niter, random streams", "why_tests_cant": "the defaults must suit every polytope and length", "anchors": ["pybind11/PybindExt.cpp", "src/dense/JohnWalk.hpp", "src/dense/DikinLSWalk.hpp", "src/utils/FacialReduction.hpp"]}
{"id": "C57", "title": "The same constructor call means the same walk in C++ and Python", "statement": "A walk object or FacialReduction object constructed with the same explicit arguments, the rest left to the defaults, behaves the same from C++ and from Python: same samples for the same seed and input.", "quantifier": "all classes, arguments, inputs, seeds", "why_tests_cant": "the two sets of defaults are never compared by a test", "anchors": ["pybind11/PybindExt.cpp", "src/dense/HitRun.hpp", "src/sparse/SparseHitRun.hpp", "src/sparse/SparseJohnWalk.hpp", "src/utils/FacialReduction.hpp"]}
{"id": "C58", "title": "Hit-and-Run returns with probability one", "statement": "With ideal (independent normal and uniform) random draws and exact arithmetic, HitAndRun on a bounded polytope of dimension at least two, from a strictly interior point, with r nonzero and err positive, returns with probability one, and all its rows are strictly inside. SparseHitAndRun does so whenever A has independent rows and at least two more columns than rows, from a point with positive constrained coordinates, also on unbounded polytopes and for every r.", "quantifier": "all polytopes, interior starting points, radii, error parameters, numbers of iterations; almost all random streams", "why_tests_cant": "termination of two nested data dependent loops, with probability one over the draws", "anchors": ["src/dense/HitRun.cpp: binarySearch, generateCompleteWalk", "src/sparse/SparseHitRun.cpp: binarySearch, generateCompleteWalk"]}
{"id": "C59", "title": "Hit-and-Run samples are uniform up to the chord tolerance", "statement": "With ideal random draws and exact arithmetic, if the initial point is uniform on a bounded polytope of dimension at least two, every row returned by HitAndRun has a law that differs from the uniform law, on every measurable set, by at most (number of iterations so far) * (err / h) * vol(points at distance at most h from the polytope), for every h > 0; so rows are as close to uniform as wanted if err is small enough. The same holds for SparseHitAndRun on {A x = b, last k coordinates >= 0} if its diameter is less than 2^10000 r. The tolerance matters: for every err the first row is too often in any open set of points at distance more than err from the boundary.", "quantifier": "all polytopes, radii, tolerances, numbers of iterations, rows, measurable sets", "why_tests_cant": "a statement about the law of the samples, over all polytopes and tolerances", "anchors": ["src/dense/HitRun.cpp: binarySearch, generateCompleteWalk", "src/sparse/SparseHitRun.cpp: binarySearch, generateCompleteWalk"]}
{"id": "C60", "title": "Hit-and-Run forgets its starting point: samples converge to uniform", "statement": "With ideal random draws and exact arithmetic, for every bounded polytope of dimension at least two with an interior point there are constants beta in (0,1], C and err0 > 0 such that for every tolerance err <= err0 and from every interior starting point, the law of the position of HitAndRun after t iterations, and of any row recorded then, differs from the uniform law, on every measurable set, by at most (1-beta)^t + C err. So a long enough burn-in and a small enough err give rows as close to uniform as wanted, whatever the start. The same holds for SparseHitAndRun on {A x = b, last k coordinates >= 0} of diameter less than 2^10000 r.", "quantifier": "all polytopes, interior starting points, radii, tolerances, numbers of iterations, rows, measurable sets", "why_tests_cant": "a convergence statement over all starting points and lengths", "anchors": ["src/dense/HitRun.cpp: binarySearch, generateCompleteWalk", "src/sparse/SparseHitRun.cpp: binarySearch, generateCompleteWalk"]}
{"id": "C61", "title": "Sample averages of Hit-and-Run converge to averages over the polytope", "statement": "With ideal random draws and exact arithmetic, for every bounded polytope of dimension at least two with an interior point there are constants beta in (0,1], C and err0 > 0 such that from every interior starting point, for every err <= err0 and every measurable function phi bounded by M on the polytope, the mean of phi over L >= 1 equally spaced positions of HitAndRun, and over the rows of any call that should return L rows (which then does return), is within eps of the mean of phi over the polytope with probability at least 1 - (4 M^2/eps^2) (2/(beta L) + C err), with or without burn-in and thinning. The same holds for SparseHitAndRun on {A x = b, last k coordinates >= 0} of diameter less than 2^10000 r.", "quantifier": "all polytopes, starting points, bounded functions, tolerances, burn-in, thinning and sample sizes", "why_tests_cant": "a law of large numbers over all functions and lengths", "anchors": ["src/dense/HitRun.cpp: binarySearch, generateCompleteWalk", "src/sparse/SparseHitRun.cpp: binarySearch, generateCompleteWalk"]}
{"id": "C62", "title": "In floating point, returned points satisfy the constraints up to the rounding of one evaluation", "statement": "In IEEE double arithmetic (or any arithmetic with relative rounding error u, underflow error theta and no overflow), every row x a BallWalk or dense barrier walk returns is the initial point or satisfies, for the exact real values of the stored numbers, sum_j A_ij x_j <= b_i + ((1+u)^(n+1) - 1) sum_j |A_ij x_j| + n (1+u)^n theta for every constraint i, however long the run; conversely a point with that much slack always passes the membership test. The bound does not depend on the order of the sums beyond their depth. In the rows of a sparse ball or barrier walk, a constrained coordinate that is not NaN is >= 0 exactly.", "quantifier": "all polytopes, walks, user subclasses, random streams, run lengths, formats and summation orders", "why_tests_cant": "errors could accumulate over a run of any length; tests compare with a tolerance on a few polytopes", "anchors": ["src/dense/RandomWalk.cpp: inPolytope", "src/sparse/SparseRandomWalk.cpp: inPolytope", "src/dense/BallWalk.cpp", "src/dense/BarrierWalk.cpp"]}
{"id": "C63", "title": "Dense ball and barrier walks never return NaN", "statement": "In IEEE double arithmetic, if init contains no NaN then no row returned by BallWalk or by a dense barrier walk contains one, whatever numerical failure happens on the way (singular Hessian, failed factorisation, zero slack). For sparse ball and barrier walks this holds for the first constrained coordinate.", "quantifier": "all polytopes (degenerate ones included), walks, user subclasses, random streams and run lengths", "why_tests_cant": "needs every pattern of numerical breakdown", "anchors": ["src/dense/RandomWalk.cpp: inPolytope", "src/sparse/SparseRandomWalk.cpp: inPolytope", "src/dense/BallWalk.cpp", "src/dense/BarrierWalk.cpp"]}
{"id": "C64", "title": "Sparse Dikin and Vaidya samples converge to uniform", "statement": "With ideal random draws and exact arithmetic, on a bounded polytope {A x = b, last k coordinates >= 0} (A with independent rows and fewer rows than columns) with a point whose constrained coordinates are positive, and from every such starting point, for every eps > 0 there is a number t0 such that after t >= t0 iterations the position of SparseDikinWalk or SparseVaidyaWalk, and any row recorded then, lies in every measurable region with a probability within eps of the region's share of the polytope, for every r != 0, whatever the object's past, burn-in, thinning, seed and length (Vaidya: if k*(cols-rows) fits in an int).", "quantifier": "all polytopes, starting points, radii, regions, burn-in, thinning, lengths", "why_tests_cant": "a convergence statement over all regions and lengths", "anchors": ["src/sparse/SparseDikinWalk.cpp", "src/sparse/SparseVaidyaWalk.cpp", "src/sparse/SparseBarrierWalk.cpp: generateCompleteWalk"]}
{"id": "C65", "title": "Sample averages of sparse Dikin and Vaidya walks converge", "statement": "Under the hypotheses of C64, for every measurable function phi bounded on the polytope and all eps, delta > 0 there is L0 such that for L >= L0 the mean of phi over L equally spaced positions of SparseDikinWalk or SparseVaidyaWalk, and over the rows of any call that should return L rows (which then does return), is within eps of the mean of phi over the polytope with probability at least 1 - delta, with or without burn-in and thinning.", "quantifier": "all polytopes, starting points, radii, bounded functions, burn-in, thinning and sample sizes", "why_tests_cant": "a law of large numbers over all functions and lengths", "anchors": ["src/sparse/SparseDikinWalk.cpp", "src/sparse/SparseVaidyaWalk.cpp", "src/sparse/SparseBarrierWalk.cpp: generateCompleteWalk"]}
{"id": "C66", "title": "On boxes, dense Dikin and Vaidya samples and their averages converge to uniform", "statement": "On a bounded polytope all of whose constraints involve one coordinate each, with an interior point, with ideal draws and exact arithmetic and from every interior starting point: the law of the position of DikinWalk and VaidyaWalk, and of the rows recorded, converges to the uniform law on every measurable region, and their sample averages converge in probability to the average over the polytope (Vaidya: if cols*rows fits in an int). (On other polytopes it need not: C78.)", "quantifier": "all such polytopes, starting points, radii, regions, bounded functions, burn-in, thinning, lengths", "why_tests_cant": "a convergence statement over all regions and lengths", "anchors": ["src/dense/DikinWalk.cpp", "src/dense/VaidyaWalk.cpp", "src/dense/BarrierWalk.cpp: generateCompleteWalk"]}
{"id": "C67", "title": "Which integer arguments a walk accepts, and what every one of them returns", "statement": "For every walk class and all int arguments niter, burnin, thin: if niter - burnin fits an int, thin is not 0, the truncated quotient (niter - burnin) / thin is not negative (nor INT_MIN / -1) and niter < INT_MAX, then recording adds no failure of its own to the chain and the call returns |niter - burnin| / |thin| rows, where row j is the position at time burnin + (j+1)*thin if thin > 0 and that time is at least 1, and a zero row otherwise; for all other integers the call is undefined behaviour.", "quantifier": "all walks, int triples, inputs, random streams", "why_tests_cant": "2^96 integer triples, most of them outside the documented range", "anchors": ["src/dense/BallWalk.cpp: generateCompleteWalk", "src/dense/HitRun.cpp: generateCompleteWalk", "src/dense/BarrierWalk.cpp: generateCompleteWalk", "src/sparse/SparseBallWalk.cpp: generateCompleteWalk", "src/sparse/SparseHitRun.cpp: generateCompleteWalk", "src/sparse/SparseBarrierWalk.cpp: generateCompleteWalk"]}
{"id": "C68", "title": "Facial reduction returns a problem of the true size", "statement": "On a nonempty polytope {Ax = b, last k coordinates >= 0} the sparse form returned by FacialReduction::reduce has one column per coordinate that is unconstrained or not identically zero on the polytope, and as many rows as the rank of A restricted to these columns.", "quantifier": "all A, b, k, tolerances, solver answers", "why_tests_cant": "all polytopes and all LP optima", "anchors": ["src/utils/FacialReduction.cpp: reduce"]}
{"id": "C69", "title": "Facial reduction crashes exactly on coordinate cones", "statement": "On a nonempty polytope FacialReduction::reduce (in exact arithmetic, 0 < err <= 1) returns unless the polytope is a coordinate cone (A x = b forces no equation on the surviving coordinates: the polytope is {x : fixed constrained coordinates 0, the remaining ones free or nonnegative}), in which case it reads outside a matrix.", "quantifier": "all A, b, k, tolerances, solver answers", "why_tests_cant": "an exact condition over all polytopes", "anchors": ["src/utils/FacialReduction.cpp: reduce, entireFacialReductionStep, pickV, pickP"]}
{"id": "C70", "title": "Exactly when denseFullWalkRun works", "statement": "On a nonempty polytope and for a walk that always returns a row, denseFullWalkRun returns iff the polytope is not a coordinate cone and no constrained coordinate vanishes on it; otherwise it is undefined behaviour.", "quantifier": "all A, b, k, walks, tolerances, solver answers", "why_tests_cant": "an exact condition over all polytopes", "anchors": ["src/utils/FullWalkRun.hpp: denseFullWalkRun", "src/utils/FacialReduction.cpp: reduce"]}
{"id": "C71", "title": "Exactly which k sparseFullWalkRun hands to the walk", "statement": "On a nonempty polytope sparseFullWalkRun calls the walk with new_k = rank of the surviving columns + k - A.rows(); it throws (for a walk that accepts every k in range) iff this number is out of range, and the number is the right one iff reduction drops equally many rows and columns.", "quantifier": "all A, b, k, walks, tolerances, solver answers", "why_tests_cant": "an exact condition over all polytopes", "anchors": ["src/utils/FullWalkRun.hpp: sparseFullWalkRun", "src/utils/FacialReduction.cpp: reduce"]}
{"id": "C72", "title": "Exactly when Hit-and-Run terminates", "statement": "In exact arithmetic, the dense chord search from a feasible point along a unit direction terminates iff r != 0, err > 0, the ray leaves the polytope and the chord length is not a multiple of 2T/2^J, T being the first of 2|r|, 4|r|, ... beyond it and J the number of halvings from T to at most err; the sparse one iff it gives up after 10000 doublings or err > 0 and the same condition holds. A step terminates iff both its searches do (and the draw is not zero, for the dense walk), and a whole call with recordable integers returns iff the draw at every state it reaches does.", "quantifier": "all polytopes, points, directions, radii, tolerances, random streams, lengths", "why_tests_cant": "an exact condition for termination of nested data dependent loops", "anchors": ["src/dense/HitRun.cpp: binarySearch, generateCompleteWalk", "src/sparse/SparseHitRun.cpp: binarySearch, generateCompleteWalk"]}
{"id": "C73", "title": "JohnWalk and SparseJohnWalk compute the John weights", "statement": "In exact arithmetic, at every strictly interior point there is exactly one positive weight vector w solving w_i = (leverage score of row i of the slack-scaled matrix reweighted by w^(alpha/2)) + d/(2n), it is the maximiser of the log-determinant program that defines John weights, and generateWeight converges to it: a call on an object that starts from all ones stops by its own criterion as soon as max_iter * lim^2 > 3n/2, the pass count t satisfies t * lim^2 <= 3n/2, the squared distance to w decays at least like (1 - (d/n)^2/(144 log2(2n/d)))^t, and when the criterion is met every result is within 24 (n/d) log2(2n/d) lim sqrt(n) of w whatever the object's past, so two objects with different histories agree up to twice that. The same for SparseJohnWalk with the constrained coordinates in place of the rows.", "quantifier": "all polytopes, interior points, tolerances, iteration limits, histories of the object", "why_tests_cant": "existence, uniqueness and a convergence rate over all polytopes and histories", "anchors": ["src/dense/JohnWalk.cpp: generateWeight", "src/sparse/SparseJohnWalk.cpp: generateWeight", "src/dense/JohnWalk.hpp"]}
{"id": "C74", "title": "Lee-Sidford weights: when they exist, and when DikinLSWalk finds them", "statement": "In exact arithmetic, at a strictly interior point the equation w_i = leverage score of row i reweighted by w^(alpha/2) has a positive solution iff no constraint has a zero normal (sparse: no constrained coordinate is constant on Ax = b); it is unique and is the maximiser of log det - alpha sum w (n >= 2). Whatever the object's past and step size, if generateWeight stops by its own criterion then the result is within 4(1 + ln n) G/(alpha - G) of that solution (G = gradient limit < alpha), so objects with different histories agree up to twice that. If the leverage scores are at least l^(1/(1 + ln n)) with l above the built-in floor and 2 step alpha <= l, the loop converges geometrically, and stops by its criterion within a stated number of passes. But this is not so in general: on [-1000,1] at 0 no step size or iteration limit lets it stop (the weight is below the floor 1e-5), and on [-25,1] with the default step 0.1 it never stops from a fresh object although the solution is above the floor: the weights used are then at least 20% off.", "quantifier": "all polytopes, interior points, tolerances, step sizes, iteration limits, histories of the object", "why_tests_cant": "existence, uniqueness, a convergence rate and non-convergence for every iteration limit", "anchors": ["src/dense/DikinLSWalk.cpp: generateWeight", "src/sparse/SparseDikinLSWalk.cpp: generateWeight", "src/dense/DikinLSWalk.hpp"]}
{"id": "C75", "title": "When the ball walk converges to uniform", "statement": "With ideal draws and exact arithmetic: if the polytope is bounded, of dimension n >= 2, and contains a Euclidean ball of radius greater than the step |R|/sqrt(n), then from every starting point in it (boundary included) the probability that the position of BallWalk after t iterations, or a row recorded then, falls in a region differs from the region's share by at most (1-beta)^(t/n0), with beta > 0 and n0 depending only on the polytope and R; and averages over the rows converge in probability to the average over the polytope. If instead every point of the polytope is closer to the start than |R|/sqrt(n), every row is the start; and in dimension one every row lies in start + R*Z, so the law of the rows never approaches uniform.", "quantifier": "all polytopes, starting points, radii, regions, bounded functions, burn-in, thinning, lengths", "why_tests_cant": "a convergence rate over all regions and starting points, and non-convergence for all lengths", "anchors": ["src/dense/BallWalk.cpp: generateCompleteWalk"]}
{"id": "C76", "title": "When the sparse ball walk converges to uniform", "statement": "With ideal draws and exact arithmetic, for {A x = b, last k coordinates >= 0} with independent rows: if the polytope is bounded, of dimension n - m >= 2, and contains, within A x = b, a ball of radius greater than the step |R|/sqrt(n-m), then from every starting point in it the law of the position of SparseBallWalk, and of the rows recorded, converges geometrically to the uniform law, uniformly over regions and starting points, and averages over the rows converge in probability. If every point of the polytope is closer to the start than the step, every row is the start; and for n - m = 1 every row lies in start + R*Z*w for a fixed unit vector w, so the law of the rows never approaches uniform.", "quantifier": "all polytopes, starting points, radii, regions, bounded functions, burn-in, thinning, lengths", "why_tests_cant": "a convergence rate over all regions and starting points, and non-convergence for all lengths", "anchors": ["src/sparse/SparseBallWalk.cpp: generateCompleteWalk"]}
{"id": "C77", "title": "When the centre classes give a usable starting point", "statement": "For a nonempty polytope the deepest-point linear program of DenseCenter has a solution exactly when no direction z has Az < 0 in every row (SparseCenter: no z with Az = 0 and its last k coordinates positive). If the polytope has a strictly interior point, every correct LP solver makes getInitialPoint return a strictly interior point exactly in that case; otherwise (some unbounded polytopes) a correct LP solver may make it return a boundary point, from which barrier walks cannot start, and nothing is reported.", "quantifier": "all A, b, k and all correct LP solvers", "why_tests_cant": "a statement over all polytopes, bounded or not, and all correct solvers", "anchors": ["src/utils/DenseCenter.cpp: getInitialPoint", "src/utils/SparseCenter.cpp: getInitialPoint", "src/utils/SparseLP.cpp"]}
{"id": "C78", "title": "Dense Dikin and Vaidya samples need not become uniform", "statement": "With ideal draws and exact arithmetic, on the parallelogram 0 <= x0+x1 <= 1, 0 <= x1 <= 1 and for every radius r != 0: the uniform distribution is not invariant under DikinWalk or VaidyaWalk, and there is eps > 0 such that from every interior starting point, of any two successive iterations t, t+1 there is one after which some region contains the position (and any row recorded then) with a probability that differs from its share by at least eps. So no burn-in makes the samples uniform: the convergence of C66 fails.", "quantifier": "all radii, starting points, times, burn-in, thinning, lengths, generators", "why_tests_cant": "The statement is about all times and the law over all draws; a statistical test can neither establish a fixed gap at all times nor tell a slow walk from a biased one.", "anchors": ["src/dense/BarrierWalk.cpp: generateGaussianRV, generateSample", "src/dense/DikinWalk.cpp: generateWeight", "src/dense/VaidyaWalk.cpp: generateWeight"]}
{"id": "C79", "title": "SparseJohnWalk samples are near uniform despite approximate, history-dependent weights", "statement": "With ideal draws and exact arithmetic, on a bounded polytope {A x = b, last k coordinates >= 0} with independent rows and n - m <= k, from any starting point in its relative interior, for every eps there is t0 such that for every horizon H there is LIM0 > 0 such that, for every tolerance LIM < LIM0 and every iteration limit M with 3k^2/(n-m) < M LIM^2, at every iteration t0 <= t <= H the position of SparseJohnWalk (and any row recorded then) falls in every region with a probability within eps of the region's share, and means of bounded functions over enough rows of calls with at most H iterations are within eps of their mean over the polytope with probability 1 - delta; t0 does not depend on H, LIM, M, the seed, burn-in, thinning or what the object did before.", "quantifier": "all polytopes, starting points, regions, bounded functions, tolerances, iteration limits, seeds, burn-in, thinning, histories of the object", "why_tests_cant": "a limit law over all draws, for a chain whose weights depend on its whole past", "anchors": ["src/sparse/SparseJohnWalk.cpp: generateWeight", "src/sparse/SparseBarrierWalk.cpp: generateCompleteWalk"]}
{"id": "C80", "title": "User-defined sparse barrier walks converge to uniform", "statement": "With ideal draws and exact arithmetic, on a bounded polytope {A x = b, last k coordinates >= 0} with independent rows: every subclass of SparseBarrierWalk whose distance term is positive and whose weights are a measurable function of the point, positive on the constrained coordinates, has positions, recorded rows and means of bounded functions that converge to those of the uniform distribution, from any starting point in the relative interior.", "quantifier": "all subclasses with weights a function of the point, polytopes, starting points, regions, bounded functions, seeds, burn-in, thinning, lengths", "why_tests_cant": "a limit law over all draws and over all subclasses", "anchors": ["src/sparse/SparseBarrierWalk.hpp", "src/sparse/SparseBarrierWalk.cpp: generateCompleteWalk, generateSample, generateProposalDensity"]}
{"id": "C81", "title": "The linear programs and matrices handed to GLPK and Eigen are the intended ones", "statement": "For every sparse matrix, whatever its storage pattern (unsorted columns, stored zeros, empty rows or columns), SparseLP::findOptimalVector overruns none of its arrays, gives GLPK a maximisation problem with exactly the coefficients, objective, bound kinds and bounds passed in, and returns GLPK's answer to it; GLPK aborts iff there are no rows or no columns. Likewise the call sequences of DenseCenter, SparseCenter and the search of FacialReduction pose exactly the deepest-point and facial linear programs for every A, b (and k, and index), and the selection matrices built from triplets in facial reduction are such that a round computes V*V', P*(A*V'), P*b.", "quantifier": "all sparse and dense matrices and storage patterns, right-hand sides, k, indices, bound kinds", "why_tests_cant": "a statement over all sparsity patterns and sizes about one-based index arithmetic and array lengths", "anchors": ["src/utils/SparseLP.cpp: findOptimalVector", "src/utils/DenseCenter.cpp: getInitialPoint", "src/utils/SparseCenter.cpp: getInitialPoint", "src/utils/FacialReduction.cpp: findZ, pickV, pickP, entireFacialReductionStep"]}
{"id": "C82", "title": "Sparse walks never look at b: equality residuals are carried along, and drift at most linearly in floating point", "statement": "The result of every sparse walk is the same for every right-hand side b of the right length. In exact arithmetic every returned row x has A x - b equal to that of the initial point, so an infeasible start is neither detected nor corrected. In floating point, while positions stay finite with coordinates at most B, each row's equality residual exceeds that of the initial point by at most niter times (the largest residual |a.d| of a computed displacement d + |a|_1 times ((3-2u)u B/(1-u)^2 + theta/(1-u))), i.e. 2^-51 B + 2^-1074 per unit of |a|_1 in double, whatever the walk class (user-defined included), the linear solver and the draws.", "quantifier": "all sparse walks, matrices, right-hand sides, initial points, random streams, solvers, lengths, floating-point arithmetics", "why_tests_cant": "an accumulated rounding bound over all run lengths, and independence of an argument", "anchors": ["src/sparse/SparseBallWalk.cpp: generateCompleteWalk", "src/sparse/SparseHitRun.cpp: generateCompleteWalk", "src/sparse/SparseBarrierWalk.cpp: generateSample, generateCompleteWalk"]}
{"id": "C83", "title": "Methods overridden in Python take effect", "statement": "If a Python class derives from an exported walk class and defines generateCompleteWalk, generateWeight or setDistTerm, every call of that method, from Python and from C++ (denseFullWalkRun, sparseFullWalkRun, the sampling loop), runs the Python definition with its effect; methods it does not define behave as in the base class; in particular a subclass that only supplies weights samples like a C++ subclass with these weights, and for SparseBarrierWalk and SparseDikinWalk samples the polytope if the weights are positive.", "quantifier": "all exported walk classes, all Python subclasses, arguments, attributes and histories of the Python object, polytopes, random streams", "why_tests_cant": "The claim ranges over all user-written subclasses and over which calls inside C++ are dispatched to Python.", "anchors": ["pybind11/PybindExt.cpp: PyRandomWalk, PyBarrierWalk, PySparseRandomWalk, PySparseBarrierWalk, py::class_ registrations", "src/sparse/SparseBarrierWalk.cpp: setDistTerm", "src/dense/BarrierWalk.cpp: setDistTerm, generateWeight"]}
{"id": "C84", "title": "End to end: rows returned by the full-run drivers follow the uniform distribution on the original polytope", "statement": "With ideal draws, exact arithmetic and an exact LP solver, for a bounded polytope P = {x | A x = b, last k coordinates >= 0} of dimension d given by the user: sparseFullWalkRun, if facial reduction hands the walk the right number of constrained coordinates (C71) and P is not a coordinate cone, and denseFullWalkRun, if no constrained coordinate vanishes on P, run the walk on one fixed reduced problem and return images of its rows, and in the caller's coordinates the probability that a row recorded at iteration t falls in a region tends, as t grows, to the share of P in that region, and means of bounded functions over the rows tend to their mean over P: for SparseDikinWalk and SparseVaidyaWalk (d >= 1), SparseHitAndRun and HitAndRun (d >= 2, small chord tolerance), SparseBallWalk and BallWalk (d >= 2, a ball larger than the step fits in P), SparseJohnWalk (small weight tolerance), DikinWalk (d = 1). A may have redundant rows and P may lie in a face.", "quantifier": "all polytopes of all dimensions, tolerances, step radii, regions, bounded functions, seeds, burn-in, thinning, lengths, coordinate systems of the affine hull", "why_tests_cant": "a limit law over all draws for the composition of facial reduction, centring, the walk and the way back", "anchors": ["src/utils/FullWalkRun.hpp: denseFullWalkRun, sparseFullWalkRun", "src/utils/FacialReduction.cpp: reduce", "src/utils/SparseCenter.cpp: getInitialPoint", "src/utils/DenseCenter.cpp: getInitialPoint"]}
{"id": "C85", "title": "Hit-and-Run in double precision: rounding does not accumulate over the run", "statement": "HitAndRun in IEEE double precision, on a polytope all of whose accepted points are within B/2, with a finite radius |R| <= B and B >= 2^-484, from a start within B: every finite row returned is within B and satisfies each inequality a x <= beta whose evaluation cannot overflow (2 (sum|a_j| B + n 2^-1075) + |beta| <= 2^1023) up to 330 n (n + N) 2^-53 B sum|a_j| + 2 n 2^-1075, where n is the dimension and N the number of search steps one chord search may take, a bound that does not depend on the number of iterations; for chord searches of any length that is sane for the precision (640 n (n+N+10) <= 2^53), and all draws that are finite, not zero, with a uniform number in [0,1].", "quantifier": "all dense polytopes, start points, radii, tolerances, random streams, run lengths, burn-in, thinning", "why_tests_cant": "It ranges over all roundings along runs of unbounded length: each step starts from a point that is itself only approximately inside.", "anchors": ["src/dense/HitRun.cpp: distance, binarySearch, generateCompleteWalk", "src/dense/RandomWalk.cpp: inPolytope, generateGaussianRVNorm"]}
{"id": "C86", "title": "Limits of Hit-and-Run in double precision: chord searches that never end", "statement": "HitAndRun in IEEE double precision, in dimension one with an upper bound beta = z 2^k (2^52 <= z < 2^53): (a) if z is odd and the walk starts at beta (an accepted point), generateCompleteWalk never returns, for every radius, tolerance, random stream and whatever the other inequalities; (b) if the tolerance ERR is below the spacing 2^k of doubles at beta (with the default 1e-6: beta >= 2^33), it never returns from any start in [0, beta]. Nothing else happens: no exception, no undefined behaviour.", "quantifier": "all such bounds, all radii, tolerances, random streams, numbers of search steps, iteration counts, burn-in, thinning, seeds; in (a) all further inequalities", "why_tests_cant": "Non-termination is a statement about all numbers of steps and all random streams.", "anchors": ["src/dense/HitRun.cpp: binarySearch, generateCompleteWalk", "src/dense/HitRun.hpp: HitAndRun", "src/dense/RandomWalk.cpp: inPolytope"]}
{"id": "C87", "title": "Hit-and-Run in double precision: no overflow, no NaN", "statement": "HitAndRun in IEEE double precision, on a polytope all of whose accepted points are within B/2 (B >= 2^-484, n B up to 2^508), with a finite radius |R| <= B and chord searches of at most N steps with 640 n (n+N+10) <= 2^53, from a finite start within B: every number it returns is finite, within B, and every row satisfies each inequality whose evaluation cannot overflow up to the rounding bound of C85, for every number of iterations; there is no sequence of draws (finite Gaussian vectors that are not negligible, uniform numbers in [0,1]) that makes a chord search overflow or produce a NaN.", "quantifier": "all dense polytopes, start points, radii, tolerances, random streams, run lengths, burn-in, thinning", "why_tests_cant": "It ranges over all roundings along runs of unbounded length, and over all lengths of the chord searches.", "anchors": ["src/dense/HitRun.cpp: distance, binarySearch, generateCompleteWalk", "src/dense/RandomWalk.cpp: inPolytope, generateGaussianRVNorm"]}
{"id": "C88", "title": "Sparse Hit-and-Run in double precision: no overflow, nonnegative up to rounding, drift of the equalities at most linear", "statement": "SparseHitAndRun in IEEE double precision, on {Ax = c, last k coordinates >= 0} bounded by B/2 even when the equalities are relaxed by tau (2^-484 <= B, n B <= 2^508, 640 n (n+N+10) <= 2^53, radius 110 n u B <= R <= B), from a finite start, with kernel directions whose residual |A v| is at most eta |v|: every number it returns is finite and within B; the last k coordinates are at least -320 n (n + N) u B, whatever the number of iterations; each equality residual grows by at most 6 n B eta + 24 n u B (sum of |A_ij|) per iteration, as long as this total stays within tau.", "quantifier": "all constraint matrices, k, start points, radii, tolerances, solver results, random streams, run lengths within the budget, burn-in, thinning", "why_tests_cant": "It ranges over all roundings along runs of unbounded length: each step starts from a point that already violates the equalities, and membership is tested on the inequalities only.", "anchors": ["src/sparse/SparseHitRun.cpp: binarySearch, generateCompleteWalk", "src/sparse/SparseRandomWalk.cpp: inPolytope, generateGaussianRV"]}
{"id": "C89", "title": "Facial reduction, centres and full runs with an LP solver that has a tolerance", "statement": "GLPK answers up to a tolerance delta: bounds hold up to delta, optima are attained up to delta, an infeasible problem yields zeros or a point feasible up to delta. If the polytope P = {A x = b, last k coordinates >= 0} has a point v whose constrained coordinates, except those that vanish on all of P, exceed delta (1 + |v|_1) / err (and delta + err <= 1, err below the pivots), facial reduction does what it does with an exact solver: it drops exactly the vanishing coordinates and redundant rows, its result is in bijection with P, and it returns unless P is a coordinate cone. DenseCenter returns a point whose slacks are at most 2 delta below the best, SparseCenter the same with equalities up to delta. If moreover err <= 1/2 and P is bounded, denseFullWalkRun starts its walk strictly inside and all its rows lie in P exactly; sparseFullWalkRun (nothing to drop) returns rows that are nonnegative and satisfy the equalities up to delta, for the walks that keep the equalities of their start. The separation is needed: for every delta > 0 there is such a solver for which facial reduction crashes on {x1 + x2 = eps, x >= 0} for every 0 < eps <= delta.", "quantifier": "all solvers with the tolerance, polytopes, tolerances delta and err, walks, seeds, lengths, burn-in, thinning", "why_tests_cant": "It ranges over all solver answers within a tolerance and over all polytopes; the recursion of facial reduction branches on a computed number.", "anchors": ["src/utils/FacialReduction.cpp: findZ, entireFacialReductionStep, reduce", "src/utils/DenseCenter.cpp: getInitialPoint", "src/utils/SparseCenter.cpp: getInitialPoint", "src/utils/FullWalkRun.hpp: denseFullWalkRun, sparseFullWalkRun"]}
{"id": "C90", "title": "What sparseFullWalkRun samples when it hands the walk the wrong number of constraints", "statement": "Let P = {A x = b, last k coordinates >= 0} be non-empty, and Q the set of solutions of A x = b that vanish where all of P does and are nonnegative in the last handedK of the other coordinates, where handedK = k - (rows of A - rank of A on these coordinates) is the number sparseFullWalkRun passes to the walk. Every row it returns with a walk that keeps its invariant lies in Q. If Q is bounded and has a point with positive handed coordinates, the law of the rows and the averages over the rows tend to those of the uniform distribution on Q with SparseDikinWalk, SparseVaidyaWalk (no int overflow), SparseHitAndRun and SparseBallWalk (dimension >= 2, small tolerance or step), and with SparseJohnWalk up to any horizon for small enough tolerances. Q = P if the number is right, and Q contains P if it is too small; if Q is then larger than P, a positive share of Q lies outside P and every late row of SparseDikinWalk is outside P with probability bounded away from zero: on {x >= 0 | x2 + x3 = 1 (given twice), x1 = x2 - 1/2}, half of the rows, in the limit.", "quantifier": "all matrices (redundant rows, vanishing coordinates), right-hand sides, k, exact solvers, random streams, seeds, lengths, burn-in, thinning", "why_tests_cant": "It is about the distribution of the rows over all runs, for all degenerate inputs.", "anchors": ["src/utils/FullWalkRun.hpp: sparseFullWalkRun", "src/utils/FacialReduction.cpp: reduce", "src/utils/SparseCenter.cpp: getInitialPoint", "src/sparse/SparseBarrierWalk.cpp: generateCompleteWalk"]}
{"id": "C91", "title": "Equivalent descriptions of a dense polytope give the same samples", "statement": "With the same walk, generator, start and integer arguments: (i) BallWalk and HitAndRun return the same rows (or fail in the same way) for any two systems A x <= b, A' x <= b' with at least one row each that have the same solutions - redundant, repeated, rescaled or reordered constraints change nothing; (ii) every dense walk of the library returns the same rows when the constraints are listed in another order and multiplied by positive numbers.", "quantifier": "all pairs of equivalent descriptions, numbers of constraints, starts, parameters, random streams, seeds, lengths, burn-in, thinning", "why_tests_cant": "It compares two runs of unbounded length for all pairs of inputs.", "anchors": ["src/dense/BallWalk.cpp", "src/dense/HitRun.cpp", "src/dense/BarrierWalk.cpp", "src/dense/DikinWalk.cpp", "src/dense/VaidyaWalk.cpp", "src/dense/JohnWalk.cpp", "src/dense/DikinLSWalk.cpp"]}
{"id": "C92", "title": "The choice of origin and of units does not matter to the dense walks", "statement": "With the same generator and integer arguments (0 <= burnin <= niter, thin >= 1): moving the polytope and the start by v moves every returned row by v, for every dense walk of the library (the constraints may also be reordered and rescaled); for BallWalk and HitAndRun, magnifying the polytope and the start by a > 0 about any point, and the radius and tolerance parameters by a, magnifies every returned row in the same way, whatever constraints describe the two polytopes.", "quantifier": "all polytopes, shifts, magnifications, starts, parameters, random streams, seeds, lengths, burn-in, thinning", "why_tests_cant": "It compares two runs of unbounded length for all pairs of inputs.", "anchors": ["src/dense/BallWalk.cpp", "src/dense/HitRun.cpp", "src/dense/BarrierWalk.cpp", "src/dense/DikinWalk.cpp", "src/dense/VaidyaWalk.cpp", "src/dense/JohnWalk.cpp", "src/dense/DikinLSWalk.cpp"]}
{"id": "C93", "title": "Equivalent equations of a sparse polytope give the same samples", "statement": "With the same generator, start, walk and integer arguments, exact linear solvers and independent rows: replacing the equations A x = b by an invertible combination M A x = M b changes no row returned by SparseBallWalk and SparseHitAndRun, nor (from an interior start, unless a proposal lands exactly on the boundary) by SparseBarrierWalk, SparseDikinWalk, SparseVaidyaWalk, SparseJohnWalk and SparseDikinLSWalk. With an ideal generator and a bounded polytope the exception has probability zero for SparseDikinWalk and SparseVaidyaWalk. The right-hand side handed to the walk plays no part.", "quantifier": "all matrices with independent rows, invertible combinations, right-hand sides, starts, parameters, random streams, seeds, lengths, burn-in, thinning", "why_tests_cant": "It compares two runs of unbounded length for all pairs of inputs.", "anchors": ["src/sparse/SparseRandomWalk.cpp: generateGaussianRV, inPolytope", "src/sparse/SparseBallWalk.cpp", "src/sparse/SparseHitRun.cpp", "src/sparse/SparseBarrierWalk.cpp", "src/sparse/SparseVaidyaWalk.cpp", "src/sparse/SparseJohnWalk.cpp", "src/sparse/SparseDikinLSWalk.cpp", "src/sparse/LeverageScore.cpp"]}
{"id": "C94", "title": "The choice of units does not matter to the sparse walks", "statement": "With the same generator and integer arguments (0 <= burnin <= niter, thin >= 1), exact linear solvers and independent rows: (i) SparseBallWalk and SparseHitAndRun: measuring all coordinates in units a > 0 times smaller (with the radius and the tolerance in the new units) and moving the origin of the coordinates that are free multiplies and moves every returned row in the same way; (ii) the sparse barrier walks: every nonnegative coordinate can be measured in a unit of its own, and the origin of the free ones moved, with the same radius and tolerance: every returned row is the old one in the new units, from an interior start, unless a proposal lands exactly on the boundary, which for SparseDikinWalk and SparseVaidyaWalk on a bounded polytope has probability zero.", "quantifier": "all matrices with independent rows, unit changes, shifts, starts, parameters, random streams, seeds, lengths, burn-in, thinning", "why_tests_cant": "It compares two runs of unbounded length for all pairs of inputs.", "anchors": ["src/sparse/SparseBallWalk.cpp", "src/sparse/SparseHitRun.cpp", "src/sparse/SparseBarrierWalk.cpp: generateSample, generateProposalDensity", "src/sparse/SparseDikinWalk.cpp", "src/sparse/SparseVaidyaWalk.cpp", "src/sparse/SparseJohnWalk.cpp", "src/sparse/SparseDikinLSWalk.cpp", "src/sparse/LeverageScore.cpp"]}
{"id": "C95", "title": "Rows that are far enough apart are jointly like independent samples", "statement": "With ideal draws and exact arithmetic and linear solvers, on a bounded polytope: for every number L of rows and every eps > 0 there is a gap such that a call with thin >= gap that returns L rows returns rows that are jointly within eps of L independent uniform points - for every measurable set S of L-tuples the probability that the rows, together, are in S differs from that of independent uniform points by at most eps - whatever the seed, the burn-in and what the object did before; the same for positions of the chain that are gap apart. For SparseDikinWalk, SparseVaidyaWalk (no int overflow) and any subclass of SparseBarrierWalk whose weights are a positive function of the point, from the relative interior; for DikinWalk and VaidyaWalk with axis-aligned constraints; for BallWalk and SparseBallWalk (dimension >= 2, a ball larger than the step) with error at most L (1 - beta)^(gap / n0); for HitAndRun and SparseHitAndRun (dimension >= 2, small tolerance) with error at most L ((1 - beta)^gap + C err). Without thinning this is false: two successive rows of BallWalk are equal or exactly |R| / sqrt(n) apart with probability one, and with probability zero if they were independent.", "quantifier": "all bounded polytopes, starts, numbers of rows, sets of tuples, ideal random streams, seeds, lengths, burn-in, thinning at least the gap", "why_tests_cant": "It is about the joint distribution of any number of rows over all runs.", "anchors": ["src/dense/BallWalk.cpp", "src/dense/HitRun.cpp", "src/dense/BarrierWalk.cpp", "src/dense/DikinWalk.cpp", "src/dense/VaidyaWalk.cpp", "src/sparse/SparseBallWalk.cpp", "src/sparse/SparseHitRun.cpp", "src/sparse/SparseBarrierWalk.cpp", "src/sparse/SparseDikinWalk.cpp", "src/sparse/SparseVaidyaWalk.cpp"]}
{"id": "C96", "title": "Rows of the full-run drivers that are far enough apart are jointly like independent samples of the caller's polytope", "statement": "Under the conditions of the end-to-end property (bounded polytope of dimension d, exact solvers, sparse driver: the right number of constraints is handed on; dense driver: no constrained coordinate vanishes), for every L and eps there is a gap such that L rows returned by a call with thin >= gap are jointly within eps of L independent uniform points of {A x = b, last k coordinates >= 0}, in the caller's coordinates: sparseFullWalkRun with SparseDikinWalk, SparseVaidyaWalk, SparseHitAndRun, SparseBallWalk; denseFullWalkRun with HitAndRun, BallWalk, and (dimension one) DikinWalk.", "quantifier": "all bounded polytopes, numbers of rows, sets of tuples, ideal random streams, seeds, lengths, burn-in, thinning at least the gap", "why_tests_cant": "It is about the joint distribution of any number of rows over all runs.", "anchors": ["src/utils/FullWalkRun.hpp: denseFullWalkRun, sparseFullWalkRun", "src/utils/FacialReduction.cpp: reduce", "src/utils/DenseCenter.cpp: getInitialPoint", "src/utils/SparseCenter.cpp: getInitialPoint"]}
{"id": "C97", "title": "Averages along one run converge with probability one", "statement": "With ideal draws and exact arithmetic and linear solvers, on a bounded polytope and for a bounded measurable function phi: except for a set of generators of probability zero, the walk moves along one path of which every call (whatever its integer arguments) returns the positions at the times it records, and the mean of phi over the first L recorded positions tends to the mean of phi under the uniform distribution as L grows, whatever the burn-in and the thinning (thin >= 1). For SparseDikinWalk, SparseVaidyaWalk (no int overflow) and any subclass of SparseBarrierWalk whose weights are a positive function of the point, from the relative interior; for DikinWalk and VaidyaWalk with axis-aligned constraints, from the interior; for BallWalk and SparseBallWalk (dimension >= 2, a ball larger than the step), from any point of the polytope.", "quantifier": "all bounded polytopes, starts, bounded measurable functions, ideal random streams, seeds, burn-in, thinning, and infinitely long runs", "why_tests_cant": "It is about almost every run, each infinitely long.", "anchors": ["src/dense/BallWalk.cpp", "src/dense/BarrierWalk.cpp", "src/dense/DikinWalk.cpp", "src/dense/VaidyaWalk.cpp", "src/sparse/SparseBallWalk.cpp", "src/sparse/SparseBarrierWalk.cpp", "src/sparse/SparseDikinWalk.cpp", "src/sparse/SparseVaidyaWalk.cpp"]}
{"id": "C98", "title": "Hit-and-Run at a fixed tolerance converges to a law of its own, close to uniform", "statement": "With ideal draws and exact arithmetic and linear solvers, on a bounded polytope of dimension >= 2: there are beta > 0, C and err0 > 0 that depend only on the polytope such that for every err <= err0 (and every radius) HitAndRun, and SparseHitAndRun, has a limit law pi on the (relative) interior: from every interior start the law of the position after t iterations, and of a row recorded then, is within (1 - beta)^t of pi; L rows that are gap apart are jointly within L (1 - beta)^gap of L independent draws from pi; and with probability one the averages along a run converge to the mean under pi. pi is within C err of uniform: probabilities differ by at most C err, means of functions bounded by M by at most 2 M C err.", "quantifier": "all bounded polytopes of dimension at least two, starts, tolerances up to a bound, radii, bounded measurable functions, ideal random streams, seeds, lengths, burn-in, thinning", "why_tests_cant": "It is about the distribution of the rows, and of infinitely long runs, over all generators.", "anchors": ["src/dense/HitRun.cpp: binarySearch, generateCompleteWalk", "src/sparse/SparseHitRun.cpp: binarySearch, generateCompleteWalk"]}
{"id": "C99", "title": "Averages along one run of a full-run driver converge with probability one, for the caller's polytope", "statement": "Under the conditions of the end-to-end property (bounded polytope of dimension d, exact solvers, sparse driver: the right number of constraints is handed on; dense driver: no constrained coordinate vanishes) and for a bounded measurable function phi: except for a set of generators of probability zero there is one path in the caller's coordinates of which every driver call (whatever its integer arguments) returns the positions at the times it records, and the mean of phi over the first L recorded rows tends to the mean of phi under the uniform distribution on {A x = b, last k coordinates >= 0}: sparseFullWalkRun with SparseDikinWalk, SparseVaidyaWalk, SparseBallWalk; denseFullWalkRun with BallWalk and (dimension one) DikinWalk. With HitAndRun and SparseHitAndRun the rows have a limit law within C err of uniform, rows gap apart are jointly within L (1 - beta)^gap of independent draws from it, and the averages converge to the mean under it.", "quantifier": "all bounded polytopes, bounded measurable functions, ideal random streams, seeds, burn-in, thinning, and infinitely long runs", "why_tests_cant": "It is about almost every run, each infinitely long.", "anchors": ["src/utils/FullWalkRun.hpp: denseFullWalkRun, sparseFullWalkRun", "src/utils/FacialReduction.cpp: reduce", "src/utils/DenseCenter.cpp: getInitialPoint", "src/utils/SparseCenter.cpp: getInitialPoint"]}
{"id": "C100", "title": "A run can be continued by a second call", "statement": "With ideal draws and exact arithmetic and linear solvers: take a call with 0 <= burnin < niter, thin >= 1 and thin dividing niter - burnin, then a second call of a walk of the same class and parameters (the same object or another) that starts from the last row of the first, with a generator of its own that is independent of the first, no burn-in, the same thinning and niter' iterations. The rows of the two calls together have the joint law of the rows of one call with niter + niter' iterations; and the path put together from s iterations of the first walk and the path of the second from there on has the law of the path of one walk, for every s. For BallWalk and SparseBallWalk from any point; for HitAndRun and SparseHitAndRun from the (relative) interior of a bounded polytope; for SparseDikinWalk, SparseVaidyaWalk (no int overflow) and any subclass of SparseBarrierWalk whose weights are a positive function of the point; for DikinWalk and VaidyaWalk on every bounded polytope.", "quantifier": "all polytopes, starts, pairs of lengths, burn-in, thinning, seeds, object histories, events about all rows together", "why_tests_cant": "It equates the laws of two kinds of runs, over all generators.", "anchors": ["src/dense/RandomWalk.cpp: initializeRNG", "src/dense/BallWalk.cpp", "src/dense/HitRun.cpp", "src/dense/BarrierWalk.cpp", "src/sparse/SparseBallWalk.cpp", "src/sparse/SparseHitRun.cpp", "src/sparse/SparseBarrierWalk.cpp"]}
{"id": "C101", "title": "Chaining calls with one seed stays in a fixed low-dimensional subspace", "statement": "For BallWalk, HitAndRun, SparseBallWalk and SparseHitAndRun, every random library, polytope and seed other than -1 (0 <= burnin <= niter, thin >= 1): there are niter fixed vectors such that everything that comes out of calls made one after another with this seed and these integer arguments, each starting from a row of the one before, differs from the first start by a combination of them, however many calls are made. With one iteration per call all of it lies on one line; with fewer iterations per call than the dimension of the polytope all of it lies in a set of volume zero (of {A x = b} for the sparse classes), so it is not a sample of the polytope.", "quantifier": "all starts, polytopes, random streams, seeds, numbers of chained calls, entropy and uninitialised memory of each call", "why_tests_cant": "It quantifies over any number of chained calls.", "anchors": ["src/dense/RandomWalk.cpp: initializeRNG, generateGaussianRVNorm", "src/dense/BallWalk.cpp", "src/dense/HitRun.cpp", "src/sparse/SparseRandomWalk.cpp: initializeRNG", "src/sparse/SparseBallWalk.cpp", "src/sparse/SparseHitRun.cpp"]}
{"id": "C102", "title": "The sparse barrier walks never get stuck", "statement": "With ideal draws and exact arithmetic and linear solvers, on a bounded polytope {A x = b, last k coordinates >= 0} of dimension d = cols - rows (independent rows), from the relative interior: whenever one looks, the walk stands still for the next t iterations with probability at most (1 - p)^t, where p depends neither on the shape of the polytope nor on where in it the walk is, however close to the boundary. For SparseDikinWalk with radius R < 1, p = (1 - R^2) / 3^d (for any radius p = 3^-d times the probability that a d-dimensional standard normal vector has squared length at most d / R^2); for SparseVaidyaWalk p = (d / (3 (k + d)))^d (1 - R^2 / 2); for any subclass of SparseBarrierWalk whose weights lie between a and w, p = (a / (3 w))^d times the probability that the squared length is at most w / D, D its distance term.", "quantifier": "all bounded polytopes, starts, radii, times, lengths, seeds, burn-in, thinning, object histories, ideal random streams", "why_tests_cant": "It bounds the probability of an event over all runs, uniformly in the polytope and the position.", "anchors": ["src/sparse/SparseBarrierWalk.cpp: generateSample, generateCompleteWalk", "src/sparse/SparseDikinWalk.cpp", "src/sparse/SparseVaidyaWalk.cpp"]}
{"id": "C103", "title": "The dense Dikin and Vaidya walks have no such bound: on skewed polygons they stand still", "statement": "DikinWalk and VaidyaWalk take L^-1 xi, not L^-T xi, as proposal (H = L L^T), so their proposals do not follow the shape of the polytope. With ideal draws and exact arithmetic and linear solvers: for every radius R != 0, every number t of iterations and every eps > 0 there is a bounded polygon, symmetric about the origin, such that a call that starts at the origin stands still for its first t iterations with probability at least 1 - eps, whatever the object did before and whatever the integer arguments. (The parallelograms |x0 + s x1| <= 1, |x1| <= 1 with large s.) On the same parallelograms in slack form SparseDikinWalk of radius R < 1 stands still for t iterations with probability at most (1 - (1 - R^2) / 9)^t, whatever s.", "quantifier": "all radii, numbers of iterations, tolerances, ideal random streams, seeds, lengths, burn-in, thinning, object histories; all slopes for the sparse class", "why_tests_cant": "It is about the probability of an event over all runs, and gives a polygon for every radius and every length.", "anchors": ["src/dense/BarrierWalk.cpp: generateSample", "src/dense/DikinWalk.cpp", "src/dense/VaidyaWalk.cpp", "src/sparse/SparseDikinWalk.cpp"]}
{"id": "C104", "title": "Averages over the rows concentrate exponentially", "statement": "With ideal draws and exact arithmetic and linear solvers, on a bounded polytope of dimension >= 2: there is a constant C such that for every start, every function phi bounded by M on the polytope, every eps > 0 and every number L of rows, whatever burn-in and thinning, the mean of phi over the L rows of a call (and over L equally spaced positions) is off from the mean of phi under the uniform distribution by eps or more with probability at most 2 exp(r - L r^2 / 2), r = eps / (C M). For BallWalk (the polytope holds a ball of more than the step length) and SparseBallWalk; for HitAndRun and SparseHitAndRun, every radius (sparse: not absurdly small against the diameter) and every err <= err0, with eps + 2 M C' err in place of eps. So for BallWalk L >= 2 / r^2 (r + log(2 / delta)) rows give the mean to eps with probability 1 - delta: the number of rows grows with log(1 / delta) only.", "quantifier": "all bounded polytopes, starts, bounded measurable functions, tolerances, numbers of rows, seeds, burn-in, thinning, ideal random streams", "why_tests_cant": "It bounds the probability of an event over all runs, with one constant for all functions, starts and lengths.", "anchors": ["src/dense/BallWalk.cpp", "src/dense/HitRun.cpp", "src/sparse/SparseBallWalk.cpp", "src/sparse/SparseHitRun.cpp"]}
{"id": "C105", "title": "Averages over the rows of a full-run driver concentrate exponentially, for the caller's polytope", "statement": "Under the conditions of the end-to-end property (bounded polytope of dimension d >= 2, exact solvers; sparse driver: the right number of constraints is handed on; dense driver: no constrained coordinate vanishes): there is a constant C such that for every function phi bounded by M on {A x = b, last k coordinates >= 0}, every eps > 0 and every L the mean of phi over the L rows a driver call returns is off from the mean of phi under the uniform distribution on the caller's polytope by eps or more with probability at most 2 exp(r - L r^2 / 2), r = eps / (C M): sparseFullWalkRun with SparseBallWalk, denseFullWalkRun with BallWalk; with SparseHitAndRun and HitAndRun up to eps + 2 M C' err for every err up to a bound.", "quantifier": "all bounded polytopes, bounded measurable functions, tolerances, numbers of rows, seeds, burn-in, thinning, ideal random streams", "why_tests_cant": "It bounds the probability of an event over all runs of the whole pipeline.", "anchors": ["src/utils/FullWalkRun.hpp: denseFullWalkRun, sparseFullWalkRun", "src/utils/FacialReduction.cpp: reduce", "src/utils/DenseCenter.cpp: getInitialPoint", "src/utils/SparseCenter.cpp: getInitialPoint"]}
{"id": "C106", "title": "Facial reduction and the full runs depend on few linear programs", "statement": "With a solver that solves every LP it is given right (and returns zeros on infeasible ones) and err_dc <= 1, the outcome of FacialReduction.reduce, whatever A, b, k and the QR decomposition do, is determined by the solver's answers to at most k linear programs: any other solver, right or wrong elsewhere, that gives the same answers to these gives the same outcome. For denseFullWalkRun and sparseFullWalkRun with any walk at most k + 1.", "quantifier": "all matrices, right hand sides, k, QR decompositions, walks, integer arguments; all other solvers", "why_tests_cant": "It quantifies over all solvers and all inputs.", "anchors": ["src/utils/FacialReduction.cpp: findZ, entireFacialReductionStep, reduce", "src/utils/FullWalkRun.hpp: denseFullWalkRun, sparseFullWalkRun", "src/utils/SparseLP.cpp: findOptimalVector"]}
{"id": "C107", "title": "Repeating the constraints is the same as asking for a smaller radius", "statement": "If every row of (A, b) is written N times (in any order), the polytope is the same, but a DikinWalk of radius r on the longer description returns, for almost every generator state, the very rows that a DikinWalk of radius r / sqrt(N) returns on the original one; for VaidyaWalk the radius is r / N^(1/4). So redundant copies of all constraints slow a barrier walk down without bound, while BallWalk and HitAndRun do not notice them (C91).", "quantifier": "all bounded polytopes with interior, all multiplicities N >= 1 and orders of the rows, all interior starts, radii, valid integer arguments, ideal generators", "why_tests_cant": "It relates two runs on different inputs for almost every generator state and every polytope.", "anchors": ["src/dense/BarrierWalk.cpp: generateHessian, generateCompleteWalk", "src/dense/DikinWalk.cpp: generateWeight, setDistTerm", "src/dense/VaidyaWalk.cpp: generateWeight, setDistTerm"]}
{"id": "C108", "title": "The law of the samples does not depend on which ideal generator is used", "statement": "Two programs that make the same call, each with its own generator whose normal and uniform draws are independent and ideal, its own seed and (for barrier walks) its own walk object of the same parameters, get sample paths with the same law, and the rows of the two returned matrices, taken together, have the same joint law. So nothing a user estimates from the rows can depend on the generator, the seed, uninitialised memory or what the walk object did before.", "quantifier": "all pairs of ideal generators and seeds, all polytopes and starts of each walk's standing assumptions, all measurable sets of paths and of row matrices", "why_tests_cant": "It compares two probability laws on infinite paths; a test sees finitely many samples of each.", "anchors": ["src/dense/RandomWalk.cpp: generateGaussianRVNorm", "src/dense/BallWalk.cpp: generateCompleteWalk", "src/dense/HitRun.cpp: generateCompleteWalk", "src/dense/BarrierWalk.cpp: generateCompleteWalk", "src/sparse/SparseBallWalk.cpp: generateCompleteWalk", "src/sparse/SparseHitRun.cpp: generateCompleteWalk", "src/sparse/SparseBarrierWalk.cpp: generateCompleteWalk"]}
{"id": "C109", "title": "BallWalk and HitAndRun do not depend on the choice of orthonormal coordinates", "statement": "If an isometry y -> Q y + v (Q orthogonal: rotations, reflections, permutations of the coordinates) takes one polytope to another, however the two are described, then BallWalk and HitAndRun started at corresponding points have corresponding laws: the path of the second has the law of the image of the path of the first, and so have the rows of the returned matrices, taken together.", "quantifier": "all orthogonal Q, all v, all pairs of descriptions of isometric polytopes, all starts (interior for HitAndRun, on bounded polytopes), all pairs of ideal generators and seeds", "why_tests_cant": "The two runs use different draws, so no pair of seeded runs agrees; only their laws do.", "anchors": ["src/dense/BallWalk.cpp: generateCompleteWalk", "src/dense/HitRun.cpp: binarySearch, generateCompleteWalk, distance", "src/dense/RandomWalk.cpp: generateGaussianRVNorm, inPolytope"]}
{"id": "C110", "title": "DikinWalk and VaidyaWalk depend on the coordinates", "statement": "The barrier walks of the literature are affine-invariant; those of the library are not. For the unit square and its image under (u, v) -> (u - v, v) there is an epsilon > 0 such that from every interior start, late enough, at one of any two successive iterations the law of the sample after the change of coordinates differs from the image of the law before it by at least epsilon on some region, and so do the rows recorded then, whatever the generators, seeds and objects.", "quantifier": "all radii, interior starts, pairs of ideal generators and seeds, objects, all late iterations", "why_tests_cant": "It is a statement about laws in the limit of many iterations; a finite sample cannot separate it from noise.", "anchors": ["src/dense/BarrierWalk.cpp: generateSample, generateCompleteWalk", "src/dense/DikinWalk.cpp: generateWeight, setDistTerm", "src/dense/VaidyaWalk.cpp: generateWeight, setDistTerm"]}
{"id": "C111", "title": "The order in which the variables are listed does not matter to the sparse walks", "statement": "Listing the variables of {A x = b, last k coordinates >= 0} in another order (nonnegative variables still last), with the starting point reordered alike, reorders the samples: the joint law of the path of a sparse walk on the second problem, and of the rows of its calls, is the image under the reordering of that on the first, whatever the two generators, seeds and objects. For SparseBallWalk from any point; for SparseHitAndRun, SparseDikinWalk and SparseVaidyaWalk from relative interior points of bounded polytopes; for subclasses of SparseBarrierWalk whose positive weights are reordered alike. The draws of a seeded run are attached to positions in the list, so seeded runs differ; their laws do not.", "quantifier": "all polytopes, orders, starts, pairs of ideal generators, seeds, radii and objects", "why_tests_cant": "Both runs are random and no two seeded runs agree, since the draws are attached to positions in the list.", "anchors": ["src/sparse/SparseBallWalk.cpp: generateCompleteWalk", "src/sparse/SparseHitRun.cpp: generateCompleteWalk", "src/sparse/SparseBarrierWalk.cpp: generateSample, generateCompleteWalk", "src/sparse/SparseDikinWalk.cpp: generateWeight", "src/sparse/SparseVaidyaWalk.cpp: generateWeight"]}
{"id": "C112", "title": "Symmetric polytopes are sampled symmetrically", "statement": "Negating coordinates, moving the origin and listing the constraints in another order changes nothing: for BallWalk, HitAndRun, DikinWalk and VaidyaWalk the joint law of path and rows on the mirror image of a polytope is the mirror image of the law, whatever the generators, seeds and objects (DikinWalk and VaidyaWalk do depend on other changes of coordinates, C110). Hence, if the polytope is symmetric about the starting point in coordinate j, the average of that coordinate over the rows of a call is below the centre by a or more with exactly the probability with which it is above it by a or more, for every number of iterations and rows, although the samples of DikinWalk and VaidyaWalk need not become uniform (C78). And for the sparse walks: if renumbering the variables leaves polytope and starting point unchanged, the values returned for a variable have the joint law of those returned for the variable in its place.", "quantifier": "all bounded polytopes (BallWalk and SparseBallWalk: all), interior starts, orders, pairs of ideal generators, seeds, radii, objects and integer arguments", "why_tests_cant": "An exact identity between probabilities for every number of iterations cannot be told from a small bias by sampling.", "anchors": ["src/dense/BallWalk.cpp: generateCompleteWalk", "src/dense/HitRun.cpp: generateCompleteWalk", "src/dense/BarrierWalk.cpp: generateSample, generateCompleteWalk", "src/dense/VaidyaWalk.cpp: generateWeight", "src/sparse/SparseBarrierWalk.cpp: generateSample, generateCompleteWalk"]}
{"id": "C113", "title": "The law of what the drivers return does not depend on the generator", "statement": "sparseFullWalkRun and denseFullWalkRun called twice with the same problem and walk parameters, with two different ideal generators, two seeds and two walk objects of the same parameters, return matrices with the same joint law: the caller's rows cannot tell the two runs apart, whatever is computed from them. This holds for every number of iterations, not only in the limit, and for DikinWalk on full-dimensional polytopes of any dimension although its limit need not be uniform (C78).", "quantifier": "all problems under the conditions of C84 (exact solver and linear algebra, bounded polytope), all pairs of ideal generators, seeds and walk objects, all counters, all measurable sets of matrices", "why_tests_cant": "It compares two probability laws of matrices; a test sees finitely many samples of each.", "anchors": ["src/utils/FullWalkRun.hpp: sparseFullWalkRun, denseFullWalkRun", "src/sparse/SparseBarrierWalk.cpp: generateCompleteWalk", "src/sparse/SparseJohnWalk.cpp: generateWeight", "src/dense/BarrierWalk.cpp: generateCompleteWalk", "src/dense/HitRun.cpp: generateCompleteWalk"]}
{"id": "C114", "title": "Runs from a uniformly distributed starting point look the same backwards", "statement": "If the starting point is drawn uniformly from a bounded polytope, the first s positions of a walk have the same joint law when listed in the opposite order, for every s, and the rows of the returned matrix have the same joint law when read from the last to the first, for every burn-in and thinning: BallWalk and SparseBallWalk, SparseDikinWalk, SparseVaidyaWalk and every user-defined sparse barrier walk whose weights are a positive function of the point on every bounded polytope, DikinWalk and VaidyaWalk if all constraints bound a coordinate. (So any lag correlation, first-passage or trend statistic is symmetric in time.) DikinWalk on a parallelogram does not have the property, for any radius; a walk that has it satisfies detailed balance.", "quantifier": "all bounded polytopes (dense barrier walks: axis-aligned), ideal generators, seeds, radii, objects, numbers of positions, integer arguments and measurable sets", "why_tests_cant": "It equates probabilities of arbitrary events of whole runs.", "anchors": ["src/dense/BallWalk.cpp: generateCompleteWalk", "src/dense/BarrierWalk.cpp: generateSample, generateCompleteWalk", "src/sparse/SparseBallWalk.cpp: generateCompleteWalk", "src/sparse/SparseBarrierWalk.cpp: generateSample, generateCompleteWalk"]}
{"id": "C115", "title": "Lagged co-occurrences of rows are as effective-sample-size estimators assume", "statement": "If the starting point is drawn uniformly from a bounded polytope, then for every region, every burn-in, thinning and number of rows: every row is in the region with probability equal to its share; the covariance of the region's indicator at two rows depends only on how many rows apart they are; over even numbers of rows it is nonnegative and nonincreasing; and the sum of the covariances at 2t and 2t+1 rows is nonnegative and nonincreasing in t (the assumptions of the initial positive and monotone sequence estimators of the effective sample size): BallWalk, SparseBallWalk, SparseDikinWalk, SparseVaidyaWalk, user-defined sparse barrier walks whose weights are a positive function of the point, and DikinWalk and VaidyaWalk if all constraints bound a coordinate.", "quantifier": "all bounded polytopes (dense barrier walks: axis-aligned), ideal generators, seeds, radii, objects, integer arguments, rows and measurable regions", "why_tests_cant": "It compares probabilities of events of whole runs at all lags; estimates of covariances have errors of the size of the effect.", "anchors": ["src/dense/BallWalk.cpp: generateCompleteWalk", "src/dense/BarrierWalk.cpp: generateSample, generateCompleteWalk", "src/sparse/SparseBallWalk.cpp: generateCompleteWalk", "src/sparse/SparseBarrierWalk.cpp: generateSample, generateCompleteWalk"]}
