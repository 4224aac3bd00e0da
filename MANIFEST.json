{
 "claims": [
  {
   "property": "C01",
   "status": "proved",
   "theorems": [
    "PW.C01_shape",
    "PW.C01_recording_total"
   ],
   "note": "every walk class (user subclasses included), every arithmetic"
  },
  {
   "property": "C02",
   "status": "proved",
   "theorems": [
    "PW.C02_rows",
    "PW.C02_chain_independent"
   ],
   "note": "every walk class, every arithmetic"
  },
  {
   "property": "C03",
   "status": "partial",
   "theorems": [
    "PW.C03_visited_partial",
    "PW.C03_thin_zero",
    "PW.C03_negative_size",
    "PW.C03_filler_rows",
    "PW.C03_negative_thin_filler",
    "PW.C03_never_rejected"
   ],
   "note": "false as stated: thin = 0 and burnin >= niter + thin are undefined behaviour, negative burnin / negative thin return zero filler rows, nothing is rejected (negations proved); true part: burnin >= 0, thin >= 1"
  },
  {
   "property": "C04",
   "status": "proved",
   "theorems": [
    "PW.C04_rejected",
    "PW.C04_no_exception",
    "PW.C04_library"
   ],
   "note": ""
  },
  {
   "property": "C05",
   "status": "partial",
   "theorems": [
    "PW.C05_walk",
    "PW.C05_utils",
    "PW.C05_only_then",
    "PW.C05_fullRuns",
    "PW.C49_valid_k_rejected"
   ],
   "note": "proved for walks, centre and facial reduction; the converse fails for sparseFullWalkRun, which can throw for a valid k because it computes a wrong new k (C49_valid_k_rejected)"
  },
  {
   "property": "C06",
   "status": "proved",
   "theorems": [
    "PW.C06_seeded",
    "PW.C06_unseeded",
    "PW.C06_seed_injective",
    "PW.C06_seed_word",
    "PW.C06_seeds_distinguished"
   ],
   "note": ""
  },
  {
   "property": "C07",
   "status": "proved",
   "theorems": [
    "PW.C07_reuse"
   ],
   "note": ""
  },
  {
   "property": "C08",
   "status": "proved",
   "theorems": [
    "PW.C08_prefix",
    "PW.C08_thinning"
   ],
   "note": ""
  },
  {
   "property": "C09",
   "status": "proved",
   "theorems": [
    "PW.C09_rows_tested"
   ],
   "note": "any arithmetic, user subclasses included"
  },
  {
   "property": "C10",
   "status": "proved",
   "theorems": [
    "PW.C10_feasible"
   ],
   "note": ""
  },
  {
   "property": "C100",
   "status": "proved",
   "theorems": [
    "PW.C100_ball",
    "PW.C100_sparse_ball",
    "PW.C100_hitrun",
    "PW.C100_sparse_hitrun",
    "PW.C100_sparse_dikin",
    "PW.C100_sparse_vaidya",
    "PW.C100_sparse_user",
    "PW.C100_dense_dikin",
    "PW.C100_dense_vaidya"
   ],
   "note": "over the reals, exact Eigen contracts, ideal generator; Continues in Spec/Continue; the generator left after s iterations is fresh and independent of the path so far"
  },
  {
   "property": "C101",
   "status": "proved",
   "theorems": [
    "PW.C101_span",
    "PW.C101_line",
    "PW.C101_null",
    "PW.C101_sparse_null"
   ],
   "note": "over the reals; any random library, any Eigen; Chained in Spec/Continue"
  },
  {
   "property": "C102",
   "status": "proved",
   "theorems": [
    "PW.C102_user",
    "PW.C102_dikin",
    "PW.C102_dikin_small",
    "PW.C102_vaidya"
   ],
   "note": "over the reals, exact Eigen contracts, ideal generator; stallProb and StallsAtMost in Spec/Stall; local comparison of the metric on an ellipsoid of the dimension of the polytope"
  },
  {
   "property": "C103",
   "status": "proved",
   "theorems": [
    "PW.C103_dikin",
    "PW.C103_vaidya",
    "PW.C103_sparse"
   ],
   "note": "over the reals, exact Eigen contracts, ideal generator; stallProb in Spec/Stall; the polygons are parallelograms |x0 + s x1| <= 1, |x1| <= 1 with a large slope s; C103_sparse on the same polygons in slack form (skewSlack_mem)"
  },
  {
   "property": "C104",
   "status": "proved",
   "theorems": [
    "PW.C104_ball",
    "PW.C104_sparse_ball",
    "PW.C104_hitrun",
    "PW.C104_sparse_hitrun",
    "PW.C104_enough"
   ],
   "note": "over the reals, exact Eigen contracts, ideal generator; MeanWithin in Spec/Limit; exponential moments from the minorisation, no independence of rows needed"
  },
  {
   "property": "C105",
   "status": "proved",
   "theorems": [
    "PW.C105_sparse_ball",
    "PW.C105_sparse_hitRun",
    "PW.C105_dense_ball",
    "PW.C105_dense_hitRun"
   ],
   "note": "over the reals, exact solvers, ideal generator; Driver.MeanWithin in Spec/EndToEnd"
  },
  {
   "property": "C106",
   "status": "proved",
   "theorems": [
    "PW.C106_reduce",
    "PW.C106_dense",
    "PW.C106_sparse"
   ],
   "note": "over the reals, exact LP solver; DependsOn in Spec/LPCount: counts the programs the outcome depends on"
  },
  {
   "property": "C107",
   "status": "proved",
   "theorems": [
    "PW.C107_dikin",
    "PW.C107_vaidya"
   ],
   "note": "over the reals, exact Eigen contracts, ideal generator; Repeats in Spec/Repeat; Vaidya when cols*rows of the longer description does not overflow"
  },
  {
   "property": "C108",
   "status": "proved",
   "theorems": [
    "PW.C108_ball",
    "PW.C108_hitrun",
    "PW.C108_dense_dikin",
    "PW.C108_dense_vaidya",
    "PW.C108_sparse_ball",
    "PW.C108_sparse_hitrun",
    "PW.C108_sparse_dikin",
    "PW.C108_sparse_vaidya",
    "PW.C108_sparse_john",
    "PW.C108_sparse_user"
   ],
   "note": "over the reals, exact Eigen contracts, ideal generators; SameLaw in Spec/SameLaw; C108_sparse_john for a small tolerance and a large enough iteration limit; JohnWalk and the DikinLS walks are not covered"
  },
  {
   "property": "C109",
   "status": "proved",
   "theorems": [
    "PW.C109_ball",
    "PW.C109_hitrun"
   ],
   "note": "over the reals, ideal generators; SameLaw in Spec/SameLaw; Hit-and-Run in dimension at least 2"
  },
  {
   "property": "C11",
   "status": "proved",
   "theorems": [
    "PW.C11_feasible"
   ],
   "note": ""
  },
  {
   "property": "C110",
   "status": "proved",
   "theorems": [
    "PW.C110_dikin",
    "PW.C110_vaidya",
    "PW.C110_dikin_law",
    "PW.C110_vaidya_law"
   ],
   "note": "over the reals, exact Eigen contracts, ideal generators; LawsApart, SameLaw in Spec/SameLaw"
  },
  {
   "property": "C111",
   "status": "proved",
   "theorems": [
    "PW.C111_ball",
    "PW.C111_hitrun",
    "PW.C111_user",
    "PW.C111_dikin",
    "PW.C111_vaidya"
   ],
   "note": "over the reals, exact Eigen contracts, ideal generators; Renumbered, reorder in Spec/Renumber, SameLaw in Spec/SameLaw"
  },
  {
   "property": "C112",
   "status": "proved",
   "theorems": [
    "PW.C112_ball",
    "PW.C112_hitrun",
    "PW.C112_dikin",
    "PW.C112_vaidya",
    "PW.C112_ball_average",
    "PW.C112_hitrun_average",
    "PW.C112_dikin_average",
    "PW.C112_vaidya_average",
    "PW.C112_sparse_ball",
    "PW.C112_sparse_hitrun",
    "PW.C112_sparse_dikin",
    "PW.C112_sparse_vaidya"
   ],
   "note": "over the reals, exact Eigen contracts, ideal generators; Mirrored, mirror, Balanced, Alike in Spec/Mirror, Renumbered in Spec/Renumber, SameLaw in Spec/SameLaw"
  },
  {
   "property": "C113",
   "status": "proved",
   "theorems": [
    "PW.C113_sparse_dikin",
    "PW.C113_sparse_vaidya",
    "PW.C113_sparse_john",
    "PW.C113_sparse_hitRun",
    "PW.C113_sparse_ball",
    "PW.C113_dense_ball",
    "PW.C113_dense_hitRun",
    "PW.C113_dense_dikin"
   ],
   "note": "over the reals, exact Eigen and GLPK contracts, ideal generators; SameRows in Spec/SameDriver; SparseJohnWalk for a small tolerance and large limit; JohnWalk, VaidyaWalk on the dense driver and DikinLS not covered"
  },
  {
   "property": "C114",
   "status": "proved",
   "theorems": [
    "PW.C114_ball",
    "PW.C114_sparse_ball",
    "PW.C114_sparse_dikin",
    "PW.C114_sparse_vaidya",
    "PW.C114_sparse_user",
    "PW.C114_dense_dikin_axis",
    "PW.C114_dense_vaidya_axis",
    "PW.C114_dense_dikin_not"
   ],
   "note": "over the reals, exact Eigen contracts, ideal generators; SameBackwards in Spec/Backwards; the parallelogram is a counterexample (C114_dense_dikin_not), so the dense barrier walks are claimed for axis-aligned constraints only"
  },
  {
   "property": "C115",
   "status": "proved",
   "theorems": [
    "PW.C115_ball",
    "PW.C115_sparse_ball",
    "PW.C115_sparse_dikin",
    "PW.C115_sparse_vaidya",
    "PW.C115_sparse_user",
    "PW.C115_dense_dikin_axis",
    "PW.C115_dense_vaidya_axis"
   ],
   "note": "over the reals, exact Eigen contracts, ideal generators; PositivePairs in Spec/Pairs"
  },
  {
   "property": "C12",
   "status": "proved",
   "theorems": [
    "PW.C12_chord",
    "PW.C12_chord_sparse"
   ],
   "note": "stronger than stated: every point beyond t+err is outside"
  },
  {
   "property": "C13",
   "status": "partial",
   "theorems": [
    "PW.C13_chord_terminates_partial",
    "PW.C13_chord_diverges"
   ],
   "note": "false in exact arithmetic when a bisection point falls exactly on the chord end (negation proved); terminates otherwise; with probability one by C58"
  },
  {
   "property": "C14",
   "status": "partial",
   "theorems": [
    "PW.C14_unbounded_diverges",
    "PW.C14_radius_zero_diverges",
    "PW.C14_boundary_diverges",
    "PW.C14_boundary_diverges_sparse",
    "PW.C14_halfline_never_returns"
   ],
   "note": "false: negations proved (unbounded polytope, r = 0, direction leaving the polytope at once from a boundary point)"
  },
  {
   "property": "C15",
   "status": "proved",
   "theorems": [
    "PW.C15_ball_step",
    "PW.C15_sparse_ball_step"
   ],
   "note": ""
  },
  {
   "property": "C16",
   "status": "proved",
   "theorems": [
    "PW.C16_ball",
    "PW.C16_hitRun",
    "PW.C16_barrier",
    "PW.C16_barrier_metric",
    "PW.C16_dikin",
    "PW.C16_library"
   ],
   "note": "barrier walks: metric nonsingular at visited states, shown for positive tails / Dikin"
  },
  {
   "property": "C17",
   "status": "proved",
   "theorems": [
    "PW.C17_rows_tested",
    "PW.C17_nonneg"
   ],
   "note": ""
  },
  {
   "property": "C18",
   "status": "proved",
   "theorems": [
    "PW.C18_feasible"
   ],
   "note": ""
  },
  {
   "property": "C19",
   "status": "proved",
   "theorems": [
    "PW.C19_walks",
    "PW.C19_metric",
    "PW.C19_leverage",
    "PW.C19_weights_dikin",
    "PW.C19_weights_base",
    "PW.C19_weights_vaidya",
    "PW.C19_weights_john",
    "PW.C19_weights_ls",
    "PW.C19_generateG",
    "PW.C19_proposal",
    "PW.C19_density",
    "PW.C19_step"
   ],
   "note": ""
  },
  {
   "property": "C20",
   "status": "proved",
   "theorems": [
    "PW.C20_weights",
    "PW.C20_weights_sparse",
    "PW.C20_hessian",
    "PW.C20_metric_sparse"
   ],
   "note": ""
  },
  {
   "property": "C21",
   "status": "proved",
   "theorems": [
    "PW.C21_vaidya"
   ],
   "note": ""
  },
  {
   "property": "C22",
   "status": "proved",
   "theorems": [
    "PW.C22_john"
   ],
   "note": ""
  },
  {
   "property": "C23",
   "status": "proved",
   "theorems": [
    "PW.C23_leeSidford"
   ],
   "note": ""
  },
  {
   "property": "C24",
   "status": "proved",
   "theorems": [
    "PW.C24_john",
    "PW.C24_ls",
    "PW.C24_sparseJohn",
    "PW.C24_sparseLS",
    "PW.C24_john_exact",
    "PW.C24_ls_exact",
    "PW.C24_sparseJohn_exact",
    "PW.C24_sparseLS_exact"
   ],
   "note": ""
  },
  {
   "property": "C25",
   "status": "proved",
   "theorems": [
    "PW.C25_affine"
   ],
   "note": ""
  },
  {
   "property": "C26",
   "status": "proved",
   "theorems": [
    "PW.C26_posDef",
    "PW.C26_library",
    "PW.C26_sparse_library",
    "PW.C26_dense_run",
    "PW.C26_sparse_run",
    "PW.C16_barrier_metric",
    "PW.metricG_pos"
   ],
   "note": ""
  },
  {
   "property": "C27",
   "status": "partial",
   "theorems": [
    "PW.C27_dense_partial",
    "PW.C27_sparse_partial",
    "PW.C27_dense_run",
    "PW.C27_sparse_run",
    "PW.C27_dense_samples",
    "PW.C27_sparse_samples",
    "PW.C27_positive",
    "PW.C27_overflow",
    "PW.C27_negative_dimension",
    "PW.C27_vaidya_iff"
   ],
   "note": "false for every dimension: the Vaidya int product overflows (undefined behaviour, negation proved); true part: product at most INT_MAX, cols >= rows; exact condition for VaidyaWalk proved (C27_vaidya_iff)"
  },
  {
   "property": "C28",
   "status": "proved",
   "theorems": [
    "PW.C28_leverage",
    "PW.takahashi_eq",
    "PW.sparseInverse_eq"
   ],
   "note": ""
  },
  {
   "property": "C29",
   "status": "proved",
   "theorems": [
    "PW.C29_vaidya"
   ],
   "note": ""
  },
  {
   "property": "C30",
   "status": "proved",
   "theorems": [
    "PW.C30_john",
    "PW.startsAtOnes_ones'",
    "PW.startsAtOnes_fresh"
   ],
   "note": ""
  },
  {
   "property": "C31",
   "status": "proved",
   "theorems": [
    "PW.C31_leeSidford"
   ],
   "note": ""
  },
  {
   "property": "C32",
   "status": "partial",
   "theorems": [
    "PW.C32_sparse",
    "PW.C32_dense_partial",
    "PW.C32_differs",
    "PW.C32_dense_le",
    "PW.C32_iff"
   ],
   "note": "false: the dense walk uses an integer division (negation proved); true exactly when the truncated quotient is exact (C32_iff)"
  },
  {
   "property": "C33",
   "status": "partial",
   "theorems": [
    "PW.C33_dense",
    "PW.C33_sparse",
    "PW.C33_dense_exact",
    "PW.C33_sparse_exact",
    "PW.C33_real",
    "PW.C33_undefined_ratio_accepted"
   ],
   "note": "last clause false: an undefined (NaN) ratio is always accepted (negation proved); the rest proved"
  },
  {
   "property": "C34",
   "status": "partial",
   "theorems": [
    "PW.C34_proposal_law",
    "PW.C34_iff_partial",
    "PW.C34_axis_partial",
    "PW.C34_false"
   ],
   "note": "The code draws x + sqrt(D) L^-1 xi, whose precision is LtL/D, not LLt/D = H/D. Proved: the actual law; that it is the claimed law iff the Hessian is diagonal; that it holds for axis-aligned constraints; and that the property is false at every interior point of a parallelogram. Missing: nothing can be proved beyond, the full property is false."
  },
  {
   "property": "C35",
   "status": "partial",
   "theorems": [
    "PW.C35_dikin_reversible_iff_partial",
    "PW.C35_vaidya_reversible_iff_partial",
    "PW.C35_dikin_axis_partial",
    "PW.C35_vaidya_axis_partial",
    "PW.C35_dikin_axis_samples_partial",
    "PW.C35_vaidya_axis_samples_partial",
    "PW.C35_dikin_not_reversible",
    "PW.C35_vaidya_not_reversible",
    "PW.C35_dikin_not_stationary",
    "PW.C35_vaidya_not_stationary"
   ],
   "note": "Consequence of C34. Proved: exact iff condition for detailed balance, that it holds (with stationarity and law of returned samples) for axis-aligned constraints, and that on a parallelogram detailed balance fails for both walks and, for every step size, the uniform distribution is not even invariant, so the full property is false (C78: nor do the samples converge to it)."
  },
  {
   "property": "C36",
   "status": "proved",
   "theorems": [
    "PW.C36_dikin_reversible",
    "PW.C36_dikin_stationary",
    "PW.C36_vaidya_reversible",
    "PW.C36_vaidya_stationary",
    "PW.C36_dikin_samples",
    "PW.C36_vaidya_samples",
    "PW.C36_proposal_density",
    "PW.uniformOnEq_chart",
    "PW.uniformOnEq_support"
   ],
   "note": "over an ideal source of draws; uniformOnEq is independent of the chart up to a constant factor"
  },
  {
   "property": "C37",
   "status": "proved",
   "theorems": [
    "PW.C37_reversible",
    "PW.C37_stationary",
    "PW.C37_samples"
   ],
   "note": "BallWalk over an ideal source of draws: detailed balance, stationarity after any number of iterations, law of every returned row; streamRng_ideal constructs such a source."
  },
  {
   "property": "C38",
   "status": "proved",
   "theorems": [
    "PW.C38_findZ",
    "PW.C38_search",
    "PW.C38_only_queries",
    "PW.C38_denseCenter",
    "PW.C38_sparseCenter"
   ],
   "note": ""
  },
  {
   "property": "C39",
   "status": "proved",
   "theorems": [
    "PW.C39_facialReduction"
   ],
   "note": ""
  },
  {
   "property": "C40",
   "status": "proved",
   "theorems": [
    "PW.C40_facialReduction",
    "PW.C40_dropped"
   ],
   "note": ""
  },
  {
   "property": "C41",
   "status": "partial",
   "theorems": [
    "PW.C41_terminates_partial",
    "PW.C41_no_timeout",
    "PW.C41_zero_polytope",
    "PW.C41_large_err"
   ],
   "note": "false for every input: the polytope {0} is undefined behaviour, err_dc > 1 recurses for ever (negations proved); otherwise proved"
  },
  {
   "property": "C42",
   "status": "proved",
   "theorems": [
    "PW.C42_resume"
   ],
   "note": ""
  },
  {
   "property": "C43",
   "status": "partial",
   "theorems": [
    "PW.C43_indepRows_partial",
    "PW.C43_inconsistent"
   ],
   "note": "second half false: inconsistent redundant rows are dropped, an infeasible system becomes feasible (negation proved); first half proved"
  },
  {
   "property": "C44",
   "status": "proved",
   "theorems": [
    "PW.C44_denseForm"
   ],
   "note": ""
  },
  {
   "property": "C45",
   "status": "proved",
   "theorems": [
    "PW.C45_history"
   ],
   "note": ""
  },
  {
   "property": "C46",
   "status": "proved",
   "theorems": [
    "PW.C46_denseCenter",
    "PW.C46_bounded"
   ],
   "note": ""
  },
  {
   "property": "C47",
   "status": "proved",
   "theorems": [
    "PW.C47_sparseCenter",
    "PW.C47_bounded"
   ],
   "note": ""
  },
  {
   "property": "C48",
   "status": "proved",
   "theorems": [
    "PW.C48_dense",
    "PW.C48_face_no_rows",
    "PW.staysInside_denseMH",
    "PW.staysInside_hitRun"
   ],
   "note": "safety: when a coordinate was dropped no row is returned at all (C48_face_no_rows, see C52)"
  },
  {
   "property": "C49",
   "status": "partial",
   "theorems": [
    "PW.C49_sparse_partial",
    "PW.C49_regular",
    "PW.C49_redundant_row",
    "PW.C49_valid_k_rejected",
    "PW.staysInside_sparseBall",
    "PW.staysInside_sparseHitRun"
   ],
   "note": "false in general: new_k is computed from the wrong difference; proved when as many rows as columns are dropped (C49_sparse_partial), in particular for regular inputs (C49_regular); two negations proved"
  },
  {
   "property": "C50",
   "status": "proved",
   "theorems": [
    "PW.C50_dense",
    "PW.C50_sparse"
   ],
   "note": ""
  },
  {
   "property": "C51",
   "status": "partial",
   "theorems": [
    "PW.C51_needs_zero_if_infeasible",
    "PW.C39_facialReduction"
   ],
   "note": "false as stated: with a solver that leaves a nonzero vector on an infeasible LP the polytope changes; C39 assumes zero on infeasible LPs"
  },
  {
   "property": "C52",
   "status": "partial",
   "theorems": [
    "PW.C52_completes_partial",
    "PW.C52_sparse_completes_partial",
    "PW.C52_library_partial",
    "PW.C52_sparse_library_partial",
    "PW.C52_face_crash"
   ],
   "note": "false for every polytope: if a face coordinate is dropped denseFullWalkRun multiplies matrices of mismatched sizes (C52_face_crash)"
  },
  {
   "property": "C53",
   "status": "proved",
   "theorems": [
    "PW.C53_reversible",
    "PW.C53_stationary",
    "PW.C53_samples"
   ],
   "note": ""
  },
  {
   "property": "C54",
   "status": "proved",
   "theorems": [
    "PW.C54_returns",
    "PW.C54_chain",
    "PW.C54_no_rows",
    "PW.C54_base_class",
    "PW.C54_square"
   ],
   "note": "any arithmetic; C54_no_rows, C54_base_class and C54_square show that the provisos are needed"
  },
  {
   "property": "C55",
   "status": "proved",
   "theorems": [
    "PW.C55_dense",
    "PW.C55_library",
    "PW.C55_sparse",
    "PW.C55_sparse_dikin_run"
   ],
   "note": "C55_dense and C55_sparse for any weights bounded below, C55_library for the shipped dense classes"
  },
  {
   "property": "C56",
   "status": "proved",
   "theorems": [
    "PW.C56_every_iterate",
    "PW.C56_every_iterate_sparse",
    "PW.C56_returns",
    "PW.C56_returns_sparse",
    "PW.C56_feasible",
    "PW.C56_nonneg",
    "PW.C56_tolerances"
   ],
   "note": "every_iterate and returns in any arithmetic"
  },
  {
   "property": "C57",
   "status": "partial",
   "theorems": [
    "PW.C57_same_partial",
    "PW.C57_explicit",
    "PW.C57_differs"
   ],
   "note": "false: HitAndRun's default err is 1e-6 in C++ and 0.01 in Python and the samples differ (C57_differs); likewise the parameters of SparseHitAndRun, SparseJohnWalk and FacialReduction. True part: the other nine classes, and all classes with every argument given"
  },
  {
   "property": "C58",
   "status": "proved",
   "theorems": [
    "PW.C58_dense",
    "PW.C58_sparse",
    "PW.C58_fuel",
    "PW.C58_dimension_one"
   ],
   "note": "C58_dimension_one: the dimension condition is needed"
  },
  {
   "property": "C59",
   "status": "proved",
   "theorems": [
    "PW.C59_dense",
    "PW.C59_dense_limit",
    "PW.C59_dense_biased",
    "PW.C59_sparse",
    "PW.C59_sparse_limit"
   ],
   "note": "C59_dense_biased: exact uniformity fails for every positive err, on every polytope with a core"
  },
  {
   "property": "C60",
   "status": "proved",
   "theorems": [
    "PW.C60_dense",
    "PW.C60_dense_limit",
    "PW.C60_sparse",
    "PW.C60_sparse_limit"
   ],
   "note": "uniform ergodicity with explicit dependence on the tolerance"
  },
  {
   "property": "C61",
   "status": "proved",
   "theorems": [
    "PW.C61_dense",
    "PW.C61_dense_limit",
    "PW.C61_sparse",
    "PW.C61_sparse_limit"
   ],
   "note": "Chebyshev bound from the covariances; no burn-in needed"
  },
  {
   "property": "C62",
   "status": "proved",
   "theorems": [
    "PW.C62_any_order",
    "PW.C62_dense",
    "PW.C62_accepts",
    "PW.C62_sparse",
    "PW.C62_binary64",
    "PW.C62_bound_needed"
   ],
   "note": "relative to the rounding model of Spec/Rounding.lean, which Lemmas/Ieee.lean proves of a definition of IEEE binary64 over the reals; C62_bound_needed: the error term cannot be dropped"
  },
  {
   "property": "C63",
   "status": "proved",
   "theorems": [
    "PW.C63_no_nan",
    "PW.C63_sparse_first",
    "PW.C63_binary64",
    "PW.C63_sparse_nan_accepted",
    "PW.C63_infinite_accepted"
   ],
   "note": "the last two show what the tests do not exclude: a NaN in a later sparse coordinate, infinite coordinates"
  },
  {
   "property": "C64",
   "status": "proved",
   "theorems": [
    "PW.C64_dikin",
    "PW.C64_vaidya"
   ],
   "note": "the chain is Metropolis-Hastings with a positive proposal density; convergence of such chains from every interior point is proved in Lemmas/Ergodic.lean, Lemmas/MHErgodic.lean"
  },
  {
   "property": "C65",
   "status": "proved",
   "theorems": [
    "PW.C65_dikin",
    "PW.C65_vaidya"
   ],
   "note": "from C64's mixing and Chebyshev"
  },
  {
   "property": "C66",
   "status": "proved",
   "theorems": [
    "PW.C66_dikin",
    "PW.C66_vaidya",
    "PW.C66_dikin_average",
    "PW.C66_vaidya_average"
   ],
   "note": "axis-aligned constraints, where the defect of C34 is symmetric"
  },
  {
   "property": "C67",
   "status": "proved",
   "theorems": [
    "PW.C67_recordable",
    "PW.C67_outcome",
    "PW.C67_otherwise_ub",
    "PW.C67_returns_iff",
    "PW.GoodInts.recordable"
   ],
   "note": "C67_otherwise_ub assumes that the chain itself completes niter steps, since a throw or divergence of the chain would come first when only the loop counter overflows"
  },
  {
   "property": "C68",
   "status": "proved",
   "theorems": [
    "PW.C68_dimensions"
   ],
   "note": "exact arithmetic, contracts of Spec/Contracts.lean for GLPK and Eigen (FRSetting)"
  },
  {
   "property": "C69",
   "status": "proved",
   "theorems": [
    "PW.C69_returns"
   ],
   "note": "as C68; CoordCone is defined in Spec/Survivors.lean"
  },
  {
   "property": "C70",
   "status": "proved",
   "theorems": [
    "PW.C70_dense",
    "PW.C70_library"
   ],
   "note": "as C68; C70_library discharges the walk hypothesis for the shipped classes"
  },
  {
   "property": "C71",
   "status": "proved",
   "theorems": [
    "PW.C71_only_handedK",
    "PW.C71_throws_iff",
    "PW.C71_right_iff"
   ],
   "note": "as C68; handedK is defined in Spec/Survivors.lean"
  },
  {
   "property": "C72",
   "status": "proved",
   "theorems": [
    "PW.C72_chord_iff",
    "PW.C72_sparse_chord_iff",
    "PW.C72_step_iff",
    "PW.C72_sparse_step_iff",
    "PW.C72_hitRun_returns_iff",
    "PW.C72_sparseHitRun_returns_iff"
   ],
   "note": "Trapped, ChordEnd are defined in Spec/ChordEnd.lean"
  },
  {
   "property": "C73",
   "status": "proved",
   "theorems": [
    "PW.C73_exists",
    "PW.C73_program",
    "PW.C73_fresh",
    "PW.C73_any",
    "PW.C73_limit",
    "PW.C73_history",
    "PW.C73_sparse_exists",
    "PW.C73_sparse_fresh",
    "PW.C73_sparse_any",
    "PW.C73_sparse_history"
   ],
   "note": "the program characterisation is for 3d <= 2n (the exponent alpha is 0 otherwise); sparse: k at least the dimension n - rows"
  },
  {
   "property": "C74",
   "status": "proved",
   "theorems": [
    "PW.C74_exists_iff",
    "PW.C74_unique",
    "PW.C74_program",
    "PW.C74_converged",
    "PW.C74_history",
    "PW.C74_zero_row",
    "PW.C74_descent",
    "PW.C74_sparse_exists_iff",
    "PW.C74_sparse_unique",
    "PW.C74_sparse_converged",
    "PW.C74_sparse_history",
    "PW.C74_sparse_descent",
    "PW.C74_floor",
    "PW.C74_default_step"
   ],
   "note": "program characterisation for at least two constraints (alpha = 0 for one); weights in IsLSWeights, IsSparseLSWeights"
  },
  {
   "property": "C75",
   "status": "proved",
   "theorems": [
    "PW.C75_rows",
    "PW.C75_limit",
    "PW.C75_average",
    "PW.C75_stuck",
    "PW.C75_lattice",
    "PW.C75_line_never"
   ],
   "note": "the ball condition is sufficient, not necessary; between it and C75_stuck nothing is claimed"
  },
  {
   "property": "C76",
   "status": "proved",
   "theorems": [
    "PW.C76_rows",
    "PW.C76_limit",
    "PW.C76_average",
    "PW.C76_stuck",
    "PW.C76_lattice",
    "PW.C76_line_never"
   ],
   "note": "independent rows and an exact SparseLU solve, as for C53"
  },
  {
   "property": "C77",
   "status": "proved",
   "theorems": [
    "PW.C77_dense_attains",
    "PW.C77_sparse_attains",
    "PW.C77_dense_interior",
    "PW.C77_sparse_interior"
   ],
   "note": "exact condition by LP duality (Farkas); both directions, with bounded and unbounded examples"
  },
  {
   "property": "C78",
   "status": "proved",
   "theorems": [
    "PW.C78_dikin",
    "PW.C78_vaidya",
    "PW.C78_dikin_not_convergent",
    "PW.C78_vaidya_not_convergent"
   ],
   "note": "from the failure of invariance (C35_*_not_stationary), shown by comparing the mass entering and leaving a thin strip along a wall"
  },
  {
   "property": "C79",
   "status": "proved",
   "theorems": [
    "PW.C79_rows",
    "PW.C79_averages"
   ],
   "note": "perturbation of the Metropolis-Hastings chain with exact John weights (C73), over a horizon fixed before the tolerance"
  },
  {
   "property": "C80",
   "status": "proved",
   "theorems": [
    "PW.C80_rows",
    "PW.C80_averages"
   ],
   "note": "class interface stated by WeightsAre; example with a class that is not in the library"
  },
  {
   "property": "C81",
   "status": "proved",
   "theorems": [
    "PW.C81_sparseLP_problem",
    "PW.C81_sparseLP",
    "PW.C81_denseCenter_problem",
    "PW.C81_denseCenter",
    "PW.C81_sparseCenter",
    "PW.C81_findZ",
    "PW.C81_round",
    "PW.C81_start"
   ],
   "note": "call-level model (GLPK problem object, one-based triplet arrays, compressed columns) proved equal to the LP-level model used by the other theorems"
  },
  {
   "property": "C82",
   "status": "proved",
   "theorems": [
    "PW.C82_rhs_unused",
    "PW.C82_moves",
    "PW.C82_drift",
    "PW.C82_rows",
    "PW.C82_bounds_exist",
    "PW.C82_binary64",
    "PW.C82_residual_kept"
   ],
   "note": "floating point via the Rounding contract, proved for IEEE binary64; the residual of the computed direction is a parameter (accuracy of the linear solver)"
  },
  {
   "property": "C83",
   "status": "partial",
   "theorems": [
    "PW.C83_override_dense_partial",
    "PW.C83_override_sparse_partial",
    "PW.C83_inherits_dense",
    "PW.C83_inherits_sparse",
    "PW.C83_weight_dense",
    "PW.C83_weight_sparse",
    "PW.C83_super_dense",
    "PW.C83_super_sparse",
    "PW.C83_sparse_converges",
    "PW.C83_sparse_returns",
    "PW.C83_abstract",
    "PW.C83_base_barrier",
    "PW.C83_ball_ignored",
    "PW.C83_setDistTerm_unset",
    "PW.C83_setDistTerm_unset_sparse",
    "PW.C83_setDistTerm_junk",
    "PW.C83_sparse_stuck",
    "PW.C83_sparse_stuck_ieee"
   ],
   "note": "false as stated: overrides in subclasses of BallWalk and HitAndRun (dense and sparse) are ignored by C++ (C83_ball_ignored); an overridden setDistTerm cannot set the distance term (C83_setDistTerm_*); weights given to SparseBarrierWalk: the walk never moves (C83_sparse_stuck*). Proved: all other overrides of generateCompleteWalk and generateWeight take effect, everything not overridden is inherited"
  },
  {
   "property": "C84",
   "status": "proved",
   "theorems": [
    "PW.C84_sparse_dikin",
    "PW.C84_sparse_dikin_average",
    "PW.C84_sparse_vaidya",
    "PW.C84_sparse_vaidya_average",
    "PW.C84_sparse_hitRun",
    "PW.C84_sparse_hitRun_average",
    "PW.C84_sparse_ball",
    "PW.C84_sparse_ball_average",
    "PW.C84_sparse_john",
    "PW.C84_dense_hitRun",
    "PW.C84_dense_hitRun_average",
    "PW.C84_dense_ball",
    "PW.C84_dense_ball_average",
    "PW.C84_dense_dikin",
    "PW.handedK_regular",
    "PW.isChart_of_kernel"
   ],
   "note": "uniform distribution on the affine hull through any chart; composes C48/C69-C71 (reduction), C46 (centre) and C60-C66, C75, C76, C79 (walks)"
  },
  {
   "property": "C85",
   "status": "proved",
   "theorems": [
    "PW.C85_rows",
    "PW.C85_binary64",
    "PW.fineFor_binary64"
   ],
   "note": "C85_rows for any rounded arithmetic (Spec/RoundingOps), C85_binary64 for IEEE binary64; concrete run in Props/HitRunRoundingExample"
  },
  {
   "property": "C86",
   "status": "proved",
   "theorems": [
    "PW.C86_boundary",
    "PW.C86_resolution"
   ],
   "note": "run = timeout for every fuel (number of search steps), binary64; concrete: [0, 0.3] from 0.3, [-1e10, 1e10] from 0 with tolerance 1e-6 in Props/HitRunHangExamples"
  },
  {
   "property": "C87",
   "status": "proved",
   "theorems": [
    "PW.C87_rows",
    "PW.C87_binary64",
    "PW.roomy_binary64"
   ],
   "note": "C87_rows for any rounded arithmetic (Spec/RoundingOps: RoundingFull), C87_binary64 for IEEE binary64; concrete run in Props/HitRunRoundingExample"
  },
  {
   "property": "C88",
   "status": "proved",
   "theorems": [
    "PW.C88_rows",
    "PW.C88_binary64"
   ],
   "note": "C88_rows for any rounded arithmetic, C88_binary64 for IEEE binary64 (u = 2^-53); Spec/KernelDraws states the assumption on the directions; concrete run on a simplex in Props/SparseHitRunRoundingExample"
  },
  {
   "property": "C89",
   "status": "proved",
   "theorems": [
    "PW.C89_bijection",
    "PW.C89_strict",
    "PW.C89_dropped",
    "PW.C89_dimensions",
    "PW.C89_returns",
    "PW.C89_denseCenter",
    "PW.C89_sparseCenter",
    "PW.C89_dense_start",
    "PW.C89_dense_rows",
    "PW.C89_dense_returns",
    "PW.C89_sparse_returns",
    "PW.C89_sparse_rows",
    "PW.keepsFibre_sparseBall",
    "PW.keepsFibre_sparseHitRun",
    "PW.C89_thin"
   ],
   "note": "Spec/Tolerance: solver contract and separation; concrete polytopes and a solver that really errs in Props/ToleranceExamples; C89_thin shows that the separation is needed"
  },
  {
   "property": "C90",
   "status": "proved",
   "theorems": [
    "PW.C90_right",
    "PW.C90_rows",
    "PW.C90_dikin",
    "PW.C90_dikin_average",
    "PW.C90_vaidya",
    "PW.C90_vaidya_average",
    "PW.C90_hitRun",
    "PW.C90_hitRun_average",
    "PW.C90_ball",
    "PW.C90_ball_average",
    "PW.C90_john",
    "PW.C90_outside_share",
    "PW.C90_outside",
    "PW.C90_half"
   ],
   "note": "the set Q is HandedSet of Spec/Handed; C90_half is a concrete polytope with a repeated equation on which half of the rows leave the polytope, for every exact solver"
  },
  {
   "property": "C91",
   "status": "proved",
   "theorems": [
    "PW.C91_same_set",
    "PW.C91_rows"
   ],
   "note": "over the reals; Redescribed (Spec/Redescribe) is reordering and rescaling; the two runs are related step by step"
  },
  {
   "property": "C92",
   "status": "proved",
   "theorems": [
    "PW.C92_moved",
    "PW.C92_units"
   ],
   "note": "over the reals; with burnin > niter unfilled rows are zero and would not move, so the integers are restricted"
  },
  {
   "property": "C93",
   "status": "proved",
   "theorems": [
    "PW.C93_lines",
    "PW.C93_barrier",
    "PW.C94_almost_surely"
   ],
   "note": "over the reals, exact Eigen contracts; Recombined and AvoidsBoundary in Spec/Recombine; the two runs are related step by step (projection on the kernel, leverage scores and log densities up to a constant do not depend on the basis of the row space)"
  },
  {
   "property": "C94",
   "status": "proved",
   "theorems": [
    "PW.C94_lines",
    "PW.C94_barrier",
    "PW.C94_almost_surely"
   ],
   "note": "over the reals, exact Eigen contracts; the metric, the weights and the acceptance test in the new units"
  },
  {
   "property": "C95",
   "status": "proved",
   "theorems": [
    "PW.C95_sparse_dikin",
    "PW.C95_sparse_vaidya",
    "PW.C95_sparse_user",
    "PW.C95_dense_dikin",
    "PW.C95_dense_vaidya",
    "PW.C95_ball",
    "PW.C95_ball_limit",
    "PW.C95_sparse_ball",
    "PW.C95_sparse_ball_limit",
    "PW.C95_hitrun",
    "PW.C95_hitrun_limit",
    "PW.C95_sparse_hitrun",
    "PW.C95_sparse_hitrun_limit",
    "PW.C95_ball_unthinned",
    "PW.C95_ball_unthinned_joint"
   ],
   "note": "over the reals, exact Eigen contracts, ideal generator; Apart, rowsProb, independent and JointWithin in Spec/Joint; independent_box says what the law of independent draws gives products of regions"
  },
  {
   "property": "C96",
   "status": "proved",
   "theorems": [
    "PW.C96_sparse_dikin",
    "PW.C96_sparse_vaidya",
    "PW.C96_sparse_hitRun",
    "PW.C96_sparse_ball",
    "PW.C96_dense_hitRun",
    "PW.C96_dense_ball",
    "PW.C96_dense_dikin"
   ],
   "note": "over the reals, exact solvers, ideal generator; Driver.JointWithin in Spec/Joint"
  },
  {
   "property": "C97",
   "status": "proved",
   "theorems": [
    "PW.C97_sparse_dikin",
    "PW.C97_sparse_vaidya",
    "PW.C97_sparse_user",
    "PW.C97_dense_dikin",
    "PW.C97_dense_vaidya",
    "PW.C97_ball",
    "PW.C97_sparse_ball"
   ],
   "note": "over the reals, exact Eigen contracts, ideal generator; MeanConverges in Spec/StrongLaw; Birkhoff's maximal inequality and the strong law for a stationary chain, carried to every start by the Metropolis-Hastings acceptance or the mixing bound"
  },
  {
   "property": "C98",
   "status": "proved",
   "theorems": [
    "PW.C98_hitrun",
    "PW.C98_sparse_hitrun"
   ],
   "note": "over the reals, exact Eigen contracts, ideal generator; the limit law is constructed from a one-step minorisation"
  },
  {
   "property": "C99",
   "status": "proved",
   "theorems": [
    "PW.C99_sparse_dikin",
    "PW.C99_sparse_vaidya",
    "PW.C99_sparse_ball",
    "PW.C99_sparse_hitRun",
    "PW.C99_dense_ball",
    "PW.C99_dense_dikin",
    "PW.C99_dense_hitRun"
   ],
   "note": "over the reals, exact solvers, ideal generator; Driver.MeanConverges in Spec/StrongLaw"
  }
 ]
}