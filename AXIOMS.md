# Axioms each theorem depends on

Generated with `#print axioms` for every theorem named in MANIFEST.json. `propext`, `Classical.choice` and
`Quot.sound` are Lean's own axioms; nothing else occurs.

| property | theorem | axioms |
|---|---|---|
| C01 | `PW.C01_shape` | propext, Classical.choice, Quot.sound |
| C01 | `PW.C01_recording_total` | propext, Classical.choice, Quot.sound |
| C02 | `PW.C02_rows` | propext, Classical.choice, Quot.sound |
| C02 | `PW.C02_chain_independent` | propext, Quot.sound |
| C03 | `PW.C03_visited_partial` | propext, Classical.choice, Quot.sound |
| C03 | `PW.C03_thin_zero` | propext, Classical.choice, Quot.sound |
| C03 | `PW.C03_negative_size` | propext, Classical.choice, Quot.sound |
| C03 | `PW.C03_filler_rows` | propext, Classical.choice, Quot.sound |
| C03 | `PW.C03_negative_thin_filler` | propext, Classical.choice, Quot.sound |
| C03 | `PW.C03_never_rejected` | propext, Classical.choice, Quot.sound |
| C04 | `PW.C04_rejected` | propext, Classical.choice, Quot.sound |
| C04 | `PW.C04_no_exception` | propext, Classical.choice, Quot.sound |
| C04 | `PW.C04_library` | propext, Classical.choice, Quot.sound |
| C05 | `PW.C05_walk` | propext, Classical.choice, Quot.sound |
| C05 | `PW.C05_utils` | propext, Quot.sound |
| C05 | `PW.C05_only_then` | propext, Classical.choice, Quot.sound |
| C05 | `PW.C05_fullRuns` | propext, Quot.sound |
| C05 | `PW.C49_valid_k_rejected` | propext, Classical.choice, Quot.sound |
| C06 | `PW.C06_seeded` | propext, Quot.sound |
| C06 | `PW.C06_unseeded` | propext, Quot.sound |
| C06 | `PW.C06_seed_injective` | propext, Quot.sound |
| C06 | `PW.C06_seed_word` | propext, Quot.sound |
| C06 | `PW.C06_seeds_distinguished` | propext, Quot.sound |
| C07 | `PW.C07_reuse` | propext, Quot.sound |
| C08 | `PW.C08_prefix` | propext, Classical.choice, Quot.sound |
| C08 | `PW.C08_thinning` | propext, Classical.choice, Quot.sound |
| C09 | `PW.C09_rows_tested` | propext, Classical.choice, Quot.sound |
| C10 | `PW.C10_feasible` | propext, Classical.choice, Quot.sound |
| C100 | `PW.C100_ball` | propext, Classical.choice, Quot.sound |
| C100 | `PW.C100_sparse_ball` | propext, Classical.choice, Quot.sound |
| C100 | `PW.C100_hitrun` | propext, Classical.choice, Quot.sound |
| C100 | `PW.C100_sparse_hitrun` | propext, Classical.choice, Quot.sound |
| C100 | `PW.C100_sparse_dikin` | propext, Classical.choice, Quot.sound |
| C100 | `PW.C100_sparse_vaidya` | propext, Classical.choice, Quot.sound |
| C100 | `PW.C100_sparse_user` | propext, Classical.choice, Quot.sound |
| C100 | `PW.C100_dense_dikin` | propext, Classical.choice, Quot.sound |
| C100 | `PW.C100_dense_vaidya` | propext, Classical.choice, Quot.sound |
| C101 | `PW.C101_span` | propext, Classical.choice, Quot.sound |
| C101 | `PW.C101_line` | propext, Classical.choice, Quot.sound |
| C101 | `PW.C101_null` | propext, Classical.choice, Quot.sound |
| C101 | `PW.C101_sparse_null` | propext, Classical.choice, Quot.sound |
| C102 | `PW.C102_user` | propext, Classical.choice, Quot.sound |
| C102 | `PW.C102_dikin` | propext, Classical.choice, Quot.sound |
| C102 | `PW.C102_dikin_small` | propext, Classical.choice, Quot.sound |
| C102 | `PW.C102_vaidya` | propext, Classical.choice, Quot.sound |
| C103 | `PW.C103_dikin` | propext, Classical.choice, Quot.sound |
| C103 | `PW.C103_vaidya` | propext, Classical.choice, Quot.sound |
| C103 | `PW.C103_sparse` | propext, Classical.choice, Quot.sound |
| C104 | `PW.C104_ball` | propext, Classical.choice, Quot.sound |
| C104 | `PW.C104_sparse_ball` | propext, Classical.choice, Quot.sound |
| C104 | `PW.C104_hitrun` | propext, Classical.choice, Quot.sound |
| C104 | `PW.C104_sparse_hitrun` | propext, Classical.choice, Quot.sound |
| C104 | `PW.C104_enough` | propext, Classical.choice, Quot.sound |
| C105 | `PW.C105_sparse_ball` | propext, Classical.choice, Quot.sound |
| C105 | `PW.C105_sparse_hitRun` | propext, Classical.choice, Quot.sound |
| C105 | `PW.C105_dense_ball` | propext, Classical.choice, Quot.sound |
| C105 | `PW.C105_dense_hitRun` | propext, Classical.choice, Quot.sound |
| C106 | `PW.C106_reduce` | propext, Classical.choice, Quot.sound |
| C106 | `PW.C106_dense` | propext, Classical.choice, Quot.sound |
| C106 | `PW.C106_sparse` | propext, Classical.choice, Quot.sound |
| C107 | `PW.C107_dikin` | propext, Classical.choice, Quot.sound |
| C107 | `PW.C107_vaidya` | propext, Classical.choice, Quot.sound |
| C108 | `PW.C108_ball` | propext, Classical.choice, Quot.sound |
| C108 | `PW.C108_hitrun` | propext, Classical.choice, Quot.sound |
| C108 | `PW.C108_dense_dikin` | propext, Classical.choice, Quot.sound |
| C108 | `PW.C108_dense_vaidya` | propext, Classical.choice, Quot.sound |
| C108 | `PW.C108_sparse_ball` | propext, Classical.choice, Quot.sound |
| C108 | `PW.C108_sparse_hitrun` | propext, Classical.choice, Quot.sound |
| C108 | `PW.C108_sparse_dikin` | propext, Classical.choice, Quot.sound |
| C108 | `PW.C108_sparse_vaidya` | propext, Classical.choice, Quot.sound |
| C108 | `PW.C108_sparse_john` | propext, Classical.choice, Quot.sound |
| C108 | `PW.C108_sparse_user` | propext, Classical.choice, Quot.sound |
| C109 | `PW.C109_ball` | propext, Classical.choice, Quot.sound |
| C109 | `PW.C109_hitrun` | propext, Classical.choice, Quot.sound |
| C11 | `PW.C11_feasible` | propext, Classical.choice, Quot.sound |
| C110 | `PW.C110_dikin` | propext, Classical.choice, Quot.sound |
| C110 | `PW.C110_vaidya` | propext, Classical.choice, Quot.sound |
| C110 | `PW.C110_dikin_law` | propext, Classical.choice, Quot.sound |
| C110 | `PW.C110_vaidya_law` | propext, Classical.choice, Quot.sound |
| C111 | `PW.C111_ball` | propext, Classical.choice, Quot.sound |
| C111 | `PW.C111_hitrun` | propext, Classical.choice, Quot.sound |
| C111 | `PW.C111_user` | propext, Classical.choice, Quot.sound |
| C111 | `PW.C111_dikin` | propext, Classical.choice, Quot.sound |
| C111 | `PW.C111_vaidya` | propext, Classical.choice, Quot.sound |
| C112 | `PW.C112_ball` | propext, Classical.choice, Quot.sound |
| C112 | `PW.C112_hitrun` | propext, Classical.choice, Quot.sound |
| C112 | `PW.C112_dikin` | propext, Classical.choice, Quot.sound |
| C112 | `PW.C112_vaidya` | propext, Classical.choice, Quot.sound |
| C112 | `PW.C112_ball_average` | propext, Classical.choice, Quot.sound |
| C112 | `PW.C112_hitrun_average` | propext, Classical.choice, Quot.sound |
| C112 | `PW.C112_dikin_average` | propext, Classical.choice, Quot.sound |
| C112 | `PW.C112_vaidya_average` | propext, Classical.choice, Quot.sound |
| C112 | `PW.C112_sparse_ball` | propext, Classical.choice, Quot.sound |
| C112 | `PW.C112_sparse_hitrun` | propext, Classical.choice, Quot.sound |
| C112 | `PW.C112_sparse_dikin` | propext, Classical.choice, Quot.sound |
| C112 | `PW.C112_sparse_vaidya` | propext, Classical.choice, Quot.sound |
| C113 | `PW.C113_sparse_dikin` | propext, Classical.choice, Quot.sound |
| C113 | `PW.C113_sparse_vaidya` | propext, Classical.choice, Quot.sound |
| C113 | `PW.C113_sparse_john` | propext, Classical.choice, Quot.sound |
| C113 | `PW.C113_sparse_hitRun` | propext, Classical.choice, Quot.sound |
| C113 | `PW.C113_sparse_ball` | propext, Classical.choice, Quot.sound |
| C113 | `PW.C113_dense_ball` | propext, Classical.choice, Quot.sound |
| C113 | `PW.C113_dense_hitRun` | propext, Classical.choice, Quot.sound |
| C113 | `PW.C113_dense_dikin` | propext, Classical.choice, Quot.sound |
| C114 | `PW.C114_ball` | propext, Classical.choice, Quot.sound |
| C114 | `PW.C114_sparse_ball` | propext, Classical.choice, Quot.sound |
| C114 | `PW.C114_sparse_dikin` | propext, Classical.choice, Quot.sound |
| C114 | `PW.C114_sparse_vaidya` | propext, Classical.choice, Quot.sound |
| C114 | `PW.C114_sparse_user` | propext, Classical.choice, Quot.sound |
| C114 | `PW.C114_dense_dikin_axis` | propext, Classical.choice, Quot.sound |
| C114 | `PW.C114_dense_vaidya_axis` | propext, Classical.choice, Quot.sound |
| C114 | `PW.C114_dense_dikin_not` | propext, Classical.choice, Quot.sound |
| C115 | `PW.C115_ball` | propext, Classical.choice, Quot.sound |
| C115 | `PW.C115_sparse_ball` | propext, Classical.choice, Quot.sound |
| C115 | `PW.C115_sparse_dikin` | propext, Classical.choice, Quot.sound |
| C115 | `PW.C115_sparse_vaidya` | propext, Classical.choice, Quot.sound |
| C115 | `PW.C115_sparse_user` | propext, Classical.choice, Quot.sound |
| C115 | `PW.C115_dense_dikin_axis` | propext, Classical.choice, Quot.sound |
| C115 | `PW.C115_dense_vaidya_axis` | propext, Classical.choice, Quot.sound |
| C12 | `PW.C12_chord` | propext, Classical.choice, Quot.sound |
| C12 | `PW.C12_chord_sparse` | propext, Classical.choice, Quot.sound |
| C13 | `PW.C13_chord_terminates_partial` | propext, Classical.choice, Quot.sound |
| C13 | `PW.C13_chord_diverges` | propext, Classical.choice, Quot.sound |
| C14 | `PW.C14_unbounded_diverges` | propext, Classical.choice, Quot.sound |
| C14 | `PW.C14_radius_zero_diverges` | propext, Classical.choice, Quot.sound |
| C14 | `PW.C14_boundary_diverges` | propext, Classical.choice, Quot.sound |
| C14 | `PW.C14_boundary_diverges_sparse` | propext, Classical.choice, Quot.sound |
| C14 | `PW.C14_halfline_never_returns` | propext, Classical.choice, Quot.sound |
| C15 | `PW.C15_ball_step` | propext, Classical.choice, Quot.sound |
| C15 | `PW.C15_sparse_ball_step` | propext, Classical.choice, Quot.sound |
| C16 | `PW.C16_ball` | propext, Classical.choice, Quot.sound |
| C16 | `PW.C16_hitRun` | propext, Classical.choice, Quot.sound |
| C16 | `PW.C16_barrier` | propext, Classical.choice, Quot.sound |
| C16 | `PW.C16_barrier_metric` | propext, Classical.choice, Quot.sound |
| C16 | `PW.C16_dikin` | propext, Classical.choice, Quot.sound |
| C16 | `PW.C16_library` | propext, Classical.choice, Quot.sound |
| C17 | `PW.C17_rows_tested` | propext, Classical.choice, Quot.sound |
| C17 | `PW.C17_nonneg` | propext, Classical.choice, Quot.sound |
| C18 | `PW.C18_feasible` | propext, Classical.choice, Quot.sound |
| C19 | `PW.C19_walks` | propext, Quot.sound |
| C19 | `PW.C19_metric` | propext, Quot.sound |
| C19 | `PW.C19_leverage` | propext, Quot.sound |
| C19 | `PW.C19_weights_dikin` | none |
| C19 | `PW.C19_weights_base` | none |
| C19 | `PW.C19_weights_vaidya` | propext, Quot.sound |
| C19 | `PW.C19_weights_john` | propext, Quot.sound |
| C19 | `PW.C19_weights_ls` | propext, Quot.sound |
| C19 | `PW.C19_generateG` | propext, Quot.sound |
| C19 | `PW.C19_proposal` | propext, Quot.sound |
| C19 | `PW.C19_density` | propext, Quot.sound |
| C19 | `PW.C19_step` | propext, Quot.sound |
| C20 | `PW.C20_weights` | none |
| C20 | `PW.C20_weights_sparse` | none |
| C20 | `PW.C20_hessian` | propext, Classical.choice, Quot.sound |
| C20 | `PW.C20_metric_sparse` | propext, Classical.choice, Quot.sound |
| C21 | `PW.C21_vaidya` | propext, Classical.choice, Quot.sound |
| C22 | `PW.C22_john` | propext, Classical.choice, Quot.sound |
| C23 | `PW.C23_leeSidford` | propext, Classical.choice, Quot.sound |
| C24 | `PW.C24_john` | propext, Quot.sound |
| C24 | `PW.C24_ls` | propext, Quot.sound |
| C24 | `PW.C24_sparseJohn` | propext, Quot.sound |
| C24 | `PW.C24_sparseLS` | propext, Quot.sound |
| C24 | `PW.C24_john_exact` | propext, Classical.choice, Quot.sound |
| C24 | `PW.C24_ls_exact` | propext, Classical.choice, Quot.sound |
| C24 | `PW.C24_sparseJohn_exact` | propext, Classical.choice, Quot.sound |
| C24 | `PW.C24_sparseLS_exact` | propext, Classical.choice, Quot.sound |
| C25 | `PW.C25_affine` | propext, Classical.choice, Quot.sound |
| C26 | `PW.C26_posDef` | propext, Classical.choice, Quot.sound |
| C26 | `PW.C26_library` | propext, Classical.choice, Quot.sound |
| C26 | `PW.C26_sparse_library` | propext, Classical.choice, Quot.sound |
| C26 | `PW.C26_dense_run` | propext, Classical.choice, Quot.sound |
| C26 | `PW.C26_sparse_run` | propext, Classical.choice, Quot.sound |
| C26 | `PW.C16_barrier_metric` | propext, Classical.choice, Quot.sound |
| C26 | `PW.metricG_pos` | propext, Classical.choice, Quot.sound |
| C27 | `PW.C27_dense_partial` | propext, Classical.choice, Quot.sound |
| C27 | `PW.C27_sparse_partial` | propext, Classical.choice, Quot.sound |
| C27 | `PW.C27_dense_run` | propext, Classical.choice, Quot.sound |
| C27 | `PW.C27_sparse_run` | propext, Classical.choice, Quot.sound |
| C27 | `PW.C27_dense_samples` | propext, Classical.choice, Quot.sound |
| C27 | `PW.C27_sparse_samples` | propext, Classical.choice, Quot.sound |
| C27 | `PW.C27_positive` | propext, Classical.choice, Quot.sound |
| C27 | `PW.C27_overflow` | propext, Classical.choice, Quot.sound |
| C27 | `PW.C27_negative_dimension` | propext, Classical.choice, Quot.sound |
| C27 | `PW.C27_vaidya_iff` | propext, Classical.choice, Quot.sound |
| C28 | `PW.C28_leverage` | propext, Classical.choice, Quot.sound |
| C28 | `PW.takahashi_eq` | propext, Classical.choice, Quot.sound |
| C28 | `PW.sparseInverse_eq` | propext, Classical.choice, Quot.sound |
| C29 | `PW.C29_vaidya` | propext, Classical.choice, Quot.sound |
| C30 | `PW.C30_john` | propext, Classical.choice, Quot.sound |
| C30 | `PW.startsAtOnes_ones'` | propext, Classical.choice, Quot.sound |
| C30 | `PW.startsAtOnes_fresh` | propext, Classical.choice, Quot.sound |
| C31 | `PW.C31_leeSidford` | propext, Classical.choice, Quot.sound |
| C32 | `PW.C32_sparse` | propext, Classical.choice, Quot.sound |
| C32 | `PW.C32_dense_partial` | propext, Classical.choice, Quot.sound |
| C32 | `PW.C32_differs` | propext, Classical.choice, Quot.sound |
| C32 | `PW.C32_dense_le` | propext, Classical.choice, Quot.sound |
| C32 | `PW.C32_iff` | propext, Classical.choice, Quot.sound |
| C33 | `PW.C33_dense` | propext, Quot.sound |
| C33 | `PW.C33_sparse` | propext, Quot.sound |
| C33 | `PW.C33_dense_exact` | propext, Classical.choice, Quot.sound |
| C33 | `PW.C33_sparse_exact` | propext, Classical.choice, Quot.sound |
| C33 | `PW.C33_real` | propext, Classical.choice, Quot.sound |
| C33 | `PW.C33_undefined_ratio_accepted` | propext |
| C34 | `PW.C34_proposal_law` | propext, Classical.choice, Quot.sound |
| C34 | `PW.C34_iff_partial` | propext, Classical.choice, Quot.sound |
| C34 | `PW.C34_axis_partial` | propext, Classical.choice, Quot.sound |
| C34 | `PW.C34_false` | propext, Classical.choice, Quot.sound |
| C35 | `PW.C35_dikin_reversible_iff_partial` | propext, Classical.choice, Quot.sound |
| C35 | `PW.C35_vaidya_reversible_iff_partial` | propext, Classical.choice, Quot.sound |
| C35 | `PW.C35_dikin_axis_partial` | propext, Classical.choice, Quot.sound |
| C35 | `PW.C35_vaidya_axis_partial` | propext, Classical.choice, Quot.sound |
| C35 | `PW.C35_dikin_axis_samples_partial` | propext, Classical.choice, Quot.sound |
| C35 | `PW.C35_vaidya_axis_samples_partial` | propext, Classical.choice, Quot.sound |
| C35 | `PW.C35_dikin_not_reversible` | propext, Classical.choice, Quot.sound |
| C35 | `PW.C35_vaidya_not_reversible` | propext, Classical.choice, Quot.sound |
| C35 | `PW.C35_dikin_not_stationary` | propext, Classical.choice, Quot.sound |
| C35 | `PW.C35_vaidya_not_stationary` | propext, Classical.choice, Quot.sound |
| C36 | `PW.C36_dikin_reversible` | propext, Classical.choice, Quot.sound |
| C36 | `PW.C36_dikin_stationary` | propext, Classical.choice, Quot.sound |
| C36 | `PW.C36_vaidya_reversible` | propext, Classical.choice, Quot.sound |
| C36 | `PW.C36_vaidya_stationary` | propext, Classical.choice, Quot.sound |
| C36 | `PW.C36_dikin_samples` | propext, Classical.choice, Quot.sound |
| C36 | `PW.C36_vaidya_samples` | propext, Classical.choice, Quot.sound |
| C36 | `PW.C36_proposal_density` | propext, Classical.choice, Quot.sound |
| C36 | `PW.uniformOnEq_chart` | propext, Classical.choice, Quot.sound |
| C36 | `PW.uniformOnEq_support` | propext, Classical.choice, Quot.sound |
| C37 | `PW.C37_reversible` | propext, Classical.choice, Quot.sound |
| C37 | `PW.C37_stationary` | propext, Classical.choice, Quot.sound |
| C37 | `PW.C37_samples` | propext, Classical.choice, Quot.sound |
| C38 | `PW.C38_findZ` | propext, Classical.choice, Quot.sound |
| C38 | `PW.C38_search` | propext, Classical.choice, Quot.sound |
| C38 | `PW.C38_only_queries` | propext, Classical.choice, Quot.sound |
| C38 | `PW.C38_denseCenter` | propext, Classical.choice, Quot.sound |
| C38 | `PW.C38_sparseCenter` | propext, Classical.choice, Quot.sound |
| C39 | `PW.C39_facialReduction` | propext, Classical.choice, Quot.sound |
| C40 | `PW.C40_facialReduction` | propext, Classical.choice, Quot.sound |
| C40 | `PW.C40_dropped` | propext, Classical.choice, Quot.sound |
| C41 | `PW.C41_terminates_partial` | propext, Classical.choice, Quot.sound |
| C41 | `PW.C41_no_timeout` | propext, Classical.choice, Quot.sound |
| C41 | `PW.C41_zero_polytope` | propext, Classical.choice, Quot.sound |
| C41 | `PW.C41_large_err` | propext, Classical.choice, Quot.sound |
| C42 | `PW.C42_resume` | propext, Classical.choice, Quot.sound |
| C43 | `PW.C43_indepRows_partial` | propext, Classical.choice, Quot.sound |
| C43 | `PW.C43_inconsistent` | propext, Classical.choice, Quot.sound |
| C44 | `PW.C44_denseForm` | propext, Classical.choice, Quot.sound |
| C45 | `PW.C45_history` | propext, Quot.sound |
| C46 | `PW.C46_denseCenter` | propext, Classical.choice, Quot.sound |
| C46 | `PW.C46_bounded` | propext, Classical.choice, Quot.sound |
| C47 | `PW.C47_sparseCenter` | propext, Classical.choice, Quot.sound |
| C47 | `PW.C47_bounded` | propext, Classical.choice, Quot.sound |
| C48 | `PW.C48_dense` | propext, Classical.choice, Quot.sound |
| C48 | `PW.C48_face_no_rows` | propext, Classical.choice, Quot.sound |
| C48 | `PW.staysInside_denseMH` | propext, Classical.choice, Quot.sound |
| C48 | `PW.staysInside_hitRun` | propext, Classical.choice, Quot.sound |
| C49 | `PW.C49_sparse_partial` | propext, Classical.choice, Quot.sound |
| C49 | `PW.C49_regular` | propext, Classical.choice, Quot.sound |
| C49 | `PW.C49_redundant_row` | propext, Classical.choice, Quot.sound |
| C49 | `PW.C49_valid_k_rejected` | propext, Classical.choice, Quot.sound |
| C49 | `PW.staysInside_sparseBall` | propext, Classical.choice, Quot.sound |
| C49 | `PW.staysInside_sparseHitRun` | propext, Classical.choice, Quot.sound |
| C50 | `PW.C50_dense` | propext, Quot.sound |
| C50 | `PW.C50_sparse` | propext, Quot.sound |
| C51 | `PW.C51_needs_zero_if_infeasible` | propext, Classical.choice, Quot.sound |
| C51 | `PW.C39_facialReduction` | propext, Classical.choice, Quot.sound |
| C52 | `PW.C52_completes_partial` | propext, Classical.choice, Quot.sound |
| C52 | `PW.C52_sparse_completes_partial` | propext, Classical.choice, Quot.sound |
| C52 | `PW.C52_library_partial` | propext, Classical.choice, Quot.sound |
| C52 | `PW.C52_sparse_library_partial` | propext, Classical.choice, Quot.sound |
| C52 | `PW.C52_face_crash` | propext, Classical.choice, Quot.sound |
| C53 | `PW.C53_reversible` | propext, Classical.choice, Quot.sound |
| C53 | `PW.C53_stationary` | propext, Classical.choice, Quot.sound |
| C53 | `PW.C53_samples` | propext, Classical.choice, Quot.sound |
| C54 | `PW.C54_returns` | propext, Classical.choice, Quot.sound |
| C54 | `PW.C54_chain` | propext, Classical.choice, Quot.sound |
| C54 | `PW.C54_no_rows` | propext, Classical.choice, Quot.sound |
| C54 | `PW.C54_base_class` | propext, Classical.choice, Quot.sound |
| C54 | `PW.C54_square` | propext, Classical.choice, Quot.sound |
| C55 | `PW.C55_dense` | propext, Classical.choice, Quot.sound |
| C55 | `PW.C55_library` | propext, Classical.choice, Quot.sound |
| C55 | `PW.C55_sparse` | propext, Classical.choice, Quot.sound |
| C55 | `PW.C55_sparse_dikin_run` | propext, Classical.choice, Quot.sound |
| C56 | `PW.C56_every_iterate` | propext, Classical.choice, Quot.sound |
| C56 | `PW.C56_every_iterate_sparse` | propext, Classical.choice, Quot.sound |
| C56 | `PW.C56_returns` | propext, Classical.choice, Quot.sound |
| C56 | `PW.C56_returns_sparse` | propext, Classical.choice, Quot.sound |
| C56 | `PW.C56_feasible` | propext, Classical.choice, Quot.sound |
| C56 | `PW.C56_nonneg` | propext, Classical.choice, Quot.sound |
| C56 | `PW.C56_tolerances` | propext, Classical.choice, Quot.sound |
| C57 | `PW.C57_same_partial` | propext |
| C57 | `PW.C57_explicit` | propext |
| C57 | `PW.C57_differs` | propext, Classical.choice, Quot.sound |
| C58 | `PW.C58_dense` | propext, Classical.choice, Quot.sound |
| C58 | `PW.C58_sparse` | propext, Classical.choice, Quot.sound |
| C58 | `PW.C58_fuel` | propext, Quot.sound |
| C58 | `PW.C58_dimension_one` | propext, Classical.choice, Quot.sound |
| C59 | `PW.C59_dense` | propext, Classical.choice, Quot.sound |
| C59 | `PW.C59_dense_limit` | propext, Classical.choice, Quot.sound |
| C59 | `PW.C59_dense_biased` | propext, Classical.choice, Quot.sound |
| C59 | `PW.C59_sparse` | propext, Classical.choice, Quot.sound |
| C59 | `PW.C59_sparse_limit` | propext, Classical.choice, Quot.sound |
| C60 | `PW.C60_dense` | propext, Classical.choice, Quot.sound |
| C60 | `PW.C60_dense_limit` | propext, Classical.choice, Quot.sound |
| C60 | `PW.C60_sparse` | propext, Classical.choice, Quot.sound |
| C60 | `PW.C60_sparse_limit` | propext, Classical.choice, Quot.sound |
| C61 | `PW.C61_dense` | propext, Classical.choice, Quot.sound |
| C61 | `PW.C61_dense_limit` | propext, Classical.choice, Quot.sound |
| C61 | `PW.C61_sparse` | propext, Classical.choice, Quot.sound |
| C61 | `PW.C61_sparse_limit` | propext, Classical.choice, Quot.sound |
| C62 | `PW.C62_any_order` | propext, Classical.choice, Quot.sound |
| C62 | `PW.C62_dense` | propext, Classical.choice, Quot.sound |
| C62 | `PW.C62_accepts` | propext, Classical.choice, Quot.sound |
| C62 | `PW.C62_sparse` | propext, Classical.choice, Quot.sound |
| C62 | `PW.C62_binary64` | propext, Classical.choice, Quot.sound |
| C62 | `PW.C62_bound_needed` | propext, Classical.choice, Quot.sound |
| C63 | `PW.C63_no_nan` | propext, Classical.choice, Quot.sound |
| C63 | `PW.C63_sparse_first` | propext, Classical.choice, Quot.sound |
| C63 | `PW.C63_binary64` | propext, Classical.choice, Quot.sound |
| C63 | `PW.C63_sparse_nan_accepted` | propext, Classical.choice, Quot.sound |
| C63 | `PW.C63_infinite_accepted` | propext, Classical.choice, Quot.sound |
| C64 | `PW.C64_dikin` | propext, Classical.choice, Quot.sound |
| C64 | `PW.C64_vaidya` | propext, Classical.choice, Quot.sound |
| C65 | `PW.C65_dikin` | propext, Classical.choice, Quot.sound |
| C65 | `PW.C65_vaidya` | propext, Classical.choice, Quot.sound |
| C66 | `PW.C66_dikin` | propext, Classical.choice, Quot.sound |
| C66 | `PW.C66_vaidya` | propext, Classical.choice, Quot.sound |
| C66 | `PW.C66_dikin_average` | propext, Classical.choice, Quot.sound |
| C66 | `PW.C66_vaidya_average` | propext, Classical.choice, Quot.sound |
| C67 | `PW.C67_recordable` | propext, Classical.choice, Quot.sound |
| C67 | `PW.C67_outcome` | propext, Classical.choice, Quot.sound |
| C67 | `PW.C67_otherwise_ub` | propext, Classical.choice, Quot.sound |
| C67 | `PW.C67_returns_iff` | propext, Classical.choice, Quot.sound |
| C67 | `PW.GoodInts.recordable` | propext, Quot.sound |
| C68 | `PW.C68_dimensions` | propext, Classical.choice, Quot.sound |
| C69 | `PW.C69_returns` | propext, Classical.choice, Quot.sound |
| C70 | `PW.C70_dense` | propext, Classical.choice, Quot.sound |
| C70 | `PW.C70_library` | propext, Classical.choice, Quot.sound |
| C71 | `PW.C71_only_handedK` | propext, Classical.choice, Quot.sound |
| C71 | `PW.C71_throws_iff` | propext, Classical.choice, Quot.sound |
| C71 | `PW.C71_right_iff` | propext, Classical.choice, Quot.sound |
| C72 | `PW.C72_chord_iff` | propext, Classical.choice, Quot.sound |
| C72 | `PW.C72_sparse_chord_iff` | propext, Classical.choice, Quot.sound |
| C72 | `PW.C72_step_iff` | propext, Classical.choice, Quot.sound |
| C72 | `PW.C72_sparse_step_iff` | propext, Classical.choice, Quot.sound |
| C72 | `PW.C72_hitRun_returns_iff` | propext, Classical.choice, Quot.sound |
| C72 | `PW.C72_sparseHitRun_returns_iff` | propext, Classical.choice, Quot.sound |
| C73 | `PW.C73_exists` | propext, Classical.choice, Quot.sound |
| C73 | `PW.C73_program` | propext, Classical.choice, Quot.sound |
| C73 | `PW.C73_fresh` | propext, Classical.choice, Quot.sound |
| C73 | `PW.C73_any` | propext, Classical.choice, Quot.sound |
| C73 | `PW.C73_limit` | propext, Classical.choice, Quot.sound |
| C73 | `PW.C73_history` | propext, Classical.choice, Quot.sound |
| C73 | `PW.C73_sparse_exists` | propext, Classical.choice, Quot.sound |
| C73 | `PW.C73_sparse_fresh` | propext, Classical.choice, Quot.sound |
| C73 | `PW.C73_sparse_any` | propext, Classical.choice, Quot.sound |
| C73 | `PW.C73_sparse_history` | propext, Classical.choice, Quot.sound |
| C74 | `PW.C74_exists_iff` | propext, Classical.choice, Quot.sound |
| C74 | `PW.C74_unique` | propext, Classical.choice, Quot.sound |
| C74 | `PW.C74_program` | propext, Classical.choice, Quot.sound |
| C74 | `PW.C74_converged` | propext, Classical.choice, Quot.sound |
| C74 | `PW.C74_history` | propext, Classical.choice, Quot.sound |
| C74 | `PW.C74_zero_row` | propext, Classical.choice, Quot.sound |
| C74 | `PW.C74_descent` | propext, Classical.choice, Quot.sound |
| C74 | `PW.C74_sparse_exists_iff` | propext, Classical.choice, Quot.sound |
| C74 | `PW.C74_sparse_unique` | propext, Classical.choice, Quot.sound |
| C74 | `PW.C74_sparse_converged` | propext, Classical.choice, Quot.sound |
| C74 | `PW.C74_sparse_history` | propext, Classical.choice, Quot.sound |
| C74 | `PW.C74_sparse_descent` | propext, Classical.choice, Quot.sound |
| C74 | `PW.C74_floor` | propext, Classical.choice, Quot.sound |
| C74 | `PW.C74_default_step` | propext, Classical.choice, Quot.sound |
| C75 | `PW.C75_rows` | propext, Classical.choice, Quot.sound |
| C75 | `PW.C75_limit` | propext, Classical.choice, Quot.sound |
| C75 | `PW.C75_average` | propext, Classical.choice, Quot.sound |
| C75 | `PW.C75_stuck` | propext, Classical.choice, Quot.sound |
| C75 | `PW.C75_lattice` | propext, Classical.choice, Quot.sound |
| C75 | `PW.C75_line_never` | propext, Classical.choice, Quot.sound |
| C76 | `PW.C76_rows` | propext, Classical.choice, Quot.sound |
| C76 | `PW.C76_limit` | propext, Classical.choice, Quot.sound |
| C76 | `PW.C76_average` | propext, Classical.choice, Quot.sound |
| C76 | `PW.C76_stuck` | propext, Classical.choice, Quot.sound |
| C76 | `PW.C76_lattice` | propext, Classical.choice, Quot.sound |
| C76 | `PW.C76_line_never` | propext, Classical.choice, Quot.sound |
| C77 | `PW.C77_dense_attains` | propext, Classical.choice, Quot.sound |
| C77 | `PW.C77_sparse_attains` | propext, Classical.choice, Quot.sound |
| C77 | `PW.C77_dense_interior` | propext, Classical.choice, Quot.sound |
| C77 | `PW.C77_sparse_interior` | propext, Classical.choice, Quot.sound |
| C78 | `PW.C78_dikin` | propext, Classical.choice, Quot.sound |
| C78 | `PW.C78_vaidya` | propext, Classical.choice, Quot.sound |
| C78 | `PW.C78_dikin_not_convergent` | propext, Classical.choice, Quot.sound |
| C78 | `PW.C78_vaidya_not_convergent` | propext, Classical.choice, Quot.sound |
| C79 | `PW.C79_rows` | propext, Classical.choice, Quot.sound |
| C79 | `PW.C79_averages` | propext, Classical.choice, Quot.sound |
| C80 | `PW.C80_rows` | propext, Classical.choice, Quot.sound |
| C80 | `PW.C80_averages` | propext, Classical.choice, Quot.sound |
| C81 | `PW.C81_sparseLP_problem` | propext, Classical.choice, Quot.sound |
| C81 | `PW.C81_sparseLP` | propext, Classical.choice, Quot.sound |
| C81 | `PW.C81_denseCenter_problem` | propext, Classical.choice, Quot.sound |
| C81 | `PW.C81_denseCenter` | propext, Classical.choice, Quot.sound |
| C81 | `PW.C81_sparseCenter` | propext, Classical.choice, Quot.sound |
| C81 | `PW.C81_findZ` | propext, Classical.choice, Quot.sound |
| C81 | `PW.C81_round` | propext, Classical.choice, Quot.sound |
| C81 | `PW.C81_start` | propext, Classical.choice, Quot.sound |
| C82 | `PW.C82_rhs_unused` | propext, Quot.sound |
| C82 | `PW.C82_moves` | propext, Quot.sound |
| C82 | `PW.C82_drift` | propext, Classical.choice, Quot.sound |
| C82 | `PW.C82_rows` | propext, Classical.choice, Quot.sound |
| C82 | `PW.C82_bounds_exist` | propext, Classical.choice, Quot.sound |
| C82 | `PW.C82_binary64` | propext, Classical.choice, Quot.sound |
| C82 | `PW.C82_residual_kept` | propext, Classical.choice, Quot.sound |
| C83 | `PW.C83_override_dense_partial` | propext, Quot.sound |
| C83 | `PW.C83_override_sparse_partial` | propext, Quot.sound |
| C83 | `PW.C83_inherits_dense` | propext, Quot.sound |
| C83 | `PW.C83_inherits_sparse` | propext, Quot.sound |
| C83 | `PW.C83_weight_dense` | propext, Quot.sound |
| C83 | `PW.C83_weight_sparse` | propext, Quot.sound |
| C83 | `PW.C83_super_dense` | propext, Quot.sound |
| C83 | `PW.C83_super_sparse` | propext, Quot.sound |
| C83 | `PW.C83_sparse_converges` | propext, Classical.choice, Quot.sound |
| C83 | `PW.C83_sparse_returns` | propext, Classical.choice, Quot.sound |
| C83 | `PW.C83_abstract` | propext, Quot.sound |
| C83 | `PW.C83_base_barrier` | propext, Classical.choice, Quot.sound |
| C83 | `PW.C83_ball_ignored` | propext, Quot.sound |
| C83 | `PW.C83_setDistTerm_unset` | propext, Quot.sound |
| C83 | `PW.C83_setDistTerm_unset_sparse` | propext, Quot.sound |
| C83 | `PW.C83_setDistTerm_junk` | propext, Classical.choice, Quot.sound |
| C83 | `PW.C83_sparse_stuck` | propext, Classical.choice, Quot.sound |
| C83 | `PW.C83_sparse_stuck_ieee` | propext, Classical.choice, Quot.sound |
| C84 | `PW.C84_sparse_dikin` | propext, Classical.choice, Quot.sound |
| C84 | `PW.C84_sparse_dikin_average` | propext, Classical.choice, Quot.sound |
| C84 | `PW.C84_sparse_vaidya` | propext, Classical.choice, Quot.sound |
| C84 | `PW.C84_sparse_vaidya_average` | propext, Classical.choice, Quot.sound |
| C84 | `PW.C84_sparse_hitRun` | propext, Classical.choice, Quot.sound |
| C84 | `PW.C84_sparse_hitRun_average` | propext, Classical.choice, Quot.sound |
| C84 | `PW.C84_sparse_ball` | propext, Classical.choice, Quot.sound |
| C84 | `PW.C84_sparse_ball_average` | propext, Classical.choice, Quot.sound |
| C84 | `PW.C84_sparse_john` | propext, Classical.choice, Quot.sound |
| C84 | `PW.C84_dense_hitRun` | propext, Classical.choice, Quot.sound |
| C84 | `PW.C84_dense_hitRun_average` | propext, Classical.choice, Quot.sound |
| C84 | `PW.C84_dense_ball` | propext, Classical.choice, Quot.sound |
| C84 | `PW.C84_dense_ball_average` | propext, Classical.choice, Quot.sound |
| C84 | `PW.C84_dense_dikin` | propext, Classical.choice, Quot.sound |
| C84 | `PW.handedK_regular` | propext, Classical.choice, Quot.sound |
| C84 | `PW.isChart_of_kernel` | propext, Classical.choice, Quot.sound |
| C85 | `PW.C85_rows` | propext, Classical.choice, Quot.sound |
| C85 | `PW.C85_binary64` | propext, Classical.choice, Quot.sound |
| C85 | `PW.fineFor_binary64` | propext, Classical.choice, Quot.sound |
| C86 | `PW.C86_boundary` | propext, Classical.choice, Quot.sound |
| C86 | `PW.C86_resolution` | propext, Classical.choice, Quot.sound |
| C87 | `PW.C87_rows` | propext, Classical.choice, Quot.sound |
| C87 | `PW.C87_binary64` | propext, Classical.choice, Quot.sound |
| C87 | `PW.roomy_binary64` | propext, Classical.choice, Quot.sound |
| C88 | `PW.C88_rows` | propext, Classical.choice, Quot.sound |
| C88 | `PW.C88_binary64` | propext, Classical.choice, Quot.sound |
| C89 | `PW.C89_bijection` | propext, Classical.choice, Quot.sound |
| C89 | `PW.C89_strict` | propext, Classical.choice, Quot.sound |
| C89 | `PW.C89_dropped` | propext, Classical.choice, Quot.sound |
| C89 | `PW.C89_dimensions` | propext, Classical.choice, Quot.sound |
| C89 | `PW.C89_returns` | propext, Classical.choice, Quot.sound |
| C89 | `PW.C89_denseCenter` | propext, Classical.choice, Quot.sound |
| C89 | `PW.C89_sparseCenter` | propext, Classical.choice, Quot.sound |
| C89 | `PW.C89_dense_start` | propext, Classical.choice, Quot.sound |
| C89 | `PW.C89_dense_rows` | propext, Classical.choice, Quot.sound |
| C89 | `PW.C89_dense_returns` | propext, Classical.choice, Quot.sound |
| C89 | `PW.C89_sparse_returns` | propext, Classical.choice, Quot.sound |
| C89 | `PW.C89_sparse_rows` | propext, Classical.choice, Quot.sound |
| C89 | `PW.keepsFibre_sparseBall` | propext, Classical.choice, Quot.sound |
| C89 | `PW.keepsFibre_sparseHitRun` | propext, Classical.choice, Quot.sound |
| C89 | `PW.C89_thin` | propext, Classical.choice, Quot.sound |
| C90 | `PW.C90_right` | propext, Classical.choice, Quot.sound |
| C90 | `PW.C90_rows` | propext, Classical.choice, Quot.sound |
| C90 | `PW.C90_dikin` | propext, Classical.choice, Quot.sound |
| C90 | `PW.C90_dikin_average` | propext, Classical.choice, Quot.sound |
| C90 | `PW.C90_vaidya` | propext, Classical.choice, Quot.sound |
| C90 | `PW.C90_vaidya_average` | propext, Classical.choice, Quot.sound |
| C90 | `PW.C90_hitRun` | propext, Classical.choice, Quot.sound |
| C90 | `PW.C90_hitRun_average` | propext, Classical.choice, Quot.sound |
| C90 | `PW.C90_ball` | propext, Classical.choice, Quot.sound |
| C90 | `PW.C90_ball_average` | propext, Classical.choice, Quot.sound |
| C90 | `PW.C90_john` | propext, Classical.choice, Quot.sound |
| C90 | `PW.C90_outside_share` | propext, Classical.choice, Quot.sound |
| C90 | `PW.C90_outside` | propext, Classical.choice, Quot.sound |
| C90 | `PW.C90_half` | propext, Classical.choice, Quot.sound |
| C91 | `PW.C91_same_set` | propext, Classical.choice, Quot.sound |
| C91 | `PW.C91_rows` | propext, Classical.choice, Quot.sound |
| C92 | `PW.C92_moved` | propext, Classical.choice, Quot.sound |
| C92 | `PW.C92_units` | propext, Classical.choice, Quot.sound |
| C93 | `PW.C93_lines` | propext, Classical.choice, Quot.sound |
| C93 | `PW.C93_barrier` | propext, Classical.choice, Quot.sound |
| C93 | `PW.C94_almost_surely` | propext, Classical.choice, Quot.sound |
| C94 | `PW.C94_lines` | propext, Classical.choice, Quot.sound |
| C94 | `PW.C94_barrier` | propext, Classical.choice, Quot.sound |
| C94 | `PW.C94_almost_surely` | propext, Classical.choice, Quot.sound |
| C95 | `PW.C95_sparse_dikin` | propext, Classical.choice, Quot.sound |
| C95 | `PW.C95_sparse_vaidya` | propext, Classical.choice, Quot.sound |
| C95 | `PW.C95_sparse_user` | propext, Classical.choice, Quot.sound |
| C95 | `PW.C95_dense_dikin` | propext, Classical.choice, Quot.sound |
| C95 | `PW.C95_dense_vaidya` | propext, Classical.choice, Quot.sound |
| C95 | `PW.C95_ball` | propext, Classical.choice, Quot.sound |
| C95 | `PW.C95_ball_limit` | propext, Classical.choice, Quot.sound |
| C95 | `PW.C95_sparse_ball` | propext, Classical.choice, Quot.sound |
| C95 | `PW.C95_sparse_ball_limit` | propext, Classical.choice, Quot.sound |
| C95 | `PW.C95_hitrun` | propext, Classical.choice, Quot.sound |
| C95 | `PW.C95_hitrun_limit` | propext, Classical.choice, Quot.sound |
| C95 | `PW.C95_sparse_hitrun` | propext, Classical.choice, Quot.sound |
| C95 | `PW.C95_sparse_hitrun_limit` | propext, Classical.choice, Quot.sound |
| C95 | `PW.C95_ball_unthinned` | propext, Classical.choice, Quot.sound |
| C95 | `PW.C95_ball_unthinned_joint` | propext, Classical.choice, Quot.sound |
| C96 | `PW.C96_sparse_dikin` | propext, Classical.choice, Quot.sound |
| C96 | `PW.C96_sparse_vaidya` | propext, Classical.choice, Quot.sound |
| C96 | `PW.C96_sparse_hitRun` | propext, Classical.choice, Quot.sound |
| C96 | `PW.C96_sparse_ball` | propext, Classical.choice, Quot.sound |
| C96 | `PW.C96_dense_hitRun` | propext, Classical.choice, Quot.sound |
| C96 | `PW.C96_dense_ball` | propext, Classical.choice, Quot.sound |
| C96 | `PW.C96_dense_dikin` | propext, Classical.choice, Quot.sound |
| C97 | `PW.C97_sparse_dikin` | propext, Classical.choice, Quot.sound |
| C97 | `PW.C97_sparse_vaidya` | propext, Classical.choice, Quot.sound |
| C97 | `PW.C97_sparse_user` | propext, Classical.choice, Quot.sound |
| C97 | `PW.C97_dense_dikin` | propext, Classical.choice, Quot.sound |
| C97 | `PW.C97_dense_vaidya` | propext, Classical.choice, Quot.sound |
| C97 | `PW.C97_ball` | propext, Classical.choice, Quot.sound |
| C97 | `PW.C97_sparse_ball` | propext, Classical.choice, Quot.sound |
| C98 | `PW.C98_hitrun` | propext, Classical.choice, Quot.sound |
| C98 | `PW.C98_sparse_hitrun` | propext, Classical.choice, Quot.sound |
| C99 | `PW.C99_sparse_dikin` | propext, Classical.choice, Quot.sound |
| C99 | `PW.C99_sparse_vaidya` | propext, Classical.choice, Quot.sound |
| C99 | `PW.C99_sparse_ball` | propext, Classical.choice, Quot.sound |
| C99 | `PW.C99_sparse_hitRun` | propext, Classical.choice, Quot.sound |
| C99 | `PW.C99_dense_ball` | propext, Classical.choice, Quot.sound |
| C99 | `PW.C99_dense_dikin` | propext, Classical.choice, Quot.sound |
| C99 | `PW.C99_dense_hitRun` | propext, Classical.choice, Quot.sound |
