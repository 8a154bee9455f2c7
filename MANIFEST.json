{
 "claims": [
  {
   "property": "C01",
   "status": "proved",
   "theorems": [
    "Verif.Lop.c01_algebra_preserves_adjoint",
    "Verif.Lop.c01_algebra_is_matrix_algebra",
    "Verif.Lop.c01_rejects_iff_misshaped"
   ],
   "note": "All expression trees; the refinement theorem also shows the matrix the expression stands for. Wrong real flags of leaves are a hypothesis of the refinement theorem only (see C12)."
  },
  {
   "property": "C02",
   "status": "proved",
   "theorems": [
    "Verif.Lop.c02_elementary_adjoint",
    "Verif.Lop.c02_elementary_entries"
   ],
   "note": "1-D inputs; matrix inputs are C22."
  },
  {
   "property": "C03",
   "status": "partial",
   "theorems": [
    "Verif.Lop.c03_restriction_picks",
    "Verif.Lop.c03_restriction_adjoint_iff",
    "Verif.Lop.c03_partial_op_partial"
   ],
   "note": "The code violates the adjoint claim exactly for repeated indices (proved as an iff); everything else is proved."
  },
  {
   "property": "C04",
   "status": "proved",
   "theorems": [
    "Verif.Lop.c04_cumsum_diff_values",
    "Verif.Lop.c04_heaviside_normalized_values",
    "Verif.Lop.c04_heaviside_adjoint",
    "Verif.Lop.c04_heaviside_inverse",
    "Verif.Lop.c04_heaviside_columns"
   ],
   "note": "n >= 1 for adjointness (n = 0 raises in the code)."
  },
  {
   "property": "C05",
   "status": "partial",
   "theorems": [
    "Verif.Lop.c05_derivative_adjoint",
    "Verif.Lop.c05_derivative_exact",
    "Verif.Lop.c05_centered_partial",
    "Verif.Lop.c05_centered_fails",
    "Verif.Lop.c05_centered_complex_fails"
   ],
   "note": "forward, backward and second derivative: adjoint and exact for all n, dx; the centred derivative is exact but its trans ignores dx and drops imaginary parts (refuted for dx != 1 and for complex data, proved for real data and dx = 1)"
  },
  {
   "property": "C06",
   "status": "partial",
   "theorems": [
    "Verif.Lop.c06_tv_adjoint",
    "Verif.Lop.c06_tv_entries",
    "Verif.Lop.c06_tv_kernel",
    "Verif.Lop.c06_tv2D_partial",
    "Verif.Lop.c06_tv2D_fails",
    "Verif.Lop.c06_tv2D_entries",
    "Verif.Lop.c06_tv2D_kernel"
   ],
   "note": "1-D complete; tv2D.trans is the plain transpose, not the adjoint (refuted for complex images)"
  },
  {
   "property": "C07",
   "status": "proved",
   "theorems": [
    "Verif.Lop.c07_convolve"
   ],
   "note": ""
  },
  {
   "property": "C08",
   "status": "proved",
   "theorems": [
    "Verif.Lop.c08_block_diag"
   ],
   "note": ""
  },
  {
   "property": "C09",
   "status": "partial",
   "theorems": [
    "Verif.Lop.c09_windowed_partial",
    "Verif.Lop.c09_windowed_frame",
    "Verif.Lop.c09_complex_fails"
   ],
   "note": "for real data; refuted for complex operators and for complex data, whose imaginary parts are lost in the real storage arrays"
  },
  {
   "property": "C10",
   "status": "proved",
   "theorems": [
    "Verif.Lop.c10_to_matrix",
    "Verif.Lop.c10_to_adjoint_matrix",
    "Verif.Lop.c10_columns"
   ],
   "note": "Operators with 1-D input."
  },
  {
   "property": "C11",
   "status": "partial",
   "theorems": [
    "Verif.Lop.c11_flags_partial",
    "Verif.Lop.c11_flags_fail"
   ],
   "note": "The code violates the claim: compose drops jit_safe/matrix_safe, and every combinator drops linear=False."
  },
  {
   "property": "C12",
   "status": "partial",
   "theorems": [
    "Verif.Lop.c12_transpose_partial",
    "Verif.Lop.c12_complex_diagonal_fails"
   ],
   "note": "The code violates the claim for complex diagonal/scalar_mult, which advertise real=True."
  },
  {
   "property": "C13",
   "status": "proved",
   "theorems": [
    "Verif.Lop.c13_reshape",
    "Verif.Lop.c13_reshape_entries",
    "Verif.Lop.c13_arr2vec"
   ],
   "note": ""
  },
  {
   "property": "C14",
   "status": "proved",
   "theorems": [
    "Verif.Lop.c14_fourier_unitary",
    "Verif.Lop.c14_dirac_fourier",
    "Verif.Lop.c14_dict_fourier"
   ],
   "note": ""
  },
  {
   "property": "C15",
   "status": "partial",
   "theorems": [
    "Verif.Lop.c15_fft_adjoint",
    "Verif.Lop.c15_r2c_partial",
    "Verif.Lop.c15_r2c_fails",
    "Verif.Lop.c15_fft_columns",
    "Verif.Lop.c15_axis_partial",
    "Verif.Lop.c15_axis_fails"
   ],
   "note": "complex-to-complex transforms complete; the real-to-complex mode is not an adjoint pair; with axis=1 trans crops the rows instead of the transformed axis"
  },
  {
   "property": "C16",
   "status": "proved",
   "theorems": [
    "Verif.Lop.c16_circulant"
   ],
   "note": ""
  },
  {
   "property": "C17",
   "status": "proved",
   "theorems": [
    "Verif.Lop.c17_cosine_orthonormal",
    "Verif.Lop.c17_dict_cosine"
   ],
   "note": ""
  },
  {
   "property": "C18",
   "status": "proved",
   "theorems": [
    "Verif.Lop.c18_filters_adjoint",
    "Verif.Lop.c18_filters_compute",
    "Verif.Lop.c18_running_average",
    "Verif.Lop.c18_long_filter_fails"
   ],
   "note": "for filters not longer than the signal (the shape is wrong otherwise)"
  },
  {
   "property": "C19",
   "status": "partial",
   "theorems": [
    "Verif.Lop.c19_dot_test_partial",
    "Verif.Lop.c19_dot_test_complex_partial",
    "Verif.Lop.c19_dot_test_fails"
   ],
   "note": "sound only when the mean of the inner products is positive; refuted otherwise"
  },
  {
   "property": "C20",
   "status": "proved",
   "theorems": [
    "Verif.Lop.c20_dwt",
    "Verif.Lop.rot_oneLevel",
    "Verif.Lop.c20_level_zero_fails",
    "Verif.Lop.c20_dwt_levels"
   ],
   "note": "one-level transform is a parameter with explicit hypotheses; level 0 is refuted"
  },
  {
   "property": "C21",
   "status": "proved",
   "theorems": [
    "Verif.Lop.c21_power"
   ],
   "note": ""
  },
  {
   "property": "C22",
   "status": "partial",
   "theorems": [
    "Verif.Lop.c22_algebra_columnwise_partial",
    "Verif.Lop.c22_along_axis",
    "Verif.Lop.c22_constructors",
    "Verif.Lop.c22_fourier",
    "Verif.Lop.c22_cosine",
    "Verif.Lop.c22_partial_op",
    "Verif.Lop.c22_complex_transpose_fails",
    "Verif.Lop.c22_pad_zeros_fails",
    "Verif.Lop.c22_pad_zeros_values"
   ],
   "note": "transpose of complex operators and pad_zeros violate the claim"
  },
  {
   "property": "C23",
   "status": "partial",
   "theorems": [
    "Verif.Sls.c23_normest_partial",
    "Verif.Sls.c23_normest_terminates",
    "Verif.Sls.c23_normest_monotone",
    "Verif.Sls.c23_normest_zero_iters_fails",
    "Verif.Sls.c23_normest_zero_operator_fails",
    "Verif.Sls.c23_power_iterations_partial",
    "Verif.Sls.c23_power_iterations_terminates",
    "Verif.Sls.c23_power_iterations_monotone"
   ],
   "note": "the estimates are lower bounds and nondecreasing for nonzero starts; max_iters = 0 and the zero operator give 1e10 and nan"
  },
  {
   "property": "C24",
   "status": "proved",
   "theorems": [
    "Verif.Opt.c24_proj_box",
    "Verif.Opt.c24_project_to_box",
    "Verif.Opt.c24_real_upper_limit"
   ],
   "note": "proj_box, project_to_box, project_to_real_upper_limit are the nearest points of the box; idempotent by uniqueness"
  },
  {
   "property": "C25",
   "status": "proved",
   "theorems": [
    "Verif.Opt.c25_proj_l1_ball",
    "Verif.Opt.c25_on_sphere"
   ],
   "note": "proj_l1_ball / project_to_ball (ord 1): nearest point; points outside land on the sphere"
  },
  {
   "property": "C26",
   "status": "partial",
   "theorems": [
    "Verif.Opt.c26_proj_l2_ball",
    "Verif.Opt.c26_proj_l2_ball_center_partial",
    "Verif.Opt.c26_center_fails"
   ],
   "note": "without a centre: proved. With a centre the code projects on the ball of radius q-1e-7; c26_center_fails shows the result is then not the nearest point"
  },
  {
   "property": "C27",
   "status": "proved",
   "theorems": [
    "Verif.Opt.c27_proj_conic"
   ],
   "note": "second order cone"
  },
  {
   "property": "C28",
   "status": "proved",
   "theorems": [
    "Verif.Opt.c28_proj_affine",
    "Verif.Opt.c28_proj_simple"
   ],
   "note": "affine set under the documented meaning of lstsq/cholesky solve; singleton, zero, identity"
  },
  {
   "property": "C29",
   "status": "partial",
   "theorems": [
    "Verif.Opt.c29_indicators",
    "Verif.Opt.c29_projector_feasible",
    "Verif.Opt.c29_affine_partial",
    "Verif.Opt.c29_affine_fails"
   ],
   "note": "indicators are 0 exactly on the set and infinite off it, except indicator_affine, whose relative tolerance accepts points off the set"
  },
  {
   "property": "C30",
   "status": "proved",
   "theorems": [
    "Verif.Opt.c30_prox_l1",
    "Verif.Opt.c30_prox_l1_shrink"
   ],
   "note": ""
  },
  {
   "property": "C31",
   "status": "proved",
   "theorems": [
    "Verif.Opt.c31_prox_l2"
   ],
   "note": ""
  },
  {
   "property": "C32",
   "status": "proved",
   "theorems": [
    "Verif.Opt.c32_prox_l1_pos",
    "Verif.Opt.c32_prox_indicators"
   ],
   "note": ""
  },
  {
   "property": "C33",
   "status": "partial",
   "theorems": [
    "Verif.Opt.c33_prox_owl1_partial",
    "Verif.Opt.c33_owl1_diverges",
    "Verif.Opt.c40_owl1rls_partial"
   ],
   "note": "if the loop stops the result is the proximal point; c33_owl1_diverges exhibits an input on which the loop never stops in exact arithmetic"
  },
  {
   "property": "C34",
   "status": "partial",
   "theorems": [
    "Verif.Opt.c34_moreau_partial",
    "Verif.Opt.c34_hypotheses",
    "Verif.Opt.c34_value_fails"
   ],
   "note": "gradient and envelope for mu = 1; the returned value uses 1/2 instead of 1/(2 mu) (c34_value_fails)"
  },
  {
   "property": "C35",
   "status": "partial",
   "theorems": [
    "Verif.Opt.c35_quad_matrix_partial",
    "Verif.Opt.c35_quad_matrix_fails",
    "Verif.Opt.c35_quad_error",
    "Verif.Opt.c35_constant_linear",
    "Verif.Opt.c35_huber",
    "Verif.Opt.c35_entropy",
    "Verif.Opt.c35_logdet",
    "Verif.Opt.c35_translate"
   ],
   "note": "the gradient of smooth_quad_matrix is right iff P is symmetric"
  },
  {
   "property": "C36",
   "status": "proved",
   "theorems": [
    "Verif.Opt.c36_soft",
    "Verif.Opt.c36_soft_complex",
    "Verif.Opt.c36_hard",
    "Verif.Opt.c36_half"
   ],
   "note": ""
  },
  {
   "property": "C37",
   "status": "proved",
   "theorems": [
    "Verif.Opt.c37_cg_invariants",
    "Verif.Opt.c37_cg_conjugate",
    "Verif.Opt.c37_cg_optimal",
    "Verif.Opt.c37_cg_stop"
   ],
   "note": ""
  },
  {
   "property": "C38",
   "status": "proved",
   "theorems": [
    "Verif.Opt.c38_pcg_invariants",
    "Verif.Opt.c38_pcg_conjugate",
    "Verif.Opt.c38_pcg_stop",
    "Verif.Opt.c38_pcg_identity_is_cg"
   ],
   "note": ""
  },
  {
   "property": "C39",
   "status": "proved",
   "theorems": [
    "Verif.Opt.c39_line_search",
    "Verif.Opt.c39_line_search_halves",
    "Verif.Opt.c39_line_search_accepts",
    "Verif.Opt.c39_spg_feasible",
    "Verif.Opt.c39_spg_decrease",
    "Verif.Opt.c39_spg_below_start",
    "Verif.Opt.c39_spg_result"
   ],
   "note": ""
  },
  {
   "property": "C40",
   "status": "proved",
   "theorems": [
    "Verif.Opt.c40_backtrack",
    "Verif.Opt.c40_fom_invariants",
    "Verif.Opt.c40_fom_terminates",
    "Verif.Opt.c40_accepted_upper_bound",
    "Verif.Opt.c40_fom_rate",
    "Verif.Opt.c40_L_bounded",
    "Verif.Opt.c40_l1rls_lasso",
    "Verif.Opt.c40_Cx_stale",
    "Verif.Opt.c40_Cx_fails"
   ],
   "note": "c40_Cx_fails: the C_x field of the returned state is stale"
  },
  {
   "property": "C41",
   "status": "proved",
   "theorems": [
    "Verif.Sls.c41_ista_residual",
    "Verif.Sls.c41_ista_monotone",
    "Verif.Sls.c41_ista_rate",
    "Verif.Sls.c41_c42_lasso",
    "Verif.Sls.c41_ista_result",
    "Verif.Sls.c41_ista_continues",
    "Verif.Sls.c41_ista_small_change",
    "Verif.Sls.c41_ista_converges",
    "Verif.Sls.c41_lasso_converges"
   ],
   "note": ""
  },
  {
   "property": "C42",
   "status": "proved",
   "theorems": [
    "Verif.Sls.c42_fista_residual",
    "Verif.Sls.c42_fista_rate",
    "Verif.Sls.c42_fista_result",
    "Verif.Sls.c42_fista_continues",
    "Verif.Sls.c41_c42_lasso",
    "Verif.Sls.c42_fista_residual_fails"
   ],
   "note": "c42_fista_residual_fails: the returned residual is that of the extrapolated point"
  },
  {
   "property": "C43",
   "status": "proved",
   "theorems": [
    "Verif.Sls.c43_residual_norms",
    "Verif.Sls.c43_damped_norms"
   ],
   "note": "real scalars; also covers damping"
  },
  {
   "property": "C44",
   "status": "partial",
   "theorems": [
    "Verif.Pursuit.c44_mp_residual",
    "Verif.Pursuit.c44_mp_decrease",
    "Verif.Pursuit.c44_mp_geometric",
    "Verif.Pursuit.c44_mp_every_dictionary",
    "Verif.Pursuit.c44_mp_limit",
    "Verif.Pursuit.c44_reported_norm",
    "Verif.Pursuit.c44_reported_norm_fails"
   ],
   "note": "missing: the reported residual norm is always |y|^2, so the tolerance never stops the loop (c44_reported_norm_fails)"
  },
  {
   "property": "C45",
   "status": "partial",
   "theorems": [
    "Verif.Pursuit.c45_gram_chol_update",
    "Verif.Pursuit.c45_omp_least_squares_partial",
    "Verif.Pursuit.c46_operator_solve_partial",
    "Verif.Pursuit.c46_zero_residual_fails",
    "Verif.Pursuit.c45_complex_fails",
    "Verif.Pursuit.c45_complex_partial"
   ],
   "note": "proved for real data while the residual is correlated with some atom; after an exact fit the Cholesky pivot is zero (c46_zero_residual_fails); false for complex data (c45_complex_fails), true for complex data when the Gram matrix of the atoms is real (c45_complex_partial)"
  },
  {
   "property": "C46",
   "status": "partial",
   "theorems": [
    "Verif.Pursuit.c45_omp_least_squares_partial",
    "Verif.Pursuit.c46_omp_strict_decrease_partial",
    "Verif.Pursuit.c46_matrix_solve",
    "Verif.Pursuit.c46_operator_solve_partial",
    "Verif.Pursuit.c46_zero_residual_fails",
    "Verif.Pursuit.c46_operator_K1_fails",
    "Verif.Pursuit.c46_first_atom_fails"
   ],
   "note": "proved while the residual is correlated with some atom; matrix_solve raises for one iteration and repeats atoms after an exact fit; operator_solve reports |y|^2 as residual norm for K=1"
  },
  {
   "property": "C47",
   "status": "partial",
   "theorems": [
    "Verif.Pursuit.c47_cosamp_state",
    "Verif.Pursuit.c47_cosamp_distinct_partial",
    "Verif.Pursuit.c47_cosamp_pairing_partial",
    "Verif.Pursuit.c47_cosamp_stop",
    "Verif.Pursuit.c47_cosamp_operator",
    "Verif.Pursuit.c47_first_state_fails"
   ],
   "note": "pairing fails at the first state (c47_first_state_fails); distinctness needs 2K correlated atoms outside the support"
  },
  {
   "property": "C48",
   "status": "partial",
   "theorems": [
    "Verif.Pursuit.c48_sp_state",
    "Verif.Pursuit.c48_sp_distinct_partial",
    "Verif.Pursuit.c48_sp_matrix_stop",
    "Verif.Pursuit.c48_sp_operator",
    "Verif.Pursuit.c48_distinct_fails"
   ],
   "note": "distinctness needs K correlated atoms outside the support (c48_distinct_fails shows it is needed)"
  },
  {
   "property": "C49",
   "status": "proved",
   "theorems": [
    "Verif.Pursuit.c49_htp_state",
    "Verif.Pursuit.c49_htp_support_fixed",
    "Verif.Pursuit.c49_htp_stop",
    "Verif.Pursuit.c49_nhtp_undefined"
   ],
   "note": "step size given; with normalized=True the second pass divides 0 by 0 (c49_nhtp_undefined); the first state is a plain thresholding step, its residual need not be orthogonal"
  },
  {
   "property": "C50",
   "status": "proved",
   "theorems": [
    "Verif.Pursuit.c50_iht_state",
    "Verif.Pursuit.c50_iht_monotone",
    "Verif.Pursuit.c50_iht_stop",
    "Verif.Pursuit.c50_default_step_fails",
    "Verif.Pursuit.c50_normalized_step",
    "Verif.Pursuit.c50_niht_state",
    "Verif.Pursuit.c50_niht_decrease",
    "Verif.Pursuit.c50_niht_stop",
    "Verif.Pursuit.c50_niht_undefined",
    "Verif.Pursuit.c50_niht_fails"
   ],
   "note": "with normalized=True a signal orthogonal to the first K atoms gives no number (c50_niht_fails); the default step is 0.98/|Phi|, not /|Phi|^2, and can increase the residual (c50_default_step_fails)"
  },
  {
   "property": "C51",
   "status": "proved",
   "theorems": [
    "Verif.Pursuit.c51_abs_max_idx",
    "Verif.Pursuit.c51_largest_indices",
    "Verif.Pursuit.c51_best_K_term",
    "Verif.Pursuit.c51_hard_threshold_sorted"
   ],
   "note": ""
  },
  {
   "property": "C52",
   "status": "proved",
   "theorems": [
    "Verif.Pursuit.c52_configurations",
    "Verif.Pursuit.c52_reverse_map",
    "Verif.Pursuit.c52_domain"
   ],
   "note": "exact rational arithmetic for the dyadic ratios"
  },
  {
   "property": "C53",
   "status": "proved",
   "theorems": [
    "Verif.Cluster.argmin_spec",
    "Verif.Cluster.c53_assignment",
    "Verif.Cluster.c53_new_centroids"
   ],
   "note": "nearest-centroid assignment with first-index ties, centroids are the means of the assigned points (an empty cluster gets the origin)"
  },
  {
   "property": "C54",
   "status": "proved",
   "theorems": [
    "Verif.Cluster.c54_wcss_monotone",
    "Verif.Cluster.c54_result_below_start",
    "Verif.Cluster.c54_terminates",
    "Verif.Cluster.c54_kmeans_selects",
    "Verif.Cluster.c54_converges",
    "Verif.Cluster.c54_iterations",
    "Verif.Cluster.c54_stop_fails"
   ],
   "note": "objective decreases along every run, the loop stops, kmeans returns the best of its restarts; the iteration reaches a fixed point after at most k^n steps; the stop test may end before the fixed point"
  },
  {
   "property": "C55",
   "status": "proved",
   "theorems": [
    "Verif.Cluster.c55_round_trip",
    "Verif.Cluster.c55_sizes",
    "Verif.Cluster.c55_start_end"
   ],
   "note": ""
  },
  {
   "property": "C56",
   "status": "proved",
   "theorems": [
    "Verif.Cluster.c56_unnormalized",
    "Verif.Cluster.c56_random_walk",
    "Verif.Cluster.c56_normalized_symmetric",
    "Verif.Cluster.c56_sparse"
   ],
   "note": ""
  },
  {
   "property": "C57",
   "status": "partial",
   "theorems": [
    "Verif.Cluster.c57_best_map_k_relabels",
    "Verif.Cluster.c57_best_map_k_optimal",
    "Verif.Cluster.c57_error_range",
    "Verif.Cluster.c57_error_invariant",
    "Verif.Cluster.c57_best_map_partial",
    "Verif.Cluster.c57_best_map_fails"
   ],
   "note": "best_map with unequal numbers of true and estimated labels is wrong (c57_best_map_fails); proved for equal numbers and for best_map_k"
  },
  {
   "property": "C58",
   "status": "proved",
   "theorems": [
    "Verif.Cluster.c58_full_rep",
    "Verif.Cluster.c58_round_trip",
    "Verif.Cluster.c58_bcoo_dense",
    "Verif.Cluster.c58_affinity",
    "Verif.Cluster.c58_repeated_index_fails"
   ],
   "note": "distinct indices per column; for repeated indices the formats differ (c58_repeated_index_fails)"
  },
  {
   "property": "C59",
   "status": "partial",
   "theorems": [
    "Verif.Cluster.c59_batch_partial",
    "Verif.Cluster.c59_batch_equal_normalised",
    "Verif.Cluster.c59_batch_size_irrelevant",
    "Verif.Cluster.c59_batch_fails"
   ],
   "note": "the coefficients agree only for unit-norm data: the unbatched version fits the raw columns, the batched one the normalised columns"
  },
  {
   "property": "C60",
   "status": "partial",
   "theorems": [
    "Verif.Cluster.c60_dense",
    "Verif.Cluster.c60_flag_error",
    "Verif.Cluster.c60_sparse_agrees_partial",
    "Verif.Cluster.c60_flag_fails",
    "Verif.Cluster.c60_sparse_fails"
   ],
   "note": "flag and error can disagree for small coefficients; the sparse version counts small out-of-cluster coefficients as inside"
  },
  {
   "property": "C61",
   "status": "partial",
   "theorems": [
    "Verif.Cvx.c61_consistent",
    "Verif.Cvx.c61_certified",
    "Verif.Cvx.c61_stop",
    "Verif.Cvx.c61_solve_lasso",
    "Verif.Cvx.c61_decrease",
    "Verif.Cvx.c61_spectral_step",
    "Verif.Cvx.c61_projected_step",
    "Verif.Cvx.c61_counters_partial",
    "Verif.Cvx.c61_counters_fails"
   ],
   "note": "n_times is exact, n_trans counts the line search rounds in which trans is not called"
  },
  {
   "property": "C62",
   "status": "partial",
   "theorems": [
    "Verif.Cvx.c62_consistent",
    "Verif.Cvx.c62_r_norm_partial",
    "Verif.Cvx.c62_r_norm_fails",
    "Verif.Cvx.c62_certified",
    "Verif.Cvx.c62_stop",
    "Verif.Cvx.c62_stop_gap",
    "Verif.Cvx.c62_counters",
    "Verif.Cvx.c62_newton"
   ],
   "note": "r_norm is stale when the iteration reduced tau; both counters are one too high"
  },
  {
   "property": "C63",
   "status": "proved",
   "theorems": [
    "Verif.Cvx.c63_interior",
    "Verif.Cvx.c63_dual_bound",
    "Verif.Cvx.c63_default_start",
    "Verif.Cvx.c63_stop_partial",
    "Verif.Cvx.c63_start_fails",
    "Verif.Cvx.c63_gradient",
    "Verif.Cvx.c63_newton",
    "Verif.Cvx.c63_line_search",
    "Verif.Cvx.c63_progress",
    "Verif.Cvx.c63_newton_accuracy"
   ],
   "note": "the certificate is proved for the default start; for other starts it needs a nonnegative dual value (c63_stop_partial) and otherwise fails (c63_start_fails)"
  },
  {
   "property": "C64",
   "status": "partial",
   "theorems": [
    "Verif.Cvx.c64_residual_partial",
    "Verif.Cvx.c64_residual_basis",
    "Verif.Cvx.c64_residual_fails",
    "Verif.Cvx.c64_box",
    "Verif.Cvx.c64_counters",
    "Verif.Cvx.c64_terminates",
    "Verif.Cvx.c64_bp_setup",
    "Verif.Cvx.c64_zero_partial",
    "Verif.Cvx.c64_zero_con",
    "Verif.Cvx.c64_zero_weights_fails"
   ],
   "note": "with nonneg the residual is that of the iterate before clipping; the zero test of the penalised form ignores the weights"
  },
  {
   "property": "C65",
   "status": "partial",
   "theorems": [
    "Verif.Cvx.c65_solution_partial",
    "Verif.Cvx.c65_zero_stays",
    "Verif.Cvx.c65_minimal",
    "Verif.Cvx.c65_first",
    "Verif.Cvx.c65_finite_partial",
    "Verif.Cvx.c65_finite_fails"
   ],
   "note": "iterates need not be finite for full-row-rank dictionaries"
  },
  {
   "property": "C66",
   "status": "partial",
   "theorems": [
    "Verif.Dict.c66_coherence_real_partial",
    "Verif.Dict.c66_mutual_coherence",
    "Verif.Dict.c66_index_fails",
    "Verif.Dict.c66_complex_fails"
   ],
   "note": "real dictionaries with a nonzero off-diagonal Gram entry; the pair reported for an orthogonal dictionary is (0,0), complex Gram matrices are reduced to their real part"
  },
  {
   "property": "C67",
   "status": "proved",
   "theorems": [
    "Verif.Dict.c67_babel",
    "Verif.Dict.c67_babel_bounds"
   ],
   "note": ""
  },
  {
   "property": "C68",
   "status": "proved",
   "theorems": [
    "Verif.Dict.c68_welch",
    "Verif.Dict.c68_coherence_bound",
    "Verif.Dict.c68_domain"
   ],
   "note": ""
  },
  {
   "property": "C69",
   "status": "proved",
   "theorems": [
    "Verif.Dict.c69_domain",
    "Verif.Dict.c69_hadamard",
    "Verif.Dict.c69_basis"
   ],
   "note": ""
  },
  {
   "property": "C70",
   "status": "partial",
   "theorems": [
    "Verif.Dict.c70_gaussian",
    "Verif.Dict.c70_rademacher",
    "Verif.Dict.c70_sparse_binary",
    "Verif.Dict.c70_orthonormal_partial",
    "Verif.Dict.c70_orthonormal_fails"
   ],
   "note": "the orthonormal rows need a linearly independent draw"
  },
  {
   "property": "C71",
   "status": "partial",
   "theorems": [
    "Verif.Data.c71_normal",
    "Verif.Data.c71_biuniform_partial",
    "Verif.Data.c71_biuniform_fails",
    "Verif.Data.c71_spikes_partial",
    "Verif.Data.c71_index_sets",
    "Verif.Data.c71_orthogonal",
    "Verif.Data.c71_blocks",
    "Verif.Data.c71_blocks_unit",
    "Verif.Data.c71_blocks_ar"
   ],
   "note": "the magnitudes need non-zero normal draws (sign(0)=0)"
  },
  {
   "property": "C72",
   "status": "partial",
   "theorems": [
    "Verif.Data.c72_two_subspaces",
    "Verif.Data.c72_two_room",
    "Verif.Data.c72_principal_angle",
    "Verif.Data.c72_three_domain",
    "Verif.Data.c72_three_subspaces_partial",
    "Verif.Data.c72_three_zero_fails",
    "Verif.Data.c72_uniform_points",
    "Verif.Data.c72_random_subspaces"
   ],
   "note": "three subspaces need cos theta >= -1/2 and theta != 0"
  },
  {
   "property": "C73",
   "status": "partial",
   "theorems": [
    "Verif.Block.c73_gram",
    "Verif.Block.c73_gram_pruned",
    "Verif.Block.c73_gram_ref",
    "Verif.Block.c73_mean",
    "Verif.Block.c73_covariance",
    "Verif.Block.c73_second_moment_partial",
    "Verif.Block.c73_second_moment_fails",
    "Verif.Block.c73_iterate_em",
    "Verif.Block.c73_iterate_bo",
    "Verif.Block.c73_pruned_em",
    "Verif.Block.c73_pruned_bo"
   ],
   "note": "compute_cov_x is the second moment only for blocks of length one"
  },
  {
   "property": "C74",
   "status": "proved",
   "theorems": [
    "Verif.Block.c74_tiles",
    "Verif.Block.c74_block_lens",
    "Verif.Block.c74_round_trip",
    "Verif.Block.c74_remainder_uncovered"
   ],
   "note": ""
  },
  {
   "property": "C75",
   "status": "proved",
   "theorems": [
    "Verif.Tools.c75_history",
    "Verif.Tools.c75_extends"
   ],
   "note": ""
  },
  {
   "property": "C76",
   "status": "partial",
   "theorems": [
    "Verif.Tools.c76_sets",
    "Verif.Tools.c76_T1_largest",
    "Verif.Tools.c76_partition_partial",
    "Verif.Tools.c76_partition_fails",
    "Verif.Tools.c76_overlap",
    "Verif.Tools.c76_perfect",
    "Verif.Tools.c76_exact",
    "Verif.Tools.c76_success",
    "Verif.Tools.c76_solution_partial",
    "Verif.Tools.c76_solution_fails",
    "Verif.Tools.c76_residual",
    "Verif.Tools.c76_error_by_residual",
    "Verif.Tools.c76_snr_agree"
   ],
   "note": "a result holding only the full vector x is not accepted; T0 and T1 overlap when fewer than K entries outside T0 are in error"
  },
  {
   "property": "C77",
   "status": "partial",
   "theorems": [
    "Verif.Cs1bit.c77_measure_values_partial",
    "Verif.Cs1bit.c77_measure_values_fails",
    "Verif.Cs1bit.c77_scaling",
    "Verif.Cs1bit.c77_biht_state",
    "Verif.Cs1bit.c77_biht_step",
    "Verif.Cs1bit.c77_biht_stop",
    "Verif.Cs1bit.c77_rfp_unit",
    "Verif.Cs1bit.c77_rfp_run",
    "Verif.Cs1bit.c77_guess",
    "Verif.Cs1bit.c77_rfp_descent_fails"
   ],
   "note": "a zero measurement has sign 0; the RFP gradient step ascends"
  },
  {
   "property": "C78",
   "status": "proved",
   "theorems": [
    "Verif.Problems.c78_prob001",
    "Verif.Problems.c78_prob002",
    "Verif.Problems.c78_prob003",
    "Verif.Problems.c78_prob004",
    "Verif.Problems.c78_prob005",
    "Verif.Problems.c78_prob006",
    "Verif.Problems.c78_spikes",
    "Verif.Problems.c78_heaviside",
    "Verif.Problems.c78_signed_spikes",
    "Verif.Problems.c78_names",
    "Verif.Problems.c78_prob001_signal",
    "Verif.Problems.c78_prob001_sparse",
    "Verif.Problems.c78_two_ortho_sparse",
    "Verif.Problems.c78_heaviside_dictionaries"
   ],
   "note": "every problem with a known representation; the wavelet problems assume an orthonormal one-level transform; problem 401, which has no x, is C122"
  },
  {
   "property": "C79",
   "status": "proved",
   "theorems": [
    "Verif.Vision.c79_normalised",
    "Verif.Vision.c79_symmetric",
    "Verif.Vision.c79_peak",
    "Verif.Vision.c79_width",
    "Verif.Vision.c79_sigma_fails"
   ],
   "note": "the standard deviation is half of the sigma argument"
  },
  {
   "property": "C80",
   "status": "proved",
   "theorems": [
    "Verif.Dict.c80_ratio",
    "Verif.Dict.c80_signed_permutation"
   ],
   "note": ""
  },
  {
   "property": "C81",
   "status": "proved",
   "theorems": [
    "Verif.Opt.c81_smooth_dual"
   ],
   "note": ""
  },
  {
   "property": "C82",
   "status": "partial",
   "theorems": [
    "Verif.Sls.c82_x_norm_partial",
    "Verif.Sls.c82_x_norm_fails",
    "Verif.Sls.c82_A_norm"
   ],
   "note": "x_norm is the distance from x0, so it is wrong when x0 is not zero"
  },
  {
   "property": "C83",
   "status": "proved",
   "theorems": [
    "Verif.Sls.c83_optimal",
    "Verif.Sls.c83_monotone",
    "Verif.Sls.c83_no_zero_division",
    "Verif.Sls.c83_exact",
    "Verif.Sls.c83_exact_rank"
   ],
   "note": "exact arithmetic; complex scalars in C142"
  },
  {
   "property": "C84",
   "status": "partial",
   "theorems": [
    "Verif.Cvx.c84_counters_partial",
    "Verif.Cvx.c84_counters_fails"
   ],
   "note": "n_times is exact, n_trans misses one call per iteration"
  },
  {
   "property": "C85",
   "status": "proved",
   "theorems": [
    "Verif.Cvx.c85_fixed_point"
   ],
   "note": ""
  },
  {
   "property": "C86",
   "status": "proved",
   "theorems": [
    "Verif.Cvx.c86_converges_gamma",
    "Verif.Cvx.c86_converges",
    "Verif.Cvx.c86_converges_sign",
    "Verif.Cvx.c86_converges_nonneg",
    "Verif.Cvx.c86_monotone",
    "Verif.Cvx.c86_gamma_two_fails"
   ],
   "note": "convergence for every gamma in (0, (1+sqrt 5)/2); from gamma = 2 on it fails (c86_gamma_two_fails), the range between is not settled; with a sign constraint the problem needs a nonnegative feasible point, strictly feasible for the form with a residual bound; without one there is no solution or, for the residual bound met with equality only, possibly no dual solution"
  },
  {
   "property": "C87",
   "status": "proved",
   "theorems": [
    "Verif.Cvx.c87_decrease",
    "Verif.Cvx.c87_decrease_default"
   ],
   "note": ""
  },
  {
   "property": "C88",
   "status": "partial",
   "theorems": [
    "Verif.Block.c88_finite_em",
    "Verif.Block.c88_finite_bo",
    "Verif.Block.c88_gammas_bo_partial",
    "Verif.Block.c88_bo_zero_block_fails",
    "Verif.Block.c88_bo_nan",
    "Verif.Block.c88_high_snr_fails"
   ],
   "note": "false for learn_lambda = 2 and, in bsbl_bo, for zero blocks"
  },
  {
   "property": "C89",
   "status": "partial",
   "theorems": [
    "Verif.Block.c89_sqrt_partial",
    "Verif.Block.c89_sqrt_fails",
    "Verif.Block.c89_bo_update"
   ],
   "note": "holds for positive semidefinite matrices, fails for indefinite ones"
  },
  {
   "property": "C90",
   "status": "partial",
   "theorems": [
    "Verif.Block.c90_lambda_em",
    "Verif.Block.c90_lambda_bo",
    "Verif.Block.c90_stop_em",
    "Verif.Block.c90_stop_bo",
    "Verif.Block.c90_options",
    "Verif.Block.c90_block_corr_fails"
   ],
   "note": "learn_block_corr has no effect"
  },
  {
   "property": "C91",
   "status": "partial",
   "theorems": [
    "Verif.Cluster.c91_representation",
    "Verif.Cluster.c91_self_distinct_partial",
    "Verif.Cluster.c91_subspace_preserving",
    "Verif.Cluster.c91_self_fails"
   ],
   "note": "a column may be used in its own representation once the residual vanishes"
  },
  {
   "property": "C92",
   "status": "partial",
   "theorems": [
    "Verif.Cluster.c92_angles",
    "Verif.Cluster.c92_inside",
    "Verif.Cluster.c92_outside",
    "Verif.Cluster.c92_sorted_partial",
    "Verif.Cluster.c92_sorted_fails",
    "Verif.Cluster.c92_inn_position",
    "Verif.Cluster.c92_inn_position_fails"
   ],
   "note": "sorted_neighbors is wrong for repeated points, inn_positions for points alone in their cluster"
  },
  {
   "property": "C93",
   "status": "partial",
   "theorems": [
    "Verif.Opt.c93_scd_partial",
    "Verif.Opt.c93_bp_scd_fails",
    "Verif.Opt.c93_dantzig_scd_fails"
   ],
   "note": "the recovered point minimises a Lagrangian, but the driver minimises the concave dual (maximize=True is ignored), so solutions are not approached"
  },
  {
   "property": "C94",
   "status": "partial",
   "theorems": [
    "Verif.Sls.c94_bidiagonal_partial",
    "Verif.Sls.c94_redraw",
    "Verif.Sls.c94_exhausted_fails",
    "Verif.Sls.c94_one_by_one_fails"
   ],
   "note": "the code returns NaN when the range is exhausted; nothing is claimed after a small nonzero residual is replaced by a random vector"
  },
  {
   "property": "C95",
   "status": "partial",
   "theorems": [
    "Verif.Sls.c95_lansvd_partial",
    "Verif.Sls.c95_steps",
    "Verif.Sls.c95_count",
    "Verif.Sls.c95_lansvd_exact",
    "Verif.Sls.c95_left_vectors_fail",
    "Verif.Sls.c95_count_fails"
   ],
   "note": "the code forgets the last term of the left vectors, and reports NaN bounds and no converged values when the decomposition is exact"
  },
  {
   "property": "C96",
   "status": "partial",
   "theorems": [
    "Verif.Cluster.c96_unnormalized_k",
    "Verif.Cluster.c96_random_walk_k",
    "Verif.Cluster.c96_reported",
    "Verif.Cluster.c96_reported_random_walk",
    "Verif.Cluster.c96_auto_partial",
    "Verif.Cluster.c96_auto_connected_fails",
    "Verif.Cluster.c96_auto_gap_fails"
   ],
   "note": "the versions with given k are fully proved; the automatic number of clusters is wrong for connected graphs and when an inner spectral gap is larger"
  },
  {
   "property": "C97",
   "status": "partial",
   "theorems": [
    "Verif.Lop.c97_dwt2D_partial",
    "Verif.Lop.c97_axes_fails"
   ],
   "note": "axes=(0,1) for every shape, axes=(1,0) for square shapes; for other shapes with axes=(1,0) the crop uses the exchanged sizes and the property is refuted. The one-level transform along an axis is a parameter (OneLevel)."
  },
  {
   "property": "C98",
   "status": "partial",
   "theorems": [
    "Verif.Opt.c98_percentile",
    "Verif.Opt.c98_hard",
    "Verif.Opt.c98_soft",
    "Verif.Opt.c98_default",
    "Verif.Opt.c98_half_partial",
    "Verif.Opt.c98_half_fails"
   ],
   "note": "half thresholding: only when the percentile is positive; at percentile 0 the zero entries become NaN (refuted). percentile is modelled with linear interpolation."
  },
  {
   "property": "C99",
   "status": "proved",
   "theorems": [
    "Verif.Geo.c99_shape",
    "Verif.Geo.c99_spectrum"
   ],
   "note": ""
  },
  {
   "property": "C100",
   "status": "partial",
   "theorems": [
    "Verif.Lop.c100_convolveND_partial",
    "Verif.Lop.c100_convolve2D",
    "Verif.Lop.c100_complex_fails",
    "Verif.Lop.c100_offset_fails",
    "Verif.Lop.c100_axes_fails"
   ],
   "note": "Any dimension. The code does not conjugate complex filters in the backward direction, does not check the origin and mixes up axes given out of order; each is refuted by a theorem."
  },
  {
   "property": "C101",
   "status": "partial",
   "theorems": [
    "Verif.Lop.c101_dot_real",
    "Verif.Lop.c101_dot_partial",
    "Verif.Lop.c101_complex_fails"
   ],
   "note": "Exact for real data. For complex data the code returns the real part of the inner product."
  },
  {
   "property": "C102",
   "status": "proved",
   "theorems": [
    "Verif.Lop.c102_walsh_hadamard",
    "Verif.Lop.c102_matches_dictionary"
   ],
   "note": "For every symmetric +-1 matrix W with W W^T = n I in place of the external fast transform; the Sylvester matrix of dict.hadamard is one."
  },
  {
   "property": "C103",
   "status": "proved",
   "theorems": [
    "Verif.Dict.c103_wavelet_basis"
   ],
   "note": "The one-level transform of the wavelet library is a parameter with the perfect reconstruction contract of C20."
  },
  {
   "property": "C104",
   "status": "proved",
   "theorems": [
    "Verif.Dict.c104_dirac_cosine",
    "Verif.Dict.c104_dirac_hadamard_cosine"
   ],
   "note": ""
  },
  {
   "property": "C105",
   "status": "partial",
   "theorems": [
    "Verif.Dict.c105_frame_bounds_partial",
    "Verif.Dict.c105_lower_bound_fails",
    "Verif.Dict.c105_complex_fails"
   ],
   "note": "The lower bound is wrong for more rows than columns (thin SVD), and frame drops the imaginary part of a complex frame operator. The SVD is a parameter with its contract."
  },
  {
   "property": "C106",
   "status": "partial",
   "theorems": [
    "Verif.Tools.Trials.c106_trials",
    "Verif.Tools.Trials.c106_calls",
    "Verif.Tools.Trials.c106_signals_partial",
    "Verif.Tools.Trials.c106_signals_fails",
    "Verif.Tools.Trials.c106_fresh_fails",
    "Verif.Tools.Trials.c106_single_trial_fails"
   ],
   "note": "Table, common instances and interruption proved for two or more trials. signal_keys has num_dict_trials entries, so later signals repeat the last one; with two dictionaries signal keys are reused as dictionary keys; a single trial divides by zero."
  },
  {
   "property": "C107",
   "status": "proved",
   "theorems": [
    "Verif.Cvx.c107_tau_bound",
    "Verif.Cvx.c107_tau_change",
    "Verif.Cvx.c107_start"
   ],
   "note": "For every feasible point, so also for the l1 minimiser."
  },
  {
   "property": "C108",
   "status": "proved",
   "theorems": [
    "Verif.Cvx.c108_weighted_duality"
   ],
   "note": ""
  },
  {
   "property": "C109",
   "status": "proved",
   "theorems": [
    "Verif.Pursuit.c109_omp_recovery",
    "Verif.Pursuit.c109_omp_operator_recovery"
   ],
   "note": "coherence condition (2K-1) mu < 1; exact arithmetic"
  },
  {
   "property": "C110",
   "status": "proved",
   "theorems": [
    "Verif.Pursuit.c110_iht_recovery"
   ],
   "note": "fixed step size; exact arithmetic"
  },
  {
   "property": "C111",
   "status": "proved",
   "theorems": [
    "Verif.Pursuit.c111_htp_contraction",
    "Verif.Pursuit.c111_htp_recovery",
    "Verif.Pursuit.c111_htp_exact",
    "Verif.Pursuit.c111_htp_finite"
   ],
   "note": "fixed step size; exact arithmetic; least squares by its documented contract"
  },
  {
   "property": "C112",
   "status": "proved",
   "theorems": [
    "Verif.Cvx.c112_yall1_recovery",
    "Verif.Cvx.c112_coherence"
   ],
   "note": "gamma between 0 and the golden ratio; exact arithmetic; iterates continued without the stopping test"
  },
  {
   "property": "C113",
   "status": "partial",
   "theorems": [
    "Verif.Block.c113_np_eq",
    "Verif.Block.c113_np_no_iterations",
    "Verif.Block.c113_np_returns",
    "Verif.Block.c113_np_zero_gamma_fails",
    "Verif.Block.c113_np_zero_gamma_arises",
    "Verif.Block.c113_lambda_rules",
    "Verif.Block.c113_gammas_em",
    "Verif.Block.c113_bo_options",
    "Verif.Block.c113_init"
   ],
   "note": "finiteness fails: a block scalar of zero makes every later value of bsbl_bo_np not a number (c113_np_zero_gamma_fails); the rest is proved"
  },
  {
   "property": "C114",
   "status": "partial",
   "theorems": [
    "Verif.Dict.c114_pass_unit_diagonal",
    "Verif.Dict.c114_pass_rank",
    "Verif.Dict.c114_small_frac_fails",
    "Verif.Dict.c114_loop_invariant",
    "Verif.Dict.c114_gram_sq",
    "Verif.Dict.c114_unit_atoms_iff",
    "Verif.Dict.c114_shrink_symmetric",
    "Verif.Dict.c114_pass_asymmetric",
    "Verif.Dict.c114_coherence_fails",
    "Verif.Dict.c114_unit_atoms_fails"
   ],
   "note": "the normalisation scales columns only, so the Gram matrix becomes asymmetric and the atoms lose their unit norm (c114_unit_atoms_fails); a small frame can become more coherent (c114_coherence_fails)"
  },
  {
   "property": "C115",
   "status": "partial",
   "theorems": [
    "Verif.Cluster.c115_fast_k_partial",
    "Verif.Cluster.c115_reported_fails",
    "Verif.Cluster.c115_rows",
    "Verif.Cluster.c115_sparse",
    "Verif.Cluster.c115_bipartite_fails"
   ],
   "note": "Holds for components that are not bipartite, for an exact Lanczos SVD; violated for bipartite components, where -1 is an eigenvalue and the k leading singular vectors may belong to one component"
  },
  {
   "property": "C116",
   "status": "partial",
   "theorems": [
    "Verif.Cvx.c116_stop",
    "Verif.Cvx.c116_stop_nonneg_partial",
    "Verif.Cvx.c116_terminates",
    "Verif.Cvx.c116_zero_start_fails",
    "Verif.Cvx.c116_start_scale_fails"
   ],
   "note": "Certificate proved without the sign constraint, and with it for the default gamma=1 or gamma in [0,1] with a nonnegative start; started at zeros the solver returns zeros at once (0/0 in the relative change), and x0 is not scaled by 1/b_max although b is"
  },
  {
   "property": "C117",
   "status": "partial",
   "theorems": [
    "Verif.Pursuit.c117_sp_contraction_partial",
    "Verif.Pursuit.c117_sp_recovery_partial",
    "Verif.Pursuit.c117_residual_bound",
    "Verif.Pursuit.c117_sp_exact_partial",
    "Verif.Pursuit.c117_sp_solve_partial",
    "Verif.Pursuit.c117_stability_fails"
   ],
   "note": "Proved when at least K atoms outside the support are correlated with the residual whenever the loop goes on. Without this the code violates the claim: it may select an atom twice, and the error does not go to zero with the noise, even for orthonormal atoms (c117_stability_fails)."
  },
  {
   "property": "C118",
   "status": "partial",
   "theorems": [
    "Verif.Pursuit.c118_cosamp_contraction_partial",
    "Verif.Pursuit.c118_cosamp_first",
    "Verif.Pursuit.c118_cosamp_recovery_partial",
    "Verif.Pursuit.c118_cosamp_exact_partial",
    "Verif.Pursuit.c118_cosamp_solve_partial",
    "Verif.Pursuit.c118_stability_fails"
   ],
   "note": "Proved when at least 2K atoms outside the support are correlated with the residual whenever the loop goes on. Without this the code violates the claim (c118_stability_fails)."
  },
  {
   "property": "C119",
   "status": "proved",
   "theorems": [
    "Verif.Problems.c119_signal",
    "Verif.Problems.c119_partition",
    "Verif.Problems.c119_fourth_difference",
    "Verif.Problems.c119_coefficients"
   ],
   "note": "draws are parameters"
  },
  {
   "property": "C120",
   "status": "proved",
   "theorems": [
    "Verif.Problems.c120_overlap",
    "Verif.Problems.c120_perfect"
   ],
   "note": "The support sizes, computed by num_largest_coeffs_for_energy_percent of cr.nimble, are arbitrary"
  },
  {
   "property": "C121",
   "status": "partial",
   "theorems": [
    "Verif.Lop.c121_times",
    "Verif.Lop.c121_linear",
    "Verif.Lop.c121_spread_partial",
    "Verif.Lop.c121_spread_fails",
    "Verif.Lop.c121_rows_equal",
    "Verif.Lop.c121_check_fails",
    "Verif.Lop.c121_check"
   ],
   "note": "Holds for one output row; with more rows every input is added to all the rows, so all rows of the output are equal; the value nt_out passes the check; trans is a stub that returns None, so no adjoint theorem can be stated"
  },
  {
   "property": "C122",
   "status": "partial",
   "theorems": [
    "Verif.Problems.c122_matrix_axis1",
    "Verif.Problems.c122_problem",
    "Verif.Problems.c122_solvable",
    "Verif.Problems.c122_adjoint",
    "Verif.Problems.c122_jit",
    "Verif.Problems.c122_shape_fails",
    "Verif.Lop.c09_windowed_frame",
    "Verif.Lop.c09_half_overlap"
   ],
   "note": "A.shape is (channels, coefficients) although A maps coefficient arrays to arrays with one row for each sample (c122_shape_fails); everything else proved"
  },
  {
   "property": "C123",
   "status": "proved",
   "theorems": [
    "Verif.Opt.c123_cg_rate",
    "Verif.Opt.c123_cg_residual",
    "Verif.Opt.c123_cg_iterations",
    "Verif.Opt.c123_pcg_rate",
    "Verif.Opt.c123_pcg_iterations"
   ],
   "note": ""
  },
  {
   "property": "C124",
   "status": "partial",
   "theorems": [
    "Verif.Sls.c124_power_eigenvector_rate",
    "Verif.Sls.c124_normest_rate",
    "Verif.Sls.c124_normest_converges",
    "Verif.Sls.c124_power_iterations_rate",
    "Verif.Sls.c124_power_iterations_converges",
    "Verif.Sls.c124_normest_early_stop_fails",
    "Verif.Sls.c124_power_indefinite_fails"
   ],
   "note": "rate and convergence proved; the error tolerance does not bound the error (diag(1,2) with start (1,1e-4) returns less than 1.01), and for indefinite operators power_iterations can return a number that is no eigenvalue"
  },
  {
   "property": "C125",
   "status": "proved",
   "theorems": [
    "Verif.Sls.c125_lsqr_rate",
    "Verif.Sls.c125_lsqr_residual",
    "Verif.Sls.c125_lsqr_gradient",
    "Verif.Sls.c125_lsqr_error",
    "Verif.Sls.c125_lsqr_iterations"
   ],
   "note": "exact arithmetic"
  },
  {
   "property": "C126",
   "status": "proved",
   "theorems": [
    "Verif.Opt.c126_iterations",
    "Verif.Opt.c126_stationary",
    "Verif.Opt.c126_least_squares",
    "Verif.Opt.c126_terminates",
    "Verif.Opt.c126_least_squares_solved"
   ],
   "note": "Exact real arithmetic; the curvature L is at most 5e4, the largest for which the 50 trials of the line search always reach an accepted step. Least squares with ‖A‖^2 <= L is an instance."
  },
  {
   "property": "C127",
   "status": "partial",
   "theorems": [
    "Verif.Tools.c127_every_state",
    "Verif.Tools.c127_history",
    "Verif.Tools.c127_signal_norm",
    "Verif.Tools.c127_mp_norm",
    "Verif.Tools.c127_spgl1_lasso",
    "Verif.Tools.c127_snr_partial",
    "Verif.Tools.c127_snr_fails",
    "Verif.Tools.c127_scaled_partial",
    "Verif.Tools.c127_scaled_fails",
    "Verif.Tools.c127_mp_fails"
   ],
   "note": "jax.debug.callback is taken to deliver each call once and in order. SP and CoSaMP report the problem scaled to |y| = 1, so the recorded norms and SNR are not those of the returned signal; matching pursuit never passes more and reports a stale residual norm; a zero error is rated below a tiny one."
  },
  {
   "property": "C128",
   "status": "proved",
   "theorems": [
    "Verif.Pursuit.c128_omp_noise",
    "Verif.Pursuit.c128_omp_operator_noise"
   ],
   "note": "exact arithmetic; matrix_solve needs K >= 2 (it raises for max_iters = 1); the self-stopping form needs K >= 2 because the first state stores |y|^2 as the squared residual"
  },
  {
   "property": "C129",
   "status": "proved",
   "theorems": [
    "Verif.Cvx.c129_yall1_noise",
    "Verif.Cvx.c129_yall1_penalised",
    "Verif.Cvx.c129_lasso_noise",
    "Verif.Cvx.c129_lasso_returns",
    "Verif.Cvx.c129_bpic_noise",
    "Verif.Cvx.c129_l1ls_noise"
   ],
   "note": "real data, exact arithmetic; YALL1 with gamma between 0 and the golden ratio, A with orthonormal rows; l1ls with its default start, before the iteration limit; BPIC after an iteration that raised tau"
  },
  {
   "property": "C130",
   "status": "proved",
   "theorems": [
    "Verif.Cluster.c130_selection",
    "Verif.Cluster.c130_preserving",
    "Verif.Cluster.c130_batch",
    "Verif.Cluster.c130_neighbour",
    "Verif.Cluster.c130_clustering",
    "Verif.Cluster.c130_clustering_random_walk"
   ],
   "note": "non-orthogonal subspaces, every K; least squares returns the minimum-norm solution (lstsq)"
  },
  {
   "property": "C131",
   "status": "partial",
   "theorems": [
    "Verif.Block.c131_em_partial",
    "Verif.Block.c131_bo_partial",
    "Verif.Block.c131_em_run_partial",
    "Verif.Block.c131_bo_run_partial",
    "Verif.Block.c131_em_fails",
    "Verif.Block.c131_bo_fails"
   ],
   "note": "Proved for block length one, per iteration (relative to the prior after pruning) and along whole runs without pruning. Refuted for block length two (c131_em_fails, c131_bo_fails): compute_cov_x adds a scalar to every entry."
  },
  {
   "property": "C132",
   "status": "proved",
   "theorems": [
    "Verif.Opt.c132_any_alpha",
    "Verif.Opt.c132_rate",
    "Verif.Opt.c132_lasso_any_alpha",
    "Verif.Opt.c132_lasso",
    "Verif.Opt.c132_l1rls"
   ],
   "note": "exact arithmetic; for alpha < 1 the bound does not go to zero, because the momentum parameter stays above 1 - alpha"
  },
  {
   "property": "C133",
   "status": "proved",
   "theorems": [
    "Verif.Cvx.c133_yall1_bp",
    "Verif.Cvx.c133_yall1_noise",
    "Verif.Cvx.c133_yall1_penalised",
    "Verif.Cvx.c133_lasso_noise",
    "Verif.Cvx.c133_lasso_returns",
    "Verif.Cvx.c133_bpic_noise",
    "Verif.Cvx.c133_l1ls_noise",
    "Verif.Cvx.c133_fom_lasso",
    "Verif.Cvx.c133_fom_l1rls",
    "Verif.Cvx.c133_coherence",
    "Verif.Sls.c133_ista_fista"
   ],
   "note": "real data, exact arithmetic; YALL1 with gamma between 0 and the golden ratio and A with orthonormal rows; first order solvers with alpha = 1; l1ls with its default start, before the iteration limit; BPIC after an iteration that raised tau"
  },
  {
   "property": "C134",
   "status": "proved",
   "theorems": [
    "Verif.Pursuit.c134_mp_rate",
    "Verif.Pursuit.c134_omp_oracle",
    "Verif.Pursuit.c134_omp_geometric",
    "Verif.Pursuit.c134_operator_solve"
   ],
   "note": "for OMP the residual must stay correlated with some atom, as the code breaks down otherwise (C46)"
  },
  {
   "property": "C135",
   "status": "proved",
   "theorems": [
    "Verif.Pursuit.c135_rip_of_coherence",
    "Verif.Pursuit.c135_rip_of_babel",
    "Verif.Problems.c135_dirac_cosine_coherence",
    "Verif.Problems.c135_dirac_fourier_coherence",
    "Verif.Problems.c135_omp_solves_prob003",
    "Verif.Problems.c135_l1_solves_prob003",
    "Verif.Problems.c135_htp_solves_prob004"
   ],
   "note": "The default sizes of the two generators draw more non-zero entries than the coherence bound covers; the theorems are about all draws within the bound. Hard thresholding pursuit is run with step one and any exact least squares routine."
  },
  {
   "property": "C136",
   "status": "proved",
   "theorems": [
    "Verif.Cvx.c136_lasso_terminates",
    "Verif.Cvx.c136_lasso_solves"
   ],
   "note": "with the default alpha_max = 1e5 the second theorem covers operators with squared norm up to about 0.01; for larger operators the first one leaves runs in which the line search keeps failing"
  },
  {
   "property": "C137",
   "status": "proved",
   "theorems": [
    "Verif.Cvx.c137_strict",
    "Verif.Cvx.c137_strict_default",
    "Verif.Cvx.c137_bounded",
    "Verif.Cvx.c137_limit_points",
    "Verif.Cvx.c137_converges",
    "Verif.Cvx.c137_converges_half",
    "Verif.Cvx.c137_converges_default",
    "Verif.Cvx.c137_stationary",
    "Verif.Cvx.c137_global",
    "Verif.Cvx.c137_sparse_fixed",
    "Verif.Cvx.c137_attracts"
   ],
   "note": "General position: no hyperplane through the origin contains m columns and y is no combination of fewer than m columns, as for c65_finite_partial. Exact arithmetic, real data. p = 1/2 needs a generic null space because the l1 minimiser need not be unique"
  },
  {
   "property": "C138",
   "status": "proved",
   "theorems": [
    "Verif.Pursuit.c138_omp_erc",
    "Verif.Pursuit.c138_omp_erc_necessary",
    "Verif.Pursuit.c138_omp_rip",
    "Verif.Pursuit.c138_omp_rip_noise",
    "Verif.Pursuit.c138_mp_rip",
    "Verif.Pursuit.c138_mp_coherence"
   ],
   "note": "Real Hilbert space. matrix_solve of omp.py for K at least 2 (with max_iters = 1 it raises), operator_solve with res_norm_rtol small enough. The restricted isometry property is assumed of the dictionary; c135_rip_of_coherence derives it from coherence."
  },
  {
   "property": "C139",
   "status": "proved",
   "theorems": [
    "Verif.Cvx.c139_accurate_runs",
    "Verif.Cvx.c139_terminates",
    "Verif.Cvx.c139_solves"
   ],
   "note": "Exact real arithmetic. The default xi = 1e-3 allows inner solves of relative residual up to 0.1, warm started, for which a descent direction is not guaranteed; the theorems require accurate directions (c139_accurate_runs) or xi = 0 with enough inner iterations. A positive dual value at the start is met by the default start when y is not 0."
  },
  {
   "property": "C140",
   "status": "partial",
   "theorems": [
    "Verif.Lop.c140_along",
    "Verif.Lop.c140_adjoint",
    "Verif.Lop.c140_inverse",
    "Verif.Lop.c140_bad_axis",
    "Verif.Lop.c140_branches_partial",
    "Verif.Lop.c140_branches_adjoint_partial",
    "Verif.Lop.c140_negative_axis_fails"
   ],
   "note": "matrix, sparse_real_matrix and restriction act along the second axis of a 2-D array when asked for axis -2 (the first one); everything else holds."
  },
  {
   "property": "C141",
   "status": "proved",
   "theorems": [
    "Verif.Cvx.c141_project",
    "Verif.Cvx.c141_project_at",
    "Verif.Cvx.c141_lasso_consistent",
    "Verif.Cvx.c141_lasso_certified",
    "Verif.Cvx.c141_lasso_stop",
    "Verif.Cvx.c141_lasso_decrease",
    "Verif.Cvx.c141_bp_consistent",
    "Verif.Cvx.c141_bp_certified",
    "Verif.Cvx.c141_bp_stop",
    "Verif.Cvx.c141_bp_tau_bound",
    "Verif.Cvx.c141_project_real",
    "Verif.Cvx.c141_lasso_real",
    "Verif.Cvx.c141_bp_real"
   ],
   "note": "The counters inherit the defects recorded under C61 and C62. solve_lasso itself starts from a real zero array and so rejects a complex operator by dtype (not modelled): the statements are about solve_lasso_from with a complex start."
  },
  {
   "property": "C142",
   "status": "partial",
   "theorems": [
    "Verif.Sls.c142_prox_l1",
    "Verif.Sls.c142_prox_l2",
    "Verif.Sls.c142_soft",
    "Verif.Sls.c142_lasso",
    "Verif.Sls.c142_lsqr",
    "Verif.Sls.c142_l1rls",
    "Verif.Sls.c142_proj_l1_ball_fails"
   ],
   "note": "Everything is proved except the projection onto the complex l1 ball, which the code violates: opt.proj_l1_ball shrinks by comparing complex numbers (c142_proj_l1_ball_fails). For l1rls the rate is for alpha = 1, as in C40 and C132."
  },
  {
   "property": "C143",
   "status": "proved",
   "theorems": [
    "Verif.Pursuit.c143_mp",
    "Verif.Pursuit.c143_omp_matrix",
    "Verif.Pursuit.c143_omp_operator",
    "Verif.Pursuit.c143_sp_matrix",
    "Verif.Pursuit.c143_sp_operator",
    "Verif.Pursuit.c143_cosamp_matrix",
    "Verif.Pursuit.c143_cosamp_operator",
    "Verif.Pursuit.c143_htp",
    "Verif.Pursuit.c143_iht",
    "Verif.Pursuit.c143_niht"
   ],
   "note": "MP and OMP are modelled on real data; the others on real or complex data. For the least-squares routine only its documented semantics is used (minimum-norm least squares solution, shown to be unique)."
  },
  {
   "property": "C144",
   "status": "proved",
   "theorems": [
    "Verif.Sls.c144_cg",
    "Verif.Sls.c144_pcg",
    "Verif.Sls.c144_lsqr",
    "Verif.Sls.c144_ista",
    "Verif.Sls.c144_fista"
   ],
   "note": "For ISTA and FISTA the thresholding step has to be that of the old problem in the new units (shown for soft thresholding), and the tolerance on the change of x has to be below the start value 1e10 of the reported change."
  },
  {
   "property": "C145",
   "status": "partial",
   "theorems": [
    "Verif.Lop.c145_gaussian",
    "Verif.Lop.c145_rademacher",
    "Verif.Lop.c145_sparse_binary",
    "Verif.Lop.c145_orthonormal_rows",
    "Verif.Lop.c145_onb",
    "Verif.Lop.c145_binary_partial",
    "Verif.Lop.c145_binary_shape_fails"
   ],
   "note": "Everything is proved except the shape reported by binary_dict_alg, which is transposed in the code (c145_binary_shape_fails). The orthonormal constructions need a draw of full rank (see C70)."
  },
  {
   "property": "C146",
   "status": "partial",
   "theorems": [
    "Verif.Pursuit.c146_iht",
    "Verif.Pursuit.c146_niht",
    "Verif.Pursuit.c146_htp",
    "Verif.Pursuit.c146_sp_partial",
    "Verif.Pursuit.c146_cosamp_partial",
    "Verif.Pursuit.c146_sp_fails",
    "Verif.Pursuit.c146_omp_matrix_partial",
    "Verif.Pursuit.c146_omp_operator_partial"
   ],
   "note": "Proved for IHT and HTP without restriction. For SP and CoSaMP the indices have to be distinct: a repeated index makes one coefficient overwrite another (c146_sp_fails). For OMP as long as the residual is correlated with some atom (C46)."
  },
  {
   "property": "C147",
   "status": "proved",
   "theorems": [
    "Verif.Pursuit.c147_iht_descent",
    "Verif.Pursuit.c147_iht_step",
    "Verif.Pursuit.c147_iht_rate",
    "Verif.Pursuit.c147_iht_converges",
    "Verif.Pursuit.c147_fixed_optimality",
    "Verif.Pursuit.c147_htp_descent",
    "Verif.Pursuit.c147_htp_repeats",
    "Verif.Pursuit.c147_htp_terminates",
    "Verif.Pursuit.c147_default_step"
   ],
   "note": "Fixed step. c50_default_step_fails shows that the default step without sigma at most one is not covered: the residual can grow."
  },
  {
   "property": "C148",
   "status": "proved",
   "theorems": [
    "Verif.Pursuit.c148_local",
    "Verif.Pursuit.c148_local_radius",
    "Verif.Pursuit.c148_global_fixed",
    "Verif.Pursuit.c148_iht_limit"
   ],
   "note": ""
  },
  {
   "property": "C149",
   "status": "proved",
   "theorems": [
    "Verif.Tools.c149_iht",
    "Verif.Tools.c149_iht_better",
    "Verif.Tools.c149_htp",
    "Verif.Tools.c149_sp",
    "Verif.Tools.c149_cosamp",
    "Verif.Tools.c149_greedy_operator",
    "Verif.Tools.c149_niht",
    "Verif.Tools.c149_normest",
    "Verif.Tools.c149_mp",
    "Verif.Tools.c149_omp_matrix",
    "Verif.Tools.c149_omp_operator",
    "Verif.Tools.c149_cg",
    "Verif.Tools.c149_pcg",
    "Verif.Tools.c149_lsqr",
    "Verif.Tools.c149_ista",
    "Verif.Tools.c149_ista_better",
    "Verif.Tools.c149_fista",
    "Verif.Tools.c149_fom",
    "Verif.Tools.c149_kmeans",
    "Verif.Tools.c149_spg",
    "Verif.Tools.c149_spgl1_lasso",
    "Verif.Tools.c149_yall",
    "Verif.Tools.c149_focuss",
    "Verif.Tools.c149_biht",
    "Verif.Tools.c149_bsbl"
   ],
   "note": "The BPIC root finding of SPGL1 is not covered: its inner tolerances enter the body."
  },
  {
   "property": "C150",
   "status": "partial",
   "theorems": [
    "Verif.Cluster.c150_error_partial",
    "Verif.Cluster.c150_range",
    "Verif.Cluster.c150_error_fails",
    "Verif.Cluster.exists_assignmentN"
   ],
   "note": "Different numbers of labels: refuted by c150_error_fails."
  },
  {
   "property": "C151",
   "status": "proved",
   "theorems": [
    "Verif.Dict.c151_range",
    "Verif.Dict.c151_uncertainty",
    "Verif.Dict.c151_unique",
    "Verif.Dict.c151_bases",
    "Verif.Dict.c151_dirac_hadamard",
    "Verif.Dict.c151_dirac_hadamard_unique"
   ],
   "note": ""
  },
  {
   "property": "C152",
   "status": "partial",
   "theorems": [
    "Verif.Lop.c152_rdot_partial",
    "Verif.Lop.c152_negative_fails",
    "Verif.Lop.c152_real_only",
    "Verif.Lop.c152_imaginary_fails"
   ],
   "note": "Refuted for negative products and for imaginary outputs."
  },
  {
   "property": "C153",
   "status": "proved",
   "theorems": [
    "Verif.Sls.c153_two_starts",
    "Verif.Sls.c153_minimizer_fixed",
    "Verif.Sls.c153_linear_rate",
    "Verif.Sls.c153_stop_accuracy",
    "Verif.Sls.c153_iterations",
    "Verif.Sls.c153_restart",
    "Verif.Sls.c153_support"
   ],
   "note": ""
  },
  {
   "property": "C154",
   "status": "partial",
   "theorems": [
    "Verif.Pursuit.c154_iht",
    "Verif.Pursuit.c154_htp",
    "Verif.Pursuit.c154_sp",
    "Verif.Pursuit.c154_sp_operator",
    "Verif.Pursuit.c154_cosamp",
    "Verif.Pursuit.c154_cosamp_operator",
    "Verif.Pursuit.c154_omp",
    "Verif.Pursuit.c154_omp_operator",
    "Verif.Pursuit.c154_mp",
    "Verif.Pursuit.c154_niht_partial",
    "Verif.Pursuit.c154_niht_fails"
   ],
   "note": "With normalized=True the claim is false: the second pass divides 0 by 0 (c154_niht_fails). Subspace pursuit needs 2K and CoSaMP 3K atoms correlated with the data; with fewer the code merges index lists that repeat atoms (see C47, C48)."
  },
  {
   "property": "C155",
   "status": "proved",
   "theorems": [
    "Verif.Cvx.c155_growth",
    "Verif.Cvx.c155_same",
    "Verif.Cvx.c155_close",
    "Verif.Cvx.c155_constrained",
    "Verif.Cvx.c155_from_lasso",
    "Verif.Cvx.c155_path",
    "Verif.Cvx.c155_zero",
    "Verif.Cvx.c155_ista_fista",
    "Verif.Cvx.c155_l1rls",
    "Verif.Cvx.c155_l1ls",
    "Verif.Cvx.c155_lambda_differs",
    "Verif.Cvx.c155_yall",
    "Verif.Cvx.c155_yall_con",
    "Verif.Cvx.c155_spgl1",
    "Verif.Cvx.c155_fom_lasso"
   ],
   "note": "l1ls documents its objective without the factor 1/2."
  },
  {
   "property": "C156",
   "status": "partial",
   "theorems": [
    "Verif.Cvx.c156_yall_units",
    "Verif.Cvx.c156_yall_sign",
    "Verif.Cvx.c156_yall_order",
    "Verif.Cvx.c156_focuss_units",
    "Verif.Cvx.c156_focuss_coordinates",
    "Verif.Cvx.c156_lasso_units_fails",
    "Verif.Cvx.c156_bpic_units_fails"
   ],
   "note": "Proved for YALL1 and FOCUSS; the code violates it for SPGL1 (both _fails theorems hold for every operator and every data array of small norm)."
  },
  {
   "property": "C157",
   "status": "proved",
   "theorems": [
    "Verif.Cvx.c157_minimizer",
    "Verif.Cvx.c157_constrained",
    "Verif.Cvx.c157_ista_fista",
    "Verif.Cvx.c157_two_iterations",
    "Verif.Cvx.c157_solvers"
   ],
   "note": ""
  },
  {
   "property": "C158",
   "status": "partial",
   "theorems": [
    "Verif.Cs1bit.c158_subgradient",
    "Verif.Cs1bit.c158_violation",
    "Verif.Cs1bit.c158_step_size",
    "Verif.Cs1bit.c158_consistent_partial",
    "Verif.Cs1bit.c158_unrestricted",
    "Verif.Cs1bit.c158_consistent_fails"
   ],
   "note": "Convergence proved for K = n; for K < n the code can cycle for ever (c158_consistent_fails)."
  },
  {
   "property": "C159",
   "status": "partial",
   "theorems": [
    "Verif.Cluster.c159_kmeans_similarity",
    "Verif.Cluster.c159_kmeans_select",
    "Verif.Cluster.c159_kmeans_order",
    "Verif.Cluster.c159_kmeans_translation_partial",
    "Verif.Cluster.c159_kmeans_translation_fails",
    "Verif.Cluster.c159_kmeans_units_fails",
    "Verif.Cluster.c159_kmeans_units_witness",
    "Verif.Cluster.c159_ssc_similarity"
   ],
   "note": "The code violates the translation part for empty clusters (they get the origin as centroid) and the unit part for an unchanged threshold."
  },
  {
   "property": "C160",
   "status": "partial",
   "theorems": [
    "Verif.Block.c160_coordinates",
    "Verif.Block.c160_block_order",
    "Verif.Block.c160_units_fails",
    "Verif.Block.c160_units_large"
   ],
   "note": "The code violates the unit part."
  },
  {
   "property": "C161",
   "status": "partial",
   "theorems": [
    "Verif.Pursuit.c161_iht",
    "Verif.Pursuit.c161_niht",
    "Verif.Pursuit.c161_htp",
    "Verif.Pursuit.c161_sp_matrix",
    "Verif.Pursuit.c161_sp_operator",
    "Verif.Pursuit.c161_cosamp_matrix_partial",
    "Verif.Pursuit.c161_cosamp_operator_partial",
    "Verif.Pursuit.c161_cosamp_fails",
    "Verif.Pursuit.c161_mp",
    "Verif.Pursuit.c161_omp_matrix",
    "Verif.Pursuit.c161_omp_operator",
    "Verif.Pursuit.c161_mp_order",
    "Verif.Pursuit.c161_omp_matrix_order",
    "Verif.Pursuit.c161_omp_operator_order",
    "Verif.Pursuit.c161_order_fails"
   ],
   "note": "The code violates the CoSaMP part (support sorted without coefficients in init) and, on ties, the order part."
  },
  {
   "property": "C162",
   "status": "proved",
   "theorems": [
    "Verif.Cvx.c162_lasso",
    "Verif.Cvx.c162_bpic",
    "Verif.Cvx.c162_l1ls",
    "Verif.Cvx.c162_l1ls_solve"
   ],
   "note": ""
  },
  {
   "property": "C163",
   "status": "partial",
   "theorems": [
    "Verif.Opt.c163_projectors",
    "Verif.Opt.c163_center_fails",
    "Verif.Opt.c163_proximal",
    "Verif.Opt.c163_owl1",
    "Verif.Opt.c163_moreau",
    "Verif.Opt.c163_conic",
    "Verif.Opt.c163_huber",
    "Verif.Opt.c163_envelope"
   ],
   "note": "Proved for all of them except the l2 ball projector with a centre, where the code violates it (c163_center_fails)."
  },
  {
   "property": "C164",
   "status": "proved",
   "theorems": [
    "Verif.Cvx.c164_lasso_terminates",
    "Verif.Cvx.c164_lasso_solves",
    "Verif.Cvx.c164_spectral_step",
    "Verif.Cvx.c164_projected_step",
    "Verif.Cvx.c164_stop_gap",
    "Verif.Cvx.c164_solve_bp"
   ],
   "note": "as for C136, with the default alpha_max the second theorem covers operators of small norm only; for larger operators the first one leaves runs in which the line search keeps failing"
  },
  {
   "property": "C165",
   "status": "proved",
   "theorems": [
    "Verif.Cvx.c165_lasso",
    "Verif.Cvx.c165_bpic"
   ],
   "note": ""
  },
  {
   "property": "C166",
   "status": "proved",
   "theorems": [
    "Verif.Pursuit.c166_sp",
    "Verif.Pursuit.c166_cosamp",
    "Verif.Pursuit.c166_omp"
   ],
   "note": ""
  },
  {
   "property": "C167",
   "status": "proved",
   "theorems": [
    "Verif.Lop.c167_rewrite"
   ],
   "note": ""
  },
  {
   "property": "C168",
   "status": "proved",
   "theorems": [
    "Verif.Cvx.c168_solutions",
    "Verif.Cvx.c168_ista_fista",
    "Verif.Cvx.c168_l1ls",
    "Verif.Cvx.c168_spgl1",
    "Verif.Cvx.c168_yall",
    "Verif.Cvx.c168_l1rls"
   ],
   "note": ""
  },
  {
   "property": "C169",
   "status": "proved",
   "theorems": [
    "Verif.Pursuit.c169_omp",
    "Verif.Pursuit.c169_omp_operator",
    "Verif.Pursuit.c169_mp",
    "Verif.Pursuit.c169_tie_fails"
   ],
   "note": "c169_tie_fails shows that the margin in the statement is needed"
  },
  {
   "property": "C170",
   "status": "proved",
   "theorems": [
    "Verif.Cluster.c170_iterations",
    "Verif.Cluster.c170_result",
    "Verif.Cluster.c170_tie_fails"
   ],
   "note": "c170_tie_fails shows that the margin in the statement is needed"
  },
  {
   "property": "C171",
   "status": "proved",
   "theorems": [
    "Verif.Pursuit.c171_iht",
    "Verif.Pursuit.c171_htp",
    "Verif.Pursuit.c171_sp",
    "Verif.Pursuit.c171_cosamp",
    "Verif.Pursuit.c171_sp_operator",
    "Verif.Pursuit.c171_cosamp_operator",
    "Verif.Pursuit.c171_tie_fails"
   ],
   "note": "c171_tie_fails shows that the condition on ties is needed"
  },
  {
   "property": "C172",
   "status": "proved",
   "theorems": [
    "Verif.Cluster.c172_representation",
    "Verif.Cluster.c172_batch",
    "Verif.Cluster.c172_affinity",
    "Verif.Cluster.c172_clustering",
    "Verif.Cluster.c172_clustering_random_walk",
    "Verif.Cluster.c172_tie_fails"
   ],
   "note": "the bound on the noise is shown to exist, not computed; c172_tie_fails shows that the condition on ties is needed"
  },
  {
   "property": "C173",
   "status": "proved",
   "theorems": [
    "Verif.Pursuit.c173_omp",
    "Verif.Pursuit.c173_omp_operator",
    "Verif.Pursuit.c173_mp"
   ],
   "note": "the bound is shown to exist, not computed; that ties must be excluded is c169_tie_fails"
  },
  {
   "property": "C174",
   "status": "proved",
   "theorems": [
    "Verif.Pursuit.c174_iht",
    "Verif.Pursuit.c174_htp",
    "Verif.Pursuit.c174_sp",
    "Verif.Pursuit.c174_cosamp",
    "Verif.Pursuit.c174_sp_operator",
    "Verif.Pursuit.c174_cosamp_operator"
   ],
   "note": "the neighbourhood is shown to exist, not computed; that ties must be excluded is c171_tie_fails"
  },
  {
   "property": "C175",
   "status": "proved",
   "theorems": [
    "Verif.Cs1bit.c175_measure",
    "Verif.Cs1bit.c175_biht",
    "Verif.Cs1bit.c175_measured",
    "Verif.Cs1bit.c175_zero_fails"
   ],
   "note": "the neighbourhood is shown to exist, not computed; c175_zero_fails shows that zero measurements must be excluded"
  },
  {
   "property": "C176",
   "status": "proved",
   "theorems": [
    "Verif.Cs1bit.c176_rfp",
    "Verif.Cs1bit.c176_undefined_fails"
   ],
   "note": "the neighbourhood is shown to exist, not computed"
  },
  {
   "property": "C177",
   "status": "proved",
   "theorems": [
    "Verif.Cs1bit.c177_rfp",
    "Verif.Cs1bit.c177_guess"
   ],
   "note": ""
  },
  {
   "property": "C178",
   "status": "proved",
   "theorems": [
    "Verif.Cs1bit.c178_measure",
    "Verif.Cs1bit.c178_biht"
   ],
   "note": "the order of the atoms is not included: it decides ties"
  },
  {
   "property": "C179",
   "status": "proved",
   "theorems": [
    "Verif.Sls.c179_ista",
    "Verif.Sls.c179_uniform",
    "Verif.Sls.c179_solutions"
   ],
   "note": "the bound grows with k only when the operator is not bounded below"
  },
  {
   "property": "C180",
   "status": "proved",
   "theorems": [
    "Verif.Opt.c180_cg",
    "Verif.Opt.c180_pcg",
    "Verif.Opt.c180_tie_fails"
   ],
   "note": "pcg with an explicit preconditioner; without one it runs as cg (C38)"
  },
  {
   "property": "C181",
   "status": "proved",
   "theorems": [
    "Verif.Sls.c181_ista",
    "Verif.Sls.c181_fista"
   ],
   "note": "hard thresholding is not continuous and is not covered"
  },
  {
   "property": "C182",
   "status": "proved",
   "theorems": [
    "Verif.Cvx.c182_focuss",
    "Verif.Cvx.c182_singular_fails"
   ],
   "note": "p = 0 is excluded: the code then computes 0 ** 0"
  },
  {
   "property": "C183",
   "status": "proved",
   "theorems": [
    "Verif.Cvx.c183_loop",
    "Verif.Cvx.c183_solve"
   ],
   "note": "real arrays; no sparsifying basis"
  }
 ]
}