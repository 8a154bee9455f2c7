# Design of the formal model of cr-sparse

## Conventions

* Lean 4.33.0 + Mathlib (imported module by module).  All sources live in `lean/Verif/`.
* One folder per area.  In each area
  * `*Model.lean`  – the functions of the code, each with a comment citing file and lines (paths relative to `/repo/src/cr/sparse/_src`);
  * `*Spec.lean` (or a `Spec` section at the top of the property file) – the small independent specification;
  * `*Lemmas.lean` – helper lemmas;
  * `*Props.lean`  – the property theorems, with an `example` beside each one showing that its hypotheses can be met.
* Arrays of length `n` are functions `Fin n → K` (shape is carried by the type), or `List K` where the code slices,
  sorts or concatenates and the length arithmetic is itself at stake.
* `lax.while_loop(cond, body, init)` is the reachability relation `Loop.Reach cond body init s`
  (every state the loop header sees), and `Loop.Out` (a reached state at which `cond` is false).
  Existence and uniqueness of the output is a theorem whenever the code has an iteration cap.
* Exceptions (`raise`, failed `assert`) are `Option`/`Except` values.
* External routines (PRNG draws, `lstsq`, `solve`, `svd`, `qr`, `cr.wavelets` one-level transforms,
  `linear_sum_assignment`, `fft`) are parameters.  The behaviour assumed of them appears as an explicit hypothesis
  of the theorem; none is an axiom.

## Trusted base

* Lean's kernel, and the axioms `propext`, `Classical.choice`, `Quot.sound` (no others; `vcheck` verifies this).
* The reading of the Python source into the model (the code is not executed here).
* Arithmetic is exact: floats are idealised as `ℝ` or `ℂ` (or an arbitrary commutative ring with involution where
  nothing more is needed).  Rounding, overflow and JIT compilation are **not** modelled.  A division by zero, the square root of
  a negative number and similar sources of `nan`/`inf` are modelled as `none` (or as an explicit infinite value) wherever a theorem
  depends on them; the comments of the definitions say so.
* Array semantics of JAX/NumPy relied upon: `x.at[I].set(v)` keeps the last of several writes to one place, `.add` accumulates, scatters
  out of range are dropped, gathers out of range are clamped, negative indices wrap, writing complex values into a real array drops the
  imaginary part (a parameter `cast`); `argsort` is stable, `argmax`/`argmin` return the first optimum, `argmax` of an array with `nan`
  returns the `nan`; `round` goes to even on ties; `linspace`, `percentile` (linear interpolation), `intersect1d`, `reshape` in C order,
  `conv_general_dilated` as zero padded correlation; `lax.while_loop`, `fori_loop`, `switch` (clamped index), `vmap` as entrywise application.
* PRNG draws are arbitrary parameters. `random.split` is an arbitrary function of the key; nothing is assumed of distributions.
* The contracts of the external routines, which appear as hypotheses of the theorems or as the definition of the modelled call:
  * factorisations: least squares (`IsLstsq`), QR (`IsQR`), SVD (`IsFullSvd`, `IsThinSvd`, `IsSvd`, `IsSquareSvd`, `IsGSvd`, `IsLeadingSvd` for
    the exact leading triplets asked of `lansvd`), `cholesky` (`IsCholesky`: the lower factor of the symmetrised argument, `nan` when it
    is not positive definite), triangular solves and `solve_spd_chol` on regular triangular factors, `solve`/`inv` (`LinAlgOk`);
  * the assignment solver (`IsAssignment`), the fast Walsh-Hadamard transform (`IsWalshHadamard`), the one-level wavelet transforms
    (`OneLevel`), `fft`/`ifft`/`dct` by their documented formulas;
  * the `cr.nimble.svd` helpers `reorth_mgs` (`ReorthOk`), `do_elr` (`ElrOk`), `bpro_norm_estimate` (positive) and `bdsqr` (`BdsqrOk`);
  * the small helpers of `cr.nimble` (norms, `arr_rdot`, `normalize_l2_cw`/`_rw` with `nan` for zero columns/rows, `hard_threshold`,
    `largest_indices`, `num_largest_coeffs_for_energy_percent`, helpers of `project_to_l1_ball`), by their documented meaning.

## Modelled

Every function of `src/cr/sparse/_src` that is not listed below; each definition of a `*Model.lean` file cites the file and lines it
stands for.  The matrix pursuit solvers (`omp`, `cosamp`, `sp`, `iht`, `htp`) are modelled for real data except where a theorem says
otherwise (`Pursuit/OmpComplexModel`).

## Not modelled

* Plots, notebooks, examples, printing and `__str__` methods, timing, compiled variants (`*_jit`) apart from their being the same function.
* Stubs: `dictlearn/standard.py`, `fom/focs_at.py`, `opt/proximal.py`.
* `vision/transform` (the files are empty), trackers that only print.
* Reading of files: audio samples of problem 401, `signals.blocks` of `cr.nimble` (arbitrary signals), CSV formatting (the table itself is modelled).

## Disagreements between the listed properties and the code

Each one is proved (a theorem named `…_fails`), next to the part that does hold.

* C03 `restriction` with a repeated index: `trans` overwrites instead of accumulating, so it is not the adjoint
  (`c03_restriction_adjoint_iff`).
* C05 `first_derivative(kind="centered")`: `trans` forgets the division by `dx` (`c05_centered_fails`) and returns a real array also for complex data (`c05_centered_complex_fails`).
* C06 `tv2D.trans` does not conjugate the imaginary unit it multiplies the vertical differences with
  (`c06_tv2D_fails`).
* C09 `windowed_op.trans` stores the blocks in a real array: complex operators lose the imaginary part
  (`c09_complex_fails`).
* C11 the flags of `Operator` are not preserved by the algebra (`c11_flags_fail`).
* C12 `diagonal(d)` with complex `d` is flagged real, so `.T` is the adjoint instead of the transpose
  (`c12_complex_diagonal_fails`).
* C18 filters longer than the signal produce an output of the wrong length (`c18_long_filter_fails`).
* C19 the dot tests accept any pair when the mean of the two inner products is negative (`c19_dot_test_fails`).
* C20 `dwt(level=0)` is accepted but `trans` does not invert `times` (`c20_level_zero_fails`).
* C15 `lop.fft` in its real-to-complex mode drops the imaginary part of a complex input, so it is an adjoint pair only on
  real inputs (`c15_r2c_partial`, `c15_r2c_fails`).
- **C26** `proj_l2_ball(q, b)` with a centre `b` scales to radius `q - 1e-7` (projectors/lpballs.py); the result is not the nearest point of the
  ball, and for `q < 5e-8` it is outside the ball. `c26_center_fails`.
- **C29** `indicator_affine` accepts `x` when `‖Ax-b‖` is below a relative tolerance 1e-10, so it is 0 at points off the set.
  `c29_affine_fails`.
- **C33** `prox_owl1` never stops, in exact arithmetic, for `x=(5,5,5)`, `lambda=(2,2,0)`, `t=1`: equal neighbouring segments are not merged, and
  the averages of `{1,2}` and `{0,1}` alternate for ever. In floating point the loop ends only when rounding makes the values equal.
  `c33_owl1_diverges`. When the loop stops the result is right (`c33_prox_owl1_partial`).
- **C34** `build_from_prox` of the Moreau envelope returns `f(p) + ½‖p-x‖²` where the envelope whose gradient it returns has `1/(2mu)`.
  `c34_value_fails`.
- **C35** `smooth_quad_matrix` returns gradient `P@x + q`, which is the gradient of `½xᵀPx + qᵀx` only when `P` is symmetric.
  `c35_quad_matrix_fails`.
- **C23** `normest` with `max_iters = 0` returns `1e10` for every operator, and the zero operator gives `nan` (0/0).
  `c23_normest_zero_iters_fails`, `c23_normest_zero_operator_fails`.
- **C39** the interpolation formula of the `spg` line search lacks the factor `delta`, so its branch is never used and the search always halves
  (`c39_line_search_halves`); the first step has no line search.
- **C40** the state field `C_x`, documented as the value of `h` at `x`, keeps the value at the starting point. `c40_Cx_fails`.
- **C42** the residual (and its norm, used by the stopping rule) returned by `fista` is `b - A z` for the extrapolated point, not `b - A x`.
  `c42_fista_residual_fails`.
- **C81** the documentation of `scd` speaks of the smoothing term `mu/2 |x-x0|²`; `smooth_dual` uses `1/(2 mu) |x-x0|²`. The option `maximize`
  set by `scd` is never read by `fom`.
- **C44** the field `r_norm_sqr` of the `mp` state always holds `|y|²`, so the tolerance never stops the loop and `max_iters` iterations are always run.
  `c44_reported_norm`, `c44_reported_norm_fails`.
- **C45, C46** `omp.matrix_solve` with `max_iters = 1` raises (unbound `k`); after an exact fit it selects an atom again and the Cholesky pivot is zero
  (`c46_zero_residual_fails`); `omp.operator_solve` reports `|y|²` as squared residual norm for `K = 1` (`c46_operator_K1_fails`).
- **C47** the first state of CoSaMP sorts the support but not the coefficients. `c47_first_state_fails`.
- **C48** SP (and CoSaMP) can select an atom twice when fewer than `K` (`2K`) atoms outside the support are correlated with the residual.
  `c48_distinct_fails`.
- **C50** the default step of IHT and HTP is `0.98/σ_max`, not `/σ_max²`; the residual can grow. `c50_default_step_fails`.
- C57: `best_map` with different numbers of labels in the two labelings skips labels or clamps indices, so the result is not an optimal relabelling (`c57_best_map_fails`).
- C58: for a repeated index within a column `sparse_to_full_rep` keeps the last value while the `BCOO` form adds them (`c58_repeated_index_fails`).
- C59: `build_representation_omp` fits the raw data columns while `batch_build_representation_omp` fits the normalised ones, so coefficients and residuals differ by the column norm (`c59_batch_fails`); the chosen indices are equal.
- C60: `spr_flag` can be true while `spr_error` is 1 (`c60_flag_fails`), and the sparse statistics count out-of-cluster coefficients below 1e-3 as in-cluster, unlike the dense ones (`c60_sparse_fails`).
- C66: `coherence_with_index` reports the pair (0,0) for a dictionary with orthogonal atoms (`c66_index_fails`) and takes the largest real part rather than the largest modulus of a complex Gram matrix (`c66_complex_fails`).
- C70: `random_orthonormal_rows` is orthonormal only when the Gaussian draw has independent rows; a dependent draw gives a zero column under the sign fix (`c70_orthonormal_fails`).
- C74: when the block length does not divide n the remainder at the end belongs to no block (`c74_remainder_uncovered`).
- C71: the bi-uniform and bi-constant signals multiply the magnitude by `sign` of a normal draw, so a zero draw gives a zero entry (`c71_biuniform_fails`).
- C72: `three_subspaces_at_angles` gives nan at angle 0 (`c72_three_zero_fails`) and for cos theta < -1/2; with N < 2D the bases are shorter than D.
- C76: the sets T0 and T1 of `RecoveryPerformance` overlap when fewer than K errors lie outside T0, e.g. for an exact estimate (`c76_partition_fails`); K = 0 divides by zero.
- C77: `sign(0) = 0`, so measurements are not always +-1 (`c77_measure_values_fails`); the RFP step moves along the ascent direction (`c77_rfp_descent_fails`); the updated `lambda_` is not used; BIHT does not normalise its result.
- C79: the `sigma` argument of the Gaussian kernel is twice its standard deviation (`c79_sigma_fails`).
- C22: `transpose` of an operator which is not flagged real takes the conjugate transpose of a 2-D input, so it does not act column by column (`c22_complex_transpose_fails`); `pad_zeros` pads both axes (`c22_pad_zeros_fails`); the derivatives and `real_matrix` raise on 2-D inputs although they are flagged matrix safe.
- C82: `lsqr` reports the distance of `x` from `x0` as `x_norm`, which is not the norm of the solution when `x0` is not zero (`c82_x_norm_fails`); the same number enters the stopping test.
- C61: `solve_lasso` adds the line search rounds to `n_trans`, although only `times` is called there (`c61_counters_fails`).
- C62: an iteration of `solve_bpic` which reduces `tau` reports the residual norm from before the projection (`c62_r_norm_fails`); `n_times` and `n_trans` start at 2 although each operator is called once (`c62_counters`); when `r_norm < sigma` at the start, the first state has a `tau` below the l1 norm of its `x`.
- C63: started elsewhere than at zero, `l1ls.solve_from` may find a negative dual value; the relative gap is then negative and the start is returned at once (`c63_start_fails`). `l1ls.solve(x0=...)` without `u0` uses `u0 = 1`, which is not strictly feasible for a start with an entry of magnitude 1 or more.
- C84: `l1ls` does not count the call of `trans` in `get_nu` (`c84_counters_fails`).
- YALL1 (cvx/adm/yall1.py:540-547) clips the solution of a `nonneg` problem after its residual was computed, so `r = b - A x` may fail for the returned pair
  (`c64_residual_fails`).
- YALL1 (cvx/adm/yall1.py:494-503): the test for a zero solution of the penalised problem compares `|A^T b|_inf` with `rho` without the weights; with a weight
  below one it returns zero although zero is not a solution (`c64_zero_weights_fails`). With both `rho` and `delta` positive the test uses `delta` although the
  penalised problem is solved.
- YALL1: iterations are done in pairs, so `iterations` may exceed `max_iters` by one (`c64_terminates` states the bound `max_iters + 1`).
- FOCUSS (cvx/focuss.py): once an iterate has exact zeros the reweighted Gram matrix may be singular although the dictionary has full row rank; the next iterate is then not
  finite (`c65_finite_fails`).
- BSBL (block/bsbl.py:167-171): inside `vmap` the mean is one-dimensional, so `mx @ mx.T` is an inner product; `compute_cov_x` adds the squared norm of the mean to every
  entry instead of the outer product (`c73_second_moment_fails`).
- BSBL (block/bsbl.py:206-215): the rule for high signal to noise ratios divides by the scalars of all blocks, also of pruned ones, whose scalar is zero; with the documented
  options the solution becomes not finite (`c88_high_snr_fails`).
- BSBL (block/bsbl.py:281-298): the scalar of a block with only zero columns is 0/0 in `bsbl_bo` (`c88_bo_zero_block_fails`).
- BSBL (block/bsbl.py:43-48): `sqrtm_svd` is documented for symmetric matrices, but is a square root only for positive semidefinite ones (`c89_sqrt_fails`).
- BSBL (block/bsbl.py:503, 631): `learn_block_corr` is read but never used (`c90_block_corr_fails`).
- SSC-OMP (cluster/ssc/omp.py): once the residual of a column is zero, the next atom selected can be the column itself or a repeated one (`c91_self_fails`).
- SSC (cluster/ssc/util.py:171-178): `sorted_neighbors` drops the first index of every row, which for repeated points need not be the point itself (`c92_sorted_fails`).
- SSC (cluster/ssc/util.py:181-186): `inn_positions` reports position 0 for a point without neighbour in its own cluster (`c92_inn_position_fails`).
- **C93** `scd` (fom/scd.py:113-115): the smoothed dual is concave and must be maximised, but `fom` ignores `options.maximize` and minimises it; it also applies `A` where the dual needs its adjoint, and `smooth_dual` uses the quadratic weight `1/(2 mu)` where the documentation has `mu/2`. On the line no recovered point is ever feasible (`c93_bp_scd_fails`, `c93_dantzig_scd_fails`).
- C94: `new_p_vec` (lanbpro.py:365-395) and `new_r_vec` (400-430) draw `A x` for random `x`, orthogonalise against the columns so far and divide by the norm: when the columns span the range the norm is 0 and the new vector NaN (`c94_exhausted_fails`; every 1 × 1 matrix: `c94_one_by_one_fails`; the next iteration spreads the NaN to everything).
- lanbpro.py:305 reorthogonalises `p` against the old `indices` although the new `reorth_indices` have just been computed, and line 312 stores the updated `mu` in `nu`; both are modelled as they are, and do not matter in exact arithmetic (`c94_bidiagonal_partial` holds for all estimates).
- C95: `U = state.U[:, :j] @ P[:j, :]` (lansvd.py:80) drops the last row of `P`; the term `p/‖p‖ P[j, :]` is missing, so the left vectors are too short and `A V_i ≠ S_i U_i` even when `S`, `V` are exact (`c95_left_vectors_fail`, a 3 × 2 matrix).
- C95: when the range of `A` is exhausted `state.p` is NaN (C94), so the bounds are NaN and `n_converged = 0` although the triplets are exact (`c95_count_fails`, all 1 × 1 matrices).
- C96: `unnormalized` and `normalized_random_walk` look for the largest drop in `S[:-1]`; the drop to the last singular value is left out, so a connected graph is always split (`c96_auto_connected_fails`), and a larger drop elsewhere wins (`c96_auto_gap_fails`: a path of three nodes and an isolated node is given three clusters).
- C97: `dwt2D` with `axes=(1,0)` pads and crops axis 0 with the sizes of axis 1 and conversely (lop/dwt.py:209, 222); for a 2 × 4 array `trans` returns a 2 × 2 array (`c97_axes_fails`). With three or more dimensions `jnp.pad` is given two pairs and raises.
- C98: `half_threshold_percentile` returns NaN at the zero entries when the percentile of the magnitudes is 0, i.e. for sparse inputs (`c98_half_fails`; `half_threshold(0, 0)` evaluates `arccos(0 * inf)` and keeps it because `|x| >= gamma`).
- C100: `convolveND` does not conjugate a complex filter in the backward direction (`c100_complex_fails`); an origin at or beyond the end of the filter returns an array shorter than the declared shape (`c100_offset_fails`); axes given out of order return an array of the wrong shape (`c100_axes_fails`).
- C101: `dot` documents `v^H x` and returns its real part (`c101_complex_fails`); its `axis` argument can never take effect because of the shape assertion.
- C105: `lower_frame_bound` of a dictionary with more rows than columns is not a lower frame bound (`c105_lower_bound_fails`); `frame` drops the imaginary part (`c105_complex_fails`).
- C106 (`tools/trials_at_fixed_m_n.py`): the signal keys are split into `num_dict_trials` entries but indexed by the signal number, so all signals past that number repeat the last one (`c106_signals_fails`); with the documented `num_dict_trials = 1` every trial of a level is the same instance and the success rate is 0 or 1. With two dictionaries the signal keys of a level are the dictionary keys of the next (`c106_fresh_fails`). One trial per level divides by zero (`c106_single_trial_fails`).
- C113: `bsbl_bo_np` (bsbl.py:730) divides by the block scalars without a guard. A block whose measurements are explained by the others gets the scalar zero, and from then on, for blocks of length two or more, every value is not a number (`c113_np_zero_gamma_fails`). `update_lambda_rule_nojit` treats a negative `learn_lambda` as the high-SNR rule while `lax.switch` in the jittable version clamps it to "do not learn".
- **C114** `build_grassmannian_frame` normalises with `d2 * g * d2`, which scales the columns twice and the rows never; the Gram matrix becomes asymmetric and the returned atoms do not all have unit norm. `c114_unit_atoms_fails`. With `round((1-frac)*n_off) - 1 = -1` the lower threshold wraps round to the largest entry and the coherence grows. `c114_coherence_fails`.
- **C49/C50** `normalized=True` divides by `|Phi_I h_I|²` for the previous support: for HTP this is `0/0` from the second pass on (in exact arithmetic), for IHT at the start when the signal is orthogonal to the first K atoms. `c49_nhtp_undefined`, `c50_niht_fails`.
- C115: the fast spectral clustering functions take the k leading right singular vectors of D^(-1/2) W D^(-1/2). A bipartite component has the singular value 1 twice (eigenvalues 1 and -1), so for graphs with bipartite components the k leading vectors need not separate the components, and rows of the kernel can be zero, which makes the row normalisation divide zero by zero (c115_bipartite_fails, two stars).
- C116: yall1 solve started with x0 = zeros returns zeros with 0 iterations for every problem, because the relative change 0/0 is nan and the loop condition is false (c116_zero_start_fails). A given x0 is not divided by b_max like b, so it is not the starting point in the user's units (c116_start_scale_fails).
- `dict/grass.py` (C114): for a `frac` so small that `round(frac * (n² - n))` is 0 the index `upper_ind = -1` wraps round to the largest inner product, so no inner product is shrunk (`c114_small_frac_fails`).
- `spread_with_table` (C121): `y.at[:, indices].add(value * not_nan)` adds to every row of the output, not to row k at column table[ix, it, k] (`c121_spread_fails`, `c121_rows_equal`); the check `table > nt_out` lets nt_out through, which is then dropped (`c121_check_fails`); `trans` is `pass`; `np.int` was removed in NumPy 1.24.
- Problem 401 (C122): `compose(Phi, Psi, ignore_compatibility=True)` gives `A.shape = (channels, n)`, although `A.times` returns arrays with as many rows as samples (`c122_shape_fails`).
- **C45** for complex data `gram_chol_update` uses `w` and `w.T @ w` where `conj(w)` and `vdot(w, w)` are needed, so the coefficients of complex OMP are not the least-squares solution from the second atom on (`c45_complex_fails`); they are when the Gram matrix of the atoms is real (`c45_complex_partial`).
- **C124** `error_tolerance` is a tolerance on the change of the estimate, not on its error: `normest` of `diag(1, 2)` started at `(1, 1e-4)` stops after two iterations with an estimate below 1.01 although the norm is 2 (`c124_normest_early_stop_fails`). `power_iterations` on a symmetric operator with eigenvalues 1 and -1 can return 0 (`c124_power_indefinite_fails`).
- **C117/C118** subspace pursuit and CoSaMP choose new atoms with `largest_indices` even when fewer than K (2K) atoms outside the support are correlated with the residual. Atoms of the support can then be chosen again, the minimum norm least squares solution splits their coefficients, and the returned signal is wrong by a fixed amount however small the noise is (`c117_stability_fails`, `c118_stability_fails`).
- C15: with `axis=1` `lop.fft` transforms the rows, but `trans` returns `x[:m]`, which crops the rows (`c15_axis_fails`).
- C76: `RecoveryPerformance(Phi, y, x, sol=sol)` tests `'x' in sol`; membership in a named tuple compares with its values, so the test is false for every solver result and a result without `I` raises (`c76_solution_fails`).
- C77: `rfp` with `outer_iters = 0` raises (unbound `state`).
- `Operator.apply_columns` (lop/lop.py:110-114) uses an undefined name `I` and raises for every input; `proj_box_affine` (opt/projectors/basic.py:126-161) and `prox_l1` (opt/proximal.py:19-22) return `None` for every input. They are not modelled.
- C127: `sp.operator_solve` and `cosamp.operator_solve` report states of the problem scaled to `|y| = 1` to the tracker and scale only the returned solution back: the recorded norms are too small by the factor `|y|` and the SNR against the true signal is meaningless (6 dB for an exact recovery in `c127_scaled_fails`).
- C127: `mp.solve` and `mp.matrix_solve` call the tracker without `more`, so every state is announced as converged and printed; the recorded residual norm is `|y|` for every state because `r_norm_sqr` is never updated (see C44).
- C127: `signal_noise_ratio` replaces a zero error energy by `2^-52`, so an exact recovery gets a lower SNR than one with a smaller nonzero error energy.
- **C131** `compute_cov_x` (bsbl.py:167-171): because the second moment of a block is formed as `sx + m.T m` (a scalar), for blocks of length two an iteration of `bsbl_em` or `bsbl_bo` can increase the evidence cost it is meant to decrease: `c131_em_fails`, `c131_bo_fails`. For blocks of length one the cost never increases.
- C132: `fom` (fom.py:133-172) raises its estimate of the Lipschitz constant after a failed step but keeps the step, unlike TFOCS, which repeats it; and with the default `alpha = 0.9` the momentum parameter never goes below `1 - alpha = 0.1` (`c132_any_alpha`). Convergence at rate 1/k² is proved for `alpha = 1`.
- C115: the solution returned by normalized_symmetric_fast_k and normalized_symmetric_sparse_fast_k has the normalised similarity matrix in the field laplacian, which keeps the vector of square roots of the degrees that a normalised Laplacian sends to zero, and -1 in the field connectivity for every graph (spectral.py:229-235, 273-279; c115_reported_fails).
- C140: `matrix`, `sparse_real_matrix` and `restriction` (basic.py:86-110, 148-173, 294-304) test `axis == 0` only in their 2-D branch, so `axis=-2`, the first axis of a 2-D array, makes them act along the second axis; the adjoint of `restriction` acts along the first one (`c140_negative_axis_fails`).
- C141 (by reading, dtypes are not modelled): `solve_lasso` (spgl1.py:415) starts from `jnp.zeros(n)`, which is real, so with a complex operator the loop state changes dtype and `lax.while_loop` raises; `solve_bp` and `solve_bpic` choose a complex start. `opt.proj_l1_ball` lacks the complex branch that `project_to_l1_ball` has.
- C142: `opt.proj_l1_ball` (opt/projectors/lpballs.py:174) applies the real formula `maximum(0, y - kappa) + minimum(0, y + kappa)` to complex arrays, where the comparison is lexicographic: `3i` is sent to 0 although `i` is the nearest point of the unit ball. Hence `prox_l1_ball` and `fom.lasso` are wrong on complex arrays.
- C145: `lop.binary_dict_alg(key, m, n)` maps vectors of length n to vectors of length m but reports the shape (n, m) (lop/random.py:179), so no vector of the declared input size gives an output of the declared output size unless m = n (`c145_binary_shape_fails`); it also sets real=False for a real operator.
- Not modelled, because they cannot be called: `fom/util.py:matrix_affine_func` uses `partial` without importing it, so that every call raises a NameError; `opt/projectors/basic.py:proj_box_affine` returns a projector that returns None; `opt/proximal.py:prox_l1` has no return value; `fom/focs_at.py` is a stub.
- C146: when subspace pursuit selects an atom twice, `RecoverySolution.x` stores both coefficients at the same position, one overwriting the other, and the signal no longer explains the data up to the reported residual (`c146_sp_fails`).
- C150: with different numbers of true and estimated labels `clustering_error` can be 1 although the optimal assignment matches most points, because `best_map` misplaces the relabelling (`c150_error_fails`).
- C152: `rdot_test_complex` divides by the mean of the two products without an absolute value, so any pair with negative products passes (`c152_negative_fails`), and it draws a real output vector, so an adjoint that is wrong on imaginary outputs passes (`c152_imaginary_fails`).
- C154: on every orthonormal dictionary, IHT with normalized=True returns NaN as soon as a second pass is needed (the data are not K-sparse up to the tolerance and max_iters >= 2): the first pass already gives the best K-term approximation, its residual is orthogonal to the support and the next step size is 0/0 (`c154_niht_fails`).
- C156: the tolerances of SPGL1 divide by max(1, f) and max(1, |r|), so for data of small norm they are absolute: `solve_lasso` returns the zero array without iterating for every problem in small enough units (c156_lasso_units_fails), and `solve_bpic` with default options returns the zero array for every b with |b| <= 1e-4, whatever sigma < |b| (c156_bpic_units_fails).
- C158: with K < n BIHT need not find a signal with the given bits although a K-sparse one exists with a margin: for the atoms (1, 1) and (9, -6), bits (1, 1), K = 1, tau = 1 the run cycles through five multiples of the second atom and is inconsistent after any number of iterations (c158_consistent_fails).
- C159: an empty k-means cluster gets the origin as its centroid, so translating the data can change the labels: 0, 0, 1 with the first two points drawn is split correctly, 5, 5, 6 is not split at all (c159_kmeans_translation_fails). The default threshold 1e-5 is absolute: in large units of length every run stops after one iteration (c159_kmeans_units_fails).
- C160: bsbl_em and bsbl_bo start with block scalars 1 and stop when the largest change of the solution is at most epsilon, in the units of the data; for any dictionary and data, in large enough units they stop after one iteration and return the (non-sparse) ridge regression solution (c160_units_fails).
- C161: the init of CoSaMP sorts the support but not the coefficients, so flipping the sign of an atom changes more than the sign of its coefficient (c161_cosamp_fails).
- C163: proj_l2_ball with a centre b moves points outside the ball 1e-7 further in than necessary, so it is discontinuous at the sphere and increases some distances by any factor (c163_center_fails).

## Plan per property

| id | model | how it is proved |
|----|-------|------------------|
| C01 | `Lop/Model`: operator record (times, trans, flags) over a commutative star ring; each combinator | structural induction over an expression tree of combinators; each case is a dot-product computation |
| C02 | `Lop/Basic`: constructor by constructor | finite-sum manipulation (reindexing of `Fin` sums) |
| C03 | scatter as a left fold of `set` updates over the index list | distinct indices: adjoint; repeated index: counterexample (code violates) + `_partial` |
| C04 | cumulative sums / differences with the weights | induction over the index; telescoping |
| C05 | the six difference stencils with `dx` | sum manipulation; centered kind: counterexample for `dx ≠ 1` |
| C06 | the three boundary rules, 1-D and 2-D | sum manipulation; 2-D complex adjoint: counterexample |
| C07 | full convolution as double sum, window | exchange of sums |
| C08 | list of operators, slicing at partial sums of sizes | induction over the list |
| C09 | window loop as fold with overlap-add | induction over blocks |
| C10 | `to_matrix` = columns of images of unit vectors | linearity, basis expansion |
| C11 | flags in the operator record | counterexample for `linear`, `matrix_safe`; soundness for the rest |
| C12 | transpose as coded, with the `real` flag | correct when the flag is right; counterexample for complex `diagonal` |
| C13 | C- and F-order index maps | bijection of index maps |
| C14–C16 | DFT matrix over ℂ | Mathlib's `ZMod.dft` / roots-of-unity sums |
| C17 | DCT-II matrix | trigonometric sums |
| C18 | moving-window sums | sum exchange |
| C19 | the pass/fail decision of the dot test | direct; counterexample for negative inner products |
| C20 | `wavedec`/`waverec` loops over an abstract one-level transform | induction over levels |
| C21 | the while loop of `apply_n` | induction |
| C22 | vmap over columns | definition unfolding with index equality |
| C23 | power iteration loop on an inner-product space | Rayleigh quotient ≤ norm, induction |
| C24–C28 | projector functions | variational inequality + feasibility ⇒ nearest point; l1 ball through the sort/cumsum threshold |
| C29 | indicator functions into extended reals | case analysis |
| C30–C33 | prox functions | coordinatewise convex inequality; OWL1 by pool-adjacent-violators invariant (stretch goal) |
| C34 | envelope as coded | prox inequality for µ = 1; counterexample for µ ≠ 1 |
| C35 | value/gradient pairs | `HasFDerivAt`/`HasDerivAt` of the value |
| C36 | scalar thresholding | case analysis on the threshold |
| C37, C38 | CG/PCG state machine on an inner-product space | loop invariant; conjugacy by induction; dimension count for termination |
| C39 | line search and outer loop | convexity of the set, loop invariants |
| C40 | FOM loop with backtracking | loop invariant, iteration bound |
| C41, C42 | ISTA/FISTA loops | descent lemma, Beck–Teboulle potential, induction |
| C43 | Golub–Kahan + Givens recurrences | loop invariant (orthonormality + residual recurrence) |
| C44–C50 | pursuit loops, `lstsq` as parameter with its normal-equation contract | loop invariants |
| C51 | `argsort`-based selection on lists | permutation/sortedness lemmas |
| C52 | nested loops with a visited set | induction over the grid list |
| C53, C54 | k-means state machine | argmin lemmas; mean minimises squared distance |
| C55 | list functions | induction |
| C56 | matrices | quadratic form identity |
| C57 | assignment solver as parameter with optimality contract | permutation invariance |
| C58 | index/value matrices, COO triples | finite map reasoning |
| C59 | both builders on one abstract OMP | counterexample for non-normalised data, equality for unit-norm data |
| C60 | both statistics | finite sums; counterexample for disagreement |
| C61, C62 | SPGL1 loops | loop invariants; Lagrangian weak duality |
| C63 | TNIPM loop with line search | loop invariants; weak duality |
| C64 | ADMM loops and wrapper | loop invariants; subgradient optimality for zero shortcut; counterexamples |
| C65 | FOCUSS loop | loop invariant; weighted least-norm argument |
| C66, C67 | Gram matrix, argmax, sort | order lemmas |
| C68 | Welch bound | Cauchy–Schwarz on the Gram matrix trace |
| C69 | doubling recursion | induction on the exponent |
| C70, C71 | random draws as parameters | structural, for every draw |
| C72 | vectors built from orthonormal draws | inner-product algebra |
| C73 | block formulas | matrix algebra; counterexample for the covariance formula |
| C74 | `Nat` arithmetic on lists | induction |
| C75 | tracker as state machine over call sequences | induction over calls |
| C76 | index set functions | finite set reasoning |
| C77 | BIHT/RFP loop | loop invariants |
| C78 | problem constructors over modelled operators | composition of C04, C14, C17 |
| C79, C80 | direct formulas | finite sums |
| C81 | `smooth_dual` over an abstract prox-capable convex function | prox characterisation and gradient of the Moreau envelope |
| C82, C83 | the LSQR loop of C43 with its norm estimates | bidiagonalisation invariants, Krylov subspaces, dimension count |
| C84 | the l1ls loop of C63 with ghost call counts | loop invariant |
| C85, C86 | the YALL1 iteration of C64 | optimality conditions, Fejér monotonicity, cluster points; dual certificates by Hahn-Banach separation |
| C87 | the FOCUSS iteration of C65 | weighted minimality with Hölder / AM-GM |
| C88 | the BSBL iterations, with values that are not finite per block | loop invariant: positive noise variance, positive definite active covariances (completed squares, LDL factorisation of the AR(1) matrix); explicit four-iteration run for the refutation |
| C89 | sqrtm_svd with the SVD as a parameter | uniqueness of positive semidefinite square roots |
| C90 | BSBL options | loop invariants; explicit one-iteration run for the refutation |
| C91 | SSC-OMP representations | invariant of the k atoms selected so far, residual orthogonal to the selected atoms; concrete two-column run for the refutation |
| C92 | angles and neighbours | argmin/min over lists, positions of clusters from the label lemmas; concrete refutations |
| C93 | scd solvers | Lagrangian minimiser from C81; sign invariant of all states on the line for the refutations |
| C94 | Lanczos bidiagonalisation with partial reorthogonalisation (`Sls/LanModel`), columns as vectors of abstract inner product spaces, estimates and `cr.nimble.svd` as parameters | invariant over the iterations, given the contracts of `reorth_mgs`, `do_elr`; NaN refuted |
| C95 | `lansvd_simple` on top of C94, `bdsqr` and `refine_bounds` parameters (`Sls/LansvdModel`) | linear algebra from the C94 invariant and the contract of `bdsqr` (reduced SVD); two refutations |
| C96 | spectral clustering with the SVD as a parameter under contract (`Cluster/SpectralClusterModel`), k-means from C53/C54 | the projection on the kernel of the Laplacian is computed from any SVD; trace argument counts the zero singular values; rows of the kernel matrix coincide exactly within components |
| C97 | `wavedec2`/`waverec2` loops over an abstract one-level transform, padding and cropping | induction over levels, block decomposition of the inner product; exchanged axes by transposition |
| C98 | `percentile` with linear interpolation, the three thresholding functions | sorted list and counting; C36 |
| C99 | the formula of `ricker` | exponential inequalities; Fourier transform of the Gaussian and of derivatives |
| C100 | convolveND with index tuples in any dimension, the filter stored in C order and reshaped; conv_general_dilated as the zero padded correlation | reduce both directions to one kernel k + off - p by change of variables |
| C101 | dot on lists over RCLike, arr_rdot as the real part | inner product algebra; refutation over the complex numbers |
| C102 | walsh_hadamard_basis with the fast transform as multiplication by a Walsh-Hadamard matrix | double sums with W W^T = n I; link with C69 |
| C103 | wavelet_basis columns as waverec of unit vectors | B B^H = 1 by C20 adjointness, then B^H B = 1 |
| C104 | horizontal stacking of bases | blockwise sums over C17 and C69 |
| C105 | first and last singular value of a thin SVD (contract) | orthogonal change of variables and Bessel |
| C106 | the trial loops over an abstract key splitter, the table and the file as a store driven by append/save operations | fold lemmas for the accumulators; induction over safe operation lists for every interruption point |
| C107 | entry points of SPGL1 basis pursuit, `tau_change` | weak duality at the current iterate against any feasible point |
| C108 | weighted l1 and l-infinity norms | Hölder after rescaling; a signed unit vector attains the bound |
| C109 | OMP model of C44 with a separate definition of coherence | induction over the passes: a residual in the span of the support has its largest correlation in the support |
| C110 | IHT model of C50 with a separate definition of the restricted isometry property | one-pass contraction lemma (polarisation of the isometry bound, best-K-term selection), then induction over reachable states |
| C111 | HTP model of C49 | contraction lemma from the normal equations and the missed-support bound, induction, then exactness from the smallest magnitude |
| C112 | YALL1 model of C86 | uniqueness of the l1 minimiser from the null space property, applied to the limit of C86; coherence bound on the null space |
| C113 | `bsbl_bo_np`, the unpruned updates and `bsbl_bo_options` | simulation: the bodies agree at states with all blocks active; NaN propagation through the sums |
| C114 | Gram matrices, SVD as parameter with its contract, `none` for a diagonal that is not positive | rank of the truncation, uniqueness of positive square roots, trace argument for the unit-norm criterion; explicit 2- and 3-atom runs |
| C115 | `FastSpectralModel`: `NormalizedSymmetricFastK`, `NormalizedSymmetricSparseFastK` with an exact leading SVD as contract for `lansvd_simple_jit` | the vectors fixed by N are D^(1/2) times edge-constant vectors, N^2 x = x implies N x = x without bipartite components, projection entries give the inner products of rows; witness for the violation with rational matrices |
| C116 | the YALL1 model and its specification `yallObj`, `yallFeas`; `nearlyFeasible` | loop invariant: the state carries a dual certificate; weak duality with a dual residual; scaling back from the normalised data |
| C117 | `spInit`, `spBody` of GreedyModel; RIP of order 3K; identification, fit and pruning bounds | contraction of one pass, induction over passes, exactness once nothing is missed |
| C118 | `cosampInit`, `cosampBody` of GreedyModel; RIP of order 4K | the same, with a bound on the mis-paired first state |
| C119 | `piecewisePolynomial` over lists; draws as parameters | invariant of the loop over the pieces; sorted boundaries |
| C120 | `supportOverlap` on `largestIndices` | counting in the intersection of the two index sets |
| C121 | `spreadTimes`, `spreadWithTable` on index functions, NaN as `none`, JAX scatter semantics | the nested loops as sums of contributions |
| C122 | `audioProblem`, `matrixAxis1`, `composeIgnore` on `Arr2`; files as parameters | W W^H of the windowed basis counts the windows at each sample, so it is invertible; column by column adjoints |
| C123 | rate of CG and PCG | Opt/CgModel; Krylov optimality of the iterates, polynomial bound through the eigenbasis for the energy inner product, Chebyshev polynomials |
| C124 | convergence of normest and power_iterations | Sls/PowerModel; moments of the iterated operator are log-convex, which bounds the Rayleigh quotient without a gap; invariant of the loop. Under a gap: split the iterate along the eigenvector and its orthogonal complement |
| C125 | `lsqrInit`, `lsqrBody`, `lsqrCond` of LsqrModel; objective, singular value bounds on the range of the adjoint | minimality over the Krylov space (C83) compared with a Chebyshev polynomial of the damped normal operator; spectral theorem |
| C126 | `Opt/SpgModel` (the whole SPG loop with its memory buffer) | a rejected trial bounds the accepted step length from below; invariant: entry j of the memory after k steps is at most f(x1) - eta*ceil((k-j)/memory); the projected steps of length 1 and lambda bound each other |
| C127 | `Tools/TrackRunModel` (while loop whose condition reports to the tracker, views of the states of SPGL1, SP, CoSaMP, MP, `get_x_norm`, `get_r_norm`, `get_x_like`, `signal_noise_ratio`) | the reports of a run are `f^[k] s0` for k = 0..N with `more` true except at N; composition with the history theorem C75; concrete runs for the failures |
| C128 | OMP model of C44, coherence of C109, a noise vector with bounded correlations | the induction of C109 with the noise margin; error of the coefficients from the normal equations at the largest one |
| C129 | the YALL1, SPGL1 and l1ls models; coherence as a separate specification | cone of the error from the l1 norms, energy bound from coherence, composed with the convergence and certificate theorems C61, C63, C86, C107 |
| C130 | SSC-OMP on general subspaces | invariant of the iteration (own group, or index 0 after the residual vanished), trivial intersections and minimum norm for the coefficients, then C96 for the clustering |
| C131 | model of C73/C88 (`bsblEmBody`, `bsblBoBody`); specification `evidence` | tangent bound for log det, minimax form of the quadratic part, per-coordinate inequality; concrete counterexample for blocks of length two |
| C132 | `fomBody`, `backtrackL`, `advanceTheta` of FomModel, and the sequence of states without limits | energy inequality with an error term for rejected steps; potential `1/L0 - 1/L` pays for the rejections; finitely many of them because each divides `1/L` by `1/beta` |
| C133 | the YALL1, SPGL1, l1ls and first order solver models; the restricted isometry property as a separate specification | near-orthogonality of disjoint supports, blocks of the K largest entries, composed with the convergence and certificate theorems C61, C63, C86, C107, C132 |
| C134 | runs of `mpStep`, `ompStep`, `OmpOperatorSolve` | invariant coupling the residual with the size of the remaining coefficients; excess over a competitor obeys a quadratic recursion |
| C135 | operators of problems 003/004 as atoms, coherence and babel of the dictionaries, OMP/HTP models | Gershgorin argument for the restricted isometry constants, exact maximum of the DCT entries, then C109, C111 and C112 |
| C136 | the LASSO loop of SPGL1 with its nonmonotone curvilinear line search (same model as C61) | the moves tend to zero (argument of Grippo, Lampariello and Lucidi on the remembered values), and a move of the line search bounded below in terms of the duality gap gives a contradiction |
| C137 | FOCUSS: descent functions, boundedness, continuity of the step, limit points, convergence | tangent inequality for the power, compactness of conforming solutions, finitely many stationary points per sign pattern; for p = 1 a split of the entries into decaying and bounded-away ones and an almost decreasing sum of logarithms |
| C138 | The models of OMP and MP of C109 and the pursuit modules; `Rip` of C110; Tropp's condition stated with projection coefficients | selection lemma from test vectors (sharp bound), induction of C109/C128 for an abstract selection property, geometric decay of the MP residual |
| C139 | truncated Newton interior point iteration of l1ls with warm-started PCG, backtracking and the t update | uniform decrease of the barrier potential on the compact set of iterates, growth of t bounded by the gap |
| C140 | `apply_along_axis` and the 2-D branches of matrix, sparse_real_matrix, restriction on arrays with any number of dimensions | slices along the axis; sums over the array split into slices |
| C141 | SPGL1 (projection, curvilinear line search, LASSO, BPIC, BP) on complex arrays | complex shrinkage is nearest point; weak duality with real part of the complex gap; simulation of the real run on real entries |
| C142 | prox_l1, prox_l2, soft threshold, ISTA, FISTA, LSQR, l1rls and proj_l1_ball on complex arrays | complex shrinkage satisfies the subgradient criterion; the convergence theorems hold in every real inner product space and are instantiated with the real part of the complex inner product; Krylov spaces of a complex operator have real dimension at most n by the spectral theorem |
| C143 | the greedy pursuit solvers on a problem and on its image under an isometry and a change of units | simulation: the map of states commutes with the loop bodies and preserves the loop conditions; sorting and argmax are invariant under positive factors; minimum-norm least squares is unique |
| C144 | CG, PCG, LSQR, ISTA, FISTA on a problem and on its image under isometries and a change of units | the same simulation argument; LSQR's Krylov vectors are changed by the sign of the factor only |
| C145 | the operators of lop/random.py for every outcome of the generator, with the BCOO storage of the sparse one | sums over the stored entries are sums over all positions; C70 for the matrices; induction over the loop of binary_dict_alg |
| C146 | RecoverySolution.x for the final states of the greedy solvers | the scattered signal has the same synthesis as the pair (I, x_I) when the indices are distinct; state invariants of C45-C50 |
| C147 | the loops of IHT and HTP as iterates of their bodies | best K-term approximation gives sufficient decrease; limit points are least squares points on one of finitely many supports, steps vanish, so the sequence converges; for HTP the pair (residual norm, coefficient norm) decreases lexicographically until the support repeats, and there are C(n,K) supports |
| C148 | fixed points of the hard-thresholded gradient step; SparseMin: least residual norm over K-sparse signals | the residual is orthogonal to the atoms in use and, with fewer than K atoms, to all atoms; a minimiser is a best K-term approximation of its own gradient step by the majorisation inequality |
| C149 | two runs of each loop with ordered conditions | two reached states of a loop are comparable; the shorter run is a prefix; existing one-step decrease theorems give the corollaries |
| C150 | clustering_error over label lists, with best_map as a maximum assignment of the confusion matrix | the error is one minus the best agreement over assignments; equal label counts make assignments bijections |
| C151 | mutual_coherence as the largest absolute entry of the cross Gram matrix | Elad-Bruckstein: expand the squared norm in one basis and bound by mu; uniqueness from the uncertainty of the difference; Hadamard entries are ±1/sqrt n |
| C152 | rdot_test_complex on drawn real vectors | a right adjoint makes the two products equal; witnesses for the two ways a wrong adjoint passes |
| C153 | the ISTA loop in an IstaSetting (step bound, right adjoint, thresh = exact prox of a convex R) | the gradient map is self-adjoint between 0 and 1 - step sigma, hence a contraction; prox is nonexpansive; minimisers are fixed points; eventual strict inequalities pass through soft thresholding |
| C154 | the greedy pursuits on a dictionary with orthonormal atoms | Parseval reduces the error of any K-sparse signal to the correlations left out; the loop invariant is that the support dominates the other correlations |
| C155 | the results of ISTA, FISTA, l1rls, lasso, l1ls, YALL1 and SPGL1 against one penalised problem | strong convexity in A x along segments; variational inequality on the l1 ball; the certificates and rates of C41, C42, C61, C86, C132, C139 |
| C156 | yall1 solve, FOCUSS and SPGL1 on data in other units, signs, orderings and coordinates | the normalised arguments are equal; a map of states commuting with the loop (Out.map); direct computation of the first stopping test for SPGL1 |
| C157 | ISTA, FISTA, l1ls, l1rls, YALL1 and SPGL1 on operators with orthonormal columns | the residual splits into a constant and the distance from A^T b; loop invariant for ISTA/FISTA; C155 for the others |
| C158 | biht.py body, cond, init | subgradient inequality bit by bit; a map of states commuting with the loop (Out.map); perceptron invariant (squared norm against correlation with the reference signal); an invariant over the five states of a cycle |
| C159 | kmeans.py, ssc/omp.py on moved, scaled and reordered data | a map of states commuting with the loop (Out.map) for similarities and permutations, a simulation relation for translations, induction over the SSC-OMP iterations; explicit runs for the failures |
| C160 | bsbl.py on rotated, negated, block-permuted and rescaled problems | each step of the body commutes with the state map, then Out.map; for the units an explicit first iteration with the posterior mean of the unit prior |
| C161 | the greedy pursuits on dictionaries with signs/phases changed or atoms reordered | each step commutes with the state map (least squares by uniqueness of the minimum norm solution; Cholesky factor conjugated by the signs), then Out.map; concrete runs for the failures |
| C162 | SPGL1 and l1ls on a problem and on its image under an isometry of the data and a signed permutation of the unknowns | every step (l1-ball projection by sorting, curvilinear search, Newton step on tau, barrier gradient, Hessian, preconditioner, PCG, both line searches) commutes with the state map, so the reachable states correspond one to one |
| C163 | projectors, proximal operators, Huber function and Moreau envelope | firm nonexpansiveness from the subgradient inequality of proximal points, convexity of each set and function; decompositions by computing both sides |
| C164 | SPGL1 on complex arrays (`Spgl1CModel`) | the modulus of the complex duality gap is bounded by its real part and the square root of it, so a run that goes on for ever keeps a real gap, moves by a fixed amount at every iteration and contradicts the nonmonotone descent |
| C165 | SPGL1 on complex arrays, on a problem and on its image under a unitary map of the data and a permutation of the unknowns with phases | as for C162: the complex l1-ball projection commutes with phases because its threshold is never negative, and every step commutes with the state map |
| C166 | both versions of SP, CoSaMP and OMP | the loops on y and y/norm(y) are similar states (C143); a stricter loop condition returns a state the other loop passes through; an unchanged support is a fixed point of subspace pursuit since coefficients and residual depend on the support only |
| C167 | the operator algebra of C01 and an inductive relation listing the textbook laws | every law and every context keeps acceptance, the denoted matrix, the operators used and the reality of scalars (induction on the rewriting); then C01 |
| C168 | ista, fista, l1ls, SPGL1 solve_lasso, YALL1 and l1rls run on two data vectors | quadratic growth of the objective along A around a minimiser over a convex set, for both data vectors; then the rates and gaps of C41, C42, C63, C61, C132, C150 |
| C169 | OMP and MP run on two data vectors | induction on the iterations: with the same atoms the residuals are no further apart than the data (orthogonal projection), so a margin of more than twice that keeps the next selection |
| C170 | kmeans_with_seed run on two sets of points with the same initial indices | simulation: same labels, centroids within d, distortions within 2d are kept by every iteration because distances change by at most 2d |
| C171 | the four greedy solvers of GreedyModel.lean as functions of y | the state after k passes has locally constant support and continuous residual and coefficients; least squares on independent atoms is Lipschitz in y; the tests keep their outcome near y |
| C172 | build_representation_omp and the affinity as functions of the points; unnormalized_k on the result | chosen indices are locally constant away from ties and stay independent; least squares is continuous in independent atoms and data; the affinities then satisfy the hypotheses of C96 |
| C173 | the loops of omp.matrix_solve and mp as functions of dictionary and data | a strict winner stays the winner near by; least squares is continuous in independent atoms and data; induction on the iterations |
| C174 | the loops of iht, htp, sp and cosamp as functions of dictionary and data | as C171 with an arbitrary parameter; least squares is continuous in independent atoms and data |
| C175 | measure_1bit and the loop of biht as functions of the dictionary | signs of nonzero continuous functions and untied selections are locally constant; induction on the iterations |
| C176 | rfp as a function of dictionary, bits, initial guess, lambda_ and delta | the one-sided residual and the shrinkage are continuous, the norm divided by stays away from zero near by; induction on the steps |
| C177 | rfp on the relabelled problem | signed permutations are isometries that commute with the shrinkage and with the one-sided residual; induction on the steps |
| C178 | measure_1bit and the loop of biht on the relabelled problem | the loop commutes with the relabelling of its state (Out.map); signs and magnitudes behave as expected |
| C179 | the loop of ista on two data sets and starts | the thresholding is nonexpansive, the gradient step contracts; induction on the number of iterations |
| C180 | the loops of cg and pcg with all arguments as parameters | the fields of the state are continuous in the parameters as long as no denominator vanishes (C37, C38); the strict tests persist |
| C181 | the loops of ista and fista with all numerical arguments as parameters | the fields of the state are continuous in the parameters by induction; the strict tests persist |
| C182 | the loop of matrix_solve_noiseless with dictionary, measurements and exponent as parameters | powers, determinant and adjugate are continuous; the determinant stays away from zero |
| C183 | the three solver loops and solve with the data as parameters | shrinkage and projections are continuous, also where the code divides by zero; the tests are comparisons of continuous quantities |
