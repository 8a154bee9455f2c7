{"id": "C01", "title": "Operator algebra preserves adjointness", "statement": "If the operators A and B each satisfy <A.times(x), y> = <x, A.trans(y)>, then so does every operator built from them with neg, scale, add, subtract, compose, hcat, adjoint, hermitian, transpose (conjugate for complex), power, gram and frame, to any nesting depth.", "quantifier": "all expression trees over the operator combinators, all sizes, all vectors, real and complex scalars", "why_tests_cant": "A test evaluates the identity at a few random vectors and sizes; the claim is about every size, every entry and every operand, including boundary sizes a sample never draws.", "anchors": ["src/cr/sparse/_src/lop/lop.py:neg,scale,hermitian,adjoint,transpose,power,add,subtract,compose,hcat,gram,frame,apply_n"]}
{"id": "C02", "title": "Elementary operators are adjoint-consistent", "statement": "For identity(m,n), matrix/real_matrix, diagonal, scalar_mult, zero, flipud, sum, pad_zeros and symmetrize the trans function is the exact Hermitian adjoint of the times function: <T x, y> = <x, T^H y>.", "quantifier": "all shapes (including m<n, m>n, empty), all vectors, real and complex", "why_tests_cant": "A test evaluates the identity at a few random vectors and sizes; the claim is about every size, every entry and every operand, including boundary sizes a sample never draws.", "anchors": ["src/cr/sparse/_src/lop/basic.py:matrix,real_matrix,diagonal,scalar_mult,zero,flipud,sum,pad_zeros,symmetrize", "src/cr/sparse/_src/lop/identity.py:identity"]}
{"id": "C03", "title": "restriction and partial_op are exact sub-sampling operators", "statement": "restriction(n, indices) picks exactly the entries named by indices, and its trans is its adjoint, also when indices repeats an index; partial_op(A, picks, perm) equals A restricted to the picked rows after permuting the input, with the exact adjoint.", "quantifier": "all index lists (with or without repetitions), all sizes, all vectors", "why_tests_cant": "A test with distinct random indices never exercises repeated indices, and a sample does not cover all permutations.", "anchors": ["src/cr/sparse/_src/lop/basic.py:restriction", "src/cr/sparse/_src/lop/lop.py:partial_op"]}
{"id": "C04", "title": "heaviside and inv_heaviside are mutually inverse", "statement": "For every n the operators heaviside(n) and inv_heaviside(n) are inverse to each other (both orders) and each trans is the exact adjoint of times, with and without the normalisation of the columns; normalised columns have unit norm.", "quantifier": "all n >= 1, all vectors, both values of the normalisation flag", "why_tests_cant": "A test evaluates the identity at a few random vectors and sizes; the claim is about every size, every entry and every operand, including boundary sizes a sample never draws.", "anchors": ["src/cr/sparse/_src/lop/basic.py:heaviside,inv_heaviside,cumsum,diff"]}
{"id": "C05", "title": "Derivative operators are adjoint-consistent for every grid step", "statement": "first_derivative(n, dx, kind) and second_derivative(n, dx) satisfy the adjoint identity for each kind (forward, backward, centered) and every non-zero step dx, and differentiate affine (quadratic) sequences exactly on the rows that are not padded.", "quantifier": "all n, all dx != 0, all kinds, all vectors", "why_tests_cant": "Tests use dx=1 (where a missing 1/dx factor is invisible) and a few sizes.", "anchors": ["src/cr/sparse/_src/lop/calculus.py:first_derivative,second_derivative,_derivative_fwd,_derivative_bwd,_derivative_centered"]}
{"id": "C06", "title": "Total-variation operators are adjoint-consistent", "statement": "tv(n, kind) and tv2D(shape, kind) satisfy the adjoint identity for the regular, dirichlet and circular boundary rules; constants are exactly the kernel of the regular and circular 1-D operators.", "quantifier": "all sizes, all vectors/images, all boundary kinds", "why_tests_cant": "A test evaluates the identity at a few random vectors and sizes; the claim is about every size, every entry and every operand, including boundary sizes a sample never draws.", "anchors": ["src/cr/sparse/_src/lop/tv.py:tv,tv2D,diff_fwd,diff_adj"]}
{"id": "C07", "title": "convolve computes a window of the full linear convolution and its exact adjoint", "statement": "convolve(n, h, offset) returns entry i equal to the (offset+i)-th entry of the full linear convolution of x with h, and trans is the exact adjoint.", "quantifier": "all n >= 1, all filters h of all lengths, all valid offsets, all vectors", "why_tests_cant": "A test evaluates the identity at a few random vectors and sizes; the claim is about every size, every entry and every operand, including boundary sizes a sample never draws.", "anchors": ["src/cr/sparse/_src/lop/conv.py:convolve"]}
{"id": "C08", "title": "block_diag applies each block to its own slice", "statement": "block_diag([A1..Ak]) maps the concatenation of x1..xk to the concatenation of A1 x1..Ak xk, trans does the same with the adjoints, sizes add up, fewer than two operators is rejected.", "quantifier": "all k >= 2, all operator sizes, all vectors", "why_tests_cant": "A test evaluates the identity at a few random vectors and sizes; the claim is about every size, every entry and every operand, including boundary sizes a sample never draws.", "anchors": ["src/cr/sparse/_src/lop/block_diag.py:block_diag"]}
{"id": "C09", "title": "windowed_op is an exact overlap-add operator with exact adjoint", "statement": "windowed_op(m, T, overlap) synthesises the sum of the shifted block outputs truncated to m samples, analysis applies T^H to every (zero padded) window, and the two are adjoint for every m, window length and overlap.", "quantifier": "all signal lengths, all template operators, all overlaps smaller than the window, all vectors", "why_tests_cant": "The number of blocks, the tail padding and the truncation depend on ceil arithmetic; a test covers a few triples only.", "anchors": ["src/cr/sparse/_src/lop/windowed_op.py:windowed_op"]}
{"id": "C10", "title": "to_matrix represents the operator", "statement": "For every linear operator, to_matrix(T) @ x equals T.times(x), to_adjoint_matrix(T) is the conjugate transpose of to_matrix(T) when T is adjoint-consistent, and columns(T, I) are the columns of to_matrix(T) in the order of I.", "quantifier": "all linear operators of all sizes, all vectors", "why_tests_cant": "A test evaluates the identity at a few random vectors and sizes; the claim is about every size, every entry and every operand, including boundary sizes a sample never draws.", "anchors": ["src/cr/sparse/_src/lop/util.py:to_matrix,to_adjoint_matrix,to_complex_matrix", "src/cr/sparse/_src/lop/lop.py:column,columns"]}
{"id": "C11", "title": "Advertised operator flags are sound", "statement": "An operator whose linear flag is True is additive and homogeneous, and the operator algebra never turns a False flag (linear, jit_safe, matrix_safe) into True.", "quantifier": "all operators built with the public constructors and combinators", "why_tests_cant": "The flags are metadata no numerical test looks at; soundness quantifies over all expressions and inputs.", "anchors": ["src/cr/sparse/_src/lop/lop.py:Operator,neg,scale,adjoint,add,subtract,compose,hcat", "src/cr/sparse/_src/lop/basic.py:real"]}
{"id": "C12", "title": "transpose is the plain transpose for real and complex operators", "statement": "transpose(A).times multiplies with the (unconjugated) transpose of the matrix of A for every public operator, real or complex, and transposing twice gives A back.", "quantifier": "all operators with correct adjoint, real and complex entries, all vectors", "why_tests_cant": "Tests of transpose use real operators, where conjugation is invisible.", "anchors": ["src/cr/sparse/_src/lop/lop.py:transpose", "src/cr/sparse/_src/lop/basic.py:diagonal,scalar_mult"]}
{"id": "C13", "title": "reshape and arr2vec are lossless", "statement": "reshape(in, out, order) and arr2vec(shape, order) followed by trans return the original array for C and F order, preserve every entry (a permutation) and are adjoint-consistent.", "quantifier": "all shapes with equal size, both orders, all arrays", "why_tests_cant": "A test evaluates the identity at a few random vectors and sizes; the claim is about every size, every entry and every operand, including boundary sizes a sample never draws.", "anchors": ["src/cr/sparse/_src/lop/reshape.py:reshape,arr2vec"]}
{"id": "C14", "title": "fourier_basis is a unitary operator", "statement": "fourier_basis(n).trans inverts times and vice versa, both preserve the l2 norm, and the pair is adjoint; dirac_fourier_basis is the concatenation [I F].", "quantifier": "all n >= 1, all complex vectors", "why_tests_cant": "A test evaluates the identity at a few random vectors and sizes; the claim is about every size, every entry and every operand, including boundary sizes a sample never draws.", "anchors": ["src/cr/sparse/_src/lop/onb.py:fourier_basis,dirac_fourier_basis"]}
{"id": "C15", "title": "fft operator is adjoint-consistent", "statement": "fft(m, n) (zero padding to n >= m) satisfies the adjoint identity between times and trans for complex input.", "quantifier": "all m <= n, all complex vectors", "why_tests_cant": "A test evaluates the identity at a few random vectors and sizes; the claim is about every size, every entry and every operand, including boundary sizes a sample never draws.", "anchors": ["src/cr/sparse/_src/lop/fft.py:fft"]}
{"id": "C16", "title": "circulant operator is circular convolution", "statement": "circulant(n, c).times(x) is the circular convolution of c and x and trans is its adjoint (circular correlation).", "quantifier": "all n >= 1, all real c, all vectors", "why_tests_cant": "A test evaluates the identity at a few random vectors and sizes; the claim is about every size, every entry and every operand, including boundary sizes a sample never draws.", "anchors": ["src/cr/sparse/_src/lop/special_matrices.py:circulant"]}
{"id": "C17", "title": "cosine_basis is orthonormal", "statement": "cosine_basis(n) is an orthonormal basis: trans inverts times and the l2 norm is preserved; the explicit DCT dictionary has orthonormal rows and columns.", "quantifier": "all n >= 1, all vectors", "why_tests_cant": "A test evaluates the identity at a few random vectors and sizes; the claim is about every size, every entry and every operand, including boundary sizes a sample never draws.", "anchors": ["src/cr/sparse/_src/lop/onb.py:cosine_basis", "src/cr/sparse/_src/dict/simple.py:cosine_basis"]}
{"id": "C18", "title": "running_average and fir_filter are adjoint-consistent", "statement": "For filters not longer than the signal, running_average(n, length) and fir_filter(n, h) satisfy the adjoint identity, and every output sample away from the border is the average of length consecutive samples.", "quantifier": "all n, all filter lengths, all vectors", "why_tests_cant": "The adjoint slice start depends on the parity of the length; tests cover a few lengths.", "anchors": ["src/cr/sparse/_src/lop/filters.py:running_average,fir_filter"]}
{"id": "C19", "title": "dot_test accepts exactly adjoint pairs", "statement": "dot_test_real/dot_test_complex return True for every exactly adjoint pair and a True result for a test pair (u, v) bounds the relative mismatch of the two inner products by the tolerance.", "quantifier": "all operators, all test vectors, all tolerances > 0", "why_tests_cant": "The test utility itself decides what all other operator tests observe; its own soundness is not tested.", "anchors": ["src/cr/sparse/_src/lop/util.py:dot_test_real,dot_test_complex,rdot_test_complex"]}
{"id": "C20", "title": "Multi-level wavelet operators reconstruct perfectly", "statement": "If one analysis/synthesis level is a perfect reconstruction (orthonormal) pair on even lengths then dwt(n, level) built from it is inverted by its trans at every level from 1 to the maximal level, has as many coefficients as the padded length (the next power of two), and is adjoint-consistent.", "quantifier": "all levels, all n divisible by 2^level, all signals", "why_tests_cant": "Tests check a few wavelets and levels.", "anchors": ["src/cr/sparse/_src/lop/dwt.py:wavedec,waverec,dwt,dwt2D"]}
{"id": "C21", "title": "power / apply_n apply the operator exactly n times", "statement": "power(A, p).times(x) equals A applied p times to x and its trans equals A.trans applied p times; non-square operators are rejected.", "quantifier": "all p >= 0, all operators, all vectors", "why_tests_cant": "A test evaluates the identity at a few random vectors and sizes; the claim is about every size, every entry and every operand, including boundary sizes a sample never draws.", "anchors": ["src/cr/sparse/_src/lop/lop.py:apply_n,power"]}
{"id": "C22", "title": "Applying an operator to a 2-D array works column by column", "statement": "For matrix-safe and non-matrix-safe operators alike, applying an operator to a matrix applies it to each column independently and in order.", "quantifier": "all operators, all matrices with any number of columns", "why_tests_cant": "A test evaluates the identity at a few random vectors and sizes; the claim is about every size, every entry and every operand, including boundary sizes a sample never draws.", "anchors": ["src/cr/sparse/_src/lop/lop.py:Operator.times_2d,jit", "src/cr/sparse/_src/lop/util.py:apply_along_axis"]}
{"id": "C23", "title": "Norm estimates never exceed the true operator norm", "statement": "normest(A) and power_iterations(A) return, after any number of iterations from any start vector, an estimate that is at most the spectral norm (largest eigenvalue), together with a unit vector attaining it; power iteration estimates are monotone for positive semidefinite operators.", "quantifier": "all operators, all start vectors, all iteration counts", "why_tests_cant": "A test runs a few solver instances; the claim is about every reachable loop state for every problem instance and every number of iterations.", "anchors": ["src/cr/sparse/_src/lop/normest.py:normest", "src/cr/sparse/_src/sls/power.py:power_iterations"]}
{"id": "C24", "title": "Box projection is the nearest feasible point", "statement": "proj_box(l,u)(x) lies in the box, is the unique nearest point of the box to x, and is idempotent; missing bounds are treated as infinite; omitting both is rejected.", "quantifier": "all dimensions, all bounds l <= u, all points", "why_tests_cant": "Optimality against all competitors is a statement over an infinite set of points; a test compares with finitely many.", "anchors": ["src/cr/sparse/_src/opt/projectors/basic.py:proj_box"]}
{"id": "C25", "title": "l1-ball projection is the nearest feasible point", "statement": "proj_l1_ball(q) / project_to_l1_ball returns a point of l1 norm at most q that is nearest to x among all points of the ball, and leaves feasible points unchanged.", "quantifier": "all dimensions, all x, all radii q >= 0 (q > 0), ties and zero entries included", "why_tests_cant": "Optimality against all competitors is a statement over an infinite set of points; a test compares with finitely many.", "anchors": ["src/cr/sparse/_src/opt/projectors/lpballs.py:proj_l1_ball", "src/cr/sparse/_src/cvx/spgl1.py:project_to_l1_ball,project_to_l1_ball_at"]}
{"id": "C26", "title": "l2-ball projection is the nearest feasible point", "statement": "proj_l2_ball(q, b)(x) lies in the ball of radius q around b and is the nearest point to x; feasible points are unchanged; q <= 0 is rejected.", "quantifier": "all dimensions, all x, all q > 0, all centres", "why_tests_cant": "Optimality against all competitors is a statement over an infinite set of points; a test compares with finitely many.", "anchors": ["src/cr/sparse/_src/opt/projectors/lpballs.py:proj_l2_ball", "src/cr/sparse/_src/opt/projections.py:project_to_ball"]}
{"id": "C27", "title": "Second-order-cone projection is the nearest feasible point", "statement": "proj_conic()(x) returns the nearest point of the cone {(u,t): |u|_2 <= t} to x, in the three regions (inside, polar cone, otherwise).", "quantifier": "all dimensions, all points", "why_tests_cant": "Optimality against all competitors is a statement over an infinite set of points; a test compares with finitely many.", "anchors": ["src/cr/sparse/_src/opt/projectors/basic.py:proj_conic"]}
{"id": "C28", "title": "Affine, singleton, zero and identity projections are nearest points", "statement": "proj_affine(A,b)(x) solves A x = b and is the nearest such point; proj_singleton, proj_zero, proj_identity are the projections on {c}, {0} and the whole space.", "quantifier": "all full-row-rank A, all b, all x", "why_tests_cant": "Optimality against all competitors is a statement over an infinite set of points; a test compares with finitely many.", "anchors": ["src/cr/sparse/_src/opt/projectors/basic.py:proj_affine,proj_singleton,proj_zero,proj_identity"]}
{"id": "C29", "title": "Indicator functions describe exactly the projector's set", "statement": "Each indicator (zero, singleton, box, conic, l1 ball, l2 ball, affine) is 0 exactly on the documented set and infinity outside, and the matching projector always lands where the indicator is 0.", "quantifier": "all points, all parameters", "why_tests_cant": "Optimality against all competitors is a statement over an infinite set of points; a test compares with finitely many.", "anchors": ["src/cr/sparse/_src/opt/indicators/basic.py", "src/cr/sparse/_src/opt/indicators/lpballs.py", "src/cr/sparse/_src/opt/projectors/basic.py", "src/cr/sparse/_src/opt/projectors/lpballs.py"]}
{"id": "C30", "title": "prox_l1 is the proximal operator of q|x|_1", "statement": "prox_l1(q)(x, t) minimises q|z|_1 + |z-x|^2/(2t) over all z, for real x, uniquely.", "quantifier": "all dimensions, all x (zero entries included), all q > 0, t > 0", "why_tests_cant": "Optimality against all competitors is a statement over an infinite set of points; a test compares with finitely many.", "anchors": ["src/cr/sparse/_src/opt/proximal_ops/lpnorms.py:prox_l1", "src/cr/sparse/_src/opt/shrinkage.py:shrink"]}
{"id": "C31", "title": "prox_l2 is the proximal operator of q|x|_2", "statement": "prox_l2(q)(x, t) minimises q|z|_2 + |z-x|^2/(2t) over all z, including x = 0 and small x.", "quantifier": "all dimensions, all x, all q > 0, t > 0", "why_tests_cant": "Optimality against all competitors is a statement over an infinite set of points; a test compares with finitely many.", "anchors": ["src/cr/sparse/_src/opt/proximal_ops/lpnorms.py:prox_l2"]}
{"id": "C32", "title": "prox_l1_pos is the proximal operator of q|x|_1 on the positive orthant", "statement": "prox_l1_pos(q)(x,t) is non-negative and minimises q sum z + |z-x|^2/(2t) over z >= 0.", "quantifier": "all dimensions, all x, q > 0, t > 0", "why_tests_cant": "Optimality against all competitors is a statement over an infinite set of points; a test compares with finitely many.", "anchors": ["src/cr/sparse/_src/opt/proximal_ops/lpnorms.py:prox_l1_pos"]}
{"id": "C33", "title": "prox_owl1 is the proximal operator of the sorted l1 norm", "statement": "prox_owl1(lambda)(x,t) minimises the ordered weighted l1 norm plus |z-x|^2/(2t).", "quantifier": "all dimensions, all non-increasing non-negative weights, all x, t > 0", "why_tests_cant": "Optimality against all competitors is a statement over an infinite set of points; a test compares with finitely many.", "anchors": ["src/cr/sparse/_src/opt/proximal_ops/prox_sorted_l1.py:prox_owl1"]}
{"id": "C34", "title": "Moreau envelope value and gradient agree with the definition", "statement": "moreau_envelope(f, mu) returns inf_z f(z) + |x-z|^2/(2 mu) and (x - prox_{mu f}(x))/mu, for every mu > 0.", "quantifier": "all mu > 0, all x, all f with a prox operator", "why_tests_cant": "Tests use mu = 1, where the missing 1/mu factor is invisible.", "anchors": ["src/cr/sparse/_src/opt/prox_to_smooth.py:moreau_envelope"]}
{"id": "C35", "title": "Smooth functions return their true gradient", "statement": "For quad_matrix, quad_error, linear, constant, huber, entropy (and translates) the returned gradient is the derivative of the returned value at every point, so first-order solvers descend.", "quantifier": "all points, all parameters, all dimensions", "why_tests_cant": "Numerical differentiation at sample points cannot establish a derivative identity everywhere.", "anchors": ["src/cr/sparse/_src/opt/smooth/quad.py:smooth_quad_matrix,smooth_quad_error", "src/cr/sparse/_src/opt/smooth/linear.py", "src/cr/sparse/_src/opt/smooth/huber.py", "src/cr/sparse/_src/opt/smooth/entropy.py", "src/cr/sparse/_src/opt/smooth/constant.py", "src/cr/sparse/_src/opt/smooth/smooth.py"]}
{"id": "C36", "title": "Thresholding operators obey their threshold law", "statement": "soft/hard/half_threshold zero exactly the entries below their threshold, soft shrinks the rest by tau, hard keeps them, all preserve sign and never increase magnitude; the gamma/tau conversions are consistent with the thresholds; hard_threshold is the l0 prox.", "quantifier": "all real x, all tau >= 0", "why_tests_cant": "Optimality against all competitors is a statement over an infinite set of points; a test compares with finitely many.", "anchors": ["src/cr/sparse/_src/geo/thresholding.py:hard_threshold,soft_threshold,half_threshold,gamma_to_tau_hard_threshold,gamma_to_tau_half_threshold"]}
{"id": "C37", "title": "Conjugate gradient invariants and finite termination", "statement": "During cg.solve the stored residual always equals b - A x, the stored squared norm is its squared norm, search directions are A-conjugate, the energy-norm error never increases, and for SPD A the exact solution is reached within n iterations; the loop always stops.", "quantifier": "all SPD operators, all b, all start points, all iterations", "why_tests_cant": "A test runs a few solver instances; the claim is about every reachable loop state for every problem instance and every number of iterations.", "anchors": ["src/cr/sparse/_src/opt/cg.py:solve,solve_from"]}
{"id": "C38", "title": "Preconditioned conjugate gradient invariants", "statement": "During pcg.solve the stored residual equals b - A x, and stopping before the iteration limit certifies the preconditioned residual criterion; with the identity preconditioner it generates the CG iterates.", "quantifier": "all SPD operators and preconditioners, all b, all iterations", "why_tests_cant": "A test runs a few solver instances; the claim is about every reachable loop state for every problem instance and every number of iterations.", "anchors": ["src/cr/sparse/_src/opt/pcg.py:solve,solve_from"]}
{"id": "C39", "title": "SPG iterates stay feasible and never rise above the start value", "statement": "All iterates of spg.solve stay in the (convex) constraint set, every accepted step satisfies the non-monotone sufficient decrease condition unless the call limit was hit, and the objective never exceeds the largest remembered value. The solver returns only at a limit, when the last step promised less than progress_tol, or at a point whose projected gradient step is below optim_tol, which for convex functions bounds how much any feasible point can improve.", "quantifier": "all convex projections, all smooth functions, all start points, all histories", "why_tests_cant": "A test runs a few solver instances; the claim is about every reachable loop state for every problem instance and every number of iterations.", "anchors": ["src/cr/sparse/_src/opt/spg.py:line_search,solve_from"]}
{"id": "C40", "title": "FOM driver terminates with a consistent state", "statement": "The fom driver performs at most max_iters iterations (at least one), counts them, keeps iterates in the prox domain, stores operator values, smooth values and gradients that belong to the stored points, and when backtracking keeps the Lipschitz estimate the local quadratic upper bound holds; while the estimate is kept, the objective after k iterations is within 2 L0 |start-x*|^2/(k+1)^2 of the optimum.", "quantifier": "all smooth/prox functions, all options, all iterations", "why_tests_cant": "A test runs a few solver instances; the claim is about every reachable loop state for every problem instance and every number of iterations.", "anchors": ["src/cr/sparse/_src/fom/fom.py:fom,backtrack_L", "src/cr/sparse/_src/fom/defs.py"]}
{"id": "C41", "title": "ISTA decreases the objective and converges at rate 1/k", "statement": "With step size at most 1/L and the soft threshold matched to the step, the LASSO objective never increases along sls.ista iterates and after k iterations is within |x0-x*|^2/(2 step k) of the optimum; the stored residual equals b - A x; the iterates converge to a minimiser; a returned state used all iterations, or has a residual at most rtol |b|, or moved by at most xtol in its last iteration, in which case its objective is within xtol (|x0-x*| + xtol/2)/step of the optimum.", "quantifier": "all operators, all b, all start points, all k", "why_tests_cant": "A test runs a few solver instances; the claim is about every reachable loop state for every problem instance and every number of iterations.", "anchors": ["src/cr/sparse/_src/sls/ista.py:ista", "src/cr/sparse/_src/sls/defs.py"]}
{"id": "C42", "title": "FISTA converges at rate 1/k^2", "statement": "With step at most 1/L, after k iterations of sls.fista the LASSO objective is within 2|x0-x*|^2/(step (k+1)^2) of the optimum; a returned state used all iterations, or its residual at the extrapolated point is at most rtol |b|, or its last iteration moved x by at most xtol.", "quantifier": "all operators, all b, all start points, all k", "why_tests_cant": "A test runs a few solver instances; the claim is about every reachable loop state for every problem instance and every number of iterations.", "anchors": ["src/cr/sparse/_src/sls/fista.py:fista"]}
{"id": "C43", "title": "LSQR residual estimates are exact", "statement": "Along lsqr iterations without damping, the reported residual norm equals |b - A x| and the reported normal-equation residual norm equals |A^T (b - A x)|, and the reported operation counters equal the number of operator applications.", "quantifier": "all operators, all b, all iteration counts", "why_tests_cant": "A test runs a few solver instances; the claim is about every reachable loop state for every problem instance and every number of iterations.", "anchors": ["src/cr/sparse/_src/sls/lsqr.py:lsqr"]}
{"id": "C44", "title": "Matching pursuit keeps residual and solution consistent", "statement": "At every iteration of mp the residual equals y - Phi x, its norm never increases for unit-norm atoms, and the reported residual norm equals the norm of the residual.", "quantifier": "all dictionaries, all y, all iterations", "why_tests_cant": "A test runs a few solver instances; the claim is about every reachable loop state for every problem instance and every number of iterations.", "anchors": ["src/cr/sparse/_src/pursuit/mp.py:solve,matrix_solve"]}
{"id": "C45", "title": "OMP returns the least-squares fit on its support", "statement": "After every OMP iteration the coefficients are the least-squares solution on the selected atoms (residual orthogonal to each), as computed by the incremental Cholesky factor, for unit-norm linearly independent atoms.", "quantifier": "all dictionaries, all signals, all iteration counts", "why_tests_cant": "A test runs a few solver instances; the claim is about every reachable loop state for every problem instance and every number of iterations.", "anchors": ["src/cr/sparse/_src/pursuit/omp.py:matrix_solve,operator_solve,_operator_step", "src/cr/sparse/_src/pursuit/util.py:gram_chol_update"]}
{"id": "C46", "title": "OMP never selects an atom twice and shrinks the residual", "statement": "The atoms selected by OMP are pairwise distinct as long as the residual is non-zero, the support has one atom per iteration, the residual norm strictly decreases, and OMP stops within the requested number of atoms.", "quantifier": "all dictionaries with unit-norm atoms, all y, all K", "why_tests_cant": "A test runs a few solver instances; the claim is about every reachable loop state for every problem instance and every number of iterations.", "anchors": ["src/cr/sparse/_src/pursuit/omp.py:matrix_solve,operator_solve"]}
{"id": "C47", "title": "CoSaMP returns a K-sparse signal with consistent residual", "statement": "Every CoSaMP state has a support of exactly K distinct atoms, coefficients paired with the right atoms, and residual y - Phi x; the loop stops at the iteration limit.", "quantifier": "all dictionaries, all y, all K, all iterations", "why_tests_cant": "A test runs a few solver instances; the claim is about every reachable loop state for every problem instance and every number of iterations.", "anchors": ["src/cr/sparse/_src/pursuit/cosamp.py:matrix_solve,operator_solve"]}
{"id": "C48", "title": "Subspace pursuit keeps least-squares solutions on K atoms", "statement": "Every SP state has K distinct atoms, residual orthogonal to all of them, residual equal to y - Phi x, and the stop rule returns a state meeting the tolerance or the iteration limit.", "quantifier": "all dictionaries, all y, all K", "why_tests_cant": "A test runs a few solver instances; the claim is about every reachable loop state for every problem instance and every number of iterations.", "anchors": ["src/cr/sparse/_src/pursuit/sp.py:matrix_solve,operator_solve"]}
{"id": "C49", "title": "HTP keeps least-squares solutions on K atoms", "statement": "Every HTP state has K distinct atoms with residual orthogonal to them and a fixed point of the support stops the iteration (step size given; with normalized=True the step of the second pass is 0/0 in exact arithmetic, because the residual is orthogonal to the support).", "quantifier": "all dictionaries, all y, all K", "why_tests_cant": "A test runs a few solver instances; the claim is about every reachable loop state for every problem instance and every number of iterations.", "anchors": ["src/cr/sparse/_src/pursuit/htp.py:matrix_solve,operator_solve"]}
{"id": "C50", "title": "IHT iterates are K-sparse and decrease the residual for small steps", "statement": "Every IHT state is K-sparse with residual y - Phi x, and for step sizes at most 1/|Phi|^2 the residual norm never increases. With normalized=True the step is the exact line search along the gradient on the support, a pass that keeps the support lowers the squared residual by the step times the squared correlations, and the step is 0/0 exactly when the residual is orthogonal to the previous support (at the start: when y is orthogonal to the first K atoms).", "quantifier": "all dictionaries, all y, all K", "why_tests_cant": "A test runs a few solver instances; the claim is about every reachable loop state for every problem instance and every number of iterations.", "anchors": ["src/cr/sparse/_src/pursuit/iht.py:matrix_solve,operator_solve"]}
{"id": "C51", "title": "largest_indices and hard thresholding give a best K-term approximation", "statement": "largest_indices(h, K) returns K distinct indices whose magnitudes dominate all others, so keeping these entries is a best K-term approximation of h in l2; abs_max_idx returns a position of maximal magnitude.", "quantifier": "all vectors, all K <= n, ties included", "why_tests_cant": "Optimality against all competitors is a statement over an infinite set of points; a test compares with finitely many.", "anchors": ["src/cr/sparse/_src/pursuit/util.py:largest_indices,abs_max_idx"]}
{"id": "C52", "title": "Phase-transition configurations are unique and consistent", "statement": "configuration() lists every (K, M) pair once, each pair within 1 <= K <= M, and reverse_map sends every (rho, eta) grid cell to the (K, M) pair it produced, one entry per cell.", "quantifier": "all grids, all N", "why_tests_cant": "Rounding collisions depend on the grid; a test sees one grid.", "anchors": ["src/cr/sparse/_src/pursuit/phasetransition.py:configuration"]}
{"id": "C53", "title": "k-means assigns each point to a nearest centroid", "statement": "In every state the assignment of each point is a centroid of minimal distance, the distortion is the mean of these distances, new centroids are the means of their clusters.", "quantifier": "all point sets, all k, all iterations", "why_tests_cant": "A test runs a few solver instances; the claim is about every reachable loop state for every problem instance and every number of iterations.", "anchors": ["src/cr/sparse/_src/cluster/kmeans.py:find_nearest,find_assignment,find_new_centroids"]}
{"id": "C54", "title": "k-means terminates and never increases the within-cluster squared distance", "statement": "Along kmeans_with_seed iterations the sum of squared distances never increases; the loop stops within max_iters; kmeans returns the restart with minimal distortion. After at most k^n iterations the assignments and centroids no longer change; the stop test, which looks at the mean distance, may end a run before that.", "quantifier": "all point sets, all seeds, all k", "why_tests_cant": "A test runs a few solver instances; the claim is about every reachable loop state for every problem instance and every number of iterations.", "anchors": ["src/cr/sparse/_src/cluster/kmeans.py:kmeans_with_seed,kmeans"]}
{"id": "C55", "title": "labels_from_sizes and sizes_from_labels are inverse", "statement": "sizes_from_labels(labels_from_sizes(s)) = s, start/end indices delimit exactly the runs of equal label, and counts sum to the number of points.", "quantifier": "all size vectors (zero sizes included), all label vectors", "why_tests_cant": "A test evaluates the identity at a few random vectors and sizes; the claim is about every size, every entry and every operand, including boundary sizes a sample never draws.", "anchors": ["src/cr/sparse/_src/cluster/util.py:sizes_from_labels,labels_from_sizes,start_end_indices"]}
{"id": "C56", "title": "Graph Laplacians have the advertised spectrum structure", "statement": "For a symmetric non-negative affinity W: unnormalized_laplacian is symmetric positive semidefinite with zero row sums; the random-walk Laplacian has rows summing to zero; the normalised affinity is symmetric with the same kernel vector scaled.", "quantifier": "all sizes, all affinities with positive degrees", "why_tests_cant": "Optimality against all competitors is a statement over an infinite set of points; a test compares with finitely many.", "anchors": ["src/cr/sparse/_src/cluster/spectral.py:unnormalized_laplacian,normalized_random_walk_laplacian,normalized_symmetric_w"]}
{"id": "C57", "title": "best_map relabels optimally and clustering_error is invariant", "statement": "best_map_k returns a relabelling (permutation) that maximises agreement; clustering_error is between 0 and 1, 0 for identical clusterings up to renaming, invariant under renaming, best_map works for unequal numbers of labels.", "quantifier": "all label vectors, all k", "why_tests_cant": "Optimality against all competitors is a statement over an infinite set of points; a test compares with finitely many.", "anchors": ["src/cr/sparse/_src/cluster/util.py:best_map,best_map_k,clustering_error,clustering_error_k"]}
{"id": "C58", "title": "Sparse self-expressive representations convert losslessly", "statement": "For representations with distinct indices in each column, sparse_to_full_rep places each coefficient in its row/column, sparse_to_bcoo and bcoo_to_sparse are inverse, and rep_to_affinity is symmetric and non-negative.", "quantifier": "all representations, all sizes", "why_tests_cant": "A test evaluates the identity at a few random vectors and sizes; the claim is about every size, every entry and every operand, including boundary sizes a sample never draws.", "anchors": ["src/cr/sparse/_src/cluster/ssc/util.py:sparse_to_full_rep,sparse_to_bcoo,bcoo_to_sparse,rep_to_affinity"]}
{"id": "C59", "title": "Batched SSC-OMP equals unbatched SSC-OMP", "statement": "batch_build_representation_omp returns the same representation as build_representation_omp for every batch size.", "quantifier": "all data sets, all batch sizes, all K", "why_tests_cant": "Tests use unit-norm data and one batch size.", "anchors": ["src/cr/sparse/_src/cluster/ssc/omp.py:build_representation_omp,batch_build_representation_omp"]}
{"id": "C60", "title": "Subspace-preservation statistics follow their definition", "statement": "spr_error of a column is the fraction of its l1 norm outside its own cluster, between 0 and 1, spr_flag holds iff this is (numerically) zero, dense and sparse versions agree.", "quantifier": "all representations, all labels", "why_tests_cant": "A test evaluates the identity at a few random vectors and sizes; the claim is about every size, every entry and every operand, including boundary sizes a sample never draws.", "anchors": ["src/cr/sparse/_src/cluster/ssc/util.py:subspace_preservation_stats,sparse_subspace_preservation_stats"]}
{"id": "C61", "title": "SPGL1 LASSO solutions are feasible and certified", "statement": "Every iterate of spgl1.solve_lasso has l1 norm at most tau and residual b - A x; a stop by relative gap certifies an objective within opt_tol max(1,f) of the optimum; each iteration is a projected gradient step of spectral length halved by the line search; operator counters are exact.", "quantifier": "all operators, all b, all tau >= 0, all start points, all iterations", "why_tests_cant": "A test runs a few solver instances; the claim is about every reachable loop state for every problem instance and every number of iterations.", "anchors": ["src/cr/sparse/_src/cvx/spgl1.py:solve_lasso_from,curvy_line_search,lasso_metrics"]}
{"id": "C62", "title": "SPGL1 BPIC keeps its iterates consistent", "statement": "Every iterate of spgl1.solve_bpic after the first has l1 norm at most tau, residual b - A x, gradient -A^T r and reported residual norm |r|; a stop before the limits means the residual norm or the duality gap is within its tolerance.", "quantifier": "all operators, all b, all sigma >= 0, all iterations", "why_tests_cant": "A test runs a few solver instances; the claim is about every reachable loop state for every problem instance and every number of iterations.", "anchors": ["src/cr/sparse/_src/cvx/spgl1.py:solve_bpic_from,update_xrgf,bpic_metrics"]}
{"id": "C63", "title": "l1ls stays strictly interior and certifies its solution", "statement": "From every strictly feasible start, all iterates of l1ls satisfy |x_i| < u_i, the dual objective is a lower bound on the optimum, and stopping by the relative gap with default start certifies F(x) <= (1+tol) F*. Search directions solve the Newton system up to the requested accuracy.", "quantifier": "all operators, all y, all lambda > 0, all strictly feasible start points, all iterations", "why_tests_cant": "A test runs a few solver instances; the claim is about every reachable loop state for every problem instance and every number of iterations.", "anchors": ["src/cr/sparse/_src/cvx/l1ls.py:solve_from,solve"]}
{"id": "C64", "title": "YALL1 returns consistent solutions and correct zero-solution shortcut", "statement": "For every problem form, the residual returned with x equals b - A x (also with nonneg or W), the dual iterate stays within the weight box, and the zero shortcut is taken exactly when zero is optimal.", "quantifier": "all operators, all b, all weights, all rho/delta", "why_tests_cant": "A test runs a few solver instances; the claim is about every reachable loop state for every problem instance and every number of iterations.", "anchors": ["src/cr/sparse/_src/cvx/adm/yall1.py:solve,solve_bp,solve_l1_l2,solve_l1_l2con,finalize"]}
{"id": "C65", "title": "FOCUSS iterates solve the measurement equations", "statement": "Every iterate of matrix_solve_noiseless after the first satisfies Phi x = y, never revives a zero entry, and minimises the reweighted norm among all solutions.", "quantifier": "all full-row-rank dictionaries, all y, all p, all iterations", "why_tests_cant": "A test runs a few solver instances; the claim is about every reachable loop state for every problem instance and every number of iterations.", "anchors": ["src/cr/sparse/_src/cvx/focuss.py:matrix_solve_noiseless,step_noiseless"]}
{"id": "C66", "title": "Coherence is the largest correlation of two distinct atoms", "statement": "coherence(A) equals the maximum of |<a_i,a_j>| over i != j, real or complex A, and coherence_with_index names a pair attaining it.", "quantifier": "all dictionaries with at least two atoms", "why_tests_cant": "Optimality against all competitors is a statement over an infinite set of points; a test compares with finitely many.", "anchors": ["src/cr/sparse/_src/dict/props.py:gram,coherence,coherence_with_index"]}
{"id": "C67", "title": "Babel function is the worst cumulative coherence", "statement": "babel(A)[k-1] equals the maximum over atoms i and sets of k other atoms of the sum of |<a_i,a_j>|, is non-decreasing in k and at most k times the coherence.", "quantifier": "all dictionaries with unit-norm atoms, all k", "why_tests_cant": "Optimality against all competitors is a statement over an infinite set of points; a test compares with finitely many.", "anchors": ["src/cr/sparse/_src/dict/props.py:babel"]}
{"id": "C68", "title": "minimum_coherence is a lower bound for every frame", "statement": "No dictionary of n unit-norm atoms in dimension m has coherence below minimum_coherence(m,n).", "quantifier": "all dictionaries, all m < n", "why_tests_cant": "Optimality against all competitors is a statement over an infinite set of points; a test compares with finitely many.", "anchors": ["src/cr/sparse/_src/dict/grass.py:minimum_coherence"]}
{"id": "C69", "title": "Hadamard matrices are orthogonal with entries +-1", "statement": "hadamard(n) is symmetric with entries +-1 and H H^T = n I for every power of two, other n are rejected; hadamard_basis is orthonormal.", "quantifier": "all n", "why_tests_cant": "A test evaluates the identity at a few random vectors and sizes; the claim is about every size, every entry and every operand, including boundary sizes a sample never draws.", "anchors": ["src/cr/sparse/_src/dict/simple.py:hadamard,hadamard_basis,dirac_hadamard_basis"]}
{"id": "C70", "title": "Random sensing matrices meet their structural guarantee", "statement": "Whatever the random draws: rademacher_mtx columns have unit norm, sparse_binary_mtx has exactly d equal non-zeros per column and unit norm, gaussian_mtx with normalize_atoms has unit columns, random_orthonormal_rows has orthonormal rows.", "quantifier": "all PRNG outcomes, all sizes", "why_tests_cant": "A test sees finitely many seeds.", "anchors": ["src/cr/sparse/_src/dict/simple.py:rademacher_mtx,sparse_binary_mtx,gaussian_mtx,random_onb,random_orthonormal_rows"]}
{"id": "C71", "title": "Synthetic sparse signals are exactly supported on the returned index set", "statement": "Whatever the random draws, sparse_normal_representations, sparse_biuniform_representations, sparse_spikes and sparse_normal_blocks return K distinct sorted positions (blocks), are zero elsewhere and have magnitudes in [a,b] / {1}.", "quantifier": "all PRNG outcomes, all sizes", "why_tests_cant": "A test sees finitely many seeds.", "anchors": ["src/cr/sparse/_src/data/synthetic/random.py:sparse_normal_representations,sparse_biuniform_representations,sparse_spikes,sparse_normal_blocks,index_sets,points_orthogonal_to"]}
{"id": "C72", "title": "Synthetic subspaces have the requested angles", "statement": "two_subspaces_at_angle and three_subspaces_at_angle return orthonormal bases whose only non-zero cross correlation is cos(theta) between the first vectors; uniform_points_on_subspaces returns unit vectors in the subspaces, in the order of the bases.", "quantifier": "all angles, all dimensions with enough room, all PRNG outcomes", "why_tests_cant": "A test checks one angle and seed.", "anchors": ["src/cr/sparse/_src/data/synthetic/subspaces.py:two_subspaces_at_angle,three_subspaces_at_angle,uniform_points_on_subspaces"]}
{"id": "C73", "title": "BSBL building blocks compute the Gaussian posterior", "statement": "cum_phi_b_phi equals Phi Sigma0 Phi^T, compute_mu_x is the posterior mean solving the regularised problem, compute_cov_x is the second moment Sigma_x + mu mu^T, pruned blocks stay zero forever.", "quantifier": "all dictionaries, all block partitions, all priors", "why_tests_cant": "A test evaluates the identity at a few random vectors and sizes; the claim is about every size, every entry and every operand, including boundary sizes a sample never draws.", "anchors": ["src/cr/sparse/_src/block/bsbl.py:get_subdicts,cum_phi_b_phi,compute_h,compute_mu_x,compute_sigma_x,compute_cov_x,update_gammas_em_pruned,bsbl_em"]}
{"id": "C74", "title": "Block partitions tile the index range", "statement": "start_locations/end_locations describe disjoint consecutive blocks of length b covering 0..n-1 when b divides n, and block_lens_from_start_locs inverts them (lengths positive, summing to n).", "quantifier": "all n, b", "why_tests_cant": "A test evaluates the identity at a few random vectors and sizes; the claim is about every size, every entry and every operand, including boundary sizes a sample never draws.", "anchors": ["src/cr/sparse/_src/block/util.py:start_locations,end_locations,block_lens_from_start_locs"]}
{"id": "C75", "title": "Progress tracker records the whole history in order", "statement": "ProgressTracker records one entry per call at the requested cadence, in order, and never loses or alters earlier entries.", "quantifier": "all call sequences", "why_tests_cant": "Histories are unbounded.", "anchors": ["src/cr/sparse/_src/tracker.py:ProgressTracker"]}
{"id": "C76", "title": "Recovery performance metrics follow their definition", "statement": "RecoveryPerformance partitions the index set into T0, T1 and the rest, counts the support overlap correctly (between 0 and K) and reports perfect recovery exactly when the K largest entries are the true support. The residual is y - Phi x_hat; under the restricted isometry property the error is bounded by the reported residual plus the noise, and without noise the two reported SNRs differ by at most 10 log10((1+delta)/(1-delta)) dB.", "quantifier": "all dictionaries, all signals, all estimates", "why_tests_cant": "A test evaluates the identity at a few random vectors and sizes; the claim is about every size, every entry and every operand, including boundary sizes a sample never draws.", "anchors": ["src/cr/sparse/_src/tools/performance.py:RecoveryPerformance"]}
{"id": "C77", "title": "One-bit recovery keeps its sparsity and norm invariants", "statement": "measure_1bit returns values in {-1,+1}; BIHT/RFP iterates keep the documented sparsity/norm invariants and are invariant to positive scaling of the measured signal.", "quantifier": "all measurement matrices, all signals, all iterations", "why_tests_cant": "A test runs a few solver instances; the claim is about every reachable loop state for every problem instance and every number of iterations.", "anchors": ["src/cr/sparse/_src/cs/cs1bit/biht.py", "src/cr/sparse/_src/cs/cs1bit/rfp.py", "src/cr/sparse/_src/cs/cs1bit/util.py:measure_1bit"]}
{"id": "C78", "title": "Test problems are self-consistent", "statement": "For the generated problems with a known representation x, the observation equals A applied to x, A is the composition of sensing and sparsifying operators, and reconstruct(x) returns the original signal. Where the signal is built from a sparse representation, x is nonzero only at the drawn positions, with the drawn values; for the HeaviSine problem it has at most seven nonzero entries for every size.", "quantifier": "all sizes n, all PRNG outcomes", "why_tests_cant": "A test evaluates the identity at a few random vectors and sizes; the claim is about every size, every entry and every operand, including boundary sizes a sample never draws.", "anchors": ["src/cr/sparse/_src/problems/prob001.py", "src/cr/sparse/_src/problems/prob003.py", "src/cr/sparse/_src/problems/prob007.py", "src/cr/sparse/_src/problems/prob009.py", "src/cr/sparse/_src/problems/prob010.py", "src/cr/sparse/_src/problems/problems.py:generate,names"]}
{"id": "C79", "title": "Gaussian kernels are normalised and symmetric", "statement": "kernel_gaussian(size, sigma) has positive entries summing to one, is symmetric under both reflections, and peaks at the centre.", "quantifier": "all sizes, all sigmas", "why_tests_cant": "A test evaluates the identity at a few random vectors and sizes; the claim is about every size, every entry and every operand, including boundary sizes a sample never draws.", "anchors": ["src/cr/sparse/_src/vision/kernels.py:kernel_gaussian"]}
{"id": "C80", "title": "matching_atoms_ratio is a ratio of matched atoms", "statement": "matching_atoms_ratio(A,B) lies in [0,1], equals 1 when B is a signed permutation of unit-norm A, and counts exactly the atoms of A having a near-parallel atom in B.", "quantifier": "all dictionaries, all thresholds", "why_tests_cant": "A test evaluates the identity at a few random vectors and sizes; the claim is about every size, every entry and every operand, including boundary sizes a sample never draws.", "anchors": ["src/cr/sparse/_src/dict/comparison.py:matching_atoms_ratio"]}
{"id": "C81", "title": "smooth_dual is the smoothed conjugate with its gradient", "statement": "smooth_dual(f, mu, x0) is minus the conjugate of f + |.-x0|^2/(2 mu): its value is attained at the point whose negative is the returned gradient, that gradient is the gradient of the returned value, and it is Lipschitz with constant mu.", "quantifier": "all convex prox-capable f, all mu > 0, all centres, all points", "why_tests_cant": "A test evaluates the identity at a few random vectors and sizes; the claim is about every size, every entry and every operand, including boundary sizes a sample never draws.", "anchors": ["src/cr/sparse/_src/fom/scd.py:smooth_dual"]}
{"id": "C82", "title": "LSQR norm estimates mean what they say", "statement": "The x_norm reported by lsqr is the norm of the current solution, and the reported A_norm never exceeds the Frobenius norm of the operator stacked on damp times the identity.", "quantifier": "all operators, all b, all starting points, all damping values, all iteration counts", "why_tests_cant": "A test runs a few solver instances; the claim is about every reachable loop state for every problem instance and every number of iterations.", "anchors": ["src/cr/sparse/_src/sls/lsqr.py:lsqr"]}
{"id": "C83", "title": "LSQR iterates are optimal and finitely exact", "statement": "After k iterations lsqr's x minimises |b - A x|^2 + damp^2 |x - x0|^2 over x0 plus the k-dimensional Krylov space of A^T A and A^T (b - A x0); the reported residual norm never increases; no iteration divides by zero; with zero tolerances and a limit above the number of unknowns the normal equations hold exactly on return.", "quantifier": "all operators, all b, all starting points, all damping values", "why_tests_cant": "A test runs a few solver instances; the claim is about every reachable loop state for every problem instance and every number of iterations.", "anchors": ["src/cr/sparse/_src/sls/lsqr.py:lsqr"]}
{"id": "C84", "title": "l1ls counts operator applications exactly", "statement": "The n_times and n_trans reported by l1ls equal the numbers of calls of the operator and of its adjoint made so far.", "quantifier": "all operators, all start points, all iterations, whatever the inner conjugate gradient solver does", "why_tests_cant": "A test runs a few solver instances; the claim is about every reachable loop state for every problem instance and every number of iterations.", "anchors": ["src/cr/sparse/_src/cvx/l1ls.py:solve_from"]}
{"id": "C85", "title": "YALL1 fixed points are solutions", "statement": "For an operator with orthonormal rows, any state that a YALL1 iteration leaves unchanged gives a solution of the chosen problem (basis pursuit, penalised or constrained, weighted, with or without the sign constraint), whatever the step parameter.", "quantifier": "all operators with A A^T = I, all b, all positive weights, all rho/delta, all states", "why_tests_cant": "A test runs a few solver instances; the claim is about every reachable loop state for every problem instance and every number of iterations.", "anchors": ["src/cr/sparse/_src/cvx/adm/yall1.py:solve,solve_bp,solve_l1_l2,solve_l1_l2con"]}
{"id": "C86", "title": "YALL1 converges to a solution", "statement": "For an operator with orthonormal rows and every step parameter gamma strictly between 0 and the golden ratio (the default is 1), the YALL1 iterates converge to a solution of the chosen problem from every starting point (with a sign constraint: whenever there is a nonnegative feasible point, one strictly within the residual bound if a bound is given), and for gamma = 1 from the second iteration on never move away from any primal-dual solution.", "quantifier": "all operators with A A^T = I, all b, all positive weights, all rho/delta, all starting points, the infinite iteration", "why_tests_cant": "A limit is not observable in finitely many steps.", "anchors": ["src/cr/sparse/_src/cvx/adm/yall1.py:solve,solve_bp,solve_l1_l2,solve_l1_l2con"]}
{"id": "C87", "title": "FOCUSS never loses sparsity", "statement": "For 0 < p < 1 the sum of |x_i|^(2-2p) never increases from one FOCUSS iteration to the next after the first; for the default p = 1 the product of the magnitudes over the entries nonzero before the iteration never increases.", "quantifier": "all dictionaries, all y, all p, all iterations", "why_tests_cant": "A test runs a few solver instances; the claim is about every reachable loop state for every problem instance and every number of iterations.", "anchors": ["src/cr/sparse/_src/cvx/focuss.py:matrix_solve_noiseless,step_noiseless"]}
{"id": "C88", "title": "BSBL keeps finite, valid posterior parameters", "statement": "At every iteration of bsbl_em and bsbl_bo the solution, noise variance and block scalars are finite, the noise variance is positive, block scalars are nonnegative, covariances of active blocks are positive definite and the reported residual is that of the reported solution.", "quantifier": "all dictionaries, all y, all block sizes, all learning rules, all iterations", "why_tests_cant": "A test runs a few solver instances; the claim is about every reachable loop state for every problem instance and every number of iterations.", "anchors": ["src/cr/sparse/_src/block/bsbl.py:bsbl_em,bsbl_bo,update_lambda_high_snr,update_lambda_low_snr,update_gammas_em_pruned,update_gammas_bo_pruned"]}
{"id": "C89", "title": "sqrtm_svd is a matrix square root", "statement": "sqrtm_svd(B) squares back to the symmetric matrix B, for any singular value decomposition, and the BSBL-BO scalar update is g sqrt(hy^T B hy / tr(hphi B)).", "quantifier": "all symmetric matrices, all singular value decompositions", "why_tests_cant": "A test evaluates the identity at a few random vectors and sizes; the claim is about every size, every entry and every operand, including boundary sizes a sample never draws.", "anchors": ["src/cr/sparse/_src/block/bsbl.py:sqrtm_svd,update_gammas_bo_pruned"]}
{"id": "C90", "title": "BSBL options are honoured", "statement": "learn_lambda = 0 keeps the given noise variance, max_iters bounds the iterations, epsilon bounds the last change on early return, learn_block_corr = 0 ignores intra-block correlation, and given option values are passed on.", "quantifier": "all problems, all option values, all iterations", "why_tests_cant": "A test runs a few solver instances; the claim is about every reachable loop state for every problem instance and every number of iterations.", "anchors": ["src/cr/sparse/_src/block/bsbl.py:bsbl_em,bsbl_bo,bsbl_em_options,BSBL_Options"]}
{"id": "C91", "title": "SSC-OMP representations", "statement": "build_representation_omp represents every column by K distinct other columns, each the most correlated with the current residual, with least squares coefficients: the reported residual is the column minus the combination and is orthogonal to the chosen columns. For data from mutually orthogonal subspaces only columns of the own subspace are used.", "quantifier": "all data matrices, all K, all columns", "why_tests_cant": "A test runs a few solver instances; the claim is about every reachable loop state for every problem instance and every number of iterations.", "anchors": ["src/cr/sparse/_src/cluster/ssc/omp.py:build_representation_omp,batch_build_representation_omp"]}
{"id": "C92", "title": "Angles and nearest neighbours of points", "statement": "angles_between_points returns the pairwise angles in degrees; min_angles_* and nearest_neighbors_* return for every point the smallest angle to, and the index of, the nearest other point of its cluster and of the other clusters; sorted_neighbors lists the other points by increasing angle; inn_positions is the position of the first neighbour of the same cluster.", "quantifier": "all data matrices, all cluster sizes, all points", "why_tests_cant": "A test evaluates the identity at a few random vectors and sizes; the claim is about every size, every entry and every operand, including boundary sizes a sample never draws.", "anchors": ["src/cr/sparse/_src/cluster/ssc/util.py:angles_between_points,min_angles_inside_cluster,min_angles_outside_cluster,nearest_neighbors_inside_cluster,nearest_neighbors_outside_cluster,sorted_neighbors,inn_positions"]}
{"id": "C93", "title": "The smoothed conic dual solvers solve their problem", "statement": "scd, bp_scd and dantzig_scd approach the solution of minimise f(x) + mu/2 |x-x0|^2 + h(Ax+b): the point recovered from the dual iterate is the minimiser of the Lagrangian and tends to the solution of the documented problem.", "quantifier": "all operators, all b, all mu > 0, all centres and start points, all iterations", "why_tests_cant": "A test runs a few solver instances; the claim is about every reachable loop state for every problem instance and every number of iterations.", "anchors": ["src/cr/sparse/_src/fom/scd.py:scd", "src/cr/sparse/_src/fom/bp_scd.py:bp_scd", "src/cr/sparse/_src/fom/dantzig_scd.py:dantzig_scd"]}
{"id": "C94", "title": "lanbpro returns a Lanczos bidiagonalisation", "statement": "lanbpro(A, k, p0) returns k orthonormal columns U, k orthonormal columns V and non-negative alpha, beta such that A V = U B + p e_k^T and A^T U = V B^T for the lower bidiagonal B with diagonal alpha and subdiagonal beta; the residual vector p is orthogonal to U and has norm beta_k. This holds whatever the estimates which drive the partial reorthogonalisation decide, and for every matrix A of rank at least 1, also when the range of A is exhausted.", "quantifier": "every real inner product space pair, every linear operator with its adjoint, every k, start vector outside the kernel of the adjoint, options and estimate functions", "why_tests_cant": "A test evaluates the identity at a few random vectors and sizes; the claim is about every size, every entry and every operand, including boundary sizes a sample never draws.", "anchors": ["src/cr/sparse/_src/sls/svdpack/lanbpro.py:lanbpro_init,lanbpro_iteration,lanbpro,new_p_vec,new_r_vec"]}
{"id": "C95", "title": "lansvd_simple returns singular values and vectors", "statement": "lansvd_simple(A, k, p0) returns U, S, V such that S_0 >= S_1 >= ... >= 0, the k columns of U and the k columns of V are orthonormal, A V_i is S_i U_i up to the reported error bound, every S_i is at most the norm of A, S and V are exactly the k largest singular values and right singular vectors when the iterations reach the number of columns, and n_converged counts the triplets whose error is below the bound.", "quantifier": "every real operator with its adjoint, every k and start vector, every estimate function, every reduced SVD of the bidiagonal matrix", "why_tests_cant": "A test evaluates the identity at a few random vectors and sizes; the claim is about every size, every entry and every operand, including boundary sizes a sample never draws.", "anchors": ["src/cr/sparse/_src/sls/svdpack/lansvd.py:lansvd_simple"]}
{"id": "C96", "title": "Spectral clustering finds the connected components", "statement": "For a symmetric non-negative affinity matrix whose graph has exactly k connected components, unnormalized_k and normalized_random_walk_k (no isolated nodes) return labels below k that are equal for nodes of the same component; exactly the last k singular values are 0; connectivity is 0 exactly when the graph is not connected; if one of the k-means restarts starts with one node of each component, two nodes get equal labels exactly when they are in the same component. unnormalized and normalized_random_walk report the number of components. The reported connectivity is the smallest stretching of a vector with sum zero by the reported Laplacian (the algebraic connectivity).", "quantifier": "every number of nodes, every affinity matrix, every component structure, every valid SVD of the Laplacian, every list of random restarts", "why_tests_cant": "A test evaluates the identity at a few random vectors and sizes; the claim is about every size, every entry and every operand, including boundary sizes a sample never draws.", "anchors": ["src/cr/sparse/_src/cluster/spectral.py:unnormalized,unnormalized_k,normalized_random_walk,normalized_random_walk_k", "src/cr/sparse/_src/cluster/kmeans.py:kmeans"]}
{"id": "C97", "title": "2-D wavelet transform is an isometry with exact inverse", "statement": "For an orthonormal one-level wavelet pair, lop.dwt2D(shape, level) maps every image of the given shape to an array of the padded shape, its trans is the adjoint and reconstructs the image exactly, and inner products are preserved; a level above the maximum of either axis is rejected; basis=True exchanges the two functions.", "quantifier": "all image shapes, levels, images and coefficient arrays, both orders of the axes", "why_tests_cant": "A test evaluates the identity at a few random vectors and sizes; the claim is about every size, every entry and every operand, including boundary sizes a sample never draws.", "anchors": ["src/cr/sparse/_src/lop/dwt.py:wavedec2,waverec2,dwt2D"]}
{"id": "C98", "title": "Percentile thresholding removes the stated fraction of the entries", "statement": "hard/soft/half_threshold_percentile(x, perc) set to zero every entry of magnitude below the perc-th percentile of the magnitudes, at least floor(perc/100 (n-1)) + 1 entries for hard and soft; hard keeps the others unchanged, soft shrinks them by the percentile, half keeps their sign and at least two thirds of their magnitude; every entry of the result is finite.", "quantifier": "all non-empty vectors (real and complex), all percentages between 0 and 100", "why_tests_cant": "A test evaluates the identity at a few random vectors and sizes; the claim is about every size, every entry and every operand, including boundary sizes a sample never draws.", "anchors": ["src/cr/sparse/_src/geo/thresholding.py:hard_threshold_percentile,soft_threshold_percentile,half_threshold_percentile"]}
{"id": "C99", "title": "Ricker wavelet has zero mean and peak frequency f0", "statement": "ricker(t, f0) is even, equals 1 at t = 0 and is below 1 elsewhere, has its two zeros at +-1/(sqrt(2) pi f0) and the minimum -2 exp(-3/2); its integral over time is zero, and the magnitude of its Fourier transform is largest exactly at the frequencies +-f0.", "quantifier": "all peak frequencies f0 > 0, all times, all frequencies", "why_tests_cant": "The integral, the Fourier transform and the location of its maximum are statements about a continuum of times and frequencies.", "anchors": ["src/cr/sparse/_src/geo/wavelets.py:ricker"]}
{"id": "C100", "title": "N-dimensional convolution is a convolution with an exact adjoint", "statement": "For every data shape of any dimension, every filter along increasing axes and every filter origin inside the filter, lop.convolveND (and convolve2D for two-dimensional filters) returns arrays of the declared shape, its forward direction is the convolution with the filter placed at that origin (zero outside the data), and its backward direction is the adjoint.", "quantifier": "all dimensions, data shapes, filter shapes and entries, axes, origins, input arrays", "why_tests_cant": "A test evaluates the identity at a few random vectors and sizes; the claim is about every size, every entry and every operand, including boundary sizes a sample never draws.", "anchors": ["src/cr/sparse/_src/lop/conv.py:convolveND,convolve2D"]}
{"id": "C101", "title": "The inner product operator", "statement": "lop.dot(v) maps x to the inner product of v and x, its backward direction is the adjoint, and adjoint=True gives the adjoint operator.", "quantifier": "all vectors v, inputs x and coefficients", "why_tests_cant": "A test evaluates the identity at a few random vectors and sizes; the claim is about every size, every entry and every operand, including boundary sizes a sample never draws.", "anchors": ["src/cr/sparse/_src/lop/dot.py:dot"]}
{"id": "C102", "title": "The Walsh-Hadamard basis operator", "statement": "lop.walsh_hadamard_basis(n) exists exactly for powers of two; it is self-adjoint, its own inverse, preserves inner products, has entries of absolute value 1/sqrt(n) and agrees with dict.hadamard_basis(n).", "quantifier": "all n and all input vectors", "why_tests_cant": "A test evaluates the identity at a few random vectors and sizes; the claim is about every size, every entry and every operand, including boundary sizes a sample never draws.", "anchors": ["src/cr/sparse/_src/lop/onb.py:walsh_hadamard_basis"]}
{"id": "C103", "title": "Wavelet bases are orthonormal", "statement": "For an orthonormal wavelet, dict.wavelet_basis(n, name, level) exists exactly when n is a power of two and the level is not above the maximum, and its columns form an orthonormal basis.", "quantifier": "all n, levels and orthonormal one-level wavelet transforms", "why_tests_cant": "A test evaluates the identity at a few random vectors and sizes; the claim is about every size, every entry and every operand, including boundary sizes a sample never draws.", "anchors": ["src/cr/sparse/_src/dict/simple.py:wavelet_basis"]}
{"id": "C104", "title": "Unions of orthonormal bases are tight frames", "statement": "dict.dirac_cosine_basis(n) and dict.dirac_hadamard_cosine_basis(n) consist of orthonormal blocks (identity, Hadamard, DCT) with unit norm atoms, and their frame operator is 2I respectively 3I.", "quantifier": "all n (powers of two for Hadamard)", "why_tests_cant": "A test evaluates the identity at a few random vectors and sizes; the claim is about every size, every entry and every operand, including boundary sizes a sample never draws.", "anchors": ["src/cr/sparse/_src/dict/simple.py:dirac_cosine_basis,dirac_hadamard_cosine_basis"]}
{"id": "C105", "title": "Frame bounds are the optimal frame bounds", "statement": "dict.frame_bounds(A), upper_frame_bound and lower_frame_bound return numbers with lower*||x|| <= ||A^H x|| <= upper*||x|| for every x, both attained, and dict.frame(A) is the frame operator.", "quantifier": "all dictionaries and all vectors x", "why_tests_cant": "A test evaluates the identity at a few random vectors and sizes; the claim is about every size, every entry and every operand, including boundary sizes a sample never draws.", "anchors": ["src/cr/sparse/_src/dict/props.py:frame,frame_bounds,upper_frame_bound,lower_frame_bound"]}
{"id": "C106", "title": "A recovery experiment records every trial, compares the solvers on the same instances and loses at most its last row", "statement": "With at least two trials per level, the table of RecoveryTrialsAtFixed_M_N has one row per solver and sparsity level in loop order; each row's trials, successes, failures, success rate and iteration statistics summarise that solver's results on the instances of the level, which are the same for all solvers; whenever the run is interrupted, the CSV holds all rows computed so far except possibly the last; the signals of a level are drawn with distinct, unused keys.", "quantifier": "all numbers of dictionaries and signals, sparsity levels, solvers, generators and interruption points", "why_tests_cant": "A test runs a few solver instances; the claim is about every reachable loop state for every problem instance and every number of iterations.", "anchors": ["src/cr/sparse/_src/tools/trials_at_fixed_m_n.py:RecoveryTrialsAtFixed_M_N,__call__,_process,save,Row"]}
{"id": "C107", "title": "SPGL1 never overshoots the optimal l1 norm by more than its duality gap", "statement": "In solve_bpic and solve_bp the first l1 budget tau is at most the l1 norm of every point meeting the residual bound, and whenever tau grows it stays below that l1 norm plus the current duality gap over the dual norm of the gradient; tau_change computes exactly the step the loop takes.", "quantifier": "all operators with an exact adjoint, data, residual bounds, options, reachable states and feasible points", "why_tests_cant": "A test evaluates the identity at a few random vectors and sizes; the claim is about every size, every entry and every operand, including boundary sizes a sample never draws.", "anchors": ["src/cr/sparse/_src/cvx/spgl1.py:solve_bpic,solve_bp,solve_bpic_from,tau_change,compute_rgf"]}
{"id": "C108", "title": "The weighted norms of SPGL1 are dual to each other", "statement": "For positive weights, |<x,y>| <= weighted_primal_l1_norm(x) * weighted_dual_linf_norm(y) for all x and y, the bound is attained for every y, and unit weights give the plain norms.", "quantifier": "all vectors and positive weights", "why_tests_cant": "A test evaluates the identity at a few random vectors and sizes; the claim is about every size, every entry and every operand, including boundary sizes a sample never draws.", "anchors": ["src/cr/sparse/_src/cvx/spgl1.py:weighted_primal_l1_norm,weighted_dual_linf_norm"]}
{"id": "C109", "title": "OMP recovers sparse signals exactly under low coherence", "statement": "If the atoms of a dictionary have unit norm and pairwise inner products at most mu in magnitude, and a signal y is a combination with K non-zero coefficients of atoms with (2K-1) mu < 1, then orthogonal matching pursuit run on y (matrix version with sparsity K at least two, operator version with zero tolerance) returns exactly the K atoms of the signal with exactly its coefficients and a zero residual.", "quantifier": "every unit-norm dictionary of coherence mu in any inner product space, every support S with (2|S|-1) mu < 1, every choice of non-zero coefficients", "why_tests_cant": "A test evaluates the identity at a few random vectors and sizes; the claim is about every size, every entry and every operand, including boundary sizes a sample never draws.", "anchors": ["src/cr/sparse/_src/pursuit/omp.py:matrix_solve,operator_solve"]}
{"id": "C110", "title": "IHT converges to the sparse signal under the restricted isometry property", "statement": "Let the dictionary scaled by the fixed step size have restricted isometry constant delta of order 3K. For measurements y = Phi a + e of a signal with at most K non-zero entries, each iterate x_t of iterative hard thresholding satisfies |x_t - a| <= (2 delta)^t |a| + 2 sqrt(mu (1 + delta)) (1 + ... + (2 delta)^(t-1)) |e|.", "quantifier": "every dictionary with the restricted isometry property, every K-sparse signal and every noise vector, every iteration", "why_tests_cant": "A test evaluates the identity at a few random vectors and sizes; the claim is about every size, every entry and every operand, including boundary sizes a sample never draws.", "anchors": ["src/cr/sparse/_src/pursuit/iht.py:solve"]}
{"id": "C111", "title": "HTP recovers the sparse signal in finitely many iterations", "statement": "Under the same restricted isometry property with delta < 1, each iteration of hard thresholding pursuit maps the error |x - a| to at most rho |x - a| + tau |e| with rho = sqrt(2) delta / sqrt(1 - delta^2); without noise the returned support contains that of a, the coefficients equal those of a and the residual is zero as soon as the iteration count t satisfies 2 sqrt(2) delta^2 rho^(t-2) |a| < min |a_i|.", "quantifier": "every dictionary with the restricted isometry property, every K-sparse signal and every noise vector, every iteration, every least-squares solver meeting its documentation", "why_tests_cant": "A test evaluates the identity at a few random vectors and sizes; the claim is about every size, every entry and every operand, including boundary sizes a sample never draws.", "anchors": ["src/cr/sparse/_src/pursuit/htp.py:solve"]}
{"id": "C112", "title": "Basis pursuit by YALL1 recovers sparse signals", "statement": "When the rows of A are orthonormal and A has the null space property on the support of a signal x for the weights, the iterates of the YALL1 basis pursuit solver for b = A x converge to x from every starting point; equal column norms and coherence mu with (2K-1) mu < 1 imply that property for every support of K entries.", "quantifier": "all operators with orthonormal rows, all signals, supports, positive weights and starting points", "why_tests_cant": "A test runs a few solver instances; the claim is about every reachable loop state for every problem instance and every number of iterations.", "anchors": ["src/cr/sparse/_src/cvx/adm/yall1.py:solve,solve_bp"]}
{"id": "C113", "title": "BSBL without pruning agrees with the pruned solver", "statement": "When no block falls to the pruning threshold during bsbl_bo, bsbl_bo_np sees the same states and returns the same result; it always returns after at most max_iters iterations; its values stay finite; the jittable and the plain noise update rule agree; option helpers keep given values and use the documented defaults.", "quantifier": "all dictionaries, measurements, options and iterations", "why_tests_cant": "A test runs a few solver instances; the claim is about every reachable loop state for every problem instance and every number of iterations.", "anchors": ["src/cr/sparse/_src/block/bsbl.py:bsbl_bo_np,bsbl_bo,update_lambda_rule_nojit,update_lambda_rule_jittable,update_gammas_em,update_gammas_bo,bsbl_bo_options"]}
{"id": "C114", "title": "The Grassmannian frame construction keeps a unit-diagonal Gram matrix of low rank, and returns a frame for it", "statement": "For an m x n initial frame, build_grassmannian_frame ends its loop with a Gram matrix g of unit diagonal and rank at most m, whatever the number of passes (unit-norm initial atoms if there is none). The Gram matrix of the returned frame is the positive semidefinite square root of g g^T; the returned atoms all have unit norm exactly when g is positive semidefinite, and then g is the Gram matrix of the frame. The documented purpose, a frame of unit-norm atoms with lower coherence, needs more than that.", "quantifier": "every initial frame with m <= n, every fraction, shrink factor and number of passes, every SVD meeting its documentation", "why_tests_cant": "A test evaluates the identity at a few random vectors and sizes; the claim is about every size, every entry and every operand, including boundary sizes a sample never draws.", "anchors": ["src/cr/sparse/_src/dict/grass.py:build_grassmannian_frame"]}
{"id": "C115", "title": "Fast normalised symmetric spectral clustering recovers connected components", "statement": "normalized_symmetric_fast_k(key, W, k) and normalized_symmetric_sparse_fast_k on an affinity matrix with exactly k connected components and no isolated node give two nodes the same label exactly when they are in the same component, when a restart of k-means starts with a node of each; the first k singular values are 1 and the others smaller; dense and sparse versions agree; the reported Laplacian sends the square roots of the degrees to zero and the reported connectivity is its second smallest singular value", "quantifier": "all affinity matrices of any size, all components, all restarts", "why_tests_cant": "A test evaluates the identity at a few random vectors and sizes; the claim is about every size, every entry and every operand, including boundary sizes a sample never draws.", "anchors": ["src/cr/sparse/_src/cluster/spectral.py:normalized_symmetric_w normalized_symmetric_fast_k normalized_symmetric_sparse_w normalized_symmetric_sparse_fast_k"]}
{"id": "C116", "title": "What the end of a YALL1 run says about its result", "statement": "yall1 solve ends by the zero shortcut, the iteration limit, a small relative change of x, or with a certificate; with a certificate the result nearly satisfies the constraint and its objective is within the tolerance of the objective of every feasible point; with orthonormal rows, a positive tolerance and gamma below the golden ratio the number of iterations is bounded independently of max_iters, so a large enough limit is never what ends the run; a starting point given by the user is used as given", "quantifier": "all operators with adjoint, data, weights, parameters and starting points", "why_tests_cant": "A test evaluates the identity at a few random vectors and sizes; the claim is about every size, every entry and every operand, including boundary sizes a sample never draws.", "anchors": ["src/cr/sparse/_src/cvx/adm/yall1.py:solve solve_bp solve_l1_l2 solve_l1_l2con"]}
{"id": "C117", "title": "Subspace pursuit recovers sparse signals stably", "statement": "On noisy measurements y = Phi a + e of a K-sparse signal, under the restricted isometry property of order 3K with constant delta, each pass of subspace pursuit makes the error of its estimate at most rho times the old error plus a multiple of the noise, rho = 2 delta/(1-delta^2); so the result is within a multiple of the noise of the signal after enough passes, and without noise sp.matrix_solve with zero tolerance returns the signal itself after finitely many, as long as enough atoms outside the support are correlated with the residual", "quantifier": "all dictionaries with the property, sparsities, signals, noise vectors, stop rules and iteration counts", "why_tests_cant": "A test evaluates the identity at a few random vectors and sizes; the claim is about every size, every entry and every operand, including boundary sizes a sample never draws.", "anchors": ["src/cr/sparse/_src/pursuit/sp.py:matrix_solve operator_solve"]}
{"id": "C118", "title": "CoSaMP recovers sparse signals stably", "statement": "On noisy measurements of a K-sparse signal, under the restricted isometry property of order 4K with constant delta, each pass of CoSaMP makes the error of its estimate at most rho times the old error plus a multiple of the noise, rho = sqrt(6) delta/sqrt(1-delta^2); the error of the first state is bounded although its coefficients may be attached to the wrong atoms; without noise cosamp.matrix_solve with zero tolerance returns the signal itself after finitely many passes, as long as enough atoms outside the support are correlated with the residual", "quantifier": "all dictionaries with the property, sparsities, signals, noise vectors, stop rules and iteration counts", "why_tests_cant": "A test evaluates the identity at a few random vectors and sizes; the claim is about every size, every entry and every operand, including boundary sizes a sample never draws.", "anchors": ["src/cr/sparse/_src/pursuit/cosamp.py:matrix_solve operator_solve"]}
{"id": "C119", "title": "The piecewise polynomial test signal", "statement": "The signal of problem 006 has length n, its pieces partition the positions, on each piece it is the cubic polynomial with that piece's coefficients on an equispaced grid from -3 to 3 (so fourth differences inside a piece vanish), and the coefficients are the draws rounded to two decimals", "quantifier": "all lengths, all numbers of pieces and all random draws", "why_tests_cant": "A test evaluates the identity at a few random vectors and sizes; the claim is about every size, every entry and every operand, including boundary sizes a sample never draws.", "anchors": ["src/cr/sparse/_src/problems/prob006.py:piecewise_polynomial"]}
{"id": "C120", "title": "The overlap reported by analyze_solution", "statement": "The overlap of the two supports which analyze_solution prints is at most the smaller support and the ratio is between 0 and 1; the ratio is 1 exactly when both supports have the same indices, in particular for a perfect reconstruction", "quantifier": "all signals, reconstructions and support sizes", "why_tests_cant": "A test evaluates the identity at a few random vectors and sizes; the claim is about every size, every entry and every operand, including boundary sizes a sample never draws.", "anchors": ["src/cr/sparse/_src/problems/problems.py:analyze_solution"]}
{"id": "C121", "title": "The spread operator", "statement": "spread_with_table adds each input to the output entries which the table names: output row k at the column table[ix, it, k], skipping NaN; a table value outside the output is rejected; the operator is linear", "quantifier": "all dimensions, tables and inputs", "why_tests_cant": "A test evaluates the identity at a few random vectors and sizes; the claim is about every size, every entry and every operand, including boundary sizes a sample never draws.", "anchors": ["src/cr/sparse/_src/lop/spread.py:spread_with_table"]}
{"id": "C122", "title": "The source separation test problem", "statement": "In problem 401 the data are the two sources mixed channel by channel, A is the mixing after the reconstruction, its two directions are adjoint on 2-D arrays, the windowed cosine dictionary represents every pair of sources exactly, and when the mixing can be undone the solutions of A x = b are exactly the coefficients which reconstruct the sources; A.shape describes the arrays A works on", "quantifier": "all audio files, mixing matrices and coefficient arrays", "why_tests_cant": "A test evaluates the identity at a few random vectors and sizes; the claim is about every size, every entry and every operand, including boundary sizes a sample never draws.", "anchors": ["src/cr/sparse/_src/problems/prob401.py:generate", "src/cr/sparse/_src/lop/basic.py:matrix", "src/cr/sparse/_src/lop/windowed_op.py:windowed_op"]}
{"id": "C123", "title": "Conjugate gradients converge at the Chebyshev rate", "statement": "For a symmetric positive definite A whose eigenvalues lie in [lo, hi], after k iterations of cg.solve_from the energy-norm error is at most 2 ((sqrt(kappa)-1)/(sqrt(kappa)+1))^k times the initial one, kappa = hi/lo; the residual of cg.solve after k iterations is at most 2 sqrt(kappa) times the k-th power of that rate times |b|; so a number of iterations that depends only on kappa and the tolerance is enough, whatever the dimension. For pcg the same holds with the bounds of the preconditioned operator M A.", "quantifier": "all symmetric positive definite operators on finite-dimensional spaces, all preconditioners, right hand sides, starts, limits and tolerances, every iteration", "why_tests_cant": "A test evaluates the identity at a few random vectors and sizes; the claim is about every size, every entry and every operand, including boundary sizes a sample never draws.", "anchors": ["src/cr/sparse/_src/opt/cg.py:solve_from,solve", "src/cr/sparse/_src/opt/pcg.py:solve_from,solve"]}
{"id": "C124", "title": "Norm and eigenvalue estimates converge to the leading value", "statement": "Let the start vector not be orthogonal to a leading direction. After k iterations normest holds an estimate s with cos(theta) |A|^(2k-1) <= s^(2k-1) <= |A|^(2k-1), theta the angle between the start and the leading direction, with no assumption on a spectral gap; power_iterations on a positive semidefinite operator likewise for its largest eigenvalue. With error_tolerance = 0 the returned estimates converge to the norm (eigenvalue) as max_iters grows, and are never nan. For a symmetric operator, possibly indefinite, whose other directions are stretched by at most mu < |lambda|, the vector returned by power_iterations approaches the eigenvector at the rate (mu/|lambda|)^k and the eigenvalue at the square of that rate. A positive tolerance bounds the relative error.", "quantifier": "all operators with attained norm, real or complex, all start vectors not orthogonal to a leading direction, all iteration limits and tolerances, every iteration", "why_tests_cant": "A test evaluates the identity at a few random vectors and sizes; the claim is about every size, every entry and every operand, including boundary sizes a sample never draws.", "anchors": ["src/cr/sparse/_src/lop/normest.py:normest", "src/cr/sparse/_src/sls/power.py:power_iterations"]}
{"id": "C125", "title": "LSQR converges at the rate of conjugate gradients", "statement": "After k passes of lsqr the excess of the (damped) least squares objective over its minimum is at most (2 rho^k)^2 times the initial excess, where rho = (sqrt(hi)-sqrt(lo))/(sqrt(hi)+sqrt(lo)), lo and hi are the squares of the smallest non-zero and of the largest singular value plus damp^2. The residual of a solvable system, the reported gradient norm and the distance to the solution nearest to the start decrease at the same rate, and the tolerance atol bounds the number of passes independently of max_iters.", "quantifier": "every linear operator with its adjoint on a finite dimensional space (also rank deficient ones), right-hand side, start, damping, tolerances and iteration limit; every state of the run", "why_tests_cant": "A test evaluates the identity at a few random vectors and sizes; the claim is about every size, every entry and every operand, including boundary sizes a sample never draws.", "anchors": ["src/cr/sparse/_src/sls/lsqr.py:lsqr"]}
{"id": "C126", "title": "The spectral projected gradient solver reaches its tolerances within an explicit number of iterations", "statement": "For a function that is bounded below on the convex set and has an upper quadratic model with curvature L there, each accepted line-search step is at least min(1, (1 - suff_dec)/(1e10 L)), so a block of memory iterations lowers the largest remembered value by a fixed amount; the iteration count of every state of the loop is below an explicit bound which does not depend on max_iters. If max_iters and max_f_calls exceed that bound the solver stops at an almost stationary point: all entries of the projected gradient step at the returned point are below optim_tol, or the squared norm of the projected gradient step at the previous point is below 1e10 * progress_tol. With progress_tol = 0 and a positive optim_tol it still stops, at a point whose projected gradient step is below optim_tol.", "quantifier": "All dimensions, convex sets, nearest-point projections, functions with the quadratic model, starting points, memory sizes and tolerances", "why_tests_cant": "A test evaluates the identity at a few random vectors and sizes; the claim is about every size, every entry and every operand, including boundary sizes a sample never draws.", "anchors": ["src/cr/sparse/_src/opt/spg.py:solve_from,line_search"]}
{"id": "C127", "title": "A progress tracker sees every state of a solver run, and records its true norms and SNR", "statement": "A solver given a tracker reports every state of its main loop to it exactly once and in order, from the initial state to the returned one, with more=True for all but the last. So the history of a ProgressTracker has one residual norm, signal norm, iteration number and (with a reference) SNR per state, the last ones those of the result, and convergence is announced exactly once. The signal norm of a state stored as support and coefficients is the norm of the full signal, and the SNR is 20 log10 of the ratio of the norms of reference and error.", "quantifier": "All solver runs of any length, all states and references, all values of every", "why_tests_cant": "A test evaluates the identity at a few random vectors and sizes; the claim is about every size, every entry and every operand, including boundary sizes a sample never draws.", "anchors": ["src/cr/sparse/_src/tracker.py:ProgressTracker,get_x_norm,get_r_norm,get_x_like,signal_noise_ratio", "src/cr/sparse/_src/cvx/spgl1.py:solve_lasso_from", "src/cr/sparse/_src/pursuit/sp.py:operator_solve", "src/cr/sparse/_src/pursuit/cosamp.py:operator_solve", "src/cr/sparse/_src/pursuit/mp.py:solve"]}
{"id": "C128", "title": "OMP is stable under noise and can find the sparsity level by itself", "statement": "For a dictionary of unit-norm atoms of coherence mu and measurements y = sum of K atoms (coefficients a_l) + noise whose correlation with every atom is at most eps, with |a_l| (1-(2K-1) mu) > 2 eps for every atom of the signal: omp.matrix_solve / operator_solve run for K passes selects exactly the atoms of the signal, returns coefficients within eps/(1-(K-1) mu) of the true ones and a residual not larger than the noise; and operator_solve with any max_iters >= K stops by itself after exactly K passes when its tolerance is between the noise level and |a_l| (1-(K-1) mu) - eps.", "quantifier": "all dictionaries, supports, coefficients, noise vectors, tolerances and iteration limits meeting the bounds", "why_tests_cant": "A test evaluates the identity at a few random vectors and sizes; the claim is about every size, every entry and every operand, including boundary sizes a sample never draws.", "anchors": ["src/cr/sparse/_src/pursuit/omp.py:matrix_solve,operator_solve"]}
{"id": "C129", "title": "The convex solvers recover sparse signals stably from noisy measurements", "statement": "For measurements b = A xs + e with the columns of A of equal norm and coherence mu and xs with K non-zero entries: YALL1's constrained form (delta >= |e|) converges from every start to x with c(1-(4K-1)mu)|x-xs|^2 <= (2 delta)^2 (for xs not sparse an extra term of its mass off S); every state of SPGL1's LASSO with tau = |xs|_1 has c(1-(4K-1)mu)|x-xs|^2 <= (r_norm+|e|)^2, with an explicit bound for what it returns; SPGL1's BPIC with sigma >= |e| has such a bound involving its reported gap; l1ls and YALL1's penalised form with penalty >= 4|A^T e|_inf return x within 1.5 lam sqrt(K)/(c(1-(32K-1)mu)) plus a term for the stopping tolerance.", "quantifier": "all operators of low coherence, signals, supports, noise vectors, starting points and solver options", "why_tests_cant": "A test evaluates the identity at a few random vectors and sizes; the claim is about every size, every entry and every operand, including boundary sizes a sample never draws.", "anchors": ["src/cr/sparse/_src/cvx/adm/yall1.py:solve,solve_l1_l2,solve_l1_l2con", "src/cr/sparse/_src/cvx/spgl1.py:solve_lasso_from,solve_bpic_from", "src/cr/sparse/_src/cvx/l1ls.py:solve"]}
{"id": "C130", "title": "SSC-OMP separates subspaces that are not orthogonal", "statement": "For points in several subspaces whose points are spread out more (cosine at least rho with another point of the same subspace, for every direction of the subspace) than the subspaces are near to each other (cosines at most c < rho), the representations built by build_representation_omp and batch_build_representation_omp with any K use only points of the point's own subspace: every other stored coefficient is zero, the subspace preservation flag is set and the error 0, the affinity between subspaces is zero; the squared residual decreases by 1 - rho^2 in every iteration; and spectral clustering of the affinity returns the subspaces when each is connected and some k-means restart starts with a point of each.", "quantifier": "every inner product space, arrangement of subspaces and points with the spread condition, K, batch size, least squares routine, SVD routine and k-means seeds", "why_tests_cant": "Optimality against all competitors is a statement over an infinite set of points; a test compares with finitely many.", "anchors": ["src/cr/sparse/_src/cluster/ssc/omp.py:build_representation_omp,batch_build_representation_omp", "src/cr/sparse/_src/cluster/ssc/util.py:rep_to_affinity,sparse_to_full_rep,sparse_subspace_preservation_stats", "src/cr/sparse/_src/cluster/spectral.py:unnormalized_k,normalized_random_walk_k"]}
{"id": "C131", "title": "Sparse Bayesian learning never makes the model of the data worse", "statement": "With a fixed noise variance (learn_lambda = 0), no iteration of bsbl_em or bsbl_bo increases the evidence cost log det C + y^T C^-1 y, where C = lambda I + Phi Sigma0 Phi^T is the covariance of the measurements under the current prior, that is minus twice the log likelihood of the data up to a constant. Holds for blocks of length one; for longer blocks the code increases it already in the first iteration on some data.", "quantifier": "every dictionary with blocks of length one, every data vector, every positive noise variance and nonnegative pruning threshold, every iteration of every run", "why_tests_cant": "A test evaluates the identity at a few random vectors and sizes; the claim is about every size, every entry and every operand, including boundary sizes a sample never draws.", "anchors": ["src/cr/sparse/_src/block/bsbl.py:bsbl_em,bsbl_bo,update_gammas_em_pruned,update_gammas_bo_pruned,compute_cov_x"]}
{"id": "C132", "title": "The first order solvers converge whatever the initial step estimate", "statement": "fom.lasso and fom.l1rls need no knowledge of the operator norm: with alpha=1 and any L0 > 0 the objective converges to its minimum at rate 1/k^2, also when L0 is far too small and steps have to be rejected; with any alpha <= 1 the lasso objective comes within 4 tau^2 M (1 - alpha + 2 alpha/(k+1)) of the minimum, M = max(L0, 2|A|^2/beta).", "quantifier": "all operators, data, start points, L0 > 0, beta in (0,1), iteration numbers, limits and tolerances", "why_tests_cant": "A test evaluates the identity at a few random vectors and sizes; the claim is about every size, every entry and every operand, including boundary sizes a sample never draws.", "anchors": ["src/cr/sparse/_src/fom/fom.py:fom,backtrack_L", "src/cr/sparse/_src/fom/lasso.py:lasso", "src/cr/sparse/_src/fom/l1rls.py:l1rls"]}
{"id": "C133", "title": "Recovery by the convex solvers under the restricted isometry property", "statement": "If A satisfies the restricted isometry property of order 2K with constant delta (up to a scale c) and b = A xs + e, then: for delta below sqrt(2)-1, the basis pursuit iterates of YALL1 converge to xs exactly when xs has at most K non-zero entries and e = 0, and in general all constrained solvers (YALL1 with and without residual bound, SPGL1's LASSO and BPIC, the first order lasso) have an error bounded by a constant times the noise or residual plus a constant times the mass of xs off its K largest entries over sqrt(K); for delta below 1/(1+3 sqrt 2), the penalised solvers (l1ls, YALL1 with rho, the first order l1rls) have an error bounded by a constant times lambda sqrt(K) plus what the stopping tolerance or the number of iterations allows.", "quantifier": "every matrix, signal, noise vector, sparsity level, starting point and option set meeting the hypotheses", "why_tests_cant": "A test evaluates the identity at a few random vectors and sizes; the claim is about every size, every entry and every operand, including boundary sizes a sample never draws.", "anchors": ["src/cr/sparse/_src/cvx/adm/yall1.py:solve", "src/cr/sparse/_src/cvx/spgl1.py:solve_lasso_from, solve_bpic_from", "src/cr/sparse/_src/cvx/l1ls.py:solve_from", "src/cr/sparse/_src/fom/lasso.py:lasso", "src/cr/sparse/_src/fom/l1rls.py:l1rls", "src/cr/sparse/_src/sls/ista.py:ista", "src/cr/sparse/_src/sls/fista.py:fista"]}
{"id": "C134", "title": "Greedy pursuits approximate every signal at a rate that does not depend on the dictionary", "statement": "For unit-norm atoms, matching pursuit on a signal with coefficients of total size M has residual norm at most M/(2k+1)^(1/6) after k iterations. Orthogonal matching pursuit with k atoms has squared residual norm at most that of any combination of atoms with total coefficient size M plus 4M^2/(k+3), and at most (1-g^2)^k |y|^2 when every vector has correlation at least g|r| with some atom.", "quantifier": "all dictionaries of unit-norm atoms, all signals, all competitors, all iterations", "why_tests_cant": "A test runs a few solver instances; the claim is about every reachable loop state for every problem instance and every number of iterations.", "anchors": ["src/cr/sparse/_src/pursuit/mp.py:solve,matrix_solve", "src/cr/sparse/_src/pursuit/omp.py:matrix_solve,operator_solve"]}
{"id": "C135", "title": "Spikes and sinusoids are recovered by the library's own solvers", "statement": "The dictionary of spikes and cosines (problem 003, dict.dirac_cosine_basis) has coherence sqrt(2/n) cos(pi/(2n)) for n a power of two and sqrt(2/n) otherwise, spikes and sinusoids (problem 004) have coherence 1/sqrt(n); a coherence mu (or the babel function) bounds the restricted isometry constants by (s-1) mu (babel(s-1)). Consequently, whatever is drawn, omp.operator_solve applied to problem 003 with K nonzero entries and (2K-1) sqrt(2/n) < 1 returns the recorded representation, that representation is the only minimiser of the basis pursuit problem, and hard thresholding pursuit applied to problem 004 with 3K-1 < sqrt(n) reaches it exactly after a number of passes determined by the smallest entry.", "quantifier": "all sizes n, all draws of positions and values, all K below the stated bound, all real or complex dictionaries for the restricted isometry bounds", "why_tests_cant": "A test evaluates the identity at a few random vectors and sizes; the claim is about every size, every entry and every operand, including boundary sizes a sample never draws.", "anchors": ["src/cr/sparse/_src/problems/prob003.py:generate", "src/cr/sparse/_src/problems/prob004.py:generate", "src/cr/sparse/_src/dict/props.py:coherence,babel", "src/cr/sparse/_src/dict/simple.py:dirac_cosine_basis", "src/cr/sparse/_src/pursuit/omp.py:operator_solve", "src/cr/sparse/_src/pursuit/htp.py:matrix_solve"]}
{"id": "C136", "title": "SPGL1's LASSO solver reaches its tolerance", "statement": "For every operator with its adjoint, every data vector, every radius tau and every start, and all options with positive opt_tol, gamma and alpha_min: with a large enough iteration limit spgl1.solve_lasso_from returns a point with l1 norm at most tau whose objective is within opt_tol * max(1, f) of the minimum over the l1 ball (or whose relative residual is below opt_tol), unless line searches that use up their ten rounds keep occurring for ever. They do not occur at all when alpha_max * (gamma + L / 2) < 512, L a bound on the squared operator norm.", "quantifier": "all real operators and sizes, all data, all radii, all starts, all memory lengths and tolerances, unbounded runs", "why_tests_cant": "A test runs a few solver instances; the claim is about every reachable loop state for every problem instance and every number of iterations.", "anchors": ["src/cr/sparse/_src/cvx/spgl1.py:solve_lasso_from,curvy_line_search,lasso_metrics"]}
{"id": "C137", "title": "FOCUSS converges to a stationary sparse solution", "statement": "All FOCUSS iterates stay in one bounded set that depends only on the dictionary and the measurements. Each iteration strictly decreases sum |x_i|^(2-2p) for 0 < p < 1, and the product of the magnitudes for the default p = 1, unless it changes nothing. For data in general position the results for growing max_iters converge, for every 0 < p <= 1 (for p = 1/2: when the null space is generic), to a solution of the measurement equations that another iteration leaves unchanged. For p <= 1/2 the limit has the least sum |z_i|^(2-2p) among all solutions that vanish where an iterate vanished. With p = 1 every solution with exactly m nonzeros is stationary and attracts the iteration as soon as the entries off its support are below a threshold.", "quantifier": "every dictionary and measurement vector in general position, every exponent, every iteration limit", "why_tests_cant": "A test runs a few solver instances; the claim is about every reachable loop state for every problem instance and every number of iterations.", "anchors": ["src/cr/sparse/_src/cvx/focuss.py:matrix_solve_noiseless,step_noiseless"]}
{"id": "C138", "title": "Greedy pursuits recover sparse signals under the restricted isometry property and the exact recovery condition", "statement": "Suppose the atoms have unit norm and a signal is an exact combination of K atoms. If the dictionary has a restricted isometry constant d of order K+1 with d sqrt(K+1) < 1, or if the support meets Tropp's exact recovery condition, then OMP with max_iters = K selects exactly those atoms and returns the exact coefficients and a zero residual; under noise whose correlation with every atom is at most eps, with every coefficient above 2 sqrt(K) eps / (1 - d sqrt(K+1)), it still selects exactly those atoms and every coefficient is within sqrt(K) eps / (1-d). Matching pursuit never leaves the support, and its residual and coefficient error decay geometrically with rate 1 - (1-d)/K. The exact recovery condition is sharp: when it is violated strictly, there is a signal on the support for which the first atom selected is wrong.", "quantifier": "every dictionary, every support size, every vector of coefficients, every noise vector, every number of iterations", "why_tests_cant": "A test evaluates the identity at a few random vectors and sizes; the claim is about every size, every entry and every operand, including boundary sizes a sample never draws.", "anchors": ["src/cr/sparse/_src/pursuit/omp.py:matrix_solve,operator_solve", "src/cr/sparse/_src/pursuit/mp.py:matrix_solve,operator_solve"]}
{"id": "C139", "title": "The interior point solver l1ls reaches its tolerance", "statement": "For every problem, every strictly feasible start with a positive dual value and every tolerance there is an accuracy eta > 0 such that a run of l1ls whose inner conjugate gradient directions have relative residual at most eta makes a bounded number of iterations before its stopping test holds, whatever the iteration limits. With exact inner solves (xi = 0 and more than 2n inner iterations allowed) solve returns, by its own test once the iteration limit is large enough, a point whose objective is within the factor 1 + tol of the optimum.", "quantifier": "all operators with adjoint, all measurements, all lambda > 0, all tolerances, all strictly feasible starts, all iteration limits, all histories of inner solves of the stated accuracy", "why_tests_cant": "A test runs a few solver instances; the claim is about every reachable loop state for every problem instance and every number of iterations.", "anchors": ["src/cr/sparse/_src/cvx/l1ls.py:solve_from, solve"]}
{"id": "C140", "title": "The axis argument applies the operator along that axis of an array", "statement": "For an array with any number of dimensions, an operator built for an axis transforms every 1-D slice along that axis (counted from the front or, negatively, from the end) as it transforms a 1-D array and leaves the other axes alone, in the forward and in the adjoint direction; the adjoint relation and, where it holds, perfect reconstruction carry over to arrays; an axis the array does not have raises.", "quantifier": "all numbers of dimensions, all shapes, all array contents, all axes, all operators of the library with an axis argument", "why_tests_cant": "A test evaluates the identity at a few random vectors and sizes; the claim is about every size, every entry and every operand, including boundary sizes a sample never draws.", "anchors": ["src/cr/sparse/_src/lop/util.py:apply_along_axis", "src/cr/sparse/_src/lop/basic.py:matrix, sparse_real_matrix, restriction"]}
{"id": "C141", "title": "SPGL1 on complex data keeps the real guarantees", "statement": "On complex arrays the l1 ball projection returns the unique nearest point of the ball of sums of magnitudes; every state of the LASSO and basis pursuit solvers has an x in the ball with its residual, gradient and objective; the reported gap (the magnitude of a complex number) bounds the distance to the optimum over the complex ball; the LASSO solver returns, certified, converged or at its limit; the l1 budget of basis pursuit never exceeds the l1 norm of a solution by more than the gap allows; and data with real entries give exactly the run on real arrays.", "quantifier": "all complex arrays b and starts, all complex linear operators with their adjoints, all tolerances, radii, noise levels, iteration limits, all states of the runs", "why_tests_cant": "A test evaluates the identity at a few random vectors and sizes; the claim is about every size, every entry and every operand, including boundary sizes a sample never draws.", "anchors": ["src/cr/sparse/_src/cvx/spgl1.py:project_to_l1_ball, project_to_l1_ball_at, curvy_line_search, solve_lasso_from, solve_bpic_from, solve_bpic, solve_bp"]}
{"id": "C142", "title": "Proximal operators, LASSO solvers and LSQR work on complex arrays", "statement": "On complex arrays prox_l1 and prox_l2 are the proximal operators of the weighted sum of magnitudes and of the Euclidean norm, and the complex soft threshold is the same operator; ista with it (in any unitary basis) never increases the complex LASSO objective, approaches the minimum at rate 1/k and converges to a minimiser, fista at rate 1/k^2, l1rls at rate 1/k^2; lsqr minimises the (damped) complex least squares objective over its Krylov space, reports the true norms and solves it exactly when the limit exceeds the number of unknowns. The projection onto the l1 ball of complex arrays is the nearest point.", "quantifier": "all complex arrays, complex linear operators with their adjoints, unitary bases, starts, parameters, tolerances and limits, all states of the runs", "why_tests_cant": "A test evaluates the identity at a few random vectors and sizes; the claim is about every size, every entry and every operand, including boundary sizes a sample never draws.", "anchors": ["src/cr/sparse/_src/opt/proximal_ops/lpnorms.py:prox_l1, prox_l2", "src/cr/sparse/_src/geo/thresholding.py:soft_threshold", "src/cr/sparse/_src/sls/ista.py:ista", "src/cr/sparse/_src/sls/fista.py:fista", "src/cr/sparse/_src/sls/lsqr.py:lsqr", "src/cr/sparse/_src/fom/l1rls.py:l1rls", "src/cr/sparse/_src/opt/projectors/lpballs.py:proj_l1_ball"]}
{"id": "C143", "title": "Units and isometries of the measurement space do not matter to the greedy pursuits", "statement": "If the measurement space is mapped by a linear isometry (a rotation, another orthonormal basis, an embedding such as zero padding) and the measurements are multiplied by a non-zero factor c, then matching pursuit, OMP, subspace pursuit, CoSaMP, HTP and IHT (fixed and normalised step), in their matrix and operator versions, return exactly the corresponding result: the same support and iteration count, the coefficients multiplied by c, the residual mapped along.", "quantifier": "all dictionaries, measurements, isometries, factors (real or complex), sparsity levels, tolerances and iteration limits; all least-squares routines with the documented semantics", "why_tests_cant": "A test evaluates the identity at a few random vectors and sizes; the claim is about every size, every entry and every operand, including boundary sizes a sample never draws.", "anchors": ["src/cr/sparse/_src/pursuit/mp.py:matrix_solve, operator_solve", "src/cr/sparse/_src/pursuit/omp.py:matrix_solve, operator_solve", "src/cr/sparse/_src/pursuit/sp.py:matrix_solve, operator_solve", "src/cr/sparse/_src/pursuit/cosamp.py:matrix_solve, operator_solve", "src/cr/sparse/_src/pursuit/htp.py:matrix_solve, operator_solve", "src/cr/sparse/_src/pursuit/iht.py:matrix_solve, operator_solve"]}
{"id": "C144", "title": "Units and orthonormal coordinates do not matter to CG, PCG, LSQR, ISTA and FISTA", "statement": "If the unknown and the data are expressed in other orthonormal coordinates and all quantities with a unit (data, start, absolute tolerances, thresholds) are multiplied by a non-zero factor c, the solvers return exactly the corresponding state after the same number of iterations: the solution multiplied by c in the new coordinates, the norms multiplied by |c|, the condition and operator norm estimates unchanged.", "quantifier": "all linear operators, data, starts, coordinates, factors, tolerances and limits", "why_tests_cant": "A test evaluates the identity at a few random vectors and sizes; the claim is about every size, every entry and every operand, including boundary sizes a sample never draws.", "anchors": ["src/cr/sparse/_src/opt/cg.py:solve_from", "src/cr/sparse/_src/opt/pcg.py:solve_from", "src/cr/sparse/_src/sls/lsqr.py:lsqr", "src/cr/sparse/_src/sls/ista.py:ista", "src/cr/sparse/_src/sls/fista.py:fista"]}
{"id": "C145", "title": "Random sensing operators act as their matrices", "statement": "Whatever the random draws: gaussian_dict, rademacher_dict, sparse_binary_dict (dense or sparse storage), random_orthonormal_rows_dict, random_onb_dict and binary_dict_alg multiply by the drawn matrix in the forward and by its transpose in the adjoint direction and report its shape (square by default); the normalised ones have columns of unit norm (sparse_binary_dict with exactly d equal entries per column, 10 by default); with orthonormal rows T T^H = I, so that back-projection preserves and measuring never increases the norm; for an orthonormal basis both directions are inverse to each other.", "quantifier": "all PRNG outcomes, all sizes, all vectors, both storage formats, both values of normalize_atoms", "why_tests_cant": "A test evaluates the identity at a few random vectors and sizes; the claim is about every size, every entry and every operand, including boundary sizes a sample never draws.", "anchors": ["src/cr/sparse/_src/lop/random.py:gaussian_dict, rademacher_dict, sparse_binary_dict, random_orthonormal_rows_dict, random_onb_dict, binary_dict_alg", "src/cr/sparse/_src/lop/basic.py:sparse_real_matrix", "src/cr/sparse/_src/dict/simple.py:gaussian_mtx, rademacher_mtx, sparse_binary_mtx"]}
{"id": "C146", "title": "The signal of a recovery solution explains the data up to the residual", "statement": "For the solution returned by OMP, subspace pursuit, CoSaMP, HTP and IHT, the full-length signal sol.x satisfies Phi sol.x + sol.r = y, has at most K non-zero entries (one per iteration for OMP) and length n, and sol.r_norm_sqr is the squared norm of sol.r.", "quantifier": "all dictionaries, data, sparsity levels, tolerances and iteration limits; all least-squares routines with the documented semantics", "why_tests_cant": "A test evaluates the identity at a few random vectors and sizes; the claim is about every size, every entry and every operand, including boundary sizes a sample never draws.", "anchors": ["src/cr/sparse/_src/pursuit/defs.py:RecoverySolution.x", "src/cr/sparse/_src/pursuit/omp.py:matrix_solve, operator_solve", "src/cr/sparse/_src/pursuit/sp.py:matrix_solve, operator_solve", "src/cr/sparse/_src/pursuit/cosamp.py:matrix_solve, operator_solve", "src/cr/sparse/_src/pursuit/htp.py:matrix_solve, operator_solve", "src/cr/sparse/_src/pursuit/iht.py:matrix_solve, operator_solve"]}
{"id": "C147", "title": "IHT and HTP settle on arbitrary data when the step is below the inverse squared norm of the dictionary", "statement": "With a fixed step_size mu such that mu |Phi z|^2 <= rho |z|^2 for a rho below one: each iteration of IHT and HTP lowers the squared residual norm by at least (1-rho)/mu times the squared length of the step; among the first N steps of IHT one has squared length at most mu |y|^2 / ((1-rho) N); if any K atoms are linearly independent the signals of IHT converge; HTP stops by its support rule within max(C(n,K)+3, min(3K,20)) iterations, for every max_iters and tolerance; limits of IHT and support-stopped results of HTP are best K-term approximations of their own gradient step: the residual is orthogonal to the atoms in use, no unused atom has a correlation above the smallest coefficient divided by mu, and with fewer than K atoms in use the fit is the best possible with the whole dictionary. The default step 0.98/sigma qualifies when the largest singular value sigma is at most one.", "quantifier": "all real and complex dictionaries, all data (not only data that is nearly sparse), all sparsity levels, all iteration limits", "why_tests_cant": "A test evaluates the identity at a few random vectors and sizes; the claim is about every size, every entry and every operand, including boundary sizes a sample never draws.", "anchors": ["src/cr/sparse/_src/pursuit/iht.py:matrix_solve, operator_solve", "src/cr/sparse/_src/pursuit/htp.py:matrix_solve, operator_solve"]}
{"id": "C148", "title": "Limits of IHT and results of HTP are local minimisers of the K-sparse least squares problem", "statement": "If x is a limit of IHT or a support-stopped result of HTP, no K-sparse signal that is nonzero wherever x is nonzero fits the data better; in particular none within a distance below the smallest nonzero magnitude of x. Conversely every global minimiser of the residual norm over K-sparse signals is left unchanged by the iteration for step sizes up to the inverse squared norm of the dictionary. If any K atoms are independent, the signals of IHT converge to such a local minimiser, whose residual is no larger than that of any iterate.", "quantifier": "all real and complex dictionaries, data, sparsity levels and steps in the stated range", "why_tests_cant": "A test evaluates the identity at a few random vectors and sizes; the claim is about every size, every entry and every operand, including boundary sizes a sample never draws.", "anchors": ["src/cr/sparse/_src/pursuit/iht.py:matrix_solve, operator_solve", "src/cr/sparse/_src/pursuit/htp.py:matrix_solve, operator_solve"]}
{"id": "C149", "title": "Iteration limits and tolerances only cut a run short", "statement": "Two calls of an iterative solver on the same data, the second with a larger (or equal) iteration limit and smaller (or equal) tolerances: the second result is what the body of the iteration makes of the first result when executed as many more times as the reported iteration counts differ. So the reported count is not smaller, OMP selects the same atoms first, and quantities that fall along the iteration are not larger: the residual norm of IHT with a small step, of matching pursuit and of LSQR, the energy error of CG, the objective of ISTA, the within-cluster sum of squares of k-means. BIHT does not change a result that matches every bit. Covers IHT (plain and normalized), HTP, SP, CoSaMP, MP, OMP, CG, PCG, LSQR, ISTA, FISTA, fom, SPG, the LASSO solver of SPGL1, YALL1, FOCUSS, BSBL-EM, BSBL-BO, BIHT, k-means and normest.", "quantifier": "all data, all limits N <= N', all tolerances with the second no larger than the first", "why_tests_cant": "A test evaluates the identity at a few random vectors and sizes; the claim is about every size, every entry and every operand, including boundary sizes a sample never draws.", "anchors": ["src/cr/sparse/_src/pursuit/iht.py:matrix_solve", "src/cr/sparse/_src/pursuit/htp.py:matrix_solve", "src/cr/sparse/_src/pursuit/sp.py:matrix_solve, operator_solve", "src/cr/sparse/_src/pursuit/cosamp.py:matrix_solve, operator_solve", "src/cr/sparse/_src/pursuit/mp.py:matrix_solve", "src/cr/sparse/_src/pursuit/omp.py:matrix_solve, operator_solve", "src/cr/sparse/_src/opt/cg.py:solve_from", "src/cr/sparse/_src/opt/pcg.py:solve_from", "src/cr/sparse/_src/sls/lsqr.py:lsqr", "src/cr/sparse/_src/sls/ista.py:ista", "src/cr/sparse/_src/sls/fista.py:fista", "src/cr/sparse/_src/fom/fom.py:fom", "src/cr/sparse/_src/opt/spg.py:solve_from", "src/cr/sparse/_src/cvx/spgl1.py:solve_lasso_from", "src/cr/sparse/_src/cvx/adm/yall1.py:solve", "src/cr/sparse/_src/cvx/focuss.py:matrix_solve_noiseless", "src/cr/sparse/_src/block/bsbl.py:bsbl_em, bsbl_bo", "src/cr/sparse/_src/cs/cs1bit/biht.py:biht", "src/cr/sparse/_src/cluster/kmeans.py:kmeans_with_seed", "src/cr/sparse/_src/lop/normest.py:normest"]}
{"id": "C150", "title": "Clustering error ignores how the clusters are named", "statement": "clustering_error of two labelings with the same number of distinct labels is between 0 and 1, does not depend on the names of the labels, is the smallest share of disagreeing points over all one-to-one renamings, and is 0 exactly when the two labelings induce the same partition; the percentage is 100 times that. For different numbers of labels it is not: the assignment may leave every matched point counted as missed.", "quantifier": "all true and estimated labelings of any number of points", "why_tests_cant": "A test evaluates the identity at a few random vectors and sizes; the claim is about every size, every entry and every operand, including boundary sizes a sample never draws.", "anchors": ["src/cr/sparse/_src/cluster/util.py:clustering_error, clustering_error_perc, best_map"]}
{"id": "C151", "title": "Mutual coherence of two dictionaries, uncertainty and uniqueness", "statement": "mutual_coherence of two dictionaries is symmetric, nonnegative, at most 1 for unit atoms and 0 exactly when every atom of one is orthogonal to every atom of the other. For two orthonormal dictionaries a nonzero signal with s nonzeros in one and t in the other satisfies 1 <= mu^2 s t and 2 <= mu (s+t); a representation in their union with fewer than 1/mu atoms is the only one; mu is at least 1/sqrt(n), with equality for the Dirac and Hadamard bases, so a representation with fewer than sqrt(n) atoms in the Dirac-Hadamard dictionary is the only one with that few.", "quantifier": "all dictionaries, signals and dimensions (powers of two for Hadamard)", "why_tests_cant": "A test evaluates the identity at a few random vectors and sizes; the claim is about every size, every entry and every operand, including boundary sizes a sample never draws.", "anchors": ["src/cr/sparse/_src/dict/props.py:mutual_coherence, mutual_coherence_with_index", "src/cr/sparse/_src/dict/simple.py:dirac_hadamard_basis, hadamard_basis"]}
{"id": "C152", "title": "The real dot test for complex operators", "statement": "rdot_test_complex passes exactly the operators whose adjoint is right for the real inner product: a right pair passes, and a passing pair has a mismatch below the tolerance relative to the mean of the two products. The second half fails for negative products and for outputs that are not real, which the test never draws.", "quantifier": "all complex operators and all drawn vectors", "why_tests_cant": "A test evaluates the identity at a few random vectors and sizes; the claim is about every size, every entry and every operand, including boundary sizes a sample never draws.", "anchors": ["src/cr/sparse/_src/lop/util.py:rdot_test_complex"]}
{"id": "C153", "title": "Linear rate, warm starts, accuracy and support identification of ISTA", "statement": "With the step at most 1/|A|^2 and the matching threshold: two runs from different starts never move apart; if |A d|^2 >= sigma |d|^2 with sigma > 0 the minimiser is unique, iterates approach it by the factor 1 - step sigma per iteration, a result returned because the change fell to xtol is within xtol (1 - step sigma)/(step sigma) of it, and the number of iterations is at most k + 1 once (1 - step sigma)^k times the first change is at most xtol. Restarting from an iterate continues the run. For the LASSO the limit satisfies the optimality conditions and, from some iteration on, entries whose correlation with the limit residual is below lam are exactly zero and nonzero entries of the limit have their final sign.", "quantifier": "all real operators, data, convex regularisers with exact proximal map, starts, steps in range; all lam > 0 for the last part", "why_tests_cant": "A test evaluates the identity at a few random vectors and sizes; the claim is about every size, every entry and every operand, including boundary sizes a sample never draws.", "anchors": ["src/cr/sparse/_src/sls/ista.py:ista", "src/cr/sparse/_src/geo/thresholding.py:soft_threshold"]}
{"id": "C154", "title": "Greedy pursuits on an orthonormal dictionary return a best K-term approximation", "statement": "If the atoms are orthonormal then, whatever the data, the signal returned is a best approximation with the requested number of atoms: matching pursuit after t iterations (best t-term), OMP (both versions), subspace pursuit after any number of iterations, CoSaMP and HTP from the second iteration on. IHT with a fixed step mu in (0,1] returns (1-(1-mu)^t) times a best K-term approximation after t iterations, with the matching residual. This also holds with normalized=True.", "quantifier": "all orthonormal dictionaries (real or complex; real for MP and OMP), all data with enough correlated atoms, all K, steps, tolerances and iteration limits", "why_tests_cant": "A test evaluates the identity at a few random vectors and sizes; the claim is about every size, every entry and every operand, including boundary sizes a sample never draws.", "anchors": ["src/cr/sparse/_src/pursuit/iht.py:matrix_solve", "src/cr/sparse/_src/pursuit/iht.py:operator_solve", "src/cr/sparse/_src/pursuit/htp.py:matrix_solve", "src/cr/sparse/_src/pursuit/sp.py:matrix_solve", "src/cr/sparse/_src/pursuit/sp.py:operator_solve", "src/cr/sparse/_src/pursuit/cosamp.py:matrix_solve", "src/cr/sparse/_src/pursuit/cosamp.py:operator_solve", "src/cr/sparse/_src/pursuit/omp.py:matrix_solve", "src/cr/sparse/_src/pursuit/omp.py:operator_solve", "src/cr/sparse/_src/pursuit/mp.py:solve"]}
{"id": "C155", "title": "The l1 solvers agree with each other", "statement": "All solvers for l1 problems compute points near the solutions of one problem, minimise |b - A x|^2/2 + lam |x|_1. Its minimisers share A x and (lam > 0) the l1 norm; a point whose value is within e of the minimum has |A x - A u|^2 <= 2e. A minimiser u also has the least residual among points of no larger l1 norm, and the least l1 norm among points of no larger residual; conversely a solution of the problem with an l1 bound minimises the penalised problem for lam = |A^T(b - A x)|_inf. Larger lam means smaller l1 norm and larger residual, and 0 is the minimiser exactly when lam >= |A^T b|_inf. Hence ISTA, FISTA, l1rls, l1ls with parameter 2 lam, YALL1 with rho = lam or delta = |b - A u|, and SPGL1 or the first order lasso with tau = |u|_1 all approach the same A u, with the stated rates or tolerances. l1ls with parameter lam itself solves a different problem.", "quantifier": "all real matrices, data, lam > 0 and starts; for YALL1 orthonormal rows; for l1ls exact inner solves; for SPGL1 a result accepted by the gap test", "why_tests_cant": "A test evaluates the identity at a few random vectors and sizes; the claim is about every size, every entry and every operand, including boundary sizes a sample never draws.", "anchors": ["src/cr/sparse/_src/sls/ista.py:ista", "src/cr/sparse/_src/sls/fista.py:fista", "src/cr/sparse/_src/cvx/l1ls.py:solve", "src/cr/sparse/_src/cvx/adm/yall1.py:solve", "src/cr/sparse/_src/cvx/spgl1.py:solve_lasso", "src/cr/sparse/_src/fom/l1rls.py:l1rls", "src/cr/sparse/_src/fom/lasso.py:lasso"]}
{"id": "C156", "title": "Units, signs and orderings of the data do not matter to YALL1 and FOCUSS", "statement": "yall1.solve with its default start, given the data, rho and delta multiplied by c > 0, returns solution and residual multiplied by c with the same iteration and operator counts; without the sign constraint negated data give the negated result; reordering measurements and unknowns (with start and weights) reorders the result and changes nothing else. FOCUSS after at least one iteration returns c times the signal and residual for data multiplied by any c <> 0, although it starts at the array of ones, and the same signal when dictionary and data are multiplied by an invertible matrix. The default SPGL1 solvers should have the same property but do not: their tolerances are absolute for small data.", "quantifier": "all operators, data, weights, options, scales, permutations and invertible matrices", "why_tests_cant": "A test evaluates the identity at a few random vectors and sizes; the claim is about every size, every entry and every operand, including boundary sizes a sample never draws.", "anchors": ["src/cr/sparse/_src/cvx/adm/yall1.py:solve", "src/cr/sparse/_src/cvx/focuss.py:matrix_solve_noiseless", "src/cr/sparse/_src/cvx/spgl1.py:solve_lasso", "src/cr/sparse/_src/cvx/spgl1.py:solve_bpic"]}
{"id": "C157", "title": "On an orthonormal system the l1 solvers return soft thresholded coefficients", "statement": "If the operator has orthonormal columns (A^T A = I, as the library's bases have), the unique minimiser of |b - A x|^2/2 + lam |x|_1 is A^T b with every entry moved towards zero by lam, and the least squares solution under |x|_1 <= tau is the projection of A^T b on the l1 ball. ISTA and FISTA with unit step return, for every start, threshold and sparsifying basis, the data analysed, thresholded and synthesised, after one iteration, and stop after at most two. l1ls (parameter 2 lam), l1rls, YALL1 (orthonormal basis) and SPGL1 (tau the norm of the solution) approach the same coefficients within their tolerances.", "quantifier": "all operators with orthonormal columns, data, starts, thresholds, lam > 0 and tolerances", "why_tests_cant": "A test evaluates the identity at a few random vectors and sizes; the claim is about every size, every entry and every operand, including boundary sizes a sample never draws.", "anchors": ["src/cr/sparse/_src/sls/ista.py:ista", "src/cr/sparse/_src/sls/fista.py:fista", "src/cr/sparse/_src/cvx/l1ls.py:solve", "src/cr/sparse/_src/cvx/adm/yall1.py:solve", "src/cr/sparse/_src/cvx/spgl1.py:solve_lasso", "src/cr/sparse/_src/fom/l1rls.py:l1rls"]}
{"id": "C158", "title": "BIHT finds a signal with the given bits; its step size only sets the scale", "statement": "Each BIHT step is a hard-thresholded subgradient step on the total size of the measurements with the wrong sign. Multiplying tau by c > 0 multiplies the returned coefficients by c and changes nothing else. When a K-sparse signal fits the bits with a margin, enough iterations return a signal with exactly these bits: true for K = n with the perceptron bound 2 B |a|^2 / gamma^2 on the iterations, whatever the step size; false for K < n.", "quantifier": "all sensing matrices, bit vectors, sparsity levels, step sizes and iteration limits", "why_tests_cant": "A test evaluates the identity at a few random vectors and sizes; the claim is about every size, every entry and every operand, including boundary sizes a sample never draws.", "anchors": ["src/cr/sparse/_src/cs/cs1bit/biht.py:biht", "src/cr/sparse/_src/cs/cs1bit/util.py:measure_1bit"]}
{"id": "C159", "title": "Rigid motions, units and orderings of the data do not matter to k-means and SSC-OMP", "statement": "For points that are rotated, reflected and multiplied by c <> 0, with thresh multiplied by |c|, kmeans_with_seed returns the same labels and iteration count, centroids and distortions transformed likewise, and kmeans selects the same restart. Listing the points in another order (same drawn centroids) only reorders the labels. Translating the points translates the centroids and changes no label: true while no cluster is empty, false otherwise. With the default threshold units matter. build_representation_omp on rotated data with each point multiplied by its own positive factor chooses the same points; coefficients and residual are multiplied by the factor of the represented point.", "quantifier": "all data sets, isometries, scales, permutations, translations, drawn centroids and iteration limits", "why_tests_cant": "A test evaluates the identity at a few random vectors and sizes; the claim is about every size, every entry and every operand, including boundary sizes a sample never draws.", "anchors": ["src/cr/sparse/_src/cluster/kmeans.py:kmeans_with_seed", "src/cr/sparse/_src/cluster/kmeans.py:kmeans", "src/cr/sparse/_src/cluster/ssc/omp.py:build_representation_omp"]}
{"id": "C160", "title": "Coordinates of the measurements, sign, order of the blocks and units in block sparse Bayesian learning", "statement": "An orthogonal change of the measurement coordinates (of dictionary and data) and a change of sign of the data change nothing in the result of bsbl_em and bsbl_bo but the residual's coordinates and the sign of the solution. Listing the blocks in another order only reorders the result. Changing the units of the data only changes the units of the solution: false, since the block scalars start at 1 and the stop test is absolute; in large enough units both solvers stop after one iteration with the ridge regression solution.", "quantifier": "all dictionaries, data, options, orthogonal matrices, block permutations and iteration counts", "why_tests_cant": "A test evaluates the identity at a few random vectors and sizes; the claim is about every size, every entry and every operand, including boundary sizes a sample never draws.", "anchors": ["src/cr/sparse/_src/block/bsbl.py:bsbl_em", "src/cr/sparse/_src/block/bsbl.py:bsbl_bo"]}
{"id": "C161", "title": "Signs and phases of the atoms, and their order, do not matter to the greedy pursuits", "statement": "If each atom is multiplied by its own sign (phase, for complex data), then IHT (fixed and normalised step), HTP, subspace pursuit, matching pursuit and OMP choose the same atoms and return the same residual and iteration count, with each coefficient multiplied by the conjugate phase; for CoSaMP this is false, because its first step sorts the support without the coefficients. Listing the atoms in another order only renames the chosen atoms in MP and OMP, as long as no two atoms tie for the largest correlation; of tied atoms the first listed is used.", "quantifier": "all dictionaries, phases, permutations, data, sparsity levels, tolerances and iteration limits", "why_tests_cant": "A test evaluates the identity at a few random vectors and sizes; the claim is about every size, every entry and every operand, including boundary sizes a sample never draws.", "anchors": ["src/cr/sparse/_src/pursuit/iht.py:matrix_solve", "src/cr/sparse/_src/pursuit/htp.py:matrix_solve", "src/cr/sparse/_src/pursuit/sp.py:matrix_solve,operator_solve", "src/cr/sparse/_src/pursuit/cosamp.py:matrix_solve,operator_solve", "src/cr/sparse/_src/pursuit/mp.py:matrix_solve,operator_solve", "src/cr/sparse/_src/pursuit/omp.py:matrix_solve,operator_solve"]}
{"id": "C162", "title": "SPGL1 and l1ls do not depend on measurement coordinates, signs or order of the unknowns", "statement": "Rotate the coordinates of the measurements, change the signs of some unknowns and list the unknowns in another order (in the operator, its adjoint, the data and the start). Then SPGL1 (lasso and basis pursuit, with or without noise) and l1ls return exactly the correspondingly transformed solution, residual and gradient, the same objective values, step sizes, iteration and operator counts, and one run fails to return exactly if the other does.", "quantifier": "all operators, isometries, permutations, signs, data, starts and solver options", "why_tests_cant": "A test evaluates the identity at a few random vectors and sizes; the claim is about every size, every entry and every operand, including boundary sizes a sample never draws.", "anchors": ["src/cr/sparse/_src/cvx/spgl1.py:solve_lasso_from,solve_lasso,solve_bpic_from,solve_bpic,solve_bp", "src/cr/sparse/_src/cvx/l1ls.py:solve_from,solve"]}
{"id": "C163", "title": "Projectors and proximal operators are stable, find minimisers and fit together", "statement": "Every projector is idempotent and never increases the distance of two points. Every proximal operator never increases the distance of two points, and leaves exactly the minimisers of its function unchanged, whatever the step. A proximal step of the l2, l1 or nonnegative l1 norm and the projection onto the matching l2 ball or box add up to the point; every point is the orthogonal difference of two projections onto the second order cone. The Huber function is the Moreau envelope of the l1 norm, with the gradient the envelope computes; envelope gradients are Lipschitz with constant 1/mu and vanish exactly at minimisers.", "quantifier": "all points, radii, weights, steps and dimensions", "why_tests_cant": "A test evaluates the identity at a few random vectors and sizes; the claim is about every size, every entry and every operand, including boundary sizes a sample never draws.", "anchors": ["src/cr/sparse/_src/opt/projectors/basic.py:proj_box,proj_conic,proj_affine", "src/cr/sparse/_src/opt/projectors/lpballs.py:proj_l1_ball,proj_l2_ball", "src/cr/sparse/_src/opt/projections.py:project_to_ball", "src/cr/sparse/_src/opt/proximal_ops/lpnorms.py:prox_l1,prox_l2,prox_l1_pos,prox_l1_ball", "src/cr/sparse/_src/opt/proximal_ops/prox_sorted_l1.py:prox_owl1", "src/cr/sparse/_src/opt/smooth/huber.py:smooth_huber", "src/cr/sparse/_src/opt/prox_to_smooth.py:moreau_envelope"]}
{"id": "C164", "title": "SPGL1 reaches its tolerance on complex data", "statement": "On complex data the lasso solver of SPGL1 reaches its tolerance: with a large enough iteration limit it returns a point of the complex l1 ball whose objective is within tolerance of the optimum (or whose relative residual is small), unless its line search keeps using up its ten rounds; when the largest step is small compared with the curvature this cannot happen. Each iteration is a projected gradient step whose length is the clipped spectral one, solve_bp starts with an l1 budget below that of every exact solution and stops before its limits only at residuals within tolerance.", "quantifier": "all complex operators with their adjoints, data, radii, starts and options with positive tolerances", "why_tests_cant": "A test evaluates the identity at a few random vectors and sizes; the claim is about every size, every entry and every operand, including boundary sizes a sample never draws.", "anchors": ["src/cr/sparse/_src/cvx/spgl1.py:solve_lasso_from,solve_bpic_from,solve_bp,curvy_line_search"]}
{"id": "C165", "title": "Coordinates, phases and order of the unknowns do not matter to SPGL1 on complex data", "statement": "Rotate the coordinates of complex measurements by a unitary map, multiply the unknowns with phases and list them in another order (in the operator, its adjoint, the data and the start). Then SPGL1 (lasso and basis pursuit, with or without noise) returns exactly the correspondingly transformed solution, residual and gradient, the same objective values, step sizes, iteration and operator counts, and one run returns exactly if the other does.", "quantifier": "all complex operators, unitary maps, permutations, phases, data, starts and solver options", "why_tests_cant": "A test evaluates the identity at a few random vectors and sizes; the claim is about every size, every entry and every operand, including boundary sizes a sample never draws.", "anchors": ["src/cr/sparse/_src/cvx/spgl1.py:solve_lasso_from,solve_lasso,solve_bpic_from,solve_bpic,solve_bp,project_to_l1_ball"]}
{"id": "C166", "title": "matrix_solve and operator_solve of the greedy pursuits agree", "statement": "For nonzero measurements, sp.operator_solve (which works on normalised measurements and stops early once the support no longer changes) returns the same support, coefficients, residual and residual norm as sp.matrix_solve, in no more iterations. cosamp.operator_solve returns a state cosamp.matrix_solve passes through, and the same result unless the support rule stopped it. omp.operator_solve stopping after k >= 2 atoms returns exactly what omp.matrix_solve returns for k atoms.", "quantifier": "all dictionaries (real or complex for SP and CoSaMP, real for OMP), nonzero measurements, sparsities, tolerances and iteration caps", "why_tests_cant": "A test evaluates the identity at a few random vectors and sizes; the claim is about every size, every entry and every operand, including boundary sizes a sample never draws.", "anchors": ["src/cr/sparse/_src/pursuit/sp.py:matrix_solve,operator_solve", "src/cr/sparse/_src/pursuit/cosamp.py:matrix_solve,operator_solve", "src/cr/sparse/_src/pursuit/omp.py:matrix_solve,operator_solve"]}
{"id": "C167", "title": "Operator expressions can be rewritten by the laws of algebra", "statement": "Rewriting an operator expression by the textbook laws (commutativity and associativity of sums, associativity and distributivity of products, scalars moved through products, A^(m+n) = A^m A^n, adjoint and transpose of sums, products and multiples, gram = A^H A, frame = A A^H, horizontal blocks) anywhere inside it, any number of times and in both directions, never changes what it does: one expression is accepted exactly if the other is, both operators have the same shape and return the same result for every input, and so do their adjoints.", "quantifier": "all operator expressions over adjoint-consistent operators with sound real flags, all sequences of rewriting steps, all inputs", "why_tests_cant": "A test evaluates the identity at a few random vectors and sizes; the claim is about every size, every entry and every operand, including boundary sizes a sample never draws.", "anchors": ["src/cr/sparse/_src/lop/lop.py:neg,scale,adjoint,hermitian,transpose,power,add,subtract,compose,hcat,gram,frame"]}
{"id": "C168", "title": "The fit of an l1 solver moves no more than the data", "statement": "Solve an l1 problem for data b and again for data b' with everything else unchanged. For exact solutions of the penalised problem, and of the problem with a bound on the l1 norm, the fits A x and A x', and also the two residuals, are no further apart than b and b'. What the solvers return obeys the same bound up to their tolerance: ista and fista up to terms that vanish like 1/sqrt(k) and 1/k with the number of iterations, l1rls up to 1/k, l1ls up to sqrt(tol) (norm b + norm b'), SPGL1 solve_lasso up to a term given by its duality gap tolerance, and the limits of YALL1 without any extra term.", "quantifier": "all real linear operators with an exact adjoint, all pairs of data vectors, all penalties lam > 0 and bounds tau >= 0, all iteration numbers, all returned states below the iteration limit", "why_tests_cant": "A test evaluates the identity at a few random vectors and sizes; the claim is about every size, every entry and every operand, including boundary sizes a sample never draws.", "anchors": ["src/cr/sparse/_src/sls/ista.py:ista", "src/cr/sparse/_src/sls/fista.py:fista", "src/cr/sparse/_src/cvx/l1ls.py:solve", "src/cr/sparse/_src/cvx/spgl1.py:solve_lasso", "src/cr/sparse/_src/cvx/adm/yall1.py:solve", "src/cr/sparse/_src/fom/l1rls.py:l1rls"]}
{"id": "C169", "title": "Away from ties the greedy pursuits depend on the data in a stable way", "statement": "If every atom selected by orthogonal matching pursuit (or matching pursuit) on y wins its selection by a margin g, then for every y' with |y' - y| < g/2 the same atoms are selected in the same order. The residuals and the fits are then no further apart than the data, the coefficients of OMP are no further apart than |y' - y| divided by the square root of the smallest squared norm of a unit combination of the selected atoms, and those of MP than |y' - y| times the number of iterations. At a tie there is no such margin: an arbitrarily small change of the data changes the selected atom.", "quantifier": "all dictionaries of unit atoms, all data y and y' within half the margin, all numbers of atoms and iterations", "why_tests_cant": "A test evaluates the identity at a few random vectors and sizes; the claim is about every size, every entry and every operand, including boundary sizes a sample never draws.", "anchors": ["src/cr/sparse/_src/pursuit/omp.py:matrix_solve,operator_solve", "src/cr/sparse/_src/pursuit/mp.py:matrix_solve,operator_solve"]}
{"id": "C170", "title": "Away from ties k-means depends on the points in a stable way", "statement": "Move every point by at most d. If during the run on the unmoved points every point is nearer to its own centroid than to any other one by more than 4d, then the run on the moved points (same seed) goes through the same labels, its centroids differ by at most d and its distortion by at most 2d; if no stopping test was decided by 4d or less it also stops in the same iteration, so the returned labels are the same. At a tie there is no such margin: an arbitrarily small move of one point changes its final label.", "quantifier": "all finite sets of points of all dimensions, all moves, all initial centroids drawn from the points, thresholds, iteration limits and iterations", "why_tests_cant": "A test evaluates the identity at a few random vectors and sizes; the claim is about every size, every entry and every operand, including boundary sizes a sample never draws.", "anchors": ["src/cr/sparse/_src/cluster/kmeans.py:find_nearest,find_assignment,find_new_centroids,kmeans_with_seed"]}
{"id": "C171", "title": "Away from ties the results of IHT, HTP, subspace pursuit and CoSaMP are continuous in the data", "statement": "Fix the dictionary and the parameters. If during the run on y no selection of the largest entries has a tie, the atoms handed to least squares are linearly independent and no stopping test is decided by equality, then for every eps > 0 all data near enough to y give the same support after the same number of iterations, with residual and coefficients within eps. This holds for the matrix versions and for the operator versions, which normalise y. At a tie it fails: arbitrarily near data give another support.", "quantifier": "all dictionaries (real for the matrix versions, which correlate with the plain transpose; real or complex for the operator versions), dimensions, data, sparsity levels, steps, tolerances, iteration limits, least-squares solvers satisfying the normal equations, and all tolerances eps", "why_tests_cant": "A test evaluates the identity at a few random vectors and sizes; the claim is about every size, every entry and every operand, including boundary sizes a sample never draws.", "anchors": ["src/cr/sparse/_src/pursuit/iht.py:matrix_solve,operator_solve", "src/cr/sparse/_src/pursuit/htp.py:matrix_solve,operator_solve", "src/cr/sparse/_src/pursuit/sp.py:matrix_solve,operator_solve", "src/cr/sparse/_src/pursuit/cosamp.py:matrix_solve,operator_solve"]}
{"id": "C172", "title": "Sparse subspace clustering by OMP tolerates small noise in the points", "statement": "Take points for which, in every iteration for every column, one other column has a strictly larger correlation with the residual than all the rest. Then for every eps > 0 all points near enough give the same representation indices in the same order, with coefficients and residual within eps, unbatched and with any batch size. At a tie this fails. If moreover the points are spread out over their subspaces, then points near enough, on the subspaces or not, are represented only by points of their own group, affinities between groups are exactly zero and positive affinities stay positive. If the affinities connect every group, unnormalized_k or normalized_random_walk_k applied to the affinities of the noisy points labels two points alike exactly when they are in the same group, as soon as one restart of k-means starts with a point of each group.", "quantifier": "all dimensions, numbers of points and groups, numbers of iterations, least-squares solvers satisfying the normal equations, singular value decompositions, k-means seeds, and all perturbations of the points below a positive bound", "why_tests_cant": "A test evaluates the identity at a few random vectors and sizes; the claim is about every size, every entry and every operand, including boundary sizes a sample never draws.", "anchors": ["src/cr/sparse/_src/cluster/ssc/omp.py:build_representation_omp,batch_build_representation_omp", "src/cr/sparse/_src/cluster/ssc/util.py:sparse_to_full_rep,rep_to_affinity", "src/cr/sparse/_src/cluster/spectral.py:unnormalized_k,normalized_random_walk_k"]}
{"id": "C173", "title": "Away from ties OMP and MP are stable under perturbations of the dictionary and of the data", "statement": "Suppose that with dictionary Phi and data y every atom selected by orthogonal matching pursuit (or matching pursuit) has a strictly larger correlation with the residual than all other atoms. Then for every eps > 0 there is delta > 0 such that for every dictionary of unit atoms within delta of Phi, atom by atom, and all data within delta of y, OMP selects the same atoms in the same order with coefficients and residual within eps. For omp.operator_solve this includes the number of iterations, if the run stops because K atoms are chosen or the residual is strictly below the tolerance. MP gives coefficients and residual within eps, and atoms that never win keep the coefficient zero.", "quantifier": "all dictionaries, dimensions, numbers of atoms and iterations, data, tolerances eps, and all perturbations below the bound", "why_tests_cant": "A test evaluates the identity at a few random vectors and sizes; the claim is about every size, every entry and every operand, including boundary sizes a sample never draws.", "anchors": ["src/cr/sparse/_src/pursuit/omp.py:matrix_solve,operator_solve", "src/cr/sparse/_src/pursuit/mp.py:matrix_solve,operator_solve"]}
{"id": "C174", "title": "Away from ties IHT, HTP, subspace pursuit and CoSaMP are continuous in dictionary and data together", "statement": "Suppose that with dictionary Phi and data y none of the selections of the largest entries made by the solver is decided by a tie, no stopping test is decided by equality and the atoms used in least squares are linearly independent. Then for every eps > 0 and every dictionary and data close enough to Phi and y, every result of the solver has the same support, after the same number of iterations, with coefficients and residual within eps.", "quantifier": "all dictionaries (real for the matrix versions, which correlate with the plain transpose; real or complex for the operator versions), dimensions, sparsity levels, step sizes, iteration limits, tolerances, data, and all small enough perturbations of dictionary and data", "why_tests_cant": "A test evaluates the identity at a few random vectors and sizes; the claim is about every size, every entry and every operand, including boundary sizes a sample never draws.", "anchors": ["src/cr/sparse/_src/pursuit/iht.py:matrix_solve,operator_solve", "src/cr/sparse/_src/pursuit/htp.py:matrix_solve,operator_solve", "src/cr/sparse/_src/pursuit/sp.py:matrix_solve,operator_solve", "src/cr/sparse/_src/pursuit/cosamp.py:matrix_solve,operator_solve"]}
{"id": "C175", "title": "One-bit measurements and BIHT are stable under perturbations of the dictionary", "statement": "If no linear measurement of a signal is zero, all signals and dictionaries close enough have the same one-bit measurements. If moreover in a run of BIHT no selection of the K largest entries is decided by a tie and no linear measurement of an iterate is zero, then with every dictionary close enough BIHT returns the same support, residual and number of mismatched bits after the same number of iterations, with coefficients within any prescribed eps; the same holds when the bits are themselves measured with the perturbed dictionary from a perturbed signal. A zero measurement destroys this.", "quantifier": "all dictionaries, dimensions, signals, bits, sparsity levels, step sizes, iteration limits, eps, and all small enough perturbations", "why_tests_cant": "A test evaluates the identity at a few random vectors and sizes; the claim is about every size, every entry and every operand, including boundary sizes a sample never draws.", "anchors": ["src/cr/sparse/_src/cs/cs1bit/util.py:measure_1bit", "src/cr/sparse/_src/cs/cs1bit/biht.py:biht"]}
{"id": "C176", "title": "RFP depends continuously on dictionary, bits, initial guess and parameters", "statement": "Where the renormalised fixed point solver returns a vector (no division by zero), it also returns one for all dictionaries, measurements, initial guesses, weights lambda_ and steps delta close enough, and that vector is within any prescribed eps of the first. No condition on ties or on the signs of the measurements is needed. Being undefined is not stable: a vector wiped out by the threshold survives for weights arbitrarily near.", "quantifier": "all dictionaries, dimensions, measurement vectors, initial guesses, weights, steps, numbers of inner and outer iterations, eps, and all small enough perturbations", "why_tests_cant": "A test evaluates the identity at a few random vectors and sizes; the claim is about every size, every entry and every operand, including boundary sizes a sample never draws.", "anchors": ["src/cr/sparse/_src/cs/cs1bit/rfp.py:rfp"]}
{"id": "C177", "title": "Signs and order of measurements and unknowns do not matter to RFP", "statement": "Negating or reordering measurements (rows of the dictionary together with their bits) does not change the result of the renormalised fixed point solver. Negating or reordering unknowns (atoms together with the entries of the initial guess) negates or reorders the entries of the result in the same way, and a result is defined for one problem exactly when it is for the other. The initial guesses follow the same rule.", "quantifier": "all dictionaries, dimensions, measurement vectors, initial guesses, weights, steps, numbers of iterations, sign patterns and permutations of measurements and of unknowns", "why_tests_cant": "A test evaluates the identity at a few random vectors and sizes; the claim is about every size, every entry and every operand, including boundary sizes a sample never draws.", "anchors": ["src/cr/sparse/_src/cs/cs1bit/rfp.py:rfp,rfp_random_guess,rfp_lsqr_guess"]}
{"id": "C178", "title": "Signs and order of measurements and signs of unknowns do not matter to one-bit measurements and BIHT", "statement": "Negating or reordering rows of the dictionary negates or reorders the one-bit measurements in the same way; negating atoms together with the entries of the signal changes nothing. After negating or reordering measurements (rows together with their bits) and negating atoms, BIHT returns exactly the same support, number of mismatched bits and number of iterations, with coefficients negated together with their atoms and the residual relabelled.", "quantifier": "all dictionaries, dimensions, bits, sparsity levels, step sizes, iteration limits, sign patterns of measurements and atoms, permutations of the measurements", "why_tests_cant": "A test evaluates the identity at a few random vectors and sizes; the claim is about every size, every entry and every operand, including boundary sizes a sample never draws.", "anchors": ["src/cr/sparse/_src/cs/cs1bit/util.py:measure_1bit", "src/cr/sparse/_src/cs/cs1bit/biht.py:biht"]}
{"id": "C179", "title": "ISTA depends Lipschitz-continuously on the data and the starting point", "statement": "Run ISTA twice with the same operator, basis, step and thresholding on data b, b' from starting points x0, x0'. After k iterations the iterates differ by at most |x0 - x0'| + k sqrt(step) |b - b'|. If the operator is bounded below (sigma |d|^2 <= |A d|^2 with sigma > 0), the start is forgotten at the rate (1 - step sigma)^k and the data contribute at most |A^T(b - b')| / sigma however many iterations are made, and the minimisers of the two objectives differ by at most |A^T(b - b')| / sigma.", "quantifier": "all operators, orthogonal bases, convex regularisers with their thresholding, admissible steps, data, starting points and numbers of iterations", "why_tests_cant": "Measurements carry noise: the bound must hold for every perturbation of every data set and after any number of iterations; a test compares two runs.", "anchors": ["src/cr/sparse/_src/sls/ista.py:ista"]}
{"id": "C180", "title": "Away from ties of the stopping test CG and PCG are continuous in operator, preconditioner, right-hand side, start and tolerances", "statement": "Let cg.solve_from or pcg.solve_from return a state for a symmetric positive definite operator (and preconditioner), stopping at the iteration limit or with the residual strictly below the tolerance. Then for all operators (and preconditioners), right-hand sides, starting points and tolerances close enough, symmetric or not, the solver stops after the same number of iterations, with a solution and residual as close as wanted. At an exact tie this fails.", "quantifier": "all positive definite operators and preconditioners, right-hand sides, starting points, tolerances, iteration limits, spaces and all small perturbations of them", "why_tests_cant": "The tolerated perturbation depends on the run; a test perturbs one run by one amount. Divisions by p^T A p and by the previous residual norm might blow the perturbation up.", "anchors": ["src/cr/sparse/_src/opt/cg.py:solve_from", "src/cr/sparse/_src/opt/pcg.py:solve_from"]}
{"id": "C181", "title": "Away from ties of the stopping tests ISTA and FISTA are continuous in data, start, step size and tolerances", "statement": "Let ista or fista, with a continuous operator, basis and thresholding function, return a state, stopping at the iteration limit or with one of its two tests strictly met. Then for all data, starting points, step sizes and tolerances close enough, it stops after the same number of iterations, with a solution and residual as close as wanted. Bounded operators with a proximal operator as thresholding always qualify.", "quantifier": "all continuous operators, bases and thresholding functions, data, starting points, step sizes, tolerances, iteration limits and all small perturbations of them", "why_tests_cant": "The tolerated perturbation depends on the run; a test perturbs one run by one amount.", "anchors": ["src/cr/sparse/_src/sls/ista.py:ista", "src/cr/sparse/_src/sls/fista.py:fista"]}
{"id": "C182", "title": "Where FOCUSS returns finite values they depend continuously on dictionary, measurements and exponent", "statement": "If the noiseless FOCUSS solver with an exponent p > 0 returns finite values after its iterations, it returns finite values for all dictionaries, measurements and exponents close enough, and they are as close to the first ones as wanted; entries that have become zero do no harm. Where it does not return finite values this is not stable: an arbitrarily small change of a singular dictionary gives arbitrarily large finite values.", "quantifier": "all dictionaries, measurements, positive exponents, numbers of iterations and all small perturbations of them", "why_tests_cant": "The tolerated perturbation depends on the run; a test perturbs one run by one amount, and the inverted matrix may be as close to singular as one likes.", "anchors": ["src/cr/sparse/_src/cvx/focuss.py:matrix_solve_noiseless", "src/cr/sparse/_src/cvx/focuss.py:step_noiseless"]}
{"id": "C183", "title": "Away from ties YALL1 depends continuously on measurements, weights, starting points and tolerances", "statement": "Let a YALL1 solver loop return a state on non-zero data with positive weights, no quantity tested on the way being exactly equal to its bound. Then for all data, weights, starting points, step factors and tolerances close enough the loop stops after the same number of iterations, with a solution and residual as close as wanted. The same holds for solve as a function of the measurements, including the scaling by the largest measurement and the shortcut to the zero solution.", "quantifier": "all continuous operators, measurements, weights, starting points, problem forms, parameters, iteration limits and all small perturbations of them", "why_tests_cant": "The tolerated perturbation depends on the run; a test perturbs one run by one amount.", "anchors": ["src/cr/sparse/_src/cvx/adm/yall1.py:solve", "src/cr/sparse/_src/cvx/adm/yall1.py:solve_bp", "src/cr/sparse/_src/cvx/adm/yall1.py:solve_l1_l2", "src/cr/sparse/_src/cvx/adm/yall1.py:solve_l1_l2con"]}
