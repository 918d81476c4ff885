{"id": "C01", "title": "ADMM reports SOLVED only when its residual tests hold at the returned point", "statement": "If ADMM::solve returns SOLVED then, for the primal vector x and dual vector y=(y_A,y_box) it exposes and its auxiliary vector z, ||[A;I]x - z||_inf <= eps_abs + eps_rel*max(||[A;I]x||_inf,||z||_inf) and ||Hx+h+A^T y_A+y_box||_inf <= eps_abs + eps_rel*max(||Hx||_inf,||A^T y_A||_inf,||h||_inf,||y_box||_inf), and the residuals in info() are those norms.", "quantifier": "all dimensions N, M, all QP data, all settings (any alpha, rho, sigma, check/adaptation intervals), all warm starts, all linear solver results", "why_tests_cant": "the iterate reached depends on data, settings and the number of iterations; tests only sample a handful of small QPs", "anchors": ["src/solvers/admm.hpp: ADMM::solve_impl, residuals_update, eps_prim, eps_dual, termination_criteria", "src/solvers/qp_base.hpp"]}
{"id": "C02", "title": "ADMM constraint violation at SOLVED is bounded by the tolerance", "statement": "The auxiliary vector z of ADMM lies inside [Alb;xlb] <= z <= [Aub;xub] after every iteration, so when SOLVED is returned every row of A x and every component of x violates its bounds by at most the primal tolerance.", "quantifier": "every iteration of every run, every QP whose lower bounds do not exceed its upper bounds, every setting", "why_tests_cant": "requires an invariant over all iterations and all data, including iterations with adaptive rho", "anchors": ["src/solvers/admm.hpp: solve_impl, box_projection, residuals_update"]}
{"id": "C03", "title": "ADMM duals are sign-correct and complementary at every iteration", "statement": "After every ADMM iteration the dual y is in the normal cone of the bounds at z: y_i > 0 only if z_i equals the upper bound, y_i < 0 only if z_i equals the lower bound.", "quantifier": "every iteration of every run with positive rho and consistent bounds", "why_tests_cant": "a statement about every iterate, not only the final one, for all data and all rho schedules", "anchors": ["src/solvers/admm.hpp: solve_impl (lines 112-213)"]}
{"id": "C04", "title": "ADMM SOLVED certifies near-optimality for convex QPs", "statement": "If H is symmetric positive semidefinite and ADMM returns SOLVED with (x,y), then for every feasible point w the objective satisfies f(x) <= f(w) + (dual residual)*||x-w||_1 + (primal residual)*||y||_1.", "quantifier": "all convex QPs, all feasible comparison points w, all settings", "why_tests_cant": "quantifies over all feasible points of all QPs", "anchors": ["src/solvers/admm.hpp: solve_impl, termination_criteria"]}
{"id": "C05", "title": "ADMM iteration count and status agree", "statement": "ADMM::solve returns exactly one of SOLVED and MAX_ITER_EXCEEDED. On SOLVED the reported iteration number is between 1 and max_iter and is a multiple of check_termination; if check_termination is 0 it is never SOLVED; on MAX_ITER_EXCEEDED the reported iteration number is max(max_iter,0)+1.", "quantifier": "all settings including non-positive max_iter and disabled termination checks, all data", "why_tests_cant": "tests never enumerate all settings; loop exit reasoning is needed", "anchors": ["src/solvers/admm.hpp: solve_impl", "src/solvers/qp_base.hpp: qp_solver_settings_t, status_t"]}
{"id": "C06", "title": "ADMM stationary points are exactly the KKT points", "statement": "For positive sigma, rho and alpha, a triple (x,z,y) is left unchanged by one ADMM iteration if and only if z=[A;I]x lies within the bounds, Hx+h+[A;I]^T y=0 and y is in the normal cone of the bounds at z.", "quantifier": "all QPs, all states, all positive parameters", "why_tests_cant": "an equivalence over all states", "anchors": ["src/solvers/admm.hpp: solve_impl, compute_kkt_rhs, box_projection"]}
{"id": "C07", "title": "ADMM's linear system always has exactly one solution for convex QPs", "statement": "For H positive semidefinite, sigma > 0 and every rho entry > 0, the KKT matrix assembled by ADMM (and the one assembled by boxADMM) is nonsingular.", "quantifier": "all dimensions, all A, all positive semidefinite H, all positive parameters", "why_tests_cant": "matrix nonsingularity for all sizes and data", "anchors": ["src/solvers/admm.hpp: construct_kkt_matrix", "src/solvers/box_admm.hpp: construct_kkt_matrix"]}
{"id": "C08", "title": "rho stays within its limits and matches the constraint kind", "statement": "Whatever sequence of adaptations happens, the scalar rho used after an adaptation is within [RHO_MIN, RHO_MAX]; each entry of the rho vector is positive and equals RHO_MIN for a loose constraint, RHO_EQ_FACTOR*rho for an equality and rho for an inequality.", "quantifier": "all residual values, all sequences of adaptations", "why_tests_cant": "unbounded adaptation histories", "anchors": ["src/solvers/admm.hpp: rho_vec_update, estimate_rho", "src/solvers/box_admm.hpp: rho_vec_update"]}
{"id": "C09", "title": "In-place KKT update after a rho change equals re-assembly", "statement": "After any sequence of rho changes, the KKT matrix that ADMM/boxADMM patches in place equals the one a fresh assembly with the current rho would produce.", "quantifier": "all rho histories of any length, all data", "why_tests_cant": "histories of unbounded length", "anchors": ["src/solvers/admm.hpp: update_kkt_rho, construct_kkt_matrix", "src/solvers/box_admm.hpp: update_kkt_rho"]}
{"id": "C10", "title": "Bound classification is total, exclusive and as documented", "statement": "Each constraint and each variable bound is classified as exactly one of loose, equality, inequality: loose iff lb < -1e10 and ub > 1e10; else equality iff ub - lb < 1e-4; else inequality.", "quantifier": "all bound pairs, including infinite-like, equal and inverted ones", "why_tests_cant": "all real pairs, with thresholds at the boundary", "anchors": ["src/solvers/qp_base.hpp: parse_constraints_bounds"]}
{"id": "C11", "title": "boxADMM reports SOLVED only at an approximate KKT point", "statement": "If boxADMM::solve returns SOLVED then its exposed x,y satisfy the primal and dual tolerance tests, the internal z and q are within the constraint and box bounds, and the dual is complementary to (z,q).", "quantifier": "all QPs, all settings, all runs", "why_tests_cant": "invariant over every iteration and all data", "anchors": ["src/solvers/box_admm.hpp: solve_impl, residuals_update, termination_criteria"]}
{"id": "C12", "title": "boxADMM over-relaxation keeps KKT points stationary only for alpha = 1", "statement": "A KKT point should be left unchanged by an iteration for every over-relaxation factor alpha; in boxADMM this holds for alpha = 1, and fails for other alpha because the x update reads the value it has just overwritten.", "quantifier": "all QPs, all KKT points, all alpha", "why_tests_cant": "an equivalence over all KKT points; default settings hide the failure", "anchors": ["src/solvers/box_admm.hpp: solve_impl lines 129-130"]}
{"id": "C13", "title": "ADMM converges on every solvable convex QP", "statement": "With rho fixed and 0 < alpha < 2, if the convex QP has a KKT point then the primal and dual residuals tend to zero, hence for every positive tolerance ADMM with large enough max_iter returns SOLVED.", "quantifier": "all convex QPs with a KKT point, all starting points, all fixed positive parameters", "why_tests_cant": "asymptotic statement over all data", "anchors": ["src/solvers/admm.hpp: solve_impl"]}
{"id": "C14", "title": "Ruiz scaling is undone exactly by unscale", "statement": "compute() followed by unscale() restores H, h, A and all bounds; scaling a primal-dual pair and unscaling it restores the pair.", "quantifier": "all QP data, all numbers of equilibration sweeps", "why_tests_cant": "all inputs and all intermediate scaling factors", "anchors": ["src/solvers/qp_preconditioners.hpp: RuizEquilibration::compute, scale, unscale"]}
{"id": "C15", "title": "Ruiz scaling preserves the QP", "statement": "A pair (x,y) satisfies the KKT conditions of the original QP iff the scaled pair satisfies the KKT conditions of the scaled QP; feasible sets correspond and the objective is multiplied by a positive constant.", "quantifier": "all QP data, all positive scalings reachable by compute()", "why_tests_cant": "equivalence over all points and data", "anchors": ["src/solvers/qp_preconditioners.hpp: RuizEquilibration::compute, scale(x,y), unscale(x,y)"]}
{"id": "C16", "title": "Ruiz update() keeps data and scaling factors in step", "statement": "update() on already scaled data followed by unscale() should restore the data; this fails in general because the cost factor is applied repeatedly while it is recorded only once. The dense update() does not scale the matrices at all, but the bounds, if the factors and norms of the previous call are below 0.999, and otherwise divides by zero on pure feasibility problems.", "quantifier": "all QP data, all update histories", "why_tests_cant": "history-dependent; failure needs more than one sweep", "anchors": ["src/solvers/qp_preconditioners.hpp: RuizEquilibration::update"]}
{"id": "C17", "title": "Damped BFGS keeps the Hessian approximation symmetric positive definite", "statement": "Starting from a symmetric positive definite matrix, after any sequence of BFGS_update calls with nonzero steps the matrix is symmetric positive definite.", "quantifier": "every history of (s,y) pairs of any length and dimension", "why_tests_cant": "unbounded histories; tests apply one or two updates", "anchors": ["src/solvers/bfgs.hpp: BFGS_update"]}
{"id": "C18", "title": "Damped BFGS satisfies its secant and damping conditions", "statement": "After an update that is not skipped, B+ s equals y when s.y >= 0.2 s.Bs and otherwise a convex combination of y and Bs; in all cases s.B+ s >= 0.2 s.Bs (equality when damped and s.y < 0.2 s.Bs); a skipped update leaves B unchanged.", "quantifier": "all symmetric B, all s, y", "why_tests_cant": "identity over all inputs", "anchors": ["src/solvers/bfgs.hpp: BFGS_update"]}
{"id": "C19", "title": "SR1 update is symmetric and satisfies the secant equation when applied", "statement": "SR1_update keeps B symmetric; when its guard admits an update with nonzero denominator the new matrix maps s to y; when the guard rejects, B is unchanged; with s = 0 or y = Bs the guard admits a division by zero.", "quantifier": "all symmetric B, all s, y, all histories", "why_tests_cant": "boundary case 0 >= 0 of the guard is easily missed by tests", "anchors": ["src/solvers/sr1.hpp: SR1_update"]}
{"id": "C20", "title": "Line-search filter never exceeds its depth", "statement": "With a positive maximum depth, after any sequence of add/remove_one/clear operations the filter holds at most max_depth entries; with max_depth 0, add pops from an empty list.", "quantifier": "all operation sequences", "why_tests_cant": "unbounded histories", "anchors": ["src/solvers/line_search.hpp: LSFilter::add, remove_one, clear"]}
{"id": "C21", "title": "Line-search filter acceptance logic", "statement": "A point is dominated iff some entry is no larger in both cost and violation; a point just added is dominated afterwards; anything dominated by an entry with nonnegative violation is not acceptable; acceptability is monotone: improving both coordinates keeps a point acceptable.", "quantifier": "all filters, all points, all histories", "why_tests_cant": "all points and histories", "anchors": ["src/solvers/line_search.hpp: LSFilter::is_dominated, is_acceptable, dominated_by"]}
{"id": "C22", "title": "Filter entries are mutually non-dominated until the filter is full", "statement": "If only non-dominated points are added, no entry dominates another as long as the filter has never been full; once full, add() keeps dominated entries, so the property fails.", "quantifier": "all histories of additions", "why_tests_cant": "needs more than max_depth additions in a particular pattern", "anchors": ["src/solvers/line_search.hpp: LSFilter::add"]}
{"id": "C23", "title": "SQP iteration count, status and callbacks agree", "statement": "SQPBase::solve performs between 1 and max(1,max_iter) iterations; it reports SOLVED iff the termination test held at the last iteration, otherwise MAX_ITER_EXCEEDED; the iteration callback is invoked once per iteration after the first.", "quantifier": "all problems, all settings (including max_iter <= 1), all QP-solver behaviours", "why_tests_cant": "all control-flow paths over unboundedly many iterations", "anchors": ["src/solvers/sqp_base.hpp: SQPBase::solve, termination_criteria"]}
{"id": "C24", "title": "SQP SOLVED bounds the last step and the constraint violation", "statement": "If solve() reports SOLVED, the last iteration changed every variable by at most eps_prim and every multiplier by at most eps_dual, and the returned point violates every equality, inequality and variable bound by at most eps_prim.", "quantifier": "all problems, all settings, all QP-solver behaviours", "why_tests_cant": "all problems", "anchors": ["src/solvers/sqp_base.hpp: termination_criteria, max_constraints_violation, solve"]}
{"id": "C25", "title": "Backtracking line search returns a power of tau and an Armijo point unless exhausted", "statement": "The step size returned by the l1-merit line search is tau^k with k < max(1,line_search_max_iter); if k < line_search_max_iter-1 then the Armijo condition holds at it and fails at every earlier trial; so 0 < alpha <= 1 for 0 < tau <= 1.", "quantifier": "all merit functions, all settings", "why_tests_cant": "all merit functions and loop counts", "anchors": ["src/solvers/sqp_base.hpp: step_size_selection"]}
{"id": "C26", "title": "Violation measures vanish exactly on the feasible set", "statement": "constraints_violation equals its machine epsilon offset iff x satisfies all equalities, inequalities and bounds, and is larger otherwise; max_constraints_violation <= tol iff each constraint is violated by at most tol.", "quantifier": "all points, all bounds", "why_tests_cant": "equivalence over all points", "anchors": ["src/solvers/sqp_base.hpp: constraints_violation, max_constraints_violation"]}
{"id": "C27", "title": "SQP iterates stay within the box bounds", "statement": "If the starting point satisfies the variable bounds and every QP subproblem returns a step satisfying the shifted bounds passed to it, then all iterates satisfy the variable bounds.", "quantifier": "all problems, all iteration counts, all accepted step sizes", "why_tests_cant": "invariant over all iterations", "anchors": ["src/solvers/sqp_base.hpp: solve, solve_qp"]}
{"id": "C28", "title": "The QP subproblem encodes the linearised constraints", "statement": "A step p satisfies the bounds passed to the QP solver iff the linearised equalities and inequalities and the variable bounds hold at x+p.", "quantifier": "all problems, points and steps", "why_tests_cant": "equivalence over all data", "anchors": ["src/solvers/sqp_base.hpp: solve_qp, update_linearisation"]}
{"id": "C29", "title": "Polynomial coefficient routines", "statement": "poly_diff returns the coefficients of the derivative; multiplication by x as used by the Legendre recurrence is exact; the general product routine overwrites instead of accumulating and is wrong for general factors.", "quantifier": "all polynomials of all degrees", "why_tests_cant": "all coefficient vectors", "anchors": ["src/polynomials/polynomial_math.hpp: poly_diff, poly_mul"]}
{"id": "C30", "title": "Generated Legendre basis is the Legendre family", "statement": "The generated basis satisfies the Bonnet recurrence, has degree n at index n, takes value 1 at 1 and (-1)^n at -1.", "quantifier": "every order n", "why_tests_cant": "all orders", "anchors": ["src/polynomials/legendre.hpp: generate_legendre_basis"]}
{"id": "C31", "title": "Chebyshev nodes are strictly decreasing from 1 to -1 and symmetric", "statement": "For order N >= 1 node 0 is 1, node N is -1, nodes strictly decrease, and node N-i = -node i.", "quantifier": "every order N", "why_tests_cant": "all orders", "anchors": ["src/polynomials/ebyshev.hpp: compute_nodes"]}
{"id": "C32", "title": "Chebyshev differentiation matrix is exact on polynomials", "statement": "Multiplying the vector of node values of any polynomial of degree <= N by the differentiation matrix gives the derivative's node values; in particular row sums vanish; and D(N-i,N-j) = -D(i,j).", "quantifier": "every order N, every polynomial of degree <= N", "why_tests_cant": "all orders and polynomials", "anchors": ["src/polynomials/ebyshev.hpp: compute_diff_matrix"]}
{"id": "C33", "title": "Clenshaw-Curtis weights integrate exactly", "statement": "For every order N >= 1 the quadrature weights integrate every polynomial of degree <= N exactly over [-1,1] (so they sum to 2), and are symmetric; the scaled routine integrates over [t0,tf].", "quantifier": "every order N, every polynomial of degree <= N, every interval", "why_tests_cant": "all orders and polynomials", "anchors": ["src/polynomials/ebyshev.hpp: compute_int_weights, integrate"]}
{"id": "C34", "title": "Legendre differentiation matrix differentiates", "statement": "The matrix should map node values of polynomials of degree <= N to derivative values; with the ascending node order the diagonal corner entries have the wrong sign, so even constants are not differentiated to zero.", "quantifier": "every order N", "why_tests_cant": "unit test compares against precomputed values of one order", "anchors": ["src/polynomials/legendre.hpp: compute_diff_matrix, compute_nodes"]}
{"id": "C35", "title": "Lagrange splines interpolate", "statement": "LagrangeSpline evaluated at an interpolation node returns the stored value, and reproduces every polynomial of degree <= number of nodes - 1.", "quantifier": "all distinct node sets, all data", "why_tests_cant": "all data", "anchors": ["src/polynomials/splines.hpp: LagrangeSpline::compute_lagrange_basis, eval"]}
{"id": "C36", "title": "Equidistant cubic spline indexing", "statement": "For 0 <= x < number_of_segments*length the segment containing x is used and its cubic is evaluated at x itself, not at the distance from the segment start; left of 0 the first segment is extrapolated; at or beyond the right end the code reads one column past the last.", "quantifier": "all x, all segment data", "why_tests_cant": "the boundary is excluded from tests", "anchors": ["src/polynomials/splines.hpp: EquidistantCubicSpline::eval"]}
{"id": "C37", "title": "Time grid of the transcription", "statement": "For t0 < tf the collocation time nodes start at tf, end at t0, strictly decrease, segment junctions coincide with t0+k(tf-t0)/NumSegments, and setting limits repeatedly depends only on the last call.", "quantifier": "all intervals, orders and numbers of segments, all call histories", "why_tests_cant": "all dimensions and histories", "anchors": ["src/control/continuous_ocp.hpp: compute_time_nodes, set_time_limits"]}
{"id": "C38", "title": "Collocation residual is the segment-wise ODE residual", "statement": "The equality constraint at node k equals (D_segment X)_k - t_scale*f(x_k,u_k,p,d,t_k), where junction nodes belong to the later segment's first row; it is zero for all k iff the interpolating polynomial of each segment satisfies the ODE at those nodes.", "quantifier": "all dynamics, dimensions, orders, segments, points", "why_tests_cant": "all dynamics and sizes", "anchors": ["src/control/continuous_ocp.hpp: equalities_impl", "src/control/ode_collocation.hpp"]}
{"id": "C39", "title": "Dense collocation Jacobian is the derivative of the residual", "statement": "The Jacobian returned by the dense linearisation equals the derivative of the equality constraints with respect to all variables, provided the differentiation matrix is centro-skew-symmetric (true for Chebyshev).", "quantifier": "all dynamics with given node Jacobians, all dimensions", "why_tests_cant": "all sizes and dynamics", "anchors": ["src/control/continuous_ocp.hpp: equalities_linearised_impl (dense)"]}
{"id": "C40", "title": "Sparse and dense linearisations agree, on first and repeated evaluation", "statement": "The sparse Jacobian entries equal the dense ones, and a pattern-reusing re-evaluation equals a fresh evaluation, for equality constraints.", "quantifier": "all problems, all histories of evaluations", "why_tests_cant": "all sizes and histories", "anchors": ["src/control/continuous_ocp.hpp: _equalities_linearised_sparse, _equalities_linearised_sparse_update"]}
{"id": "C41", "title": "Reserved non-zeros are sufficient and exact", "statement": "The per-column non-zero counts reserved for the constraint Jacobian equal the number of entries in its sparsity pattern.", "quantifier": "all dimensions, orders, segments", "why_tests_cant": "combinatorial identity over all sizes", "anchors": ["src/control/continuous_ocp.hpp: estimate_jac_inner_nnz, nnz_jacobian"]}
{"id": "C42", "title": "Discretised cost is the composite quadrature plus the terminal cost", "statement": "The cost equals sum over segments and nodes of t_scale*w_k*Lagrange at that node plus the Mayer term at the node of final time.", "quantifier": "all problems and points", "why_tests_cant": "all sizes", "anchors": ["src/control/continuous_ocp.hpp: cost_impl", "src/control/cost_collocation.hpp"]}
{"id": "C43", "title": "Cost gradient depends only on the point", "statement": "The gradient returned should depend only on the argument; with a default (empty) running cost the derivative part of the accumulator is never cleared, so the result depends on the previous call.", "quantifier": "all call histories", "why_tests_cant": "needs two calls with particular problem structure", "anchors": ["src/control/continuous_ocp.hpp: cost_gradient_impl", "src/autodiff/AutoDiffScalar.h: operator=(const Scalar&)"]}
{"id": "C44", "title": "Sparse inequality Jacobian re-evaluation", "statement": "Re-evaluating the inequality Jacobian in the sparse pattern should equal a fresh evaluation; the update routine uses a temporary with NX instead of NG rows.", "quantifier": "all dimensions NX, NG", "why_tests_cant": "tests use NG = NX or NG = 0", "anchors": ["src/control/continuous_ocp.hpp: _ineq_linearised_sparse_update"]}
{"id": "C45", "title": "Lagrangian gradient", "statement": "The Lagrangian gradient returned equals cost gradient plus transposed constraint Jacobian times the constraint multipliers plus the bound multipliers.", "quantifier": "all problems, multipliers", "why_tests_cant": "all sizes", "anchors": ["src/solvers/nlproblem.hpp: lagrangian_gradient_impl", "src/control/continuous_ocp.hpp: lagrangian_gradient_impl"]}
{"id": "C46", "title": "Sparse block BFGS is the pattern restriction of damped BFGS", "statement": "After any history of evaluations and updates, whenever the dense damped BFGS update changes the matrix with the same entries, the sparse Hessian update succeeds; its entries equal the dense result for variables of the same node or with a parameter involved, and the other entries stay zero. For a zero step the dense update leaves the matrix alone whereas the sparse one divides by zero.", "quantifier": "all dimensions, all histories, all steps and gradient changes", "why_tests_cant": "all sizes and histories", "anchors": ["src/control/continuous_ocp.hpp: hessian_update_impl, lines 2304-2431"]}
{"id": "C47", "title": "MPC wrapper setters touch exactly what they name", "statement": "For every sequence of calls, each setter changes exactly the bounds, guesses, parameters or horizon it names, at the nodes it names (initial state: first node in time; state bounds: all later nodes; final state: last node; controls, path constraints: all nodes), and solve() changes only solution and multipliers. The initial condition survives all other calls; of two initial conditions the last counts; final-state bounds are lost when state bounds are set after them.", "quantifier": "all sequences of calls with all arguments, any arbitrary solver, all dimensions, orders and numbers of segments", "why_tests_cant": "Frame conditions concern every entry not written, for every call order and every size.", "anchors": ["src/control/mpc_wrapper.hpp: setters, lines 89-205"]}
{"id": "C48", "title": "MPC wrapper getters read back the trajectory in time order", "statement": "solution_x_at(k) and solution_u_at(k) are state and control at the k-th node in increasing time, the one whose time the problem's callbacks receive with it; column k of the reshaped trajectories equals them; time_grid increases from start to end of the horizon; feeding the solution back as guess changes nothing; after initial_conditions(x0) and any other calls, a solution within its bounds has x0 at node 0.", "quantifier": "all reachable wrappers, all nodes, components, horizons, dimensions", "why_tests_cant": "The storage order is reversed in time; a test sees one size and one horizon.", "anchors": ["src/control/mpc_wrapper.hpp: solution_x_at, solution_x_reshaped, time_grid, lines 228-294"]}
{"id": "C49", "title": "MPC wrapper interpolation at a time", "statement": "For t in a horizon that starts at zero, solution_x_at(t) and solution_u_at(t) are the values at t of the polynomial interpolating the nodes of the segment containing t; at node times they return the node's state. The same holds for one segment and any horizon. With several segments and t_start different from zero there is always a time in the horizon and a trajectory for which the result is wrong, because the segment index ignores t_start.", "quantifier": "all reachable wrappers, all times in the horizon, all trajectories, orders, numbers of segments and horizons", "why_tests_cant": "Real-valued times, and the existing tests use horizons from zero.", "anchors": ["src/control/mpc_wrapper.hpp: solution_x_at(const scalar_t&), solution_u_at(const scalar_t&), lines 245-255, 271-281"]}
{"id": "C50", "title": "LQR Newton line search minimises the Riccati residual", "statement": "The step length lies in [1e-5,2] and, for a positive leading coefficient, minimises the quartic there (for a negative one it maximises it, for zero it divides by zero). At symmetric iterates the quartic is the squared Frobenius norm of the Riccati residual along the Newton direction, so no step length in the interval does better, iterates stay symmetric, the residual does not grow unless the second-order term exceeds 1e10 times the residual, and a run that stops early returns a residual of at most 1e-5. A guess that already solves the equation leads to 0/0.", "quantifier": "all coefficients; all dimensions, all symmetric B, C and guesses, all iteration limits, any root finder that returns all real roots", "why_tests_cant": "optimality over a continuum, and an invariant of all iterations", "anchors": ["src/control/lqr.hpp: line_search_care, newton_ls_care, lines 55-142", "src/polymath.cpp: newton_ls_care, line_search_care, lines 363-407, 462-497"]}
{"id": "C51", "title": "CARE solver uses its cost argument", "statement": "The Riccati solution should depend on the cost matrix. The routine of control/lqr.hpp does not: for given A and B it can solve the equation for at most one C, and the lqr of that header (check off) returns the same S and K for every Q, so it is optimal for at most one symmetric Q.", "quantifier": "all A, B, C, F, G, Q, R, M, all dimensions, any decompositions", "why_tests_cant": "concerns pairs of calls with different arguments; tests only check that one call runs", "anchors": ["src/control/lqr.hpp: care, lqr, lines 177-229"]}
{"id": "C52", "title": "Lyapunov back-substitution", "statement": "With real eigenvalues, no two of which sum to zero, lyapunov returns the unique X with A X + X A^T = Q, symmetric if Q is. In general the residual is what the entries of the Schur factor below its diagonal contribute, so with complex eigenvalues it is wrong: for a 2x2 matrix with complex eigenvalues and nonzero trace it solves the equation for no positive definite Q.", "quantifier": "all dimensions, all matrices with a real Schur form, all right-hand sides", "why_tests_cant": "all sizes; tests use real eigenvalues", "anchors": ["src/control/lqr.hpp: lyapunov, lines 29-53", "src/polymath.cpp: lyapunov, lines 337-360"]}
{"id": "C53", "title": "Forward-mode derivatives are correct for every expression", "statement": "For any expression built from the supported operations other than floor, evaluating it on seeded AD scalars returns the plain value, and the derivative vector equals the mathematical gradient at every point where all sub-operations are differentiable; arguments that already carry derivatives are handled by the chain rule.", "quantifier": "all expressions, all points in the domain, any number of variables", "why_tests_cant": "all expression trees", "anchors": ["src/autodiff/AutoDiffScalar.h"]}
{"id": "C54", "title": "Nested AD scalars give the Hessian", "statement": "For any expression built from the supported operations other than floor and pow, the nested AD evaluation seeded as in the code gives the value, the gradient (in both places where the code reads it) and the symmetric matrix of second derivatives, at every point where all sub-operations are smooth.", "quantifier": "all expressions, all points, any number of variables", "why_tests_cant": "all expression trees", "anchors": ["src/autodiff/AutoDiffScalar.h", "src/solvers/nlproblem.hpp: seed_derivatives", "src/control/continuous_ocp.hpp: seed_derivatives"]}
{"id": "C55", "title": "AD special cases", "statement": "Assigning a plain number to an AD scalar should give zero derivatives and floor should have zero derivative off the integers; the code keeps the old derivatives on assignment and passes the derivative of the argument through floor.", "quantifier": "all values", "why_tests_cant": "tests do not exercise these cases", "anchors": ["src/autodiff/AutoDiffScalar.h: operator=(const Scalar&), floor"]}
{"id": "C56", "title": "RBF kernel derivatives", "statement": "The closed-form gradient of the RBF kernel equals the derivative of exp(-||x-y||^2); the closed-form second derivative does not (identity term has the wrong factor).", "quantifier": "all x, y", "why_tests_cant": "identity over all points", "anchors": ["src/autodiff/rbf_kernel.hpp"]}
{"id": "C57", "title": "RK4 step", "statement": "The RK4 routines perform the classical step: for affine dynamics the result is the degree-4 Taylor polynomial of the exact solution, for a right-hand side depending only on a clock variable it is Simpson's rule (exact for cubics), a zero step returns the state, equilibria stay, affine changes of coordinates commute with the step, affine conserved quantities are conserved, and on x' = lx the relative error is at most |hl|^5/100 for |hl| <= 1.", "quantifier": "all systems of each kind, states, inputs and step sizes", "why_tests_cant": "all systems", "anchors": ["src/integration/integrator.cpp: rk4_solve", "src/polymath.cpp: rk4_symbolic"]}
{"id": "C58", "title": "Quaternion helpers", "statement": "quat_multiply is Hamilton's product, associative and norm-multiplicative; quat_inverse is an inverse on either side exactly for unit quaternions; quat_transform composes, is a rotation exactly for unit quaternions, is undone by the inverse, and two unit quaternions act equally exactly if they agree up to sign; T1quat, T2quat, T3quat express a vector in the frame turned about the respective axis and angles add.", "quantifier": "all quaternions, vectors and angles", "why_tests_cant": "identities over all inputs", "anchors": ["src/polymath.cpp: quat_multiply, quat_inverse, quat_transform, T1quat, T2quat, T3quat"]}
{"id": "C59", "title": "Ipopt adapter sparsity and values are aligned", "statement": "Read as triplets, the structure arrays of one call and the value arrays of another are the matrix: for the dense Jacobian and Hessian in arrays of the declared size, and for a sparse Hessian whose pattern has not changed. The values of a sparse Jacobian are never written: the array Ipopt passes stays as it was, so a zeroed array means a zero Jacobian.", "quantifier": "all sizes, matrices, patterns and previous array contents", "why_tests_cant": "all patterns", "anchors": ["src/solvers/ipopt_interface.hpp: get_data, get_sparsity, eval_jac_g", "src/solvers/nlproblem.hpp: nnz_jacobian, nnz_lag_hessian"]}
{"id": "C60", "title": "Scaled Chebyshev grid covers the requested interval", "statement": "cheb() should place nodes in the given interval; it does so, and hits its end points, iff the interval starts at 0 or has length 2. Its matrix differentiates polynomials of degree at most N on the nodes it returns, whatever the interval.", "quantifier": "all intervals and orders", "why_tests_cant": "tests use intervals starting at 0", "anchors": ["src/polymath.cpp: cheb"]}
{"id": "C61", "title": "boxADMM with alpha = 1 computes the same iterates as ADMM", "statement": "Called with the same convex QP, settings (alpha = 1, fixed rho) and guesses, boxADMM and ADMM produce the same primal and dual vectors after every iteration.", "quantifier": "all dimensions, all convex QPs, all guesses, all iteration numbers", "why_tests_cant": "A test compares two runs to a tolerance; equality of two different linear systems' iterates for all inputs is an algebraic fact.", "anchors": ["src/solvers/box_admm.hpp: boxADMM::solve_impl", "src/solvers/admm.hpp: ADMM::solve_impl"]}
{"id": "C62", "title": "boxADMM with its default over-relaxation converges on every solvable convex QP", "statement": "With alpha = 1 and fixed positive rho, if the convex QP has a KKT point then boxADMM's iterates converge to a KKT point and for every positive tolerance a large enough max_iter makes it return SOLVED.", "quantifier": "all convex QPs with a KKT point, all guesses, all positive parameters", "why_tests_cant": "Convergence is a statement about infinite runs on all problems.", "anchors": ["src/solvers/box_admm.hpp: boxADMM::solve_impl"]}
{"id": "C63", "title": "A solver object's earlier calls do not influence a solve", "statement": "ADMM::solve with given data, settings and guesses returns the same primal and dual vectors, status and iteration count whatever the object was used for before.", "quantifier": "all histories of the object, all data, all settings", "why_tests_cant": "Stale state may show only after particular sequences of calls.", "anchors": ["src/solvers/admm.hpp: ADMM::solve_impl, construct_kkt_matrix, rho_vec_update"]}
{"id": "C64", "title": "Ruiz equilibration stops after one sweep on data with entries of size one", "statement": "compute() performs exactly one equilibration sweep whenever some entry of H or A exceeds 0.999 in absolute value, so the documented iteration to equilibrium does not take place for such data.", "quantifier": "all QP data with an entry of H or A larger than 0.999", "why_tests_cant": "all inputs; the loop condition compares without absolute value", "anchors": ["src/solvers/qp_preconditioners.hpp: RuizEquilibration::compute"]}
{"id": "C65", "title": "Ruiz equilibration is defined on every QP", "statement": "compute() should be defined on every QP. For dense data it is (all factors positive). For sparse data it divides by zero on every pure feasibility problem (H = 0, h = 0).", "quantifier": "all QP data and sparsity patterns", "why_tests_cant": "all inputs and patterns", "anchors": ["src/solvers/qp_preconditioners.hpp: RuizEquilibration::compute (dense and sparse)"]}
{"id": "C66", "title": "SQP fixed points are exactly the stationary points", "statement": "The zero step with multipliers y is optimal for the QP formed at x iff (x,y) satisfies the first-order optimality conditions of the NLP; with a positive definite QP Hessian the optimal step is zero iff x is stationary, and solve() started at a stationary point does not move.", "quantifier": "all problems, all points, all exact QP solvers, both preconditioners", "why_tests_cant": "equivalence over all problems and an invariant over all iterations", "anchors": ["src/solvers/sqp_base.hpp: solve, linearisation, update_linearisation"]}
{"id": "C67", "title": "The QP step is a descent direction of the merit function and accepted steps decrease it", "statement": "For an optimal QP pair (p, lambda), grad f . p - max|lambda| * violation <= -p'Hp, and a step accepted before the line search is exhausted decreases the l1 merit function by at least alpha*eta*(p'Hp + max|lambda|*epsilon).", "quantifier": "all problems, all points, all settings", "why_tests_cant": "inequality over all problems", "anchors": ["src/solvers/sqp_base.hpp: step_size_selection"]}
{"id": "C68", "title": "The line search succeeds for differentiable problems", "statement": "If cost and constraints are differentiable along an optimal QP step p and eta*max|lambda|*epsilon < (1-eta)*p'Hp, then all sufficiently small steps pass the Armijo test, so the search accepts a step once line_search_max_iter is large enough.", "quantifier": "all differentiable problems over the reals, all settings with eta <= 1, 0 < tau < 1", "why_tests_cant": "limit statement about a function space", "anchors": ["src/solvers/sqp_base.hpp: step_size_selection"]}
{"id": "C69", "title": "All QP subproblems of the default SQP solver are strictly convex and solve() never divides by zero", "statement": "With the default damped BFGS update and a positive definite Hessian at the starting point, the Hessian of every QP subproblem of the run is symmetric positive definite, also with Ruiz equilibration, and solve() is defined.", "quantifier": "all problems with positive definite initial Hessian, all iteration counts", "why_tests_cant": "invariant over all iterations and problems", "anchors": ["src/solvers/sqp_base.hpp: solve, hessian_update", "src/solvers/bfgs.hpp: BFGS_update"]}
{"id": "C70", "title": "SQP results do not depend on earlier solves", "statement": "Two SQP objects with equal guesses x, lambda produce the same x, lambda, iteration counts, status and norms whatever was solved before, provided the QP solver's results do not depend on its history.", "quantifier": "all object states, all problems", "why_tests_cant": "all histories", "anchors": ["src/solvers/sqp_base.hpp: solve"]}
{"id": "C71", "title": "SOLVED does not certify the multipliers", "statement": "The machine epsilon added to the constraint violation makes the Armijo test fail for every trial when the step is zero and some multiplier is not, so the smallest step is taken; solve() then reports SOLVED with the initial multipliers although the QP multipliers differ from them arbitrarily.", "quantifier": "all problems for the failing line search; a concrete problem with default settings for the wrong multiplier", "why_tests_cant": "shows that no test of SOLVED can guarantee the multipliers", "anchors": ["src/solvers/sqp_base.hpp: step_size_selection, constraints_violation, termination_criteria"]}
{"id": "C72", "title": "Near stationarity at SOLVED", "statement": "If the QPs are solved exactly and solve() reports SOLVED, then alpha*|grad L(x0,lambda)| <= ||H||*eps_prim componentwise, with x0 the iterate before the last step, lambda the last QP multipliers and alpha the last step size, and lambda satisfies sign and complementarity conditions of the linearised constraints.", "quantifier": "all problems, all settings, exact QP solvers", "why_tests_cant": "bound over all problems", "anchors": ["src/solvers/sqp_base.hpp: termination_criteria, solve"]}
{"id": "C73", "title": "Chebyshev projection reproduces polynomials below the order", "statement": "Projecting a polynomial of degree < N onto the Chebyshev basis of order N over [a,b] and evaluating the projection at any point of [a,b] returns the polynomial; the coefficient of the top basis function is twice what it should be, so T_N itself is returned doubled.", "quantifier": "every order N >= 1, every polynomial, every interval, every evaluation point", "why_tests_cant": "all polynomials and points; the tests look at functions whose top coefficient is negligible", "anchors": ["src/polynomials/projection.hpp: project, eval", "src/polynomials/ebyshev.hpp: compute_norm_factors"]}
{"id": "C74", "title": "Gauss-Lobatto weights integrate exactly up to degree 2N-1", "statement": "The Legendre quadrature weights are positive, sum to two and integrate every polynomial of degree at most 2N-1 exactly over [-1,1]; integrate(t0,tf) does so over any interval; degree 2N is not exact.", "quantifier": "every order N >= 1, every polynomial, every interval", "why_tests_cant": "all polynomials and intervals", "anchors": ["src/polynomials/legendre.hpp: compute_quad_weights, integrate"]}
{"id": "C75", "title": "Legendre projection reproduces polynomials up to the order", "statement": "Projecting a polynomial of degree <= N onto the Legendre basis of order N over [a,b] and evaluating the projection at any point returns the polynomial.", "quantifier": "every order N >= 1, every polynomial, every interval, every point", "why_tests_cant": "all polynomials and points", "anchors": ["src/polynomials/projection.hpp: project, eval", "src/polynomials/legendre.hpp: compute_norm_factors"]}
{"id": "C76", "title": "Legendre nodes are the Gauss-Lobatto points", "statement": "For every order N >= 1 construction succeeds and the nodes are -1, the N-1 distinct zeros of the derivative of the Legendre polynomial, and 1, in ascending order; the clean-up of small coefficients before root finding never changes the polynomial when the threshold is below 2^-N.", "quantifier": "every order N >= 1", "why_tests_cant": "all orders", "anchors": ["src/polynomials/legendre.hpp: compute_nodes"]}
{"id": "C77", "title": "Dense cost Hessian", "statement": "The dense second-order cost evaluation returns the cost, its gradient and the Hessian of the cost, except for the terminal cost's parameter-parameter block: that block is not added and the first NP columns of the parameter rows are added again instead. It is the Hessian iff that error vanishes (always for NP = 0); with more controls than states the evaluation fails a range assertion.", "quantifier": "all problems, points, sizes", "why_tests_cant": "needs problems with parameters in the terminal cost, and all sizes", "anchors": ["src/control/continuous_ocp.hpp: cost_gradient_hessian (dense), lines 1256-1367, 1335, 1354"]}
{"id": "C78", "title": "Dense Lagrangian Hessian", "statement": "The dense second-order Lagrangian evaluation returns the gradient of the Lagrangian and the Hessian of the Lagrangian, up to the terminal-cost error of C77.", "quantifier": "all problems, points, multipliers, sizes", "why_tests_cant": "all sizes and dynamics", "anchors": ["src/control/continuous_ocp.hpp: lagrangian_gradient_hessian (dense), lines 2100-2174"]}
{"id": "C79", "title": "Sparse cost Hessian, repeated evaluation", "statement": "After at least one evaluation, whatever the history of further evaluations (other points, callbacks, horizons) and quasi-Newton updates, the sparse second-order cost evaluation succeeds, returns cost and gradient, and leaves the Hessian of the cost in the matrix; it differs from the dense result only by the error of the dense version. Without parameters this also holds for the first call and sparse and dense agree.", "quantifier": "all problems with NU <= NX, points, sizes, histories", "why_tests_cant": "history-dependent in-place updates of a sparse matrix; all sizes", "anchors": ["src/control/continuous_ocp.hpp: cost_gradient_hessian (sparse), lines 1372-1905"]}
{"id": "C80", "title": "Sparse cost Hessian, first evaluation", "statement": "On a freshly allocated matrix the sparse second-order cost evaluation returns the Hessian of the cost iff an explicit error made of shifted and missing parameter blocks vanishes. With more parameters than controls it fails a range assertion; with several segments the control-parameter entries of nodes between segments lack a contribution and the matrix is not symmetric. It is right for one segment with as many states, controls and parameters.", "quantifier": "all problems with NU <= NX, points, sizes", "why_tests_cant": "the error occurs only on the first call and for problems with parameters", "anchors": ["src/control/continuous_ocp.hpp: _cost_grad_hess_sparse_inner, lines 1384-1684"]}
{"id": "C81", "title": "Sparse Lagrangian gradient", "statement": "After any history of calls the sparse first-order Lagrangian evaluation returns the same value, gradients, constraints and Jacobian entries as the dense one, when there are no path constraints, as many as states, or on the first call.", "quantifier": "all problems, points, multipliers, histories, sizes", "why_tests_cant": "histories and all sizes", "anchors": ["src/control/continuous_ocp.hpp: lagrangian_gradient (sparse), lines 1980-2017"]}
{"id": "C82", "title": "Sparse Lagrangian Hessian", "statement": "After at least one evaluation, or without parameters, the sparse second-order Lagrangian evaluation returns cost, gradient of the Lagrangian and the Hessian of the Lagrangian, and agrees with the dense evaluation up to the dense version's error for every cost scaling.", "quantifier": "all problems with NU <= NX, points, multipliers, histories, sizes", "why_tests_cant": "histories and all sizes", "anchors": ["src/control/continuous_ocp.hpp: lagrangian_gradient_hessian (sparse), lines 2176-2301"]}
{"id": "C83", "title": "Definiteness of the sparse quasi-Newton matrix", "statement": "Without parameters every sequence of sparse updates with nonzero steps keeps a positive definite matrix symmetric and positive definite. With parameters this fails: one update of the identity with positive curvature s.y can produce an indefinite matrix.", "quantifier": "all dimensions with NP = 0, all histories, all nonzero steps; a witness with NP = 1", "why_tests_cant": "all update sequences", "anchors": ["src/control/continuous_ocp.hpp: hessian_update_impl, lines 2304-2431"]}
{"id": "C84", "title": "Node numbers out of range", "statement": "solution_x_at(k) and solution_u_at(k) should reject k outside 0..num_nodes-1. solution_x_at fails its assertion for every k past the end, but for k = -1 returns controls (if NX <= NU), and solution_u_at one past the end returns components of the initial state (if NU <= NX).", "quantifier": "all wrappers, all k, all dimensions", "why_tests_cant": "A wrong index silently returns plausible numbers, also in debug builds with assertions.", "anchors": ["src/control/mpc_wrapper.hpp: solution_x_at(const int&), solution_u_at(const int&), lines 241-244, 267-270"]}
{"id": "C85", "title": "Horizon changed behind the wrapper", "statement": "Interpolation at a time should follow the problem's horizon. If set_time_limits is called on the problem obtained from ocp() or solver(), the wrapper keeps its old grid: for the trajectory whose state equals the time, solution_x_at(new end) is the new end time while the state at the last node is the old end time.", "quantifier": "all reachable wrappers with a horizon from zero, all longer horizons, all orders and numbers of segments", "why_tests_cant": "Depends on the interplay of two objects and a stale cache.", "anchors": ["src/control/mpc_wrapper.hpp: ocp, solver, set_time_limits, lines 77-86, 217-221"]}
{"id": "C86", "title": "Pseudo-inverse", "statement": "pinv of a square matrix is its Moore-Penrose inverse exactly when no singular value lies in (0,1e-6], and its inverse when all exceed 1e-6. A matrix that is not square makes an Eigen assertion fail.", "quantifier": "all matrices of all shapes with an exact singular value decomposition", "why_tests_cant": "all singular values including those next to the threshold", "anchors": ["src/control/lqr.hpp: pinv, lines 10-25", "src/polymath.cpp: pinv, lines 438-453"]}
{"id": "C87", "title": "LQR gain completes the square", "statement": "Without cross term, with R symmetric and invertible and a symmetric solution S of the Riccati equation it poses, lqr returns K such that running cost plus the derivative of x'Sx is (u+Kx)'R(u+Kx), i.e. u=-Kx is optimal. With a cross term M it does not: for the documented cost x'Qx+x'Mu+u'Ru never when M is nonzero; for 2x'Mu exactly when two wrong terms of the posed equation cancel, which for one state and one input never happens. The positivity check refuses exactly the weights for which an eigenvalue of Q-M pinv(R) M' is negative.", "quantifier": "all systems, weights, dimensions, all solutions of the posed equation", "why_tests_cant": "optimality quantifies over all states and inputs; tests use M = 0", "anchors": ["src/control/lqr.hpp: lqr, lines 189-229", "src/polymath.cpp: lqr, lines 499-534"]}
{"id": "C88", "title": "Initial guess of the Riccati iteration is stabilising", "statement": "When its decompositions are exact, its Lyapunov equation has real eigenvalues and an invertible solution with inverse W, the guess is B'W and W A_cl + A_cl' W = -2 beta W for the closed loop A_cl = A - B X; if W is positive definite all eigenvalues of A_cl have real part -beta. The symmetrised guess X satisfies d/dt x'Xx <= -|x|^2/2 along its own closed loop for positive semidefinite B. The shift of polymath.cpp moves every eigenvalue to the right of 1/2.", "quantifier": "all systems and dimensions meeting the stated conditions, all shifts", "why_tests_cant": "a statement about all trajectories and eigenvalues of the closed loop", "anchors": ["src/control/lqr.hpp: init_newton_care, lines 144-175", "src/polymath.cpp: init_newton_care, lines 409-435"]}
{"id": "C89", "title": "Controllability test", "statement": "With an exact rank, is_controllable is true exactly when no nonzero covector annihilates F^k G for all k (all powers, not only those below n).", "quantifier": "all systems and dimensions", "why_tests_cant": "equivalence over all powers and covectors", "anchors": ["src/polymath.cpp: LinearSystem::is_controllable, lines 306-322"]}
{"id": "C90", "title": "RK4 is accurate of order four on nonlinear dynamics", "statement": "If the right-hand side is analytic at the state for the given control and parameter, and y is a solution starting there, a step of length h differs from y(h) by O(h^5).", "quantifier": "all Banach spaces, analytic right-hand sides, states and solutions", "why_tests_cant": "an asymptotic statement about all systems", "anchors": ["src/integration/integrator.cpp: rk4_solve"]}
{"id": "C91", "title": "ODESolver returns a state or an empty matrix", "statement": "solve returns a state exactly if the current method is RK4, or it is CVODES, the object was constructed with CVODES and the integrator succeeded. Switching an RK4 object to CVODES makes every later call return an empty matrix without an error; only the last method set matters.", "quantifier": "all solvers, integrator behaviours and histories of updateParams", "why_tests_cant": "failures are silent", "anchors": ["src/integration/integrator.cpp: solve, cvodes_solve, updateParams"]}
{"id": "C92", "title": "The two Chebyshev expansions", "statement": "chebyshev_expansion returns the Chebyshev series with the given coefficients for every argument and any number of coefficients; chebyshev_expansion2 returns the same on [-1,1] and nothing outside.", "quantifier": "all coefficient vectors and arguments", "why_tests_cant": "all lengths and arguments", "anchors": ["src/polymath.h: chebyshev_expansion, chebyshev_expansion2"]}
{"id": "C93", "title": "Integer factorial wraps", "statement": "factorial(n) is n! modulo 2^32: the factorial exactly for n <= 12, and 0 for n >= 34.", "quantifier": "all n below 2^31-1", "why_tests_cant": "silent overflow", "anchors": ["src/polymath.cpp: factorial"]}
{"id": "C94", "title": "Arithmetic ranges", "statement": "range(first,last,step) with a positive step returns the terms of the arithmetic progression not exceeding last; with a step <= 0 it returns the empty list if last < first and otherwise never returns.", "quantifier": "all ordered Archimedean fields, bounds and steps", "why_tests_cant": "termination", "anchors": ["src/polymath.h: range"]}
{"id": "C95", "title": "Lagrange interpolator objects", "statement": "lagrange_poly evaluates the Lagrange basis polynomial and is undefined exactly for coinciding nodes; an initialised interpolator evaluates the interpolating polynomial. update_basis alone does not change what eval(arg) returns; eval with values then interpolates on the new nodes and later evaluations use that polynomial; the Eigen overload fails its assertion when the number of nodes changed.", "quantifier": "all fields, node sets, values and arguments", "why_tests_cant": "stale state", "anchors": ["src/polymath.cpp: lagrange_poly, lagrange_poly_basis, LagrangeInterpolator"]}
{"id": "C96", "title": "Smooth step and spherical coordinates", "statement": "heaviside with positive height stays strictly between 0 and the height, is strictly increasing, is half the height at 0 and point symmetric; spheric2cart has the radius as length and reaches every vector.", "quantifier": "all real arguments", "why_tests_cant": "all arguments", "anchors": ["src/polymath.cpp: heaviside", "src/polymath.h: spheric2cart"]}
{"id": "C97", "title": "The sparse problem declares the right numbers of entries to Ipopt", "statement": "After any history of calls that assembled them, the declared Hessian count is the number of stored entries in the lower triangle and the declared Jacobian count the number of stored entries; structure and values of Hessians from any two such histories fit together.", "quantifier": "all horizons, dimensions, problems and histories of calls", "why_tests_cant": "the counts are formulas, the matrices come from insertion loops", "anchors": ["src/solvers/ipopt_interface.hpp: get_nlp_info, eval_h", "src/control/continuous_ocp.hpp: nnz_jacobian, nnz_lag_hessian"]}
{"id": "C98", "title": "Ipopt is given the user's constraints", "statement": "A point is feasible for the bounds and constraint values passed to Ipopt exactly if the equalities vanish, the inequality constraints are within their bounds and the variables within theirs; without bounds set only the equalities remain.", "quantifier": "all problems, bounds, points and previous array contents", "why_tests_cant": "all sizes including none of a kind", "anchors": ["src/solvers/ipopt_interface.hpp: get_bounds_info, eval_g"]}
{"id": "C99", "title": "Ipopt starts from the stored guess", "statement": "Variables and constraint multipliers are passed as stored; the multiplier of a bound is split into two non-negative parts whose difference it is, at most one being non-zero; nothing that is not requested is written.", "quantifier": "all guesses and multipliers", "why_tests_cant": "signs of all multipliers", "anchors": ["src/solvers/ipopt_interface.hpp: get_starting_point, solve"]}
{"id": "C100", "title": "Multipliers exchanged with Ipopt", "statement": "Ipopt passes one multiplier per constraint. The adapter reads one per constraint and variable, so with at least one variable every Hessian evaluation and the storing of the solution read behind the end of the array. With a long enough array, Hessian and Jacobian reach Ipopt evaluated at its point, multipliers and objective factor.", "quantifier": "all problems with a variable, all points and multipliers", "why_tests_cant": "undefined behaviour that rarely crashes", "anchors": ["src/solvers/ipopt_interface.hpp: eval_h, finalize_solution, eval_jac_g"]}
{"id": "C101", "title": "Gradient of a user-defined cost", "statement": "For a dense problem, cost_gradient returns the value and the gradient of the cost callback, whether the callback assigns its output or accumulates into it, whatever was called on the object before.", "quantifier": "all problems, points and call histories", "why_tests_cant": "exact derivatives for all callbacks and histories", "anchors": ["src/solvers/nlproblem.hpp: cost_gradient_impl, seed_derivatives"]}
{"id": "C102", "title": "Second derivatives of a user-defined cost", "statement": "cost_gradient_hessian returns value, gradient and the symmetric Hessian after any calls if the callback begins with an assignment. If the callback only accumulates, the returned gradient and Hessian are those of the cost plus those returned by the previous call (uninitialised memory on the first).", "quantifier": "all problems, points and call histories", "why_tests_cant": "history dependence through unreset members", "anchors": ["src/solvers/nlproblem.hpp: cost_gradient_hessian_impl"]}
{"id": "C103", "title": "Linearised constraints of a user-defined problem", "statement": "constraints_linearised returns value and gradient of each equality and then each inequality in its row, equal to what constraints returns, after any calls, if the callbacks begin with an assignment. For accumulating callbacks each call adds to the result of the previous one.", "quantifier": "all problems, points and call histories", "why_tests_cant": "history dependence through unreset members", "anchors": ["src/solvers/nlproblem.hpp: equalities_linearised_impl, inequalities_linearised_impl, constraints_linearised_impl, constraints_impl"]}
{"id": "C104", "title": "Plain numbers assigned in callbacks", "statement": "Assigning a plain number to the cost gives a zero gradient from cost_gradient; but the Jacobian row of a constraint assigned a plain number, and the Hessian of such a cost, are the contents of the object's memory at construction, after any calls.", "quantifier": "all problems, points and call histories", "why_tests_cant": "depends on uninitialised memory", "anchors": ["src/solvers/nlproblem.hpp: seed_derivatives, equalities_linearised_impl, cost_gradient_impl, cost_gradient_hessian_impl", "src/autodiff/AutoDiffScalar.h: operator=(const Scalar&)"]}
{"id": "C105", "title": "Lagrangian and its gradient", "statement": "lagrangian evaluates f + l'c + m'g + n'z for the stacked multipliers; lagrangian_gradient returns its gradient with the cost gradient, constraints and Jacobian, after any calls, but its 'Lagrangian' output is the cost alone.", "quantifier": "all problems whose callbacks begin with assignments, points, multipliers and histories", "why_tests_cant": "all multipliers and problems", "anchors": ["src/solvers/nlproblem.hpp: lagrangian_impl, lagrangian_gradient_impl"]}
{"id": "C106", "title": "Second derivatives of the Lagrangian and the cost scale", "statement": "lagrangian_gradient_hessian returns the gradient of f + l'c + m'g + n'z and the Hessian of s f + l'c + m'g + n'z for cost scale s, after any calls; so the gradient is that of the scaled Lagrangian iff s = 1 or the gradient of the cost vanishes.", "quantifier": "all problems whose callbacks begin with assignments, points, multipliers, scales and histories", "why_tests_cant": "all multipliers, scales and problems", "anchors": ["src/solvers/nlproblem.hpp: lagrangian_gradient_hessian_impl"]}
{"id": "C107", "title": "Sparse ADMM computes what dense ADMM computes", "statement": "For every sequence of ADMM solve calls on one object, with sparse matrices stored in any sorted pattern, with reuse_pattern set only in calls whose matrices have the pattern of the previous call and whose Hessian stores its whole diagonal, and with a decomposition that reads one triangle when it is set, every result (primal, dual, status, residuals, step size, iterations) is that of the dense solver on the same data; hence SOLVED implies small residuals, and convergence carries over.", "quantifier": "all problems, patterns, settings and call sequences", "why_tests_cant": "all sparsity patterns and call histories", "anchors": ["src/solvers/admm.hpp: construct_A, construct_kkt_matrix_sparse, construct_kkt_matrix_same_pattern, update_kkt_rho"]}
{"id": "C108", "title": "reuse_pattern with a Hessian that does not store its diagonal (ADMM)", "statement": "If the sparse Hessian stores no entry at (c,c), a call with reuse_pattern after a call with the same pattern works with a KKT matrix whose diagonal entry is sigma plus the next stored value of that column instead of sigma.", "quantifier": "all problems and patterns", "why_tests_cant": "depends on the storage pattern; only the second call is affected", "anchors": ["src/solvers/admm.hpp: construct_kkt_matrix_same_pattern"]}
{"id": "C109", "title": "reuse_pattern with a decomposition that reads both triangles (ADMM)", "statement": "With a decomposition that reads both triangles, a call with reuse_pattern fails an assertion if the constraint matrix stores an entry and its mirror image; otherwise, if it does not fail, it uses the constraint matrix of the first call in the upper right block of the KKT matrix.", "quantifier": "all problems and patterns", "why_tests_cant": "depends on the storage pattern; only the second call is affected", "anchors": ["src/solvers/admm.hpp: construct_kkt_matrix_same_pattern, block_insert_sparse"]}
{"id": "C110", "title": "Sparse boxADMM computes what dense boxADMM computes", "statement": "The statement of C107 for boxADMM.", "quantifier": "all problems, patterns, settings and call sequences", "why_tests_cant": "all sparsity patterns and call histories", "anchors": ["src/solvers/box_admm.hpp: construct_kkt_matrix_sparse, construct_kkt_matrix_same_pattern, update_kkt_rho"]}
{"id": "C111", "title": "reuse_pattern with a Hessian that does not store its diagonal (boxADMM)", "statement": "If the sparse Hessian stores no entry at (c,c), a call with reuse_pattern after a call with the same pattern has at (c,c) of the KKT matrix sigma and the step size added to the next stored value of that column, or, if there is none, to the value left by the previous call, instead of to zero.", "quantifier": "all problems and patterns", "why_tests_cant": "depends on the storage pattern; only the second call is affected", "anchors": ["src/solvers/box_admm.hpp: construct_kkt_matrix_same_pattern"]}
{"id": "C112", "title": "reuse_pattern with a decomposition that reads both triangles (boxADMM)", "statement": "As C109 for boxADMM; the call also fails if the constraint matrix stores an entry in a column whose index is not smaller than the number of constraints.", "quantifier": "all problems and patterns", "why_tests_cant": "depends on the storage pattern; only the second call is affected", "anchors": ["src/solvers/box_admm.hpp: construct_kkt_matrix_same_pattern, block_insert_sparse"]}
{"id": "C113", "title": "OSQP adapter solves the caller's QP", "statement": "If the first solve call on an OSQP adapter object is made without warm_start and the later ones with it (as the SQP solver does), with reuse_pattern only for an unchanged pattern, then in every call OSQP gets a problem with the feasible points, objective and KKT points of the caller's QP; if OSQP is exact, SOLVED implies that primal_solution() and dual_solution() are a KKT pair of that QP and, for a convex QP, a minimiser.", "quantifier": "all QPs, patterns, guesses, settings and call sequences", "why_tests_cant": "needs OSQP, all call histories", "anchors": ["src/solvers/osqp_interface.hpp: solve_impl, construct_A"]}
{"id": "C114", "title": "Residuals reported by the OSQP adapter", "statement": "After every solve call on the OSQP adapter, info().res_prim is the dual residual (the largest component of H x + h + A^T y_A + y_box), and info().res_dual is what it was before any call (1); so a primal residual of zero may be reported at an infeasible point.", "quantifier": "all QPs and call sequences", "why_tests_cant": "the wrong field is consistent with tests that check solved problems", "anchors": ["src/solvers/osqp_interface.hpp: solve_impl"]}
{"id": "C115", "title": "OSQP adapter: repeated calls without warm_start", "statement": "A solve call without warm_start on an OSQP adapter object that has been used before solves the problem of the previous call again, whatever data are passed; changes of the settings after the first call have no effect; a first call with warm_start dereferences a null pointer.", "quantifier": "all QPs, settings and call sequences (given that OsqpEigen sets matrices and initialises its solver only once)", "why_tests_cant": "depends on call order", "anchors": ["src/solvers/osqp_interface.hpp: solve_impl, set_osqp_settings"]}
{"id": "C116", "title": "The qpmad adapter does not return multipliers", "statement": "No sequence of solve calls on a QPMAD adapter object changes dual_solution() or info().iter; a failing call leaves in info().status the status of the previous call. So two QPs with the same constraint matrix can both get KKT pairs only if their gradients at the solutions agree.", "quantifier": "all QPs, guesses and call sequences", "why_tests_cant": "needs arbitrary call sequences", "anchors": ["src/solvers/qpmad_interface.hpp: solve_impl"]}
{"id": "C117", "title": "SQP with the qpmad adapter", "statement": "With the qpmad adapter and the default preconditioner all multipliers computed by the SQP solver lie on the line through the guess and the vector held by the adapter. If both are zero, solve() returns zero multipliers, a returned KKT pair is a stationary point of the cost, and the line search ignores all constraints and bounds.", "quantifier": "all problems, settings and iterations", "why_tests_cant": "all iterates", "anchors": ["src/solvers/qpmad_interface.hpp: solve_impl", "src/solvers/sqp_base.hpp: solve, solve_qp, step_size_selection_impl"]}
{"id": "C118", "title": "Symbolic dynamics constraint", "statement": "The dynamics constraint of the symbolic Chebyshev class is, entry by entry, the equality constraint of the template transcription for the same time-invariant dynamics. For t0 < tf it vanishes iff on each segment the polynomials through the state values satisfy the differential equation at the collocation nodes of the segment.", "quantifier": "all dimensions, numbers of segments, degrees, dynamics, variables and horizons", "why_tests_cant": "all degrees and trajectories", "anchors": ["src/chebyshev.hpp: CollocPoints, DiffMatrix, QuadWeights, CompDiffMatrix, CollocateDynamics"]}
{"id": "C119", "title": "Symbolic cost", "statement": "The cost of the symbolic Chebyshev class equals the cost of the template transcription. If the running cost along the trajectory is a polynomial of degree at most N on each segment, it is its integral over the horizon plus the terminal cost.", "quantifier": "all dimensions, costs, trajectories and horizons", "why_tests_cant": "all degrees and trajectories", "anchors": ["src/chebyshev.hpp: CollocateCost, CollocateParametricCost"]}
{"id": "C120", "title": "Identification cost ignores the data", "statement": "The identification cost of the symbolic Chebyshev class does not depend on the measured data: it compares the states with zero.", "quantifier": "all dimensions, costs, data, states and horizons (given that CasADi takes empty arguments as zeros)", "why_tests_cant": "needs two data sets that should differ", "anchors": ["src/chebyshev.hpp: CollocateIdCost"]}
{"id": "C121", "title": "Function object for the dynamics", "statement": "The function object returned by CollocateDynamics2 takes the derivative of the state symbols of the class, not of its argument; it differs from the dynamics constraint of its argument by the derivative of the difference.", "quantifier": "all dimensions, dynamics, arguments and horizons", "why_tests_cant": "never called in the repository", "anchors": ["src/chebyshev.hpp: CollocateDynamics2, collocate_dynamics"]}
{"id": "C122", "title": "Values and derivatives of functions", "statement": "CollocateFunction throws unless the function has two inputs (no parameters and data) or four, and else stacks the values at the nodes. DifferentiateFunction of order q returns ((tf-t0)/(2S))^q times the q-th derivative for functions that are one polynomial of degree at most N over the horizon. For piecewise polynomials the second derivative contains the jumps of the first derivative at the junctions.", "quantifier": "all functions, orders, dimensions and horizons", "why_tests_cant": "all orders and degrees; depends on the horizon length", "anchors": ["src/chebyshev.hpp: CollocateFunction, DifferentiateFunction"]}
{"id": "C123", "title": "Modes without input are infeasible", "statement": "If linear combinations M x of the states satisfy d/dt (M x) = A (M x) with invertible A for all controls and parameters, every point that satisfies the equality constraints of the template or the symbolic transcription has M x = 0 at all nodes of the segment with the initial time. So the problem with an initial state with M x != 0 is infeasible.", "quantifier": "all such dynamics, dimensions, numbers of segments, degrees and horizons", "why_tests_cant": "infeasibility over all points", "anchors": ["src/control/continuous_ocp.hpp: equalities", "src/chebyshev.hpp: CollocateDynamics"]}
{"id": "C124", "title": "Soft collocation", "statement": "For t0 < tf the soft collocation term is nonnegative, and it is zero iff the hard dynamics constraint vanishes.", "quantifier": "all dynamics, dimensions, variables and horizons", "why_tests_cant": "all points", "anchors": ["src/chebyshev_soft.hpp: CollocateDynamics"]}
{"id": "C125", "title": "Segments with own nodes", "statement": "The dynamics constraint of MSChebyshev vanishes iff on each segment the polynomials through the state values satisfy the differential equation at all nodes, with the control of the segment, and the trajectory is continuous; its cost integrates polynomials of degree at most N exactly. If d/dt (M x) = A (M x) + b(u,p) with invertible A, M x is constant over the horizon at every point satisfying the constraint.", "quantifier": "all dynamics, dimensions, variables and horizons", "why_tests_cant": "infeasibility over all points", "anchors": ["src/chebyshev_ms.hpp: CompDiffMatrix, CollocateDynamics, CollocateCost"]}
{"id": "C126", "title": "Index ranges and derivatives of MSChebyshev", "statement": "The index range that MSChebyshev publishes for the parameters has the length of the data. The derivative of a function that does not depend on the state is the difference of neighbouring controls, whatever the function; orders other than one throw.", "quantifier": "all functions, dimensions and variables", "why_tests_cant": "depends on dimensions that tests leave at zero", "anchors": ["src/chebyshev_ms.hpp: _P_END_IDX, CollocateFunction, DifferentiateFunction"]}
{"id": "C127", "title": "What the optimal control program means", "statement": "For GenericOCP with Chebyshev, without scaling and slack variables, the objective is the terminal cost at the final time plus the quadrature of the running cost, and a point satisfies the constraint rows iff on each segment the polynomials through the states satisfy the differential equation at the collocation nodes, the path constraints hold at every node, and the FIRST component of the final constraint holds at the final time; further components of the final constraint are not imposed.", "quantifier": "all problems (dynamics, costs, constraints), dimensions with parameters or data, degrees, horizons and points", "why_tests_cant": "quantifies over all points and problems", "anchors": ["src/generic_ocp.hpp: setup"]}
{"id": "C128", "title": "Scaling leaves the program unchanged, except for parameters in the dynamics", "statement": "With nonzero scaling factors the program at the scaled point has the same objective and is satisfied iff the unscaled program is satisfied at the point, with slack variables or not, for Chebyshev and MSChebyshev (there for derivatives of state expressions); box constraints and getters translate between the two for positive factors. The exception: the dynamics receive the scaled parameters, so if the dynamics distinguish parameters from scaled parameters, a feasible point becomes infeasible.", "quantifier": "all problems, factors, points", "why_tests_cant": "all factors and points", "anchors": ["src/generic_ocp.hpp: setup, set_*_box_constraints, get_optimal_*"]}
{"id": "C129", "title": "Slack variables do not relax the constraints", "statement": "With mpc.use_slacks the inequality g <= 0 becomes g + s = 0 with s >= 0. A point is feasible iff it was feasible without slack variables and s = -g, and the objective grows by 10 sum g^2 of all constraints, active or not.", "quantifier": "all problems, approximation classes and points", "why_tests_cant": "needs the set of all feasible points", "anchors": ["src/generic_ocp.hpp: setup"]}
{"id": "C130", "title": "Bounds on derivatives", "statement": "Bounds on derivatives are dropped silently if the problem has no other path constraint. With another one, diff(g, c) imposes (tf-t0)/(2S) g' <= c and ddiff(g, c) imposes ((tf-t0)/(2S))^2 g'' <= c at the nodes, rather than g' <= c, g'' <= c.", "quantifier": "all problems; expressions that are polynomials of degree at most N along the trajectory", "why_tests_cant": "depends on the horizon length", "anchors": ["src/generic_ocp.hpp: diff, ddiff, setup"]}
{"id": "C131", "title": "Derivatives in the cost", "statement": "norm_diff(g, W) in the running cost adds 5 (tf-t0) plus the plain sum over the nodes of |sqrt(W) (tf-t0)/(2S) g'|^2 with the square root taken entry by entry: it is no quadrature, grows with the degree, is wrong for weights that are not diagonal, and is dropped if the rest of the cost is structurally zero.", "quantifier": "all problems; expressions that are polynomials of degree at most N along the trajectory", "why_tests_cant": "depends on degree, number of segments and horizon", "anchors": ["src/generic_ocp.hpp: norm_diff, norm_ddiff, setup"]}
{"id": "C132", "title": "Options and problems that are refused", "statement": "Without parameters and data a problem with path or final constraints cannot be set up with any of the three approximation classes; scaling factors for parameters are refused unless there are as many parameters as controls; mpc.slack_penalty_type has no effect unless a misspelled key is present and scaling is on, and the exact penalty cannot be used with two or more slack variables.", "quantifier": "all problems, dimensions, options", "why_tests_cant": "combinations of options and dimensions", "anchors": ["src/generic_ocp.hpp: setup"]}
{"id": "C133", "title": "Soft collocation program", "statement": "With SoftChebyshev the program has the rows of the Chebyshev program but those of the dynamics, and its objective is larger by rho (1e6 unless given) times the quadrature of the squared residuals in scaled time. A point is feasible for the Chebyshev program iff it is feasible for the soft one and all residuals vanish. With scaling factors the residual of each state is weighted by the square of its factor, so scaling changes the problem.", "quantifier": "all problems, dimensions, options and points", "why_tests_cant": "all points", "anchors": ["src/generic_ocp.hpp: setup", "src/chebyshev_soft.hpp: CollocateDynamics"]}
{"id": "C134", "title": "Repeated calls of solve", "statement": "The box passed to solve bounds the state at the initial time of the returned trajectory, if the solver respects bounds and the factors are positive; no other bound, parameter or mapping changes over any sequence of calls. Calls without a guess never start from the last solution: the guess for the states is the midpoint of the box at every node, that for controls, parameters and slack variables is the last one given (zero if none). Multipliers given once are reused in all later calls without multipliers.", "quantifier": "all sequences of calls, all solvers", "why_tests_cant": "unbounded sequences of calls", "anchors": ["src/generic_ocp.hpp: solve"]}
{"id": "C135", "title": "Parameters by name and index ranges", "statement": "set_parameters(name, value) succeeds iff the mapped range lies in the vector and the value has its length or length one; it changes the entries of the range and nothing else; unknown names and vectors of another length are refused. With MSChebyshev bounds of two or more parameters cannot be set unless there are as many data, with one parameter and no data they are silently not set, and get_slacks starts ND instead of NP variables after the controls.", "quantifier": "all names, ranges, values, dimensions and object states", "why_tests_cant": "dimensions that tests leave at zero", "anchors": ["src/generic_ocp.hpp: set_parameters, set_parameter_mapping, set_parameters_box_constraints, get_slacks"]}
{"id": "C136", "title": "Which systems the tracking controller accepts", "statement": "nmpc without scaling can be constructed only if the system has as many outputs as states, or a single output. With scaling and a matrix for the states any number of outputs is accepted; without a matrix only as many outputs as states.", "quantifier": "all systems, dimensions and options", "why_tests_cant": "combinations of dimensions and options", "anchors": ["src/nmpc.hpp: nmpc, createNLP"]}
{"id": "C137", "title": "What the weights mean", "statement": "A weight matrix W given as mpc.Q, mpc.R or mpc.P contributes the sum of the squares of the entries with the column sums of W as coefficients. This is r' W r for diagonal W; for others it is not, and for a positive definite W with a negative column sum the cost is unbounded below.", "quantifier": "all weights and residuals", "why_tests_cant": "all matrices", "anchors": ["src/nmpc.hpp: createNLP"]}
{"id": "C138", "title": "What the tracking program means", "statement": "The objective of the unscaled controller is the terminal cost at the end of the horizon plus the composite quadrature of tracking error and control effort; the constraints hold iff on each segment the polynomials through the states satisfy the differential equation at all nodes of the segment except its earliest one.", "quantifier": "all systems, dimensions, degrees, horizons and points", "why_tests_cant": "all points and systems", "anchors": ["src/nmpc.hpp: createNLP"]}
{"id": "C139", "title": "Every initial state has one trajectory", "statement": "For systems that are affine in the state and horizons short enough, each initial state and each choice of controls has exactly one trajectory that satisfies the constraints of the controller.", "quantifier": "all systems affine in the state, dimensions, numbers of segments, degrees, initial states, controls", "why_tests_cant": "existence and uniqueness over all states and controls", "anchors": ["src/nmpc.hpp: createNLP"]}
{"id": "C140", "title": "Scaling of the tracking controller", "statement": "With invertible scaling matrices the constraints at the scaled point are those of the unscaled problem and the tracking cost is unchanged, but the control weight is applied to the scaled controls: scaling controls by c multiplies the control cost by c^2.", "quantifier": "all invertible matrices, systems and points", "why_tests_cant": "all matrices", "anchors": ["src/nmpc.hpp: createNLP"]}
{"id": "C141", "title": "Bounds and initial state in a solve", "statement": "After any sequence of calls that leaves the scaling alone, computeControl(x) fixes the initial state at x whatever the bounds, bounds all other states by the last setLBX/setUBX and all controls by the last setLBU/setUBU; for diagonal positive scalings the scaled bounds are equivalent to the given ones. If the solver respects fixed variables, the last column of the trajectory is x.", "quantifier": "all sequences of calls, solvers, bounds, states", "why_tests_cant": "unbounded sequences of calls", "anchors": ["src/nmpc.hpp: setLBX, setUBX, setLBU, setUBU, computeControl"]}
{"id": "C142", "title": "Warm starts", "statement": "Every solve after the first starts from the previous solution and multipliers without enableWarmStart having been called, until disableWarmStart. After disableWarmStart the next solve has the initial state as guess for all states, but for controls and multipliers the values with which the previous solve was started; it throws if the previous solve had no guess. enableWarmStart before the first solve passes an empty guess.", "quantifier": "all sequences of calls and solvers", "why_tests_cant": "unbounded sequences of calls", "anchors": ["src/nmpc.hpp: computeControl, enableWarmStart, disableWarmStart"]}
{"id": "C143", "title": "Scaling set after construction", "statement": "setStateScaling and setControlScaling after construction do not change the program: the trajectory reported satisfies the dynamics of another system.", "quantifier": "all systems, matrices and points", "why_tests_cant": "all systems", "anchors": ["src/nmpc.hpp: setStateScaling, setControlScaling, computeControl"]}
{"id": "C144", "title": "getPathError", "statement": "getPathError after computeControl(x) is the norm of the difference of reference and output at x, the state passed in; it does not depend on the optimal trajectory.", "quantifier": "all systems, states, references, solvers that respect fixed variables", "why_tests_cant": "all solvers", "anchors": ["src/nmpc.hpp: getPathError"]}
{"id": "C145", "title": "What the path-following program means", "statement": "The objective of the unscaled nmpf is the squared distance of the output from the path at the end of the horizon plus the composite quadrature of distance from the path, deviation of the path velocity from the reference velocity, and effort of controls and path acceleration. The constraints hold iff on each segment states, path variable and path velocity are polynomials that satisfy x'=f(x,u), theta'=omega, omega'=a at all nodes but the earliest of the segment, and at the initial time.", "quantifier": "all systems, paths, dimensions, degrees, horizons, parameters and points", "why_tests_cant": "all points and systems", "anchors": ["src/nmpf.hpp: createNLP"]}
{"id": "C146", "title": "The motion along the path is free", "statement": "States and controls that satisfy the dynamics are completed to a feasible point by every polynomial motion along the path of degree at most the polynomial order; on the first segment the velocity of a feasible point is the derivative of the path variable between the nodes too.", "quantifier": "all systems, trajectories and polynomial motions", "why_tests_cant": "all motions", "anchors": ["src/nmpf.hpp: createNLP"]}
{"id": "C147", "title": "Initial states of nmpf without a feasible point", "statement": "The dynamics are also asked for at the initial time: if combinations M x of the states obey d/dt (M x) = A (M x) with A invertible, computeControl(x) with M x not zero is an infeasible problem.", "quantifier": "all systems with such modes, call sequences and states", "why_tests_cant": "infeasibility over all points", "anchors": ["src/nmpf.hpp: createNLP, computeControl"]}
{"id": "C148", "title": "Scaling of the path-following controller", "statement": "With invertible scaling matrices that do not mix states and path variables, program and objective at the scaled point with scaled reference velocity equal those of the unscaled controller. With matrices that mix them the path error is computed at the wrong state.", "quantifier": "all such matrices, systems and points", "why_tests_cant": "all matrices", "anchors": ["src/nmpf.hpp: createNLP"]}
{"id": "C149", "title": "Bounds and initial state in a path-following solve", "statement": "After any sequence of calls that leaves the scaling alone, computeControl(x) fixes the states at x, lets path variable and velocity start within +-mpc.flexibility of those of x whatever the bounds set, and bounds the other nodes and the controls by the last bounds set. If the solver respects its bounds, the reported plan does so in the user's units.", "quantifier": "all sequences of calls, solvers, bounds, states, positive diagonal scalings", "why_tests_cant": "unbounded sequences of calls", "anchors": ["src/nmpf.hpp: setLBX, setUBX, setLBU, setUBU, computeControl"]}
{"id": "C150", "title": "Reset of the path variable", "statement": "In a warm start a path variable beyond mpc.reset_path_after is moved back by one period, and so is the guess; this changes neither objective nor feasibility of any point if the path has that period. It is not done in cold starts, only once, it throws before the first solve, and for paths without that period it puts the plan away from the system by the period less the flexibility. disableWarmStart holds for one solve, which starts from the given state at all nodes and the previous controls and multipliers.", "quantifier": "all call sequences, paths, states", "why_tests_cant": "unbounded sequences of calls and all paths", "anchors": ["src/nmpf.hpp: computeControl"]}
{"id": "C151", "title": "Queries of the path-following controller", "statement": "getPathError and getVelocityError are distance from path and deviation from the last reference velocity at the initial time of the last plan. getVirtState reads row 13: it throws with less than 12 states, is the velocity with 12 and a physical state with more than 13. getCost is the objective at the guess of the last solve, not at its solution.", "quantifier": "all call sequences, systems, solvers", "why_tests_cant": "unbounded sequences of calls", "anchors": ["src/nmpf.hpp: getPathError, getVelocityError, getVirtState, getCost"]}
{"id": "C152", "title": "Reference velocity and path parameters", "statement": "Construction succeeds iff the path takes as many arguments as the options say and there are defaults for path parameters. A solve uses the last reference velocity, initially 1, and the last path parameters, initially the defaults. After setStateScaling the reference velocity set is multiplied by a factor the program does not know.", "quantifier": "all call sequences and options", "why_tests_cant": "unbounded sequences of calls", "anchors": ["src/nmpf.hpp: nmpf, setReferenceVelocity, setPathParameters, setStateScaling"]}
{"id": "C153", "title": "Closest point on the path", "statement": "findClosestPointOnPath is exact for straight paths from every guess. It throws for paths of one argument, returns a stationary guess even if it is the farthest point, returns NaN where the path has zero derivative, and may return a point as far away as wanted because it tests convergence at the previous point.", "quantifier": "all paths, positions and guesses", "why_tests_cant": "all guesses", "anchors": ["src/nmpf.hpp: findClosestPointOnPath"]}
{"id": "C154", "title": "What PSODESolver computes", "statement": "Without scaling, solve does not throw for a state, control and parameters of the right sizes, and if Ipopt returns a feasible point then the answer with full=true is a collocation solution: on each segment each state is a polynomial of degree at most PolyOrder whose derivative is f at all nodes but the earliest of the segment, and the last node is the given initial state. With full=false it is the state at the end of the horizon. solve_trajectory does the same with one control per node, of which the first is the one at the end of the horizon.", "quantifier": "all right-hand sides, dimensions, degrees, segments, horizons, states, controls, parameters, solvers", "why_tests_cant": "all problems and solvers", "anchors": ["src/integration/chebyshev_integrator.hpp: solve, solve_trajectory"]}
{"id": "C155", "title": "Uniqueness and exactness of the integrator", "statement": "Every feasible point is optimal. For dynamics affine in the state and all horizons but finitely many (all, if f does not depend on the state) the program has exactly one feasible point, and if polynomials of degree at most PolyOrder solve the initial value problem, solve returns their exact values.", "quantifier": "all affine right-hand sides, degrees, segments, states, controls; all horizons outside a finite set", "why_tests_cant": "existence and uniqueness over all points", "anchors": ["src/integration/chebyshev_integrator.hpp: PSODESolver, solve"]}
{"id": "C156", "title": "Calls of the integrator do not influence each other", "statement": "After any sequence of calls of solve and solve_trajectory, whatever their arguments and answers, both functions answer as the newly constructed object does.", "quantifier": "all sequences of calls, arguments, solvers", "why_tests_cant": "unbounded sequences of calls", "anchors": ["src/integration/chebyshev_integrator.hpp: solve, solve_trajectory"]}
{"id": "C157", "title": "Scaling in the integrator", "statement": "The constructor throws with scaling for every f with parameters. With scaling both functions throw unless the parameter argument is a number c, in particular for the default argument, and solve with full=true throws always. For a number c the answer is c^-1 P times the end of a collocation solution that starts at P^-1 (c x0): right if P = c I, but for x'=1 and P=s it is x0 + (s/c) T in place of x0 + T.", "quantifier": "all scaling matrices, right-hand sides, call sequences, solvers", "why_tests_cant": "all matrices and numbers", "anchors": ["src/integration/chebyshev_integrator.hpp: PSODESolver, solve, solve_trajectory"]}
{"id": "C158", "title": "Arguments of the integrator that are accepted silently", "statement": "In solve(x0,u,true) the last argument is taken for the parameters: the answer is one state, not the trajectory, and belongs to the problem with all parameters 1. Without parameter argument all parameters are 0. For a control vector of the wrong length the state given is returned.", "quantifier": "all right-hand sides, states, controls, solvers", "why_tests_cant": "all problems", "anchors": ["src/integration/chebyshev_integrator.hpp: solve, solve_trajectory"]}
{"id": "C159", "title": "The programs of the continuation solver", "statement": "For a system with at least 6512 unknowns the program solved with lambda fixed at 1 has the guess as its only feasible point, and the one with lambda fixed at 0 has the roots of the system; both only if the 501 entries with index 13k are at least 1, a bound that is written into the code. If such an entry of the guess is below 1 the first program is infeasible, and for less than 6512 unknowns the constructor throws.", "quantifier": "all systems, guesses, points", "why_tests_cant": "all systems and points", "anchors": ["src/experimental/psarc.hpp: symbolic_psarc"]}
{"id": "C160", "title": "Where the continuation ends", "statement": "If a root satisfies these bounds, the corrector returns feasible points, and the loop ends otherwise than by break, the last point is such a root. For x - b = 0 with guess and root within the bounds and at most 1000 apart, and a corrector that returns closest points, the loop does end, at b. But if an entry of b with index 13k is below 1 the constructor never returns, whatever the corrector does beyond returning feasible points: there is no limit on the iterations.", "quantifier": "all systems, guesses, correctors, numbers of iterations", "why_tests_cant": "non-termination and unbounded loops", "anchors": ["src/experimental/psarc.hpp: symbolic_psarc"]}
{"id": "C161", "title": "The step of the continuation", "statement": "If no entry of the solution of the linear system is above 20, the step has unit length, is tangent to the path, does not turn back, and the first step decreases lambda. If an entry is above 20 the rescaled direction is not tangent to the path wherever the path is not parallel to the unknowns.", "quantifier": "all differentiable systems, points, previous directions", "why_tests_cant": "derivatives at all points", "anchors": ["src/experimental/psarc.hpp: symbolic_psarc"]}
{"id": "C162", "title": "is_psd", "statement": "For a symmetric matrix of a size known at compile time is_psd is true exactly if the matrix is positive semidefinite. For matrices of dynamic size it is always true, also for negative definite ones, and for nonsymmetric matrices it can be true though the quadratic form takes negative values.", "quantifier": "all matrices and sizes", "why_tests_cant": "all matrices of all sizes", "anchors": ["src/solvers/utils.hpp: is_psd"]}
{"id": "C163", "title": "Quadratic programs are solved in one step", "statement": "If the problem is itself a strictly convex quadratic program with unique multipliers, eta is at most 1/2, the Hessian of the first iteration is exact and so is the QP solver, then SQPBase takes the full first step to the solution and reports SOLVED after at most two iterations with exactly the minimiser and its multipliers, from every initial guess x0 with eta |y| eps <= (1/2 - eta) d'Qd, d = x - x0. The guess that is the solution itself is excluded: there the step size collapses (C71).", "quantifier": "all strictly convex QPs with equalities, inequalities and bounds, all guesses and solver states", "why_tests_cant": "all problem data and guesses of all sizes", "anchors": ["src/solvers/sqp_base.hpp: solve, step_size_selection_impl, solve_qp, linearisation_dense_impl"]}
{"id": "C164", "title": "What SOLVED means for a trajectory", "statement": "If the MPC wrapper's solve ends with SOLVED, then on every segment the polynomials of degree POLY_ORDER through the returned states satisfy the differential equation at the collocation nodes, with an error of at most eps_prim 2 NUM_SEGMENTS / (tf - t0); for horizons that start at zero solution_x_at(t) returns these polynomials. Path constraints, states, controls and parameters are within the bounds set through the wrapper up to eps_prim, and after initial_conditions(x0) the returned trajectory starts within eps_prim of x0. This holds with every QP solver, preconditioner, Hessian and step size.", "quantifier": "all problems, sequences of calls on the wrapper, solver settings, guesses", "why_tests_cant": "all callbacks, bounds, sizes and call sequences", "anchors": ["src/control/mpc_wrapper.hpp: solve, solution_x_at, solution_u_at, solution_p", "src/solvers/sqp_base.hpp: solve, max_constraints_violation", "src/control/continuous_ocp.hpp: equalities, inequalities"]}
{"id": "C165", "title": "Linear-quadratic control is solved in one step", "statement": "For linear dynamics and path constraints, strictly convex quadratic running cost and convex quadratic terminal cost (all may vary in time), without parameters and with no more controls than states, the transcription gives SQPBase a strictly convex quadratic program, for every number of segments and polynomial order. With an exact QP solver and otherwise default algorithms the wrapper's solve therefore reports SOLVED after at most two iterations and the wrapper holds the feasible trajectory of lowest cost, under the conditions on multipliers and guess of C163.", "quantifier": "all linear-quadratic problems, horizons, segments, orders, guesses", "why_tests_cant": "all problem data, sizes and guesses", "anchors": ["src/control/mpc_wrapper.hpp: solve", "src/control/continuous_ocp.hpp: lagrangian_gradient, lagrangian_gradient_hessian", "src/solvers/sqp_base.hpp: solve"]}
{"id": "C166", "title": "Feasible convex programs are solved", "statement": "A quadratic program over the reals with symmetric Hessian (convex or not) has an optimal pair of point and multipliers exactly if it has a feasible point. So on every feasible convex program, linear programs included, the iterates of ADMM and boxADMM converge to a minimiser of the objective over the feasible points, and ADMM (dense and sparse) and boxADMM report SOLVED for every positive tolerance once max_iter is large enough. The QP of an SQP iteration is solvable exactly if some step satisfies the linearised constraints and the bounds, and a quadratic program given to SQPBase has a stationary point exactly if it has a feasible point.", "quantifier": "all quadratic programs with finite bounds, sizes, guesses, settings with sigma, rho > 0", "why_tests_cant": "all programs of all sizes", "anchors": ["src/solvers/admm.hpp: solve_impl", "src/solvers/box_admm.hpp: solve_impl", "src/solvers/sqp_base.hpp: solve_qp"]}
{"id": "C167", "title": "Infeasible programs are not reported as solved", "statement": "For every quadratic program without feasible point whose bounds are not crossed there is a threshold, which depends on the program only, such that ADMM (dense and sparse) and boxADMM with eps_abs and eps_rel below it never report SOLVED: they always end with MAX_ITER_EXCEEDED, whatever the other settings, the linear solver, the guess and earlier calls. Together with C166: a convex program is reported as SOLVED for all tolerances exactly if it is feasible (crossed bounds counting as in C168).", "quantifier": "all infeasible programs, settings, guesses, histories", "why_tests_cant": "all programs, numbers of iterations and histories", "anchors": ["src/solvers/admm.hpp: solve_impl, termination_criteria", "src/solvers/box_admm.hpp: solve_impl, termination_criteria"]}
{"id": "C168", "title": "Crossed bounds are not noticed", "statement": "If a lower bound is larger than the upper bound, ADMM and boxADMM do not report it: the call does, in every intermediate and final value, exactly what it does when each crossed pair is replaced by an equality with the upper bound. A program with crossed bounds, which has no feasible point, is therefore reported as SOLVED whenever the replaced one is feasible and convex.", "quantifier": "all programs, settings, guesses, histories", "why_tests_cant": "all programs and runs", "anchors": ["src/solvers/qp_base.hpp: parse_constraints_bounds", "src/solvers/admm.hpp: box_projection", "src/solvers/box_admm.hpp: solve_impl"]}
{"id": "C169", "title": "Starting from a solution", "statement": "The multipliers that MPC keeps between solves and those the transcription reads are in the same order: after a solve the next one starts from exactly the point and the multipliers at which the last one ended, and the gradient of the Lagrangian is the cost gradient plus the transposed Jacobian times the constraint multipliers plus the bound multipliers. A wrapper that holds a trajectory and multipliers satisfying the optimality conditions, with unique multipliers and positive definite Hessian there, reports SOLVED after one iteration and its getters return the same trajectory and multipliers, with any Hessian update and step size. In linear-quadratic control a second solve right after the first stops after one iteration with the same result.", "quantifier": "all problems, dimensions, trajectories, solver states, exact QP solvers", "why_tests_cant": "all trajectories and multipliers; tests use one problem", "anchors": ["src/control/mpc_wrapper.hpp: x_guess, u_guess, lam_guess, solve", "src/solvers/sqp_base.hpp: solve", "src/control/continuous_ocp.hpp: lagrangian_gradient"]}
{"id": "C170", "title": "Problem sizes the QP solvers work for", "statement": "Dense vectors and matrices are fixed-size objects exactly below the stack allocation limit, and Eigen accepts every selected type. The documentation says that larger problems go on the heap and that this is internal. For N variables, M constraints and scalars of s bytes: ADMM compiles exactly if (N+M)s is below the limit, and construction followed by any number of solves never accesses an object of unsuitable size exactly if (2N+M)s is below it; in between it compiles and every solve fails. boxADMM compiles exactly if Ns and Ms are below the limit and works exactly if (N+M)s is. The matrices may be of any size.", "quantifier": "all N >= 1, M, scalar sizes, limits, iteration limits >= 1, sequences of solves, outcomes of all value-dependent branches", "why_tests_cant": "all sizes; a size can be compiled but not usable", "anchors": ["src/utils/helpers.hpp: dense_matrix_type_selector", "src/solvers/admm.hpp: ADMM, solve_impl", "src/solvers/box_admm.hpp: boxADMM, solve_impl", "docs/source/qp.rst:187-190"]}
{"id": "C171", "title": "Problem sizes the dense SQP solver works for", "statement": "The SQP solver with its default QP solver on a dense optimal control problem works (compiles, and after construction any number of calls of solve with or without guesses runs without an access outside an object or an assignment of unsuitable size) exactly if the Hessian and the Jacobian of all constraints are below the stack allocation limit and the Mayer term's control segment lies inside the variables. The Hessian and the Jacobian are allocated for sparse problems only: a larger dense problem whose vectors are below the limit compiles, and its first solve fails whatever the data. With doubles and the default limit this is every dense problem with 128 or more variables.", "quantifier": "all dimensions, scalar sizes, limits, QP iteration limits, sequences of solves, outcomes of all value-dependent branches", "why_tests_cant": "all dimensions; the tests use dense problems below the limit", "anchors": ["src/solvers/sqp_base.hpp: SQPBase, solve", "src/control/continuous_ocp.hpp: lagrangian_gradient_hessian", "src/utils/helpers.hpp: dense_matrix_type_selector"]}
{"id": "C172", "title": "Problem sizes the automatic differentiation allows", "statement": "A dense user-defined problem with n variables, e equality and i inequality constraints that compiles has n(n+1)^2 s, e(n+1)^2 s and i(n+1)^2 s at most the stack allocation limit, whatever padding the compiler uses, and without padding this suffices. With doubles and the default limit it has at most 24 variables. For an optimal control problem of either format the same holds with the numbers of states, controls, parameters and path constraints in place of n, e, i and the derivatives at one node in place of n, together with a bound on the polynomial order and on the number of nodes.", "quantifier": "all dimensions, scalar sizes, limits, compiler layouts", "why_tests_cant": "all sizes and layouts; a test compiles one", "anchors": ["src/solvers/nlproblem.hpp: ProblemBase", "src/control/continuous_ocp.hpp: ContinuousOCP members"]}
{"id": "C173", "title": "Local quadratic convergence with exact Hessians", "statement": "Let the problem have a solution with linearly independent active constraint gradients and positive definite Hessian of the Lagrangian, with derivatives handed to the solver that are the derivatives near it and Lipschitz continuous. If the derived class overrides the update by the exact linearisation and the line search is switched off (line_search_max_iter = 1), then from every guess of variables and multipliers close enough to the solution all QPs have solutions, the error of each iterate (variables and multipliers) is at most a constant times the square of the one before, solve reports SOLVED after a number of iterations that grows only with the logarithm of the logarithm of the tolerance, and a result reported as SOLVED is within a constant times the square of the tolerance of the solution. Strict complementarity is not needed.", "quantifier": "all problems with such a solution, dimensions, guesses near the solution, tolerances, iteration limits, QP solvers returning optimal pairs, lawful preconditioners", "why_tests_cant": "a neighbourhood of guesses and all iterations; a test observes one run", "anchors": ["src/solvers/sqp_base.hpp: solve, update_linearisation", "tests/control/nonlinear_constraints_test.cpp: update_linearisation_dense_impl"]}
{"id": "C174", "title": "Local linear convergence with approximate Hessians", "statement": "In the situation of C173 let the Hessian update be any function that keeps symmetric matrices within some small distance of the Hessian at the solution there, for example one that keeps the Hessian of the first iteration. For every rate chosen beforehand that distance can be chosen so that from every guess close enough to the solution the error is multiplied by at most the rate in each iteration, solve reports SOLVED after a number of iterations that grows with the logarithm of the tolerance, and for rates up to one half a result reported as SOLVED is within a constant times the tolerance of the solution.", "quantifier": "all problems with such a solution, dimensions, rates, guesses near the solution, tolerances, iteration limits, QP solvers returning optimal pairs, lawful preconditioners", "why_tests_cant": "a neighbourhood of guesses and all iterations", "anchors": ["src/solvers/sqp_base.hpp: solve, hessian_update"]}
{"id": "C175", "title": "The line search may reject good steps (Maratos effect)", "statement": "With the line search of the library and any settings with 0 < tau < 1, eta >= 0 and line_search_max_iter >= 2 (so with the default settings), there is a problem with a solution as in C173 and, arbitrarily close to it, guesses with the exact multiplier from which the step of the QP with the exact Hessian is shortened so that the next error is at least 1 - tau times the old one. So C173 is false with the line search: in no neighbourhood of the solution does the error converge quadratically.", "quantifier": "all settings as stated, all distances, QP solvers returning optimal pairs, lawful preconditioners", "why_tests_cant": "arbitrarily small neighbourhoods", "anchors": ["src/solvers/sqp_base.hpp: step_size_selection_impl"]}
{"id": "C176", "title": "The Riccati iteration keeps the closed loop stable", "statement": "Let B and C be positive semidefinite and let every undamped eigenvector of A be seen by C (detectability). With exact decompositions, started from a symmetric matrix X whose closed loop A - B X is stable, every matrix the Newton iteration of the Riccati solver visits, whatever steps its line search picks, is symmetric and has a stable closed loop, and no division by zero occurs, as long as the closed loops met have real eigenvalues. The shifted first guess B'W stabilises too, with all closed-loop eigenvalues on the line Re = -beta. So what oc::care returns in this situation stabilises (A, B), and the gain of oc::lqr stabilises the plant.", "quantifier": "all dimensions, plants, weights, iterates and step lengths; decompositions that are exact", "why_tests_cant": "all plants and all iterates; a test observes one plant", "anchors": ["src/polymath.cpp: care, newton_ls_care, line_search_care, init_newton_care, lqr", "src/control/lqr.hpp: care, lqr"]}
{"id": "C177", "title": "The symmetrised first guess of the Riccati solver is wrong for singular input matrices", "statement": "The closed loop of the first guess of the Riccati solver has only real eigenvalues in the single case where it equals -beta times the identity. So whenever B = G R^-1 G' is singular (for example with fewer inputs than states) it has complex eigenvalues, which the Lyapunov solver does not treat, and for two states the Lyapunov equation that is to turn a guess that is not symmetric into a symmetric one is never solved.", "quantifier": "all plants and shifts with exact decompositions; the last part for two states", "why_tests_cant": "all plants with singular input matrix", "anchors": ["src/polymath.cpp: init_newton_care, lyapunov", "src/control/lqr.hpp: init_newton_care, lyapunov"]}
{"id": "C178", "title": "lqr of control/lqr.hpp destabilises the double integrator", "statement": "For the double integrator with one input, R = 1, no cross weight and any state weight Q, lqr of control/lqr.hpp returns a gain whose closed loop has a positive real eigenvalue, in exact arithmetic with exact decompositions: the pseudo-inverse drops a singular value that is not zero, the Lyapunov equation for the guess is not solved, and no Newton step follows.", "quantifier": "all weights Q, all exact decompositions, with and without the weight checks (when passed)", "why_tests_cant": "the numerical tests print the gain and do not check the closed loop; here for every weight and every exact decomposition", "anchors": ["src/control/lqr.hpp: lqr, care, init_newton_care, pinv, lyapunov"]}
{"id": "C179", "title": "Sparse and dense SQP give the same results", "statement": "For an optimal control problem without parameters and with as many path constraints as states, or none, solve() of a sparse solver object (sparse Jacobian, Hessian and QP, pattern kept between iterations) produces exactly the results of the dense solver: point, multipliers, status, iteration counts, norms and the last QP, and it fails exactly when the dense one does. The dense solver in the comparison uses the damped BFGS update restricted to the variables of one node, and the same regularisation. This holds for any sequence of solves on one object, with bounds, callbacks, settings, horizon and guesses that differ from solve to solve, so what SOLVED means for the dense solver it means for the sparse one.", "quantifier": "all dimensions of that kind, problems with exact derivatives, bounds, settings, guesses and sequences of solves", "why_tests_cant": "dense_sparse_compare.cpp compares one problem; equality along whole runs for every problem and every reuse of the patterns needs a proof", "anchors": ["src/solvers/sqp_base.hpp: solve (sparse)", "src/solvers/box_admm.hpp: solve (sparse)", "src/control/continuous_ocp.hpp: sparse linearisations, hessian_update_impl", "tests/control/dense_sparse_compare.cpp"]}
{"id": "C180", "title": "The sparse SQP solver fails at a solution that has been reached", "statement": "Started at a feasible point where the gradient of the cost vanishes (a setpoint that has been reached) with multipliers larger than the dual tolerance, solve() of the sparse solver divides zero by zero in the Hessian update of its second iteration, after any earlier solves. The dense solver with the default update reports SOLVED at the same point. With smaller multipliers the sparse solver succeeds at once.", "quantifier": "all problems of the kind of C179, all settings with at least two iterations, all histories, every linear solver that maps zero to zero", "why_tests_cant": "needs a start at the solution with wrong multipliers; the tests start away from it", "anchors": ["src/control/continuous_ocp.hpp: hessian_update_impl (sparse)", "src/solvers/sqp_base.hpp: update_linearisation", "src/solvers/bfgs.hpp: BFGS_update"]}
{"id": "C181", "title": "The Gershgorin regularisation gives a positive definite Hessian", "statement": "The regularisation of the Hessian used with optimal control problems turns every symmetric matrix into a symmetric positive definite one, changes only the diagonal, and changes nothing if every diagonal entry exceeds the sum of the absolute values of the others in its column. This holds also where abs resolves to the function for integers. The sparse version computes the same matrix as the dense one on every Hessian of a problem, without changing the pattern.", "quantifier": "all symmetric matrices of all sizes, all positive constants", "why_tests_cant": "all matrices; a test regularises the Hessians of one run", "anchors": ["tests/control/dense_sparse_compare.cpp: hessian_regularisation_dense_impl, hessian_regularisation_sparse_impl", "tests/control/nonlinear_constraints_test.cpp", "tests/control/minimal_time_test.cpp"]}
{"id": "C182", "title": "With the Gershgorin regularisation every QP is strictly convex, and the only failure is a zero step", "statement": "After any solves on a sparse solver object with the Gershgorin regularisation, for a problem without parameters, every QP of the next solve has a symmetric positive definite Hessian; and the solve fails (division by zero in the Hessian update) exactly if an iteration that does not end the solve takes a step of length zero.", "quantifier": "all problems of the kind of C179, all guesses, settings and histories", "why_tests_cant": "an exact characterisation over all runs", "anchors": ["src/solvers/sqp_base.hpp: solve, update_linearisation", "src/control/continuous_ocp.hpp: hessian_update_impl (sparse)", "tests/control/dense_sparse_compare.cpp"]}
{"id": "C183", "title": "Collocation predicts the true trajectory, to the order of the polynomials", "statement": "Let the dynamics be Lipschitz continuous (constant L) in the state on a set that holds the states involved, the control signal smooth on each segment and the segments of length h short for L. Then the states that the transcription gives differ from the exact solution of the differential equation by at most exp(2 g L T) (e0 + T (g eps + (g + 1) M h^N / (N-1)!)): order POLY_ORDER in the length of the segments, where g depends on POLY_ORDER only, e0 is the error of the initial state and eps the residual. It holds for what PSODESolver::solve and solve_trajectory return from a feasible point (eps = 0), for every feasible point of the nmpc program, and for every solve of the MPC wrapper that reports SOLVED (eps from eps_prim), there at the nodes and, for a horizon that starts at zero, for solution_x_at(t) at all times.", "quantifier": "all dimensions, orders, numbers of segments, dynamics, controls that agree with the returned ones at the nodes, horizons, settings, histories of the wrapper", "why_tests_cant": "a convergence rate for all dynamics and controls; a test compares one integrator run on one system", "anchors": ["src/integration/chebyshev_integrator.hpp: solve, solve_trajectory", "src/nmpc.hpp: createNLP", "src/control/mpc_wrapper.hpp: solution_x_at", "src/control/continuous_ocp.hpp: equality constraints", "src/solvers/sqp_base.hpp: eps_prim"]}
{"id": "C184", "title": "Initial value problems with nonlinear dynamics have exactly one collocation solution", "statement": "If the dynamics is Lipschitz continuous in the state and the segments are short enough for the Lipschitz constant and POLY_ORDER, then for every initial state and every choice of the controls the constraints of PSODESolver and of nmpc have exactly one solution in the states.", "quantifier": "all dimensions, orders, numbers of segments, Lipschitz dynamics, initial states and controls", "why_tests_cant": "existence and uniqueness over all nonlinear systems", "anchors": ["src/integration/chebyshev_integrator.hpp: NLP of the integrator", "src/nmpc.hpp: createNLP", "src/chebyshev.hpp: CollocateDynamics"]}
{"id": "C185", "title": "From a feasible guess of a problem with affine constraints SQP stays feasible and never increases the cost", "statement": "Let the constraints be affine and the guess satisfy them, the gradient of the cost be Lipschitz continuous on the feasible set and the Hessians of the QPs have curvature at least m > 0. Then solve() is defined, every iterate and the returned point satisfy all constraints, the cost decreases whenever the iterate moves, and k iterations with primal norm above delta decrease the cost by k m min(eta, 1/2) delta^2.", "quantifier": "all dimensions, affine constraints, costs with Lipschitz gradient, Hessian updates with bounded curvature, settings with 0 < tau <= 1 and 0 < eta, exact QP solvers, number of iterations", "why_tests_cant": "the statement is about all runs and all costs of a class; tests see single runs", "anchors": ["src/solvers/sqp_base.hpp: step_size_selection_impl, solve"]}
{"id": "C186", "title": "SQP solves every smooth problem with bounds on the variables, after a number of iterations known beforehand", "statement": "Let the variables have bounds and no other constraints, the guess lie within the bounds, the gradient of the cost be Lipschitz continuous on the box, the cost be bounded below there and the curvature of the QPs be between m > 0 and M. Then solve() reports SOLVED after at most N iterations if max_iter >= N and 2 V <= N tol^2, where V is an explicit quantity of the guess: the excess of its cost, weighted, plus the squared distance of its multipliers from minus the gradient. The cost need not be convex.", "quantifier": "all dimensions, boxes, costs with Lipschitz gradient, guesses within the bounds, tolerances, settings with 0 < tau <= 1 and 0 < eta, exact QP solvers", "why_tests_cant": "global convergence with a bound on the iterations cannot be observed on runs", "anchors": ["src/solvers/sqp_base.hpp: step_size_selection_impl, solve"]}
{"id": "C187", "title": "For strongly convex costs SOLVED means that the returned point is near the minimiser", "statement": "Let the constraints be affine, the guess feasible and the gradient of the cost Lipschitz continuous and strongly monotone on the feasible set. If solve() reports SOLVED, the squared distance of solution() from the minimiser is at most an explicit constant times the larger of n (eps_prim max(1, L/(tau (1-eta) m)))^2 and 2 eta |lambda| eps / ((1-eta) m): shortened steps and the machine epsilon in the merit function weaken the test on the step by no more than that.", "quantifier": "all dimensions, affine constraints, strongly convex costs, settings with 0 < eta < 1, exact QP solvers, runs", "why_tests_cant": "the error with respect to the unknown minimiser is quantified over all problems of a class", "anchors": ["src/solvers/sqp_base.hpp: step_size_selection_impl, solve"]}
{"id": "C188", "title": "With adaptive_rho ADMM can run forever on a feasible linear program", "statement": "For the linear program min 5 x subject to -1 <= 2 x <= 20, 0 <= x <= 10, with the default settings and adaptive_rho switched on, solve() without guess returns MAX_ITER_EXCEEDED for every max_iter: the step size repeats a cycle of three values every 75 iterations and none of the tested iterates is accepted. With the default limit of 1000 iterations the returned x is -0.4 up to 1e-7 and so violates its bound. With adaptive_rho = false the same call returns SOLVED for every large limit.", "quantifier": "all iteration limits, exact linear solvers, both storage modes and previous uses of the object", "why_tests_cant": "no finite number of iterations shows that a run never ends", "anchors": ["src/solvers/admm.hpp: solve_impl, estimate_rho", "src/solvers/qp_base.hpp: qp_solver_settings_t"]}
{"id": "C189", "title": "Changing the step size forever is the only way in which ADMM fails to terminate on a solvable convex QP", "statement": "For a convex QP with a KKT point, exact linear solves and valid settings, with or without adaptive_rho: either solve() returns SOLVED for every large max_iter, or the iterations go on forever and the step size changes infinitely often. If adaptive_rho_tolerance is at least 1e12 and rho within [1e-6, 1e6], the first alternative holds.", "quantifier": "all dimensions, convex QPs with a KKT point, settings with 0 < alpha < 2, guesses, exact linear solvers, square root functions and previous states", "why_tests_cant": "a statement about unbounded runs and all problems", "anchors": ["src/solvers/admm.hpp: solve_impl, estimate_rho"]}
{"id": "C190", "title": "The number of ADMM iterations is bounded by data known before the call", "statement": "Let (xs, ys) be a KKT point of a convex QP and adaptive_rho be off. Let mu be a lower bound of sigma and the step sizes of the constraints and d > 0 so small that d (1 + the absolute row sum of (A; I)) and d (sigma + the absolute row sum of H + the step-size weighted absolute column sum of (A; I)) are at most eps_abs. If L >= 1 and the weighted squared distance of the guess from (xs, ys) is at most L alpha (2 - alpha) mu d^2, then solve() with max_iter >= check_termination L returns SOLVED and reports at most check_termination L iterations.", "quantifier": "all dimensions, convex QPs, KKT points, settings with 0 < alpha < 2 and nonnegative tolerances, guesses, exact linear solvers and previous states", "why_tests_cant": "a worst case over all problems and guesses cannot be measured", "anchors": ["src/solvers/admm.hpp: solve_impl"]}
{"id": "C191", "title": "Distance of the returned point from the minimiser of a strongly convex QP", "statement": "If the objective has curvature at least m > 0 and ADMM or boxADMM reports SOLVED, then the squared Euclidean distance of the returned x from the minimiser is at most N (res_dual/m)^2 + 2 res_prim |y - y*|_1 / m, where res_prim and res_dual are the reported residuals, y the returned multipliers and y* any optimal multipliers. Nothing is assumed about the linear solver.", "quantifier": "all dimensions, strongly convex QPs with consistent bounds, guesses, settings, linear solvers", "why_tests_cant": "a bound over all problems", "anchors": ["src/solvers/admm.hpp: solve_impl", "src/solvers/box_admm.hpp: solve_impl"]}
{"id": "C192", "title": "SQP reports SOLVED at the guess when its QP solver has failed", "statement": "For the cost (x-1)^2/2 with -1000 <= x <= 1000 and the never active constraint -1e9 <= 1e6 x <= 1e9, default settings and the default QP solver with exact linear solves: from every guess at a distance of at most 10 from the minimiser 1 solve() reports SOLVED after one iteration and returns the guess up to 1e-4 times its distance from the minimiser. The QP solver has reported MAX_ITER_EXCEEDED (unless the guess is within 1e-3 of the minimiser); solve() does not look at this status. From the guess 11 the returned cost is above 49, the minimum being 0.", "quantifier": "all guesses of an interval, all previous uses of the solver object, exact linear solvers, all machine epsilons", "why_tests_cant": "a single run shows one guess only; the claim is about all of them", "anchors": ["src/solvers/sqp_base.hpp: solve, solve_qp, termination_criteria", "src/solvers/box_admm.hpp: solve_impl"]}
{"id": "C193", "title": "Stationarity at SOLVED in terms of what the QP solver reports", "statement": "With boxADMM as QP solver and no preconditioner (the defaults): if solve() reports SOLVED then alpha*|grad L(x0,lambda)| <= ||H|| eps_prim + alpha*r_d componentwise, with x0 the iterate before the last step, alpha the last step size, H the Hessian and lambda the multipliers of the last QP, and r_d the dual residual that the QP solver reports for it; the linearised constraints are met, and lambda complementary to them, up to the reported primal residual. The reported residuals are the true ones whatever the status, since the test interval divides max_iter.", "quantifier": "all problems, settings whose test interval divides the iteration limit (the defaults), all linear solvers, Hessian updates and line searches with nonnegative steps", "why_tests_cant": "a bound over all problems; the QP solver is inexact", "anchors": ["src/solvers/sqp_base.hpp: solve", "src/solvers/box_admm.hpp: solve_impl, residuals_update"]}
{"id": "C194", "title": "SQP iterates violate the box at most by the residuals of the QP solver", "statement": "With boxADMM as QP solver and no preconditioner: if the guess satisfies the variable bounds up to delta and the QP solver reports a primal residual of at most delta for every QP, SOLVED or not, then all iterates satisfy the bounds up to delta.", "quantifier": "all problems with ordered bounds, all iteration counts, all linear solvers, step sizes in [0,1]", "why_tests_cant": "invariant over all iterations of all runs", "anchors": ["src/solvers/sqp_base.hpp: solve, solve_qp", "src/solvers/box_admm.hpp: solve_impl"]}
{"id": "C195", "title": "Decrease of the merit function with inexactly solved QPs", "statement": "With boxADMM as QP solver and no preconditioner, a step accepted before the line search is exhausted decreases the l1 merit function by at least alpha*eta*(p'Hp + max|lambda| eps - r_d |p|_1 - r_p |lambda|_1), where (p, lambda) is what the QP solver returned and r_p, r_d are the residuals it reports.", "quantifier": "all problems, all iterations, all linear solvers, eta >= 0, 0 < tau < 1", "why_tests_cant": "inequality over all problems and iterations", "anchors": ["src/solvers/sqp_base.hpp: step_size_selection, solve"]}
{"id": "C196", "title": "Products of Legendre expansions with the Galerkin tensor", "statement": "With the tensor as compute_galerkin_tensor defines it, the coefficients sum_ij u_i v_j G(i,j,k) belong to a polynomial that agrees with the product of the two expansions at every node, for all coefficient vectors. If the degrees add up to at most the order, it agrees everywhere. An entry is the projection coefficient (2k+1)/2 int P_i P_j P_k if i+j+k <= 2N-1 and k < N; beyond that it is not: G(N,N,0) is 1/N while the coefficient is 1/(2N+1). (The constructor never calls this function, so getGalerkinTensor returns unwritten storage.)", "quantifier": "all orders >= 1, all coefficient vectors, all points, every choice of nodes and weights the class may have computed", "why_tests_cant": "identities for all orders and all polynomials", "anchors": ["src/polynomials/legendre.hpp: compute_galerkin_tensor, getGalerkinTensor"]}
{"id": "C197", "title": "Column helpers of polymath", "statement": "flip with dim 1 reverses the rows, with dim 2 the columns, with any other number it changes nothing, an empty matrix is an error; applied twice it returns the matrix. mat_func stacks the values at the columns in order. mat_dynamics stacks f(x_i,u_i) for every column of u followed by the last column of x, and is undefined exactly if x has fewer columns than u or none. cgl_nodes(n) are, for n >= 2, the Chebyshev-Gauss-Lobatto nodes strictly decreasing from 1 to -1; for n = 1 the result is not a number.", "quantifier": "all sizes and functions", "why_tests_cant": "all sizes; the sign and index conventions of slices", "anchors": ["src/polymath.cpp: flip, mat_func, mat_dynamics, cgl_nodes"]}
{"id": "C198", "title": "GenericLagrangeInterpolator works with CasADi matrices only", "statement": "With casadi::DM and two or more distinct nodes eval(t, values) is the value at t of the Lagrange interpolant of these values, whatever values the constructor or earlier calls were given. With Eigen::VectorXd the constructor fails for two or more nodes, with Eigen::MatrixXd every evaluation fails.", "quantifier": "all nodes, values, points, sequences of calls, sizes >= 2", "why_tests_cant": "all sequences of calls; the class is used in no test", "anchors": ["src/polymath.h: GenericLagrangeInterpolator, lagrange_poly_basis"]}
{"id": "C199", "title": "With adaptive_rho boxADMM can run forever on a feasible linear program", "statement": "For the linear program min 5 x subject to -1 <= 2 x <= 20, 0 <= x <= 10, with the default settings and adaptive_rho switched on, boxADMM solve() without guess returns MAX_ITER_EXCEEDED for every max_iter. With the default limit of 1000 iterations the returned x is -0.4 up to 1e-7 and so violates its bound. With adaptive_rho = false the same call returns SOLVED for every large limit.", "quantifier": "all iteration limits, exact linear solvers, both storage modes and previous uses of the object", "why_tests_cant": "no finite number of iterations shows that a run never ends", "anchors": ["src/solvers/box_admm.hpp: solve_impl, estimate_rho, residuals_update", "src/solvers/qp_base.hpp: qp_solver_settings_t"]}
{"id": "C200", "title": "Changing the step size forever is the only way in which boxADMM with alpha = 1 fails to terminate on a solvable convex QP", "statement": "For a convex QP with a KKT point, exact linear solves and valid settings with alpha = 1, with or without adaptive_rho: either boxADMM solve() returns SOLVED for every large max_iter, or the iterations go on forever and the step size changes infinitely often. If adaptive_rho_tolerance is at least 1e12 and rho within [1e-6, 1e6], the first alternative holds.", "quantifier": "all dimensions, convex QPs with a KKT point, settings with alpha = 1, guesses, exact linear solvers, square root functions and previous states", "why_tests_cant": "a statement about unbounded runs and all problems", "anchors": ["src/solvers/box_admm.hpp: solve_impl, estimate_rho, update_kkt_rho"]}
{"id": "C201", "title": "The number of boxADMM iterations is bounded by data known before the call", "statement": "Let (xs, ys) be a KKT point of a convex QP, alpha = 1 and adaptive_rho be off. Let mu be a lower bound of sigma and the step sizes of the constraints and d > 0 so small that d (3 + the absolute row sum of A), 2 d and d (sigma + the absolute row sum of H + the step-size weighted absolute column sum of (A; I)) are at most eps_abs. If L >= 1 and the weighted squared distance of the guess from (xs, ys) is at most L mu d^2, then boxADMM solve() with max_iter >= check_termination L returns SOLVED and reports at most check_termination L iterations.", "quantifier": "all dimensions, convex QPs, KKT points, settings with alpha = 1 and nonnegative tolerances, guesses, exact linear solvers and previous states", "why_tests_cant": "a worst case over all problems and guesses cannot be measured", "anchors": ["src/solvers/box_admm.hpp: solve_impl"]}
{"id": "C202", "title": "In floating-point arithmetic SOLVED of ADMM still means that the optimality conditions hold, up to explicit rounding errors", "statement": "Let every operation of the scalar type have relative error at most e and matrix-vector products with n terms relative error at most g(n) - 1 (relative to the sum of the magnitudes of the terms). If ADMM solve() returns SOLVED, then each row of (A x, x) differs from the auxiliary vector z by at most the reported primal residual plus ((1+e) g(N) - 1) times the magnitudes of its terms, each entry of H x + h + A^T y_A + y_box is at most the reported dual residual plus ((1+e)^3 max(g(N), g(M)) - 1) times the magnitudes of its terms, and the reported residuals are within the tolerances evaluated with a relative error of (1+e)^2. This holds however inaccurate the linear solver is. The status is SOLVED within the iteration limit or MAX_ITER_EXCEEDED.", "quantifier": "all arithmetics with these error bounds (with or without fused operations, any order of summation), dimensions, QPs, settings with rho > 0 and nonnegative tolerances, guesses, previous states, linear solvers", "why_tests_cant": "tests compare with a reference computed in the same arithmetic on a few problems; they do not bound the error over all data", "anchors": ["src/solvers/admm.hpp: solve_impl, residuals_update, eps_prim, eps_dual, box_projection, rho_vec_update", "src/solvers/qp_base.hpp: primal_residual_impl, dual_residual_impl"]}
{"id": "C203", "title": "In floating-point arithmetic ADMM's auxiliary vector is within the bounds exactly and its multipliers have the right signs up to rounding", "statement": "With the assumptions of C202 and (1+e)^5 <= 3/2: at SOLVED the auxiliary vector is within [Alb, Aub] and [xlb, xub] without any error, so the constraints are violated at most by the tolerance plus rounding errors of the residual. A multiplier larger than an explicit rounding bound occurs only where the auxiliary vector is at its upper bound, one smaller than its negative only at the lower bound.", "quantifier": "as C202, QPs with consistent bounds", "why_tests_cant": "the sign of a multiplier near zero is decided by rounding errors that depend on all data", "anchors": ["src/solvers/admm.hpp: solve_impl, residuals_update, eps_prim, eps_dual, box_projection, rho_vec_update", "src/solvers/qp_base.hpp: primal_residual_impl, dual_residual_impl"]}
{"id": "C204", "title": "In floating-point arithmetic the point ADMM returns with SOLVED is near-optimal", "statement": "With the assumptions of C203, for a convex QP: at SOLVED the objective at the returned point exceeds the objective at any feasible point w by at most dual tolerance * ||x - w||_1 + primal tolerance * ||y||_1 plus explicit terms which are proportional to the rounding errors. With exact arithmetic these terms vanish.", "quantifier": "as C203, convex QPs, all feasible points w", "why_tests_cant": "quantifies over all feasible points and all arithmetics", "anchors": ["src/solvers/admm.hpp: solve_impl, residuals_update, eps_prim, eps_dual, box_projection, rho_vec_update", "src/solvers/qp_base.hpp: primal_residual_impl, dual_residual_impl"]}
{"id": "C205", "title": "In floating-point arithmetic SOLVED of boxADMM means that the point is feasible and near-optimal up to tolerances and explicit rounding errors", "statement": "With relative errors at most e per operation and g(n) - 1 for matrix-vector products with n terms: if boxADMM solve() returns SOLVED, then (A x, x) differs from the auxiliary vectors (z, q) by at most the reported primal residual / (1 - e) plus ((1+e) g(N) - 1) times the magnitudes of its terms, and the gradient of the Lagrangian by at most the reported dual residual plus such a term; both reported residuals are within the tolerances up to rounding. z and q are within the bounds without error, multipliers larger than an explicit rounding bound have the sign that belongs to the active bound ((1+e)^5 <= 3/2), and for convex QPs the objective exceeds the objective at every feasible point by at most tolerance and rounding terms.", "quantifier": "all sizes, QPs, settings with rho > 0 and nonnegative tolerances, guesses, old contents of the object, linear solvers (also wrong ones), and arithmetics with the stated relative errors", "why_tests_cant": "a test sees one arithmetic on a few problems, the claim is about all roundings, orders of summation and fused operations", "anchors": ["src/solvers/box_admm.hpp: solve_impl, residuals_update, rho_vec_update, update_kkt_rho", "src/solvers/qp_base.hpp: primal_residual_impl, dual_residual_impl"]}
{"id": "C206", "title": "In single precision the step-size update of boxADMM can leave a singular KKT matrix for a convex QP", "statement": "boxADMM changes the step size by adding (new - old) to the diagonal of the KKT matrix of the last step size. In exact arithmetic the matrix stays nonsingular for convex QPs and sigma > 0 (C07). With p+1 binary digits, rounding to nearest, rho = 2^k with 2^(k-p-2) > 2e-6, sigma < 2^(k-p-3) and adaptive_rho on, minimising 2^k x over [-1,1] from zero guesses leaves the matrix 0 to be factorised after the first change of the step size, although new step size and sigma are positive. For float this happens with rho = 128 and default tolerances and sigma.", "quantifier": "all precisions p, exponents k and sigma with the stated relation, tolerances in [0, 1/10], adaptive_rho_tolerance in (0, 10], both KKT storage modes, exact linear solvers, old contents of the object", "why_tests_cant": "needs a step size whose change absorbs sigma and the new step size; the tests use double and rho <= 1", "anchors": ["src/solvers/box_admm.hpp:448-452 update_kkt_rho", "src/solvers/box_admm.hpp:173-186"]}
{"id": "C207", "title": "With affine constraints SQP reduces the violation of every constraint in each iteration, from any guess", "statement": "If equality and inequality constraints are affine, some point satisfies all constraints and bounds, and the QPs solved exactly have positive definite Hessians (with the default BFGS updates: if the Hessian at the guess is positive definite), then solve() returns from any guess, feasible or not. An iteration with step size a in (0,1] multiplies the violation of every constraint and bound by at most 1-a; a full step gives a feasible point; feasible iterates stay feasible; after k iterations the total violation is at most (1 - tau^(line_search_max_iter-1))^k times that of the guess. If the gradient of the cost is Lipschitz with constant L and the Hessians have curvature at least m, each iteration makes the point feasible or multiplies all violations by at most 1 - tau (1-eta) m / L, unless the step is below a bound proportional to the square root of the machine precision.", "quantifier": "all problems with affine constraints, sizes, settings with 0 < tau <= 1, 0 < eta, guesses, iterations", "why_tests_cant": "the guesses and problems of a test suite are finitely many; the merit function weighs cost against violation, so that no increase of the violation in one run does not exclude it in another", "anchors": ["src/solvers/sqp_base.hpp: solve, solve_qp, step_size_selection_impl, update_linearisation_dense_impl, construct_subproblem, constraints_violation, max_constraints_violation"]}
{"id": "C208", "title": "What cost() returns after solve()", "statement": "cost() is a number that the line search logs for the steps it tries. After solve() it is the cost of the returned variables if the last line search accepted a step. If the line search gave up after line_search_max_iter - 1 trials, it is the cost of the last rejected step, which is 1/tau times longer than the step taken; with SOLVED that is a point within (1/tau - 1) eps_prim of the returned one. With line_search_max_iter <= 1 (no line search) solve() never writes it: a new solver returns 0 whatever the problem. So the natural claim, that cost() is the cost of primal_solution(), is false, with and without line search.", "quantifier": "all problems, QP solvers, preconditioners, Hessian updates, settings, guesses and runs", "why_tests_cant": "a test that compares cost() with the cost of the solution passes as long as its line searches accept a step", "anchors": ["src/solvers/sqp_base.hpp: cost, m_cost, step_size_selection_impl, solve"]}
{"id": "C209", "title": "The cost that MPC minimises is the cost of running the plant, up to the discretisation error", "statement": "If a solve of the MPC wrapper ends with SOLVED, apply to the plant any control signal that is smooth on each segment and has the returned values at the nodes. Then the cost of the returned point differs from the integral of the running cost along the exact solution of the differential equation plus the terminal cost by at most (T Lc + Lm) times the error bound of the states (C183) plus 2 T h Mc h^N / (N-1)!, where T is the horizon, h the length of a segment, N = POLY_ORDER, Lc and Lm Lipschitz constants of running and terminal cost and Mc a bound of the derivatives of the running cost along the trajectory. The Clenshaw-Curtis rule on one segment alone has an error of order N+2 in h. For the number returned by cost() the variation of the cost over the distance of C208 is added.", "quantifier": "all problems with Lipschitz continuous dynamics and costs, all POLY_ORDER, numbers of segments, horizons, QP solvers, preconditioners, Hessians, settings", "why_tests_cant": "tests compare with analytic costs of a few problems on a few grids; the order of accuracy is a statement about all grids", "anchors": ["src/polynomials/ebyshev.hpp: quadrature weights", "src/control/continuous_ocp.hpp: cost", "src/control/mpc_wrapper.hpp: solve, cost"]}
{"id": "C210", "title": "SQP and the bounds of the variables in floating-point arithmetic", "statement": "If the guess satisfies the bounds of the variables and every QP step satisfies the shifted bounds up to delta, then in floating-point arithmetic every iterate satisfies the bounds up to 2 delta + 9 eps max(|lb|,|ub|), eps being the unit roundoff; the excess does not accumulate with the iterations. The exact claim (C27) is false: with every binary precision there is a problem with an exact QP solver where the returned variable exceeds its upper bound by 1/2, because the upper bound of the step was rounded up.", "quantifier": "all problems, QP solvers, preconditioners, Hessian updates, settings with 0 <= tau <= 1, guesses, numbers of iterations; every arithmetic with monotone rounding, with or without contraction of products and sums", "why_tests_cant": "tests run few iterations and compare with a tolerance; that errors do not accumulate is a statement about all runs", "anchors": ["src/solvers/sqp_base.hpp: solve, step_size_selection_impl"]}
{"id": "C211", "title": "What SOLVED of SQP means in floating-point arithmetic", "statement": "If solve() reports SOLVED then, also with rounding errors, the returned point violates every constraint as the program evaluates it by at most eps_prim / (1 - eps), and a constraint the program evaluates with error kappa by at most eps_prim / (1 - eps) + kappa; the last iteration changed every variable by at most (1+eps)^2 eps_prim / (1 - eps) plus two roundings of its value, and every multiplier likewise with eps_dual.", "quantifier": "all problems, QP solvers, preconditioners, Hessian updates, nonnegative step sizes, settings, guesses; every arithmetic with relative errors at most eps", "why_tests_cant": "tests see the final violation of a few runs only", "anchors": ["src/solvers/sqp_base.hpp: solve, termination_criteria_impl, max_constraints_violation_impl"]}
{"id": "C212", "title": "ADMM and boxADMM with infinite bounds", "statement": "Bounds of a QP may be infinite (the SQP solver leaves them so unless the user sets them). A call of solve() on such a QP returns exactly what it returns when the infinite bounds are replaced by any numbers of sufficiently large modulus. SOLVED therefore means what it means for finite bounds: residuals within the tolerances, the auxiliary point within the bounds, no multiplier of an absent bound, and for convex problems an objective that exceeds the one of any feasible point by at most the residuals times the distances. On every convex QP with a KKT point SOLVED is returned once the iteration limit is large enough.", "quantifier": "all QPs in which any set of lower bounds is -infinity and any set of upper bounds is +infinity, all settings, guesses, states of the solver object and linear solvers (exact ones, fixed step size for the last claim)", "why_tests_cant": "tests use a few QPs with some infinite bounds; that the finite-bounds theory carries over is a statement about all runs", "anchors": ["src/solvers/qp_base.hpp: parse_constraints_bounds", "src/solvers/admm.hpp: solve_impl, box_projection", "src/solvers/box_admm.hpp: solve_impl"]}
{"id": "C213", "title": "SQP with infinite bounds", "statement": "The SQP solver starts with all bounds infinite and users set only some. A call of solve() with infinite bounds returns exactly what it returns when the infinite bounds are replaced by any numbers of sufficiently large modulus (primal and dual solution, status, iteration counts, cost, callback history), for every QP solver and preconditioner with this property; boxADMM, no preconditioner and Ruiz equilibration have it. SOLVED is reported iff the last step is within the tolerances and every equality and every bound that is present is violated by at most eps_prim; otherwise all iterations have been used. A guess within the bounds that are present gives a result within them, if the QP solver respects the bounds of its QPs.", "quantifier": "all problems, all sets of absent lower and upper bounds, settings, guesses and solver states", "why_tests_cant": "tests leave some bounds infinite on a few problems; that the results for finite bounds carry over is a statement about all runs", "anchors": ["src/solvers/sqp_base.hpp:75-78: bounds after construction", "src/solvers/sqp_base.hpp:421-474: constraints_violation, max_constraints_violation", "src/solvers/sqp_base.hpp:567-696: solve", "src/solvers/qp_preconditioners.hpp: RuizEquilibration"]}
{"id": "C214", "title": "Multipliers of absent bounds", "statement": "With the default QP solver, whatever its status, a multiplier returned by solve() of SQP is positive only if the corresponding upper bound is present and negative only if the lower bound is present, provided this holds for the guess; the multiplier of a variable or inequality without bounds stays zero. If solve() reports SOLVED, the last step meets the linearised constraints up to the primal residual the QP solver reports, the multipliers of the last QP are complementary to the bounds that are present up to this residual, and the gradient of the Lagrangian is bounded by eps_prim and the reported dual residual.", "quantifier": "all problems with any set of absent bounds that is consistent, all settings with 0 < tau <= 1 and checked QP settings, all guesses, all linear solvers", "why_tests_cant": "the sign of multipliers of absent bounds over all runs cannot be observed by tests on a few problems", "anchors": ["src/solvers/sqp_base.hpp:567-696: solve", "src/solvers/box_admm.hpp: solve_impl"]}
{"id": "C215", "title": "SQP with the filter line search never goes back", "statement": "An SQP solver whose step size comes from an LSFilter takes steps tau^k of the QP solution. Either the new iterate is sufficiently better, in cost or violation, than every point in the filter, and is recorded, or all trial steps were rejected and the smallest step is taken without a test. While the filter is not full, an accepted iterate is never dominated by a point recorded before, in this or an earlier solve; after a feasible point every accepted iterate costs less. With a positive depth solve() never runs into undefined behaviour in the filter.", "quantifier": "all problems, QP solvers, preconditioners, settings, filters of any depth and contents, guesses", "why_tests_cant": "that no run returns to a recorded point is a statement about all sequences of iterations", "anchors": ["src/solvers/line_search.hpp: LSFilter", "tests/control/valet_parking_mpc_test.cpp:114-158: step_size_selection_impl", "src/solvers/sqp_base.hpp:567-696: solve"]}
{"id": "C216", "title": "The filter must be cleared between calls of solve", "statement": "solve() does not reset the filter. If the filter holds a point with the smallest possible cost recorded while it was feasible (for example an MPC that has reached its set point), every later solve with the same cost takes the smallest step in every iteration, whatever the bounds and the guess, and the filter never changes again; a variable that is fixed to a new value, such as a new initial condition, keeps the fraction (1 - tau^(line_search_max_iter-1))^iter of its distance, and SOLVED is not reported unless that is below eps_prim. After filter.clear() the result depends only on the guess and the settings and equals that of a new object. Witness with the settings of the repository's test: first call SOLVED, second call MAX_ITER_EXCEEDED, with filter.clear() in between SOLVED.", "quantifier": "all problems, bounds, guesses, settings, QP solvers that keep fixed variables; witness for the failure", "why_tests_cant": "the tests make a second call in one favourable case; the failure depends on the history of the object", "anchors": ["src/solvers/line_search.hpp: LSFilter::clear, is_acceptable", "tests/control/valet_parking_mpc_test.cpp:111-158", "src/solvers/sqp_base.hpp:567-696: solve"]}
{"id": "C217", "title": "A boxADMM object's earlier calls do not influence a solve", "statement": "boxADMM::solve with given data, settings and guesses returns the same primal and dual vectors, status and iteration count whatever the object was used for before. The residuals in info() are the same if the status is SOLVED or 1 <= check_termination <= max_iter; with check_termination = 0 and a fixed step size they are those of the previous call.", "quantifier": "all histories of calls of the object, all data, all settings, all decompositions that read only the triangle they are told to read", "why_tests_cant": "Stale state (step sizes, the never rewritten part of the KKT matrix, residuals) may show only after particular sequences of calls.", "anchors": ["src/solvers/box_admm.hpp: boxADMM::solve_impl, construct_kkt_matrix, rho_vec_update, update_kkt_rho"]}
{"id": "C218", "title": "With its own QP solvers SQP does not depend on earlier solves", "statement": "Two SQP objects with boxADMM (the default) or ADMM as QP solver, with or without Ruiz preconditioning, that have been used for any sequences of solves with any problems, bounds, settings and guesses, and have the same guess now, produce the same x, lambda, iteration counts, status, norms and last QP. Nothing is assumed of the QP solver.", "quantifier": "all sequences of calls, all problems and settings, all decompositions that read only the triangle they are told to read", "why_tests_cant": "all histories; the QP solver object keeps state between solves", "anchors": ["src/solvers/sqp_base.hpp: solve, default template arguments", "src/solvers/box_admm.hpp: solve_impl", "src/solvers/admm.hpp: solve_impl"]}
{"id": "C219", "title": "The MPC wrapper with limits left out or set to infinity", "statement": "A newly constructed MPC wrapper has no limits; each setter changes exactly the limits it names, also when they are infinite. Any sequence of setter calls, guesses, horizon changes and solves with infinite limits leads to the same solutions, multipliers, status, iteration counts and norms as with any numbers of sufficiently large modulus in place of the infinite limits. When a solve ends with SOLVED the trajectory satisfies the differential equation at the collocation nodes, the limits that were set and the initial condition, up to eps_prim.", "quantifier": "all wrappers, all sequences of calls and solves of any length, all problems, settings and limits (finite or infinite), any sufficiently large replacements, QP solvers and preconditioners that treat infinite bounds as large ones (C211, C212: boxADMM, Ruiz, identity)", "why_tests_cant": "all sequences of calls and all problems; tests use one large number or none, and one scenario", "anchors": ["src/control/mpc_wrapper.hpp: MPC constructor, *_bounds, initial_conditions, solve", "src/solvers/sqp_base.hpp: constructor (default bounds +-INF)"]}
{"id": "C220", "title": "Eigenvalue mirroring makes the Hessian convex, and when it changes what was already convex", "statement": "Given a correct eigenvalue decomposition of a symmetric Hessian, the solver with the eigenvalue-mirroring regularisation replaces the Hessian by a symmetric positive definite one and returns a positive definite Hessian unchanged. With orthonormal eigenvectors it keeps the eigenvectors and the positive eigenvalues and turns the other eigenvalues a into |a| + 0.1; the result bounds the absolute value of the original quadratic form. Distinct eigenvalues imply orthonormal eigenvectors. All QPs of such a solve are strictly convex and the solve always returns. Two things a user could expect are false: with a repeated eigenvalue and eigenvectors that are not orthogonal (which the documentation of the decomposition permits) the positive part is changed, and positive eigenvalues arbitrarily close to zero are kept, so that there is no lower bound on the curvature.", "quantifier": "all dimensions, all symmetric Hessians, all correct decompositions, all problems, bounds, settings and starting points of the SQP solver with its default BFGS update", "why_tests_cant": "all matrices and all problems; tests run a few fixed problems", "anchors": ["tests/solvers/sqp/sqp_test_autodiff.cpp: SQPSolver::hessian_regularisation_dense_impl", "src/solvers/sqp_base.hpp: hessian_regularisation_dense, solve"]}
{"id": "C221", "title": "Residuals of the older collocation class, and what its functor constructor does", "statement": "A default constructed ode_collocation object returns at every node the difference between the derivative of the interpolant of the states and the scaled dynamics, for any number of segments and any order; these are the equality constraints ContinuousOCP computes at the same point. constraint_collocation::generic_function returns the given function at every node and writes nothing behind its result. An object constructed from a dynamics functor is different: it ignores the functor, its differentiation matrix is zero, so it returns only the scaled dynamics of a default constructed functor, and its linearisation reads derivative seeds that were never set. It agrees with a default constructed object exactly at the points where the interpolants have zero derivative.", "quantifier": "all problem dimensions, numbers of segments, orders, dynamics, points and time intervals; any previous contents of the outputs", "why_tests_cant": "all dimensions and points; no test uses the class", "anchors": ["src/control/ode_collocation.hpp: ode_collocation, operator()", "src/control/constraints_collocation.hpp: generic_function"]}
{"id": "C222", "title": "Linearisation of the older collocation class leaves out the parameters", "statement": "ode_collocation::linearized returns the residuals and their exact derivatives with respect to states and controls. The columns of the parameters are zero, so the result is the Jacobian of the residual in all variables exactly when the residuals do not depend on the parameters at that point; with the dynamics x' = p it is not.", "quantifier": "all problem dimensions, numbers of segments, orders, dynamics with exact derivatives, points and time intervals", "why_tests_cant": "all dimensions and points; no test uses the class", "anchors": ["src/control/ode_collocation.hpp: linearized"]}
{"id": "C223", "title": "Value, gradient and Hessian of the older cost class", "statement": "cost_collocation returns the terminal cost plus the quadrature of the running cost, up to an error term proportional to the difference of the two end weights, which is zero for Chebyshev weights; the value is then the cost ContinuousOCP computes at the same point. value_gradient and value_gradient_hessian return that value and its exact first and second derivatives with respect to states and controls. The gradient is the gradient in all variables exactly when the cost does not depend on the parameters at that point; with the running cost p it is not. An object constructed from cost functors has no quadrature weights, so none of its functions may be called.", "quantifier": "all problem dimensions, numbers of segments, orders, costs with exact derivatives, points and time intervals", "why_tests_cant": "all dimensions and points; no test uses the class", "anchors": ["src/control/cost_collocation.hpp: operator(), value_gradient, value_gradient_hessian, cost_collocation"]}
{"id": "C224", "title": "Older collocation class, sparse format: when a matrix can be reused", "statement": "A default constructed sparse_ode_collocation object returns the residuals of the dense class. The first call of linearized with a matrix without entries returns the matrix and the vector of the dense class. A second call with the same matrix works exactly if there is one segment or no diagonal entry of the differentiation matrix is zero; then every call of a session of any length agrees with the dense class. With the Chebyshev scheme that means one segment or odd order: with two or more segments and even order the second call inserts entries that exist. An object constructed from a functor has a differentiation matrix of size zero, so it can neither be evaluated nor linearised.", "quantifier": "all problem dimensions, numbers of segments, orders, dynamics functors that write all components, sessions of any length", "why_tests_cant": "all dimensions and call sequences; no test uses the class", "anchors": ["src/control/sparse_ode_collocation.hpp: operator(), linearized, _linearized, _linearized_same_pattern, compute_inner_nnz"]}
{"id": "C225", "title": "Diagonal of the Chebyshev differentiation matrix", "statement": "The diagonal entries that Chebyshev computes as negative row sums are -x/(2(1-x^2)) at an inner node x and (2N^2+1)/6 and -(2N^2+1)/6 at the two ends. The diagonal entry of a node is zero exactly for the middle node of an even order.", "quantifier": "all orders N >= 1, all nodes", "why_tests_cant": "all orders", "anchors": ["src/polynomials/ebyshev.hpp: compute_diff_matrix"]}
{"id": "C226", "title": "Solver options and statistics of the CasADi-based classes", "statement": "Options that a user gives to the constructor of nmpc, nmpf or GenericOCP take precedence over the defaults key by key. Changing options afterwards does nothing: calls of updateParams (nmpc, nmpf) or update_solver_params (GenericOCP) at any point of a session leave all later results as they would be without these calls. PSODESolver takes only the linear solver from the options it is given and ignores all others. getStats and solve_status hold the statistics of the solve whose result the object holds.", "quantifier": "all option dictionaries, all sessions of calls, any solver", "why_tests_cant": "quantifies over all sessions and dictionaries; no test changes options after construction", "anchors": ["src/nmpc.hpp: updateParams, createNLP, getStats", "src/nmpf.hpp: updateParams, createNLP, getStats", "src/generic_ocp.hpp: update_solver_params, setup, solve", "src/integration/chebyshev_integrator.hpp: PSODESolver"]}
{"id": "C227", "title": "What a call on a used sparse QP solver guarantees", "statement": "The last of several calls of ADMM or boxADMM with sparse matrices on one object - the earlier calls may concern other programs, patterns and settings - gives the same guarantees as a new dense solver: SOLVED means near-optimal, and near the minimiser for strongly convex programs; a feasible convex program is solved within a number of iterations known before the call if the step size is constant; a program without feasible points is not reported as solved for small tolerances (boxADMM; ADMM is C167). With adaptive_rho the feasible linear program min 5x, -1 <= 2x <= 20, 0 <= x <= 10 ends with MAX_ITER_EXCEEDED for every iteration limit, whatever the object was used for before.", "quantifier": "all sparse data, all sequences of calls in which reuse_pattern is set only after a call with the same pattern, all iteration limits", "why_tests_cant": "quantifies over all histories of an object and all iteration limits", "anchors": ["src/solvers/admm.hpp: solve with sparse matrices", "src/solvers/box_admm.hpp: solve with sparse matrices"]}
{"id": "C228", "title": "Ruiz scaling in floating-point arithmetic", "statement": "With rounding errors, the data scaled by RuizEquilibration::compute are exactly the scaled data of a quadratic program whose entries agree with the given ones up to at most 24 roundings (Hessian), 16 (constraint matrix and linear term) and 2 (bounds), so the scaled problem has the same zeros and signs and its KKT points, unscaled, are KKT points of that nearby program up to at most 4 roundings. compute followed by unscale, as in every SQP iteration, restores each entry up to 30 roundings; the error is relative to the entry itself, however badly the problem is scaled. After T in-place rounds the drift is at most T times as large. The cost factor of dense data is never a division by zero.", "quantifier": "all quadratic programs, all states of the preconditioner, dense and sparse, every arithmetic with relative errors of at most epsilon < 1 per operation, all numbers of rounds", "why_tests_cant": "quantifies over all rounding behaviours and all magnitudes of the entries", "anchors": ["src/solvers/qp_preconditioners.hpp: compute, unscale", "src/solvers/sqp_base.hpp: solve_qp (scaling and unscaling in place)"]}
{"id": "C229", "title": "What Ruiz scaling achieves", "statement": "After RuizEquilibration::compute every entry of the constraint matrix and of the linear term is at most one in absolute value, however large the data were, and every entry of a dense Hessian is at most the number of variables; for a sparse Hessian this holds if each of its columns stores an entry. It does not hold otherwise: a column without stored entries hides the Hessian from the cost factor, and with a zero linear term compute divides by zero although the Hessian is not zero. Small columns are not brought to size one: a column of norm s^2 next to one of norm 1 ends with norm s, because only one of the four sweeps takes place.", "quantifier": "all quadratic programs and states of the preconditioner, dense and sparse, all sparsity patterns", "why_tests_cant": "holds for all data; the failing cases depend on the sparsity pattern and on the loop condition", "anchors": ["src/solvers/qp_preconditioners.hpp: RuizEquilibration::compute, maxxCoeff"]}
{"id": "C230", "title": "What the example plants compute", "statement": "MobileRobot has the dynamics of a tricycle with wheel base one: it never slips sideways, turning and shifting the plane maps trajectories to trajectories, and with speed at most V it gets no further than V times the elapsed time; the wheel base given in MobileRobotProperties has no effect. SimpleKinematicKite built from properties has no output map, while the default one maps the state to elevation and azimuth. Its dynamics are not those of a kite on a sphere: the kite slips sideways off its heading, the elevation rate takes the elevation for the azimuth, and mirrored flights do not behave alike; each theorem says at exactly which states the defect is invisible.", "quantifier": "all properties, states, controls and differentiable trajectories", "why_tests_cant": "equality of dynamics on all states; the tests of the library never compare the example plants with a reference", "anchors": ["examples/mobile_robot.cpp: MobileRobot", "examples/mobile_robot.hpp: MobileRobotProperties", "examples/kite.cpp: SimpleKinematicKite", "examples/kite.h: SimpleKinematicKite::getOutputMapping"]}
{"id": "C231", "title": "Optimal control problems with Legendre collocation", "statement": "The transcription accepts Spline<Legendre<N>, S> as its approximation. Then solutions of the differential equation are not feasible: states that satisfy it at all collocation nodes meet the equality constraints exactly if they are zero at the first node of every segment and at the last node. A plant at rest is not predicted to stay at rest: the feasible trajectories of xdot = 0 are exactly the multiples of the Legendre polynomial of degree N on each segment, so the state is multiplied by (-1)^N from one end of a segment to the other and no non-zero state can be kept. The callbacks receive times out of order: the final state is given the time tf - (tf-t0)/S and the initial state t0 + (tf-t0)/S.", "quantifier": "all orders, numbers of segments, dimensions, dynamics, horizons and trajectories", "why_tests_cant": "a statement about all feasible points of the transcription for all orders; the tests only print the Legendre matrices", "anchors": ["src/control/continuous_ocp.hpp: ContinuousOCP::constraints, set_time_limits", "src/polynomials/legendre.hpp: Legendre::compute_diff_matrix, compute_nodes", "src/polynomials/splines.hpp: Spline"]}
{"id": "C232", "title": "What the projected gradient prototype computes", "statement": "GradProj is announced to minimise a quadratic cost over a box. The box limits the steps instead of the points: a call that returns has moved every component by between 100 l and 100 u downwards, so with a box that does not contain zero the result runs away from the start. With zero inside the box every call returns, and a pass keeps a point exactly if the gradient without the box vanishes. For the data of the class the best point of the box is (0.1, 1), and started there or at the origin solve returns a point with second component between 11 and 20, outside the box. The acceptance test of the line search has the wrong sign: there is a convex cost for which every pass accepts a step that increases the cost.", "quantifier": "all quadratic costs, boxes, starting points and numbers of variables; for the data of the class all starts with second component in [0, 1]", "why_tests_cant": "the test of the prototype prints the result and asserts nothing; statements about all starts and all data", "anchors": ["src/solvers/trust_region_tests/gradproj_test.cpp: GradProj::solve, GradProj::box_projection"]}
{"id": "C233", "title": "How accurate the Riccati solver is and how fast it converges near a solution", "statement": "For any symmetric stabilising X with residual norm r, X differs from the stabilising solution of the Riccati equation by at most r times the integral of the squared state along the closed loops, and the feedback that belongs to X really has a cost that differs from X by at most r times that integral and is not below the optimum. Near a stabilising solution the iteration converges quadratically although the line search picks other steps than the full one: from a symmetric guess within d of the solution, with 8 p b sqrt(n) d at most 1, the k-th iterate stabilises and is within (4 p b sqrt(n) d)^(2^k) / (4 p b sqrt(n)), and what the solver returns stabilises and is within that bound or within p/100000.", "quantifier": "all sizes n, all data with B positive semidefinite, all stabilising solutions, all guesses in the stated neighbourhood, all iteration limits", "why_tests_cant": "a test compares one returned matrix with a reference; accuracy from the residual and the order of convergence are statements about all data", "anchors": ["src/control/lqr.hpp: newton_ls_care, line_search_care", "src/polymath.cpp: newton_ls_care"]}
{"id": "C234", "title": "The radius of the trust-region prototype is a lower bound for its steps (false)", "statement": "A trust-region method takes steps that are not longer than the radius and accepts a step only if the cost decreases. The prototype does neither: if all factorisations of an iteration succeed, its step is at least as long as the radius; on a quadratic cost it accepts every step, also one that increases the cost, and doubles the radius up to 1000, so that iteration k moves the point by at least min(2^k/10, 1000) and the point it answers with is at least that far from the one whose gradient was tested. For b x^2/2 an iteration moves by exactly the radius; near the minimum it increases the cost, and with radius 1000 it alternates between two points for ever. For a Hessian with an eigenvalue of -0.8 or below the step is what a failed decomposition answers.", "quantifier": "all dimensions, all quadratic costs, all starting points, all exact Cholesky decompositions", "why_tests_cant": "the test of the prototype asserts nothing about the answer; that no sequence of iterations settles is a statement about all runs", "anchors": ["src/solvers/trust_region_tests/trust_region_test.cpp: the loop of the test case", "src/solvers/trust_region_tests/trust_region_test.cpp: SimpleQP"]}
{"id": "C235", "title": "A controller at its set point commands the set point for ever", "statement": "Let the set point be a state, control and parameter vector at which the dynamics vanish, running and terminal cost are least, and the limits are met. With the Chebyshev scheme the trajectory that stays there satisfies the optimality conditions of the transcribed problem with zero multipliers. If the wrapper holds this trajectory and the plant starts at that state and stays there under that control, then over any number of steps of initial_conditions, solve and applying the first control, no solve fails, the getters return the set point at every node whatever the status is, and the plant stays at rest.", "quantifier": "all dimensions, numbers of segments and polynomial degrees, all differentiable problems whose Hessian at the set point is positive definite (all strictly convex linear-quadratic ones without parameters), all plants at rest there, all numbers of steps, all solver settings", "why_tests_cant": "a test runs one controller for a few steps from one state; that nothing moves in any number of steps is a statement about all runs", "anchors": ["src/control/mpc_wrapper.hpp:89-93,297-300", "src/solvers/sqp_base.hpp:567-696", "src/control/continuous_ocp.hpp:739-770,1182-1210"]}
{"id": "C236", "title": "Solver settings out of range are rejected (false)", "statement": "sqp_settings_t documents ranges for its members, offers a check and a status INVALID_SETTINGS. The check accepts exactly the documented ranges, but no solve reports INVALID_SETTINGS, whatever the settings are. With max_iter <= 1, also zero or negative, exactly one iteration is made; with a negative eps_prim all iterations are made and MAX_ITER_EXCEEDED is reported; with line_search_max_iter <= 1 every step is a full step; with tau = 0 a step whose full length is refused is not made at all, and the solve can then report SOLVED at the point it started from although the gradient is not zero there and no limit is active. rho, documented as a line search parameter, has no effect.", "quantifier": "all problems, settings, starting points, preconditioners and QP solvers; the false SOLVED is shown by an instance", "why_tests_cant": "tests use settings in range; that no settings lead to INVALID_SETTINGS is a statement about all of them", "anchors": ["src/solvers/sqp_base.hpp:24-55", "src/solvers/sqp_base.hpp:378-419", "src/solvers/sqp_base.hpp:567-696"]}
{"id": "C237", "title": "The unit and the origin of time do not matter", "statement": "Writing the optimal control problem and the time limits with another clock t' = c t + e (dynamics and running cost per unit of t', path constraints and terminal cost unchanged) gives the solver the same problem: the same cost, constraints, gradients, Jacobians and Hessians. So solve does the same with every solver and setting, and the states and controls at the nodes are the same. In particular, for problems that do not depend on time set_time_limits(t0 + e, tf + e) and set_time_limits(t0, tf) give the same answers.", "quantifier": "all problems with exact derivatives, transcriptions with at least one segment and polynomial order one, clocks, wrappers, settings, QP solvers and starting points; exact arithmetic", "why_tests_cant": "a test compares two clocks for one problem; that no part of the transcription uses an absolute time or mixes units is a statement about all", "anchors": ["src/control/continuous_ocp.hpp:145-165", "src/control/mpc_wrapper.hpp:77-86", "src/control/continuous_ocp.hpp: cost, equality_constraints and their derivatives"]}
{"id": "C238", "title": "Options of ODESolver take effect (false)", "statement": "ODESolver accepts the options tol, max_iter and tf in its constructor and in updateParams, and getParams returns the last values given. None of them has an effect: sessions that give the same values to method compute the same, and CVODES always works with the absolute tolerance 1e-8 and at most 300 steps. Unknown names are ignored. A method that is not a number makes the constructor throw, but is accepted by updateParams, and then every solve throws. The overload of solve without parameters integrates with all parameters zero.", "quantifier": "all right-hand sides, integrators, option values, sessions of updateParams and arguments of solve", "why_tests_cant": "a test sees one result for one option value; that no option value matters in any session is a statement about all of them", "anchors": ["src/integration/integrator.cpp:6-66", "src/integration/integrator.cpp:82-136"]}
{"id": "C239", "title": "QP solver settings out of range are rejected (false)", "statement": "The documented ranges of the settings of ADMM and boxADMM are not checked. With a negative rho (adaptive_rho off, no row with both bounds beyond 1e10) the multipliers have the wrong signs after every pass, and SOLVED on a linear program (or any concave cost) means that the returned point maximises the cost up to the residuals; there is a linear program over an interval for which rho = -0.1 gives SOLVED at the worst point and rho = 0.1 at the best. Negative values of check_termination and adaptive_rho_interval act as their absolute values. adaptive_rho with interval zero is undefined behaviour unless no pass is made or the first pass ends with SOLVED. With eps_abs < 0 and eps_rel <= 0 the status is never SOLVED. ADMM with alpha = 0 returns the guess; boxADMM with alpha = 0 or alpha = 2 returns zero.", "quantifier": "all programs, guesses, linear solvers, previous states of the solver object and remaining settings", "why_tests_cant": "a test tries one bad value on one program; that SOLVED is reported at a maximiser for every linear program, and that intervals of either sign do the same, are statements about all", "anchors": ["src/solvers/qp_base.hpp:21-37", "src/solvers/admm.hpp:112-213", "src/solvers/box_admm.hpp:84-205"]}
{"id": "C240", "title": "In floating-point arithmetic the damped BFGS update keeps symmetry but not positive definiteness", "statement": "Whatever the rounding of sums and quotients, BFGS_update keeps a symmetric matrix exactly symmetric through any sequence of calls, as multiplication commutes. Every entry of the new matrix differs from the update formula, for the computed vectors, by at most four roundings of the sizes of its three terms. Positive definiteness, which the damping is there to ensure, can be lost: in double precision, with or without fused multiply-add, one call turns the identity matrix into an indefinite one, although in exact arithmetic the same call gives a positive definite matrix.", "quantifier": "all sizes, matrices, steps, gradient changes, sequences of calls and arithmetics (symmetry); all arithmetics with relative error epsilon (errors of the entries); a witness in double precision (indefiniteness)", "why_tests_cant": "tests check positive definiteness for a few well-scaled updates; exact symmetry for every rounding and the error of every entry are statements about all", "anchors": ["src/solvers/bfgs.hpp:24-52"]}
{"id": "C241", "title": "What the Ipopt interface reports after solve", "statement": "After solve() the status, the number of iterations, cost(), dual_norm() and constr_violation() are the values of Ipopt, the bounds are unchanged, and a further solve() starts from the stored solution. primal_norm() is zero whatever is done with the object, and the violation of the bounds on the variables, the complementarity error and the KKT error are dropped. solve() is undefined if Ipopt has no statistics (it ended before there was a point), and if Ipopt hands over the documented array of one multiplier per constraint: with at least one variable, a call that is defined leaves the guess in primal_solution() and dual_solution().", "quantifier": "all problems, guesses, behaviours of Ipopt (status, final call, statistics) and sequences of solves and edits of bounds and guesses", "why_tests_cant": "tests print the solution of a few problems; which calls are defined and what is reported hold for every behaviour of Ipopt", "anchors": ["src/solvers/ipopt_interface.hpp:362-378", "src/solvers/ipopt_interface.hpp:385-499"]}
{"id": "C242", "title": "In floating-point arithmetic the guard of the SR1 update keeps the secant equation", "statement": "Whatever the rounding, SR1_update keeps a symmetric matrix exactly symmetric through any sequence of calls. If a call is not skipped, the new matrix satisfies the secant equation B s = y up to an explicit multiple of the rounding unit, as the guard bounds the amplification of rounding errors by a million; in double precision and for up to a thousand variables the error of each equation is at most 2^-23 times the entry of y - B s plus 2^-42 times the sizes of B s and y. The call divides by zero exactly if the step is zero or the computed product B s equals y.", "quantifier": "all sizes, matrices, steps, gradient changes, sequences of calls and arithmetics (symmetry); all arithmetics with relative error epsilon and scalar products accurate to a factor below 2 (secant equation, division by zero)", "why_tests_cant": "tests check the secant equation for a few well-scaled updates; the bound is about all inputs and all ways of rounding and contraction", "anchors": ["src/solvers/sr1.hpp:22-36"]}
{"id": "C243", "title": "The time grid in floating-point arithmetic", "statement": "With operations accurate to epsilon, every node time set by set_time_limits(t0, tf) differs from the time it should have by at most ((1+epsilon)^8 - 1)(|t0| + |tf - t0|): the error is relative to the clock, not to the horizon. Where neighbouring nodes are further apart than twice that, their computed times are in order. That the times are distinct, which C37 proves without rounding and interpolation divides by, fails in every precision: on a clock at 2^k with a horizon of one spacing of the numbers there and four segments, all nodes of the first segment are at the start time. In float, with seconds since 1970, this is a horizon of 128 seconds.", "quantifier": "all numbers of segments, nodes, time limits and arithmetics (error, order); all precisions and clocks at a power of two, with and without contraction (coinciding nodes)", "why_tests_cant": "tests use horizons that start at zero; the error for all clocks and all ways of rounding is a statement about all", "anchors": ["src/control/continuous_ocp.hpp:49-55", "src/control/continuous_ocp.hpp:147-159"]}
{"id": "C244", "title": "The line-search filter rejects points whose cost or violation is NaN (false)", "statement": "Every LSFilter finds a trial point acceptable if its cost or its violation is NaN, as when the problem was evaluated outside its domain, and never finds it dominated. Once such a point is added it rejects nothing, no better point displaces it while there is room, and it takes up depth: max_depth such points, each of them acceptable, empty the filter of everything it knew, and from then on every point is acceptable. Without NaN the filter behaves as C20-C22 say.", "quantifier": "all filters, depths, points and sequences of additions", "why_tests_cant": "tests add finite points; that every filter accepts every such point is a statement about all", "anchors": ["src/solvers/line_search.hpp:16-28", "src/solvers/line_search.hpp:54-92"]}
{"id": "C245", "title": "A point at which the constraints are NaN is not reported as feasible (false)", "statement": "constr_violation of an SQP solver is a number whatever the constraints evaluate to: NaN inequality constraints count as absent, and if all constraints are NaN the violation is that of the bounds on the variables, so a point within them passes the test of the violation for every tolerance. The line search accepts no trial point with a NaN merit function before it runs out of iterations, but if the merit function is NaN at the current point or at all trial points it returns the smallest step, tau^(line_search_max_iter-1), untested. With the default settings the solver then reports SOLVED at a point with NaN constraints for every step of size up to 1e26. Without NaN the violation is the one of C24.", "quantifier": "all problems, bounds, points, steps, settings and sets of NaN entries as stated", "why_tests_cant": "tests use problems whose functions are defined everywhere", "anchors": ["src/solvers/sqp_base.hpp:400-419", "src/solvers/sqp_base.hpp:446-474", "src/solvers/sqp_base.hpp:523-529"]}
{"id": "C246", "title": "A QP solution with NaN is never reported as SOLVED, and a NaN in the iterate is not recovered from", "statement": "If ADMM or boxADMM with dense matrices reports SOLVED, every entry of the primal solution is a number. If the guess of x given to ADMM has a NaN entry, or one appears in the iterate, that entry is NaN in the result whatever the linear solver returns, all max_iter iterations are done, MAX_ITER_EXCEEDED is reported with info().iter = max_iter + 1, and with adaptive_rho the penalty goes to its largest value 1e6 at the first iteration that is a multiple of adaptive_rho_interval.", "quantifier": "all problems, settings, guesses, linear solvers and numbers of iterations", "why_tests_cant": "NaN can enter anywhere; that none of the residual tests loses it is a statement about all iterations and problems", "anchors": ["src/solvers/admm.hpp:141-208", "src/solvers/admm.hpp:446-493", "src/solvers/box_admm.hpp:117-200", "src/solvers/box_admm.hpp:398-445", "src/solvers/qp_base.hpp:247-252"]}
