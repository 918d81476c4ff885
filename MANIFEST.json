{
 "claims": [
  {
   "property": "C01",
   "status": "proved",
   "theorems": [
    "PolyMPC.Admm.terminationCriteria_iff",
    "PolyMPC.Admm.solved_residuals"
   ],
   "note": "dense data; any linear solver"
  },
  {
   "property": "C02",
   "status": "proved",
   "theorems": [
    "PolyMPC.Admm.z_within_bounds",
    "PolyMPC.Admm.solved_violation"
   ],
   "note": ""
  },
  {
   "property": "C03",
   "status": "proved",
   "theorems": [
    "PolyMPC.Admm.dual_in_normal_cone",
    "PolyMPC.Admm.solved_dual_in_normal_cone"
   ],
   "note": ""
  },
  {
   "property": "C04",
   "status": "proved",
   "theorems": [
    "PolyMPC.Admm.solved_near_optimal",
    "PolyMPC.Admm.solved_near_optimal_tol"
   ],
   "note": ""
  },
  {
   "property": "C05",
   "status": "proved",
   "theorems": [
    "PolyMPC.Admm.status_cases",
    "PolyMPC.Admm.solved_iter",
    "PolyMPC.Admm.never_solved_unchecked",
    "PolyMPC.Admm.exceeded_iter",
    "PolyMPC.Admm.exceeded_all_checks_failed",
    "PolyMPC.Admm.solve_defined"
   ],
   "note": ""
  },
  {
   "property": "C06",
   "status": "proved",
   "theorems": [
    "PolyMPC.Admm.stationary_iff_kkt"
   ],
   "note": "exact linear solver assumed"
  },
  {
   "property": "C07",
   "status": "proved",
   "theorems": [
    "PolyMPC.Admm.kkt_nonsingular",
    "PolyMPC.Admm.run_kkt_nonsingular",
    "PolyMPC.BoxAdmm.kkt_nonsingular",
    "PolyMPC.BoxAdmm.run_kkt_nonsingular"
   ],
   "note": ""
  },
  {
   "property": "C08",
   "status": "proved",
   "theorems": [
    "PolyMPC.Admm.rho_within_limits",
    "PolyMPC.Admm.rho_limits",
    "PolyMPC.Admm.rhoVec_entries",
    "PolyMPC.Admm.rhoVec_positive",
    "PolyMPC.BoxAdmm.rho_within_limits",
    "PolyMPC.BoxAdmm.rhoVec_entries"
   ],
   "note": ""
  },
  {
   "property": "C09",
   "status": "proved",
   "theorems": [
    "PolyMPC.Admm.kkt_equals_reassembly",
    "PolyMPC.Admm.kkt_entries",
    "PolyMPC.BoxAdmm.kkt_equals_reassembly",
    "PolyMPC.BoxAdmm.kkt_entries"
   ],
   "note": "dense data"
  },
  {
   "property": "C10",
   "status": "proved",
   "theorems": [
    "PolyMPC.Admm.classify_spec",
    "PolyMPC.Admm.stored_types",
    "PolyMPC.Admm.inverted_bounds_equality"
   ],
   "note": ""
  },
  {
   "property": "C11",
   "status": "proved",
   "theorems": [
    "PolyMPC.BoxAdmm.solved_residuals",
    "PolyMPC.BoxAdmm.dual_in_normal_cone",
    "PolyMPC.BoxAdmm.solved_kkt",
    "PolyMPC.BoxAdmm.solved_near_optimal",
    "PolyMPC.BoxAdmm.status_iter"
   ],
   "note": ""
  },
  {
   "property": "C12",
   "status": "proved",
   "theorems": [
    "PolyMPC.BoxAdmm.kkt_point_x_fixed_iff",
    "PolyMPC.BoxAdmm.stationary_iff_kkt_of_alpha_one"
   ],
   "note": "stationarity for every alpha is false of the code; the exact condition is proved"
  },
  {
   "property": "C13",
   "status": "proved",
   "theorems": [
    "PolyMPC.Admm.residuals_tendsto_zero",
    "PolyMPC.Admm.iterates_converge_to_kkt",
    "PolyMPC.Admm.eventually_solved"
   ],
   "note": "real numbers, exact linear solves"
  },
  {
   "property": "C14",
   "status": "proved",
   "theorems": [
    "PolyMPC.Ruiz.dense_compute_restores",
    "PolyMPC.Ruiz.unscale_compute",
    "PolyMPC.Ruiz.unscale_scale",
    "PolyMPC.Ruiz.unscalePair_scalePair",
    "PolyMPC.Ruiz.unscaleHessian_scale"
   ],
   "note": "Dense: always defined. Sparse: whenever compute does not divide by zero (C65)."
  },
  {
   "property": "C15",
   "status": "proved",
   "theorems": [
    "PolyMPC.Ruiz.compute_eq_scale",
    "PolyMPC.Ruiz.kkt_iff",
    "PolyMPC.Ruiz.compute_kkt",
    "PolyMPC.Ruiz.feasible_iff",
    "PolyMPC.Ruiz.objective_scale"
   ],
   "note": ""
  },
  {
   "property": "C16",
   "status": "proved",
   "theorems": [
    "PolyMPC.Ruiz.update_then_unscale",
    "PolyMPC.Ruiz.update_does_not_restore",
    "PolyMPC.Ruiz.dense_update_skips",
    "PolyMPC.Ruiz.dense_update_undefined"
   ],
   "note": "The claim that update keeps data and factors in step is false of the code; the negation is proved with a witness, together with the exact effect of update. The dense update has the opposite loop condition: it leaves well-scaled data's matrices unscaled, and is undefined for pure feasibility problems."
  },
  {
   "property": "C17",
   "status": "proved",
   "theorems": [
    "PolyMPC.QuasiNewton.bfgs_keeps_spd",
    "PolyMPC.QuasiNewton.bfgs_history_spd",
    "PolyMPC.QuasiNewton.spd_one"
   ],
   "note": "Exact arithmetic; no condition on the step or gradient vectors."
  },
  {
   "property": "C18",
   "status": "proved",
   "theorems": [
    "PolyMPC.QuasiNewton.bfgs_secant",
    "PolyMPC.QuasiNewton.bfgs_curvature",
    "PolyMPC.QuasiNewton.theta_range"
   ],
   "note": ""
  },
  {
   "property": "C19",
   "status": "proved",
   "theorems": [
    "PolyMPC.QuasiNewton.sr1_spec",
    "PolyMPC.QuasiNewton.sr1_undefined_iff"
   ],
   "note": "The guard admits s = 0 and y = B s, where the update divides by zero: proved as an iff."
  },
  {
   "property": "C20",
   "status": "proved",
   "theorems": [
    "PolyMPC.Filter.filter_size_bounded",
    "PolyMPC.Filter.default_filter_size_bounded",
    "PolyMPC.Filter.add_undefined_iff",
    "PolyMPC.Filter.removeOne_undefined_iff",
    "PolyMPC.Filter.adds_and_clears_defined"
   ],
   "note": "depth 0 on an empty filter is the only undefined add"
  },
  {
   "property": "C21",
   "status": "proved",
   "theorems": [
    "PolyMPC.Filter.isDominated_iff",
    "PolyMPC.Filter.isAcceptable_iff",
    "PolyMPC.Filter.added_point_dominated",
    "PolyMPC.Filter.dominated_not_acceptable",
    "PolyMPC.Filter.acceptable_mono",
    "PolyMPC.Filter.added_points_stay_dominated",
    "PolyMPC.Filter.added_points_forgotten_when_full"
   ],
   "note": ""
  },
  {
   "property": "C22",
   "status": "proved",
   "theorems": [
    "PolyMPC.Filter.mutual_nondomination_add",
    "PolyMPC.Filter.mutual_nondomination_until_full",
    "PolyMPC.Filter.mutual_nondomination_fails_when_full"
   ],
   "note": ""
  },
  {
   "property": "C23",
   "status": "proved",
   "theorems": [
    "PolyMPC.Sqp.solve_control_flow",
    "PolyMPC.Sqp.solve_total",
    "PolyMPC.Sqp.solve_fuel"
   ],
   "note": ""
  },
  {
   "property": "C24",
   "status": "proved",
   "theorems": [
    "PolyMPC.Sqp.solved_spec"
   ],
   "note": "Step sizes assumed nonnegative; lineSearch_range shows this for the default line search with 0 < tau <= 1."
  },
  {
   "property": "C25",
   "status": "proved",
   "theorems": [
    "PolyMPC.Sqp.lineSearch_spec",
    "PolyMPC.Sqp.lineSearch_range"
   ],
   "note": ""
  },
  {
   "property": "C26",
   "status": "proved",
   "theorems": [
    "PolyMPC.Sqp.maxViolation_le_iff",
    "PolyMPC.Sqp.violation_spec"
   ],
   "note": "max violation <= tol additionally requires 0 <= tol because the code starts from 0."
  },
  {
   "property": "C27",
   "status": "proved",
   "theorems": [
    "PolyMPC.Sqp.iterates_in_box",
    "PolyMPC.Sqp.solve_in_box",
    "PolyMPC.Sqp.solve_in_box_ruiz"
   ],
   "note": ""
  },
  {
   "property": "C28",
   "status": "proved",
   "theorems": [
    "PolyMPC.Sqp.formQP_feasible_iff",
    "PolyMPC.Sqp.solve_forms_qp"
   ],
   "note": ""
  },
  {
   "property": "C29",
   "status": "proved",
   "theorems": [
    "PolyMPC.PolyMath.polyDiff_derivative",
    "PolyMPC.PolyMath.polyMul_eq",
    "PolyMPC.PolyMath.polyMul_undefined_iff",
    "PolyMPC.PolyMath.polyMul_monomial",
    "PolyMPC.PolyMath.polyMul_wrong"
   ],
   "note": "the product routine is wrong for general factors: polyMul_wrong"
  },
  {
   "property": "C30",
   "status": "proved",
   "theorems": [
    "PolyMPC.PolyMath.computeBasis_legendre",
    "PolyMPC.PolyMath.computeBasis_properties",
    "PolyMPC.PolyMath.computeBasis_order_zero"
   ],
   "note": "exact arithmetic; the zero threshold eps of the product routine is any number in (0,1]"
  },
  {
   "property": "C31",
   "status": "proved",
   "theorems": [
    "PolyMPC.Cheb.nodes_strictAnti",
    "PolyMPC.Cheb.nodes_ends",
    "PolyMPC.Cheb.nodes_rev",
    "PolyMPC.Cheb.nodes_range"
   ],
   "note": "real arithmetic"
  },
  {
   "property": "C32",
   "status": "proved",
   "theorems": [
    "PolyMPC.Cheb.diffMatrix_exact",
    "PolyMPC.Cheb.diffMatrix_unique",
    "PolyMPC.Cheb.diffMatrix_row_sum",
    "PolyMPC.Cheb.diffMatrix_rev"
   ],
   "note": "real arithmetic"
  },
  {
   "property": "C33",
   "status": "proved",
   "theorems": [
    "PolyMPC.Cheb.intWeights_exact",
    "PolyMPC.Cheb.integrate_exact",
    "PolyMPC.Cheb.intWeights_rev",
    "PolyMPC.Cheb.intWeights_pos",
    "PolyMPC.Cheb.intWeights_sum"
   ],
   "note": "real arithmetic"
  },
  {
   "property": "C34",
   "status": "proved",
   "theorems": [
    "PolyMPC.Lgl.Built.D_apply",
    "PolyMPC.Lgl.Built.D_constant",
    "PolyMPC.Lgl.Built.D_corrected",
    "PolyMPC.Lgl.Built.D_off",
    "PolyMPC.Lgl.exists_built"
   ],
   "note": "the matrix of the code is exact only in interior rows; root finder and sort of the standard library assumed correct"
  },
  {
   "property": "C35",
   "status": "proved",
   "theorems": [
    "PolyMPC.Splines.lagrangeBasis_defined",
    "PolyMPC.Splines.lagrangeEval_formula",
    "PolyMPC.Splines.lagrangeEval_node",
    "PolyMPC.Splines.lagrangeEval_reproduces",
    "PolyMPC.Splines.lagrangeBasis_single"
   ],
   "note": "at least two nodes; a single node is undefined"
  },
  {
   "property": "C36",
   "status": "proved",
   "theorems": [
    "PolyMPC.Splines.Cubic.eval_inside",
    "PolyMPC.Splines.Cubic.eval_left",
    "PolyMPC.Splines.Cubic.eval_right",
    "PolyMPC.Splines.Cubic.eval_defined_iff"
   ],
   "note": "the index one past the last is an out-of-range read"
  },
  {
   "property": "C37",
   "status": "proved",
   "theorems": [
    "PolyMPC.Ocp.time_grid",
    "PolyMPC.Ocp.time_junctions",
    "PolyMPC.Ocp.time_strictAnti",
    "PolyMPC.Ocp.time_history",
    "PolyMPC.Ocp.cheb_good"
   ],
   "note": "for every scheme with decreasing symmetric nodes from 1 to -1; Chebyshev is shown to be one"
  },
  {
   "property": "C38",
   "status": "proved",
   "theorems": [
    "PolyMPC.Ocp.node_layout",
    "PolyMPC.Ocp.residual",
    "PolyMPC.Ocp.cheb_residual_poly",
    "PolyMPC.Ocp.collocation_iff",
    "PolyMPC.Ocp.path_constraint"
   ],
   "note": ""
  },
  {
   "property": "C39",
   "status": "proved",
   "theorems": [
    "PolyMPC.Ocp.jacobian",
    "PolyMPC.Ocp.cheb_skew",
    "PolyMPC.Ocp.source_jacobian"
   ],
   "note": "callbacks are assumed to write all outputs and to carry exact node derivatives; source_jacobian discharges this for callbacks written as expressions"
  },
  {
   "property": "C40",
   "status": "proved",
   "theorems": [
    "PolyMPC.Ocp.sparse_dynamics_eq_dense",
    "PolyMPC.Ocp.sparse_eq_dense",
    "PolyMPC.Ocp.update_eq_fresh",
    "PolyMPC.Ocp.cheb_sparse_eq_dense"
   ],
   "note": "For every history of calls of the assembled sparse linearisation. Needs at least one state, segment and order; the differentiation matrix must have no off-diagonal zeros and skew-symmetric end rows, both proved for the Chebyshev scheme. The dropping of negligible entries is idealised to dropping exact zeros."
  },
  {
   "property": "C41",
   "status": "proved",
   "theorems": [
    "PolyMPC.Ocp.reserved_count",
    "PolyMPC.Ocp.reserved_exact"
   ],
   "note": "reserved_count states the count against a separate description of which rows depend on which variables."
  },
  {
   "property": "C42",
   "status": "proved",
   "theorems": [
    "PolyMPC.Ocp.cost_quadrature",
    "PolyMPC.Ocp.cost_no_running",
    "PolyMPC.Ocp.cost_exact_integral"
   ],
   "note": ""
  },
  {
   "property": "C43",
   "status": "proved",
   "theorems": [
    "PolyMPC.Ocp.cost_gradient",
    "PolyMPC.Ocp.cost_gradient_stale",
    "PolyMPC.Ocp.stale_gradient"
   ],
   "note": "right if the running cost is written; the negation is proved, with a witness, for the default running cost"
  },
  {
   "property": "C44",
   "status": "proved",
   "theorems": [
    "PolyMPC.Ocp.sparse_eq_dense",
    "PolyMPC.Ocp.ineq_update_uninitialised",
    "PolyMPC.Ocp.ineq_update_out_of_range",
    "PolyMPC.Ocp.reach_after_first"
   ],
   "note": "The desired equality holds for NG = 0, NG = NX and on first calls; for 0 < NG < NX a repeated call stores uninitialised memory, for NG > NX it leaves the temporary."
  },
  {
   "property": "C45",
   "status": "proved",
   "theorems": [
    "PolyMPC.Ocp.lagrangian_value",
    "PolyMPC.Ocp.lagrangian_gradient",
    "PolyMPC.Ocp.lagrangian_value_is_cost"
   ],
   "note": "the value returned by the gradient routine is only the cost; dense ContinuousOCP"
  },
  {
   "property": "C46",
   "status": "proved",
   "theorems": [
    "PolyMPC.Ocp.sparse_bfgs",
    "PolyMPC.Ocp.sparse_bfgs_zero_step"
   ],
   "note": "Positive part: equality with the pattern restriction of the dense update over all histories (ReachH). Negative part: no small-curvature skip, division by zero for a zero step."
  },
  {
   "property": "C47",
   "status": "proved",
   "theorems": [
    "PolyMPC.Mpc.step_does",
    "PolyMPC.Mpc.run_does",
    "PolyMPC.Mpc.initial_twice",
    "PolyMPC.Mpc.initial_kept",
    "PolyMPC.Mpc.final_then_state"
   ],
   "note": "refinement of an abstract controller indexed by nodes in increasing time, over all call sequences"
  },
  {
   "property": "C48",
   "status": "proved",
   "theorems": [
    "PolyMPC.Mpc.x_at",
    "PolyMPC.Mpc.u_at",
    "PolyMPC.Mpc.p_at",
    "PolyMPC.Mpc.warm_start",
    "PolyMPC.Mpc.grid_times",
    "PolyMPC.Mpc.initial_state"
   ],
   "note": ""
  },
  {
   "property": "C49",
   "status": "proved",
   "theorems": [
    "PolyMPC.Mpc.x_at_time",
    "PolyMPC.Mpc.u_at_time",
    "PolyMPC.Mpc.x_at_time_single",
    "PolyMPC.Mpc.x_at_node_time",
    "PolyMPC.Mpc.x_at_time_shifted"
   ],
   "note": "the negative part is x_at_time_shifted: for every reachable wrapper with several segments and nonzero start"
  },
  {
   "property": "C50",
   "status": "proved",
   "theorems": [
    "PolyMPC.Lqr.lineSearch_minimises",
    "PolyMPC.Lqr.lineSearch_maximises",
    "PolyMPC.Lqr.quartic_is_residual",
    "PolyMPC.Lqr.newtonStep_best",
    "PolyMPC.Lqr.newtonStep_decreases",
    "PolyMPC.Lqr.newton_result",
    "PolyMPC.Lqr.newtonStep_at_solution"
   ],
   "note": "exact arithmetic; the newton theorems assume that the Lyapunov equations met on the way have real eigenvalues no two of which sum to zero (see C52)"
  },
  {
   "property": "C51",
   "status": "proved",
   "theorems": [
    "PolyMPC.Lqr.care_at_most_one",
    "PolyMPC.Lqr.lqr_ignores_Q",
    "PolyMPC.Lqr.lqr_one_weight"
   ],
   "note": "the desired property is false; proved in negated form"
  },
  {
   "property": "C52",
   "status": "proved",
   "theorems": [
    "PolyMPC.Lqr.lyapunov_solves",
    "PolyMPC.Lqr.lyapunov_unique",
    "PolyMPC.Lqr.lyapunov_symm",
    "PolyMPC.Lqr.regular_iff",
    "PolyMPC.Lqr.lyapunov_residual",
    "PolyMPC.Lqr.lyapunov_solves_iff",
    "PolyMPC.Lqr.lyapunov_complex_never"
   ],
   "note": ""
  },
  {
   "property": "C53",
   "status": "proved",
   "theorems": [
    "PolyMPC.AD.ad_gradient",
    "PolyMPC.AD.ad_chain_rule",
    "PolyMPC.AD.ad_value",
    "PolyMPC.AD.min_max_plain",
    "PolyMPC.AD.gradient_unique"
   ],
   "note": "Floor is excluded because its derivative is wrong (C55). `Ok` lists the domain of each operation (Spec/AutoDiff.lean)."
  },
  {
   "property": "C54",
   "status": "proved",
   "theorems": [
    "PolyMPC.AD.ad2_hessian",
    "PolyMPC.AD.hessian_unique"
   ],
   "note": "pow is excluded: its nested instantiation has no overload in the source."
  },
  {
   "property": "C55",
   "status": "proved",
   "theorems": [
    "PolyMPC.AD.assignScalar_keeps",
    "PolyMPC.AD.assignScalar_not_gradient",
    "PolyMPC.AD.assign_lit_gradient",
    "PolyMPC.AD.addAssign_gradient",
    "PolyMPC.AD.floor_der",
    "PolyMPC.AD.floor_not_gradient",
    "PolyMPC.AD.kink_choices"
   ],
   "note": "The code violates the expected behaviour; the theorems prove what it does and that this is not the gradient."
  },
  {
   "property": "C56",
   "status": "proved",
   "theorems": [
    "PolyMPC.AD.rbf_ad_gradient",
    "PolyMPC.AD.rbf_ad_ignores_chain",
    "PolyMPC.AD.rbf_hessian",
    "PolyMPC.AD.rbf_ad2_not_hessian",
    "PolyMPC.AD.rbf_ad2_value_gradient"
   ],
   "note": "First derivative right, second derivative wrong at every point; the true Hessian is proved too."
  },
  {
   "property": "C57",
   "status": "proved",
   "theorems": [
    "PolyMPC.Util.rk4_affine",
    "PolyMPC.Util.rk4_linear",
    "PolyMPC.Util.rk4_zero",
    "PolyMPC.Util.rk4_equilibrium",
    "PolyMPC.Util.rk4_clock",
    "PolyMPC.Util.rk4_simpson",
    "PolyMPC.Util.rk4_coordinates",
    "PolyMPC.Util.rk4_conserved",
    "PolyMPC.Util.rk4_test_equation"
   ],
   "note": "exact arithmetic; rk4Solve_eq identifies rk4_symbolic with the same step"
  },
  {
   "property": "C58",
   "status": "proved",
   "theorems": [
    "PolyMPC.Util.quatMultiply_eq",
    "PolyMPC.Util.quatInverse_eq",
    "PolyMPC.Util.quatMultiply_assoc",
    "PolyMPC.Util.quatMultiply_norm",
    "PolyMPC.Util.quatInverse_iff",
    "PolyMPC.Util.quatTransform_eq",
    "PolyMPC.Util.quatTransform_comp",
    "PolyMPC.Util.quatTransform_dot",
    "PolyMPC.Util.quatTransform_rotation_iff",
    "PolyMPC.Util.quatTransform_undo",
    "PolyMPC.Util.quatTransform_inj",
    "PolyMPC.Util.Tquat_transform",
    "PolyMPC.Util.Tquat_add"
   ],
   "note": ""
  },
  {
   "property": "C59",
   "status": "proved",
   "theorems": [
    "PolyMPC.Ipopt.dense_jacobian",
    "PolyMPC.Ipopt.dense_hessian",
    "PolyMPC.Ipopt.sparse_hessian",
    "PolyMPC.Ipopt.sparse_jacobian_structure",
    "PolyMPC.Ipopt.sparse_jacobian_unwritten",
    "PolyMPC.Ipopt.sparse_jacobian_wrong"
   ],
   "note": "the alignment of sparse Jacobian values is false of the code; proved as a negative result"
  },
  {
   "property": "C60",
   "status": "proved",
   "theorems": [
    "PolyMPC.Util.cheb_inside_iff",
    "PolyMPC.Util.cheb_ends_iff",
    "PolyMPC.Util.cheb_shift",
    "PolyMPC.Util.cheb_differentiates"
   ],
   "note": "the desired property is false for other intervals; proved as an equivalence"
  },
  {
   "property": "C61",
   "status": "proved",
   "theorems": [
    "PolyMPC.BoxAdmm.same_iterates_as_admm"
   ],
   "note": ""
  },
  {
   "property": "C62",
   "status": "proved",
   "theorems": [
    "PolyMPC.BoxAdmm.iterates_converge_to_kkt",
    "PolyMPC.BoxAdmm.eventually_solved"
   ],
   "note": ""
  },
  {
   "property": "C63",
   "status": "proved",
   "theorems": [
    "PolyMPC.Admm.solve_history_independent",
    "PolyMPC.Admm.solve_twice"
   ],
   "note": "ADMM, dense"
  },
  {
   "property": "C64",
   "status": "proved",
   "theorems": [
    "PolyMPC.Ruiz.single_sweep"
   ],
   "note": ""
  },
  {
   "property": "C65",
   "status": "proved",
   "theorems": [
    "PolyMPC.Ruiz.dense_compute_restores",
    "PolyMPC.Ruiz.sparse_compute_undefined"
   ],
   "note": "Holds for dense data; for sparse data the negation is proved on all feasibility problems."
  },
  {
   "property": "C66",
   "status": "proved",
   "theorems": [
    "PolyMPC.Sqp.zero_step_optimal_iff",
    "PolyMPC.Sqp.step_zero_iff",
    "PolyMPC.Sqp.stationary_point_kept",
    "PolyMPC.Sqp.identity_lawful",
    "PolyMPC.Sqp.ruiz_lawful"
   ],
   "note": ""
  },
  {
   "property": "C67",
   "status": "proved",
   "theorems": [
    "PolyMPC.Sqp.slope_le",
    "PolyMPC.Sqp.accepted_step_decreases_merit"
   ],
   "note": ""
  },
  {
   "property": "C68",
   "status": "proved",
   "theorems": [
    "PolyMPC.Sqp.small_steps_accepted",
    "PolyMPC.Sqp.lineSearch_succeeds"
   ],
   "note": "Exact real arithmetic."
  },
  {
   "property": "C69",
   "status": "proved",
   "theorems": [
    "PolyMPC.Sqp.every_qp_strictly_convex",
    "PolyMPC.Sqp.solve_defined"
   ],
   "note": ""
  },
  {
   "property": "C70",
   "status": "proved",
   "theorems": [
    "PolyMPC.Sqp.solve_history_independent",
    "PolyMPC.Sqp.default_historyFree"
   ],
   "note": ""
  },
  {
   "property": "C71",
   "status": "proved",
   "theorems": [
    "PolyMPC.Sqp.zero_step_exhausts",
    "PolyMPC.Sqp.solved_with_wrong_multiplier"
   ],
   "note": "Negative result with witness."
  },
  {
   "property": "C72",
   "status": "proved",
   "theorems": [
    "PolyMPC.Sqp.solved_near_stationary"
   ],
   "note": ""
  },
  {
   "property": "C73",
   "status": "proved",
   "theorems": [
    "PolyMPC.Cheb.projection_reproduces",
    "PolyMPC.Cheb.projection_top_doubled"
   ],
   "note": "real arithmetic"
  },
  {
   "property": "C74",
   "status": "proved",
   "theorems": [
    "PolyMPC.Lgl.Built.weights_exact",
    "PolyMPC.Lgl.Built.integrate_exact",
    "PolyMPC.Lgl.Built.weights_pos",
    "PolyMPC.Lgl.Built.weights_sum",
    "PolyMPC.Lgl.Built.weights_sharp"
   ],
   "note": "real arithmetic; root finder assumed correct"
  },
  {
   "property": "C75",
   "status": "proved",
   "theorems": [
    "PolyMPC.Lgl.Built.projection_reproduces",
    "PolyMPC.Lgl.Built.inner"
   ],
   "note": "real arithmetic; root finder assumed correct"
  },
  {
   "property": "C76",
   "status": "proved",
   "theorems": [
    "PolyMPC.Lgl.computeNodes_lgl",
    "PolyMPC.Lgl.exists_built",
    "PolyMPC.Lgl.Built.nodes",
    "PolyMPC.Lgl.lnDot_eq"
   ],
   "note": "root finder assumed to return all roots of a polynomial with only real roots"
  },
  {
   "property": "C77",
   "status": "proved",
   "theorems": [
    "PolyMPC.Ocp.cost_hessian_assert",
    "PolyMPC.Ocp.cost_hessian",
    "PolyMPC.Ocp.cost_hessian_iff",
    "PolyMPC.Ocp.param_hessian_wrong"
   ],
   "note": ""
  },
  {
   "property": "C78",
   "status": "proved",
   "theorems": [
    "PolyMPC.Ocp.lagrangian_hessian"
   ],
   "note": "second-order callbacks as in C54; cost scaling one"
  },
  {
   "property": "C79",
   "status": "proved",
   "theorems": [
    "PolyMPC.Ocp.sparse_cost_eq_dense",
    "PolyMPC.Ocp.sparse_cost_eq_dense_noparam",
    "PolyMPC.Ocp.sparse_cost_hessian"
   ],
   "note": "Callbacks are assumed to write their running cost (Writes); C43 covers the other case for first derivatives."
  },
  {
   "property": "C80",
   "status": "proved",
   "theorems": [
    "PolyMPC.Ocp.first_cost_hessian_iff",
    "PolyMPC.Ocp.first_cost_asserts",
    "PolyMPC.Ocp.first_cost_not_symmetric"
   ],
   "note": "The property as a user would want it (the first call returns the Hessian) is false; the exact condition and its consequences are proved."
  },
  {
   "property": "C81",
   "status": "proved",
   "theorems": [
    "PolyMPC.Ocp.sparse_lagrangian_gradient"
   ],
   "note": "The value returned is the cost, as in the dense version (C45)."
  },
  {
   "property": "C82",
   "status": "proved",
   "theorems": [
    "PolyMPC.Ocp.sparse_lagrangian_eq_dense",
    "PolyMPC.Ocp.sparse_lagrangian_hessian"
   ],
   "note": ""
  },
  {
   "property": "C83",
   "status": "proved",
   "theorems": [
    "PolyMPC.Ocp.sparse_bfgs_spd",
    "PolyMPC.Ocp.sparse_bfgs_indefinite"
   ],
   "note": "Positive for NP = 0, negative by witness for NP = 1."
  },
  {
   "property": "C84",
   "status": "proved",
   "theorems": [
    "PolyMPC.Mpc.u_at_beyond",
    "PolyMPC.Mpc.x_at_minus_one",
    "PolyMPC.Mpc.x_at_beyond"
   ],
   "note": "the desired property is false; proved is what happens"
  },
  {
   "property": "C85",
   "status": "proved",
   "theorems": [
    "PolyMPC.Mpc.stale_grid"
   ],
   "note": "the desired property is false; proved in negated form for every reachable wrapper with a horizon from zero"
  },
  {
   "property": "C86",
   "status": "proved",
   "theorems": [
    "PolyMPC.Lqr.pinv_moorePenrose",
    "PolyMPC.Lqr.pinv_inverse",
    "PolyMPC.Lqr.pinv_not_square"
   ],
   "note": ""
  },
  {
   "property": "C87",
   "status": "proved",
   "theorems": [
    "PolyMPC.Lqr.gain_optimal",
    "PolyMPC.Lqr.lqrPolymath_optimal",
    "PolyMPC.Lqr.gain_documented_cost",
    "PolyMPC.Lqr.gain_cross_iff",
    "PolyMPC.Lqr.gain_cross_scalar",
    "PolyMPC.Lqr.lqrPolymath_check",
    "PolyMPC.Lqr.completesSquare_iff"
   ],
   "note": ""
  },
  {
   "property": "C88",
   "status": "proved",
   "theorems": [
    "PolyMPC.Lqr.initRaw_decay",
    "PolyMPC.Lqr.decay_spectrum",
    "PolyMPC.Lqr.initSym_identity",
    "PolyMPC.Lqr.initSym_certificate",
    "PolyMPC.Lqr.shift_right"
   ],
   "note": "positive definiteness of W is a hypothesis of decay_spectrum"
  },
  {
   "property": "C89",
   "status": "proved",
   "theorems": [
    "PolyMPC.Lqr.controllable_iff"
   ],
   "note": ""
  },
  {
   "property": "C90",
   "status": "proved",
   "theorems": [
    "PolyMPC.Util.rk4_order"
   ],
   "note": "local error only; smoothness is analyticity"
  },
  {
   "property": "C91",
   "status": "proved",
   "theorems": [
    "PolyMPC.Util.solve_state_iff",
    "PolyMPC.Util.switch_to_cvodes",
    "PolyMPC.Util.switch_last",
    "PolyMPC.Util.default_method"
   ],
   "note": "CVODES is an arbitrary partial function"
  },
  {
   "property": "C92",
   "status": "proved",
   "theorems": [
    "PolyMPC.Util.chebyshevExpansion_eq",
    "PolyMPC.Util.chebyshevExpansion2_eq",
    "PolyMPC.Util.chebyshevExpansion2_outside"
   ],
   "note": ""
  },
  {
   "property": "C93",
   "status": "proved",
   "theorems": [
    "PolyMPC.Util.factorial_eq",
    "PolyMPC.Util.factorial_exact_iff",
    "PolyMPC.Util.factorial_zero"
   ],
   "note": ""
  },
  {
   "property": "C94",
   "status": "proved",
   "theorems": [
    "PolyMPC.Util.range_positive",
    "PolyMPC.Util.range_nonpositive"
   ],
   "note": "exact arithmetic"
  },
  {
   "property": "C95",
   "status": "proved",
   "theorems": [
    "PolyMPC.Util.lagrangePoly_eq",
    "PolyMPC.Util.init_eval",
    "PolyMPC.Util.updateBasis_stale",
    "PolyMPC.Util.evalDM_after_update",
    "PolyMPC.Util.evalEigen_after_update"
   ],
   "note": ""
  },
  {
   "property": "C96",
   "status": "proved",
   "theorems": [
    "PolyMPC.Util.heaviside_shape",
    "PolyMPC.Util.spheric2cart_norm",
    "PolyMPC.Util.spheric2cart_surjective"
   ],
   "note": ""
  },
  {
   "property": "C97",
   "status": "proved",
   "theorems": [
    "PolyMPC.Ipopt.ocp_hessian_count",
    "PolyMPC.Ipopt.ocp_hessian",
    "PolyMPC.Ipopt.ocp_jacobian_count"
   ],
   "note": ""
  },
  {
   "property": "C98",
   "status": "proved",
   "theorems": [
    "PolyMPC.Ipopt.bounds_feasible",
    "PolyMPC.Ipopt.default_bounds"
   ],
   "note": ""
  },
  {
   "property": "C99",
   "status": "proved",
   "theorems": [
    "PolyMPC.Ipopt.starting_point",
    "PolyMPC.Ipopt.starting_point_flags",
    "PolyMPC.Ipopt.guess_start"
   ],
   "note": ""
  },
  {
   "property": "C100",
   "status": "proved",
   "theorems": [
    "PolyMPC.Ipopt.hessian_out_of_bounds",
    "PolyMPC.Ipopt.finalize_out_of_bounds",
    "PolyMPC.Ipopt.hessian_at_multipliers",
    "PolyMPC.Ipopt.jacobian_at_point"
   ],
   "note": "negative for the arrays Ipopt passes; hessian_at_multipliers needs a longer array than Ipopt passes"
  },
  {
   "property": "C101",
   "status": "proved",
   "theorems": [
    "PolyMPC.Nlp.costGradient_correct"
   ],
   "note": "exact arithmetic; callbacks without assignments of plain numbers"
  },
  {
   "property": "C102",
   "status": "proved",
   "theorems": [
    "PolyMPC.Nlp.costGradientHessian_correct",
    "PolyMPC.Nlp.costGradientHessian_accumulates",
    "PolyMPC.Nlp.costGradientHessian_twice"
   ],
   "note": "callbacks without pow; false for accumulating callbacks, proved as a negative result"
  },
  {
   "property": "C103",
   "status": "proved",
   "theorems": [
    "PolyMPC.Nlp.constraintsLin_correct",
    "PolyMPC.Nlp.constraintsLin_outside",
    "PolyMPC.Nlp.equalitiesLin_accumulates",
    "PolyMPC.Nlp.inequalitiesLin_accumulates"
   ],
   "note": "false for accumulating callbacks, proved as a negative result"
  },
  {
   "property": "C104",
   "status": "proved",
   "theorems": [
    "PolyMPC.Nlp.constant_constraint_row",
    "PolyMPC.Nlp.constant_cost_gradient",
    "PolyMPC.Nlp.constant_cost_hessian"
   ],
   "note": "negative result"
  },
  {
   "property": "C105",
   "status": "proved",
   "theorems": [
    "PolyMPC.Nlp.lagrangian_correct",
    "PolyMPC.Nlp.lagrangianGradient_correct"
   ],
   "note": ""
  },
  {
   "property": "C106",
   "status": "proved",
   "theorems": [
    "PolyMPC.Nlp.lagrangianGradientHessian_correct",
    "PolyMPC.Nlp.lagrangianGradientHessian_mismatch"
   ],
   "note": ""
  },
  {
   "property": "C107",
   "status": "proved",
   "theorems": [
    "PolyMPC.AdmmSparse.sparse_eq_dense",
    "PolyMPC.AdmmSparse.sparse_last_call",
    "PolyMPC.AdmmSparse.sparse_solved_residuals",
    "PolyMPC.AdmmSparse.sparse_eventually_solved"
   ],
   "note": "exact arithmetic; Eigen's uncompressed storage as in Model/Sparse"
  },
  {
   "property": "C108",
   "status": "proved",
   "theorems": [
    "PolyMPC.AdmmSparse.reuse_missing_diagonal"
   ],
   "note": "negative result"
  },
  {
   "property": "C109",
   "status": "proved",
   "theorems": [
    "PolyMPC.AdmmSparse.reuse_both_stale",
    "PolyMPC.AdmmSparse.reuse_both_asserts"
   ],
   "note": "negative result"
  },
  {
   "property": "C110",
   "status": "proved",
   "theorems": [
    "PolyMPC.AdmmSparse.box_sparse_eq_dense",
    "PolyMPC.AdmmSparse.box_sparse_last"
   ],
   "note": "exact arithmetic; Eigen's uncompressed storage as in Model/Sparse"
  },
  {
   "property": "C111",
   "status": "proved",
   "theorems": [
    "PolyMPC.AdmmSparse.box_reuse_missing_diagonal"
   ],
   "note": "negative result"
  },
  {
   "property": "C112",
   "status": "proved",
   "theorems": [
    "PolyMPC.AdmmSparse.box_reuse_both_stale",
    "PolyMPC.AdmmSparse.box_reuse_both_asserts"
   ],
   "note": "negative result"
  },
  {
   "property": "C113",
   "status": "proved",
   "theorems": [
    "PolyMPC.Osqp.osqp_problem",
    "PolyMPC.Osqp.osqp_solved_kkt"
   ],
   "note": "exact arithmetic; OSQP is a parameter, OsqpEigen's data and workspace handling is modelled"
  },
  {
   "property": "C114",
   "status": "proved",
   "theorems": [
    "PolyMPC.Osqp.osqp_res_prim",
    "PolyMPC.Osqp.osqp_res_dual"
   ],
   "note": "negative result; DualResidual is the meaning of OSQP's dua_res"
  },
  {
   "property": "C115",
   "status": "proved",
   "theorems": [
    "PolyMPC.Osqp.osqp_second_cold",
    "PolyMPC.Osqp.osqp_settings_ignored",
    "PolyMPC.Osqp.osqp_first_warm"
   ],
   "note": "negative result; relies on the modelled behaviour of OsqpEigen (see DESIGN.md)"
  },
  {
   "property": "C116",
   "status": "proved",
   "theorems": [
    "PolyMPC.Qpmad.qpmad_duals",
    "PolyMPC.Qpmad.qpmad_stale_status",
    "PolyMPC.Qpmad.qpmad_kkt_both"
   ],
   "note": "negative result"
  },
  {
   "property": "C117",
   "status": "proved",
   "theorems": [
    "PolyMPC.Qpmad.sqp_qpmad_line",
    "PolyMPC.Qpmad.sqp_qpmad_zero",
    "PolyMPC.Qpmad.lineSearch_blind"
   ],
   "note": "negative result; default (identity) preconditioner"
  },
  {
   "property": "C118",
   "status": "proved",
   "theorems": [
    "PolyMPC.CasCheb.scheme_template",
    "PolyMPC.CasCheb.node_layout",
    "PolyMPC.CasCheb.dynamics_template",
    "PolyMPC.CasCheb.dynamics_iff"
   ],
   "note": "exact arithmetic; CasADi expressions are identified with their values"
  },
  {
   "property": "C119",
   "status": "proved",
   "theorems": [
    "PolyMPC.CasCheb.cost_template",
    "PolyMPC.CasCheb.cost_integral"
   ],
   "note": "exact arithmetic"
  },
  {
   "property": "C120",
   "status": "proved",
   "theorems": [
    "PolyMPC.CasCheb.idCost_ignores_data"
   ],
   "note": "negative result"
  },
  {
   "property": "C121",
   "status": "proved",
   "theorems": [
    "PolyMPC.CasCheb.dynamics2_ignores_argument"
   ],
   "note": "negative result"
  },
  {
   "property": "C122",
   "status": "proved",
   "theorems": [
    "PolyMPC.CasCheb.function_layout",
    "PolyMPC.CasCheb.differentiate_global",
    "PolyMPC.CasCheb.differentiate_piecewise"
   ],
   "note": "partly negative: time scale and junctions"
  },
  {
   "property": "C123",
   "status": "proved",
   "theorems": [
    "PolyMPC.CasCheb.ocp_modes",
    "PolyMPC.CasCheb.cas_modes"
   ],
   "note": "negative result"
  },
  {
   "property": "C124",
   "status": "proved",
   "theorems": [
    "PolyMPC.CasCheb.soft_zero_iff"
   ],
   "note": "exact arithmetic"
  },
  {
   "property": "C125",
   "status": "proved",
   "theorems": [
    "PolyMPC.CasCheb.MS.node_layout",
    "PolyMPC.CasCheb.MS.dynamics_iff",
    "PolyMPC.CasCheb.MS.cost_integral",
    "PolyMPC.CasCheb.MS.modes_constant"
   ],
   "note": "the last theorem is a negative result"
  },
  {
   "property": "C126",
   "status": "proved",
   "theorems": [
    "PolyMPC.CasCheb.MS.parameter_range",
    "PolyMPC.CasCheb.MS.function_layout",
    "PolyMPC.CasCheb.MS.differentiate_ignores_function"
   ],
   "note": "negative result; whether a function depends on the state is a parameter (casadi depends_on)"
  },
  {
   "property": "C127",
   "status": "proved",
   "theorems": [
    "PolyMPC.GenOcp.program_meaning"
   ],
   "note": "exact arithmetic; expressions are identified with their values; partly negative (final constraints)"
  },
  {
   "property": "C128",
   "status": "proved",
   "theorems": [
    "PolyMPC.GenOcp.scaling",
    "PolyMPC.GenOcp.scaling_cheb",
    "PolyMPC.GenOcp.scaling_ms",
    "PolyMPC.GenOcp.param_scaling_changes",
    "PolyMPC.GenOcp.box_scaled",
    "PolyMPC.GenOcp.getters_unscale"
   ],
   "note": "param_scaling_changes is a negative result"
  },
  {
   "property": "C129",
   "status": "proved",
   "theorems": [
    "PolyMPC.GenOcp.slacks_do_not_relax"
   ],
   "note": "negative result"
  },
  {
   "property": "C130",
   "status": "proved",
   "theorems": [
    "PolyMPC.GenOcp.diffs_dropped",
    "PolyMPC.GenOcp.diff_bounds"
   ],
   "note": "negative result"
  },
  {
   "property": "C131",
   "status": "proved",
   "theorems": [
    "PolyMPC.GenOcp.norm_diff_cost",
    "PolyMPC.GenOcp.norm_diff_constant",
    "PolyMPC.GenOcp.norm_diff_weight",
    "PolyMPC.GenOcp.norm_diff_dropped"
   ],
   "note": "negative result"
  },
  {
   "property": "C132",
   "status": "proved",
   "theorems": [
    "PolyMPC.GenOcp.constraints_need_parameters",
    "PolyMPC.GenOcp.scale_p_needs_nu",
    "PolyMPC.GenOcp.penalty_option"
   ],
   "note": "negative result"
  },
  {
   "property": "C133",
   "status": "proved",
   "theorems": [
    "PolyMPC.GenOcp.soft_core",
    "PolyMPC.GenOcp.soft_program",
    "PolyMPC.GenOcp.soft_scaled"
   ],
   "note": "soft_scaled is a negative result"
  },
  {
   "property": "C134",
   "status": "proved",
   "theorems": [
    "PolyMPC.GenOcp.solve_initial",
    "PolyMPC.GenOcp.initial_node",
    "PolyMPC.GenOcp.solves_frame",
    "PolyMPC.GenOcp.guess_not_solution",
    "PolyMPC.GenOcp.given_once"
   ],
   "note": "the solver is an arbitrary function; guess_not_solution is a negative result"
  },
  {
   "property": "C135",
   "status": "proved",
   "theorems": [
    "PolyMPC.GenOcp.named_parameter",
    "PolyMPC.GenOcp.unknown_name",
    "PolyMPC.GenOcp.ms_param_box",
    "PolyMPC.GenOcp.slacks_range"
   ],
   "note": "the last two are partly negative"
  },
  {
   "property": "C136",
   "status": "proved",
   "theorems": [
    "PolyMPC.Nmpc.needs_square_output"
   ],
   "note": "negative result"
  },
  {
   "property": "C137",
   "status": "proved",
   "theorems": [
    "PolyMPC.Nmpc.weight_columns",
    "PolyMPC.Nmpc.weight_unbounded",
    "PolyMPC.Nmpc.weight_default"
   ],
   "note": "negative result for weights that are not diagonal"
  },
  {
   "property": "C138",
   "status": "proved",
   "theorems": [
    "PolyMPC.Nmpc.program_meaning"
   ],
   "note": "exact arithmetic; expressions are identified with their values"
  },
  {
   "property": "C139",
   "status": "proved",
   "theorems": [
    "PolyMPC.Nmpc.ivp_well_posed"
   ],
   "note": ""
  },
  {
   "property": "C140",
   "status": "proved",
   "theorems": [
    "PolyMPC.Nmpc.scaled_meaning",
    "PolyMPC.Nmpc.Scaled.every_point",
    "PolyMPC.Nmpc.control_weight_scaled"
   ],
   "note": "the last one is a negative result"
  },
  {
   "property": "C141",
   "status": "proved",
   "theorems": [
    "PolyMPC.Nmpc.solve_box",
    "PolyMPC.Nmpc.initial_state",
    "PolyMPC.Nmpc.scaled_bounds",
    "PolyMPC.Nmpc.scaled_bounds_scalar"
   ],
   "note": "the solver is an arbitrary function"
  },
  {
   "property": "C142",
   "status": "proved",
   "theorems": [
    "PolyMPC.Nmpc.warm_sequence",
    "PolyMPC.Nmpc.first_solve",
    "PolyMPC.Nmpc.restart_stale",
    "PolyMPC.Nmpc.warm_first"
   ],
   "note": "the last two are negative results"
  },
  {
   "property": "C143",
   "status": "proved",
   "theorems": [
    "PolyMPC.Nmpc.late_scaling"
   ],
   "note": "negative result"
  },
  {
   "property": "C144",
   "status": "proved",
   "theorems": [
    "PolyMPC.Nmpc.path_error_initial"
   ],
   "note": "negative result"
  },
  {
   "property": "C145",
   "status": "proved",
   "theorems": [
    "PolyMPC.Nmpf.program_meaning"
   ],
   "note": "exact arithmetic; expressions are identified with their values"
  },
  {
   "property": "C146",
   "status": "proved",
   "theorems": [
    "PolyMPC.Nmpf.motion_free",
    "PolyMPC.Nmpf.first_velocity"
   ],
   "note": "unscaled controller; scaled ones by C148"
  },
  {
   "property": "C147",
   "status": "proved",
   "theorems": [
    "PolyMPC.Nmpf.modes_vanish",
    "PolyMPC.Nmpf.solve_infeasible"
   ],
   "note": "negative result"
  },
  {
   "property": "C148",
   "status": "proved",
   "theorems": [
    "PolyMPC.Nmpf.scaling_invariant"
   ],
   "note": "beside it a counterexample for matrices that mix states and path variables"
  },
  {
   "property": "C149",
   "status": "proved",
   "theorems": [
    "PolyMPC.Nmpf.solve_box",
    "PolyMPC.Nmpf.plan"
   ],
   "note": "the solver is an arbitrary function"
  },
  {
   "property": "C150",
   "status": "proved",
   "theorems": [
    "PolyMPC.Nmpf.turn_range",
    "PolyMPC.Nmpf.guess_follows",
    "PolyMPC.Nmpf.reset_harmless",
    "PolyMPC.Nmpf.early_warm",
    "PolyMPC.Nmpf.reset_open_path",
    "PolyMPC.Nmpf.reset_open_path_default",
    "PolyMPC.Nmpf.disabled_once"
   ],
   "note": "reset_open_path and reset_open_path_default are negative results"
  },
  {
   "property": "C151",
   "status": "proved",
   "theorems": [
    "PolyMPC.Nmpf.path_error",
    "PolyMPC.Nmpf.velocity_error",
    "PolyMPC.Nmpf.virt_state",
    "PolyMPC.Nmpf.cost_blind",
    "PolyMPC.Nmpf.cost_previous"
   ],
   "note": "the last three are negative results"
  },
  {
   "property": "C152",
   "status": "proved",
   "theorems": [
    "PolyMPC.Nmpf.construct_iff",
    "PolyMPC.Nmpf.params",
    "PolyMPC.Nmpf.late_velocity"
   ],
   "note": "the last one is a negative result"
  },
  {
   "property": "C153",
   "status": "proved",
   "theorems": [
    "PolyMPC.Nmpf.closest_affine",
    "PolyMPC.Nmpf.closest_throws",
    "PolyMPC.Nmpf.closest_stationary",
    "PolyMPC.Nmpf.closest_nan",
    "PolyMPC.Nmpf.closest_far"
   ],
   "note": "the last four are negative results; exact arithmetic"
  },
  {
   "property": "C154",
   "status": "proved",
   "theorems": [
    "PolyMPC.PsOde.solve_meaning",
    "PolyMPC.PsOde.trajectory_meaning"
   ],
   "note": "exact arithmetic; the solver is an arbitrary function"
  },
  {
   "property": "C155",
   "status": "proved",
   "theorems": [
    "PolyMPC.PsOde.feasible_optimal",
    "PolyMPC.PsOde.ivp_unique",
    "PolyMPC.PsOde.solve_exact"
   ],
   "note": "exact arithmetic"
  },
  {
   "property": "C156",
   "status": "proved",
   "theorems": [
    "PolyMPC.PsOde.history_free"
   ],
   "note": "the solver is a function of its arguments"
  },
  {
   "property": "C157",
   "status": "proved",
   "theorems": [
    "PolyMPC.PsOde.construct_off",
    "PolyMPC.PsOde.scaled_no_parameters",
    "PolyMPC.PsOde.scaled_needs_scalar",
    "PolyMPC.PsOde.scaled_full_throws",
    "PolyMPC.PsOde.scaled_answer",
    "PolyMPC.PsOde.scaled_multiple",
    "PolyMPC.PsOde.scaled_wrong",
    "PolyMPC.PsOde.scaled_trajectory"
   ],
   "note": "mostly negative results; scaling matrices come with their inverse"
  },
  {
   "property": "C158",
   "status": "proved",
   "theorems": [
    "PolyMPC.PsOde.bool_is_parameter",
    "PolyMPC.PsOde.missing_parameters",
    "PolyMPC.PsOde.wrong_control"
   ],
   "note": "negative results"
  },
  {
   "property": "C159",
   "status": "proved",
   "theorems": [
    "PolyMPC.Psarc.ends_of_path",
    "PolyMPC.Psarc.first_program"
   ],
   "note": "exact arithmetic; partly a negative result"
  },
  {
   "property": "C160",
   "status": "proved",
   "theorems": [
    "PolyMPC.Psarc.ends_at_root",
    "PolyMPC.Psarc.shift_ends",
    "PolyMPC.Psarc.never_ends"
   ],
   "note": "exact arithmetic; corrector and linear solver are arbitrary functions with the properties named; partly a negative result"
  },
  {
   "property": "C161",
   "status": "proved",
   "theorems": [
    "PolyMPC.Psarc.step_tangent",
    "PolyMPC.Psarc.rescaled_not_tangent"
   ],
   "note": "the Jacobian is assumed to be the derivative of the system"
  },
  {
   "property": "C162",
   "status": "proved",
   "theorems": [
    "PolyMPC.Psarc.is_psd_symm",
    "PolyMPC.Psarc.is_psd_dynamic",
    "PolyMPC.Psarc.is_psd_nonsymm"
   ],
   "note": "the eigenvalue solver is assumed to return the roots of the characteristic polynomial; partly negative results"
  },
  {
   "property": "C163",
   "status": "proved",
   "theorems": [
    "PolyMPC.Sqp.IsQP.solved",
    "PolyMPC.Sqp.IsQP.minimises",
    "PolyMPC.Sqp.IsQP.kkt_iff"
   ],
   "note": "exact arithmetic; default Hessian update and line search; QP solver assumed exact"
  },
  {
   "property": "C164",
   "status": "proved",
   "theorems": [
    "PolyMPC.MpcSqp.solved_trajectory",
    "PolyMPC.MpcSqp.solved_initial",
    "PolyMPC.MpcSqp.point_getters"
   ],
   "note": "Chebyshev scheme, dense transcription; callbacks must write all their outputs"
  },
  {
   "property": "C165",
   "status": "proved",
   "theorems": [
    "PolyMPC.MpcSqp.linQuad_isQP",
    "PolyMPC.MpcSqp.linQuad_solved",
    "PolyMPC.MpcSqp.problem_any",
    "PolyMPC.MpcSqp.problem_hessian"
   ],
   "note": "exact arithmetic, dense transcription; callbacks exact in the sense of C39-C45"
  },
  {
   "property": "C166",
   "status": "proved",
   "theorems": [
    "PolyMPC.Spec.QP.exists_kkt_iff",
    "PolyMPC.Admm.feasible_converges",
    "PolyMPC.Admm.feasible_eventually_solved",
    "PolyMPC.BoxAdmm.feasible_converges",
    "PolyMPC.BoxAdmm.feasible_eventually_solved",
    "PolyMPC.AdmmSparse.sparse_feasible_eventually_solved",
    "PolyMPC.Sqp.subproblem_solvable_iff",
    "PolyMPC.Sqp.IsQP.exists_stationary_iff",
    "PolyMPC.Sqp.IsQP.feasible_solved"
   ],
   "note": "exact linear solves; fixed step size for the statements about SOLVED; boxADMM with alpha = 1"
  },
  {
   "property": "C167",
   "status": "proved",
   "theorems": [
    "PolyMPC.Admm.infeasible_not_solved",
    "PolyMPC.AdmmSparse.sparse_infeasible_not_solved",
    "PolyMPC.BoxAdmm.infeasible_not_solved",
    "PolyMPC.Admm.solved_iff_feasible",
    "PolyMPC.BoxAdmm.solved_iff_feasible"
   ],
   "note": "any linear solver and settings for the first three; the equivalences assume exact linear solves and a fixed step size"
  },
  {
   "property": "C168",
   "status": "proved",
   "theorems": [
    "PolyMPC.Admm.crossed_bounds",
    "PolyMPC.BoxAdmm.crossed_bounds",
    "PolyMPC.Admm.solved_iff_feasible",
    "PolyMPC.BoxAdmm.solved_iff_feasible"
   ],
   "note": "the expected property, that crossed bounds are reported, is false of the code; the theorems say what happens instead"
  },
  {
   "property": "C169",
   "status": "proved",
   "theorems": [
    "PolyMPC.MpcSqp.lagGrad_eq",
    "PolyMPC.MpcSqp.start_finish",
    "PolyMPC.Sqp.restart",
    "PolyMPC.MpcSqp.solved_wrapper_kept",
    "PolyMPC.MpcSqp.linQuad_again"
   ],
   "note": "exact QP solver; exact derivatives of the callbacks; uniqueness of the multipliers is needed because the QP solver may return any"
  },
  {
   "property": "C170",
   "status": "proved",
   "theorems": [
    "PolyMPC.Storage.select_fixed_iff",
    "PolyMPC.Storage.select_accepted",
    "PolyMPC.Storage.select_initial_iff",
    "PolyMPC.Storage.admm_compiles_iff",
    "PolyMPC.Storage.admm_fails",
    "PolyMPC.Storage.admm_usable_iff",
    "PolyMPC.Storage.box_compiles_iff",
    "PolyMPC.Storage.box_fails",
    "PolyMPC.Storage.box_usable_iff"
   ],
   "note": "sizes only; false as documented: problems above the limit compile and fail"
  },
  {
   "property": "C171",
   "status": "proved",
   "theorems": [
    "PolyMPC.Storage.sqp_compiles_iff",
    "PolyMPC.Storage.sqp_fails",
    "PolyMPC.Storage.sqp_usable_iff",
    "PolyMPC.Storage.sqp_dense_limit"
   ],
   "note": "at least one state, one segment and order one; sizes only; false as documented: dense problems with 128 or more double variables compile and fail"
  },
  {
   "property": "C172",
   "status": "proved",
   "theorems": [
    "PolyMPC.StorageAd.nlp_accepted_necessary",
    "PolyMPC.StorageAd.nlp_accepted_iff",
    "PolyMPC.StorageAd.nlp_dense_limit",
    "PolyMPC.StorageAd.ocp_accepted_necessary",
    "PolyMPC.StorageAd.ocp_accepted_iff"
   ],
   "note": "layouts: any assignment of sizes in which an aggregate is at least as large as its parts"
  },
  {
   "property": "C173",
   "status": "proved",
   "theorems": [
    "PolyMPC.Sqp.exact_quadratic",
    "PolyMPC.Sqp.solveWith_default",
    "PolyMPC.Sqp.solveWith_iterate",
    "PolyMPC.Sqp.fullSteps_of_setting"
   ],
   "note": "over the real numbers; exact QP solutions; the regularisation leaves matrices near the Hessian at the solution unchanged (true of the default)"
  },
  {
   "property": "C174",
   "status": "proved",
   "theorems": [
    "PolyMPC.Sqp.inexact_linear"
   ],
   "note": "over the real numbers; exact QP solutions; the default damped BFGS update is not shown to stay near the Hessian at the solution"
  },
  {
   "property": "C175",
   "status": "proved",
   "theorems": [
    "PolyMPC.Sqp.line_search_shortens",
    "PolyMPC.Sqp.line_search_not_quadratic",
    "PolyMPC.Sqp.circle_step_rejected"
   ],
   "note": "the claim that the line search keeps fast convergence is false; witness: a quadratic cost on a circle"
  },
  {
   "property": "C176",
   "status": "proved",
   "theorems": [
    "PolyMPC.Lqr.newton_stable",
    "PolyMPC.Lqr.initSym_stable",
    "PolyMPC.Lqr.initRaw_stable",
    "PolyMPC.Lqr.shift_rightOf",
    "PolyMPC.Lqr.newton_reach",
    "PolyMPC.Lqr.care_stabilises",
    "PolyMPC.Lqr.lqr_stabilises"
   ],
   "note": "over the real numbers; decompositions exact and Schur forms of the closed loops triangular (real eigenvalues). By C177 the first guess meets this only when its closed loop is -beta I, so care_stabilises does not cover singular B; newton_stable covers every stabilising start"
  },
  {
   "property": "C177",
   "status": "proved",
   "theorems": [
    "PolyMPC.Lqr.guess_real_only_scalar",
    "PolyMPC.Lqr.guess_not_real",
    "PolyMPC.Lqr.sym_guess_wrong"
   ],
   "note": "the claim that the guess is made symmetric by a solution of its Lyapunov equation is false for singular B"
  },
  {
   "property": "C178",
   "status": "proved",
   "theorems": [
    "PolyMPC.Lqr.lqrHeader_destabilises"
   ],
   "note": "the claim that lqr of control/lqr.hpp stabilises controllable plants is false; the decompositions are any exact ones (ExactTwo), shown to exist"
  },
  {
   "property": "C179",
   "status": "proved",
   "theorems": [
    "PolyMPC.SqpSparse.sparse_sqp_eq_dense",
    "PolyMPC.SqpSparse.sparse_solved",
    "PolyMPC.SqpSparse.cheb_regular",
    "PolyMPC.SqpSparse.regFits_none"
   ],
   "note": "over the real numbers, exact callbacks, box ADMM as the QP solver with the KKT system solved by an arbitrary function of matrix and right-hand side. With parameters or another number of path constraints the sparse derivatives are wrong (see the properties on the sparse transcription), so the equality is not claimed there"
  },
  {
   "property": "C180",
   "status": "proved",
   "theorems": [
    "PolyMPC.SqpSparse.sparse_fails_at_solution",
    "PolyMPC.SqpSparse.lq_fails"
   ],
   "note": "the claim that the solver reports success when started at a solution is false for the sparse solver; the failure is 0/0 in exact arithmetic (NaN in floating point)"
  },
  {
   "property": "C181",
   "status": "proved",
   "theorems": [
    "PolyMPC.Gershgorin.regularised_spd",
    "PolyMPC.Gershgorin.regFits_gershgorin",
    "PolyMPC.Gershgorin.absInt_le"
   ],
   "note": "over the real numbers"
  },
  {
   "property": "C182",
   "status": "proved",
   "theorems": [
    "PolyMPC.SqpSparse.sparse_convex",
    "PolyMPC.SqpSparse.denseEnv_convex",
    "PolyMPC.SqpSparse.lagHess_symm",
    "PolyMPC.Sqp.solve_none_iff"
   ],
   "note": "over the real numbers, same setting as C179"
  },
  {
   "property": "C183",
   "status": "proved",
   "theorems": [
    "PolyMPC.PsOde.solve_accurate",
    "PolyMPC.PsOde.trajectory_accurate",
    "PolyMPC.Nmpc.prediction_accurate",
    "PolyMPC.MpcSqp.solved_accurate",
    "PolyMPC.MpcSqp.predicts_plant",
    "PolyMPC.Colloc.collocates_accurate"
   ],
   "note": "over the real numbers; without scaling for PSODESolver and nmpc"
  },
  {
   "property": "C184",
   "status": "proved",
   "theorems": [
    "PolyMPC.PsOde.ivp_unique_lipschitz",
    "PolyMPC.Nmpc.ivp_lipschitz"
   ],
   "note": "over the real numbers, without scaling; the Lipschitz constant holds on the whole space. C139 and C155 treat affine dynamics, without a bound on the segments in terms of the constant"
  },
  {
   "property": "C185",
   "status": "proved",
   "theorems": [
    "PolyMPC.Sqp.affine_run",
    "PolyMPC.Sqp.exact_between",
    "PolyMPC.Sqp.bfgs_between"
   ],
   "note": "over the real numbers; the bounds on the curvature are assumed for the QPs of the run. exact_between derives them from the problem for the exact linearisation in every iteration, bfgs_between from the Hessians seen after the iterations for the default update"
  },
  {
   "property": "C186",
   "status": "proved",
   "theorems": [
    "PolyMPC.Sqp.bounds_solved",
    "PolyMPC.Sqp.potential_decreases"
   ],
   "note": "as C185"
  },
  {
   "property": "C187",
   "status": "proved",
   "theorems": [
    "PolyMPC.Sqp.affine_accurate"
   ],
   "note": "as C185"
  },
  {
   "property": "C188",
   "status": "proved",
   "theorems": [
    "PolyMPC.AdmmCycle.adaptive_never_solved",
    "PolyMPC.AdmmCycle.adaptive_returns_infeasible",
    "PolyMPC.AdmmCycle.fixed_solved"
   ],
   "note": "over the real numbers with the real square root; a negative result with a witness"
  },
  {
   "property": "C189",
   "status": "proved",
   "theorems": [
    "PolyMPC.Admm.solved_or_step_size_changes_forever",
    "PolyMPC.Admm.solved_with_large_tolerance"
   ],
   "note": "over the real numbers, exact linear solver"
  },
  {
   "property": "C190",
   "status": "proved",
   "theorems": [
    "PolyMPC.Admm.iteration_bound"
   ],
   "note": "over the real numbers, exact linear solver, constant step size"
  },
  {
   "property": "C191",
   "status": "proved",
   "theorems": [
    "PolyMPC.Admm.solved_accurate",
    "PolyMPC.BoxAdmm.solved_accurate",
    "PolyMPC.Spec.QP.distance_le"
   ],
   "note": "over every ordered field"
  },
  {
   "property": "C192",
   "status": "proved",
   "theorems": [
    "PolyMPC.Sqp.QpFails.solved_at_the_guess",
    "PolyMPC.Sqp.QpFails.guess_eleven"
   ],
   "note": "over the real numbers, exact linear solver; a negative result with a family of witnesses"
  },
  {
   "property": "C193",
   "status": "proved",
   "theorems": [
    "PolyMPC.Sqp.solved_certificate",
    "PolyMPC.BoxAdmm.reported_residuals"
   ],
   "note": "over the real numbers; no assumption on the linear solver"
  },
  {
   "property": "C194",
   "status": "proved",
   "theorems": [
    "PolyMPC.Sqp.iterates_near_box"
   ],
   "note": "over the real numbers; no assumption on the linear solver"
  },
  {
   "property": "C195",
   "status": "proved",
   "theorems": [
    "PolyMPC.Sqp.accepted_step_inexact",
    "PolyMPC.Sqp.slope_le_inexact"
   ],
   "note": "over the real numbers; no assumption on the linear solver"
  },
  {
   "property": "C196",
   "status": "proved",
   "theorems": [
    "PolyMPC.Lgl.Built.product_at_nodes",
    "PolyMPC.Lgl.Built.product_exact",
    "PolyMPC.Lgl.Built.galerkin_exact",
    "PolyMPC.Lgl.Built.galerkin_inexact"
   ],
   "note": "over the real numbers; for every scheme that meets the specification of the iterative node computation (as in C75)"
  },
  {
   "property": "C197",
   "status": "proved",
   "theorems": [
    "PolyMPC.Util.flip_eq",
    "PolyMPC.Util.flip_flip",
    "PolyMPC.Util.matFunc_eq",
    "PolyMPC.Util.matDynamics_eq",
    "PolyMPC.Util.cglNodes_eq",
    "PolyMPC.Util.cglNodes_decreasing",
    "PolyMPC.Util.cglNodes_one"
   ],
   "note": ""
  },
  {
   "property": "C198",
   "status": "proved",
   "theorems": [
    "PolyMPC.Util.generic_casadi",
    "PolyMPC.Util.generic_eigen"
   ],
   "note": "over every field; the failure for Eigen types rests on Eigen's size rules as stated in the model"
  },
  {
   "property": "C199",
   "status": "proved",
   "theorems": [
    "PolyMPC.BoxAdmmCycle.adaptive_never_solved",
    "PolyMPC.BoxAdmmCycle.adaptive_returns_infeasible",
    "PolyMPC.BoxAdmmCycle.fixed_solved"
   ],
   "note": "over the real numbers with the real square root; a negative result with a witness"
  },
  {
   "property": "C200",
   "status": "proved",
   "theorems": [
    "PolyMPC.BoxAdmm.solved_or_step_size_changes_forever",
    "PolyMPC.BoxAdmm.solved_with_large_tolerance"
   ],
   "note": "over the real numbers, exact linear solver; the object starts with zero off-diagonal entries in the corner of its KKT matrix (true of a new object and kept by every call)"
  },
  {
   "property": "C201",
   "status": "proved",
   "theorems": [
    "PolyMPC.BoxAdmm.iteration_bound"
   ],
   "note": "over the real numbers, exact linear solver, constant step size; corner of the KKT matrix as in C200"
  },
  {
   "property": "C202",
   "status": "proved",
   "theorems": [
    "PolyMPC.AdmmR.status_cases",
    "PolyMPC.AdmmR.solved_residuals",
    "PolyMPC.AdmmR.solve_exact",
    "PolyMPC.Rounding.accurate_roundBits"
   ],
   "note": "finite numbers without overflow, underflow, NaN or infinities; literals are rounded; comparisons, maxima, absolute values and negation exact. solve_exact: with exact operations the model is the one of C01-C05. accurate_roundBits: rounding to nearest with p+1 binary digits satisfies the assumptions with e = 2^-(p+1), with and without fused operations"
  },
  {
   "property": "C203",
   "status": "proved",
   "theorems": [
    "PolyMPC.AdmmR.solved_dual",
    "PolyMPC.AdmmR.solved_violation"
   ],
   "note": "finite numbers without overflow, underflow, NaN or infinities; literals are rounded; comparisons, maxima, absolute values and negation exact. "
  },
  {
   "property": "C204",
   "status": "proved",
   "theorems": [
    "PolyMPC.AdmmR.solved_near_optimal"
   ],
   "note": "finite numbers without overflow, underflow, NaN or infinities; literals are rounded; comparisons, maxima, absolute values and negation exact. "
  },
  {
   "property": "C205",
   "status": "proved",
   "theorems": [
    "PolyMPC.BoxAdmmR.status_cases",
    "PolyMPC.BoxAdmmR.solved_residuals",
    "PolyMPC.BoxAdmmR.solved_dual",
    "PolyMPC.BoxAdmmR.solved_violation",
    "PolyMPC.BoxAdmmR.solved_near_optimal",
    "PolyMPC.BoxAdmmR.solve_exact"
   ],
   "note": "finite numbers without overflow, underflow, NaN or infinities; literals are rounded; comparisons, maxima, absolute values and negation exact. solve_exact: with exact operations the model is the one of C12"
  },
  {
   "property": "C206",
   "status": "proved",
   "theorems": [
    "PolyMPC.BoxAdmmR.updated_kkt_singular",
    "PolyMPC.BoxAdmmR.updated_kkt_singular_float"
   ],
   "note": "negative result: C07 does not carry over to floating-point arithmetic for boxADMM. finite numbers without overflow, underflow, NaN or infinities; literals are rounded; comparisons, maxima, absolute values and negation exact. "
  },
  {
   "property": "C207",
   "status": "proved",
   "theorems": [
    "PolyMPC.Sqp.affine_violation",
    "PolyMPC.Sqp.affine_rate",
    "PolyMPC.Sqp.bfgs_spd",
    "PolyMPC.Sqp.exact_with"
   ],
   "note": "exact arithmetic, QPs solved exactly, preconditioner that does not fail; the QP solution exists because the problem is feasible (proved)"
  },
  {
   "property": "C208",
   "status": "proved",
   "theorems": [
    "PolyMPC.Sqp.cost_logged",
    "PolyMPC.Sqp.solved_cost",
    "PolyMPC.Sqp.cost_stale",
    "PolyMPC.Sqp.cost_rejected"
   ],
   "note": "step size by the default line search; cost_stale and cost_rejected are runs in which cost() is not the cost of the returned point, the first one with SOLVED"
  },
  {
   "property": "C209",
   "status": "proved",
   "theorems": [
    "PolyMPC.Colloc.quadrature_accurate",
    "PolyMPC.MpcSqp.cost_accurate",
    "PolyMPC.MpcSqp.solved_cost_accurate",
    "PolyMPC.MpcSqp.reported_cost_accurate"
   ],
   "note": "exact arithmetic, Chebyshev collocation; running cost written by the user; the running cost along the exact solution has N+1 continuous derivatives on each segment"
  },
  {
   "property": "C210",
   "status": "proved",
   "theorems": [
    "PolyMPC.SqpR.iterates_box",
    "PolyMPC.SqpR.solve_box",
    "PolyMPC.SqpR.leaves_box",
    "PolyMPC.SqpR.clampQPS_kkt",
    "PolyMPC.SqpR.solve_exact",
    "PolyMPC.Rounding.ordered_roundBits"
   ],
   "note": "eps <= 1/100, finite bounds; no overflow, underflow or NaN. The property as one would state it, bounds kept exactly, is false: leaves_box. solve_exact: without rounding errors the model is the one of the other properties; ordered_roundBits: rounding to the nearest satisfies the assumptions"
  },
  {
   "property": "C211",
   "status": "proved",
   "theorems": [
    "PolyMPC.SqpR.solved_float",
    "PolyMPC.SqpR.solved_float_true",
    "PolyMPC.SqpR.maxViolation_bound"
   ],
   "note": "no overflow, underflow or NaN"
  },
  {
   "property": "C212",
   "status": "proved",
   "theorems": [
    "PolyMPC.AdmmInf.solve_as_finite",
    "PolyMPC.AdmmInf.solved_meaning",
    "PolyMPC.AdmmInf.solve_status",
    "PolyMPC.AdmmInf.eventually_solved_inf",
    "PolyMPC.BoxAdmmInf.solve_as_finite",
    "PolyMPC.BoxAdmmInf.solved_meaning",
    "PolyMPC.BoxAdmmInf.eventually_solved_inf"
   ],
   "note": "lower bounds +infinity and upper bounds -infinity are not modelled; the last claim for boxADMM needs alpha = 1, as for finite bounds"
  },
  {
   "property": "C213",
   "status": "proved",
   "theorems": [
    "PolyMPC.SqpInf.solve_as_finite",
    "PolyMPC.SqpInf.box_solve_as_finite",
    "PolyMPC.SqpInf.solved_meaning",
    "PolyMPC.SqpInf.in_box_inf",
    "PolyMPC.SqpInf.ruiz_limit",
    "PolyMPC.SqpInf.identity_limit",
    "PolyMPC.SqpInf.boxQps_limit"
   ],
   "note": "lower bounds +infinity and upper bounds -infinity are not modelled; the derived class has no overrides (solve_ev covers overrides whose step size rule treats infinite bounds as large ones)"
  },
  {
   "property": "C214",
   "status": "proved",
   "theorems": [
    "PolyMPC.SqpInf.absent_bound_multiplier",
    "PolyMPC.SqpInf.certificate_inf",
    "PolyMPC.BoxAdmmInf.reported_residuals_inf"
   ],
   "note": "settings of the QP solver: termination checked in the last pass, rho > 0, adaptation interval not 0 (the defaults of SQPBase are such)"
  },
  {
   "property": "C215",
   "status": "proved",
   "theorems": [
    "PolyMPC.SqpFilter.search_spec",
    "PolyMPC.SqpFilter.search_range",
    "PolyMPC.SqpFilter.step_cases",
    "PolyMPC.SqpFilter.accepted_not_dominated",
    "PolyMPC.SqpFilter.accepted_cost_decreases",
    "PolyMPC.SqpFilter.visited_run",
    "PolyMPC.SqpFilter.filter_solve_total"
   ],
   "note": "the non-domination theorems need beta >= 0 and room for two more points in the filter; C21 shows that recorded points are forgotten when it is full"
  },
  {
   "property": "C216",
   "status": "proved",
   "theorems": [
    "PolyMPC.SqpFilter.solve_after_best",
    "PolyMPC.SqpFilter.holdsBest_of_point",
    "PolyMPC.SqpFilter.fixed_variable_ignored",
    "PolyMPC.SqpFilter.fixed_variable_not_solved",
    "PolyMPC.SqpFilter.cleared_history_independent",
    "PolyMPC.SqpFilter.second_solve_fails"
   ],
   "note": "negative result with witness, and the positive result after clear(); the QP solver of the witness is an exact solver for one variable"
  },
  {
   "property": "C217",
   "status": "proved",
   "theorems": [
    "PolyMPC.BoxAdmm.solve_history_independent",
    "PolyMPC.BoxAdmm.used_solve_eq",
    "PolyMPC.BoxAdmm.solve_twice",
    "PolyMPC.BoxAdmm.residuals_of_previous_call"
   ],
   "note": "dense matrices; sparse ones via C110"
  },
  {
   "property": "C218",
   "status": "proved",
   "theorems": [
    "PolyMPC.Sqp.box_solve_history_independent",
    "PolyMPC.Sqp.box_ruiz_solve_history_independent",
    "PolyMPC.Sqp.admm_solve_history_independent",
    "PolyMPC.Sqp.used_solve_agree",
    "PolyMPC.Sqp.solve_history_independent_on"
   ],
   "note": "closes the assumption of C70 on the QP solver; with the filter line search see C216"
  },
  {
   "property": "C219",
   "status": "proved",
   "theorems": [
    "PolyMPC.MpcInf.construct_limits",
    "PolyMPC.MpcInf.step_limits",
    "PolyMPC.MpcInf.session_as_finite",
    "PolyMPC.MpcInf.box_session_as_finite",
    "PolyMPC.MpcInf.solved_trajectory_inf",
    "PolyMPC.MpcInf.solved_initial_inf"
   ],
   "note": "dense transcription with Chebyshev collocation for the trajectory part; the solver without overrides in the derived class"
  },
  {
   "property": "C220",
   "status": "proved",
   "theorems": [
    "PolyMPC.Mirror.mirrored_spd",
    "PolyMPC.Mirror.regularised_spd",
    "PolyMPC.Mirror.mirrored_eigenvalues",
    "PolyMPC.Mirror.orthonormal_of_distinct",
    "PolyMPC.Mirror.mirror_changes_positive_part",
    "PolyMPC.Mirror.small_eigenvalues_kept",
    "PolyMPC.Mirror.mirror_convex",
    "PolyMPC.Mirror.decomposition_exists"
   ],
   "note": "exact arithmetic; the decomposition is a parameter assumed correct; the last two claims are proved as negations with witnesses"
  },
  {
   "property": "C221",
   "status": "proved",
   "theorems": [
    "PolyMPC.OldColloc.ode_residual",
    "PolyMPC.OldColloc.ode_residual_ocp",
    "PolyMPC.OldColloc.ode_from_functor",
    "PolyMPC.OldColloc.ode_from_functor_iff",
    "PolyMPC.OldColloc.generic_function_values"
   ],
   "note": "exact arithmetic; the claim about the functor constructor describes a defect"
  },
  {
   "property": "C222",
   "status": "proved",
   "theorems": [
    "PolyMPC.OldColloc.ode_jacobian",
    "PolyMPC.OldColloc.ode_jacobian_iff",
    "PolyMPC.OldColloc.ode_jacobian_misses_parameters"
   ],
   "note": "exact arithmetic; correctness of the dynamics' own derivatives is a hypothesis "
  },
  {
   "property": "C223",
   "status": "proved",
   "theorems": [
    "PolyMPC.OldColloc.old_cost_value",
    "PolyMPC.OldColloc.old_cost_eq_ocp",
    "PolyMPC.OldColloc.cost_from_functors",
    "PolyMPC.OldColloc.old_cost_gradient",
    "PolyMPC.OldColloc.old_cost_hessian",
    "PolyMPC.OldColloc.old_cost_gradient_iff",
    "PolyMPC.OldColloc.old_cost_misses_parameters"
   ],
   "note": "exact arithmetic; correctness of the functors' own derivatives is a hypothesis"
  },
  {
   "property": "C224",
   "status": "proved",
   "theorems": [
    "PolyMPC.OldColloc.sparse_residual",
    "PolyMPC.OldColloc.sparse_from_functor",
    "PolyMPC.OldColloc.sparse_first_call",
    "PolyMPC.OldColloc.sparse_session",
    "PolyMPC.OldColloc.sparse_reuse_iff",
    "PolyMPC.OldColloc.sparse_chebyshev"
   ],
   "note": "exact arithmetic; the last two claims describe defects; the matrix handed in has no entries or comes from an earlier call"
  },
  {
   "property": "C225",
   "status": "proved",
   "theorems": [
    "PolyMPC.Cheb.diag_inner",
    "PolyMPC.Cheb.diag_first",
    "PolyMPC.Cheb.diag_last",
    "PolyMPC.Cheb.diag_zero_iff"
   ],
   "note": "over the reals"
  },
  {
   "property": "C226",
   "status": "proved",
   "theorems": [
    "PolyMPC.SolverOpts.built_options",
    "PolyMPC.SolverOpts.defaults_nodup",
    "PolyMPC.SolverOpts.psode_options",
    "PolyMPC.SolverOpts.nmpc_updateParams_ignored",
    "PolyMPC.SolverOpts.nmpf_updateParams_ignored",
    "PolyMPC.SolverOpts.generic_update_ignored",
    "PolyMPC.SolverOpts.nmpc_stats",
    "PolyMPC.SolverOpts.nmpc_stats_kept",
    "PolyMPC.SolverOpts.nmpf_stats",
    "PolyMPC.SolverOpts.generic_stats"
   ],
   "note": "describes two defects: option changes after construction, and options of PSODESolver, have no effect"
  },
  {
   "property": "C227",
   "status": "proved",
   "theorems": [
    "PolyMPC.AdmmSparse.sparse_solved_near_optimal",
    "PolyMPC.AdmmSparse.sparse_solved_accurate",
    "PolyMPC.AdmmSparse.sparse_iteration_bound",
    "PolyMPC.AdmmSparse.sparse_solved_with_large_tolerance",
    "PolyMPC.AdmmSparse.sparse_adaptive_never_solved",
    "PolyMPC.AdmmSparse.box_sparse_solved_near_optimal",
    "PolyMPC.AdmmSparse.box_sparse_solved_accurate",
    "PolyMPC.AdmmSparse.box_sparse_infeasible_not_solved",
    "PolyMPC.AdmmSparse.box_sparse_feasible_solved",
    "PolyMPC.AdmmSparse.box_sparse_iteration_bound",
    "PolyMPC.AdmmSparse.box_sparse_adaptive_never_solved"
   ],
   "note": "exact arithmetic; iteration counts for an exact linear solver and boxADMM with alpha = 1; Eigen's uncompressed storage as in Model/Sparse"
  },
  {
   "property": "C228",
   "status": "proved",
   "theorems": [
    "PolyMPC.RuizRounded.compute_backward",
    "PolyMPC.RuizRounded.unscaled_solution",
    "PolyMPC.RuizRounded.unscale_compute_close",
    "PolyMPC.RuizRounded.rounds_close",
    "PolyMPC.RuizRounded.dense_compute_defined",
    "PolyMPC.RuizRounded.double_restores",
    "PolyMPC.RuizRounded.close_error",
    "PolyMPC.RuizRounded.close_sign"
   ],
   "note": "no overflow, underflow or infinite bounds; the computed square root of a positive number is assumed positive; update and scale with old factors are not modelled with rounding"
  },
  {
   "property": "C229",
   "status": "proved",
   "theorems": [
    "PolyMPC.Ruiz.dense_scaled",
    "PolyMPC.Ruiz.sparse_scaled",
    "PolyMPC.Ruiz.sparse_scaled_hessian",
    "PolyMPC.Ruiz.sparse_empty_column",
    "PolyMPC.Ruiz.dense_column_stays_small"
   ],
   "note": "exact arithmetic; the failing cases are proved for every ordered field; division by zero is the outcome none"
  },
  {
   "property": "C230",
   "status": "proved",
   "theorems": [
    "PolyMPC.Plants.robot_is_unit_tricycle",
    "PolyMPC.Plants.robot_wheel_base_ignored",
    "PolyMPC.Plants.robot_output",
    "PolyMPC.Plants.robot_no_slip",
    "PolyMPC.Plants.robot_moved",
    "PolyMPC.Plants.robot_reach",
    "PolyMPC.Plants.kite_constructors",
    "PolyMPC.Plants.kite_heading_rate",
    "PolyMPC.Plants.kite_slips",
    "PolyMPC.Plants.kite_elevation_rate",
    "PolyMPC.Plants.kite_reference",
    "PolyMPC.Plants.kite_mirror"
   ],
   "note": "the symbolic expressions are modelled by real functions; a null casadi::Function is the outcome none; the reference kinematics are in Spec/Plants"
  },
  {
   "property": "C231",
   "status": "proved",
   "theorems": [
    "PolyMPC.Ocp.leg_solution_infeasible",
    "PolyMPC.Ocp.leg_rest",
    "PolyMPC.Ocp.leg_rest_ends",
    "PolyMPC.Ocp.leg_times",
    "PolyMPC.Ocp.leg_residual"
   ],
   "note": "for the scheme that the constructor builds with a correct root finder (C76); follows from C34 and the layout of the transcription"
  },
  {
   "property": "C232",
   "status": "proved",
   "theorems": [
    "PolyMPC.GradProj.gp_moves",
    "PolyMPC.GradProj.gp_returns",
    "PolyMPC.GradProj.gp_fixed",
    "PolyMPC.GradProj.default_best",
    "PolyMPC.GradProj.gp_default",
    "PolyMPC.GradProj.gp_leaves_best",
    "PolyMPC.GradProj.gp_ascends"
   ],
   "note": "negative results; exact arithmetic; the class is the case of two variables"
  },
  {
   "property": "C233",
   "status": "proved",
   "theorems": [
    "PolyMPC.Lqr.care_accuracy",
    "PolyMPC.Lqr.gain_cost",
    "PolyMPC.Lqr.step_quadratic",
    "PolyMPC.Lqr.newton_quadratic",
    "PolyMPC.Lqr.newton_returns_near"
   ],
   "note": "exact arithmetic; the spectra of the closed loops on the way are real (C52: with complex ones the Lyapunov solver is wrong); linear solver and root finder exact as in C50"
  },
  {
   "property": "C234",
   "status": "proved",
   "theorems": [
    "PolyMPC.TrustRegion.tr_step_long",
    "PolyMPC.TrustRegion.tr_quadratic",
    "PolyMPC.TrustRegion.tr_never_settles",
    "PolyMPC.TrustRegion.tr_answer",
    "PolyMPC.TrustRegion.tr_parabola",
    "PolyMPC.TrustRegion.tr_ascends",
    "PolyMPC.TrustRegion.tr_cycle",
    "PolyMPC.TrustRegion.tr_indefinite"
   ],
   "note": "negations: the radius does not limit the step, steps that increase the cost are accepted, the iteration does not converge; exact arithmetic; a failed factorisation doubles lambda as in the code and is excluded by hypothesis where stated"
  },
  {
   "property": "C235",
   "status": "proved",
   "theorems": [
    "PolyMPC.MpcSqp.rest_stationary",
    "PolyMPC.MpcSqp.rest_kept",
    "PolyMPC.MpcSqp.linQuad_rest_kept"
   ],
   "note": "exact arithmetic, dense transcription with the default (BFGS) solver settings of the model, QP solver that returns an optimal pair; the analogue for the Legendre scheme is refuted in C231"
  },
  {
   "property": "C236",
   "status": "proved",
   "theorems": [
    "PolyMPC.Sqp.validate_iff",
    "PolyMPC.Sqp.default_in_range",
    "PolyMPC.Sqp.never_invalid",
    "PolyMPC.Sqp.rho_ignored",
    "PolyMPC.Sqp.one_iteration",
    "PolyMPC.Sqp.negative_tolerance",
    "PolyMPC.Sqp.no_search",
    "PolyMPC.Sqp.tau_zero_step",
    "PolyMPC.Sqp.tau_zero_solved"
   ],
   "note": "negation: nothing is rejected; what the solver does instead is proved for all inputs, the false SOLVED by a witness"
  },
  {
   "property": "C237",
   "status": "proved",
   "theorems": [
    "PolyMPC.MpcSqp.problem_scaled",
    "PolyMPC.MpcSqp.time_affine",
    "PolyMPC.MpcSqp.solve_reclocked",
    "PolyMPC.MpcSqp.solve_shifted"
   ],
   "note": "exact arithmetic; solution_x_at(t) is excluded, its grid is right only for t0 = 0 (C49)"
  },
  {
   "property": "C238",
   "status": "proved",
   "theorems": [
    "PolyMPC.SolverOpts.ode_getParams",
    "PolyMPC.SolverOpts.ode_options_ignored",
    "PolyMPC.SolverOpts.ode_state_iff",
    "PolyMPC.SolverOpts.ode_bad_method",
    "PolyMPC.SolverOpts.ode_plain_zero"
   ],
   "note": "negation, for all sessions; CVODES is an unknown function of its options and arguments"
  },
  {
   "property": "C239",
   "status": "proved",
   "theorems": [
    "PolyMPC.Admm.neg_check_termination",
    "PolyMPC.Admm.neg_adaptive_rho_interval",
    "PolyMPC.Admm.interval_zero",
    "PolyMPC.Admm.negative_tolerance",
    "PolyMPC.Admm.reversed_signs",
    "PolyMPC.Admm.negative_rho_maximises",
    "PolyMPC.Admm.negative_rho_wrong",
    "PolyMPC.Admm.alpha_zero",
    "PolyMPC.BoxAdmm.neg_check_termination",
    "PolyMPC.BoxAdmm.neg_adaptive_rho_interval",
    "PolyMPC.BoxAdmm.interval_zero",
    "PolyMPC.BoxAdmm.negative_tolerance",
    "PolyMPC.BoxAdmm.reversed_signs",
    "PolyMPC.BoxAdmm.negative_rho_maximises",
    "PolyMPC.BoxAdmm.negative_rho_wrong",
    "PolyMPC.BoxAdmm.alpha_zero_or_two"
   ],
   "note": "negation; exact arithmetic; rho = 0 divides by zero and is not covered"
  },
  {
   "property": "C240",
   "status": "proved",
   "theorems": [
    "PolyMPC.BfgsR.bfgs_symm",
    "PolyMPC.BfgsR.bfgs_entry_error",
    "PolyMPC.BfgsR.bfgs_loses_spd",
    "PolyMPC.BfgsR.bfgsUpdate_exact"
   ],
   "note": "finite numbers without overflow or underflow; negation and comparisons exact; for float the products with 0.2 and 0.8 are taken in the scalar type. Negative result for positive definiteness: C17 and C69 do not carry over"
  },
  {
   "property": "C241",
   "status": "proved",
   "theorems": [
    "PolyMPC.Ipopt.interface_solve_defined_iff",
    "PolyMPC.Ipopt.interface_solve_reports",
    "PolyMPC.Ipopt.interface_primal_norm_zero",
    "PolyMPC.Ipopt.interface_never_stores",
    "PolyMPC.Ipopt.interface_drops",
    "PolyMPC.Ipopt.interface_solve_again",
    "PolyMPC.Ipopt.interface_guess_used"
   ],
   "note": "Ipopt is an arbitrary function of its options and of the object; the size of its multiplier array is a hypothesis of interface_never_stores. Negative results: primal_norm, null statistics, multipliers read past the end (also C100)"
  },
  {
   "property": "C242",
   "status": "proved",
   "theorems": [
    "PolyMPC.BfgsR.sr1_symm",
    "PolyMPC.BfgsR.sr1_secant_error",
    "PolyMPC.BfgsR.sr1_secant_double",
    "PolyMPC.BfgsR.sr1_rounded_undefined_iff",
    "PolyMPC.BfgsR.sr1Update_exact"
   ],
   "note": "finite numbers without overflow or underflow; comparisons and absolute values exact. Negative result: a matrix that already satisfies the secant equation leads to a division by zero, also with rounding (C19)"
  },
  {
   "property": "C243",
   "status": "proved",
   "theorems": [
    "PolyMPC.TimeR.time_error",
    "PolyMPC.TimeR.time_order",
    "PolyMPC.TimeR.time_collapse",
    "PolyMPC.TimeR.time_collapse_limits",
    "PolyMPC.TimeR.timeGrid_exact"
   ],
   "note": "relative to the stored nodes of the approximation; finite numbers without overflow or underflow. Negative result: distinct node times of C37 are not kept by rounding"
  },
  {
   "property": "C244",
   "status": "proved",
   "theorems": [
    "PolyMPC.FilterNan.nan_acceptable",
    "PolyMPC.FilterNan.nan_entries_ignored",
    "PolyMPC.FilterNan.nan_entry_stays",
    "PolyMPC.FilterNan.nan_flood",
    "PolyMPC.FilterNan.nan_free"
   ],
   "note": "negative result. NaN is an absorbing value with false comparisons; infinities and rounding are not modelled; beta is a number; nan_flood for a positive depth"
  },
  {
   "property": "C245",
   "status": "proved",
   "theorems": [
    "PolyMPC.SqpNan.violation_number",
    "PolyMPC.SqpNan.violation_ignores_ineq",
    "PolyMPC.SqpNan.violation_nan",
    "PolyMPC.SqpNan.violation_nan_free",
    "PolyMPC.SqpNan.search_number",
    "PolyMPC.SqpNan.search_nan_free",
    "PolyMPC.SqpNan.search_nan",
    "PolyMPC.SqpNan.nan_solved",
    "PolyMPC.SqpNan.nan_solved_default"
   ],
   "note": "negative result. NaN in the cost and the constraints; the iterate, the step and the bounds are numbers; maxCoeff is assumed to return the largest of numbers and NaN for a vector of NaN; vectors with some NaN entries only where violation_number says so; infinities and rounding are not modelled"
  },
  {
   "property": "C246",
   "status": "proved",
   "theorems": [
    "PolyMPC.AdmmNan.solved_numbers",
    "PolyMPC.AdmmNan.nan_stays",
    "PolyMPC.AdmmNan.resDual_nan",
    "PolyMPC.AdmmNan.nan_loop",
    "PolyMPC.AdmmNan.nan_guess",
    "PolyMPC.AdmmNan.adapt_nan",
    "PolyMPC.AdmmNan.nan_rho"
   ],
   "note": "dense matrices; lpNorm is assumed to return NaN for a vector of NaN; settings are numbers, integer settings nonnegative; nan_rho for a penalty below 1e6 / adaptive_rho_tolerance; infinities and rounding are not modelled; the persistence of NaN is about ADMM, since boxADMM overwrites the old iterate"
  }
 ]
}