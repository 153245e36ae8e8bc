{
 "claims": [
  {
   "property": "C01",
   "status": "proved",
   "theorems": [
    "MiniOpt.Props.C01_clamp_projects",
    "MiniOpt.Props.C01_double_var",
    "MiniOpt.Props.C01_double_infeasible"
   ],
   "note": "Clamping projects onto the constraint"
  },
  {
   "property": "C02",
   "status": "proved",
   "theorems": [
    "MiniOpt.Props.C02_shift",
    "MiniOpt.Props.C02_shift_shift",
    "MiniOpt.Props.C02_shift_vector"
   ],
   "note": "Shifting a constraint preserves its meaning"
  },
  {
   "property": "C03",
   "status": "proved",
   "theorems": [
    "MiniOpt.Props.C03_var_bounds",
    "MiniOpt.Props.C03_double",
    "MiniOpt.Props.C03_double_finite"
   ],
   "note": "Var bounds mean what they say"
  },
  {
   "property": "C04",
   "status": "proved",
   "theorems": [
    "MiniOpt.Props.C04_sequential_clamp",
    "MiniOpt.Props.C04_double_var"
   ],
   "note": "Sequential clamping reaches the box"
  },
  {
   "property": "C05",
   "status": "proved",
   "theorems": [
    "MiniOpt.Props.C05_setup_exact",
    "MiniOpt.Props.C05_which_assertion",
    "MiniOpt.Props.C05_accepted_in_range",
    "MiniOpt.Props.C05_solve_ub_iff",
    "MiniOpt.Props.C05_negative_index_accepted"
   ],
   "note": "Setup validates dimensions and indices"
  },
  {
   "property": "C06",
   "status": "proved",
   "theorems": [
    "MiniOpt.Props.C06_double",
    "MiniOpt.Props.C06_params_validated"
   ],
   "note": "QP parameters are validated"
  },
  {
   "property": "C07",
   "status": "proved",
   "theorems": [
    "MiniOpt.Props.C07_double_step",
    "MiniOpt.Props.C07_double_underflow",
    "MiniOpt.Props.C07_slacks_positive",
    "MiniOpt.Props.C07_user_slack_needed"
   ],
   "note": "Slacks and multipliers stay strictly positive"
  },
  {
   "property": "C08",
   "status": "proved",
   "theorems": [
    "MiniOpt.Props.C08_step_length",
    "MiniOpt.Props.C08_documented_bound_false"
   ],
   "note": "Step length rule"
  },
  {
   "property": "C09",
   "status": "proved",
   "theorems": [
    "MiniOpt.Props.C09_newton_direction",
    "MiniOpt.Props.C09_full_system"
   ],
   "note": "The computed direction solves the full KKT Newton system"
  },
  {
   "property": "C10",
   "status": "proved",
   "theorems": [
    "MiniOpt.Props.C10_ineq_residual_step",
    "MiniOpt.Props.C10_eq_residual_step",
    "MiniOpt.Props.C10_ineq_residuals",
    "MiniOpt.Props.C10_eq_residuals"
   ],
   "note": "Primal residuals contract"
  },
  {
   "property": "C11",
   "status": "proved",
   "theorems": [
    "MiniOpt.Props.C11_satisfied_truthful",
    "MiniOpt.Props.C11_nearly_feasible"
   ],
   "note": "SATISFIED_KKT_TOL is truthful"
  },
  {
   "property": "C12",
   "status": "proved",
   "theorems": [
    "MiniOpt.Props.C12_near_optimal"
   ],
   "note": "Reported solutions are near-optimal"
  },
  {
   "property": "C13",
   "status": "proved",
   "theorems": [
    "MiniOpt.Props.C13_iteration_count",
    "MiniOpt.Props.C13_prefix"
   ],
   "note": "QP iteration bookkeeping"
  },
  {
   "property": "C14",
   "status": "proved",
   "theorems": [
    "MiniOpt.Props.C14_log_chain"
   ],
   "note": "QP log is consistent between iterations"
  },
  {
   "property": "C15",
   "status": "proved",
   "theorems": [
    "MiniOpt.Props.C15_one_iteration",
    "MiniOpt.Props.C15_needs_positive_tol"
   ],
   "note": "Problems without inequalities are solved in one iteration"
  },
  {
   "property": "C16",
   "status": "proved",
   "theorems": [
    "MiniOpt.Props.C16_barrier_schedule",
    "MiniOpt.Props.C16_fixed_decrease"
   ],
   "note": "Barrier parameter schedule"
  },
  {
   "property": "C17",
   "status": "proved",
   "theorems": [
    "MiniOpt.Props.C17_double_cancellation",
    "MiniOpt.Props.C17_r_comp"
   ],
   "note": "Complementarity error formula"
  },
  {
   "property": "C18",
   "status": "proved",
   "theorems": [
    "MiniOpt.Props.C18_mu_affine",
    "MiniOpt.Props.C18_first_iteration_right",
    "MiniOpt.Props.C18_later_iterations_wrong"
   ],
   "note": "Predictor-corrector affine complementarity"
  },
  {
   "property": "C19",
   "status": "proved",
   "theorems": [
    "MiniOpt.Props.C19_no_leak",
    "MiniOpt.Props.C19_repeat"
   ],
   "note": "Solver reuse does not leak state"
  },
  {
   "property": "C20",
   "status": "proved",
   "theorems": [
    "MiniOpt.Props.C20_lagrange_summary"
   ],
   "note": "Lagrange multiplier summary"
  },
  {
   "property": "C21",
   "status": "proved",
   "theorems": [
    "MiniOpt.Props.C21_blocks_cover",
    "MiniOpt.Props.C21_flatten",
    "MiniOpt.Props.C21_write_independent",
    "MiniOpt.Props.C21_setVariables_unchecked"
   ],
   "note": "Variable blocks partition the state"
  },
  {
   "property": "C22",
   "status": "proved",
   "theorems": [
    "MiniOpt.Props.C22_initial_guess",
    "MiniOpt.Props.C22_naive",
    "MiniOpt.Props.C22_user_provided",
    "MiniOpt.Props.C22_solve_equality",
    "MiniOpt.Props.C22_kkt_is_minimiser",
    "MiniOpt.Props.C22_nearest"
   ],
   "note": "Initial guess"
  },
  {
   "property": "C23",
   "status": "proved",
   "theorems": [
    "MiniOpt.Props.C23_bounds_respected"
   ],
   "note": "Interior point iterates respect the bounds"
  },
  {
   "property": "C24",
   "status": "proved",
   "theorems": [
    "MiniOpt.Props.C24_nonsingular",
    "MiniOpt.Props.C24_dependent_rows_singular",
    "MiniOpt.Props.C24_nonsingular_iff"
   ],
   "note": "The factorised matrix is nonsingular"
  },
  {
   "property": "C25",
   "status": "proved",
   "theorems": [
    "MiniOpt.Props.C25_null_space",
    "MiniOpt.Props.C25_only_lower_triangle"
   ],
   "note": "Only the lower triangle of G matters"
  },
  {
   "property": "C26",
   "status": "proved",
   "theorems": [
    "MiniOpt.Props.C26_null_space_minimiser"
   ],
   "note": "Null-space solver returns the constrained minimiser"
  },
  {
   "property": "C27",
   "status": "proved",
   "theorems": [
    "MiniOpt.Props.C27_needs_independent_rows"
   ],
   "note": "Null-space solver needs independent constraints"
  },
  {
   "property": "C28",
   "status": "proved",
   "theorems": [
    "MiniOpt.Props.C28_not_posdef_truthful"
   ],
   "note": "NOT_POSITIVE_DEFINITE is truthful"
  },
  {
   "property": "C29",
   "status": "proved",
   "theorems": [
    "MiniOpt.Props.C29_update_hessian_general",
    "MiniOpt.Props.C29_update_hessian",
    "MiniOpt.Props.C29_repeated_index_wrong"
   ],
   "note": "UpdateHessian accumulates J^T J and J^T r"
  },
  {
   "property": "C30",
   "status": "proved",
   "theorems": [
    "MiniOpt.Props.C30_errors_agree"
   ],
   "note": "Residual error values agree"
  },
  {
   "property": "C31",
   "status": "proved",
   "theorems": [
    "MiniOpt.Props.C31_update_jacobian",
    "MiniOpt.Props.C31_update_jacobian_zero",
    "MiniOpt.Props.C31_repeated_index_wrong"
   ],
   "note": "UpdateJacobian scatters columns"
  },
  {
   "property": "C32",
   "status": "proved",
   "theorems": [
    "MiniOpt.Props.C32_bad_index_throws",
    "MiniOpt.Props.C32_no_out_of_range",
    "MiniOpt.Props.C32_callable_throws",
    "MiniOpt.Props.C32_bad_outputs_throw"
   ],
   "note": "Residual indices are bounds-checked"
  },
  {
   "property": "C33",
   "status": "proved",
   "theorems": [
    "MiniOpt.Props.C33_linearize_order",
    "MiniOpt.Props.C33_evaluate_order"
   ],
   "note": "Cost order is irrelevant"
  },
  {
   "property": "C34",
   "status": "proved",
   "theorems": [
    "MiniOpt.Props.C34_gauss_newton"
   ],
   "note": "The QP is the Gauss-Newton model"
  },
  {
   "property": "C35",
   "status": "proved",
   "theorems": [
    "MiniOpt.Props.C35_merit_derivative",
    "MiniOpt.Props.C35_exact_step",
    "MiniOpt.Props.C35_null_space",
    "MiniOpt.Props.C35_default_retraction"
   ],
   "note": "Directional derivative is the derivative of the merit function"
  },
  {
   "property": "C36",
   "status": "proved",
   "theorems": [
    "MiniOpt.Props.C36_double",
    "MiniOpt.Props.C36_sufficient_decrease"
   ],
   "note": "Accepted steps satisfy sufficient decrease"
  },
  {
   "property": "C37",
   "status": "proved",
   "theorems": [
    "MiniOpt.Props.C37_double",
    "MiniOpt.Props.C37_cost_never_increases"
   ],
   "note": "Cost never increases without equality constraints"
  },
  {
   "property": "C38",
   "status": "proved",
   "theorems": [
    "MiniOpt.Props.C38_after",
    "MiniOpt.Props.C38_variables_move",
    "MiniOpt.Props.C38_direction"
   ],
   "note": "Variables move only by accepted steps"
  },
  {
   "property": "C39",
   "status": "proved",
   "theorems": [
    "MiniOpt.Props.C39_logged_errors",
    "MiniOpt.Props.C39_errors_chain"
   ],
   "note": "Logged errors are consistent"
  },
  {
   "property": "C40",
   "status": "proved",
   "theorems": [
    "MiniOpt.Props.C40_double",
    "MiniOpt.Props.C40_alphas_any",
    "MiniOpt.Props.C40_only_last_accepted",
    "MiniOpt.Props.C40_alphas"
   ],
   "note": "Line search step sequence"
  },
  {
   "property": "C41",
   "status": "proved",
   "theorems": [
    "MiniOpt.Props.C41_quadratic",
    "MiniOpt.Props.C41_zero_slope",
    "MiniOpt.Props.C41_first_interpolation"
   ],
   "note": "Quadratic interpolation after a rejected full step"
  },
  {
   "property": "C42",
   "status": "proved",
   "theorems": [
    "MiniOpt.Props.C42_coefficients",
    "MiniOpt.Props.C42_stationary",
    "MiniOpt.Props.C42_in_range",
    "MiniOpt.Props.C42_contracts",
    "MiniOpt.Props.C42_quadratic_data",
    "MiniOpt.Props.C42_later_interpolations",
    "MiniOpt.Props.C42_never_fails",
    "MiniOpt.Props.C42_invalid_alpha_cause"
   ],
   "note": "Cubic interpolation"
  },
  {
   "property": "C43",
   "status": "proved",
   "theorems": [
    "MiniOpt.Props.C43_double",
    "MiniOpt.Props.C43_state_machine",
    "MiniOpt.Props.C43_lambda_limits"
   ],
   "note": "Damping stays within its limits"
  },
  {
   "property": "C44",
   "status": "proved",
   "theorems": [
    "MiniOpt.Props.C44_double",
    "MiniOpt.Props.C44_penalty_update",
    "MiniOpt.Props.C44_penalty"
   ],
   "note": "Penalty never decreases"
  },
  {
   "property": "C45",
   "status": "proved",
   "theorems": [
    "MiniOpt.Props.C45_which_solver",
    "MiniOpt.Props.C45_descent"
   ],
   "note": "Equality-only problems always get a descent direction"
  },
  {
   "property": "C46",
   "status": "proved",
   "theorems": [
    "MiniOpt.Props.C46_termination",
    "MiniOpt.Props.C46_exits_are_taken",
    "MiniOpt.Props.C46_absolute_exit"
   ],
   "note": "Termination states are truthful"
  },
  {
   "property": "C47",
   "status": "proved",
   "theorems": [
    "MiniOpt.Props.C47_numbering_and_callback",
    "MiniOpt.Props.C47_verdict"
   ],
   "note": "Iteration numbering and callback protocol"
  },
  {
   "property": "C48",
   "status": "proved",
   "theorems": [
    "MiniOpt.Props.C48_double",
    "MiniOpt.Props.C48_stall_forever",
    "MiniOpt.Props.C48_stall",
    "MiniOpt.Props.C48_real"
   ],
   "note": "Non-recoverable line-search failures stall the solver"
  },
  {
   "property": "C49",
   "status": "proved",
   "theorems": [
    "MiniOpt.Props.C49_iteration",
    "MiniOpt.Props.C49_bounds"
   ],
   "note": "Bounds are respected across the nonlinear solve"
  },
  {
   "property": "C50",
   "status": "proved",
   "theorems": [
    "MiniOpt.Props.C50_iteration",
    "MiniOpt.Props.C50_linear_least_squares"
   ],
   "note": "Linear least squares converge in one step"
  },
  {
   "property": "C51",
   "status": "proved",
   "theorems": [
    "MiniOpt.Props.C51_repeatable",
    "MiniOpt.Props.C51_history"
   ],
   "note": "Nonlinear Solve is repeatable"
  },
  {
   "property": "C52",
   "status": "proved",
   "theorems": [
    "MiniOpt.Props.C52_double",
    "MiniOpt.Props.C52_rejected",
    "MiniOpt.Props.C52_accepted",
    "MiniOpt.Props.C52_zero_iterations",
    "MiniOpt.Props.C52_zero_penalty_fatal",
    "MiniOpt.Props.C52_zero_penalty_witness"
   ],
   "note": "NLS parameters are validated"
  },
  {
   "property": "C53",
   "status": "proved",
   "theorems": [
    "MiniOpt.Props.C53_wrong_size",
    "MiniOpt.Props.C53_index_outside",
    "MiniOpt.Props.C53_unchecked_size"
   ],
   "note": "Start vector size"
  },
  {
   "property": "C54",
   "status": "proved",
   "theorems": [
    "MiniOpt.Props.C54_counters",
    "MiniOpt.Props.C54_additive",
    "MiniOpt.Props.C54_bounds"
   ],
   "note": "Aggregate counters"
  },
  {
   "property": "C55",
   "status": "proved",
   "theorems": [
    "MiniOpt.Props.C55_names_injective",
    "MiniOpt.Props.C55_satisfied"
   ],
   "note": "Enum names are unambiguous"
  },
  {
   "property": "C56",
   "status": "proved",
   "theorems": [
    "MiniOpt.Props.C56_iteration",
    "MiniOpt.Props.C56_outputs"
   ],
   "note": "Colour changes only escape sequences"
  },
  {
   "property": "C57",
   "status": "proved",
   "theorems": [
    "MiniOpt.Props.C57_value_round_trip"
   ],
   "note": "JSON value round trip"
  },
  {
   "property": "C58",
   "status": "proved",
   "theorems": [
    "MiniOpt.Props.C58_text_round_trip",
    "MiniOpt.Props.C58_interior_point_logs",
    "MiniOpt.Props.C58_null_space_logs"
   ],
   "note": "JSON text round trip"
  },
  {
   "property": "C59",
   "status": "proved",
   "theorems": [
    "MiniOpt.Props.C59_enum_decoding"
   ],
   "note": "Unknown enum strings are not reported"
  },
  {
   "property": "C60",
   "status": "proved",
   "theorems": [
    "MiniOpt.Props.C60_newest_events",
    "MiniOpt.Props.C60_program_order",
    "MiniOpt.Props.C60_bounded",
    "MiniOpt.Props.C60_no_deadlock"
   ],
   "note": "Trace buffer keeps the newest events"
  },
  {
   "property": "C61",
   "status": "proved",
   "theorems": [
    "MiniOpt.Props.C61_race_needs_dump",
    "MiniOpt.Props.C61_submit_race_free",
    "MiniOpt.Props.C61_dump_races"
   ],
   "note": "Trace buffer access is data-race free"
  },
  {
   "property": "C62",
   "status": "proved",
   "theorems": [
    "MiniOpt.Props.C62_valid_json",
    "MiniOpt.Props.C62_quote_breaks"
   ],
   "note": "Trace output is valid JSON"
  },
  {
   "property": "C63",
   "status": "proved",
   "theorems": [
    "MiniOpt.Props.C63_qp_exit",
    "MiniOpt.Props.C63_nls_success",
    "MiniOpt.Props.C63_max_masks_nan"
   ],
   "note": "NaN never passes the exit tests silently"
  },
  {
   "property": "C64",
   "status": "proved",
   "theorems": [
    "MiniOpt.Props.C64_qp_exceptions"
   ],
   "note": "The QP solver's exceptions are known"
  },
  {
   "property": "C65",
   "status": "proved",
   "theorems": [
    "MiniOpt.Props.C65_nls_exceptions"
   ],
   "note": "The nonlinear solver's exceptions are known"
  },
  {
   "property": "C66",
   "status": "proved",
   "theorems": [
    "MiniOpt.Props.C66_missing_member"
   ],
   "note": "Missing JSON members"
  },
  {
   "property": "C67",
   "status": "proved",
   "theorems": [
    "MiniOpt.Props.C67_levenberg_marquardt"
   ],
   "note": "Unconstrained steps are Levenberg-Marquardt steps"
  },
  {
   "property": "C68",
   "status": "proved",
   "theorems": [
    "MiniOpt.Props.C68_interior_descent",
    "MiniOpt.Props.C68_solved_gap"
   ],
   "note": "Interior point steps from feasible points descend"
  },
  {
   "property": "C69",
   "status": "proved",
   "theorems": [
    "MiniOpt.Props.C69_first_order_bounds",
    "MiniOpt.Props.C69_first_order_free",
    "MiniOpt.Props.C69_first_order_equality"
   ],
   "note": "What SATISFIED_FIRST_ORDER_TOL means for the result"
  },
  {
   "property": "C70",
   "status": "proved",
   "theorems": [
    "MiniOpt.Props.C70_pose_apply",
    "MiniOpt.Props.C70_pose_product",
    "MiniOpt.Props.C70_pose_inverse",
    "MiniOpt.Props.C70_pose_matrix",
    "MiniOpt.Props.C70_inverse_needs_unit",
    "MiniOpt.Props.C70_inverse_rotation"
   ],
   "note": "Poses compose, invert and act on points as rigid transforms"
  },
  {
   "property": "C71",
   "status": "proved",
   "theorems": [
    "MiniOpt.Props.C71_frames_to_end",
    "MiniOpt.Props.C71_start_T_end",
    "MiniOpt.Props.C71_all_poses",
    "MiniOpt.Props.C71_empty"
   ],
   "note": "The chain buffers are the partial products of the links"
  },
  {
   "property": "C72",
   "status": "proved",
   "theorems": [
    "MiniOpt.Props.C72_chain_derivatives",
    "MiniOpt.Props.C72_one_link"
   ],
   "note": "The chain Jacobians are the derivatives of the effector pose"
  },
  {
   "property": "C73",
   "status": "proved",
   "theorems": [
    "MiniOpt.Props.C73_update_derivatives"
   ],
   "note": "ActuatorChain::Update computes the derivatives of the effector with respect to the parameters"
  },
  {
   "property": "C74",
   "status": "proved",
   "theorems": [
    "MiniOpt.Props.C74_tolerance",
    "MiniOpt.Props.C74_nan_ignored",
    "MiniOpt.Props.C74_layout",
    "MiniOpt.Props.C74_cached",
    "MiniOpt.Props.C74_wrong_size",
    "MiniOpt.Props.C74_no_active"
   ],
   "note": "Parameter layout, caching and misuse of ActuatorChain::Update"
  },
  {
   "property": "C75",
   "status": "proved",
   "theorems": [
    "MiniOpt.Props.C75_round_trip"
   ],
   "note": "A constructed actuator link reproduces its pose"
  },
  {
   "property": "C76",
   "status": "proved",
   "theorems": [
    "MiniOpt.Props.C76_double",
    "MiniOpt.Props.C76_accepted_steps",
    "MiniOpt.Props.C76_accepted_steps_unconstrained",
    "MiniOpt.Props.C76_total_decrease"
   ],
   "note": "Accepted steps make bounded progress"
  },
  {
   "property": "C77",
   "status": "proved",
   "theorems": [
    "MiniOpt.Props.C77_double",
    "MiniOpt.Props.C77_failed_steps",
    "MiniOpt.Props.C77_zero_failure_init"
   ],
   "note": "Consecutive failures are bounded by the damping limits"
  },
  {
   "property": "C78",
   "status": "proved",
   "theorems": [
    "MiniOpt.Props.C78_double",
    "MiniOpt.Props.C78_iteration_bound",
    "MiniOpt.Props.C78_terminates"
   ],
   "note": "The nonlinear solver stops by itself"
  },
  {
   "property": "C79",
   "status": "proved",
   "theorems": [
    "MiniOpt.Props.C79_qp_iteration_text",
    "MiniOpt.Props.C79_iteration_text",
    "MiniOpt.Props.C79_report_text",
    "MiniOpt.Props.C79_iteration_lines",
    "MiniOpt.Props.C79_report_lines",
    "MiniOpt.Props.C79_example"
   ],
   "note": "The printed reports are the documented format strings filled in with the record"
  },
  {
   "property": "C80",
   "status": "proved",
   "theorems": [
    "MiniOpt.Props.C80_qp_params",
    "MiniOpt.Props.C80_nls_params",
    "MiniOpt.Props.C80_residual_indices",
    "MiniOpt.Props.C80_residual_outputs",
    "MiniOpt.Props.C80_index_beyond_output",
    "MiniOpt.Props.C80_make_residual",
    "MiniOpt.Props.C80_shift",
    "MiniOpt.Props.C80_clamp",
    "MiniOpt.Props.C80_constructor",
    "MiniOpt.Props.C80_null_space",
    "MiniOpt.Props.C80_select_step_size",
    "MiniOpt.Props.C80_example"
   ],
   "note": "A rejected call reports the first violated condition"
  },
  {
   "property": "C81",
   "status": "proved",
   "theorems": [
    "MiniOpt.Props.C81_exception_safety",
    "MiniOpt.Props.C81_rejected",
    "MiniOpt.Props.C81_repeatable",
    "MiniOpt.Props.C81_cost",
    "MiniOpt.Props.C81_bounds"
   ],
   "note": "An exception leaves the variables of the last complete iteration"
  },
  {
   "property": "C82",
   "status": "proved",
   "theorems": [
    "MiniOpt.Props.C82_constraint_order",
    "MiniOpt.Props.C82_factorisation",
    "MiniOpt.Props.C82_relabel",
    "MiniOpt.Props.C82_inconsistent_bounds"
   ],
   "note": "The QP solution does not depend on the order in which constraints are listed, nor on naming"
  },
  {
   "property": "C83",
   "status": "proved",
   "theorems": [
    "MiniOpt.Props.C83_order",
    "MiniOpt.Props.C83_order_iff"
   ],
   "note": "The nonlinear solver does not depend on the order of costs and bounds"
  },
  {
   "property": "C84",
   "status": "proved",
   "theorems": [
    "MiniOpt.Props.C84_subproblem",
    "MiniOpt.Props.C84_equalities_met",
    "MiniOpt.Props.C84_defaults"
   ],
   "note": "How the nonlinear solver runs its QP subproblems"
  },
  {
   "property": "C85",
   "status": "proved",
   "theorems": [
    "MiniOpt.Props.C85_constructor",
    "MiniOpt.Props.C85_unchanged_linearize",
    "MiniOpt.Props.C85_unchanged_start",
    "MiniOpt.Props.C85_enough_rows",
    "MiniOpt.Props.C85_too_many_rows",
    "MiniOpt.Props.C85_dimension_changed",
    "MiniOpt.Props.C85_too_few_rows",
    "MiniOpt.Props.C85_evaluate",
    "MiniOpt.Props.C85_replaced"
   ],
   "note": "Changing the problem after constructing the nonlinear solver"
  },
  {
   "property": "C86",
   "status": "proved",
   "theorems": [
    "MiniOpt.Props.C86_calls",
    "MiniOpt.Props.C86_counts",
    "MiniOpt.Props.C86_budget",
    "MiniOpt.Props.C86_record"
   ],
   "note": "Which user code the nonlinear solver calls, and when"
  },
  {
   "property": "C87",
   "status": "proved",
   "theorems": [
    "MiniOpt.Props.C87_log",
    "MiniOpt.Props.C87_counts",
    "MiniOpt.Props.C87_user_exceptions",
    "MiniOpt.Props.C87_solve",
    "MiniOpt.Props.C87_real",
    "MiniOpt.Props.C87_double"
   ],
   "note": "The log of a nonlinear solve is legal whatever the user code does"
  },
  {
   "property": "C88",
   "status": "proved",
   "theorems": [
    "MiniOpt.Props.C88_quadratic",
    "MiniOpt.Props.C88_result",
    "MiniOpt.Props.C88_finishes"
   ],
   "note": "Near a zero-residual solution the nonlinear solver converges quadratically"
  },
  {
   "property": "C89",
   "status": "proved",
   "theorems": [
    "MiniOpt.Props.C89_pointer",
    "MiniOpt.Props.C89_no_problem",
    "MiniOpt.Props.C89_null",
    "MiniOpt.Props.C89_set_variables",
    "MiniOpt.Props.C89_in_place",
    "MiniOpt.Props.C89_rejected"
   ],
   "note": "A QP solver object over its lifetime"
  },
  {
   "property": "C90",
   "status": "proved",
   "theorems": [
    "MiniOpt.Props.C90_infeasible",
    "MiniOpt.Props.C90_certificate",
    "MiniOpt.Props.C90_unbounded",
    "MiniOpt.Props.C90_conflicting_bounds"
   ],
   "note": "Infeasible and unbounded problems are not reported as solved"
  },
  {
   "property": "C91",
   "status": "proved",
   "theorems": [
    "MiniOpt.Props.C91_stationary_start",
    "MiniOpt.Props.C91_never_feasible"
   ],
   "note": "Bounds are not enforced from a start that violates them"
  },
  {
   "property": "C92",
   "status": "proved",
   "theorems": [
    "MiniOpt.Props.C92_recorded_scopes",
    "MiniOpt.Props.C92_plain_code",
    "MiniOpt.Props.C92_nested_times",
    "MiniOpt.Props.C92_printed_nesting",
    "MiniOpt.Props.C92_sticks_out"
   ],
   "note": "Which scopes a trace records, and their nesting"
  },
  {
   "property": "C93",
   "status": "proved",
   "theorems": [
    "MiniOpt.Props.C93_trace_of_log",
    "MiniOpt.Props.C93_trace_of_exception",
    "MiniOpt.Props.C93_event_count"
   ],
   "note": "The trace of a solve is determined by its log"
  },
  {
   "property": "C94",
   "status": "proved",
   "theorems": [
    "MiniOpt.Props.C94_random_matrix_diagonal",
    "MiniOpt.Props.C94_random_matrix_pd",
    "MiniOpt.Props.C94_generated_solution",
    "MiniOpt.Props.C94_needs_diagonal",
    "MiniOpt.Props.C94_eigen_near"
   ],
   "note": "The random test problems have the solution they claim"
  },
  {
   "property": "C95",
   "status": "proved",
   "theorems": [
    "MiniOpt.Props.C95_dual_residual",
    "MiniOpt.Props.C95_full_step",
    "MiniOpt.Props.C95_gap",
    "MiniOpt.Props.C95_complementarity",
    "MiniOpt.Props.C95_dual_can_appear"
   ],
   "note": "Effect of one interior point iteration on the dual residual and the duality gap"
  },
  {
   "property": "C96",
   "status": "proved",
   "theorems": [
    "MiniOpt.Props.C96_line_search",
    "MiniOpt.Props.C96_exhausted",
    "MiniOpt.Props.C96_no_max_lambda",
    "MiniOpt.Props.C96_total_slope",
    "MiniOpt.Props.C96_iteration_bound",
    "MiniOpt.Props.C96_gradient",
    "MiniOpt.Props.C96_lipschitz",
    "MiniOpt.Props.C96_damped"
   ],
   "note": "What smoothness of the cost guarantees (global convergence rate)"
  },
  {
   "property": "C97",
   "status": "proved",
   "theorems": [
    "MiniOpt.Props.C97_iteration",
    "MiniOpt.Props.C97_damping",
    "MiniOpt.Props.C97_damped_least_squares",
    "MiniOpt.Props.C97_relative_exit"
   ],
   "note": "Linear least squares with damping converge linearly, and superlinearly as the damping decays"
  },
  {
   "property": "C98",
   "status": "proved",
   "theorems": [
    "MiniOpt.Props.C98_iteration",
    "MiniOpt.Props.C98_full_step",
    "MiniOpt.Props.C98_progress",
    "MiniOpt.Props.C98_constrained_least_squares",
    "MiniOpt.Props.C98_feasible_start",
    "MiniOpt.Props.C98_full_step_refused"
   ],
   "note": "Linear least squares with linear equality constraints"
  },
  {
   "property": "C99",
   "status": "proved",
   "theorems": [
    "MiniOpt.Props.C99_message",
    "MiniOpt.Props.C99_reasons",
    "MiniOpt.Props.C99_braces",
    "MiniOpt.Props.C99_identifies",
    "MiniOpt.Props.C99_follow",
    "MiniOpt.Props.C99_assert",
    "MiniOpt.Props.C99_comparison",
    "MiniOpt.Props.C99_pure",
    "MiniOpt.Props.C99_evaluated_twice",
    "MiniOpt.Props.C99_fassert",
    "MiniOpt.Props.C99_nan",
    "MiniOpt.Props.C99_what",
    "MiniOpt.Props.C99_always",
    "MiniOpt.Props.C99_example"
   ],
   "note": "What the assertion macros do and what their messages say"
  },
  {
   "property": "C100",
   "status": "proved",
   "theorems": [
    "MiniOpt.Props.C100_files",
    "MiniOpt.Props.C100_order",
    "MiniOpt.Props.C100_unique",
    "MiniOpt.Props.C100_trace",
    "MiniOpt.Props.C100_events",
    "MiniOpt.Props.C100_written",
    "MiniOpt.Props.C100_doubles"
   ],
   "note": "The JSON text the library writes can be read in one way only"
  },
  {
   "property": "C101",
   "status": "proved",
   "theorems": [
    "MiniOpt.Props.C101_coordinates",
    "MiniOpt.Props.C101_affine",
    "MiniOpt.Props.C101_renaming",
    "MiniOpt.Props.C101_damping_matters",
    "MiniOpt.Props.C101_returns"
   ],
   "note": "A nonlinear solve does not depend on the coordinates the problem is written in"
  },
  {
   "property": "C102",
   "status": "proved",
   "theorems": [
    "MiniOpt.Props.C102_satisfied_double",
    "MiniOpt.Props.C102_complementarity_double",
    "MiniOpt.Props.C102_near_optimal_double",
    "MiniOpt.Props.C102_slop_small",
    "MiniOpt.Props.C102_demo"
   ],
   "note": "What SATISFIED_KKT_TOL means for the exact problem when the solver runs in doubles"
  },
  {
   "property": "C103",
   "status": "proved",
   "theorems": [
    "MiniOpt.Props.C103_logged_errors",
    "MiniOpt.Props.C103_absolute_exit",
    "MiniOpt.Props.C103_descent",
    "MiniOpt.Props.C103_demo"
   ],
   "note": "Logged costs are the exact costs up to rounding"
  },
  {
   "property": "C104",
   "status": "proved",
   "theorems": [
    "MiniOpt.Props.C104_update_hessian",
    "MiniOpt.Props.C104_linearize",
    "MiniOpt.Props.C104_step",
    "MiniOpt.Props.C104_demo",
    "MiniOpt.Props.C104_rounds"
   ],
   "note": "The Gauss-Newton problem in doubles is the exact one up to rounding"
  },
  {
   "property": "C105",
   "status": "proved",
   "theorems": [
    "MiniOpt.Props.C105_direction",
    "MiniOpt.Props.C105_residuals",
    "MiniOpt.Props.C105_equality_bound",
    "MiniOpt.Props.C105_refinement"
   ],
   "note": "Linear solves that are not exact"
  },
  {
   "property": "C106",
   "status": "proved",
   "theorems": [
    "MiniOpt.Props.C106_slope",
    "MiniOpt.Props.C106_descent_direction",
    "MiniOpt.Props.C106_first_order_exit",
    "MiniOpt.Props.C106_demo"
   ],
   "note": "Slopes and the first-order exit in doubles"
  },
  {
   "property": "C107",
   "status": "proved",
   "theorems": [
    "MiniOpt.Props.C107_signs",
    "MiniOpt.Props.C107_near_optimal",
    "MiniOpt.Props.C107_underflowed_step",
    "MiniOpt.Props.C107_demo"
   ],
   "note": "Signs of slacks and multipliers along a whole run in doubles"
  },
  {
   "property": "C108",
   "status": "proved",
   "theorems": [
    "MiniOpt.Props.C108_bound_step",
    "MiniOpt.Props.C108_bounds_kept",
    "MiniOpt.Props.C108_error_size",
    "MiniOpt.Props.C108_demo"
   ],
   "note": "Bounds on the variables in doubles"
  },
  {
   "property": "C109",
   "status": "proved",
   "theorems": [
    "MiniOpt.Props.C109_qp_exceptions",
    "MiniOpt.Props.C109_nls_exceptions",
    "MiniOpt.Props.C109_overflow",
    "MiniOpt.Props.C109_qp_outcomes",
    "MiniOpt.Props.C109_start_overflow"
   ],
   "note": "Which exceptions the solvers can throw in doubles"
  },
  {
   "property": "C110",
   "status": "proved",
   "theorems": [
    "MiniOpt.Props.C110_full_step",
    "MiniOpt.Props.C110_accepted",
    "MiniOpt.Props.C110_refused",
    "MiniOpt.Props.C110_default",
    "MiniOpt.Props.C110_units"
   ],
   "note": "Full steps and curved equality constraints"
  },
  {
   "property": "C111",
   "status": "proved",
   "theorems": [
    "MiniOpt.Props.C111_solves",
    "MiniOpt.Props.C111_contract",
    "MiniOpt.Props.C111_success",
    "MiniOpt.Props.C111_solve",
    "MiniOpt.Props.C111_equality_guess",
    "MiniOpt.Props.C111_fixed",
    "MiniOpt.Props.C111_units"
   ],
   "note": "When the interior point solver's factorisation fails"
  },
  {
   "property": "C112",
   "status": "proved",
   "theorems": [
    "MiniOpt.Props.C112_bound_throws",
    "MiniOpt.Props.C112_without_bound",
    "MiniOpt.Props.C112_damped",
    "MiniOpt.Props.C112_returns",
    "MiniOpt.Props.C112_throws"
   ],
   "note": "Nonlinear problems on which Solve throws or cannot throw"
  },
  {
   "property": "C113",
   "status": "proved",
   "theorems": [
    "MiniOpt.Props.C113_contract",
    "MiniOpt.Props.C113_outcome",
    "MiniOpt.Props.C113_when",
    "MiniOpt.Props.C113_orthogonal",
    "MiniOpt.Props.C113_units"
   ],
   "note": "The null-space solver with Eigen's factorisations"
  },
  {
   "property": "C114",
   "status": "proved",
   "theorems": [
    "MiniOpt.Props.C114_units",
    "MiniOpt.Props.C114_ub",
    "MiniOpt.Props.C114_returns"
   ],
   "note": "Units of the equality constraints"
  },
  {
   "property": "C115",
   "status": "proved",
   "theorems": [
    "MiniOpt.Props.C115_least_squares",
    "MiniOpt.Props.C115_equality_returns",
    "MiniOpt.Props.C115_constrained_least_squares",
    "MiniOpt.Props.C115_quadratic_program"
   ],
   "note": "The solvers with Eigen's factorisations, from the call to the result"
  },
  {
   "property": "C116",
   "status": "proved",
   "theorems": [
    "MiniOpt.Props.C116_resume",
    "MiniOpt.Props.C116_same_parameters",
    "MiniOpt.Props.C116_again",
    "MiniOpt.Props.C116_valid",
    "MiniOpt.Props.C116_valid_double",
    "MiniOpt.Props.C116_slices"
   ],
   "note": "Stopping a nonlinear solve and going on with a second call"
  },
  {
   "property": "C117",
   "status": "proved",
   "theorems": [
    "MiniOpt.Props.C117_factors",
    "MiniOpt.Props.C117_solve",
    "MiniOpt.Props.C117_constant",
    "MiniOpt.Props.C117_no_growth",
    "MiniOpt.Props.C117_inverse",
    "MiniOpt.Props.C117_step",
    "MiniOpt.Props.C117_demo",
    "MiniOpt.Props.C117_demo_step",
    "MiniOpt.Props.C117_unstable",
    "MiniOpt.Props.C117_first_step"
   ],
   "note": "Rounding errors of the linear solves of the interior point solver"
  },
  {
   "property": "C118",
   "status": "proved",
   "theorems": [
    "MiniOpt.Props.C118_units",
    "MiniOpt.Props.C118_cost_units",
    "MiniOpt.Props.C118_similarity",
    "MiniOpt.Props.C118_defaults_carry_units"
   ],
   "note": "Changing the units of the residuals and of the variables"
  },
  {
   "property": "C119",
   "status": "proved",
   "theorems": [
    "MiniOpt.Props.C119_small_cost",
    "MiniOpt.Props.C119_start",
    "MiniOpt.Props.C119_last_improvement"
   ],
   "note": "A small cost is never improved"
  },
  {
   "property": "C120",
   "status": "proved",
   "theorems": [
    "MiniOpt.Props.C120_units",
    "MiniOpt.Props.C120_signs",
    "MiniOpt.Props.C120_cost_units_matter"
   ],
   "note": "The interior point iteration does not depend on the units"
  },
  {
   "property": "C121",
   "status": "proved",
   "theorems": [
    "MiniOpt.Props.C121_damping_slope",
    "MiniOpt.Props.C121_damping_length",
    "MiniOpt.Props.C121_again",
    "MiniOpt.Props.C121_after_absolute"
   ],
   "note": "Calling Solve again from its own result, and what more damping does"
  },
  {
   "property": "C122",
   "status": "proved",
   "theorems": [
    "MiniOpt.Props.C122_exact_is_minimiser",
    "MiniOpt.Props.C122_distance",
    "MiniOpt.Props.C122_strongly_convex",
    "MiniOpt.Props.C122_active_set",
    "MiniOpt.Props.C122_solvers_agree",
    "MiniOpt.Props.C122_inactive",
    "MiniOpt.Props.C122_which_returns"
   ],
   "note": "How far a reported QP solution is from the exact one, and how the two QP solvers compare"
  },
  {
   "property": "C123",
   "status": "proved",
   "theorems": [
    "MiniOpt.Props.C123_concurrent_solves",
    "MiniOpt.Props.C123_can_finish"
   ],
   "note": "The trace of nonlinear solves that run on several threads"
  },
  {
   "property": "C124",
   "status": "proved",
   "theorems": [
    "MiniOpt.Props.C124_penalty_bounded",
    "MiniOpt.Props.C124_violation_sum",
    "MiniOpt.Props.C124_terminates",
    "MiniOpt.Props.C124_independent"
   ],
   "note": "With equality constraints the penalty stays bounded and the solver stops by itself"
  },
  {
   "property": "C125",
   "status": "proved",
   "theorems": [
    "MiniOpt.Props.C125_line_search",
    "MiniOpt.Props.C125_total_slope",
    "MiniOpt.Props.C125_iteration_bound",
    "MiniOpt.Props.C125_no_max_lambda",
    "MiniOpt.Props.C125_converges",
    "MiniOpt.Props.C125_lipschitz"
   ],
   "note": "With smooth cost and equality constraints the line search never fails and the number of iterations is bounded explicitly"
  },
  {
   "property": "C126",
   "status": "proved",
   "theorems": [
    "MiniOpt.Props.C126_quadratic",
    "MiniOpt.Props.C126_result",
    "MiniOpt.Props.C126_finishes",
    "MiniOpt.Props.C126_direction",
    "MiniOpt.Props.C126_independent"
   ],
   "note": "Near a point where all costs and equality constraints vanish the solver converges quadratically if the penalty is small"
  },
  {
   "property": "C127",
   "status": "proved",
   "theorems": [
    "MiniOpt.Props.C127_linear",
    "MiniOpt.Props.C127_result",
    "MiniOpt.Props.C127_finishes"
   ],
   "note": "Near a minimum with small but nonzero residual the solver converges linearly with full steps"
  },
  {
   "property": "C128",
   "status": "proved",
   "theorems": [
    "MiniOpt.Props.C128_line_search",
    "MiniOpt.Props.C128_iteration_bound",
    "MiniOpt.Props.C128_solved",
    "MiniOpt.Props.C128_exact"
   ],
   "note": "With bounds, or inexact linear solves, a smooth cost is minimised in a bounded number of iterations"
  },
  {
   "property": "C129",
   "status": "proved",
   "theorems": [
    "MiniOpt.Props.C129_flip",
    "MiniOpt.Props.C129_any"
   ],
   "note": "With bounds: the numbering, sign and origin of the variables do not matter"
  },
  {
   "property": "C130",
   "status": "proved",
   "theorems": [
    "MiniOpt.Props.C130_returns",
    "MiniOpt.Props.C130_no_bounds",
    "MiniOpt.Props.C130_bounds"
   ],
   "note": "The order in which costs, bounds and equality constraints are listed does not matter"
  },
  {
   "property": "C131",
   "status": "proved",
   "theorems": [
    "MiniOpt.Props.C131_regular_equalities"
   ],
   "note": "A problem with equality constraints only is solved without complaint when its linearizations are regular"
  },
  {
   "property": "C132",
   "status": "proved",
   "theorems": [
    "MiniOpt.Props.C132_prefix",
    "MiniOpt.Props.C132_looser",
    "MiniOpt.Props.C132_qp"
   ],
   "note": "The iteration limit, the exit tolerances and max_lambda only decide when to stop"
  },
  {
   "property": "C133",
   "status": "proved",
   "theorems": [
    "MiniOpt.Props.C133_callback",
    "MiniOpt.Props.C133_accepting",
    "MiniOpt.Props.C133_eigenvalues"
   ],
   "note": "Watching a nonlinear solve does not change it"
  },
  {
   "property": "C134",
   "status": "proved",
   "theorems": [
    "MiniOpt.Props.C134_normalised",
    "MiniOpt.Props.C134_angles"
   ],
   "note": "Normalising the variables in the retraction does not change a solve"
  },
  {
   "property": "C135",
   "status": "proved",
   "theorems": [
    "MiniOpt.Props.C135_squares",
    "MiniOpt.Props.C135_rotated",
    "MiniOpt.Props.C135_components"
   ],
   "note": "Only the sum of squares matters, not the residuals it is written with"
  },
  {
   "property": "C136",
   "status": "proved",
   "theorems": [
    "MiniOpt.Props.C136_symmetric",
    "MiniOpt.Props.C136_symmetric_bounds",
    "MiniOpt.Props.C136_unread",
    "MiniOpt.Props.C136_unread_bounds",
    "MiniOpt.Props.C136_symmetric_throughout",
    "MiniOpt.Props.C136_symmetric_bounds_throughout",
    "MiniOpt.Props.C136_unread_throughout",
    "MiniOpt.Props.C136_unread_bounds_throughout"
   ],
   "note": "A symmetric problem started symmetric stays symmetric; variables nothing reads stay where they are"
  }
 ]
}