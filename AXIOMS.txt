'MiniOpt.Props.C01_clamp_projects' depends on axioms: [propext, Classical.choice, Quot.sound]
'MiniOpt.Props.C01_double_var' depends on axioms: [propext, Classical.choice, Quot.sound]
'MiniOpt.Props.C01_double_infeasible' depends on axioms: [propext, Classical.choice, Quot.sound]
'MiniOpt.Props.C02_shift' depends on axioms: [propext, Classical.choice, Quot.sound]
'MiniOpt.Props.C02_shift_shift' depends on axioms: [propext, Classical.choice, Quot.sound]
'MiniOpt.Props.C02_shift_vector' depends on axioms: [propext, Classical.choice, Quot.sound]
'MiniOpt.Props.C03_var_bounds' depends on axioms: [propext, Classical.choice, Quot.sound]
'MiniOpt.Props.C03_double' depends on axioms: [propext, Classical.choice, Quot.sound]
'MiniOpt.Props.C03_double_finite' depends on axioms: [propext, Classical.choice, Quot.sound]
'MiniOpt.Props.C04_sequential_clamp' depends on axioms: [propext, Classical.choice, Quot.sound]
'MiniOpt.Props.C04_double_var' depends on axioms: [propext, Classical.choice, Quot.sound]
'MiniOpt.Props.C05_setup_exact' depends on axioms: [propext, Classical.choice, Quot.sound]
'MiniOpt.Props.C05_which_assertion' depends on axioms: [propext, Classical.choice, Quot.sound]
'MiniOpt.Props.C05_accepted_in_range' depends on axioms: [propext, Classical.choice, Quot.sound]
'MiniOpt.Props.C05_solve_ub_iff' depends on axioms: [propext, Classical.choice, Quot.sound]
'MiniOpt.Props.C05_negative_index_accepted' depends on axioms: [propext, Classical.choice, Quot.sound]
'MiniOpt.Props.C06_double' depends on axioms: [propext, Classical.choice, Quot.sound]
'MiniOpt.Props.C06_params_validated' depends on axioms: [propext, Classical.choice, Quot.sound]
'MiniOpt.Props.C07_double_step' depends on axioms: [propext, Classical.choice, Quot.sound]
'MiniOpt.Props.C07_double_underflow' depends on axioms: [propext, Classical.choice, Quot.sound]
'MiniOpt.Props.C07_slacks_positive' depends on axioms: [propext, Classical.choice, Quot.sound]
'MiniOpt.Props.C07_user_slack_needed' depends on axioms: [propext, Classical.choice, Quot.sound]
'MiniOpt.Props.C08_step_length' depends on axioms: [propext, Classical.choice, Quot.sound]
'MiniOpt.Props.C08_documented_bound_false' depends on axioms: [propext, Classical.choice, Quot.sound]
'MiniOpt.Props.C09_newton_direction' depends on axioms: [propext, Classical.choice, Quot.sound]
'MiniOpt.Props.C09_full_system' depends on axioms: [propext, Classical.choice, Quot.sound]
'MiniOpt.Props.C10_ineq_residual_step' depends on axioms: [propext, Classical.choice, Quot.sound]
'MiniOpt.Props.C10_eq_residual_step' depends on axioms: [propext, Classical.choice, Quot.sound]
'MiniOpt.Props.C10_ineq_residuals' depends on axioms: [propext, Classical.choice, Quot.sound]
'MiniOpt.Props.C10_eq_residuals' depends on axioms: [propext, Classical.choice, Quot.sound]
'MiniOpt.Props.C11_satisfied_truthful' depends on axioms: [propext, Classical.choice, Quot.sound]
'MiniOpt.Props.C11_nearly_feasible' depends on axioms: [propext, Classical.choice, Quot.sound]
'MiniOpt.Props.C12_near_optimal' depends on axioms: [propext, Classical.choice, Quot.sound]
'MiniOpt.Props.C13_iteration_count' depends on axioms: [propext, Classical.choice, Quot.sound]
'MiniOpt.Props.C13_prefix' depends on axioms: [propext, Classical.choice, Quot.sound]
'MiniOpt.Props.C14_log_chain' depends on axioms: [propext, Classical.choice, Quot.sound]
'MiniOpt.Props.C15_one_iteration' depends on axioms: [propext, Classical.choice, Quot.sound]
'MiniOpt.Props.C15_needs_positive_tol' depends on axioms: [propext, Classical.choice, Quot.sound]
'MiniOpt.Props.C16_barrier_schedule' depends on axioms: [propext, Classical.choice, Quot.sound]
'MiniOpt.Props.C16_fixed_decrease' depends on axioms: [propext, Classical.choice, Quot.sound]
'MiniOpt.Props.C17_double_cancellation' depends on axioms: [propext, Classical.choice, Quot.sound]
'MiniOpt.Props.C17_r_comp' depends on axioms: [propext, Classical.choice, Quot.sound]
'MiniOpt.Props.C18_mu_affine' depends on axioms: [propext, Classical.choice, Quot.sound]
'MiniOpt.Props.C18_first_iteration_right' depends on axioms: [propext, Classical.choice, Quot.sound]
'MiniOpt.Props.C18_later_iterations_wrong' depends on axioms: [propext, Classical.choice, Quot.sound]
'MiniOpt.Props.C19_no_leak' depends on axioms: [propext, Classical.choice, Quot.sound]
'MiniOpt.Props.C19_repeat' depends on axioms: [propext, Classical.choice, Quot.sound]
'MiniOpt.Props.C20_lagrange_summary' depends on axioms: [propext, Classical.choice, Quot.sound]
'MiniOpt.Props.C21_blocks_cover' depends on axioms: [propext, Quot.sound]
'MiniOpt.Props.C21_flatten' depends on axioms: [propext, Quot.sound]
'MiniOpt.Props.C21_write_independent' depends on axioms: [propext, Quot.sound]
'MiniOpt.Props.C21_setVariables_unchecked' depends on axioms: [propext]
'MiniOpt.Props.C22_initial_guess' depends on axioms: [propext, Classical.choice, Quot.sound]
'MiniOpt.Props.C22_naive' depends on axioms: [propext, Classical.choice, Quot.sound]
'MiniOpt.Props.C22_user_provided' depends on axioms: [propext, Classical.choice, Quot.sound]
'MiniOpt.Props.C22_solve_equality' depends on axioms: [propext, Classical.choice, Quot.sound]
'MiniOpt.Props.C22_kkt_is_minimiser' depends on axioms: [propext, Classical.choice, Quot.sound]
'MiniOpt.Props.C22_nearest' depends on axioms: [propext, Classical.choice, Quot.sound]
'MiniOpt.Props.C23_bounds_respected' depends on axioms: [propext, Classical.choice, Quot.sound]
'MiniOpt.Props.C24_nonsingular' depends on axioms: [propext, Classical.choice, Quot.sound]
'MiniOpt.Props.C24_dependent_rows_singular' depends on axioms: [propext, Classical.choice, Quot.sound]
'MiniOpt.Props.C24_nonsingular_iff' depends on axioms: [propext, Classical.choice, Quot.sound]
'MiniOpt.Props.C25_null_space' depends on axioms: [propext, Quot.sound]
'MiniOpt.Props.C25_only_lower_triangle' depends on axioms: [propext, Classical.choice, Quot.sound]
'MiniOpt.Props.C26_null_space_minimiser' depends on axioms: [propext, Classical.choice, Quot.sound]
'MiniOpt.Props.C27_needs_independent_rows' depends on axioms: [propext, Classical.choice, Quot.sound]
'MiniOpt.Props.C28_not_posdef_truthful' depends on axioms: [propext, Classical.choice, Quot.sound]
'MiniOpt.Props.C29_update_hessian_general' depends on axioms: [propext, Classical.choice, Quot.sound]
'MiniOpt.Props.C29_update_hessian' depends on axioms: [propext, Classical.choice, Quot.sound]
'MiniOpt.Props.C29_repeated_index_wrong' depends on axioms: [propext, Classical.choice, Quot.sound]
'MiniOpt.Props.C30_errors_agree' depends on axioms: [propext, Classical.choice, Quot.sound]
'MiniOpt.Props.C31_update_jacobian' depends on axioms: [propext, Classical.choice, Quot.sound]
'MiniOpt.Props.C31_update_jacobian_zero' depends on axioms: [propext, Classical.choice, Quot.sound]
'MiniOpt.Props.C31_repeated_index_wrong' depends on axioms: [propext, Classical.choice, Quot.sound]
'MiniOpt.Props.C32_bad_index_throws' depends on axioms: [propext, Classical.choice, Quot.sound]
'MiniOpt.Props.C32_no_out_of_range' depends on axioms: [propext, Classical.choice, Quot.sound]
'MiniOpt.Props.C32_callable_throws' depends on axioms: [propext, Classical.choice, Quot.sound]
'MiniOpt.Props.C32_bad_outputs_throw' depends on axioms: [propext, Classical.choice, Quot.sound]
'MiniOpt.Props.C33_linearize_order' depends on axioms: [propext, Classical.choice, Quot.sound]
'MiniOpt.Props.C33_evaluate_order' depends on axioms: [propext, Classical.choice, Quot.sound]
'MiniOpt.Props.C34_gauss_newton' depends on axioms: [propext, Classical.choice, Quot.sound]
'MiniOpt.Props.C35_merit_derivative' depends on axioms: [propext, Classical.choice, Quot.sound]
'MiniOpt.Props.C35_exact_step' depends on axioms: [propext, Classical.choice, Quot.sound]
'MiniOpt.Props.C35_null_space' depends on axioms: [propext, Classical.choice, Quot.sound]
'MiniOpt.Props.C35_default_retraction' depends on axioms: [propext, Classical.choice, Quot.sound]
'MiniOpt.Props.C36_double' depends on axioms: [propext, Classical.choice, Quot.sound]
'MiniOpt.Props.C36_sufficient_decrease' depends on axioms: [propext, Classical.choice, Quot.sound]
'MiniOpt.Props.C37_double' depends on axioms: [propext, Classical.choice, Quot.sound]
'MiniOpt.Props.C37_cost_never_increases' depends on axioms: [propext, Classical.choice, Quot.sound]
'MiniOpt.Props.C38_after' depends on axioms: [propext, Classical.choice, Quot.sound]
'MiniOpt.Props.C38_variables_move' depends on axioms: [propext, Classical.choice, Quot.sound]
'MiniOpt.Props.C38_direction' depends on axioms: [propext, Classical.choice, Quot.sound]
'MiniOpt.Props.C39_logged_errors' depends on axioms: [propext, Classical.choice, Quot.sound]
'MiniOpt.Props.C39_errors_chain' depends on axioms: [propext, Classical.choice, Quot.sound]
'MiniOpt.Props.C40_double' depends on axioms: [propext, Classical.choice, Quot.sound]
'MiniOpt.Props.C40_alphas_any' depends on axioms: [propext, Classical.choice, Quot.sound]
'MiniOpt.Props.C40_only_last_accepted' depends on axioms: [propext, Classical.choice, Quot.sound]
'MiniOpt.Props.C40_alphas' depends on axioms: [propext, Classical.choice, Quot.sound]
'MiniOpt.Props.C41_quadratic' depends on axioms: [propext, Classical.choice, Quot.sound]
'MiniOpt.Props.C41_zero_slope' depends on axioms: [propext, Classical.choice, Quot.sound]
'MiniOpt.Props.C41_first_interpolation' depends on axioms: [propext, Classical.choice, Quot.sound]
'MiniOpt.Props.C42_coefficients' depends on axioms: [propext, Classical.choice, Quot.sound]
'MiniOpt.Props.C42_stationary' depends on axioms: [propext, Classical.choice, Quot.sound]
'MiniOpt.Props.C42_in_range' depends on axioms: [propext, Classical.choice, Quot.sound]
'MiniOpt.Props.C42_contracts' depends on axioms: [propext, Classical.choice, Quot.sound]
'MiniOpt.Props.C42_quadratic_data' depends on axioms: [propext, Classical.choice, Quot.sound]
'MiniOpt.Props.C42_later_interpolations' depends on axioms: [propext, Classical.choice, Quot.sound]
'MiniOpt.Props.C42_never_fails' depends on axioms: [propext, Classical.choice, Quot.sound]
'MiniOpt.Props.C42_invalid_alpha_cause' depends on axioms: [propext, Classical.choice, Quot.sound]
'MiniOpt.Props.C43_double' depends on axioms: [propext, Classical.choice, Quot.sound]
'MiniOpt.Props.C43_state_machine' depends on axioms: [propext, Classical.choice, Quot.sound]
'MiniOpt.Props.C43_lambda_limits' depends on axioms: [propext, Classical.choice, Quot.sound]
'MiniOpt.Props.C44_double' depends on axioms: [propext, Classical.choice, Quot.sound]
'MiniOpt.Props.C44_penalty_update' depends on axioms: [propext, Classical.choice, Quot.sound]
'MiniOpt.Props.C44_penalty' depends on axioms: [propext, Classical.choice, Quot.sound]
'MiniOpt.Props.C45_which_solver' depends on axioms: [propext, Classical.choice, Quot.sound]
'MiniOpt.Props.C45_descent' depends on axioms: [propext, Classical.choice, Quot.sound]
'MiniOpt.Props.C46_termination' depends on axioms: [propext, Classical.choice, Quot.sound]
'MiniOpt.Props.C46_exits_are_taken' depends on axioms: [propext, Classical.choice, Quot.sound]
'MiniOpt.Props.C46_absolute_exit' depends on axioms: [propext, Classical.choice, Quot.sound]
'MiniOpt.Props.C47_numbering_and_callback' depends on axioms: [propext, Classical.choice, Quot.sound]
'MiniOpt.Props.C47_verdict' depends on axioms: [propext, Classical.choice, Quot.sound]
'MiniOpt.Props.C48_double' depends on axioms: [propext, Classical.choice, Quot.sound]
'MiniOpt.Props.C48_stall_forever' depends on axioms: [propext, Classical.choice, Quot.sound]
'MiniOpt.Props.C48_stall' depends on axioms: [propext, Classical.choice, Quot.sound]
'MiniOpt.Props.C48_real' depends on axioms: [propext, Classical.choice, Quot.sound]
'MiniOpt.Props.C49_iteration' depends on axioms: [propext, Classical.choice, Quot.sound]
'MiniOpt.Props.C49_bounds' depends on axioms: [propext, Classical.choice, Quot.sound]
'MiniOpt.Props.C50_iteration' depends on axioms: [propext, Classical.choice, Quot.sound]
'MiniOpt.Props.C50_linear_least_squares' depends on axioms: [propext, Classical.choice, Quot.sound]
'MiniOpt.Props.C51_repeatable' depends on axioms: [propext, Classical.choice, Quot.sound]
'MiniOpt.Props.C51_history' depends on axioms: [propext, Classical.choice, Quot.sound]
'MiniOpt.Props.C52_double' depends on axioms: [propext, Classical.choice, Quot.sound]
'MiniOpt.Props.C52_rejected' depends on axioms: [propext, Classical.choice, Quot.sound]
'MiniOpt.Props.C52_accepted' depends on axioms: [propext, Classical.choice, Quot.sound]
'MiniOpt.Props.C52_zero_iterations' depends on axioms: [propext, Classical.choice, Quot.sound]
'MiniOpt.Props.C52_zero_penalty_fatal' depends on axioms: [propext, Classical.choice, Quot.sound]
'MiniOpt.Props.C52_zero_penalty_witness' depends on axioms: [propext, Classical.choice, Quot.sound]
'MiniOpt.Props.C53_wrong_size' depends on axioms: [propext, Classical.choice, Quot.sound]
'MiniOpt.Props.C53_index_outside' depends on axioms: [propext, Classical.choice, Quot.sound]
'MiniOpt.Props.C53_unchecked_size' depends on axioms: [propext, Classical.choice, Quot.sound]
'MiniOpt.Props.C54_counters' depends on axioms: [propext, Quot.sound]
'MiniOpt.Props.C54_additive' depends on axioms: [propext, Quot.sound]
'MiniOpt.Props.C54_bounds' depends on axioms: [propext, Classical.choice, Quot.sound]
'MiniOpt.Props.C55_names_injective' depends on axioms: [propext, Classical.choice, Quot.sound]
'MiniOpt.Props.C55_satisfied' depends on axioms: [propext, Classical.choice, Quot.sound]
'MiniOpt.Props.C56_iteration' depends on axioms: [propext, Classical.choice, Quot.sound]
'MiniOpt.Props.C56_outputs' depends on axioms: [propext, Classical.choice, Quot.sound]
'MiniOpt.Props.C57_value_round_trip' depends on axioms: [propext, Classical.choice, Quot.sound]
'MiniOpt.Props.C58_text_round_trip' depends on axioms: [propext, Classical.choice, Quot.sound]
'MiniOpt.Props.C58_interior_point_logs' depends on axioms: [propext, Classical.choice, Quot.sound]
'MiniOpt.Props.C58_null_space_logs' depends on axioms: [propext, Classical.choice, Quot.sound]
'MiniOpt.Props.C59_enum_decoding' depends on axioms: [propext, Classical.choice, Quot.sound]
'MiniOpt.Props.C60_newest_events' depends on axioms: [propext, Quot.sound]
'MiniOpt.Props.C60_program_order' depends on axioms: [propext, Quot.sound]
'MiniOpt.Props.C60_bounded' depends on axioms: [propext, Quot.sound]
'MiniOpt.Props.C60_no_deadlock' depends on axioms: [propext, Quot.sound]
'MiniOpt.Props.C61_race_needs_dump' depends on axioms: [propext, Quot.sound]
'MiniOpt.Props.C61_submit_race_free' depends on axioms: [propext, Quot.sound]
'MiniOpt.Props.C61_dump_races' depends on axioms: [propext, Classical.choice, Quot.sound]
'MiniOpt.Props.C62_valid_json' depends on axioms: [propext, Classical.choice, Quot.sound]
'MiniOpt.Props.C62_quote_breaks' depends on axioms: [propext, Classical.choice, Quot.sound]
'MiniOpt.Props.C63_qp_exit' depends on axioms: [propext, Classical.choice, Quot.sound]
'MiniOpt.Props.C63_nls_success' depends on axioms: [propext, Classical.choice, Quot.sound]
'MiniOpt.Props.C63_max_masks_nan' depends on axioms: [propext, Classical.choice, Quot.sound]
'MiniOpt.Props.C64_qp_exceptions' depends on axioms: [propext, Classical.choice, Quot.sound]
'MiniOpt.Props.C65_nls_exceptions' depends on axioms: [propext, Classical.choice, Quot.sound]
'MiniOpt.Props.C66_missing_member' depends on axioms: [propext, Classical.choice, Quot.sound]
'MiniOpt.Props.C67_levenberg_marquardt' depends on axioms: [propext, Classical.choice, Quot.sound]
'MiniOpt.Props.C68_interior_descent' depends on axioms: [propext, Classical.choice, Quot.sound]
'MiniOpt.Props.C68_solved_gap' depends on axioms: [propext, Classical.choice, Quot.sound]
'MiniOpt.Props.C69_first_order_bounds' depends on axioms: [propext, Classical.choice, Quot.sound]
'MiniOpt.Props.C69_first_order_free' depends on axioms: [propext, Classical.choice, Quot.sound]
'MiniOpt.Props.C69_first_order_equality' depends on axioms: [propext, Classical.choice, Quot.sound]
'MiniOpt.Props.C70_pose_apply' depends on axioms: [propext, Classical.choice, Quot.sound]
'MiniOpt.Props.C70_pose_product' depends on axioms: [propext, Classical.choice, Quot.sound]
'MiniOpt.Props.C70_pose_inverse' depends on axioms: [propext, Classical.choice, Quot.sound]
'MiniOpt.Props.C70_pose_matrix' depends on axioms: [propext, Classical.choice, Quot.sound]
'MiniOpt.Props.C70_inverse_needs_unit' depends on axioms: [propext, Classical.choice, Quot.sound]
'MiniOpt.Props.C70_inverse_rotation' depends on axioms: [propext, Classical.choice, Quot.sound]
'MiniOpt.Props.C71_frames_to_end' depends on axioms: [propext, Classical.choice, Quot.sound]
'MiniOpt.Props.C71_start_T_end' depends on axioms: [propext, Classical.choice, Quot.sound]
'MiniOpt.Props.C71_all_poses' depends on axioms: [propext, Classical.choice, Quot.sound]
'MiniOpt.Props.C71_empty' depends on axioms: [propext, Classical.choice, Quot.sound]
'MiniOpt.Props.C72_chain_derivatives' depends on axioms: [propext, Classical.choice, Quot.sound]
'MiniOpt.Props.C72_one_link' depends on axioms: [propext, Classical.choice, Quot.sound]
'MiniOpt.Props.C73_update_derivatives' depends on axioms: [propext, Classical.choice, Quot.sound]
'MiniOpt.Props.C74_tolerance' depends on axioms: [propext, Classical.choice, Quot.sound]
'MiniOpt.Props.C74_nan_ignored' depends on axioms: [propext, Classical.choice, Quot.sound]
'MiniOpt.Props.C74_layout' depends on axioms: [propext, Classical.choice, Quot.sound]
'MiniOpt.Props.C74_cached' depends on axioms: [propext, Classical.choice, Quot.sound]
'MiniOpt.Props.C74_wrong_size' depends on axioms: [propext, Classical.choice, Quot.sound]
'MiniOpt.Props.C74_no_active' depends on axioms: [propext, Classical.choice, Quot.sound]
'MiniOpt.Props.C75_round_trip' depends on axioms: [propext, Classical.choice, Quot.sound]
'MiniOpt.Props.C76_double' depends on axioms: [propext, Classical.choice, Quot.sound]
'MiniOpt.Props.C76_accepted_steps' depends on axioms: [propext, Classical.choice, Quot.sound]
'MiniOpt.Props.C76_accepted_steps_unconstrained' depends on axioms: [propext, Classical.choice, Quot.sound]
'MiniOpt.Props.C76_total_decrease' depends on axioms: [propext, Classical.choice, Quot.sound]
'MiniOpt.Props.C77_double' depends on axioms: [propext, Classical.choice, Quot.sound]
'MiniOpt.Props.C77_failed_steps' depends on axioms: [propext, Classical.choice, Quot.sound]
'MiniOpt.Props.C77_zero_failure_init' depends on axioms: [propext, Classical.choice, Quot.sound]
'MiniOpt.Props.C78_double' depends on axioms: [propext, Classical.choice, Quot.sound]
'MiniOpt.Props.C78_iteration_bound' depends on axioms: [propext, Classical.choice, Quot.sound]
'MiniOpt.Props.C78_terminates' depends on axioms: [propext, Classical.choice, Quot.sound]
'MiniOpt.Props.C79_qp_iteration_text' depends on axioms: [propext, Classical.choice, Quot.sound]
'MiniOpt.Props.C79_iteration_text' depends on axioms: [propext, Classical.choice, Quot.sound]
'MiniOpt.Props.C79_report_text' depends on axioms: [propext, Classical.choice, Quot.sound]
'MiniOpt.Props.C79_iteration_lines' depends on axioms: [propext, Classical.choice, Quot.sound]
'MiniOpt.Props.C79_report_lines' depends on axioms: [propext, Classical.choice, Quot.sound]
'MiniOpt.Props.C79_example' depends on axioms: [propext, Classical.choice, Quot.sound]
'MiniOpt.Props.C80_qp_params' depends on axioms: [propext, Classical.choice, Quot.sound]
'MiniOpt.Props.C80_nls_params' depends on axioms: [propext, Classical.choice, Quot.sound]
'MiniOpt.Props.C80_residual_indices' depends on axioms: [propext, Classical.choice, Quot.sound]
'MiniOpt.Props.C80_residual_outputs' depends on axioms: [propext, Classical.choice, Quot.sound]
'MiniOpt.Props.C80_index_beyond_output' depends on axioms: [propext, Classical.choice, Quot.sound]
'MiniOpt.Props.C80_make_residual' depends on axioms: [propext, Quot.sound]
'MiniOpt.Props.C80_shift' depends on axioms: [propext, Quot.sound]
'MiniOpt.Props.C80_clamp' does not depend on any axioms 'MiniOpt.Props.C80_constructor' depends on axioms: [propext, Classical.choice, Quot.sound]
'MiniOpt.Props.C80_null_space' depends on axioms: [propext, Quot.sound]
'MiniOpt.Props.C80_select_step_size' depends on axioms: [propext, Classical.choice, Quot.sound]
'MiniOpt.Props.C80_example' depends on axioms: [propext, Classical.choice, Quot.sound]
'MiniOpt.Props.C81_exception_safety' depends on axioms: [propext, Classical.choice, Quot.sound]
'MiniOpt.Props.C81_rejected' depends on axioms: [propext, Classical.choice, Quot.sound]
'MiniOpt.Props.C81_repeatable' depends on axioms: [propext, Classical.choice, Quot.sound]
'MiniOpt.Props.C81_cost' depends on axioms: [propext, Classical.choice, Quot.sound]
'MiniOpt.Props.C81_bounds' depends on axioms: [propext, Classical.choice, Quot.sound]
'MiniOpt.Props.C82_constraint_order' depends on axioms: [propext, Classical.choice, Quot.sound]
'MiniOpt.Props.C82_factorisation' depends on axioms: [propext, Classical.choice, Quot.sound]
'MiniOpt.Props.C82_relabel' depends on axioms: [propext, Classical.choice, Quot.sound]
'MiniOpt.Props.C82_inconsistent_bounds' depends on axioms: [propext, Classical.choice, Quot.sound]
'MiniOpt.Props.C83_order' depends on axioms: [propext, Classical.choice, Quot.sound]
'MiniOpt.Props.C83_order_iff' depends on axioms: [propext, Classical.choice, Quot.sound]
'MiniOpt.Props.C84_subproblem' depends on axioms: [propext, Classical.choice, Quot.sound]
'MiniOpt.Props.C84_equalities_met' depends on axioms: [propext, Classical.choice, Quot.sound]
'MiniOpt.Props.C84_defaults' depends on axioms: [propext, Classical.choice, Quot.sound]
'MiniOpt.Props.C85_constructor' depends on axioms: [propext, Quot.sound]
'MiniOpt.Props.C85_unchanged_linearize' depends on axioms: [propext, Classical.choice, Quot.sound]
'MiniOpt.Props.C85_unchanged_start' depends on axioms: [propext, Classical.choice, Quot.sound]
'MiniOpt.Props.C85_enough_rows' depends on axioms: [propext, Classical.choice, Quot.sound]
'MiniOpt.Props.C85_too_many_rows' depends on axioms: [propext, Classical.choice, Quot.sound]
'MiniOpt.Props.C85_dimension_changed' depends on axioms: [propext, Classical.choice, Quot.sound]
'MiniOpt.Props.C85_too_few_rows' depends on axioms: [propext, Classical.choice, Quot.sound]
'MiniOpt.Props.C85_evaluate' depends on axioms: [propext, Classical.choice, Quot.sound]
'MiniOpt.Props.C85_replaced' depends on axioms: [propext, Classical.choice, Quot.sound]
'MiniOpt.Props.C86_calls' depends on axioms: [propext, Classical.choice, Quot.sound]
'MiniOpt.Props.C86_counts' depends on axioms: [propext, Classical.choice, Quot.sound]
'MiniOpt.Props.C86_budget' depends on axioms: [propext, Classical.choice, Quot.sound]
'MiniOpt.Props.C86_record' depends on axioms: [propext, Classical.choice, Quot.sound]
'MiniOpt.Props.C87_log' depends on axioms: [propext, Classical.choice, Quot.sound]
'MiniOpt.Props.C87_counts' depends on axioms: [propext, Classical.choice, Quot.sound]
'MiniOpt.Props.C87_user_exceptions' depends on axioms: [propext, Classical.choice, Quot.sound]
'MiniOpt.Props.C87_solve' depends on axioms: [propext, Classical.choice, Quot.sound]
'MiniOpt.Props.C87_real' depends on axioms: [propext, Classical.choice, Quot.sound]
'MiniOpt.Props.C87_double' depends on axioms: [propext, Classical.choice, Quot.sound]
'MiniOpt.Props.C88_quadratic' depends on axioms: [propext, Classical.choice, Quot.sound]
'MiniOpt.Props.C88_result' depends on axioms: [propext, Classical.choice, Quot.sound]
'MiniOpt.Props.C88_finishes' depends on axioms: [propext, Classical.choice, Quot.sound]
'MiniOpt.Props.C89_pointer' depends on axioms: [propext, Classical.choice, Quot.sound]
'MiniOpt.Props.C89_no_problem' depends on axioms: [propext, Classical.choice, Quot.sound]
'MiniOpt.Props.C89_null' does not depend on any axioms 'MiniOpt.Props.C89_set_variables' depends on axioms: [propext, Classical.choice, Quot.sound]
'MiniOpt.Props.C89_in_place' depends on axioms: [propext, Classical.choice, Quot.sound]
'MiniOpt.Props.C89_rejected' depends on axioms: [propext, Classical.choice, Quot.sound]
'MiniOpt.Props.C90_infeasible' depends on axioms: [propext, Classical.choice, Quot.sound]
'MiniOpt.Props.C90_certificate' depends on axioms: [propext, Classical.choice, Quot.sound]
'MiniOpt.Props.C90_unbounded' depends on axioms: [propext, Classical.choice, Quot.sound]
'MiniOpt.Props.C90_conflicting_bounds' depends on axioms: [propext, Classical.choice, Quot.sound]
'MiniOpt.Props.C91_stationary_start' depends on axioms: [propext, Classical.choice, Quot.sound]
'MiniOpt.Props.C91_never_feasible' depends on axioms: [propext, Classical.choice, Quot.sound]
'MiniOpt.Props.C92_recorded_scopes' depends on axioms: [propext, Quot.sound]
'MiniOpt.Props.C92_plain_code' depends on axioms: [propext]
'MiniOpt.Props.C92_nested_times' depends on axioms: [propext, Classical.choice, Quot.sound]
'MiniOpt.Props.C92_printed_nesting' depends on axioms: [propext, Classical.choice, Quot.sound]
'MiniOpt.Props.C92_sticks_out' depends on axioms: [propext, Classical.choice, Quot.sound]
'MiniOpt.Props.C93_trace_of_log' depends on axioms: [propext, Classical.choice, Quot.sound]
'MiniOpt.Props.C93_trace_of_exception' depends on axioms: [propext, Classical.choice, Quot.sound]
'MiniOpt.Props.C93_event_count' depends on axioms: [propext, Classical.choice, Quot.sound]
'MiniOpt.Props.C94_random_matrix_diagonal' depends on axioms: [propext, Classical.choice, Quot.sound]
'MiniOpt.Props.C94_random_matrix_pd' depends on axioms: [propext, Classical.choice, Quot.sound]
'MiniOpt.Props.C94_generated_solution' depends on axioms: [propext, Classical.choice, Quot.sound]
'MiniOpt.Props.C94_needs_diagonal' depends on axioms: [propext, Classical.choice, Quot.sound]
'MiniOpt.Props.C94_eigen_near' depends on axioms: [propext, Classical.choice, Quot.sound]
'MiniOpt.Props.C95_dual_residual' depends on axioms: [propext, Classical.choice, Quot.sound]
'MiniOpt.Props.C95_full_step' depends on axioms: [propext, Classical.choice, Quot.sound]
'MiniOpt.Props.C95_gap' depends on axioms: [propext, Classical.choice, Quot.sound]
'MiniOpt.Props.C95_complementarity' depends on axioms: [propext, Classical.choice, Quot.sound]
'MiniOpt.Props.C95_dual_can_appear' depends on axioms: [propext, Classical.choice, Quot.sound]
'MiniOpt.Props.C96_line_search' depends on axioms: [propext, Classical.choice, Quot.sound]
'MiniOpt.Props.C96_exhausted' depends on axioms: [propext, Classical.choice, Quot.sound]
'MiniOpt.Props.C96_no_max_lambda' depends on axioms: [propext, Classical.choice, Quot.sound]
'MiniOpt.Props.C96_total_slope' depends on axioms: [propext, Classical.choice, Quot.sound]
'MiniOpt.Props.C96_iteration_bound' depends on axioms: [propext, Classical.choice, Quot.sound]
'MiniOpt.Props.C96_gradient' depends on axioms: [propext, Classical.choice, Quot.sound]
'MiniOpt.Props.C96_lipschitz' depends on axioms: [propext, Classical.choice, Quot.sound]
'MiniOpt.Props.C96_damped' depends on axioms: [propext, Classical.choice, Quot.sound]
'MiniOpt.Props.C97_iteration' depends on axioms: [propext, Classical.choice, Quot.sound]
'MiniOpt.Props.C97_damping' depends on axioms: [propext, Classical.choice, Quot.sound]
'MiniOpt.Props.C97_damped_least_squares' depends on axioms: [propext, Classical.choice, Quot.sound]
'MiniOpt.Props.C97_relative_exit' depends on axioms: [propext, Classical.choice, Quot.sound]
'MiniOpt.Props.C98_iteration' depends on axioms: [propext, Classical.choice, Quot.sound]
'MiniOpt.Props.C98_full_step' depends on axioms: [propext, Classical.choice, Quot.sound]
'MiniOpt.Props.C98_progress' depends on axioms: [propext, Classical.choice, Quot.sound]
'MiniOpt.Props.C98_constrained_least_squares' depends on axioms: [propext, Classical.choice, Quot.sound]
'MiniOpt.Props.C98_feasible_start' depends on axioms: [propext, Classical.choice, Quot.sound]
'MiniOpt.Props.C98_full_step_refused' depends on axioms: [propext, Classical.choice, Quot.sound]
'MiniOpt.Props.C99_message' depends on axioms: [propext, Classical.choice, Quot.sound]
'MiniOpt.Props.C99_reasons' depends on axioms: [propext, Classical.choice, Quot.sound]
'MiniOpt.Props.C99_braces' depends on axioms: [propext, Quot.sound]
'MiniOpt.Props.C99_identifies' depends on axioms: [propext, Classical.choice, Quot.sound]
'MiniOpt.Props.C99_follow' depends on axioms: [propext, Classical.choice, Quot.sound]
'MiniOpt.Props.C99_assert' depends on axioms: [propext, Classical.choice, Quot.sound]
'MiniOpt.Props.C99_comparison' depends on axioms: [propext, Classical.choice, Quot.sound]
'MiniOpt.Props.C99_pure' depends on axioms: [propext, Classical.choice, Quot.sound]
'MiniOpt.Props.C99_evaluated_twice' depends on axioms: [propext, Classical.choice, Quot.sound]
'MiniOpt.Props.C99_fassert' depends on axioms: [propext, Classical.choice, Quot.sound]
'MiniOpt.Props.C99_nan' depends on axioms: [propext, Classical.choice, Quot.sound]
'MiniOpt.Props.C99_what' depends on axioms: [propext, Quot.sound]
'MiniOpt.Props.C99_always' depends on axioms: [propext, Classical.choice, Quot.sound]
'MiniOpt.Props.C99_example' depends on axioms: [propext, Classical.choice, Quot.sound]
'MiniOpt.Props.C100_files' depends on axioms: [propext, Classical.choice, Quot.sound]
'MiniOpt.Props.C100_order' depends on axioms: [propext, Quot.sound]
'MiniOpt.Props.C100_unique' depends on axioms: [propext, Classical.choice, Quot.sound]
'MiniOpt.Props.C100_trace' depends on axioms: [propext, Classical.choice, Quot.sound]
'MiniOpt.Props.C100_events' depends on axioms: [propext, Classical.choice, Quot.sound]
'MiniOpt.Props.C100_written' depends on axioms: [propext, Classical.choice, Quot.sound]
'MiniOpt.Props.C100_doubles' depends on axioms: [propext, Classical.choice, Quot.sound]
'MiniOpt.Props.C101_coordinates' depends on axioms: [propext, Classical.choice, Quot.sound]
'MiniOpt.Props.C101_affine' depends on axioms: [propext, Classical.choice, Quot.sound]
'MiniOpt.Props.C101_renaming' depends on axioms: [propext, Classical.choice, Quot.sound]
'MiniOpt.Props.C101_damping_matters' depends on axioms: [propext, Classical.choice, Quot.sound]
'MiniOpt.Props.C101_returns' depends on axioms: [propext, Classical.choice, Quot.sound]
'MiniOpt.Props.C102_satisfied_double' depends on axioms: [propext, Classical.choice, Quot.sound]
'MiniOpt.Props.C102_complementarity_double' depends on axioms: [propext, Classical.choice, Quot.sound]
'MiniOpt.Props.C102_near_optimal_double' depends on axioms: [propext, Classical.choice, Quot.sound]
'MiniOpt.Props.C102_slop_small' depends on axioms: [propext, Classical.choice, Quot.sound]
'MiniOpt.Props.C102_demo' depends on axioms: [propext, Classical.choice, Quot.sound]
'MiniOpt.Props.C103_logged_errors' depends on axioms: [propext, Classical.choice, Quot.sound]
'MiniOpt.Props.C103_absolute_exit' depends on axioms: [propext, Classical.choice, Quot.sound]
'MiniOpt.Props.C103_descent' depends on axioms: [propext, Classical.choice, Quot.sound]
'MiniOpt.Props.C103_demo' depends on axioms: [propext, Classical.choice, Quot.sound]
'MiniOpt.Props.C104_update_hessian' depends on axioms: [propext, Classical.choice, Quot.sound]
'MiniOpt.Props.C104_linearize' depends on axioms: [propext, Classical.choice, Quot.sound]
'MiniOpt.Props.C104_step' depends on axioms: [propext, Classical.choice, Quot.sound]
'MiniOpt.Props.C104_demo' depends on axioms: [propext, Classical.choice, Quot.sound]
'MiniOpt.Props.C104_rounds' depends on axioms: [propext, Classical.choice, Quot.sound]
'MiniOpt.Props.C105_direction' depends on axioms: [propext, Classical.choice, Quot.sound]
'MiniOpt.Props.C105_residuals' depends on axioms: [propext, Classical.choice, Quot.sound]
'MiniOpt.Props.C105_equality_bound' depends on axioms: [propext, Classical.choice, Quot.sound]
'MiniOpt.Props.C105_refinement' depends on axioms: [propext, Classical.choice, Quot.sound]
'MiniOpt.Props.C106_slope' depends on axioms: [propext, Classical.choice, Quot.sound]
'MiniOpt.Props.C106_descent_direction' depends on axioms: [propext, Classical.choice, Quot.sound]
'MiniOpt.Props.C106_first_order_exit' depends on axioms: [propext, Classical.choice, Quot.sound]
'MiniOpt.Props.C106_demo' depends on axioms: [propext, Classical.choice, Quot.sound]
'MiniOpt.Props.C107_signs' depends on axioms: [propext, Classical.choice, Quot.sound]
'MiniOpt.Props.C107_near_optimal' depends on axioms: [propext, Classical.choice, Quot.sound]
'MiniOpt.Props.C107_underflowed_step' depends on axioms: [propext, Classical.choice, Quot.sound]
'MiniOpt.Props.C107_demo' depends on axioms: [propext, Classical.choice, Quot.sound]
'MiniOpt.Props.C108_bound_step' depends on axioms: [propext, Classical.choice, Quot.sound]
'MiniOpt.Props.C108_bounds_kept' depends on axioms: [propext, Classical.choice, Quot.sound]
'MiniOpt.Props.C108_error_size' depends on axioms: [propext, Classical.choice, Quot.sound]
'MiniOpt.Props.C108_demo' depends on axioms: [propext, Classical.choice, Quot.sound]
'MiniOpt.Props.C109_qp_exceptions' depends on axioms: [propext, Classical.choice, Quot.sound]
'MiniOpt.Props.C109_nls_exceptions' depends on axioms: [propext, Classical.choice, Quot.sound]
'MiniOpt.Props.C109_overflow' depends on axioms: [propext, Classical.choice, Quot.sound]
'MiniOpt.Props.C109_qp_outcomes' depends on axioms: [propext, Classical.choice, Quot.sound]
'MiniOpt.Props.C109_start_overflow' depends on axioms: [propext, Classical.choice, Quot.sound]
'MiniOpt.Props.C110_full_step' depends on axioms: [propext, Classical.choice, Quot.sound]
'MiniOpt.Props.C110_accepted' depends on axioms: [propext, Classical.choice, Quot.sound]
'MiniOpt.Props.C110_refused' depends on axioms: [propext, Classical.choice, Quot.sound]
'MiniOpt.Props.C110_default' depends on axioms: [propext, Classical.choice, Quot.sound]
'MiniOpt.Props.C110_units' depends on axioms: [propext, Classical.choice, Quot.sound]
'MiniOpt.Props.C111_solves' depends on axioms: [propext, Classical.choice, Quot.sound]
'MiniOpt.Props.C111_contract' depends on axioms: [propext, Classical.choice, Quot.sound]
'MiniOpt.Props.C111_success' depends on axioms: [propext, Classical.choice, Quot.sound]
'MiniOpt.Props.C111_solve' depends on axioms: [propext, Classical.choice, Quot.sound]
'MiniOpt.Props.C111_equality_guess' depends on axioms: [propext, Classical.choice, Quot.sound]
'MiniOpt.Props.C111_fixed' depends on axioms: [propext, Classical.choice, Quot.sound]
'MiniOpt.Props.C111_units' depends on axioms: [propext, Classical.choice, Quot.sound]
'MiniOpt.Props.C112_bound_throws' depends on axioms: [propext, Classical.choice, Quot.sound]
'MiniOpt.Props.C112_without_bound' depends on axioms: [propext, Classical.choice, Quot.sound]
'MiniOpt.Props.C112_damped' depends on axioms: [propext, Classical.choice, Quot.sound]
'MiniOpt.Props.C112_returns' depends on axioms: [propext, Classical.choice, Quot.sound]
'MiniOpt.Props.C112_throws' depends on axioms: [propext, Classical.choice, Quot.sound]
'MiniOpt.Props.C113_contract' depends on axioms: [propext, Classical.choice, Quot.sound]
'MiniOpt.Props.C113_outcome' depends on axioms: [propext, Classical.choice, Quot.sound]
'MiniOpt.Props.C113_when' depends on axioms: [propext, Classical.choice, Quot.sound]
'MiniOpt.Props.C113_orthogonal' depends on axioms: [propext, Classical.choice, Quot.sound]
'MiniOpt.Props.C113_units' depends on axioms: [propext, Classical.choice, Quot.sound]
'MiniOpt.Props.C114_units' depends on axioms: [propext, Classical.choice, Quot.sound]
'MiniOpt.Props.C114_ub' depends on axioms: [propext, Classical.choice, Quot.sound]
'MiniOpt.Props.C114_returns' depends on axioms: [propext, Classical.choice, Quot.sound]
'MiniOpt.Props.C115_least_squares' depends on axioms: [propext, Classical.choice, Quot.sound]
'MiniOpt.Props.C115_equality_returns' depends on axioms: [propext, Classical.choice, Quot.sound]
'MiniOpt.Props.C115_constrained_least_squares' depends on axioms: [propext, Classical.choice, Quot.sound]
'MiniOpt.Props.C115_quadratic_program' depends on axioms: [propext, Classical.choice, Quot.sound]
'MiniOpt.Props.C116_resume' depends on axioms: [propext, Classical.choice, Quot.sound]
'MiniOpt.Props.C116_same_parameters' depends on axioms: [propext, Classical.choice, Quot.sound]
'MiniOpt.Props.C116_again' depends on axioms: [propext, Classical.choice, Quot.sound]
'MiniOpt.Props.C116_valid' depends on axioms: [propext, Classical.choice, Quot.sound]
'MiniOpt.Props.C116_valid_double' depends on axioms: [propext, Classical.choice, Quot.sound]
'MiniOpt.Props.C116_slices' depends on axioms: [propext, Classical.choice, Quot.sound]
'MiniOpt.Props.C117_factors' depends on axioms: [propext, Classical.choice, Quot.sound]
'MiniOpt.Props.C117_solve' depends on axioms: [propext, Classical.choice, Quot.sound]
'MiniOpt.Props.C117_constant' depends on axioms: [propext, Classical.choice, Quot.sound]
'MiniOpt.Props.C117_no_growth' depends on axioms: [propext, Classical.choice, Quot.sound]
'MiniOpt.Props.C117_inverse' depends on axioms: [propext, Classical.choice, Quot.sound]
'MiniOpt.Props.C117_step' depends on axioms: [propext, Classical.choice, Quot.sound]
'MiniOpt.Props.C117_demo' depends on axioms: [propext, Classical.choice, Quot.sound]
'MiniOpt.Props.C117_demo_step' depends on axioms: [propext, Classical.choice, Quot.sound]
'MiniOpt.Props.C117_unstable' depends on axioms: [propext, Classical.choice, Quot.sound]
'MiniOpt.Props.C117_first_step' depends on axioms: [propext, Classical.choice, Quot.sound]
'MiniOpt.Props.C118_units' depends on axioms: [propext, Classical.choice, Quot.sound]
'MiniOpt.Props.C118_cost_units' depends on axioms: [propext, Classical.choice, Quot.sound]
'MiniOpt.Props.C118_similarity' depends on axioms: [propext, Classical.choice, Quot.sound]
'MiniOpt.Props.C118_defaults_carry_units' depends on axioms: [propext, Classical.choice, Quot.sound]
'MiniOpt.Props.C119_small_cost' depends on axioms: [propext, Classical.choice, Quot.sound]
'MiniOpt.Props.C119_start' depends on axioms: [propext, Classical.choice, Quot.sound]
'MiniOpt.Props.C119_last_improvement' depends on axioms: [propext, Classical.choice, Quot.sound]
'MiniOpt.Props.C120_units' depends on axioms: [propext, Classical.choice, Quot.sound]
'MiniOpt.Props.C120_signs' depends on axioms: [propext, Classical.choice, Quot.sound]
'MiniOpt.Props.C120_cost_units_matter' depends on axioms: [propext, Classical.choice, Quot.sound]
'MiniOpt.Props.C121_damping_slope' depends on axioms: [propext, Classical.choice, Quot.sound]
'MiniOpt.Props.C121_damping_length' depends on axioms: [propext, Classical.choice, Quot.sound]
'MiniOpt.Props.C121_again' depends on axioms: [propext, Classical.choice, Quot.sound]
'MiniOpt.Props.C121_after_absolute' depends on axioms: [propext, Classical.choice, Quot.sound]
'MiniOpt.Props.C122_exact_is_minimiser' depends on axioms: [propext, Classical.choice, Quot.sound]
'MiniOpt.Props.C122_distance' depends on axioms: [propext, Classical.choice, Quot.sound]
'MiniOpt.Props.C122_strongly_convex' depends on axioms: [propext, Classical.choice, Quot.sound]
'MiniOpt.Props.C122_active_set' depends on axioms: [propext, Classical.choice, Quot.sound]
'MiniOpt.Props.C122_solvers_agree' depends on axioms: [propext, Classical.choice, Quot.sound]
'MiniOpt.Props.C122_inactive' depends on axioms: [propext, Classical.choice, Quot.sound]
'MiniOpt.Props.C122_which_returns' depends on axioms: [propext, Classical.choice, Quot.sound]
'MiniOpt.Props.C123_concurrent_solves' depends on axioms: [propext, Classical.choice, Quot.sound]
'MiniOpt.Props.C123_can_finish' depends on axioms: [propext, Classical.choice, Quot.sound]
'MiniOpt.Props.C124_penalty_bounded' depends on axioms: [propext, Classical.choice, Quot.sound]
'MiniOpt.Props.C124_violation_sum' depends on axioms: [propext, Classical.choice, Quot.sound]
'MiniOpt.Props.C124_terminates' depends on axioms: [propext, Classical.choice, Quot.sound]
'MiniOpt.Props.C124_independent' depends on axioms: [propext, Classical.choice, Quot.sound]
'MiniOpt.Props.C125_line_search' depends on axioms: [propext, Classical.choice, Quot.sound]
'MiniOpt.Props.C125_total_slope' depends on axioms: [propext, Classical.choice, Quot.sound]
'MiniOpt.Props.C125_iteration_bound' depends on axioms: [propext, Classical.choice, Quot.sound]
'MiniOpt.Props.C125_no_max_lambda' depends on axioms: [propext, Classical.choice, Quot.sound]
'MiniOpt.Props.C125_converges' depends on axioms: [propext, Classical.choice, Quot.sound]
'MiniOpt.Props.C125_lipschitz' depends on axioms: [propext, Classical.choice, Quot.sound]
'MiniOpt.Props.C126_quadratic' depends on axioms: [propext, Classical.choice, Quot.sound]
'MiniOpt.Props.C126_result' depends on axioms: [propext, Classical.choice, Quot.sound]
'MiniOpt.Props.C126_finishes' depends on axioms: [propext, Classical.choice, Quot.sound]
'MiniOpt.Props.C126_direction' depends on axioms: [propext, Classical.choice, Quot.sound]
'MiniOpt.Props.C126_independent' depends on axioms: [propext, Classical.choice, Quot.sound]
'MiniOpt.Props.C127_linear' depends on axioms: [propext, Classical.choice, Quot.sound]
'MiniOpt.Props.C127_result' depends on axioms: [propext, Classical.choice, Quot.sound]
'MiniOpt.Props.C127_finishes' depends on axioms: [propext, Classical.choice, Quot.sound]
'MiniOpt.Props.C128_line_search' depends on axioms: [propext, Classical.choice, Quot.sound]
'MiniOpt.Props.C128_iteration_bound' depends on axioms: [propext, Classical.choice, Quot.sound]
'MiniOpt.Props.C128_solved' depends on axioms: [propext, Classical.choice, Quot.sound]
'MiniOpt.Props.C128_exact' depends on axioms: [propext, Classical.choice, Quot.sound]
'MiniOpt.Props.C129_flip' depends on axioms: [propext, Classical.choice, Quot.sound]
'MiniOpt.Props.C129_any' depends on axioms: [propext, Classical.choice, Quot.sound]
'MiniOpt.Props.C130_returns' depends on axioms: [propext, Classical.choice, Quot.sound]
'MiniOpt.Props.C130_no_bounds' depends on axioms: [propext, Classical.choice, Quot.sound]
'MiniOpt.Props.C130_bounds' depends on axioms: [propext, Classical.choice, Quot.sound]
'MiniOpt.Props.C131_regular_equalities' depends on axioms: [propext, Classical.choice, Quot.sound]
'MiniOpt.Props.C132_prefix' depends on axioms: [propext, Classical.choice, Quot.sound]
'MiniOpt.Props.C132_looser' depends on axioms: [propext, Classical.choice, Quot.sound]
'MiniOpt.Props.C132_qp' depends on axioms: [propext, Classical.choice, Quot.sound]
'MiniOpt.Props.C133_callback' depends on axioms: [propext, Classical.choice, Quot.sound]
'MiniOpt.Props.C133_accepting' depends on axioms: [propext, Classical.choice, Quot.sound]
'MiniOpt.Props.C133_eigenvalues' depends on axioms: [propext, Classical.choice, Quot.sound]
'MiniOpt.Props.C134_normalised' depends on axioms: [propext, Classical.choice, Quot.sound]
'MiniOpt.Props.C134_angles' depends on axioms: [propext, Classical.choice, Quot.sound]
'MiniOpt.Props.C135_squares' depends on axioms: [propext, Classical.choice, Quot.sound]
'MiniOpt.Props.C135_rotated' depends on axioms: [propext, Classical.choice, Quot.sound]
'MiniOpt.Props.C135_components' depends on axioms: [propext, Classical.choice, Quot.sound]
'MiniOpt.Props.C136_symmetric' depends on axioms: [propext, Classical.choice, Quot.sound]
'MiniOpt.Props.C136_symmetric_bounds' depends on axioms: [propext, Classical.choice, Quot.sound]
'MiniOpt.Props.C136_unread' depends on axioms: [propext, Classical.choice, Quot.sound]
'MiniOpt.Props.C136_unread_bounds' depends on axioms: [propext, Classical.choice, Quot.sound]
'MiniOpt.Props.C136_symmetric_throughout' depends on axioms: [propext, Classical.choice, Quot.sound]
'MiniOpt.Props.C136_symmetric_bounds_throughout' depends on axioms: [propext, Classical.choice, Quot.sound]
'MiniOpt.Props.C136_unread_throughout' depends on axioms: [propext, Classical.choice, Quot.sound]
'MiniOpt.Props.C136_unread_bounds_throughout' depends on axioms: [propext, Classical.choice, Quot.sound] 
