{
 "claims": [
  {
   "property": "C01",
   "status": "proved",
   "theorems": [
    "Verif.C01_every_case",
    "Verif.C01_moment_round_trip",
    "Verif.C01_ill_conditioned_reads_jittered"
   ],
   "note": ""
  },
  {
   "property": "C02",
   "status": "proved",
   "theorems": [
    "Verif.C02_natural_round_trip"
   ],
   "note": ""
  },
  {
   "property": "C03",
   "status": "proved",
   "theorems": [
    "Verif.C03_vanishing_precision",
    "Verif.C03_round_trip_lossy"
   ],
   "note": ""
  },
  {
   "property": "C04",
   "status": "proved",
   "theorems": [
    "Verif.C04_reads_unobservable",
    "Verif.C04_mixed_construction_counterexample"
   ],
   "note": ""
  },
  {
   "property": "C05",
   "status": "proved",
   "theorems": [
    "Verif.C05_mul_density",
    "Verif.C05_mul_comm",
    "Verif.C05_mul_assoc",
    "Verif.C05_natural_density_is_moment_density"
   ],
   "note": ""
  },
  {
   "property": "C06",
   "status": "proved",
   "theorems": [
    "Verif.C06_div_undoes_mul",
    "Verif.C06_div_undoes_mul_moments"
   ],
   "note": ""
  },
  {
   "property": "C07",
   "status": "proved",
   "theorems": [
    "Verif.C07_pow_laws",
    "Verif.C07_pow_is_repeated_product"
   ],
   "note": ""
  },
  {
   "property": "C08",
   "status": "proved",
   "theorems": [
    "Verif.C08_asFactor_neutral",
    "Verif.C08_asymmetric_counterexample"
   ],
   "note": ""
  },
  {
   "property": "C09",
   "status": "proved",
   "theorems": [
    "Verif.C09_copy_faithful"
   ],
   "note": ""
  },
  {
   "property": "C10",
   "status": "proved",
   "theorems": [
    "Verif.C10_eq_iff",
    "Verif.C10_eq_refl",
    "Verif.C10_eq_not_symmetric",
    "Verif.C10_eq_not_transitive"
   ],
   "note": ""
  },
  {
   "property": "C11",
   "status": "proved",
   "theorems": [
    "Verif.C11_natural_stale",
    "Verif.C11_natural_fresh",
    "Verif.C11_assignment_lost",
    "Verif.C11_natural_assignment_lost",
    "Verif.C11_dim_chol_stale",
    "Verif.C11_assignment_stale",
    "Verif.C11_assignment_inconsistent",
    "Verif.C11_assignment_fresh"
   ],
   "note": ""
  },
  {
   "property": "C12",
   "status": "proved",
   "theorems": [
    "Verif.C12_symmetrize",
    "Verif.C12_validate_iff",
    "Verif.C12_validate_symmetric",
    "Verif.C12_validate_ignores_upper",
    "Verif.C12_missing_covariance"
   ],
   "note": ""
  },
  {
   "property": "C13",
   "status": "proved",
   "theorems": [
    "Verif.C13_every_case",
    "Verif.C13_singular_precision",
    "Verif.C13_double_warning_escapes"
   ],
   "note": ""
  },
  {
   "property": "C14",
   "status": "proved",
   "theorems": [
    "Verif.C14_unscented_weights"
   ],
   "note": ""
  },
  {
   "property": "C15",
   "status": "proved",
   "theorems": [
    "Verif.C15_unscented_exact_affine"
   ],
   "note": ""
  },
  {
   "property": "C16",
   "status": "proved",
   "theorems": [
    "Verif.C16_unscented_cov_symmetric_psd",
    "Verif.C16_negative_weight_counterexample",
    "Verif.C16_psd_iff"
   ],
   "note": ""
  },
  {
   "property": "C17",
   "status": "proved",
   "theorems": [
    "Verif.C17_taylor_linearises",
    "Verif.C17_taylor_linearises_rows",
    "Verif.C17_taylor_exact_affine",
    "Verif.C17_taylor_cov_psd",
    "Verif.C17_taylor_rows_scalar_state_fails",
    "Verif.C17_taylor_rows_single_output"
   ],
   "note": ""
  },
  {
   "property": "C18",
   "status": "proved",
   "theorems": [
    "Verif.C18_monte_carlo_affine",
    "Verif.C18_monte_carlo_cov_psd"
   ],
   "note": ""
  },
  {
   "property": "C19",
   "status": "proved",
   "theorems": [
    "Verif.C19_error_bound",
    "Verif.C19_limit",
    "Verif.C19_number",
    "Verif.C19_raises",
    "Verif.C19_matrix",
    "Verif.C19_row",
    "Verif.C19_central_differences",
    "Verif.C19_numerical_jacobian_exact",
    "Verif.C19_numerical_jacobian_quadMap",
    "Verif.C19_cubic_error"
   ],
   "note": ""
  },
  {
   "property": "C20",
   "status": "proved",
   "theorems": [
    "Verif.C20_unscented_exact",
    "Verif.C20_taylor_exact",
    "Verif.C20_predict_affine"
   ],
   "note": ""
  },
  {
   "property": "C21",
   "status": "proved",
   "theorems": [
    "Verif.C21_correct_is_bayes"
   ],
   "note": ""
  },
  {
   "property": "C22",
   "status": "proved",
   "theorems": [
    "Verif.C22_correct_reduces_uncertainty"
   ],
   "note": ""
  },
  {
   "property": "C23",
   "status": "proved",
   "theorems": [
    "Verif.C23_smooth_step",
    "Verif.C23_smooth_affine_posDef"
   ],
   "note": ""
  },
  {
   "property": "C24",
   "status": "proved",
   "theorems": [
    "Verif.C24_filter_causal",
    "Verif.C24_filter_raises",
    "Verif.C24_filter_recursion",
    "Verif.C24_filter_affine_total",
    "Verif.C24_resume",
    "Verif.C24_resume_iekf",
    "Verif.C24_no_time"
   ],
   "note": ""
  },
  {
   "property": "C25",
   "status": "proved",
   "theorems": [
    "Verif.C25_smoother_alignment",
    "Verif.C25_smoother_anticausal",
    "Verif.C25_smoother_affine_total"
   ],
   "note": ""
  },
  {
   "property": "C26",
   "status": "proved",
   "theorems": [
    "Verif.C26_time_stamps",
    "Verif.C26_same_times_from_zero",
    "Verif.C26_smoother_ignores_t_zero"
   ],
   "note": ""
  },
  {
   "property": "C27",
   "status": "proved",
   "theorems": [
    "Verif.C27_zero_iterations",
    "Verif.C27_one_iteration_is_ekf",
    "Verif.C27_affine_closed_form",
    "Verif.C27_two_iterations_wrong",
    "Verif.C27_fixed_points",
    "Verif.C27_one_iteration_is_ekf_scalar",
    "Verif.C27_scalar_divergence",
    "Verif.C27_call_recursion",
    "Verif.C27_call_one_iteration",
    "Verif.C27_scalar_iterates",
    "Verif.C27_scalar_convergence",
    "Verif.C27_vector_mismatch",
    "Verif.C27_vector_square",
    "Verif.C27_vector_shift"
   ],
   "note": ""
  },
  {
   "property": "C28",
   "status": "proved",
   "theorems": [
    "Verif.IEKS.C28_affine_iterations_agree"
   ],
   "note": ""
  },
  {
   "property": "C29",
   "status": "proved",
   "theorems": [
    "Verif.IEKS.C29_single_sweep_reusable",
    "Verif.IEKS.C29_state_after_call",
    "Verif.IEKS.C29_second_call_differs"
   ],
   "note": ""
  },
  {
   "property": "C30",
   "status": "proved",
   "theorems": [
    "Verif.IEKS.C30_linearisation_points",
    "Verif.IEKS.C30_leaves_exact_trajectory"
   ],
   "note": ""
  },
  {
   "property": "C31",
   "status": "proved",
   "theorems": [
    "Verif.C31_chain",
    "Verif.C31_zero",
    "Verif.C31_one",
    "Verif.C31_system",
    "Verif.C31_estimator"
   ],
   "note": ""
  },
  {
   "property": "C32",
   "status": "proved",
   "theorems": [
    "Verif.C32_wiring",
    "Verif.C32_wiring_fargs",
    "Verif.C32_empty"
   ],
   "note": ""
  },
  {
   "property": "C33",
   "status": "proved",
   "theorems": [
    "Verif.C33_last_estimator_wins",
    "Verif.C33_equipped"
   ],
   "note": ""
  },
  {
   "property": "C34",
   "status": "proved",
   "theorems": [
    "Verif.C34_fwd_all_or_nothing",
    "Verif.C34_meas_all_or_nothing",
    "Verif.C34_back_all_or_nothing",
    "Verif.C34_fwd_no_linalg",
    "Verif.C34_meas_no_linalg",
    "Verif.C34_back_no_linalg",
    "Verif.C34_fwd_failure_restores",
    "Verif.C34_meas_failure_restores",
    "Verif.C34_back_failure_restores"
   ],
   "note": ""
  },
  {
   "property": "C35",
   "status": "proved",
   "theorems": [
    "Verif.C35_update_is_local",
    "Verif.C35_schedule_is_local"
   ],
   "note": ""
  },
  {
   "property": "C36",
   "status": "proved",
   "theorems": [
    "Verif.C36_product_relation_is_invariant",
    "Verif.C36_marginal_is_product"
   ],
   "note": ""
  },
  {
   "property": "C37",
   "status": "proved",
   "theorems": [
    "Verif.C37_meas_interpolates",
    "Verif.C37_back_interpolates",
    "Verif.C37_fwd_interpolates",
    "Verif.C37_zero_damping",
    "Verif.C37_meas_accepted",
    "Verif.C37_back_accepted"
   ],
   "note": ""
  },
  {
   "property": "C38",
   "status": "proved",
   "theorems": [
    "Verif.C38_first_node_uses_prior",
    "Verif.C38_first_node_projection",
    "Verif.C38_last_node_back"
   ],
   "note": ""
  },
  {
   "property": "C39",
   "status": "proved",
   "theorems": [
    "Verif.C39_pass_order",
    "Verif.C39_other_orders",
    "Verif.C39_pass_is_filter_then_smoother"
   ],
   "note": ""
  },
  {
   "property": "C40",
   "status": "proved",
   "theorems": [
    "Verif.C40_first_pass",
    "Verif.C40_forward_sweep",
    "Verif.C40_kalman",
    "Verif.C40_gap_vanishes",
    "Verif.C40_growth_model"
   ],
   "note": ""
  },
  {
   "property": "C41",
   "status": "proved",
   "theorems": [
    "Verif.C41_ep_aborts_nonlinear",
    "Verif.C41_marginal",
    "Verif.C41_unscented",
    "Verif.C41_monte_carlo",
    "Verif.C41_ep_aborts"
   ],
   "note": ""
  },
  {
   "property": "C42",
   "status": "proved",
   "theorems": [
    "Verif.C42_trans",
    "Verif.C42_trans_rejects",
    "Verif.C42_trans_validated",
    "Verif.C42_back",
    "Verif.C42_meas",
    "Verif.C42_meas_power",
    "Verif.C42_trans_power",
    "Verif.C42_back_power"
   ],
   "note": ""
  },
  {
   "property": "C43",
   "status": "proved",
   "theorems": [
    "Verif.C43_converged",
    "Verif.C43_further_passes",
    "Verif.C43_unscented"
   ],
   "note": ""
  },
  {
   "property": "C44",
   "status": "proved",
   "theorems": [
    "Verif.C44_copy_stays_bound",
    "Verif.C44_copy_equal",
    "Verif.C44_copy_updates_original"
   ],
   "note": ""
  },
  {
   "property": "C45",
   "status": "proved",
   "theorems": [
    "Verif.C45_rows_logged",
    "Verif.C45_no_truth_no_rows"
   ],
   "note": ""
  },
  {
   "property": "C46",
   "status": "proved",
   "theorems": [
    "Verif.C46_first_write_wins",
    "Verif.C46_first_simulation_wins"
   ],
   "note": ""
  },
  {
   "property": "C47",
   "status": "proved",
   "theorems": [
    "Verif.C47_override_keeps_rows",
    "Verif.C47_override_runs"
   ],
   "note": ""
  },
  {
   "property": "C48",
   "status": "proved",
   "theorems": [
    "Verif.C48_crash_prefix",
    "Verif.C48_rerun_completes",
    "Verif.C48_more_than_fifty_is_lost"
   ],
   "note": ""
  },
  {
   "property": "C49",
   "status": "proved",
   "theorems": [
    "Verif.C49_simulation_lost",
    "Verif.C49_iteration_commits"
   ],
   "note": ""
  },
  {
   "property": "C50",
   "status": "proved",
   "theorems": [
    "Verif.C50_skip_iff_stored",
    "Verif.C50_short_runs_never_mark"
   ],
   "note": ""
  },
  {
   "property": "C51",
   "status": "proved",
   "theorems": [
    "Verif.C51_recursion",
    "Verif.C51_transition_returning_argument",
    "Verif.C51_measurement_returning_argument"
   ],
   "note": ""
  },
  {
   "property": "C52",
   "status": "proved",
   "theorems": [
    "Verif.C52_zero_mean",
    "Verif.C52_supplied_mean_lost",
    "Verif.C52_default_cov_sample",
    "Verif.C52_default_cov_broadcast"
   ],
   "note": ""
  },
  {
   "property": "C53",
   "status": "proved",
   "theorems": [
    "Verif.C53_formula",
    "Verif.C53_shift_equivariant",
    "Verif.C53_equilibrium",
    "Verif.C53_energy",
    "Verif.C53_mirror_of_readme",
    "Verif.C53_differs_from_readme",
    "Verif.C53_step_rows",
    "Verif.C53_step_differentiable",
    "Verif.C53_step_equilibrium",
    "Verif.C53_step_shift_equivariant"
   ],
   "note": ""
  },
  {
   "property": "C54",
   "status": "proved",
   "theorems": [
    "Verif.C54_generated_shape",
    "Verif.C54_constructor_fails",
    "Verif.C54_stored_works"
   ],
   "note": ""
  },
  {
   "property": "C55",
   "status": "proved",
   "theorems": [
    "Verif.C55_rows_independent",
    "Verif.C55_invariants",
    "Verif.C55_flow",
    "Verif.C55_solves_turn_equations",
    "Verif.C55_linear"
   ],
   "note": ""
  },
  {
   "property": "C56",
   "status": "proved",
   "theorems": [
    "Verif.C56_constant_velocity",
    "Verif.C56_flow",
    "Verif.C56_noise_consistent",
    "Verif.C56_noise_posDef",
    "Verif.C56_measurement_noise",
    "Verif.C56_turning_noise_posDef"
   ],
   "note": ""
  },
  {
   "property": "C57",
   "status": "proved",
   "theorems": [
    "Verif.C57_formula",
    "Verif.C57_step_bound",
    "Verif.C57_trajectory_bound",
    "Verif.C57_sign_ambiguity",
    "Verif.C57_needs_time"
   ],
   "note": ""
  },
  {
   "property": "C58",
   "status": "proved",
   "theorems": [
    "Verif.C58_squared_error",
    "Verif.C58_rmse",
    "Verif.C58_zero_iff",
    "Verif.C58_order",
    "Verif.C58_column_truth"
   ],
   "note": ""
  },
  {
   "property": "C59",
   "status": "proved",
   "theorems": [
    "Verif.C59_case_insensitive",
    "Verif.C59_total"
   ],
   "note": ""
  },
  {
   "property": "C60",
   "status": "proved",
   "theorems": [
    "Verif.C60_componentwise",
    "Verif.C60_defined",
    "Verif.C60_bearings"
   ],
   "note": ""
  },
  {
   "property": "C61",
   "status": "proved",
   "theorems": [
    "Verif.C61_taylor_correct_single_output",
    "Verif.C61_one_sensor_ekf_fails"
   ],
   "note": ""
  },
  {
   "property": "C62",
   "status": "proved",
   "theorems": [
    "Verif.C62_two_sensors",
    "Verif.C62_two_sensors_turn",
    "Verif.C62_default_sensors",
    "Verif.C62_default_sensors_turn",
    "Verif.C62_single_sensor_ambiguous",
    "Verif.C62_shape_and_range",
    "Verif.C62_no_sensors"
   ],
   "note": ""
  },
  {
   "property": "C63",
   "status": "proved",
   "theorems": [
    "Verif.C63_wrap",
    "Verif.C63_wrap_ekf",
    "Verif.C63_bearing_jump"
   ],
   "note": ""
  },
  {
   "property": "C64",
   "status": "proved",
   "theorems": [
    "Verif.C64_formula",
    "Verif.C64_minimal_at_mean",
    "Verif.C64_density",
    "Verif.C64_scalar",
    "Verif.C64_number",
    "Verif.C64_average"
   ],
   "note": ""
  },
  {
   "property": "C65",
   "status": "proved",
   "theorems": [
    "Verif.C65_power_sweep",
    "Verif.C65_default_sweep",
    "Verif.C65_taylor",
    "Verif.C65_ep_aborts"
   ],
   "note": ""
  },
  {
   "property": "C66",
   "status": "proved",
   "theorems": [
    "Verif.C66_no_update_fails",
    "Verif.C66_passes_succeed",
    "Verif.C66_variances_positive",
    "Verif.C66_growth_model"
   ],
   "note": ""
  },
  {
   "property": "C67",
   "status": "proved",
   "theorems": [
    "Verif.C67_filter_posterior",
    "Verif.C67_smoother_posterior"
   ],
   "note": ""
  },
  {
   "property": "C68",
   "status": "proved",
   "theorems": [
    "Verif.C68_unscented_polynomials",
    "Verif.C68_unscented_variance",
    "Verif.C68_growth_measurement",
    "Verif.C68_unscented_covariance",
    "Verif.C68_product",
    "Verif.C68_lorenz_measurement"
   ],
   "note": ""
  },
  {
   "property": "C69",
   "status": "proved",
   "theorems": [
    "Verif.C69_monte_carlo_consistent",
    "Verif.C69_monte_carlo_unbiased",
    "Verif.C69_monte_carlo_error",
    "Verif.C69_growth_measurement"
   ],
   "note": ""
  },
  {
   "property": "C70",
   "status": "proved",
   "theorems": [
    "Verif.C70_forward_sweep",
    "Verif.C70_first_pass",
    "Verif.C70_two_powers",
    "Verif.C70_converged",
    "Verif.C70_unscented"
   ],
   "note": ""
  },
  {
   "property": "C71",
   "status": "proved",
   "theorems": [
    "Verif.C71_growth_sweep",
    "Verif.C71_baseline_is_smoother"
   ],
   "note": ""
  },
  {
   "property": "C72",
   "status": "proved",
   "theorems": [
    "Verif.C72_unscented_even",
    "Verif.C72_ukf_unchanged",
    "Verif.C72_ekf_unchanged",
    "Verif.C72_signs_hidden",
    "Verif.C72_lorenz",
    "Verif.C72_growth"
   ],
   "note": ""
  },
  {
   "property": "C73",
   "status": "proved",
   "theorems": [
    "Verif.C73_test_transition",
    "Verif.C73_filter_needs_control",
    "Verif.C73_predict_with_control",
    "Verif.C73_exact_measurement",
    "Verif.C73_certain_state"
   ],
   "note": ""
  },
  {
   "property": "C74",
   "status": "proved",
   "theorems": [
    "Verif.C74_power_sweep",
    "Verif.C74_sweep",
    "Verif.C74_lorenz",
    "Verif.C74_bearings"
   ],
   "note": ""
  },
  {
   "property": "C75",
   "status": "proved",
   "theorems": [
    "Verif.C75_filter_total",
    "Verif.C75_smoother_total",
    "Verif.C75_smoothing_reduces_uncertainty",
    "Verif.C75_unscented",
    "Verif.C75_lorenz",
    "Verif.C75_bearings",
    "Verif.C75_growth"
   ],
   "note": ""
  },
  {
   "property": "C76",
   "status": "proved",
   "theorems": [
    "Verif.IEKS.C76_ieks_total",
    "Verif.IEKS.C76_ieks_calls",
    "Verif.C76_iekf_total",
    "Verif.C76_lorenz",
    "Verif.C76_growth"
   ],
   "note": ""
  },
  {
   "property": "C77",
   "status": "proved",
   "theorems": [
    "Verif.C77_measurement",
    "Verif.C77_first_pass",
    "Verif.C77_power_sweep",
    "Verif.C77_growth",
    "Verif.C77_lorenz"
   ],
   "note": ""
  },
  {
   "property": "C78",
   "status": "proved",
   "theorems": [
    "Verif.C78_start_shape",
    "Verif.C78_simulate",
    "Verif.C78_growth",
    "Verif.C78_lorenz",
    "Verif.C78_bearings",
    "Verif.C78_turn",
    "Verif.C78_lorenz_sweep",
    "Verif.C78_bearings_sweep"
   ],
   "note": ""
  },
  {
   "property": "C79",
   "status": "proved",
   "theorems": [
    "Verif.C79_sweep",
    "Verif.C79_restart",
    "Verif.C79_growth",
    "Verif.C79_growth_short",
    "Verif.C79_lorenz_fresh",
    "Verif.C79_lorenz",
    "Verif.C79_turn",
    "Verif.C79_items"
   ],
   "note": ""
  },
  {
   "property": "C80",
   "status": "proved",
   "theorems": [
    "Verif.EpL96.C80_run",
    "Verif.EpL96.C80_columns",
    "Verif.EpL96.C80_rerun",
    "Verif.EpL96.C80_restart",
    "Verif.EpL96.C80_fresh",
    "Verif.EpL96.C80_first_iteration",
    "Verif.EpL96.C80_blind",
    "Verif.EpL96.C80_lorenz"
   ],
   "note": ""
  },
  {
   "property": "C81",
   "status": "proved",
   "theorems": [
    "Verif.C81_converges",
    "Verif.C81_last_node",
    "Verif.C81_measurement_factor",
    "Verif.C81_unscented"
   ],
   "note": ""
  },
  {
   "property": "C82",
   "status": "proved",
   "theorems": [
    "Verif.C82_power_one",
    "Verif.C82_backward_loses"
   ],
   "note": ""
  },
  {
   "property": "C83",
   "status": "proved",
   "theorems": [
    "Verif.IEKS.C83_limit",
    "Verif.IEKS.C83_unchanged",
    "Verif.IEKS.C83_affine_transition",
    "Verif.IEKS.C83_nonlinear_transition",
    "Verif.IEKS.C83_bearings"
   ],
   "note": ""
  },
  {
   "property": "C84",
   "status": "proved",
   "theorems": [
    "Verif.C84_filter_superposition",
    "Verif.C84_smoother_superposition",
    "Verif.C84_prior_mean_bounded",
    "Verif.C84_prior_mean_forgotten",
    "Verif.C84_prior_forgotten",
    "Verif.C84_unobserved"
   ],
   "note": ""
  },
  {
   "property": "C85",
   "status": "proved",
   "theorems": [
    "Verif.C85_filter",
    "Verif.C85_smoother",
    "Verif.C85_rmse",
    "Verif.C85_nll",
    "Verif.C85_normal_draws"
   ],
   "note": ""
  },
  {
   "property": "C86",
   "status": "proved",
   "theorems": [
    "Verif.C86_mismatch_filter",
    "Verif.C86_mismatch_smoother",
    "Verif.C86_monotone_filter",
    "Verif.C86_monotone_smoother",
    "Verif.C86_sensors_filter",
    "Verif.C86_sensors_smoother",
    "Verif.C86_more_data"
   ],
   "note": ""
  },
  {
   "property": "C87",
   "status": "proved",
   "theorems": [
    "Verif.C87_filter_steady",
    "Verif.C87_steady_start",
    "Verif.C87_smoother_lag"
   ],
   "note": ""
  },
  {
   "property": "C88",
   "status": "proved",
   "theorems": [
    "Verif.Display.C88_growth",
    "Verif.Display.C88_absent",
    "Verif.Display.C88_lorenz",
    "Verif.Display.C88_smoother",
    "Verif.Display.C88_turn_table",
    "Verif.Display.C88_lorenz_table",
    "Verif.Display.C88_iterated_turn_table",
    "Verif.Display.C88_iterated_lorenz_table",
    "Verif.Display.C88_not_a_number"
   ],
   "note": ""
  },
  {
   "property": "C89",
   "status": "proved",
   "theorems": [
    "Verif.Display.C89_removed",
    "Verif.Display.C89_given",
    "Verif.Display.C89_trivial",
    "Verif.Display.C89_in_step",
    "Verif.Display.C89_units"
   ],
   "note": ""
  },
  {
   "property": "C90",
   "status": "proved",
   "theorems": [
    "Verif.C90_filter",
    "Verif.C90_smoother",
    "Verif.C90_extended",
    "Verif.C90_restate",
    "Verif.C90_iterated_filter",
    "Verif.C90_iterated_smoother",
    "Verif.C90_restate_measurement",
    "Verif.C90_unscented",
    "Verif.C90_restate_rows",
    "Verif.C90_order_matters",
    "Verif.C90_sensor",
    "Verif.C90_monte_carlo_sensor",
    "Verif.C90_likelihood",
    "Verif.C90_error"
   ],
   "note": ""
  },
  {
   "property": "C91",
   "status": "proved",
   "theorems": [
    "Verif.C91_rows_logged",
    "Verif.C91_no_truth_no_rows",
    "Verif.C91_skip_iff_stored",
    "Verif.C91_file_whole",
    "Verif.C91_skipped_is_complete",
    "Verif.C91_override_keeps_rows",
    "Verif.C91_rerun_completes"
   ],
   "note": ""
  },
  {
   "property": "C92",
   "status": "proved",
   "theorems": [
    "Verif.C92_negative_variance",
    "Verif.C92_band",
    "Verif.C92_row_means",
    "Verif.C92_mismatch",
    "Verif.C92_no_data",
    "Verif.C92_node_band",
    "Verif.C92_band_probability",
    "Verif.C92_filter_posterior",
    "Verif.C92_smoother_posterior",
    "Verif.C92_filter_coverage",
    "Verif.C92_smoother_coverage",
    "Verif.C92_normal_draws"
   ],
   "note": ""
  },
  {
   "property": "C93",
   "status": "proved",
   "theorems": [
    "Verif.C93_drawn",
    "Verif.C93_order",
    "Verif.C93_units",
    "Verif.C93_zero_width",
    "Verif.C93_between",
    "Verif.C93_outside"
   ],
   "note": ""
  },
  {
   "property": "C94",
   "status": "proved",
   "theorems": [
    "Verif.C94_filter",
    "Verif.C94_smoother",
    "Verif.C94_mistuned_filter",
    "Verif.C94_mistuned_smoother"
   ],
   "note": ""
  },
  {
   "property": "C95",
   "status": "proved",
   "theorems": [
    "Verif.C95_taylor",
    "Verif.C95_unscented",
    "Verif.C95_predict_extended",
    "Verif.C95_predict_unscented",
    "Verif.C95_normal",
    "Verif.C95_growth"
   ],
   "note": ""
  },
  {
   "property": "C96",
   "status": "proved",
   "theorems": [
    "Verif.C96_symmetric_part",
    "Verif.C96_jitter",
    "Verif.C96_singular",
    "Verif.C96_indefinite"
   ],
   "note": ""
  },
  {
   "property": "C97",
   "status": "proved",
   "theorems": [
    "Verif.C97_factor",
    "Verif.C97_not_posDef",
    "Verif.C97_stale"
   ],
   "note": ""
  },
  {
   "property": "C98",
   "status": "proved",
   "theorems": [
    "Verif.C98_filter",
    "Verif.C98_iekf",
    "Verif.C98_ieks",
    "Verif.C98_nodes",
    "Verif.C98_projection_row",
    "Verif.C98_projection_column"
   ],
   "note": ""
  },
  {
   "property": "C99",
   "status": "proved",
   "theorems": [
    "Verif.C99_value",
    "Verif.C99_singular",
    "Verif.C99_more_outputs",
    "Verif.C99_project"
   ],
   "note": ""
  },
  {
   "property": "C100",
   "status": "proved",
   "theorems": [
    "Verif.C100_dropped",
    "Verif.C100_mean_only",
    "Verif.C100_shift_only",
    "Verif.C100_both",
    "Verif.C100_printed"
   ],
   "note": ""
  },
  {
   "property": "C101",
   "status": "proved",
   "theorems": [
    "Verif.C101_refused",
    "Verif.C101_compare_refused",
    "Verif.C101_sum",
    "Verif.C101_sum_div"
   ],
   "note": ""
  },
  {
   "property": "C102",
   "status": "proved",
   "theorems": [
    "Verif.C102_pass",
    "Verif.C102_any_schedule",
    "Verif.C102_damping",
    "Verif.C102_meas_agrees",
    "Verif.C102_back_agrees",
    "Verif.C102_fwd_agrees",
    "Verif.C102_meas_converse",
    "Verif.C102_back_converse",
    "Verif.C102_fwd_converse",
    "Verif.C102_iteration"
   ],
   "note": ""
  },
  {
   "property": "C103",
   "status": "proved",
   "theorems": [
    "Verif.C103_any_schedule",
    "Verif.C103_dimension",
    "Verif.C103_iterations",
    "Verif.C103_run"
   ],
   "note": ""
  },
  {
   "property": "C104",
   "status": "proved",
   "theorems": [
    "Verif.C104_no_estimator",
    "Verif.C104_forgotten_estimator",
    "Verif.C104_order",
    "Verif.C104_few_measurements",
    "Verif.C104_all_nodes",
    "Verif.C104_unscented_calls",
    "Verif.C104_monte_carlo_calls",
    "Verif.C104_taylor_calls",
    "Verif.C104_last_back",
    "Verif.C104_first_pass",
    "Verif.C104_unscented_raises",
    "Verif.C104_growth_model"
   ],
   "note": ""
  },
  {
   "property": "C105",
   "status": "proved",
   "theorems": [
    "Verif.C105_likelihood",
    "Verif.C105_nll",
    "Verif.C105_normalised",
    "Verif.C105_innovations"
   ],
   "note": ""
  },
  {
   "property": "C106",
   "status": "proved",
   "theorems": [
    "Verif.C106_order",
    "Verif.C106_stacked",
    "Verif.C106_average",
    "Verif.C106_blind",
    "Verif.C106_steps",
    "Verif.C106_tracking",
    "Verif.C106_tracking_unscented",
    "Verif.C106_tracking_taylor",
    "Verif.C106_order_matters"
   ],
   "note": ""
  },
  {
   "property": "C107",
   "status": "proved",
   "theorems": [
    "Verif.C107_filter",
    "Verif.C107_smoother",
    "Verif.C107_innovations"
   ],
   "note": ""
  },
  {
   "property": "C108",
   "status": "proved",
   "theorems": [
    "Verif.Notebook.C108_in_order",
    "Verif.Notebook.C108_curve",
    "Verif.Notebook.C108_curve_single",
    "Verif.Notebook.C108_single_seed",
    "Verif.Notebook.C108_heatmap_size",
    "Verif.Notebook.C108_heatmap_small",
    "Verif.Notebook.C108_baseline",
    "Verif.Notebook.C108_heatmap",
    "Verif.Notebook.C108_growth_curve"
   ],
   "note": ""
  },
  {
   "property": "C109",
   "status": "proved",
   "theorems": [
    "Verif.Demo.C109_deepcopy",
    "Verif.Demo.C109_classic",
    "Verif.Demo.C109_notebook",
    "Verif.Demo.C109_same_scores",
    "Verif.Demo.C109_chosen",
    "Verif.Demo.C109_not_run"
   ],
   "note": ""
  },
  {
   "property": "C110",
   "status": "proved",
   "theorems": [
    "Verif.C110_any_order",
    "Verif.C110_passes",
    "Verif.C110_growth_model",
    "Verif.C110_damped_negative"
   ],
   "note": ""
  },
  {
   "property": "C111",
   "status": "proved",
   "theorems": [
    "Verif.C111_correct",
    "Verif.C111_smoother",
    "Verif.C111_unscented"
   ],
   "note": ""
  },
  {
   "property": "C112",
   "status": "proved",
   "theorems": [
    "Verif.C112_filter_smoother",
    "Verif.C112_passes",
    "Verif.C112_growth_filter",
    "Verif.C112_growth_passes"
   ],
   "note": ""
  },
  {
   "property": "C113",
   "status": "proved",
   "theorems": [
    "Verif.C113_array_column",
    "Verif.C113_list_column",
    "Verif.C113_plain_column",
    "Verif.C113_told_apart",
    "Verif.C113_simulated",
    "Verif.C113_library",
    "Verif.C113_results",
    "Verif.C113_unreadable"
   ],
   "note": ""
  },
  {
   "property": "C114",
   "status": "proved",
   "theorems": [
    "Verif.C114_filter",
    "Verif.C114_smoother",
    "Verif.C114_slopes",
    "Verif.C114_extended_filter",
    "Verif.C114_extended_smoother",
    "Verif.C114_growth"
   ],
   "note": ""
  },
  {
   "property": "C115",
   "status": "proved",
   "theorems": [
    "Verif.C115_filter_smoother",
    "Verif.C115_any_order",
    "Verif.C115_passes",
    "Verif.C115_unscented"
   ],
   "note": ""
  },
  {
   "property": "C116",
   "status": "proved",
   "theorems": [
    "Verif.C116_energy",
    "Verif.C116_exists",
    "Verif.C116_local",
    "Verif.C116_global",
    "Verif.C116_bounded",
    "Verif.C116_uniform",
    "Verif.C116_step_limit"
   ],
   "note": ""
  },
  {
   "property": "C117",
   "status": "proved",
   "theorems": [
    "Verif.C117_growth_filter"
   ],
   "note": ""
  },
  {
   "property": "C118",
   "status": "proved",
   "theorems": [
    "Verif.C118_gentle_slopes",
    "Verif.C118_growth",
    "Verif.C118_growth_mean"
   ],
   "note": ""
  },
  {
   "property": "C119",
   "status": "proved",
   "theorems": [
    "Verif.C119_filter",
    "Verif.C119_smoother",
    "Verif.C119_normal_draws",
    "Verif.C119_negative_variance"
   ],
   "note": ""
  },
  {
   "property": "C120",
   "status": "proved",
   "theorems": [
    "Verif.C120_filter",
    "Verif.C120_smoother",
    "Verif.C120_exact",
    "Verif.C120_monte_carlo",
    "Verif.C120_taylor",
    "Verif.C120_unscented",
    "Verif.C120_systems"
   ],
   "note": ""
  },
  {
   "property": "C121",
   "status": "proved",
   "theorems": [
    "Verif.C121_filter",
    "Verif.C121_smoother",
    "Verif.C121_taylor",
    "Verif.C121_unscented",
    "Verif.C121_compact",
    "Verif.C121_growth_ieks",
    "Verif.C121_taylor_rows",
    "Verif.C121_iekf",
    "Verif.C121_ieks",
    "Verif.C121_lorenz",
    "Verif.C121_lorenz_ieks"
   ],
   "note": ""
  }
 ]
}