{
 "claims": [
  {
   "property": "C01",
   "status": "proved",
   "theorems": [
    "PyPE.C01_sample_empty",
    "PyPE.C01_sample_length_range",
    "PyPE.C01_sample_zero_total"
   ],
   "note": ""
  },
  {
   "property": "C02",
   "status": "proved",
   "theorems": [
    "PyPE.C02_sample_count"
   ],
   "note": ""
  },
  {
   "property": "C03",
   "status": "proved",
   "theorems": [
    "PyPE.C03_sample_one_prob",
    "PyPE.C03_sample_unbiased"
   ],
   "note": "r uniform on [0,1] = integral over 0..1."
  },
  {
   "property": "C04",
   "status": "proved",
   "theorems": [
    "PyPE.C04_sample_inverse_cdf",
    "PyPE.C04_sample_scale_invariant",
    "PyPE.C04_sample_sorted"
   ],
   "note": ""
  },
  {
   "property": "C05",
   "status": "proved",
   "theorems": [
    "PyPE.C05_zero_weight_drawn_at_zero",
    "PyPE.C05_zero_weight_never_drawn",
    "PyPE.C05_zero_weight_only_leading"
   ],
   "note": "Includes the counterexample sample([0,1],1) at r=0."
  },
  {
   "property": "C06",
   "status": "proved",
   "theorems": [
    "PyPE.C06_neff_bounds",
    "PyPE.C06_neff_empty",
    "PyPE.C06_neff_max_iff_uniform",
    "PyPE.C06_neff_shift"
   ],
   "note": ""
  },
  {
   "property": "C07",
   "status": "proved",
   "theorems": [
    "PyPE.C07_resample",
    "PyPE.C07_sample_mem"
   ],
   "note": ""
  },
  {
   "property": "C08",
   "status": "proved",
   "theorems": [
    "PyPE.C08_find_best_not_heaviest",
    "PyPE.C08_find_best_returns_lightest",
    "PyPE.C08_find_best_too_many"
   ],
   "note": "numpy.argsort is modelled as an arbitrary ascending sorting permutation."
  },
  {
   "property": "C09",
   "status": "proved",
   "theorems": [
    "PyPE.C09_new",
    "PyPE.C09_new_seed"
   ],
   "note": ""
  },
  {
   "property": "C10",
   "status": "proved",
   "theorems": [
    "PyPE.C10_measure_bad_length",
    "PyPE.C10_measure_bayes"
   ],
   "note": ""
  },
  {
   "property": "C11",
   "status": "proved",
   "theorems": [
    "PyPE.C11_apf_resample_iff",
    "PyPE.C11_pf_resample_iff",
    "PyPE.C11_pfy_resample_iff",
    "PyPE.C11_res_extremes",
    "PyPE.C11_sir_resample_iff",
    "PyPE.C11_uniform_no_resample"
   ],
   "note": "apf: the weights tested include the first-stage weights, and res is tested for truthiness, so a negative res is treated as 'on' (and then never fires)."
  },
  {
   "property": "C12",
   "status": "proved",
   "theorems": [
    "PyPE.C12_every_run_total",
    "PyPE.C12_pf_forward_total",
    "PyPE.C12_unconditional_run_total"
   ],
   "note": ""
  },
  {
   "property": "C13",
   "status": "proved",
   "theorems": [
    "PyPE.C13_sequential_importance_weights"
   ],
   "note": "Markov models through the ParticleFiltering adapter."
  },
  {
   "property": "C14",
   "status": "proved",
   "theorems": [
    "PyPE.C14_forward_appends",
    "PyPE.C14_forward_preserves_history",
    "PyPE.C14_history_immutable",
    "PyPE.C14_measure_changes_only_last",
    "PyPE.C14_measure_error",
    "PyPE.C14_measure_error_offset",
    "PyPE.C14_measure_stored"
   ],
   "note": "Heap model of all eight filters; honest callbacks (do not write into arrays they were not given for writing); the conditional filters in addition write into arrays the model returned, so for them these must be new (GivesAway)."
  },
  {
   "property": "C15",
   "status": "proved",
   "theorems": [
    "PyPE.C15_cpf_run",
    "PyPE.C15_cpf_step"
   ],
   "note": ""
  },
  {
   "property": "C16",
   "status": "proved",
   "theorems": [
    "PyPE.C16_cpfas_step",
    "PyPE.C16_cpfyas_needs_single",
    "PyPE.C16_cpfyas_step",
    "PyPE.C16_csiras_initial_violation",
    "PyPE.C16_csiras_step",
    "PyPE.C16_run"
   ],
   "note": "CPFYAS additionally needs single-particle reference steps (C16_cpfyas_needs_single)."
  },
  {
   "property": "C17",
   "status": "proved",
   "theorems": [
    "PyPE.C17_apf_missing_measurement_crashes",
    "PyPE.C17_apf_no_resample_eq_pf",
    "PyPE.C17_apf_resampled_weights"
   ],
   "note": ""
  },
  {
   "property": "C18",
   "status": "proved",
   "theorems": [
    "PyPE.C18_sir_weights"
   ],
   "note": ""
  },
  {
   "property": "C19",
   "status": "proved",
   "theorems": [
    "PyPE.C19_preallocated_violation",
    "PyPE.C19_uses_current_measurement"
   ],
   "note": ""
  },
  {
   "property": "C20",
   "status": "proved",
   "theorems": [
    "PyPE.C20_agrees_measure",
    "PyPE.C20_agrees_neff",
    "PyPE.C20_agrees_sample",
    "PyPE.C20_all_or_none",
    "PyPE.C20_bayes",
    "PyPE.C20_impossible_not_resampled",
    "PyPE.C20_nan_iff",
    "PyPE.C20_no_resampling",
    "PyPE.C20_run",
    "PyPE.C20_sample_nan"
   ],
   "note": "Special values are modelled, rounding is not. Restated with the defect."
  },
  {
   "property": "C21",
   "status": "proved",
   "theorems": [
    "PyPE.C21_contents",
    "PyPE.C21_faults",
    "PyPE.C21_length",
    "PyPE.C21_no_index_error"
   ],
   "note": ""
  },
  {
   "property": "C22",
   "status": "proved",
   "theorems": [
    "PyPE.C22_conditional_never_recovers",
    "PyPE.C22_failed_forward_changes_state",
    "PyPE.C22_failed_forward_state",
    "PyPE.C22_retry_misaligns",
    "PyPE.C22_retry_misaligns_counterexample"
   ],
   "note": ""
  },
  {
   "property": "C23",
   "status": "proved",
   "theorems": [
    "PyPE.C23_alignment",
    "PyPE.C23_alignment_meas_first",
    "PyPE.C23_empty_data",
    "PyPE.C23_no_input"
   ],
   "note": ""
  },
  {
   "property": "C24",
   "status": "proved",
   "theorems": [
    "PyPE.C24_count_exact",
    "PyPE.C24_count_le"
   ],
   "note": ""
  },
  {
   "property": "C25",
   "status": "proved",
   "theorems": [
    "PyPE.C25_case_insensitive",
    "PyPE.C25_cond_traj",
    "PyPE.C25_init",
    "PyPE.C25_parse",
    "PyPE.C25_spawn_always_raises",
    "PyPE.C25_unknown_name",
    "PyPE.C25_unknown_name_construct",
    "PyPE.C25_using_pfy"
   ],
   "note": ""
  },
  {
   "property": "C26",
   "status": "proved",
   "theorems": [
    "PyPE.C26_full",
    "PyPE.C26_mcmc",
    "PyPE.C26_mh_iterations",
    "PyPE.C26_rs",
    "PyPE.C26_rs_small",
    "PyPE.C26_rsas"
   ],
   "note": ""
  },
  {
   "property": "C27",
   "status": "proved",
   "theorems": [
    "PyPE.C27_filtered_mean_bounds",
    "PyPE.C27_filtered_mean_eq",
    "PyPE.C27_filtered_weights",
    "PyPE.C27_smoothed_mean"
   ],
   "note": ""
  },
  {
   "property": "C28",
   "status": "proved",
   "theorems": [
    "PyPE.C28_ancestor_lineage"
   ],
   "note": ""
  },
  {
   "property": "C29",
   "status": "proved",
   "theorems": [
    "PyPE.C29_bsi_full",
    "PyPE.C29_bsi_full_prob"
   ],
   "note": ""
  },
  {
   "property": "C30",
   "status": "proved",
   "theorems": [
    "PyPE.C30_rs_every_entry",
    "PyPE.C30_rs_exact",
    "PyPE.C30_rs_zero_attempts"
   ],
   "note": "The expectation over attempts is the iterated expectation over r, the uniform permutation and the independent uniforms (Spec.attemptsE)."
  },
  {
   "property": "C31",
   "status": "proved",
   "theorems": [
    "PyPE.C31_rsas_exact",
    "PyPE.C31_rsas_may_loop",
    "PyPE.C31_rsas_terminates",
    "PyPE.C31_stop_rule_is_kalman",
    "PyPE.C31_stop_rule_python2"
   ],
   "note": ""
  },
  {
   "property": "C32",
   "status": "proved",
   "theorems": [
    "PyPE.C32_mcmc_detailed_balance",
    "PyPE.C32_mcmc_invariant",
    "PyPE.C32_mcmc_step",
    "PyPE.C32_mcmc_valid"
   ],
   "note": ""
  },
  {
   "property": "C33",
   "status": "proved",
   "theorems": [
    "PyPE.C33_ancestor",
    "PyPE.C33_backward_simulation",
    "PyPE.C33_smoothed_are_filter_particles",
    "PyPE.C33_zero_trajectories"
   ],
   "note": ""
  },
  {
   "property": "C34",
   "status": "proved",
   "theorems": [
    "PyPE.C34_mhbp_runs",
    "PyPE.C34_mhbp_single_step",
    "PyPE.C34_mhips_after_mhbp",
    "PyPE.C34_mhips_pass",
    "PyPE.C34_mhips_single_step"
   ],
   "note": ""
  },
  {
   "property": "C35",
   "status": "proved",
   "theorems": [
    "PyPE.C35_accept_prob",
    "PyPE.C35_detailed_balance",
    "PyPE.C35_invariant",
    "PyPE.C35_mc_step"
   ],
   "note": "Models without a Rao-Blackwellised part. Invariance is stated for finitely many states."
  },
  {
   "property": "C36",
   "status": "proved",
   "theorems": [
    "PyPE.C36_reduced_eq_full",
    "PyPE.C36_reduced_no_information"
   ],
   "note": "Models without a Rao-Blackwellised part."
  },
  {
   "property": "C37",
   "status": "proved",
   "theorems": [
    "PyPE.C37_post_smoothing",
    "PyPE.C37_unknown_method"
   ],
   "note": ""
  },
  {
   "property": "C38",
   "status": "proved",
   "theorems": [
    "PyPE.C38_predict_is_law",
    "PyPE.C38_predict_moments",
    "PyPE.C38_predict_posDef"
   ],
   "note": "Law of the predicted state, moments, positive definiteness."
  },
  {
   "property": "C39",
   "status": "proved",
   "theorems": [
    "PyPE.C39_measure_information",
    "PyPE.C39_measure_is_bayes",
    "PyPE.C39_measure_shrinks",
    "PyPE.C39_measure_succeeds_iff",
    "PyPE.C39_measure_without_C",
    "PyPE.C39_upper_triangle"
   ],
   "note": "Exact success condition; regular conditional distribution; density of the measurement; shrinking; information form; C=None."
  },
  {
   "property": "C40",
   "status": "proved",
   "theorems": [
    "PyPE.C40_scalar_and_full_raise",
    "PyPE.C40_scalar_eq_full",
    "PyPE.C40_scalar_error_after_write"
   ],
   "note": "Agreement for positive innovation variance, both failures otherwise, and a concrete failure after the write."
  },
  {
   "property": "C41",
   "status": "proved",
   "theorems": [
    "PyPE.C41_smooth_fixed_point",
    "PyPE.C41_smooth_is_exact",
    "PyPE.C41_smooth_raises_iff"
   ],
   "note": "Exactness of the smoothing step in law, cross covariance, fixed point, failure condition."
  },
  {
   "property": "C42",
   "status": "proved",
   "theorems": [
    "PyPE.C42_helpers_agree",
    "PyPE.C42_is_density",
    "PyPE.C42_lognormpdf_total",
    "PyPE.C42_scalar",
    "PyPE.C42_vec_short"
   ],
   "note": "All helpers return the log of the Lebesgue density; failure conditions."
  },
  {
   "property": "C43",
   "status": "proved",
   "theorems": [
    "PyPE.C43_mixed_model_history",
    "PyPE.C43_predict_uses_latest",
    "PyPE.C43_set_dynamics_history",
    "PyPE.C43_time_update_raises"
   ],
   "note": "Induction over the history of set_dynamics calls."
  },
  {
   "property": "C44",
   "status": "proved",
   "theorems": [
    "PyPE.C44_get_states",
    "PyPE.C44_initial",
    "PyPE.C44_measure",
    "PyPE.C44_read_iff",
    "PyPE.C44_set_get",
    "PyPE.C44_set_states_succeeds_iff",
    "PyPE.C44_update"
   ],
   "note": ""
  },
  {
   "property": "C45",
   "status": "proved",
   "theorems": [
    "PyPE.C45_last_step",
    "PyPE.C45_logp_xnext",
    "PyPE.C45_right_if_time_invariant",
    "PyPE.C45_uses_index_zero",
    "PyPE.C45_wrong_if_time_varying"
   ],
   "note": "The English property as a user expects it is false; the exact behaviour is proved."
  },
  {
   "property": "C46",
   "status": "proved",
   "theorems": [
    "PyPE.C46_last_covariances",
    "PyPE.C46_logp_xnext",
    "PyPE.C46_logp_xnext_scalar",
    "PyPE.C46_measure",
    "PyPE.C46_measure_scalar",
    "PyPE.C46_scalar_wrong"
   ],
   "note": ""
  },
  {
   "property": "C47",
   "status": "proved",
   "theorems": [
    "PyPE.C47_eval_logp_x0",
    "PyPE.C47_initial_defaults",
    "PyPE.C47_initial_fixed",
    "PyPE.C47_initial_law",
    "PyPE.C47_transition_law"
   ],
   "note": ""
  },
  {
   "property": "C48",
   "status": "proved",
   "theorems": [
    "PyPE.C48_bound",
    "PyPE.C48_bound_scalar"
   ],
   "note": ""
  },
  {
   "property": "C49",
   "status": "proved",
   "theorems": [
    "PyPE.C49_get_states",
    "PyPE.C49_get_states_short",
    "PyPE.C49_set_Mz",
    "PyPE.C49_set_states",
    "PyPE.C49_set_states_error"
   ],
   "note": ""
  },
  {
   "property": "C50",
   "status": "proved",
   "theorems": [
    "PyPE.C50_cond_covariance",
    "PyPE.C50_cond_dynamics"
   ],
   "note": "Restated with the covariance defect."
  },
  {
   "property": "C51",
   "status": "proved",
   "theorems": [
    "PyPE.C51_l2_gradient",
    "PyPE.C51_l2_is_second_moment",
    "PyPE.C51_logprod_derivative"
   ],
   "note": ""
  },
  {
   "property": "C52",
   "status": "proved",
   "theorems": [
    "PyPE.C52_sample_smooth",
    "PyPE.C52_single_exact"
   ],
   "note": "Restated with the defect (index 0 and accumulated in-place updates)."
  },
  {
   "property": "C53",
   "status": "proved",
   "theorems": [
    "PyPE.C53_calls_received",
    "PyPE.C53_completes",
    "PyPE.C53_counts",
    "PyPE.C53_empty_schedule",
    "PyPE.C53_final_estimate",
    "PyPE.C53_psaem_returns",
    "PyPE.C53_python3",
    "PyPE.C53_saem_returns",
    "PyPE.C53_schedule"
   ],
   "note": "Restated with the defects. xrange is modelled explicitly (PyVersion)."
  },
  {
   "property": "C54",
   "status": "proved",
   "theorems": [
    "PyPE.C54_antitone",
    "PyPE.C54_one_iff",
    "PyPE.C54_range",
    "PyPE.C54_squares_converge",
    "PyPE.C54_sum_diverges"
   ],
   "note": ""
  },
  {
   "property": "C55",
   "status": "proved",
   "theorems": [
    "PyPE.C55_burn_in",
    "PyPE.C55_calls_received",
    "PyPE.C55_contribution_mean",
    "PyPE.C55_prune_default",
    "PyPE.C55_prune_discards",
    "PyPE.C55_prune_weights",
    "PyPE.C55_psaem_average",
    "PyPE.C55_psaem_weights",
    "PyPE.C55_saem_index_error",
    "PyPE.C55_saem_never_completes",
    "PyPE.C55_saem_weights"
   ],
   "note": "Restated with the defect of SAEM."
  },
  {
   "property": "C56",
   "status": "proved",
   "theorems": [
    "PyPE.C56_callback_stops",
    "PyPE.C56_calls_received",
    "PyPE.C56_completes",
    "PyPE.C56_conditioning",
    "PyPE.C56_default_count",
    "PyPE.C56_default_stops",
    "PyPE.C56_never_returns",
    "PyPE.C56_no_options",
    "PyPE.C56_no_options_typeError"
   ],
   "note": "Restated with the defect of filter_options=None."
  },
  {
   "property": "C57",
   "status": "proved",
   "theorems": [
    "PyPE.C57_gradient_measurement",
    "PyPE.C57_gradient_transition",
    "PyPE.C57_measurement_term",
    "PyPE.C57_python3",
    "PyPE.C57_transition_term"
   ],
   "note": "Restated with the Python 3 defect."
  },
  {
   "property": "C58",
   "status": "proved",
   "theorems": [
    "PyPE.C58_counterexample",
    "PyPE.C58_gradient_correct_iff",
    "PyPE.C58_gradient_exact",
    "PyPE.C58_single_parameter"
   ],
   "note": "Restated as the exact behaviour; C58_counterexample shows the expectation fails."
  },
  {
   "property": "C59",
   "status": "proved",
   "theorems": [
    "PyPE.C59_density",
    "PyPE.C59_int_limits",
    "PyPE.C59_pointwise",
    "PyPE.C59_symmetric",
    "PyPE.C59_zero_division"
   ],
   "note": ""
  },
  {
   "property": "C60",
   "status": "proved",
   "theorems": [
    "PyPE.Instr.C60_add",
    "PyPE.Instr.C60_transparent"
   ],
   "note": ""
  },
  {
   "property": "C61",
   "status": "proved",
   "theorems": [
    "PyPE.C61_smoothing",
    "PyPE.C61_with_hooks",
    "PyPE.Instr.C61_hasattr",
    "PyPE.Instr.C61_missing_hook",
    "PyPE.Instr.C61_not_forwarded",
    "PyPE.Instr.C61_reports",
    "PyPE.Instr.C61_single_step"
   ],
   "note": "Restated as the exact (defective) behaviour."
  },
  {
   "property": "C62",
   "status": "proved",
   "theorems": [
    "PyPE.C62_earlier_runs",
    "PyPE.C62_no_smoothing_attribute_error",
    "PyPE.C62_smoother_runs_iff",
    "PyPE.C62_stale_smoothed_estimates"
   ],
   "note": ""
  },
  {
   "property": "C63",
   "status": "proved",
   "theorems": [
    "PyPE.C63_bootstrap_step"
   ],
   "note": ""
  },
  {
   "property": "C64",
   "status": "proved",
   "theorems": [
    "PyPE.C64_mhbp_equal_weights",
    "PyPE.C64_mhbp_never_mixes",
    "PyPE.C64_mhbp_proposals_sorted"
   ],
   "note": ""
  },
  {
   "property": "C65",
   "status": "proved",
   "theorems": [
    "PyPE.C65_kalman_filter_exact"
   ],
   "note": "Induction over the steps; regular conditional distribution and Lebesgue density of the record."
  },
  {
   "property": "C66",
   "status": "proved",
   "theorems": [
    "PyPE.C66_ltv_filter_exact"
   ],
   "note": ""
  },
  {
   "property": "C67",
   "status": "proved",
   "theorems": [
    "PyPE.C67_logp_x0",
    "PyPE.C67_logp_xnext",
    "PyPE.C67_logp_y"
   ],
   "note": ""
  },
  {
   "property": "C68",
   "status": "proved",
   "theorems": [
    "PyPE.C68_no_gradient_returns_array",
    "PyPE.C68_x0_constant",
    "PyPE.C68_x0_gradient",
    "PyPE.C68_xnext_gradient",
    "PyPE.C68_y_gradient_raises"
   ],
   "note": "Defects proved as such."
  },
  {
   "property": "C69",
   "status": "proved",
   "theorems": [
    "PyPE.C69_initial_proposal",
    "PyPE.C69_proposal"
   ],
   "note": ""
  },
  {
   "property": "C70",
   "status": "proved",
   "theorems": [
    "PyPE.C70_first_stage"
   ],
   "note": ""
  },
  {
   "property": "C71",
   "status": "proved",
   "theorems": [
    "PyPE.C71_filter_exact",
    "PyPE.C71_pair_exact",
    "PyPE.C71_smoother_exact",
    "PyPE.C71_smoother_succeeds"
   ],
   "note": "Spec.follow is the unnormalised joint law; kfData/rtsData fold the modelled methods over the record."
  },
  {
   "property": "C72",
   "status": "proved",
   "theorems": [
    "PyPE.C72_cond_predict",
    "PyPE.C72_cond_predict_single_step",
    "PyPE.C72_first_stage",
    "PyPE.C72_measure_exact",
    "PyPE.C72_update_exact",
    "PyPE.C72_update_raises"
   ],
   "note": "Restated with the defect for several nonlinear states. Spec.RbDescribes relates the object and its overridable methods to the model on paper."
  },
  {
   "property": "C73",
   "status": "proved",
   "theorems": [
    "PyPE.C73_smoothing_exact",
    "PyPE.C73_smoothing_succeeds"
   ],
   "note": ""
  },
  {
   "property": "C74",
   "status": "proved",
   "theorems": [
    "PyPE.C74_logp_singlestep",
    "PyPE.C74_logp_xnext",
    "PyPE.C74_logp_xnext_max"
   ],
   "note": "With correlated noises logp_xnext reads Qz as marginal covariance while the filter (C72) reads it as conditional covariance: an inconsistency of the code."
  },
  {
   "property": "C75",
   "status": "proved",
   "theorems": [
    "PyPE.C75_sample_smooth"
   ],
   "note": ""
  },
  {
   "property": "C76",
   "status": "proved",
   "theorems": [
    "PyPE.C76_measure_exact",
    "PyPE.C76_measure_raises",
    "PyPE.C76_update_exact"
   ],
   "note": ""
  },
  {
   "property": "C77",
   "status": "proved",
   "theorems": [
    "PyPE.C77_logp_xnext",
    "PyPE.C77_logp_xnext_max",
    "PyPE.C77_max_bound_iff"
   ],
   "note": "Restated with the defect of logp_xnext_max."
  },
  {
   "property": "C78",
   "status": "proved",
   "theorems": [
    "PyPE.C78_smoothing_exact",
    "PyPE.C78_smoothing_succeeds",
    "PyPE.C78_wrong_initial_count"
   ],
   "note": ""
  },
  {
   "property": "C79",
   "status": "proved",
   "theorems": [
    "PyPE.C79_raoblackwell_garbage"
   ],
   "note": "Restated as the exact (defective) behaviour."
  },
  {
   "property": "C80",
   "status": "proved",
   "theorems": [
    "PyPE.C80_calls_received",
    "PyPE.C80_psaem2_refines",
    "PyPE.C80_python3"
   ],
   "note": ""
  },
  {
   "property": "C81",
   "status": "proved",
   "theorems": [
    "PyPE.C81_em_objective",
    "PyPE.C81_summed_initial_term"
   ],
   "note": ""
  },
  {
   "property": "C82",
   "status": "proved",
   "theorems": [
    "PyPE.C82_em_objective",
    "PyPE.C82_logp_x0",
    "PyPE.C82_logp_xnext",
    "PyPE.C82_logp_y",
    "PyPE.C82_logp_y_without_C"
   ],
   "note": "Restated with the defect."
  },
  {
   "property": "C83",
   "status": "proved",
   "theorems": [
    "PyPE.C83_x0_gradient",
    "PyPE.C83_x0_value_mean",
    "PyPE.C83_xnext_gradient",
    "PyPE.C83_y_gradient",
    "PyPE.C83_y_gradient_ignores_C",
    "PyPE.C83_y_gradient_per_particle_R",
    "PyPE.C83_y_no_gradient"
   ],
   "note": "Restated as the exact behaviour, with the defects."
  },
  {
   "property": "C84",
   "status": "proved",
   "theorems": [
    "PyPE.C84_backward_pass",
    "PyPE.C84_sample_smooth"
   ],
   "note": "numpy.linalg.svd is a parameter with its specification (Spec.SvdOk); cross covariances are ignored by the class, the model is assumed to have none."
  },
  {
   "property": "C85",
   "status": "proved",
   "theorems": [
    "PyPE.C85_backward_weights",
    "PyPE.C85_end_to_end",
    "PyPE.C85_logp_xnext_full",
    "PyPE.C85_sign_defect"
   ],
   "note": "Restated as the exact behaviour, with the defect."
  },
  {
   "property": "C86",
   "status": "proved",
   "theorems": [
    "PyPE.C86_missing_measurement",
    "PyPE.C86_no_measurement_matrix",
    "PyPE.C86_no_rejection_sampling",
    "PyPE.C86_one_nonlinear_state"
   ],
   "note": "Negative results."
  },
  {
   "property": "C87",
   "status": "proved",
   "theorems": [
    "PyPE.C87_cond_sampled_initial",
    "PyPE.C87_constructor",
    "PyPE.C87_default_gradient",
    "PyPE.C87_default_rb_gradient_raises",
    "PyPE.C87_initial_particles",
    "PyPE.C87_logp_x0",
    "PyPE.C87_logp_xi0",
    "PyPE.C87_no_initial_covariance",
    "PyPE.C87_xi0_gradient"
   ],
   "note": "Restated with the defects; the shape defect is proved of a model of the array shapes in the first loop iteration."
  },
  {
   "property": "C88",
   "status": "proved",
   "theorems": [
    "PyPE.C88_initial_proposal",
    "PyPE.C88_proposal"
   ],
   "note": "With more than one nonlinear state propose_smooth raises ValueError (C72)."
  },
  {
   "property": "C89",
   "status": "proved",
   "theorems": [
    "PyPE.C89_bootstrap_unbiased",
    "PyPE.C89_nonlinear_gaussian",
    "PyPE.C89_sir_unbiased"
   ],
   "note": "The particles of one step need only have the right marginal laws. For NonlinearGaussianInitialGaussian the initial law is the Gaussian with the covariance create_initial_estimate really uses (C47). Runs of the other filters (APF, conditional filters) are not covered."
  },
  {
   "property": "C90",
   "status": "proved",
   "theorems": [
    "PyPE.C90_grad_A",
    "PyPE.C90_grad_f",
    "PyPE.C90_gradient",
    "PyPE.C90_no_linear_states",
    "PyPE.C90_refines"
   ],
   "note": "The three buffers out, tmp1, tmp2 are different arrays, as calc_l2_grad allocates them."
  },
  {
   "property": "C91",
   "status": "proved",
   "theorems": [
    "PyPE.C91_errors",
    "PyPE.C91_slopes",
    "PyPE.C91_tables"
   ],
   "note": "param_id is non-negative; plotting itself is not modelled."
  },
  {
   "property": "C92",
   "status": "proved",
   "theorems": [
    "PyPE.C92_ancestor_unbiased",
    "PyPE.C92_last_state",
    "PyPE.C92_sir"
   ],
   "note": "sample_smooth is the default one and the model has no post_smoothing. C92_last_state shows the right hand side is that of C89 when phi depends on the last state only. Bootstrap and SIR filters."
  },
  {
   "property": "C93",
   "status": "proved",
   "theorems": [
    "PyPE.C93_backward_simulation_unbiased",
    "PyPE.C93_nonlinear_gaussian",
    "PyPE.C93_sir"
   ],
   "note": "Method 'full' with default FFBSi callbacks, no post_smoothing. For the other backward samplers see C98."
  },
  {
   "property": "C94",
   "status": "proved",
   "theorems": [
    "PyPE.C94_constructor",
    "PyPE.C94_continue",
    "PyPE.C94_forward",
    "PyPE.C94_run"
   ],
   "note": "If a measure() call raises, the two differ in w_offset of the newest step (C14_measure_error_offset); states are compared when no call of the run raises (C94_run) and for a forward() that raises (C94_forward). Smoothers are modelled on values only."
  },
  {
   "property": "C95",
   "status": "proved",
   "theorems": [
    "PyPE.C95_every_method",
    "PyPE.C95_get_smoothed_estimates",
    "PyPE.C95_options_required"
   ],
   "note": "No post_smoothing/pre_mhips hooks. 'mhips_reduced' additionally needs a measurement at the last step (known defect, see C36)."
  },
  {
   "property": "C96",
   "status": "proved",
   "theorems": [
    "PyPE.C96_cpf_full_invariant",
    "PyPE.C96_cpf_invariant",
    "PyPE.C96_cpfas_full_invariant",
    "PyPE.C96_cpfas_invariant",
    "PyPE.C96_full_eq_ancestor",
    "PyPE.C96_nonlinear_gaussian",
    "PyPE.C96_three_particles"
   ],
   "note": "Two particles (the reference and one free particle). C96_three_particles: a model where three particles change the smoothing law (29/60 instead of 1/2)."
  },
  {
   "property": "C97",
   "status": "proved",
   "theorems": [
    "PyPE.C97_gibbs_cpf",
    "PyPE.C97_gibbs_cpfas",
    "PyPE.C97_mhips_kernel",
    "PyPE.C97_mhips_sir",
    "PyPE.C97_mhips_unbiased",
    "PyPE.C97_nonlinear_gaussian",
    "PyPE.C97_nonlinear_gaussian_gibbs"
   ],
   "note": "For histories of at least two time steps (a one-step history raises, C34). 'mhips' with any proposal density that the model samples from and evaluates; 'mhips_reduced' with a measurement at the last time (without one the code raises, C36)."
  },
  {
   "property": "C98",
   "status": "proved",
   "theorems": [
    "PyPE.C98_adaptive_rejection_sir",
    "PyPE.C98_adaptive_rejection_unbiased",
    "PyPE.C98_mcmc_sir",
    "PyPE.C98_mcmc_unbiased",
    "PyPE.C98_nonlinear_gaussian",
    "PyPE.C98_rejection_sir",
    "PyPE.C98_rejection_unbiased"
   ],
   "note": "Default FFBSi/FFBSiRS callbacks, no post_smoothing, maxpdf computed from logp_xnext_max (not given by the user). For 'rsas' the stopping parameters must satisfy the conditions under which it stops (C31); the draws counted are as many rounds as it may need."
  },
  {
   "property": "C99",
   "status": "proved",
   "theorems": [
    "PyPE.C99_hierarchical",
    "PyPE.C99_mixed_gaussian",
    "PyPE.C99_plain",
    "PyPE.C99_unbiased"
   ],
   "note": "'pf' only. For mixed models with one nonlinear state (with more, update always raises: the defect of C72); for hierarchical models with any number. Every measurement is an object, not None."
  },
  {
   "property": "C100",
   "status": "proved",
   "theorems": [
    "PyPE.C100_linear_states",
    "PyPE.C100_mixed_gaussian",
    "PyPE.C100_unbiased"
   ],
   "note": "Method 'full' after 'pf'. C100_unbiased is the statement for any Rao-Blackwellised model (user-written callbacks that satisfy Spec.RbSamples and Spec.RbBackward), C100_mixed_gaussian instantiates it with the modelled code of mlnlg.py and rbpf.py, C100_linear_states covers the stored mean and covariance of the linear states. Every measurement is an object, not None."
  },
  {
   "property": "C101",
   "status": "proved",
   "theorems": [
    "PyPE.C101_filled",
    "PyPE.C101_last_measurement_ignored",
    "PyPE.C101_preallocated",
    "PyPE.C101_reads_zero",
    "PyPE.C101_remeasured"
   ],
   "note": "For the filters with the default measure() in C101_remeasured; C101_preallocated and C101_filled for all filters. The hook is the one of MixedNLGaussian models (rbpf.py)."
  },
  {
   "property": "C102",
   "status": "proved",
   "theorems": [
    "PyPE.C102_cond_predict_length",
    "PyPE.C102_hierarchical_exceptions",
    "PyPE.C102_hierarchical_measure",
    "PyPE.C102_hierarchical_predict",
    "PyPE.C102_initial_length",
    "PyPE.C102_kalman_measure",
    "PyPE.C102_kalman_predict",
    "PyPE.C102_kalman_smooth",
    "PyPE.C102_ltv_initial_gradient",
    "PyPE.C102_ltv_terms",
    "PyPE.C102_marginal_length",
    "PyPE.C102_marginal_measurement",
    "PyPE.C102_measure_noise",
    "PyPE.C102_mixed_empty_h",
    "PyPE.C102_nlg_missing",
    "PyPE.C102_noise_covariance",
    "PyPE.C102_noise_exception",
    "PyPE.C102_noise_length",
    "PyPE.C102_predict_exception",
    "PyPE.C102_predict_nonlinear",
    "PyPE.C102_sample_smooth_length"
   ],
   "note": "Kinds of exceptions are stated where the model distinguishes them; comments in the model say where several missing attributes are lumped together."
  },
  {
   "property": "C103",
   "status": "proved",
   "theorems": [
    "PyPE.C103_apf_unbiased",
    "PyPE.C103_nonlinear_gaussian",
    "PyPE.C103_offsets_not_recorded"
   ],
   "note": ""
  },
  {
   "property": "C104",
   "status": "proved",
   "theorems": [
    "PyPE.C104_initial_law_ignored",
    "PyPE.C104_pfy_unbiased"
   ],
   "note": ""
  },
  {
   "property": "C105",
   "status": "proved",
   "theorems": [
    "PyPE.C105_binary_accurate",
    "PyPE.C105_binary_rounded",
    "PyPE.C105_bsi_full",
    "PyPE.C105_csiras_step",
    "PyPE.C105_double",
    "PyPE.C105_double_count",
    "PyPE.C105_double_underflow",
    "PyPE.C105_draw",
    "PyPE.C105_exact_accurate",
    "PyPE.C105_exact_filters",
    "PyPE.C105_exact_pf",
    "PyPE.C105_exact_rounded",
    "PyPE.C105_exact_smoothing",
    "PyPE.C105_exp_sample",
    "PyPE.C105_filter_runs",
    "PyPE.C105_max_sample",
    "PyPE.C105_measure",
    "PyPE.C105_resample",
    "PyPE.C105_run",
    "PyPE.C105_sample_count",
    "PyPE.C105_sample_valid",
    "PyPE.C105_underflow"
   ],
   "note": "Finite values: overflow is not part of this model (C20 has the special values). The error bound of C105_sample_count is for sample(); numpy.cumsum is sequential, numpy.sum may add in any order. Callback results are arbitrary real numbers. The -log N weights of the first stored step are exact."
  },
  {
   "property": "C106",
   "status": "proved",
   "theorems": [
    "PyPE.C106_independent",
    "PyPE.C106_likelihood_consistent",
    "PyPE.C106_mean_consistent",
    "PyPE.C106_nonlinear_gaussian",
    "PyPE.C106_sir_consistent",
    "PyPE.C106_sir_independent"
   ],
   "note": "Idealisation: exact real arithmetic, ideal independent draws. Without resampling only; with resampling the estimates are unbiased for every N (C89) but their limit is not treated. Runs with res > 0 are not covered."
  },
  {
   "property": "C107",
   "status": "proved",
   "theorems": [
    "PyPE.C107_error_bound",
    "PyPE.C107_likelihood_clt",
    "PyPE.C107_mean_clt",
    "PyPE.C107_second_moment"
   ],
   "note": "As C106. The limit theorems are stated for bounded continuous test functions."
  },
  {
   "property": "C108",
   "status": "proved",
   "theorems": [
    "PyPE.C108_auxiliary_filter",
    "PyPE.C108_auxiliary_smoother",
    "PyPE.C108_filter_consistent",
    "PyPE.C108_filter_unbiased",
    "PyPE.C108_ltv_agrees",
    "PyPE.C108_mhbp",
    "PyPE.C108_mhips",
    "PyPE.C108_other_smoothers",
    "PyPE.C108_smoother_pairs",
    "PyPE.C108_smoother_unbiased"
   ],
   "note": "Diagonal Px0 because create_initial_estimate draws from another law otherwise (C47). 'full' needs n != 1 or calc_Q (the one-dimensional case of logp_xnext without calc_Q is C46). Convergence without resampling only."
  },
  {
   "property": "C109",
   "status": "proved",
   "theorems": [
    "PyPE.C109_apf_example",
    "PyPE.C109_backward_density",
    "PyPE.C109_bootstrap_example",
    "PyPE.C109_documented_variances",
    "PyPE.C109_negative_scale",
    "PyPE.C109_propy_example",
    "PyPE.C109_sir_example",
    "PyPE.C109_sir_measure_raises",
    "PyPE.C109_sir_weights"
   ],
   "note": "Idealisation: exact real arithmetic, ideal draws. basic_model_propy without preallocation (C19, C104)."
  },
  {
   "property": "C110",
   "status": "proved",
   "theorems": [
    "PyPE.C110_filter_value",
    "PyPE.C110_same_callbacks",
    "PyPE.C110_sine_example",
    "PyPE.C110_standard_example",
    "PyPE.C110_stated_likelihood"
   ],
   "note": "Diagonal Px0 (C47)."
  },
  {
   "property": "C111",
   "status": "proved",
   "theorems": [
    "PyPE.C111_never_close",
    "PyPE.C111_prefix_count",
    "PyPE.C111_resample",
    "PyPE.C111_sorted",
    "PyPE.C111_variation"
   ],
   "note": "Idealisation: exact real arithmetic. The defect needs dependent initial particles (which C89 allows); no statement is made about independent ones with resampling."
  },
  {
   "property": "C112",
   "status": "proved",
   "theorems": [
    "PyPE.C112_ancestor",
    "PyPE.C112_backward_simulation",
    "PyPE.C112_nonlinear_gaussian"
   ],
   "note": "Idealisation: exact real arithmetic, ideal draws; measurements present at every step (C103). Diagonal Px0 for the law N(x0, Px0) (C47)."
  },
  {
   "property": "C113",
   "status": "proved",
   "theorems": [
    "PyPE.C113_ancestor",
    "PyPE.C113_backward_simulation"
   ],
   "note": "Idealisation: exact real arithmetic, ideal draws; trajectory without preallocation (C19, C104)."
  },
  {
   "property": "C114",
   "status": "proved",
   "theorems": [
    "PyPE.C114_cpf",
    "PyPE.C114_cpf_full",
    "PyPE.C114_cpfas",
    "PyPE.C114_cpfas_full",
    "PyPE.C114_linear",
    "PyPE.C114_nonlinear_gaussian"
   ],
   "note": "Idealisation: exact real arithmetic, ideal draws. Diagonal Px0 for the nonlinear Gaussian models (C47)."
  },
  {
   "property": "C115",
   "status": "proved",
   "theorems": [
    "PyPE.C115_em_inequality",
    "PyPE.C115_ltv_em",
    "PyPE.C115_ltv_em_run"
   ],
   "note": "Exact real arithmetic. The runs of filter and smoother are stated without resampling and with an arbitrary choice by the smoother among the stored particles; C121 is the same for the full pipeline (weights, resampling, backward draws). Positive definite P0, Q, R (otherwise eval_logp_* raise LinAlgError)."
  },
  {
   "property": "C116",
   "status": "proved",
   "theorems": [
    "PyPE.C116_em_gain",
    "PyPE.C116_em_gain_mcmc",
    "PyPE.C116_em_gain_mhbp",
    "PyPE.C116_em_gain_mhips",
    "PyPE.C116_em_gain_rs",
    "PyPE.C116_em_gain_rsas",
    "PyPE.C116_em_gain_sir",
    "PyPE.C116_em_step",
    "PyPE.C116_nonlinear_gaussian",
    "PyPE.C116_nonlinear_gaussian_mh",
    "PyPE.C116_nonlinear_gaussian_rounds",
    "PyPE.C116_nonlinear_gaussian_rsas",
    "PyPE.C116_objective_unbiased",
    "PyPE.C116_objective_value"
   ],
   "note": "Exact real arithmetic, ideal draws, Python 2 (C57: fval raises NameError under Python 3). The statement is about the expected objective, not about one run: with finitely many particles a single run can lower fval and lower the likelihood. Diagonal Px0 for the nonlinear Gaussian models (C47)."
  },
  {
   "property": "C117",
   "status": "proved",
   "theorems": [
    "PyPE.C117_broadcast",
    "PyPE.C117_closed_form",
    "PyPE.C117_em_gain",
    "PyPE.C117_logp_xnext",
    "PyPE.C117_minimiser",
    "PyPE.C117_missing_measurement",
    "PyPE.C117_objective",
    "PyPE.C117_parameters",
    "PyPE.C117_samples",
    "PyPE.C117_stale_bound"
   ],
   "note": "Exact real arithmetic, ideal draws. numpy.random.normal with a (1,1) scale and size (N,) is taken to broadcast (old NumPy; newer versions raise). What scipy.optimize.minimize returns is not modelled: the theorem gives the minimiser it looks for."
  },
  {
   "property": "C118",
   "status": "proved",
   "theorems": [
    "PyPE.C118_closed_form",
    "PyPE.C118_maximiser",
    "PyPE.C118_missing_measurement",
    "PyPE.C118_numeric",
    "PyPE.C118_parameters",
    "PyPE.C118_run",
    "PyPE.C118_run_maximises",
    "PyPE.C118_single_step"
   ],
   "note": "Exact real arithmetic. Arrays of different first dimension are rejected (NumPy would broadcast a single row). The trajectories of a run are whatever the smoother returned (arbitrary)."
  },
  {
   "property": "C119",
   "status": "proved",
   "theorems": [
    "PyPE.C119_mixed_gaussian",
    "PyPE.C119_plain",
    "PyPE.C119_recovers",
    "PyPE.C119_unbiased"
   ],
   "note": "Exact real arithmetic. The shipped model: one nonlinear state (with more the code fails, see C72), measurements given at every step; without one the filter raises UnboundLocalError (C17)."
  },
  {
   "property": "C120",
   "status": "proved",
   "theorems": [
    "PyPE.C120_ekf",
    "PyPE.C120_unbiased"
   ],
   "note": "Exact real arithmetic; the sigma-point computation of the 'UKF' class is not modelled, it is covered as an arbitrary first-stage function. Measurements are numbers where the script passes one-element lists."
  },
  {
   "property": "C121",
   "status": "proved",
   "theorems": [
    "PyPE.C121_em",
    "PyPE.C121_filter",
    "PyPE.C121_measure_stateless",
    "PyPE.C121_missing",
    "PyPE.C121_sample_smooth_stateless",
    "PyPE.C121_script",
    "PyPE.C121_simulate",
    "PyPE.C121_simulate_later",
    "PyPE.C121_smoother",
    "PyPE.C121_update_stateless"
   ],
   "note": "Full pipeline with real weights, resampling, draws and Simulator.simulate (with either value of meas_first). C121_missing: the record must be complete, since forward(u, None) raises. A transition that changes over time is excluded for smoothing because of the code's defect proved in C45/C67 (the smoother evaluates the dynamics with the first input and time)."
  },
  {
   "property": "C122",
   "status": "proved",
   "theorems": [
    "PyPE.C122_mhbp_sir",
    "PyPE.C122_mhbp_unbiased",
    "PyPE.C122_nonlinear_gaussian"
   ],
   "note": "C122_mhbp_unbiased (bootstrap), C122_mhbp_sir, C122_nonlinear_gaussian with an example on a concrete model."
  },
  {
   "property": "C123",
   "status": "proved",
   "theorems": [
    "PyPE.C123_growth_script",
    "PyPE.C123_mhbp_script",
    "PyPE.C123_mhips_script",
    "PyPE.C123_other_variances"
   ],
   "note": "C123_mhips_script, C123_mhbp_script, C123_growth_script with examples at the scripts' parameters; C123_other_variances is the defect."
  },
  {
   "property": "C124",
   "status": "proved",
   "theorems": [
    "PyPE.C124_filter",
    "PyPE.C124_rejection_bound",
    "PyPE.C124_xi_density"
   ],
   "note": "The counter pn_count and the plotting are not modelled; R_xi and R_z (1 x 1 matrices in the script) are numbers."
  },
  {
   "property": "C125",
   "status": "proved",
   "theorems": [
    "PyPE.C125_filter",
    "PyPE.C125_jointly_linear"
   ],
   "note": "Smoothing by this script ('mhips_reduced') is not part of the claim. The counter pn_count and the plotting are not modelled."
  },
  {
   "property": "C126",
   "status": "proved",
   "theorems": [
    "PyPE.C126_backward",
    "PyPE.C126_filter"
   ],
   "note": "The error measures and the plotting of the script are not modelled."
  },
  {
   "property": "C127",
   "status": "proved",
   "theorems": [
    "PyPE.C127_filter",
    "PyPE.C127_gradient",
    "PyPE.C127_maximisation",
    "PyPE.C127_set_params"
   ],
   "note": "generate_dataset adds no measurement noise, the model of the class has R = 0.1 I; the theorem is about the model of the class. The optimiser call and the plotting of the script are not modelled."
  }
 ]
}