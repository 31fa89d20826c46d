Axioms of each property theorem, as printed by #print axioms.
Pytwoway.Util.C01_scramble_perm: propext, Classical.choice, Quot.sound
Pytwoway.Util.C01_unscramble_scramble: propext, Classical.choice, Quot.sound
Pytwoway.Util.C01_scramble_unscramble: propext, Classical.choice, Quot.sound
Pytwoway.Util.C01_scrambled_work_in_order: propext, Classical.choice, Quot.sound
Pytwoway.Util.C02_cov_self: propext, Classical.choice, Quot.sound
Pytwoway.Util.C02_cov_self_unweighted: propext, Classical.choice, Quot.sound
Pytwoway.Util.C02_cov_self_negative_weight: propext, Classical.choice, Quot.sound
Pytwoway.Util.C02_cov_symm: propext, Classical.choice, Quot.sound
Pytwoway.Util.C02_cov_shift: propext, Classical.choice, Quot.sound
Pytwoway.Util.C02_cov_linear: propext, Classical.choice, Quot.sound
Pytwoway.Util.C02_cov_weight_scale: propext, Classical.choice, Quot.sound
Pytwoway.Util.C02_var_add: propext, Classical.choice, Quot.sound
Pytwoway.Util.C02_var_add_unweighted: propext, Classical.choice, Quot.sound
Pytwoway.Util.C02_var_nonneg: propext, Classical.choice, Quot.sound
Pytwoway.Util.C02_var_eq_zero_iff: propext, Classical.choice, Quot.sound
Pytwoway.Util.C03_error_iff: propext, Classical.choice, Quot.sound
Pytwoway.Util.C03_total: propext, Classical.choice, Quot.sound
Pytwoway.Util.C03_between: propext, Classical.choice, Quot.sound
Pytwoway.Util.C03_monotone: propext, Classical.choice, Quot.sound
Pytwoway.Util.C03_extremes: propext, Classical.choice, Quot.sound
Pytwoway.Util.C03_order_independent_partial: propext, Classical.choice, Quot.sound
Pytwoway.Util.C03_order_dependence_on_ties: propext, Classical.choice, Quot.sound
Pytwoway.Util.C03_interpolates: propext, Classical.choice, Quot.sound
Pytwoway.Util.C04_exact: propext, Classical.choice, Quot.sound
Pytwoway.Util.C04_arguments: propext, Classical.choice, Quot.sound
Pytwoway.Util.C04_sum_range: propext, Classical.choice, Quot.sound
Pytwoway.Util.C04_bounds: propext, Classical.choice, Quot.sound
Pytwoway.Util.C05_diag_of_prod: propext, Classical.choice, Quot.sound
Pytwoway.Util.C05_diag_of_prod_any_shape: propext, Classical.choice, Quot.sound
Pytwoway.Util.C05_DxSP: propext, Classical.choice, Quot.sound
Pytwoway.Util.C05_SPxD: propext, Classical.choice, Quot.sound
Pytwoway.Util.C05_DxM_MxD: propext, Classical.choice, Quot.sound
Pytwoway.Util.C06_error_iff: propext, Classical.choice, Quot.sound
Pytwoway.Util.C06_var: propext, Classical.choice, Quot.sound
Pytwoway.Util.C06_sd: propext, Classical.choice, Quot.sound
Pytwoway.Util.C06_sd_eq_var: propext, Classical.choice, Quot.sound
Pytwoway.Util.C06_fast: propext, Classical.choice, Quot.sound
Pytwoway.Constraints.C07_history: propext, Classical.choice, Quot.sound
Pytwoway.Constraints.C07_add_only: propext, Classical.choice, Quot.sound
Pytwoway.Constraints.C07_order_irrelevant: propext, Classical.choice, Quot.sound
Pytwoway.Constraints.C07_add_in_pieces: propext, Classical.choice, Quot.sound
Pytwoway.Constraints.C07_clear: propext, Classical.choice, Quot.sound
Pytwoway.Constraints.C07_add_succeeds: propext, Classical.choice, Quot.sound
Pytwoway.Constraints.C07_mixed_periods_raise: propext, Classical.choice, Quot.sound
Pytwoway.Constraints.C07_nonvacuous: propext, Classical.choice, Quot.sound
Pytwoway.Constraints.C08_monotonic: propext, Classical.choice, Quot.sound
Pytwoway.Constraints.C08_monotonic_far: propext, Classical.choice, Quot.sound
Pytwoway.Constraints.C08_no_worker_types: propext, Classical.choice, Quot.sound
Pytwoway.Constraints.C09_monotonicMean: propext, Classical.choice, Quot.sound
Pytwoway.Constraints.C09_monotonicMean_cross: propext, Classical.choice, Quot.sound
Pytwoway.Constraints.C09_monotonicMean_cross_repeated_period: propext, Classical.choice, Quot.sound
Pytwoway.Constraints.C09_minFirmType: propext, Classical.choice, Quot.sound
Pytwoway.Constraints.C09_minFirmType_bad_type: propext, Classical.choice, Quot.sound
Pytwoway.Constraints.C09_minFirmType_cross: propext, Classical.choice, Quot.sound
Pytwoway.Constraints.C10_linear: propext, Classical.choice, Quot.sound
Pytwoway.Constraints.C10_linear_single_worker_type: propext, Classical.choice, Quot.sound
Pytwoway.Constraints.C10_linearAdditive: propext, Classical.choice, Quot.sound
Pytwoway.Constraints.C10_linearAdditive_stronger_than_additive: propext, Classical.choice, Quot.sound
Pytwoway.Constraints.C10_linearAdditive_two_types: propext, Classical.choice, Quot.sound
Pytwoway.Constraints.C11_noWorkerTypeInteraction: propext, Classical.choice, Quot.sound
Pytwoway.Constraints.C11_normalizeAll: propext, Classical.choice, Quot.sound
Pytwoway.Constraints.C11_normalizeLowest: propext, Classical.choice, Quot.sound
Pytwoway.Constraints.C11_normalizeAll_cross: propext, Classical.choice, Quot.sound
Pytwoway.Constraints.C11_normalizeLowest_cross: propext, Classical.choice, Quot.sound
Pytwoway.Constraints.C11_normalizeLowest_bad_type: propext, Classical.choice, Quot.sound
Pytwoway.Constraints.C12_stationary_columns: propext, Classical.choice, Quot.sound
Pytwoway.Constraints.C12_stationary_partial: propext, Classical.choice, Quot.sound
Pytwoway.Constraints.C12_stationary_all: propext, Classical.choice, Quot.sound
Pytwoway.Constraints.C12_stationary_some_types_false: propext, Classical.choice, Quot.sound
Pytwoway.Constraints.C12_stationary_with_noInteraction_false: propext, Classical.choice, Quot.sound
Pytwoway.Constraints.C12_stationary_with_linear_false: propext, Classical.choice, Quot.sound
Pytwoway.Constraints.C12_stationary_invalid: propext, Classical.choice, Quot.sound
Pytwoway.Constraints.C13_stationaryFirmTypeVariation: propext, Classical.choice, Quot.sound
Pytwoway.Constraints.C13_default: propext, Classical.choice, Quot.sound
Pytwoway.Constraints.C14_boundedBelow: propext, Classical.choice, Quot.sound
Pytwoway.Constraints.C14_boundedAbove: propext, Classical.choice, Quot.sound
Pytwoway.FE.C15_normal_equations: propext, Classical.choice, Quot.sound
Pytwoway.FE.C15_optimal: propext, Classical.choice, Quot.sound
Pytwoway.FE.C15_normalised: propext, Classical.choice, Quot.sound
Pytwoway.FE.C16_unique: propext, Classical.choice, Quot.sound
Pytwoway.FE.C16_noise_free: propext, Classical.choice, Quot.sound
Pytwoway.FE.C16_needs_connected: propext, Classical.choice, Quot.sound
Pytwoway.FE.C17_leverage_is_sensitivity: propext, Classical.choice, Quot.sound
Pytwoway.FE.C17_range: propext, Classical.choice, Quot.sound
Pytwoway.FE.C17_sum_all_rows: propext, Classical.choice, Quot.sound
Pytwoway.FE.C17_sum_unweighted: propext, Classical.choice, Quot.sound
Pytwoway.FE.C17_sum_weighted: propext, Classical.choice, Quot.sound
Pytwoway.FE.C17_iterative_branch: propext, Classical.choice, Quot.sound
Pytwoway.FE.C18_leave_one_out: propext, Classical.choice, Quot.sound
Pytwoway.FE.C18_expectation: propext, Classical.choice, Quot.sound
Pytwoway.FE.C18_unbiased_partial: propext, Classical.choice, Quot.sound
Pytwoway.FE.C18_heteroskedastic_biased: propext, Classical.choice, Quot.sound
Pytwoway.FE.C19_sigma2_unbiased: propext, Classical.choice, Quot.sound
Pytwoway.FE.C19_cov_unbiased_partial: propext, Classical.choice, Quot.sound
Pytwoway.FE.C19_default_components_partial: propext, Classical.choice, Quot.sound
Pytwoway.FE.C19_var_alpha_bias: propext, Classical.choice, Quot.sound
Pytwoway.FE.C19_var_alpha_biased: propext, Classical.choice, Quot.sound
Pytwoway.FE.C19_gamma_refused: propext, Classical.choice, Quot.sound
Pytwoway.FE.C20_exact_trace_var_alpha: propext, Classical.choice, Quot.sound
Pytwoway.FE.C20_exact_trace_var_psi: propext, Classical.choice, Quot.sound
Pytwoway.FE.C20_plug_in_bias: propext, Classical.choice, Quot.sound
Pytwoway.FE.C20_var_psi_expectation: propext, Classical.choice, Quot.sound
Pytwoway.FE.C20_var_psi_partial: propext, Classical.choice, Quot.sound
Pytwoway.FE.C20_right_trace_partial: propext, Classical.choice, Quot.sound
Pytwoway.FE.C20_exact_trace_cov: propext, Classical.choice, Quot.sound
Pytwoway.FE.C20_weighted_expectation: propext, Classical.choice, Quot.sound
Pytwoway.FE.C20_weighted_biased: propext, Classical.choice, Quot.sound
Pytwoway.FE.C20_heteroskedastic_biased: propext, Classical.choice, Quot.sound
Pytwoway.FE.C20_probe_partial: propext, Classical.choice, Quot.sound
Pytwoway.FE.C20_stayers_partial: propext, Classical.choice, Quot.sound
Pytwoway.FE.C21_ho_draws: propext, Classical.choice, Quot.sound
Pytwoway.FE.C21_ho_agrees: propext, Classical.choice, Quot.sound
Pytwoway.FE.C21_he_draws: propext, Classical.choice, Quot.sound
Pytwoway.FE.C21_sigma2_hutchinson: propext, Classical.choice, Quot.sound
Pytwoway.FE.C21_sigma2_hutchPP: propext, Classical.choice, Quot.sound
Pytwoway.FE.C21_sigma2_hutchPP_refused: propext, Classical.choice, Quot.sound
Pytwoway.FE.C21_ho_corrected: propext, Classical.choice, Quot.sound
Pytwoway.FE.C22_batching: propext, Classical.choice, Quot.sound
Pytwoway.FE.C22_range: propext, Classical.choice, Quot.sound
Pytwoway.FE.C22_stayers_raw: propext, Classical.choice, Quot.sound
Pytwoway.FE.C22_expectation: propext, Classical.choice, Quot.sound
Pytwoway.FE.C23_plug_in: propext, Classical.choice, Quot.sound
Pytwoway.FE.C23_attached: propext, Classical.choice, Quot.sound
Pytwoway.FE.C23_identity: propext, Classical.choice, Quot.sound
Pytwoway.FEControl.C24_layout: propext, Classical.choice, Quot.sound
Pytwoway.FEControl.C24_columns: propext, Classical.choice, Quot.sound
Pytwoway.FEControl.C24_unpack: propext, Classical.choice, Quot.sound
Pytwoway.FEControl.C24_attached: propext, Classical.choice, Quot.sound
Pytwoway.FEControl.C24_component: propext, Classical.choice, Quot.sound
Pytwoway.FEControl.C24_component_sum: propext, Classical.choice, Quot.sound
Pytwoway.FEControl.C24_name_clash: propext, Classical.choice, Quot.sound
Pytwoway.FEControl.C25_pairs_partial: propext, Classical.choice, Quot.sound
Pytwoway.FEControl.C25_first_category: propext, Classical.choice, Quot.sound
Pytwoway.FEControl.C25_own_cluster: propext, Classical.choice, Quot.sound
Pytwoway.FEControl.C25_sandwich: propext, Classical.choice, Quot.sound
Pytwoway.FEControl.C25_one_firm: propext, Classical.choice, Quot.sound
Pytwoway.FEControl.C25_single_cluster: propext, Classical.choice, Quot.sound
Pytwoway.FEControl.C25_two_way_negative: propext, Classical.choice, Quot.sound
Pytwoway.CRE.C26_stayers: propext, Classical.choice, Quot.sound
Pytwoway.CRE.C26_stayers_kept: propext, Classical.choice, Quot.sound
Pytwoway.CRE.C26_movers_kept: propext, Classical.choice, Quot.sound
Pytwoway.CRE.C26_movers: propext, Classical.choice, Quot.sound
Pytwoway.CRE.C26_moments: propext, Classical.choice, Quot.sound
Pytwoway.CRE.C26_stayer_mover_moments: propext, Classical.choice, Quot.sound
Pytwoway.CRE.C26_change_moment: propext, Classical.choice, Quot.sound
Pytwoway.CRE.C27_movers_partial: propext, Classical.choice, Quot.sound
Pytwoway.CRE.C27_stayer_reported: propext, Classical.choice, Quot.sound
Pytwoway.CRE.C27_stayer_right_iff: propext, Classical.choice, Quot.sound
Pytwoway.CRE.C27_stayer_cov_wrong: propext, Classical.choice, Quot.sound
Pytwoway.CRE.C28_additive: propext, Classical.choice, Quot.sound
Pytwoway.CRE.C28_var_y: propext, Classical.choice, Quot.sound
Pytwoway.CRE.C28_without_between: propext, Classical.choice, Quot.sound
Pytwoway.CRE.C28_within: propext, Classical.choice, Quot.sound
Pytwoway.BS.C29_pairs: propext, Classical.choice, Quot.sound
Pytwoway.BS.C29_square: propext, Classical.choice, Quot.sound
Pytwoway.BS.C29_expectation_partial: propext, Classical.choice, Quot.sound
Pytwoway.BS.C29_expectation_unweighted_partial: propext, Classical.choice, Quot.sound
Pytwoway.BS.C29_truth: propext, Classical.choice, Quot.sound
Pytwoway.BS.C29_repeated_match: propext, Classical.choice, Quot.sound
Pytwoway.Sorkin.C30_normalised: propext, Classical.choice, Quot.sound
Pytwoway.Sorkin.C30_fixed_point: propext, Classical.choice, Quot.sound
Pytwoway.Sorkin.C30_unique: propext, Classical.choice, Quot.sound
Pytwoway.Sorkin.C30_threshold: propext, Classical.choice, Quot.sound
Pytwoway.Sorkin.C30_not_convergent: propext, Classical.choice, Quot.sound
Pytwoway.Sorkin.C30_no_passes: propext, Classical.choice, Quot.sound
Pytwoway.BLM.C31_movers: propext, Classical.choice, Quot.sound
Pytwoway.BLM.C31_movers_unweighted: propext, Classical.choice, Quot.sound
Pytwoway.BLM.C31_stayers: propext, Classical.choice, Quot.sound
Pytwoway.BLM.C32_movers: propext, Classical.choice, Quot.sound
Pytwoway.BLM.C32_movers_raises: propext, Classical.choice, Quot.sound
Pytwoway.BLM.C32_stayers: propext, Classical.choice, Quot.sound
Pytwoway.BLM.C32_stayers_raises_iff: propext, Classical.choice, Quot.sound
Pytwoway.BLM.C32_stayers_silent_nan: propext, Classical.choice, Quot.sound
Pytwoway.BLM.C33_stayers: propext, Classical.choice, Quot.sound
Pytwoway.BLM.C33_stayers_returns: propext, Classical.choice, Quot.sound
Pytwoway.BLM.C33_movers: propext, Classical.choice, Quot.sound
Pytwoway.BLM.C33_movers_returns: propext, Classical.choice, Quot.sound
Pytwoway.BLM.C33_prior_lowers: propext, Classical.choice, Quot.sound
Pytwoway.BLM.C34_means_minimise: propext, Classical.choice, Quot.sound
Pytwoway.BLM.C34_closed_form: propext, Classical.choice, Quot.sound
Pytwoway.BLM.C34_raises: propext, Classical.choice, Quot.sound
Pytwoway.BLM.C35_relabelling: propext, Classical.choice, Quot.sound
Pytwoway.BLM.C35_workers_sorted: propext, Classical.choice, Quot.sound
Pytwoway.BLM.C35_firms_sorted: propext, Classical.choice, Quot.sound
Pytwoway.BLM.C35_likelihood: propext, Classical.choice, Quot.sound
Pytwoway.BLM.C35_idempotent: propext, Classical.choice, Quot.sound
Pytwoway.BLM.C36_predictions: propext, Classical.choice, Quot.sound
Pytwoway.BLM.C36_stationary: propext, Classical.choice, Quot.sound
Pytwoway.BLM.C36_noninteracted: propext, Classical.choice, Quot.sound
Pytwoway.BLM.C36_zeros: propext, Classical.choice, Quot.sound
Pytwoway.BLM.C36_lowest: propext, Classical.choice, Quot.sound
Pytwoway.BLM.C36_no_controls: propext, Classical.choice, Quot.sound
Pytwoway.BLM.C37_joint_partial: propext, Classical.choice, Quot.sound
Pytwoway.BLM.C37_separate_partial: propext, Classical.choice, Quot.sound
Pytwoway.BLM.C37_separate_raises: propext, Classical.choice, Quot.sound
Pytwoway.BLM.C37_transposed: propext, Classical.choice, Quot.sound
Pytwoway.BLM.C37_wrong: propext, Classical.choice, Quot.sound
Pytwoway.BLM.C37_probability: propext, Classical.choice, Quot.sound
Pytwoway.BLM.C38_best: propext, Classical.choice, Quot.sound
Pytwoway.BLM.C38_returns_iff: propext, Classical.choice, Quot.sound
Pytwoway.BLM.C38_order: propext, Classical.choice, Quot.sound
Pytwoway.BLM.C39_bootstrap_partial: propext
Pytwoway.BLM.C39_standard: none
Pytwoway.BLM.C39_bootstrap_crash: propext
Pytwoway.BLM.C39_vardec_partial: propext, Quot.sound
Pytwoway.BLM.C39_vardec_crash: propext
Pytwoway.BLM.C39_vardec_no_samples: propext
Pytwoway.BLM.C40_fit_S_partial: propext, Classical.choice, Quot.sound
Pytwoway.BLM.C40_fit_pk_partial: propext, Classical.choice, Quot.sound
Pytwoway.BLM.C40_fit_A_raises: propext, Classical.choice, Quot.sound
Pytwoway.BLM.C40_settings_lost: propext, Classical.choice, Quot.sound
Pytwoway.BLM.C40_fit_pk_raises: propext, Classical.choice, Quot.sound
Pytwoway.BLM.C40_cstr_partial: Quot.sound
Pytwoway.BLM.C40_cstr_sequence: propext
Pytwoway.Interacted.C41_layout: propext, Classical.choice, Quot.sound
Pytwoway.Interacted.C41_extract_coeffs: propext, Classical.choice, Quot.sound
Pytwoway.Interacted.C41_stationary_a: propext, Classical.choice, Quot.sound
Pytwoway.Interacted.C41_liml1_recovers: propext, Classical.choice, Quot.sound
Pytwoway.Interacted.C41_liml1_noiseless_raises: propext, Classical.choice, Quot.sound
Pytwoway.Interacted.C41_iv_recovers_partial: propext, Classical.choice, Quot.sound
Pytwoway.Interacted.C41_linear_least_squares: propext, Classical.choice, Quot.sound
Pytwoway.Interacted.C41_rejects: propext, Classical.choice, Quot.sound
Pytwoway.Interacted.C41_worker_ids_raise: propext, Classical.choice, Quot.sound
Pytwoway.Interacted.C41_iv_weighted_wrong: propext, Classical.choice, Quot.sound
Pytwoway.Interacted.C42_least_squares: propext, Classical.choice, Quot.sound
Pytwoway.Sim.C43_dyn_worker_ids: propext, Classical.choice, Quot.sound
Pytwoway.Sim.C43_dyn_one_move: propext, Classical.choice, Quot.sound
Pytwoway.Sim.C43_dyn_firms: propext, Classical.choice, Quot.sound
Pytwoway.Sim.C43_dyn_counts: propext, Classical.choice, Quot.sound
Pytwoway.Sim.C43_worker_ids: propext, Classical.choice, Quot.sound
Pytwoway.Sim.C43_movers_move: propext, Classical.choice, Quot.sound
Pytwoway.Sim.C43_firms: propext, Classical.choice, Quot.sound
Pytwoway.Sim.C43_counts: propext, Classical.choice, Quot.sound
Pytwoway.Sim.C44_dyn_iff: propext, Classical.choice, Quot.sound
Pytwoway.Sim.C44_dyn_sorted_partial: propext, Classical.choice, Quot.sound
Pytwoway.Sim.C44_dyn_wrong: propext, Classical.choice, Quot.sound
Pytwoway.Sim.C44_first: propext, Classical.choice, Quot.sound
Pytwoway.Sim.C44_second_iff: propext, Classical.choice, Quot.sound
Pytwoway.Sim.C44_sorted_partial: propext, Classical.choice, Quot.sound
Pytwoway.Sim.C44_second_wrong: propext, Classical.choice, Quot.sound
Pytwoway.Sim.C45_sorted: propext, Classical.choice, Quot.sound
Pytwoway.Sim.C45_monotone: propext, Classical.choice, Quot.sound
Pytwoway.Sim.C45_stationary: propext, Classical.choice, Quot.sound
Pytwoway.Sim.C45_additive: propext, Classical.choice, Quot.sound
Pytwoway.Sim.C45_firm_variation_partial: propext, Classical.choice, Quot.sound
Pytwoway.Sim.C45_firm_variation_raises: propext, Classical.choice, Quot.sound
Pytwoway.Sim.C45_firm_variation_iff: propext, Classical.choice, Quot.sound
Pytwoway.Sim.C45_firm_variation_shape: propext, Classical.choice, Quot.sound
Pytwoway.Sim.Dyn.C46_switch_off_partial: propext, Classical.choice, Quot.sound
Pytwoway.Sim.Dyn.C46_switch_off_cat: propext, Classical.choice, Quot.sound
Pytwoway.Sim.Dyn.C46_stationary_zeroes: propext, Classical.choice, Quot.sound
Pytwoway.Sim.Dyn.C46_stationary_zeroes_cat: propext, Classical.choice, Quot.sound
Pytwoway.Sim.Dyn.C46_stationary_equal: propext, Classical.choice, Quot.sound
Pytwoway.Sim.Dyn.C46_stationary_simulation_raises: propext, Classical.choice, Quot.sound
Pytwoway.Sim.Dyn.C46_firm_variation_raises: propext, Classical.choice, Quot.sound
Pytwoway.Sim.Dyn.C46_simulation_means: propext, Classical.choice, Quot.sound
Pytwoway.Sim.Dyn.C46_types_ordered: propext, Classical.choice, Quot.sound
Pytwoway.Sim.Dyn.C46_strictly_ordered: propext, Classical.choice, Quot.sound
Pytwoway.Attrition.C47_rounding: propext, Classical.choice, Quot.sound
Pytwoway.Attrition.C47_fractions: propext, Classical.choice, Quot.sound
Pytwoway.Attrition.C47_one_per_fraction: propext, Classical.choice, Quot.sound
Pytwoway.Attrition.C47_nested: propext, Classical.choice, Quot.sound
Pytwoway.Attrition.C47_sizes: propext, Classical.choice, Quot.sound
Pytwoway.Attrition.C47_parameters_partial: propext, Classical.choice, Quot.sound
Pytwoway.Attrition.C47_parameters_lost: propext, Classical.choice, Quot.sound
Pytwoway.Attrition.C47_nested_needs_closed: propext, Classical.choice, Quot.sound
Pytwoway.Attrition.C48_stored: propext, Classical.choice, Quot.sound
Pytwoway.Attrition.C48_combined_partial: propext, Classical.choice, Quot.sound
Pytwoway.Attrition.C48_decreasing_raises: propext, Classical.choice, Quot.sound
Pytwoway.MonteCarlo.C49_positions: propext, Classical.choice, Quot.sound
Pytwoway.MonteCarlo.C49_estimators: propext, Classical.choice, Quot.sound
Pytwoway.MonteCarlo.C49_parameters: propext, Classical.choice, Quot.sound
Pytwoway.MonteCarlo.C49_collapse_raises: propext
Pytwoway.BLM.C50_value_of_pairing: propext, Classical.choice, Quot.sound
Pytwoway.BLM.C50_value_partial: propext, Classical.choice, Quot.sound
Pytwoway.BLM.C50_zero_iff_disconnected: propext, Classical.choice, Quot.sound
Pytwoway.BLM.C50_zero_iff_partial: propext, Classical.choice, Quot.sound
Pytwoway.BLM.C50_returns_iff: propext, Classical.choice, Quot.sound
Pytwoway.BLM.C50_relabelling: propext, Classical.choice, Quot.sound
Pytwoway.BLM.C50_all_ignored: propext, Classical.choice, Quot.sound
Pytwoway.BLM.C50_wrong: propext, Classical.choice, Quot.sound
Pytwoway.SimBS.C51_rejects_partial: propext, Classical.choice, Quot.sound
Pytwoway.SimBS.C51_stored: propext, Classical.choice, Quot.sound
Pytwoway.SimBS.C51_perfect_correlation: propext, Classical.choice, Quot.sound
Pytwoway.SimBS.C51_counts: propext, Quot.sound
Pytwoway.SimBS.C51_counts_unique: propext
Pytwoway.SimBS.C51_smaller_side_grows: propext, Classical.choice, Quot.sound
Pytwoway.SimBS.C51_gap_closed: propext, Quot.sound
Pytwoway.SimBS.C51_counts_may_not_end: propext, Quot.sound
Pytwoway.SimBS.C51_matching: propext, Classical.choice, Quot.sound
Pytwoway.Precond.C52_cholesky_solves: propext, Classical.choice, Quot.sound
Pytwoway.Precond.C52_cholesky_spd: propext, Classical.choice, Quot.sound
Pytwoway.Precond.C52_fe_jacobi: propext, Classical.choice, Quot.sound
Pytwoway.Precond.C52_fe_vcycle: propext, Classical.choice, Quot.sound
Pytwoway.Precond.C52_controls_vcycle_indefinite: propext, Classical.choice, Quot.sound
Pytwoway.Precond.C52_ichol_spd: propext, Classical.choice, Quot.sound
Pytwoway.Precond.C52_downsample: propext, Classical.choice, Quot.sound
Pytwoway.Precond.C52_jacobi_divides_partial: propext, Classical.choice, Quot.sound
Pytwoway.Precond.C52_jacobi_spd: propext, Classical.choice, Quot.sound
Pytwoway.Precond.C52_jacobi_small: propext, Classical.choice, Quot.sound
Pytwoway.Precond.C52_vcycle_symmetric: propext, Classical.choice, Quot.sound
Pytwoway.Precond.C52_vcycle_spd: propext, Classical.choice, Quot.sound
Pytwoway.Dynamic.C53_moments_partial: propext, Classical.choice, Quot.sound
Pytwoway.Dynamic.C53_wrong_rows: propext, Classical.choice, Quot.sound
Pytwoway.Dynamic.C53_truth_rejected: propext, Classical.choice, Quot.sound
Pytwoway.Dynamic.C53_weights_misaligned: propext, Classical.choice, Quot.sound
Pytwoway.Dynamic.C53_weights_one: propext, Classical.choice, Quot.sound
Pytwoway.Dynamic.C53_differences_raise: propext, Quot.sound
Pytwoway.Dynamic.C54_unchanged_partial: propext, Classical.choice, Quot.sound
Pytwoway.Dynamic.C54_normalised: propext, Classical.choice, Quot.sound
Pytwoway.Dynamic.C54_normalised_first: propext, Classical.choice, Quot.sound
Pytwoway.Dynamic.C54_raises: propext, Classical.choice, Quot.sound
Pytwoway.Dynamic.C55_minimises: propext, Classical.choice, Quot.sound
Pytwoway.Dynamic.C55_likelihood_can_fall: propext, Classical.choice, Quot.sound
Pytwoway.Options.C56_control_init: propext, Classical.choice, Quot.sound
Pytwoway.Options.C56_control_exact: propext, Classical.choice, Quot.sound
Pytwoway.Options.C56_control_supported_partial: propext, Classical.choice, Quot.sound
Pytwoway.Options.C56_control_path: propext, Classical.choice, Quot.sound
Pytwoway.Options.C56_control_init_suffices: propext, Classical.choice, Quot.sound
Pytwoway.Options.C56_control_late: propext, Classical.choice, Quot.sound
Pytwoway.Options.C56_fe_supported_partial: propext, Classical.choice, Quot.sound
Pytwoway.Options.C56_fe_outcome: propext, Classical.choice, Quot.sound
Pytwoway.Options.C56_fe_late: propext, Classical.choice, Quot.sound
Pytwoway.Options.C56_fe_path: propext, Classical.choice, Quot.sound
Pytwoway.Options.C56_fe_results: propext, Classical.choice, Quot.sound
Pytwoway.Options.C56_fe_init: propext
Pytwoway.Options.C56_interacted_rejects: propext, Classical.choice, Quot.sound
Pytwoway.Options.C56_interacted_path: propext, Classical.choice, Quot.sound
Pytwoway.Options.C56_interacted_supported_partial: propext, Classical.choice, Quot.sound
Pytwoway.Options.C56_interacted_hful: propext, Classical.choice, Quot.sound
Pytwoway.Util.C57_melt_mislabels: propext, Classical.choice, Quot.sound
Pytwoway.Util.C57_melt_one_column_partial: propext, Classical.choice, Quot.sound
Pytwoway.Constraints.C58_solve_minimises: propext, Classical.choice, Quot.sound
Pytwoway.Constraints.C58_checkFeasible_partial: propext, Classical.choice, Quot.sound
Pytwoway.Constraints.C58_checkFeasible_two_periods_raises: propext, Classical.choice, Quot.sound
Pytwoway.Constraints.C58_pad_partial: propext, Classical.choice, Quot.sound
Pytwoway.Constraints.C58_pad_empty: propext, Classical.choice, Quot.sound
Pytwoway.Constraints.C59_genConstraints_partial: propext, Classical.choice, Quot.sound
Pytwoway.Constraints.C59_force_min_firm_type: propext, Classical.choice, Quot.sound
Pytwoway.Constraints.C59_depends_on_column_order: propext, Classical.choice, Quot.sound
Pytwoway.FE.C60_stayer_leverage: propext, Classical.choice, Quot.sound
Pytwoway.FE.C60_firm_mean: propext, Classical.choice, Quot.sound
Pytwoway.FE.C60_upper_bound_unweighted: propext, Classical.choice, Quot.sound
Pytwoway.FE.C60_upper_bound_weighted_partial: propext, Classical.choice, Quot.sound
Pytwoway.FE.C60_single_row_stayer: propext, Classical.choice, Quot.sound
Pytwoway.FE.C60_unbiased: propext, Classical.choice, Quot.sound
Pytwoway.FEControl.C61_least_squares: propext, Classical.choice, Quot.sound
Pytwoway.FEControl.C62_unweighted_partial: propext, Classical.choice, Quot.sound
Pytwoway.FEControl.C62_weighted: propext, Classical.choice, Quot.sound
Pytwoway.FEControl.C62_residual_variance: propext, Classical.choice, Quot.sound
Pytwoway.CRE.C63_least_squares: propext, Classical.choice, Quot.sound
Pytwoway.CRE.C63_recovers: propext, Classical.choice, Quot.sound
Pytwoway.CRE.C63_centred: propext, Classical.choice, Quot.sound
Pytwoway.CRE.C64_mean: propext, Classical.choice, Quot.sound
Pytwoway.CRE.C64_posterior_partial: propext, Classical.choice, Quot.sound
Pytwoway.CRE.C64_stayer_only_prior: propext, Classical.choice, Quot.sound
Pytwoway.CRE.C64_prior: propext, Classical.choice, Quot.sound
Pytwoway.CRE.C64_stayer_only_mean: propext, Classical.choice, Quot.sound
Pytwoway.BS.C65_alternative_unweighted: propext, Classical.choice, Quot.sound
Pytwoway.BS.C65_alternative_weighted_wrong: propext, Classical.choice, Quot.sound
Pytwoway.BS.C65_alternative_weighted_partial: propext, Classical.choice, Quot.sound
Pytwoway.BS.C65_constant_wage: propext, Classical.choice, Quot.sound
Pytwoway.BS.C65_var_y_unweighted_partial: propext, Classical.choice, Quot.sound
Pytwoway.BS.C65_var_y_weighted_wrong: propext, Classical.choice, Quot.sound
Pytwoway.BS.C65_returns: propext, Classical.choice, Quot.sound
Pytwoway.FE.C66_factor: propext, Classical.choice, Quot.sound
Pytwoway.FE.C66_wrong_example: propext, Classical.choice, Quot.sound
Pytwoway.FE.C66_half_partial: propext, Classical.choice, Quot.sound
Pytwoway.Sorkin.C67_shifted: propext, Classical.choice, Quot.sound
Pytwoway.Sorkin.C67_aligned_iff_partial: propext, Classical.choice, Quot.sound
Pytwoway.BLM.C68_stayers_stop: propext, Classical.choice, Quot.sound
Pytwoway.BLM.C68_stayers_first: propext, Classical.choice, Quot.sound
Pytwoway.BLM.C68_movers_stop: propext, Classical.choice, Quot.sound
Pytwoway.BLM.C68_movers_first: propext, Classical.choice, Quot.sound
Pytwoway.BLM.C68_movers_second: propext, Classical.choice, Quot.sound
Pytwoway.Interacted.C69_recovers_partial: propext, Classical.choice, Quot.sound
Pytwoway.Interacted.C69_rejects_returns: propext, Classical.choice, Quot.sound
Pytwoway.Interacted.C69_default_recovers: propext, Classical.choice, Quot.sound
Pytwoway.Interacted.C69_weighted_wrong: propext, Classical.choice, Quot.sound
Pytwoway.Interacted.C70_aligned_partial: propext, Classical.choice, Quot.sound
Pytwoway.Interacted.C70_general: propext, Classical.choice, Quot.sound
Pytwoway.Interacted.C70_misaligned: propext, Classical.choice, Quot.sound
Pytwoway.Sim.C71_density: propext, Classical.choice, Quot.sound
Pytwoway.Sim.C71_types: propext, Classical.choice, Quot.sound
Pytwoway.Sim.C72_density_partial: propext, Classical.choice, Quot.sound
Pytwoway.Sim.C72_weighted_variance: propext, Classical.choice, Quot.sound
Pytwoway.Dynamic.C73_movers_partial: propext, Classical.choice, Quot.sound
Pytwoway.Dynamic.C73_stayers_partial: propext, Classical.choice, Quot.sound
Pytwoway.Dynamic.C73_types: propext, Quot.sound
Pytwoway.Dynamic.C73_controls_wrong: propext, Classical.choice, Quot.sound
Pytwoway.Dynamic.C73_continuous_raise: propext, Classical.choice, Quot.sound
Pytwoway.Dynamic.C74_density_partial: propext, Classical.choice, Quot.sound
Pytwoway.Dynamic.C74_controls_raise: propext, Classical.choice, Quot.sound
Pytwoway.Dynamic.C75_flow: propext, Classical.choice, Quot.sound
Pytwoway.Dynamic.C75_movers_posterior: propext, Classical.choice, Quot.sound
Pytwoway.Dynamic.C75_stayers_posterior: propext, Classical.choice, Quot.sound
Pytwoway.Dynamic.C75_proportions: propext, Classical.choice, Quot.sound
Pytwoway.Dynamic.C75_raises: propext, Classical.choice, Quot.sound
Pytwoway.Dynamic.C77_stayers_variances_lower: propext, Classical.choice, Quot.sound
Pytwoway.Dynamic.C77_movers_variances_lower: propext, Classical.choice, Quot.sound
Pytwoway.Dynamic.C77_movers_means_lower: propext, Classical.choice, Quot.sound
Pytwoway.Dynamic.C77_movers_recorded: propext, Classical.choice, Quot.sound
Pytwoway.Dynamic.C77_stayers_recorded: propext, Classical.choice, Quot.sound
Pytwoway.Dynamic.C77_stayers_partial: propext, Classical.choice, Quot.sound
Pytwoway.Dynamic.C77_movers_partial: propext, Classical.choice, Quot.sound
Pytwoway.Dynamic.C77_stayers_returns: propext, Classical.choice, Quot.sound
Pytwoway.Dynamic.C77_movers_returns: propext, Classical.choice, Quot.sound
Pytwoway.Dynamic.C77_stayers_variances: propext, Classical.choice, Quot.sound
Pytwoway.Dynamic.C77_movers_factors: propext, Classical.choice, Quot.sound
Pytwoway.Dynamic.C77_stayers_factors: propext, Classical.choice, Quot.sound
Pytwoway.Dynamic.C77_movers_means: propext, Classical.choice, Quot.sound
Pytwoway.Dynamic.C77_movers_variances: propext, Classical.choice, Quot.sound
Pytwoway.Dynamic.C77_stayers_variances_new: propext, Classical.choice, Quot.sound
Pytwoway.Dynamic.C77_movers_kept: propext, Classical.choice, Quot.sound
Pytwoway.Dynamic.C77_stayers_kept: propext, Classical.choice, Quot.sound
Pytwoway.Dynamic.C77_stayers_alternate: propext, Classical.choice, Quot.sound
Pytwoway.Dynamic.C77_movers_alternate: propext, Classical.choice, Quot.sound
Pytwoway.Dynamic.C77_prior_lower: propext, Classical.choice, Quot.sound
Pytwoway.Dynamic.C78_stayers_partial: propext, Classical.choice, Quot.sound
Pytwoway.Dynamic.C78_threshold_ignored: propext, Classical.choice, Quot.sound
Pytwoway.Dynamic.C78_stayers_wrong: propext, Classical.choice, Quot.sound
Pytwoway.Dynamic.C78_movers_stop: propext, Classical.choice, Quot.sound
Pytwoway.Dynamic.C76_off_partial: propext, Classical.choice, Quot.sound
Pytwoway.Dynamic.C76_no_effect: propext, Classical.choice, Quot.sound
Pytwoway.Dynamic.C76_controls_raise: propext, Classical.choice, Quot.sound
Pytwoway.Dynamic.C76_controls_error: propext, Classical.choice, Quot.sound
Pytwoway.Dynamic.C76_continuous_kept: propext, Classical.choice, Quot.sound
Pytwoway.Attrition.C79_no_line_raises: propext, Classical.choice, Quot.sound
Pytwoway.Attrition.C79_line_partial: propext, Classical.choice, Quot.sound
Pytwoway.Attrition.C79_needs_monotone: propext, Classical.choice, Quot.sound
Pytwoway.Attrition.C80_nested: propext, Classical.choice, Quot.sound
Pytwoway.Attrition.C80_sizes: propext, Classical.choice, Quot.sound
Pytwoway.Attrition.C80_fractions: propext, Classical.choice, Quot.sound
Pytwoway.MonteCarlo.C81_range: propext, Classical.choice, Quot.sound
Pytwoway.SimBS.C82_degenerate_undefined: propext, Classical.choice, Quot.sound
Pytwoway.SimBS.C82_degenerate_accepted: propext, Classical.choice, Quot.sound
Pytwoway.SimBS.C82_columns_scaled: propext, Classical.choice, Quot.sound
Pytwoway.SimBS.C82_moments_partial: propext, Classical.choice, Quot.sound
Pytwoway.Precond.C83_error_bound: propext, Classical.choice, Quot.sound
Pytwoway.Precond.C83_exact: propext, Classical.choice, Quot.sound
Pytwoway.Precond.C83_direct_solver: propext, Classical.choice, Quot.sound
Pytwoway.Precond.C83_fe_succeeds: propext, Classical.choice, Quot.sound
Pytwoway.Precond.C83_missing_diagonal: propext, Classical.choice, Quot.sound
Pytwoway.Options.C84_control_refit: propext, Classical.choice, Quot.sound
Pytwoway.Options.C84_control_refit_path: propext, Classical.choice, Quot.sound
Pytwoway.Options.C84_control_refit_results: propext, Classical.choice, Quot.sound
Pytwoway.Options.C84_control_leftovers_partial: propext, Classical.choice, Quot.sound
Pytwoway.Options.C84_refit_outcome: propext, Classical.choice, Quot.sound
Pytwoway.Options.C84_refit_path: propext, Classical.choice, Quot.sound
Pytwoway.Options.C84_refit_results: propext, Classical.choice, Quot.sound
Pytwoway.Options.C84_no_leftovers_partial: propext, Classical.choice, Quot.sound
Pytwoway.Options.C84_leftovers: propext, Classical.choice, Quot.sound
Pytwoway.FEControl.C85_plug_in: propext, Classical.choice, Quot.sound
Pytwoway.FEControl.C85_sigma2_unbiased: propext, Classical.choice, Quot.sound
Pytwoway.FEControl.C85_draws: propext, Classical.choice, Quot.sound
Pytwoway.FEControl.C85_ho_unbiased: propext, Classical.choice, Quot.sound
Pytwoway.FEControl.C85_ho_unbiased_var: propext, Classical.choice, Quot.sound
Pytwoway.FEControl.C85_sigma2_hutchinson: propext, Classical.choice, Quot.sound
Pytwoway.FEControl.C85_sigma2_hutchPP: propext, Classical.choice, Quot.sound
Pytwoway.FEControl.C85_unknown_name: propext, Classical.choice, Quot.sound
Pytwoway.FEControl.C86_leverage_expectation: propext, Classical.choice, Quot.sound
Pytwoway.FEControl.C86_leverage_range: propext, Classical.choice, Quot.sound
Pytwoway.FEControl.C86_files: propext, Classical.choice, Quot.sound
Pytwoway.FEControl.C86_leave_one_out: propext, Classical.choice, Quot.sound
Pytwoway.FEControl.C86_variance_expectation: propext, Classical.choice, Quot.sound
Pytwoway.FEControl.C86_variance_partial: propext, Classical.choice, Quot.sound
Pytwoway.FEControl.C86_stayers_upper_bound: propext, Classical.choice, Quot.sound
Pytwoway.FEControl.C86_draws: propext, Classical.choice, Quot.sound
Pytwoway.FEControl.C86_he_expectation: propext, Classical.choice, Quot.sound
Pytwoway.FEControl.C86_he_unbiased_partial: propext, Classical.choice, Quot.sound
Pytwoway.FEControl.C86_heteroskedastic_biased: propext, Classical.choice, Quot.sound
Pytwoway.FEControl.C86_not_upper_bound: propext, Classical.choice, Quot.sound
Pytwoway.FEControl.C86_lone_stayer_refused: propext, Classical.choice, Quot.sound
Pytwoway.BLM.C87_no_stale_values: propext, Classical.choice, Quot.sound
Pytwoway.BLM.C87_mstep: propext, Classical.choice, Quot.sound
Pytwoway.BLM.C87_each_column: propext, Classical.choice, Quot.sound
Pytwoway.BLM.C87_interacted_closed_form: propext, Classical.choice, Quot.sound
Pytwoway.BLM.C87_pooled_closed_form: propext, Classical.choice, Quot.sound
Pytwoway.BLM.C87_missing_category: propext, Classical.choice, Quot.sound
Pytwoway.BLM.C87_update_a_alone: propext, Classical.choice, Quot.sound
Pytwoway.BLM.C88_effects_partial: propext, Classical.choice, Quot.sound
Pytwoway.BLM.C88_likelihood_falls: propext, Classical.choice, Quot.sound
Pytwoway.BLM.C88_category_variance: propext, Classical.choice, Quot.sound
Pytwoway.BLM.C88_slope_variance: propext, Classical.choice, Quot.sound
Pytwoway.BLM.C88_double_count: propext, Classical.choice, Quot.sound
Pytwoway.FE.C89_aligned: propext, Classical.choice, Quot.sound
Pytwoway.FE.C89_component: propext, Classical.choice, Quot.sound
Pytwoway.FE.C89_plug_in: propext, Classical.choice, Quot.sound
Pytwoway.FE.C89_normalisation: propext, Classical.choice, Quot.sound
Pytwoway.FE.C89_ho_unbiased: propext, Classical.choice, Quot.sound
Pytwoway.FE.C89_ho_probes: propext, Classical.choice, Quot.sound
Pytwoway.FE.C89_he_probes_partial: propext, Classical.choice, Quot.sound
Pytwoway.FE.C89_needs_grouped: propext, Classical.choice, Quot.sound
Pytwoway.Dynamic.C90_relabelling: propext, Classical.choice, Quot.sound
Pytwoway.Dynamic.C90_likelihood: propext, Classical.choice, Quot.sound
Pytwoway.Dynamic.C90_likelihood_controls: propext, Classical.choice, Quot.sound
Pytwoway.Dynamic.C90_sorted: propext, Classical.choice, Quot.sound
Pytwoway.Dynamic.C90_idempotent: propext, Classical.choice, Quot.sound
Pytwoway.Constraints.C91_base_means_partial: propext, Classical.choice, Quot.sound
Pytwoway.Constraints.C91_force_min_firm_type: propext, Classical.choice, Quot.sound
Pytwoway.Constraints.C91_base_sds: propext, Classical.choice, Quot.sound
Pytwoway.Constraints.C91_control_means: propext, Classical.choice, Quot.sound
Pytwoway.Constraints.C91_control_sds_partial: propext, Classical.choice, Quot.sound
Pytwoway.Constraints.C91_control_sds_b: propext, Classical.choice, Quot.sound
Pytwoway.Constraints.C91_user_constraint_fits_one: propext, Classical.choice, Quot.sound
Pytwoway.CLI.C92_parameters_partial: propext, Classical.choice, Quot.sound
Pytwoway.CLI.C92_options_that_raise: propext, Classical.choice, Quot.sound
Pytwoway.CLI.C92_data: propext, Classical.choice, Quot.sound
Pytwoway.CLI.C92_runs: propext, Classical.choice, Quot.sound
Pytwoway.CLI.C92_unknown_measure: propext, Quot.sound
Pytwoway.FE.C93_between: propext, Classical.choice, Quot.sound
Pytwoway.FE.C93_decomposition: propext, Classical.choice, Quot.sound
Pytwoway.FE.C93_ordering: propext, Classical.choice, Quot.sound
Pytwoway.FE.C93_counts: propext, Classical.choice, Quot.sound
Pytwoway.FE.C93_quantiles: propext, Classical.choice, Quot.sound
Pytwoway.Diagnostics.C94_panels_partial: propext, Classical.choice, Quot.sound
Pytwoway.Diagnostics.C94_partition: propext, Classical.choice, Quot.sound
Pytwoway.Diagnostics.C94_unequal_windows: propext, Classical.choice, Quot.sound
Pytwoway.Diagnostics.C94_unclustered: propext, Classical.choice, Quot.sound
Pytwoway.Diagnostics.C94_single_type: propext, Classical.choice, Quot.sound
Pytwoway.Dynamic.C95_movers_usable: propext, Classical.choice, Quot.sound
Pytwoway.Dynamic.C95_movers_means_partial: propext, Classical.choice, Quot.sound
Pytwoway.Dynamic.C95_running_sum: propext, Classical.choice, Quot.sound
Pytwoway.Dynamic.C95_loop_fresh: propext, Classical.choice, Quot.sound
Pytwoway.Dynamic.C95_variance_counted_twice: propext, Classical.choice, Quot.sound
Pytwoway.Dynamic.C95_stayers_raise: propext, Classical.choice, Quot.sound
Pytwoway.Dynamic.C95_stayers_overwritten: propext, Classical.choice, Quot.sound
Pytwoway.Dynamic.C95_stayers_twice: propext, Classical.choice, Quot.sound
Pytwoway.Dynamic.C95_stayers_no_solution: propext, Classical.choice, Quot.sound
Pytwoway.Dynamic.C95_stayers_running_sum: propext, Classical.choice, Quot.sound
Pytwoway.Dynamic.C95_stayers_third_period: propext, Classical.choice, Quot.sound
Pytwoway.Dynamic.C95_estep: propext, Classical.choice, Quot.sound
Pytwoway.Dynamic.C95_alternate: propext, Classical.choice, Quot.sound
Pytwoway.Dynamic.C95_persistence: propext, Classical.choice, Quot.sound
Pytwoway.Dynamic.C95_stayers_base_partial: propext, Classical.choice, Quot.sound
Pytwoway.Dynamic.Order.C95_order: propext, Classical.choice, Quot.sound
Pytwoway.Dynamic.Order.C95_order_raises: propext, Quot.sound
Pytwoway.Dynamic.C95_stayers_no_stale_sum: propext, Classical.choice, Quot.sound
Pytwoway.Dynamic.C95_stayers_posterior: propext, Classical.choice, Quot.sound
Pytwoway.Dynamic.C95_stayers_rho: propext, Classical.choice, Quot.sound
Pytwoway.BLM.C96_cycle: propext, Classical.choice, Quot.sound
Pytwoway.BLM.C96_cycle_static: propext, Classical.choice, Quot.sound
Pytwoway.BLM.C96_no_cycle: propext, Classical.choice, Quot.sound
Pytwoway.BLM.C96_forced_best: propext, Classical.choice, Quot.sound
Pytwoway.BLM.C96_forced_ok: propext, Classical.choice, Quot.sound
Pytwoway.BLM.C96_fit_movers_forced: propext, Classical.choice, Quot.sound
Pytwoway.BLM.C96_restart_partial: propext, Classical.choice, Quot.sound
Pytwoway.BLM.C96_setting_left: propext, Classical.choice, Quot.sound
Pytwoway.BLM.C96_return_qi: propext, Classical.choice, Quot.sound
Pytwoway.BLM.C96_pk0_left: propext, Classical.choice, Quot.sound
Pytwoway.BLM.C96_pk0_mismatch: propext, Classical.choice, Quot.sound
Pytwoway.BLM.C96_forced_lowest: propext, Classical.choice, Quot.sound
Pytwoway.Dynamic.C96_dynamic_forced: propext, Classical.choice, Quot.sound
Pytwoway.Dynamic.C96_dynamic_cycle: propext, Classical.choice, Quot.sound
Pytwoway.Dynamic.C97_bootstrap_partial: propext, Classical.choice, Quot.sound
Pytwoway.Dynamic.C97_bootstrap_standard: propext
Pytwoway.Dynamic.C97_bootstrap_crash: propext, Classical.choice, Quot.sound
Pytwoway.Dynamic.C97_vardec_partial: propext, Classical.choice, Quot.sound
Pytwoway.Dynamic.C97_stayers_firms_lost: propext, Classical.choice, Quot.sound
Pytwoway.Dynamic.C97_ids_mixed: propext, Classical.choice, Quot.sound
Pytwoway.Dynamic.C97_vardec_crash: propext
Pytwoway.Dynamic.C97_fit_A_partial: propext, Classical.choice, Quot.sound
Pytwoway.Dynamic.C97_fit_S_partial: propext, Classical.choice, Quot.sound
Pytwoway.Dynamic.C97_fit_pk_partial: propext, Classical.choice, Quot.sound
Pytwoway.Dynamic.C97_fit_A_S_return: propext, Classical.choice, Quot.sound
Pytwoway.Dynamic.C97_settings_lost: propext, Classical.choice, Quot.sound
Pytwoway.Dynamic.C97_fit_pk_raises: propext, Classical.choice, Quot.sound
Pytwoway.Dynamic.C97_persistence_changed: propext, Classical.choice, Quot.sound
Pytwoway.Dynamic.C97_cstr_partial: propext, Classical.choice, Quot.sound
Pytwoway.Dynamic.C97_cstr_sequence: propext, Classical.choice, Quot.sound
Pytwoway.Dynamic.C97_cstr_lost: propext, Classical.choice, Quot.sound
Pytwoway.Dynamic.C97_periods: propext, Classical.choice, Quot.sound
Pytwoway.Dynamic.C97_start_static: propext, Classical.choice, Quot.sound
Pytwoway.Dynamic.C97_start_some: propext, Classical.choice, Quot.sound
Pytwoway.Estim.C98_schedule: propext, Classical.choice, Quot.sound
Pytwoway.Estim.C98_schedule_dynamic: propext, Classical.choice, Quot.sound
Pytwoway.Estim.C98_which_exception: propext, Classical.choice, Quot.sound
Pytwoway.Estim.C98_seeds: propext, Classical.choice, Quot.sound
Pytwoway.Estim.C98_seeds_prefix: propext
Pytwoway.Estim.C98_starts: propext, Classical.choice, Quot.sound
Pytwoway.Estim.C98_kept: propext, Classical.choice, Quot.sound
Pytwoway.Estim.C98_fails: propext, Classical.choice, Quot.sound
Pytwoway.Estim.C98_recorded_partial: propext, Classical.choice, Quot.sound
Pytwoway.Estim.C98_zeros_stored: propext, Classical.choice, Quot.sound
Pytwoway.Estim.C98_more_starts_partial: propext, Classical.choice, Quot.sound
Pytwoway.Estim.C98_more_starts_worse: propext, Classical.choice, Quot.sound
Pytwoway.Estim.C98_plot_partial: propext, Classical.choice, Quot.sound
Pytwoway.Estim.C98_plot_jitter: propext, Classical.choice, Quot.sound
Pytwoway.Estim.C98_plot_stale: propext, Classical.choice, Quot.sound
Pytwoway.Estim.C98_fresh: propext, Classical.choice, Quot.sound
Pytwoway.Estim.C98_fresh_dynamic: propext, Classical.choice, Quot.sound
Pytwoway.Estim.C98_isolation_needed: propext, Classical.choice, Quot.sound
Pytwoway.Plots.C99_class_without_movers: propext, Classical.choice, Quot.sound
Pytwoway.Plots.C99_bars_for_nobody: propext, Classical.choice, Quot.sound
Pytwoway.Plots.C99_not_yet_fitted: propext, Classical.choice, Quot.sound
Pytwoway.Plots.C99_dynamic_stayers_refused: propext, Classical.choice, Quot.sound
Pytwoway.Plots.C99_bootstrap_bars: propext, Classical.choice, Quot.sound
Pytwoway.Plots.C99_bootstrap_stayers_refused: propext, Classical.choice, Quot.sound
Pytwoway.Plots.C99_error_bars_partial: propext, Classical.choice, Quot.sound
Pytwoway.Plots.C99_error_bars_raise: propext, Classical.choice, Quot.sound
Pytwoway.Plots.C99_log_earnings: propext, Classical.choice, Quot.sound
Pytwoway.Plots.C99_other_period: propext, Classical.choice, Quot.sound
Pytwoway.Plots.C99_bars: propext, Classical.choice, Quot.sound
Pytwoway.Plots.C99_stayers: propext, Classical.choice, Quot.sound
Pytwoway.Plots.C99_types_partial: propext, Classical.choice, Quot.sound
Pytwoway.Plots.C99_periods_swapped: propext, Classical.choice, Quot.sound
Pytwoway.Plots.C99_types_wrong: propext, Classical.choice, Quot.sound
Pytwoway.Interacted.C100_agrees: propext, Classical.choice, Quot.sound
Pytwoway.Interacted.C100_coarse_recovers: propext, Classical.choice, Quot.sound
Pytwoway.Interacted.C100_liml2_weighted_wrong: propext, Classical.choice, Quot.sound
Pytwoway.Interacted.C100_hful_minimises_partial: propext, Classical.choice, Quot.sound
Pytwoway.Interacted.C100_hful_recovers_partial: propext, Classical.choice, Quot.sound
Pytwoway.Interacted.C100_hful_noiseless_raises: propext, Classical.choice, Quot.sound
Pytwoway.Interacted.C100_hful_default_wrong: propext, Classical.choice, Quot.sound
Pytwoway.Interacted.C100_hful_pairs_wrong: propext, Classical.choice, Quot.sound
Pytwoway.Interacted.C100_hful_weighted_wrong: propext, Classical.choice, Quot.sound
Pytwoway.Interacted.C100_hful_leave_out: propext, Classical.choice, Quot.sound
Pytwoway.Interacted.C100_coarse_workers_raises: propext, Classical.choice, Quot.sound
Pytwoway.Interacted.C100_profiling_recovers_partial: propext, Classical.choice, Quot.sound
Pytwoway.Interacted.C100_profiling_one_slope: propext, Classical.choice, Quot.sound
Pytwoway.Interacted.C100_profiling_two_firms_raises: propext, Classical.choice, Quot.sound
Pytwoway.Interacted.C100_profiling_wrong: propext, Classical.choice, Quot.sound
Pytwoway.Interacted.C100_profiling_free_recovers_partial: propext, Classical.choice, Quot.sound
Pytwoway.Interacted.C100_liml2_minimises: propext, Classical.choice, Quot.sound
Pytwoway.Interacted.C100_liml2_recovers_partial: propext, Classical.choice, Quot.sound
Pytwoway.Interacted.C100_hful_returns: propext, Classical.choice, Quot.sound
Pytwoway.Interacted.C100_liml2_returns: propext, Classical.choice, Quot.sound
Pytwoway.FEResults.C101_eps_clash: propext, Classical.choice, Quot.sound
Pytwoway.FEResults.C101_missing: propext, Classical.choice, Quot.sound
Pytwoway.FEResults.C101_bad_requests: propext, Classical.choice, Quot.sound
Pytwoway.FEResults.C101_saved: propext, Classical.choice, Quot.sound
Pytwoway.FEResults.C101_saved_numbers: propext, Classical.choice, Quot.sound
Pytwoway.FEResults.C101_counts_partial: propext, Classical.choice, Quot.sound
Pytwoway.FEResults.C101_counts_clash: propext, Classical.choice, Quot.sound
Pytwoway.FEResults.C101_levfile: propext, Classical.choice, Quot.sound
Pytwoway.FEResults.C101_summary_partial: propext, Classical.choice, Quot.sound
Pytwoway.FEResults.C101_succeeds_partial: propext, Classical.choice, Quot.sound
Pytwoway.FEResults.C101_demo_partial: propext, Classical.choice, Quot.sound
Pytwoway.FEResults.C101_names_partial: propext, Classical.choice, Quot.sound
Pytwoway.FEResults.C101_names_clash: propext, Classical.choice, Quot.sound
Pytwoway.FEResults.C101_values_partial: propext, Classical.choice, Quot.sound
Pytwoway.SorkinAttrition.C102_correlation: propext, Classical.choice, Quot.sound
Pytwoway.SorkinAttrition.C102_units: propext, Classical.choice, Quot.sound
Pytwoway.SorkinAttrition.C102_demo: propext, Classical.choice, Quot.sound
Pytwoway.SorkinAttrition.C102_stored_partial: propext, Classical.choice, Quot.sound
Pytwoway.SorkinAttrition.C102_cores: propext, Classical.choice, Quot.sound
Pytwoway.SorkinAttrition.C102_failed: propext, Classical.choice, Quot.sound
Pytwoway.SorkinAttrition.C102_two_firms: propext, Classical.choice, Quot.sound
Pytwoway.SorkinAttrition.C102_plot: propext, Classical.choice, Quot.sound
Pytwoway.SorkinAttrition.C102_run: propext, Classical.choice, Quot.sound
Pytwoway.SorkinAttrition.C102_dropping_lost: propext, Classical.choice, Quot.sound
Pytwoway.SorkinAttrition.C102_dropping_lost_demo: propext, Classical.choice, Quot.sound
Pytwoway.Interior.C103_bs_entries: propext, Classical.choice, Quot.sound
Pytwoway.Interior.C103_bs_adds: propext, Classical.choice, Quot.sound
Pytwoway.Interior.C103_independent: propext, Classical.choice, Quot.sound
Pytwoway.AttritionParams.C103_parameters_partial: propext, Quot.sound
Pytwoway.AttritionParams.C103_cluster_stale: propext, Quot.sound
Pytwoway.AttritionParams.C103_sorkin: propext, Quot.sound
Pytwoway.Interior.C104_true: propext, Classical.choice, Quot.sound
Pytwoway.Interior.C104_entries: propext, Classical.choice, Quot.sound
Pytwoway.Interior.C104_bs_adds: propext, Classical.choice, Quot.sound
Pytwoway.Interior.C104_missing: propext, Classical.choice, Quot.sound
Pytwoway.Interior.C104_true_other_sample: propext, Classical.choice, Quot.sound
Pytwoway.Interior.C104_run: propext, Classical.choice, Quot.sound
Pytwoway.Attrition.C105_plots_partial: propext, Classical.choice, Quot.sound
Pytwoway.Attrition.C105_averages: propext, Classical.choice, Quot.sound
Pytwoway.Attrition.C105_boxplots_partial: propext, Classical.choice, Quot.sound
Pytwoway.Attrition.C105_boxplots_fail: propext, Classical.choice, Quot.sound
Pytwoway.Attrition.C105_not_run: propext, Classical.choice, Quot.sound
Pytwoway.Attrition.C105_run: propext, Classical.choice, Quot.sound
Pytwoway.CREPrep.C106_counts: propext, Classical.choice, Quot.sound
Pytwoway.CREPrep.C106_collapsed: propext, Classical.choice, Quot.sound
Pytwoway.CREPrep.C106_sample: propext, Classical.choice, Quot.sound
Pytwoway.CREPrep.C106_mover_table: propext, Classical.choice, Quot.sound
Pytwoway.CREPrep.C106_stayer_table: propext, Classical.choice, Quot.sound
Pytwoway.CREPrep.C106_stayer_table_partial: propext, Classical.choice, Quot.sound
Pytwoway.CREPrep.C106_stayer_table_shifted: propext, Classical.choice, Quot.sound
Pytwoway.CREPrep.C106_results: propext, Classical.choice, Quot.sound
Pytwoway.CREPrep.C106_results_sample: propext, Classical.choice, Quot.sound
Pytwoway.BLMStart.C107_raises: propext, Classical.choice, Quot.sound
Pytwoway.BLMStart.C107_starting_values: propext, Classical.choice, Quot.sound
Pytwoway.BLMStart.C107_bounds: propext, Classical.choice, Quot.sound
Pytwoway.BLMStart.C107_proportions_partial: propext, Classical.choice, Quot.sound
Pytwoway.BLMStart.C107_order: propext, Classical.choice, Quot.sound
Pytwoway.BLMStart.C107_base_same: propext, Classical.choice, Quot.sound
Pytwoway.BLMStart.C107_columns: propext, Classical.choice, Quot.sound
Pytwoway.BLMStart.C107_sample: propext, Classical.choice, Quot.sound
Pytwoway.BLMStart.C107_prior_length: propext, Classical.choice, Quot.sound
Pytwoway.SimCols.C108_raises: propext, Classical.choice, Quot.sound
Pytwoway.SimCols.C108_movers_partial: propext, Classical.choice, Quot.sound
Pytwoway.SimCols.C108_stayers_partial: propext, Classical.choice, Quot.sound
Pytwoway.SimCols.C108_ids_partial: propext, Classical.choice, Quot.sound
Pytwoway.SimCols.C108_control_j: propext, Classical.choice, Quot.sound
Pytwoway.SimCols.C108_control_y: propext, Classical.choice, Quot.sound
Pytwoway.SimCols.C108_order_partial: propext, Classical.choice, Quot.sound
Pytwoway.SimCols.C108_cat_order: propext, Classical.choice, Quot.sound
Pytwoway.SimCols.C108_dynamic_partial: propext, Classical.choice, Quot.sound
Pytwoway.SimCols.C108_counts_too_many: propext, Classical.choice, Quot.sound
Pytwoway.SimCols.C108_counts_too_few: propext, Classical.choice, Quot.sound
Pytwoway.FE.Tol.C109_workers: propext, Classical.choice, Quot.sound
Pytwoway.FE.Tol.C109_firms: propext, Classical.choice, Quot.sound
Pytwoway.FE.Tol.C109_fit: propext, Classical.choice, Quot.sound
Pytwoway.FE.Tol.C109_error: propext, Classical.choice, Quot.sound
Pytwoway.FE.Tol.C109_stiff_exists: propext, Classical.choice, Quot.sound
Pytwoway.FE.Tol.C109_limit: propext, Classical.choice, Quot.sound
Pytwoway.FE.Tol.C109_solver_exists: propext, Classical.choice, Quot.sound
Pytwoway.FE.Tol.C109_best_exists: propext, Classical.choice, Quot.sound
Pytwoway.FE.Tol.C109_leverage_limit_partial: propext, Classical.choice, Quot.sound
Pytwoway.FE.Tol.C109_sharp: propext, Classical.choice, Quot.sound
Pytwoway.FE.Tol.C109_large_tolerance: propext, Classical.choice, Quot.sound
Pytwoway.FE.Tol.C109_settable: propext, Classical.choice, Quot.sound
Pytwoway.FE.Tol.C109_calls: propext, Classical.choice, Quot.sound
Pytwoway.FE.Tol.C109_amg_leverage: propext, Classical.choice, Quot.sound
Pytwoway.FE.Tol.C109_amg_leverage_off: propext, Classical.choice, Quot.sound
Pytwoway.FE.Tol.C109_failure_unnoticed: propext, Classical.choice, Quot.sound
Pytwoway.FE.Tol.C109_prepare: propext, Classical.choice, Quot.sound
Pytwoway.FE.Tol.C109_options_written: propext, Classical.choice, Quot.sound
Pytwoway.FEControl.Tol.C110_moments: propext, Classical.choice, Quot.sound
Pytwoway.FEControl.Tol.C110_error: propext, Classical.choice, Quot.sound
Pytwoway.FEControl.Tol.C110_each: propext, Classical.choice, Quot.sound
Pytwoway.FEControl.Tol.C110_stiff_exists: propext, Classical.choice, Quot.sound
Pytwoway.FEControl.Tol.C110_best_exists: propext, Classical.choice, Quot.sound
Pytwoway.FEControl.Tol.C110_limit: propext, Classical.choice, Quot.sound
Pytwoway.FEControl.Tol.C110_sharp: propext, Classical.choice, Quot.sound
Pytwoway.FEControl.Tol.C110_failure_unnoticed: propext, Classical.choice, Quot.sound
Pytwoway.FEControl.Tol.C110_calls: propext, Classical.choice, Quot.sound
Pytwoway.FE.C111_fe_cores: propext, Classical.choice, Quot.sound
Pytwoway.FE.C111_fe_refused: propext, Classical.choice, Quot.sound
Pytwoway.FE.C111_fe_leverage_one: propext, Classical.choice, Quot.sound
Pytwoway.FE.C111_fe_false_refusal: propext, Classical.choice, Quot.sound
Pytwoway.FE.C111_fe_reported: propext, Classical.choice, Quot.sound
Pytwoway.FE.C111_fe_spread: propext, Classical.choice, Quot.sound
Pytwoway.FE.C111_fe_accuracy: propext, Classical.choice, Quot.sound
Pytwoway.FE.C111_fe_consistent: propext, Classical.choice, Quot.sound
Pytwoway.FE.C111_fe_bad_luck: propext, Classical.choice, Quot.sound
Pytwoway.FEControl.C111_cores: propext, Classical.choice, Quot.sound
Pytwoway.FEControl.C111_refused: propext, Classical.choice, Quot.sound
Pytwoway.FEControl.C111_leverage_one: propext, Classical.choice, Quot.sound
Pytwoway.FEControl.C111_false_refusal: propext, Classical.choice, Quot.sound
Pytwoway.FEControl.C111_reported: propext, Classical.choice, Quot.sound
Pytwoway.FEControl.C111_spread: propext, Classical.choice, Quot.sound
Pytwoway.FEControl.C111_accuracy: propext, Classical.choice, Quot.sound
Pytwoway.FEControl.C111_consistent: propext, Classical.choice, Quot.sound
Pytwoway.FEControl.C111_bad_luck: propext, Classical.choice, Quot.sound
Pytwoway.BLM.Torch.C112_movers_controls_partial: propext, Classical.choice, Quot.sound
Pytwoway.BLM.Torch.C112_one_type_controls_pk: propext, Classical.choice, Quot.sound
Pytwoway.BLM.Torch.C112_one_type_controls_fails: propext, Classical.choice, Quot.sound
Pytwoway.BLM.Torch.C112_movers_controls_false: propext, Classical.choice, Quot.sound
Pytwoway.BLM.Torch.C112_helpers: propext, Classical.choice, Quot.sound
Pytwoway.BLM.Torch.C112_helpers_single: propext, Classical.choice, Quot.sound
Pytwoway.BLM.Torch.C112_logsumexp: propext, Classical.choice, Quot.sound
Pytwoway.BLM.Torch.C112_logsumexp_all: propext, Classical.choice, Quot.sound
Pytwoway.BLM.Torch.C112_density: propext, Classical.choice, Quot.sound
Pytwoway.BLM.Torch.C112_density_sd: propext, Classical.choice, Quot.sound
Pytwoway.BLM.Torch.C112_density_single: propext, Classical.choice, Quot.sound
Pytwoway.BLM.Torch.C112_density_args: propext, Classical.choice, Quot.sound
Pytwoway.BLM.Torch.C112_movers_partial: propext, Classical.choice, Quot.sound
Pytwoway.BLM.Torch.C112_one_type_pk: propext, Classical.choice, Quot.sound
Pytwoway.BLM.Torch.C112_one_type_fails: propext, Classical.choice, Quot.sound
Pytwoway.BLM.Torch.C112_movers_false: propext, Classical.choice, Quot.sound
Pytwoway.BLM.Torch.C112_stayers: propext, Classical.choice, Quot.sound
Pytwoway.BLM.Torch.C112_return_qi: propext, Classical.choice, Quot.sound
Pytwoway.FE.C113_effects: propext, Classical.choice, Quot.sound
Pytwoway.FE.C113_residuals: propext, Classical.choice, Quot.sound
Pytwoway.FE.C113_plug_in: propext, Classical.choice, Quot.sound
Pytwoway.FE.C113_leverages: propext, Classical.choice, Quot.sound
Pytwoway.FE.C113_sigma2: propext, Classical.choice, Quot.sound
Pytwoway.FE.C113_homoskedastic: propext, Classical.choice, Quot.sound
Pytwoway.FE.C113_loo: propext, Classical.choice, Quot.sound
Pytwoway.FE.C113_sii_partial: propext, Classical.choice, Quot.sound
Pytwoway.FE.C113_heteroskedastic_partial: propext, Classical.choice, Quot.sound
Pytwoway.FE.C113_weight_units: propext, Classical.choice, Quot.sound
Pytwoway.FE.C113_weight_units_matter: propext, Classical.choice, Quot.sound
Pytwoway.BLM.C114_movers: propext, Classical.choice, Quot.sound
Pytwoway.BLM.C114_lowest_firm_type: propext, Classical.choice, Quot.sound
Pytwoway.BLM.C114_lowest_firm_type_ties: propext, Classical.choice, Quot.sound
Pytwoway.BLM.C114_movers_lowest_partial: propext, Classical.choice, Quot.sound
Pytwoway.BLM.C114_stayers: propext, Classical.choice, Quot.sound
Pytwoway.BLM.C114_stayers_numbering: propext, Classical.choice, Quot.sound
Pytwoway.BLM.C114_movers_controls: propext, Classical.choice, Quot.sound
Pytwoway.BLM.C114_movers_controls_lowest_partial: propext, Classical.choice, Quot.sound
Pytwoway.BLM.C114_stayers_controls: propext, Classical.choice, Quot.sound
Pytwoway.BLM.C114_control_units: propext, Classical.choice, Quot.sound
Pytwoway.BLM.C114_control_order: propext, Classical.choice, Quot.sound
Pytwoway.BLM.C114_control_names: propext, Classical.choice, Quot.sound
Pytwoway.BS.C115_var_y_weight_units: propext, Classical.choice, Quot.sound
Pytwoway.BS.C115_units_partial: propext, Classical.choice, Quot.sound
Pytwoway.BS.C115_sides: propext, Classical.choice, Quot.sound
Pytwoway.BS.C115_weighted_shift_wrong: propext, Classical.choice, Quot.sound
Pytwoway.BS.C115_unsorted_wrong: propext, Classical.choice, Quot.sound
Pytwoway.FE.C116_effects: propext, Classical.choice, Quot.sound
Pytwoway.FE.C116_plug_in: propext, Classical.choice, Quot.sound
Pytwoway.FE.C116_leverage: propext, Classical.choice, Quot.sound
Pytwoway.FE.C116_exact_trace: propext, Classical.choice, Quot.sound
Pytwoway.FE.C116_draw_trace: propext, Classical.choice, Quot.sound
Pytwoway.CRE.C117_cluster_effects: propext, Classical.choice, Quot.sound
Pytwoway.CRE.C117_within: propext, Classical.choice, Quot.sound
Pytwoway.CRE.C117_results: propext, Classical.choice, Quot.sound
Pytwoway.CRE.C117_posterior_partial: propext, Classical.choice, Quot.sound
Pytwoway.CRE.C117_posterior_wrong: propext, Classical.choice, Quot.sound
Pytwoway.FEControl.C118_effects: propext, Classical.choice, Quot.sound
Pytwoway.FEControl.C118_residuals: propext, Classical.choice, Quot.sound
Pytwoway.FEControl.C118_plug_in: propext, Classical.choice, Quot.sound
Pytwoway.FEControl.C118_trace_sigma2: propext, Classical.choice, Quot.sound
Pytwoway.FEControl.C118_draws: propext, Classical.choice, Quot.sound
Pytwoway.FEControl.C118_corrected: propext, Classical.choice, Quot.sound
Pytwoway.FEControl.C118_leverages: propext, Classical.choice, Quot.sound
Pytwoway.FEControl.C119_identified: propext, Classical.choice, Quot.sound
Pytwoway.FEControl.C119_effects: propext, Classical.choice, Quot.sound
Pytwoway.FEControl.C119_coefficients: propext, Classical.choice, Quot.sound
Pytwoway.FEControl.C119_residuals: propext, Classical.choice, Quot.sound
Pytwoway.FEControl.C119_plug_in: propext, Classical.choice, Quot.sound
Pytwoway.FEControl.C119_leverages: propext, Classical.choice, Quot.sound
Pytwoway.FEControl.C119_sigma2: propext, Classical.choice, Quot.sound
Pytwoway.FEControl.C119_approximate_leverages: propext, Classical.choice, Quot.sound
Pytwoway.FEControl.C119_homoskedastic: propext, Classical.choice, Quot.sound
Pytwoway.FEControl.C119_sii_partial: propext, Classical.choice, Quot.sound
Pytwoway.FEControl.C119_heteroskedastic: propext, Classical.choice, Quot.sound
Pytwoway.FEControl.C119_standard_partial: propext, Classical.choice, Quot.sound
Pytwoway.FEControl.C119_clustered_partial: propext, Classical.choice, Quot.sound
Pytwoway.FEControl.C119_first_matters: propext, Classical.choice, Quot.sound
Pytwoway.FEControl.C119_upper_bound_units: propext, Classical.choice, Quot.sound
Pytwoway.BLM.C120_movers_partial: propext, Classical.choice, Quot.sound
Pytwoway.BLM.C120_movers_unchanged: propext, Classical.choice, Quot.sound
Pytwoway.BLM.C120_posteriors: propext, Classical.choice, Quot.sound
Pytwoway.BLM.C120_movers_complete: propext, Classical.choice, Quot.sound
Pytwoway.BLM.C120_pk0_reordered: propext, Classical.choice, Quot.sound
Pytwoway.BLM.C120_em_raises: propext, Classical.choice, Quot.sound
Pytwoway.BLM.C120_stayers: propext, Classical.choice, Quot.sound
Pytwoway.BLM.C120_stayers_complete: propext, Classical.choice, Quot.sound
Pytwoway.Dynamic.C120_dynamic_movers_partial: propext, Classical.choice, Quot.sound
Pytwoway.Dynamic.C120_dynamic_movers_lost: propext, Classical.choice, Quot.sound
Pytwoway.Dynamic.C120_dynamic_movers_complete: propext, Classical.choice, Quot.sound
Pytwoway.Dynamic.C120_dynamic_stayers: propext, Classical.choice, Quot.sound
Pytwoway.Dynamic.C120_dynamic_stayers_complete: propext, Classical.choice, Quot.sound
Pytwoway.Dynamic.C120_dynamic_stayers_controls_complete: propext, Classical.choice, Quot.sound
Pytwoway.Dynamic.C120_dynamic_stayers_partial: propext, Classical.choice, Quot.sound
Pytwoway.Dynamic.C120_dynamic_half_done: propext, Classical.choice, Quot.sound
Pytwoway.Dynamic.C120_dynamic_half_done_instance: propext, Classical.choice, Quot.sound
Pytwoway.Dynamic.C121_movers: propext, Classical.choice, Quot.sound
Pytwoway.Dynamic.C121_stayers: propext, Classical.choice, Quot.sound
Pytwoway.Dynamic.C121_movers_solvers: propext, Classical.choice, Quot.sound
Pytwoway.Dynamic.C121_stayers_solvers: propext, Classical.choice, Quot.sound
Pytwoway.Dynamic.C121_min_type: propext, Classical.choice, Quot.sound
Pytwoway.Dynamic.C121_units: propext, Classical.choice, Quot.sound
Pytwoway.Dynamic.C121_constant: propext, Classical.choice, Quot.sound
Pytwoway.Dynamic.C121_movers_controls: propext, Classical.choice, Quot.sound
Pytwoway.Dynamic.C121_package_constraints: propext, Classical.choice, Quot.sound
Pytwoway.Dynamic.C121_worker_order: propext, Classical.choice, Quot.sound
Pytwoway.Dynamic.C121_control_constraints: propext, Classical.choice, Quot.sound
Pytwoway.Dynamic.C121_stayers_controls_numbering: propext, Classical.choice, Quot.sound
Pytwoway.Dynamic.C121_stayers_controls_fails: propext, Classical.choice, Quot.sound
Pytwoway.Sorkin.C122_converges: propext, Classical.choice, Quot.sound
Pytwoway.Sorkin.C122_stops: propext, Classical.choice, Quot.sound
Pytwoway.Sorkin.C122_mixing_of_stay: propext, Classical.choice, Quot.sound
Pytwoway.Sorkin.C122_stays: propext, Classical.choice, Quot.sound
Pytwoway.Sorkin.C122_order: propext, Classical.choice, Quot.sound
Pytwoway.Sorkin.C122_copies: propext, Classical.choice, Quot.sound
Pytwoway.Sorkin.C122_names: propext, Classical.choice, Quot.sound
Pytwoway.Sorkin.C122_case: propext, Classical.choice, Quot.sound
Pytwoway.Interacted.C123_iv: propext, Classical.choice, Quot.sound
Pytwoway.Interacted.C123_liml1: propext, Classical.choice, Quot.sound
Pytwoway.Interacted.C123_liml1_norm: propext, Classical.choice, Quot.sound
Pytwoway.Interacted.C123_linear: propext, Classical.choice, Quot.sound
Pytwoway.Interacted.C123_iv_norm_matters: propext, Classical.choice, Quot.sound
Pytwoway.BLM.C124_movers: propext, Classical.choice, Quot.sound
Pytwoway.BLM.C124_stayers: propext, Classical.choice, Quot.sound
Pytwoway.BLM.C124_twins: propext, Classical.choice, Quot.sound
Pytwoway.FE.C125_leverage_one: propext, Classical.choice, Quot.sound
Pytwoway.FE.C125_exact_step: propext, Classical.choice, Quot.sound
Pytwoway.FE.C125_approx_step: propext, Classical.choice, Quot.sound
Pytwoway.FE.C125_prediction: propext, Classical.choice, Quot.sound
Pytwoway.FEControl.C125_controls_partial: propext, Classical.choice, Quot.sound
Pytwoway.FEControl.C125_controls_blamed: propext, Classical.choice, Quot.sound
Pytwoway.FE.C126_effects: propext, Classical.choice, Quot.sound
Pytwoway.FE.C126_stayer: propext, Classical.choice, Quot.sound
Pytwoway.FE.C126_residuals: propext, Classical.choice, Quot.sound
Pytwoway.FE.C126_leverages: propext, Classical.choice, Quot.sound
Pytwoway.FE.C127_linear: propext, Classical.choice, Quot.sound
Pytwoway.FE.C127_added: propext, Classical.choice, Quot.sound
Pytwoway.FEControl.C127_controls_added: propext, Classical.choice, Quot.sound
Pytwoway.FEControl.C127_net: propext, Classical.choice, Quot.sound
Pytwoway.FE.C128_any_solution: propext, Classical.choice, Quot.sound
Pytwoway.FE.C128_part: propext, Classical.choice, Quot.sound
Pytwoway.FE.C128_between_parts: propext, Classical.choice, Quot.sound
Pytwoway.FE.C129_direction: propext, Classical.choice, Quot.sound
Pytwoway.FE.C129_strict: propext, Classical.choice, Quot.sound
Pytwoway.FE.C129_alpha_and_cov: propext, Classical.choice, Quot.sound
Pytwoway.FE.C129_direction_probes: propext, Classical.choice, Quot.sound
Pytwoway.FE.C129_adds_up_ho: propext, Classical.choice, Quot.sound
Pytwoway.FE.C129_adds_up_he: propext, Classical.choice, Quot.sound
Pytwoway.FE.C129_adds_up_mean: propext, Classical.choice, Quot.sound
Pytwoway.FE.C129_adds_up_fails: propext, Classical.choice, Quot.sound
Pytwoway.FEControl.C129_controls: propext, Classical.choice, Quot.sound
Pytwoway.BLM.C130_movers: propext, Classical.choice, Quot.sound
Pytwoway.BLM.C130_stayers: propext, Classical.choice, Quot.sound
Pytwoway.BLM.C130_weight_is_not_count: propext, Classical.choice, Quot.sound
Pytwoway.BLM.C130_movers_controls: propext, Classical.choice, Quot.sound
Pytwoway.BLM.C130_right_solvers: propext, Classical.choice, Quot.sound
Pytwoway.Dynamic.C131_movers: propext, Classical.choice, Quot.sound
Pytwoway.Dynamic.C131_stayers: propext, Classical.choice, Quot.sound
Pytwoway.Dynamic.C131_same_ridge: propext, Classical.choice, Quot.sound
Pytwoway.Dynamic.C132_movers: propext, Classical.choice, Quot.sound
Pytwoway.Dynamic.C132_stayers: propext, Classical.choice, Quot.sound
Pytwoway.Dynamic.C132_solvers: propext, Classical.choice, Quot.sound
Pytwoway.Dynamic.C132_monotone_names: propext, Classical.choice, Quot.sound
Pytwoway.BLM.C133_movers_bound: propext, Classical.choice, Quot.sound
Pytwoway.BLM.C133_movers_ends: propext, Classical.choice, Quot.sound
Pytwoway.BLM.C133_stayers_bound: propext, Classical.choice, Quot.sound
Pytwoway.BLM.C133_stayers_ends: propext, Classical.choice, Quot.sound
Pytwoway.BLM.C133_no_threshold: propext, Classical.choice, Quot.sound
Pytwoway.BLM.C133_case: propext, Classical.choice, Quot.sound
Pytwoway.BLM.C133_case_movers: propext, Classical.choice, Quot.sound
Pytwoway.BLM.C134_movers: propext, Classical.choice, Quot.sound
Pytwoway.BLM.C134_movers_gradient: propext, Classical.choice, Quot.sound
Pytwoway.BLM.C134_movers_converse: propext, Classical.choice, Quot.sound
Pytwoway.BLM.C134_case: propext, Classical.choice, Quot.sound
Pytwoway.BLM.C134_stayers_gap: propext, Classical.choice, Quot.sound
Pytwoway.BLM.C134_stayers_maximum: propext, Classical.choice, Quot.sound
Pytwoway.BLM.C134_case_stayers: propext, Classical.choice, Quot.sound
Pytwoway.BLM.C135_stayers_rate: propext, Classical.choice, Quot.sound
Pytwoway.BLM.C135_stayers_even: propext, Classical.choice, Quot.sound
Pytwoway.BLM.C135_case: propext, Classical.choice, Quot.sound
Pytwoway.BLM.C136_stayers_monotone: propext, Classical.choice, Quot.sound
Pytwoway.BLM.C136_stayers_rate: propext, Classical.choice, Quot.sound
Pytwoway.BLM.C136_movers_monotone: propext, Classical.choice, Quot.sound
Pytwoway.BLM.C136_case: propext, Classical.choice, Quot.sound
Pytwoway.BLM.C137_movers: propext, Classical.choice, Quot.sound
Pytwoway.BLM.C137_movers_free: propext, Classical.choice, Quot.sound
Pytwoway.BLM.C137_constraints: propext, Classical.choice, Quot.sound
Pytwoway.BLM.C137_stayers: propext, Classical.choice, Quot.sound
Pytwoway.BLM.C137_case: propext, Classical.choice, Quot.sound
Pytwoway.BLM.C138_stayers_converge: propext, Classical.choice, Quot.sound
Pytwoway.BLM.C138_stayers_one_limit: propext, Classical.choice, Quot.sound
Pytwoway.BLM.C138_case: propext, Classical.choice, Quot.sound
Pytwoway.BLM.C139_settled_critical: propext, Classical.choice, Quot.sound
Pytwoway.BLM.C139_limits_critical: propext, Classical.choice, Quot.sound
Pytwoway.BLM.C139_posteriors: propext, Classical.choice, Quot.sound
Pytwoway.BLM.C139_estimates: propext, Classical.choice, Quot.sound
Pytwoway.BLM.C139_limits_unmoved: propext, Classical.choice, Quot.sound
Pytwoway.BLM.C139_limits_exist: propext, Classical.choice, Quot.sound
Pytwoway.BLM.C139_case: propext, Classical.choice, Quot.sound
Pytwoway.FE.C140_ho: propext, Classical.choice, Quot.sound
Pytwoway.FE.C140_he: propext, Classical.choice, Quot.sound
Pytwoway.FE.C140_sigma2: propext, Classical.choice, Quot.sound
Pytwoway.FE.C140_hutchPP: propext, Classical.choice, Quot.sound
Pytwoway.FE.C140_hutchPP_exact: propext, Classical.choice, Quot.sound
Pytwoway.FE.C140_corrected: propext, Classical.choice, Quot.sound
Pytwoway.FE.C140_case: propext, Classical.choice, Quot.sound
Pytwoway.FEControl.C140_controls_ho: propext, Classical.choice, Quot.sound
Pytwoway.FEControl.C140_controls_he: propext, Classical.choice, Quot.sound
Pytwoway.FEControl.C140_controls_sigma2: propext, Classical.choice, Quot.sound
Pytwoway.FE.C141_unbiased: propext, Classical.choice, Quot.sound
Pytwoway.FE.C141_best: propext, Classical.choice, Quot.sound
Pytwoway.FE.C141_more_data: propext, Classical.choice, Quot.sound
Pytwoway.FE.C141_unequal_variances: propext, Classical.choice, Quot.sound
Pytwoway.FEControl.C141_controls: propext, Classical.choice, Quot.sound
Pytwoway.FEControl.C141_coefficient: propext, Classical.choice, Quot.sound
Pytwoway.FEControl.C142_average: propext, Classical.choice, Quot.sound
Pytwoway.FEControl.C142_too_small: propext, Classical.choice, Quot.sound
Pytwoway.FEControl.C142_clustered: propext, Classical.choice, Quot.sound
Pytwoway.Dynamic.C143_stayers: propext, Classical.choice, Quot.sound
Pytwoway.Dynamic.C143_movers: propext, Classical.choice, Quot.sound
Pytwoway.Dynamic.C143_case: propext, Classical.choice, Quot.sound
Pytwoway.FE.C144_pair: propext, Classical.choice, Quot.sound
Pytwoway.FE.C144_path: propext, Classical.choice, Quot.sound
Pytwoway.FE.C144_probability: propext, Classical.choice, Quot.sound
Pytwoway.FE.C144_consistent: propext, Classical.choice, Quot.sound
Pytwoway.FE.C145_workers: propext, Classical.choice, Quot.sound
Pytwoway.FE.C145_worker: propext, Classical.choice, Quot.sound
Pytwoway.FE.C145_worker_gap: propext, Classical.choice, Quot.sound
Pytwoway.FE.C145_firm_gap: propext, Classical.choice, Quot.sound
Pytwoway.FEControl.C145_controls: propext, Classical.choice, Quot.sound
Pytwoway.FE.C146_firms: propext, Classical.choice, Quot.sound
Pytwoway.FE.C146_workers: propext, Classical.choice, Quot.sound
Pytwoway.FE.C146_total: propext, Classical.choice, Quot.sound
Pytwoway.FE.C146_cov: propext, Classical.choice, Quot.sound
Pytwoway.FE.C146_unequal: propext, Classical.choice, Quot.sound
Pytwoway.FE.C146_workers_tight: propext, Classical.choice, Quot.sound
Pytwoway.FE.C146_firms_tight: propext, Classical.choice, Quot.sound
Pytwoway.FE.C147_bias: propext, Classical.choice, Quot.sound
Pytwoway.FE.C147_vanishes: propext, Classical.choice, Quot.sound
Pytwoway.FE.C147_case: propext, Classical.choice, Quot.sound
Pytwoway.FE.C148_balance: propext, Classical.choice, Quot.sound
Pytwoway.FE.C148_mobility: propext, Classical.choice, Quot.sound
