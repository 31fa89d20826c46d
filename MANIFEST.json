{
 "claims": [
  {
   "property": "C01",
   "status": "proved",
   "theorems": [
    "Pytwoway.Util.C01_scramble_perm",
    "Pytwoway.Util.C01_unscramble_scramble",
    "Pytwoway.Util.C01_scramble_unscramble",
    "Pytwoway.Util.C01_scrambled_work_in_order"
   ],
   "note": "Full claim, all lengths."
  },
  {
   "property": "C02",
   "status": "proved",
   "theorems": [
    "Pytwoway.Util.C02_cov_self",
    "Pytwoway.Util.C02_cov_self_unweighted",
    "Pytwoway.Util.C02_cov_self_negative_weight",
    "Pytwoway.Util.C02_cov_symm",
    "Pytwoway.Util.C02_cov_shift",
    "Pytwoway.Util.C02_cov_linear",
    "Pytwoway.Util.C02_cov_weight_scale",
    "Pytwoway.Util.C02_var_add",
    "Pytwoway.Util.C02_var_add_unweighted",
    "Pytwoway.Util.C02_var_nonneg",
    "Pytwoway.Util.C02_var_eq_zero_iff"
   ],
   "note": "Full claim. Nonnegative weights are required for cov(v,v)=var(v) (C02_cov_self_negative_weight shows why)."
  },
  {
   "property": "C03",
   "status": "partial",
   "theorems": [
    "Pytwoway.Util.C03_error_iff",
    "Pytwoway.Util.C03_total",
    "Pytwoway.Util.C03_between",
    "Pytwoway.Util.C03_monotone",
    "Pytwoway.Util.C03_extremes",
    "Pytwoway.Util.C03_order_independent_partial",
    "Pytwoway.Util.C03_order_dependence_on_ties",
    "Pytwoway.Util.C03_interpolates"
   ],
   "note": "Range, monotonicity, error branch proved. Order-independence holds when ties carry equal weights (partial); false with tied values of unequal weights (C03_order_dependence_on_ties)."
  },
  {
   "property": "C04",
   "status": "proved",
   "theorems": [
    "Pytwoway.Util.C04_exact",
    "Pytwoway.Util.C04_arguments",
    "Pytwoway.Util.C04_sum_range",
    "Pytwoway.Util.C04_bounds"
   ],
   "note": "Full claim for the NumPy implementation; torch branch not modelled."
  },
  {
   "property": "C05",
   "status": "proved",
   "theorems": [
    "Pytwoway.Util.C05_diag_of_prod",
    "Pytwoway.Util.C05_diag_of_prod_any_shape",
    "Pytwoway.Util.C05_DxSP",
    "Pytwoway.Util.C05_SPxD",
    "Pytwoway.Util.C05_DxM_MxD"
   ],
   "note": "Full claim, all shapes."
  },
  {
   "property": "C06",
   "status": "proved",
   "theorems": [
    "Pytwoway.Util.C06_error_iff",
    "Pytwoway.Util.C06_var",
    "Pytwoway.Util.C06_sd",
    "Pytwoway.Util.C06_sd_eq_var",
    "Pytwoway.Util.C06_fast"
   ],
   "note": "Full claim."
  },
  {
   "property": "C07",
   "status": "proved",
   "theorems": [
    "Pytwoway.Constraints.C07_history",
    "Pytwoway.Constraints.C07_add_only",
    "Pytwoway.Constraints.C07_order_irrelevant",
    "Pytwoway.Constraints.C07_add_in_pieces",
    "Pytwoway.Constraints.C07_clear",
    "Pytwoway.Constraints.C07_add_succeeds",
    "Pytwoway.Constraints.C07_mixed_periods_raise",
    "Pytwoway.Constraints.C07_nonvacuous"
   ],
   "note": "Full claim over all histories of add/clear."
  },
  {
   "property": "C08",
   "status": "proved",
   "theorems": [
    "Pytwoway.Constraints.C08_monotonic",
    "Pytwoway.Constraints.C08_monotonic_far",
    "Pytwoway.Constraints.C08_no_worker_types"
   ],
   "note": "Full claim."
  },
  {
   "property": "C09",
   "status": "proved",
   "theorems": [
    "Pytwoway.Constraints.C09_monotonicMean",
    "Pytwoway.Constraints.C09_monotonicMean_cross",
    "Pytwoway.Constraints.C09_monotonicMean_cross_repeated_period",
    "Pytwoway.Constraints.C09_minFirmType",
    "Pytwoway.Constraints.C09_minFirmType_bad_type",
    "Pytwoway.Constraints.C09_minFirmType_cross"
   ],
   "note": "Full claim for duplicate-free period lists; a repeated period gives a different constraint (C09_repeated_period)."
  },
  {
   "property": "C10",
   "status": "proved",
   "theorems": [
    "Pytwoway.Constraints.C10_linear",
    "Pytwoway.Constraints.C10_linear_single_worker_type",
    "Pytwoway.Constraints.C10_linearAdditive",
    "Pytwoway.Constraints.C10_linearAdditive_stronger_than_additive",
    "Pytwoway.Constraints.C10_linearAdditive_two_types"
   ],
   "note": "Full claim."
  },
  {
   "property": "C11",
   "status": "proved",
   "theorems": [
    "Pytwoway.Constraints.C11_noWorkerTypeInteraction",
    "Pytwoway.Constraints.C11_normalizeAll",
    "Pytwoway.Constraints.C11_normalizeLowest",
    "Pytwoway.Constraints.C11_normalizeAll_cross",
    "Pytwoway.Constraints.C11_normalizeLowest_cross",
    "Pytwoway.Constraints.C11_normalizeLowest_bad_type"
   ],
   "note": "Full claim; out-of-range firm type shown to constrain another effect."
  },
  {
   "property": "C12",
   "status": "partial",
   "theorems": [
    "Pytwoway.Constraints.C12_stationary_columns",
    "Pytwoway.Constraints.C12_stationary_partial",
    "Pytwoway.Constraints.C12_stationary_all",
    "Pytwoway.Constraints.C12_stationary_some_types_false",
    "Pytwoway.Constraints.C12_stationary_with_noInteraction_false",
    "Pytwoway.Constraints.C12_stationary_with_linear_false",
    "Pytwoway.Constraints.C12_stationary_invalid"
   ],
   "note": "Holds for nwt=-1/nl; false for nwt<nl (C12_some_types_false) including the documented combinations."
  },
  {
   "property": "C13",
   "status": "proved",
   "theorems": [
    "Pytwoway.Constraints.C13_stationaryFirmTypeVariation",
    "Pytwoway.Constraints.C13_default"
   ],
   "note": "Full claim."
  },
  {
   "property": "C14",
   "status": "proved",
   "theorems": [
    "Pytwoway.Constraints.C14_boundedBelow",
    "Pytwoway.Constraints.C14_boundedAbove"
   ],
   "note": "Full claim."
  },
  {
   "property": "C15",
   "status": "proved",
   "theorems": [
    "Pytwoway.FE.C15_normal_equations",
    "Pytwoway.FE.C15_optimal",
    "Pytwoway.FE.C15_normalised"
   ],
   "note": "Full claim; linear solver is an oracle assumed to solve solvable systems."
  },
  {
   "property": "C16",
   "status": "proved",
   "theorems": [
    "Pytwoway.FE.C16_unique",
    "Pytwoway.FE.C16_noise_free",
    "Pytwoway.FE.C16_needs_connected"
   ],
   "note": "Full claim; connectedness shown necessary (C16_needs_connected)."
  },
  {
   "property": "C17",
   "status": "proved",
   "theorems": [
    "Pytwoway.FE.C17_leverage_is_sensitivity",
    "Pytwoway.FE.C17_range",
    "Pytwoway.FE.C17_sum_all_rows",
    "Pytwoway.FE.C17_sum_unweighted",
    "Pytwoway.FE.C17_sum_weighted",
    "Pytwoway.FE.C17_iterative_branch"
   ],
   "note": "Full claim, both the exact-inverse branch and the iterative branch."
  },
  {
   "property": "C18",
   "status": "partial",
   "theorems": [
    "Pytwoway.FE.C18_leave_one_out",
    "Pytwoway.FE.C18_expectation",
    "Pytwoway.FE.C18_unbiased_partial",
    "Pytwoway.FE.C18_heteroskedastic_biased"
   ],
   "note": "The leave-one-out formula is proved. Unbiasedness is false of the code under general heteroskedasticity because the mean of y is subtracted (C18_heteroskedastic_biased); exact expectation in C18_expectation; holds when variances are inversely proportional to weights (partial)."
  },
  {
   "property": "C19",
   "status": "partial",
   "theorems": [
    "Pytwoway.FE.C19_sigma2_unbiased",
    "Pytwoway.FE.C19_cov_unbiased_partial",
    "Pytwoway.FE.C19_default_components_partial",
    "Pytwoway.FE.C19_var_alpha_bias",
    "Pytwoway.FE.C19_var_alpha_biased",
    "Pytwoway.FE.C19_gamma_refused"
   ],
   "note": "sigma2, var(psi), cov(psi,alpha) and every pair not both worker components: unbiased. var(alpha) with exact traces is biased upwards (C19_var_alpha_bias, C19_var_alpha_biased), a defect of the exact inverse's worker block."
  },
  {
   "property": "C20",
   "status": "partial",
   "theorems": [
    "Pytwoway.FE.C20_exact_trace_var_alpha",
    "Pytwoway.FE.C20_exact_trace_var_psi",
    "Pytwoway.FE.C20_plug_in_bias",
    "Pytwoway.FE.C20_var_psi_expectation",
    "Pytwoway.FE.C20_var_psi_partial",
    "Pytwoway.FE.C20_right_trace_partial",
    "Pytwoway.FE.C20_exact_trace_cov",
    "Pytwoway.FE.C20_weighted_expectation",
    "Pytwoway.FE.C20_weighted_biased",
    "Pytwoway.FE.C20_heteroskedastic_biased",
    "Pytwoway.FE.C20_probe_partial",
    "Pytwoway.FE.C20_stayers_partial"
   ],
   "note": "Exact trace formula, bias formula and exact expectation proved. False of the code: heteroskedastic errors (C20_heteroskedastic_biased, mean of y subtracted), weights (C20_weighted_biased, exact trace divides by weights twice), cov(psi,alpha) exact trace (C20_exact_trace_cov). Unbiased for var(psi) unweighted with equal variances, and for every pair with the right or probed trace (partial); C20_stayers_partial covers stayers and weights with either stayers_var option when variances are inversely proportional to weights."
  },
  {
   "property": "C21",
   "status": "proved",
   "theorems": [
    "Pytwoway.FE.C21_ho_draws",
    "Pytwoway.FE.C21_ho_agrees",
    "Pytwoway.FE.C21_he_draws",
    "Pytwoway.FE.C21_sigma2_hutchinson",
    "Pytwoway.FE.C21_sigma2_hutchPP",
    "Pytwoway.FE.C21_sigma2_hutchPP_refused",
    "Pytwoway.FE.C21_ho_corrected"
   ],
   "note": "Full claim: HO, HE, sigma^2 by Hutchinson and Hutch++ (Q an arbitrary orthonormal oracle). Hutch++ with more draws than observations fails (C21_sigma2_hutchPP_refused)."
  },
  {
   "property": "C22",
   "status": "proved",
   "theorems": [
    "Pytwoway.FE.C22_batching",
    "Pytwoway.FE.C22_range",
    "Pytwoway.FE.C22_stayers_raw",
    "Pytwoway.FE.C22_expectation"
   ],
   "note": "Full claim, plus expectations of P and M. Same draws assumed across the split; the code seeds each core separately."
  },
  {
   "property": "C23",
   "status": "proved",
   "theorems": [
    "Pytwoway.FE.C23_plug_in",
    "Pytwoway.FE.C23_attached",
    "Pytwoway.FE.C23_identity"
   ],
   "note": "Full claim."
  },
  {
   "property": "C24",
   "status": "proved",
   "theorems": [
    "Pytwoway.FEControl.C24_layout",
    "Pytwoway.FEControl.C24_columns",
    "Pytwoway.FEControl.C24_unpack",
    "Pytwoway.FEControl.C24_attached",
    "Pytwoway.FEControl.C24_component",
    "Pytwoway.FEControl.C24_component_sum",
    "Pytwoway.FEControl.C24_name_clash"
   ],
   "note": "A control named psi or alpha breaks the layout (C24_name_clash)."
  },
  {
   "property": "C25",
   "status": "partial",
   "theorems": [
    "Pytwoway.FEControl.C25_pairs_partial",
    "Pytwoway.FEControl.C25_first_category",
    "Pytwoway.FEControl.C25_own_cluster",
    "Pytwoway.FEControl.C25_sandwich",
    "Pytwoway.FEControl.C25_one_firm",
    "Pytwoway.FEControl.C25_single_cluster",
    "Pytwoway.FEControl.C25_two_way_negative"
   ],
   "note": "Pairs sharing the first (normalised) category of a cluster covariate are not clustered, not even an observation with itself (C25_first_category); with one firm, clustering by firm gives standard error 0 (C25_one_firm). With weights the sandwich lacks the weights (C25_sandwich). Two-way clustering can make the radicand negative (C25_two_way_negative)."
  },
  {
   "property": "C26",
   "status": "proved",
   "theorems": [
    "Pytwoway.CRE.C26_stayers",
    "Pytwoway.CRE.C26_stayers_kept",
    "Pytwoway.CRE.C26_movers_kept",
    "Pytwoway.CRE.C26_movers",
    "Pytwoway.CRE.C26_moments",
    "Pytwoway.CRE.C26_stayer_mover_moments",
    "Pytwoway.CRE.C26_change_moment"
   ],
   "note": "Full. Stayer rows at firms without movers in both directions are dropped by the inner merges (C26_stayers_kept)."
  },
  {
   "property": "C27",
   "status": "partial",
   "theorems": [
    "Pytwoway.CRE.C27_movers_partial",
    "Pytwoway.CRE.C27_stayer_reported",
    "Pytwoway.CRE.C27_stayer_right_iff",
    "Pytwoway.CRE.C27_stayer_cov_wrong"
   ],
   "note": "Missing: cov_AsPsi1 and cov_AsAs. cre.py:426 does not halve the sum of the two estimates; C27_stayer_cov_wrong is a population with true covariance 0 and reported covariance 1."
  },
  {
   "property": "C28",
   "status": "proved",
   "theorems": [
    "Pytwoway.CRE.C28_additive",
    "Pytwoway.CRE.C28_var_y",
    "Pytwoway.CRE.C28_without_between",
    "Pytwoway.CRE.C28_within"
   ],
   "note": "Full."
  },
  {
   "property": "C29",
   "status": "partial",
   "theorems": [
    "Pytwoway.BS.C29_pairs",
    "Pytwoway.BS.C29_square",
    "Pytwoway.BS.C29_expectation_partial",
    "Pytwoway.BS.C29_expectation_unweighted_partial",
    "Pytwoway.BS.C29_truth",
    "Pytwoway.BS.C29_repeated_match"
   ],
   "note": "Proved for arbitrary noise variances and weights: pairs of distinct observations carry no noise, so worker/firm squared means are unbiased; the variance and covariance estimates equal those from the means less the variance of the overall mean (the square of the overall mean carries noise, so 'no noise term' is only partly true); the covariance needs distinct matches, with a witness that repeated matches add noise."
  },
  {
   "property": "C30",
   "status": "proved",
   "theorems": [
    "Pytwoway.Sorkin.C30_normalised",
    "Pytwoway.Sorkin.C30_fixed_point",
    "Pytwoway.Sorkin.C30_unique",
    "Pytwoway.Sorkin.C30_threshold",
    "Pytwoway.Sorkin.C30_not_convergent",
    "Pytwoway.Sorkin.C30_no_passes"
   ],
   "note": "Fixed point, normalisation, uniqueness under strong connectedness and the threshold bound proved. The iteration need not converge: with two moves one way and one back it oscillates for any number of passes and the returned values do not balance the flows (C30_not_convergent)."
  },
  {
   "property": "C31",
   "status": "proved",
   "theorems": [
    "Pytwoway.BLM.C31_movers",
    "Pytwoway.BLM.C31_movers_unweighted",
    "Pytwoway.BLM.C31_stayers"
   ],
   "note": "Full, for movers and stayers, with categorical and continuous controls."
  },
  {
   "property": "C32",
   "status": "proved",
   "theorems": [
    "Pytwoway.BLM.C32_movers",
    "Pytwoway.BLM.C32_movers_raises",
    "Pytwoway.BLM.C32_stayers",
    "Pytwoway.BLM.C32_stayers_raises_iff",
    "Pytwoway.BLM.C32_stayers_silent_nan"
   ],
   "note": "Movers proved. For stayers an unobserved firm type silently gets NaN (C32_stayers_silent_nan)."
  },
  {
   "property": "C33",
   "status": "proved",
   "theorems": [
    "Pytwoway.BLM.C33_stayers",
    "Pytwoway.BLM.C33_stayers_returns",
    "Pytwoway.BLM.C33_movers",
    "Pytwoway.BLM.C33_movers_returns",
    "Pytwoway.BLM.C33_prior_lowers"
   ],
   "note": "Recorded path non-decreasing without a Dirichlet prior. With the default d_prior > 1 the recorded path may fall after the first iteration (C33_prior_lowers)."
  },
  {
   "property": "C34",
   "status": "proved",
   "theorems": [
    "Pytwoway.BLM.C34_means_minimise",
    "Pytwoway.BLM.C34_closed_form",
    "Pytwoway.BLM.C34_raises"
   ],
   "note": "Without controls. The M-step raises if the top firm type is not observed in both periods (C34_raises). The controls' M-step is not modelled."
  },
  {
   "property": "C35",
   "status": "proved",
   "theorems": [
    "Pytwoway.BLM.C35_relabelling",
    "Pytwoway.BLM.C35_workers_sorted",
    "Pytwoway.BLM.C35_firms_sorted",
    "Pytwoway.BLM.C35_likelihood",
    "Pytwoway.BLM.C35_idempotent"
   ],
   "note": "Full."
  },
  {
   "property": "C36",
   "status": "proved",
   "theorems": [
    "Pytwoway.BLM.C36_predictions",
    "Pytwoway.BLM.C36_stationary",
    "Pytwoway.BLM.C36_noninteracted",
    "Pytwoway.BLM.C36_zeros",
    "Pytwoway.BLM.C36_lowest",
    "Pytwoway.BLM.C36_no_controls"
   ],
   "note": "Full."
  },
  {
   "property": "C37",
   "status": "partial",
   "theorems": [
    "Pytwoway.BLM.C37_joint_partial",
    "Pytwoway.BLM.C37_separate_partial",
    "Pytwoway.BLM.C37_separate_raises",
    "Pytwoway.BLM.C37_transposed",
    "Pytwoway.BLM.C37_wrong",
    "Pytwoway.BLM.C37_probability"
   ],
   "note": "The code pairs the flow a->b with the proportions of b->a (C37_transposed, C37_wrong); correct for symmetric flows (partial). reallocate_period 'second' and 'all' raise without reallocate_jointly (C37_separate_raises)."
  },
  {
   "property": "C38",
   "status": "proved",
   "theorems": [
    "Pytwoway.BLM.C38_best",
    "Pytwoway.BLM.C38_returns_iff",
    "Pytwoway.BLM.C38_order"
   ],
   "note": "Full."
  },
  {
   "property": "C39",
   "status": "partial",
   "theorems": [
    "Pytwoway.BLM.C39_bootstrap_partial",
    "Pytwoway.BLM.C39_standard",
    "Pytwoway.BLM.C39_bootstrap_crash",
    "Pytwoway.BLM.C39_vardec_partial",
    "Pytwoway.BLM.C39_vardec_crash",
    "Pytwoway.BLM.C39_vardec_no_samples"
   ],
   "note": "Restored on normal return; an exception inside a repetition leaves the data changed (C39_bootstrap_crash, C39_vardec_crash)."
  },
  {
   "property": "C40",
   "status": "partial",
   "theorems": [
    "Pytwoway.BLM.C40_fit_S_partial",
    "Pytwoway.BLM.C40_fit_pk_partial",
    "Pytwoway.BLM.C40_fit_A_raises",
    "Pytwoway.BLM.C40_settings_lost",
    "Pytwoway.BLM.C40_fit_pk_raises",
    "Pytwoway.BLM.C40_cstr_partial",
    "Pytwoway.BLM.C40_cstr_sequence"
   ],
   "note": "fit_S and fit_pk restore the settings when they return; a raise loses them; fit_A always raises."
  },
  {
   "property": "C41",
   "status": "partial",
   "theorems": [
    "Pytwoway.Interacted.C41_layout",
    "Pytwoway.Interacted.C41_extract_coeffs",
    "Pytwoway.Interacted.C41_stationary_a",
    "Pytwoway.Interacted.C41_liml1_recovers",
    "Pytwoway.Interacted.C41_liml1_noiseless_raises",
    "Pytwoway.Interacted.C41_iv_recovers_partial",
    "Pytwoway.Interacted.C41_linear_least_squares",
    "Pytwoway.Interacted.C41_rejects",
    "Pytwoway.Interacted.C41_worker_ids_raise",
    "Pytwoway.Interacted.C41_iv_weighted_wrong"
   ],
   "note": "Proved for the linear estimator without profiling, coarsening, liml_2 and hful (see C100 for these). liml_1 recovers the true slopes and intercepts from noiseless wages when the moment condition identifies them; the iv method does so without weights and is refuted with weights (C41_iv_weighted_wrong); stationary_a restricts the ratio a/b, not a (C41_stationary_a); exactly noiseless data and the worker_ids instrument raise."
  },
  {
   "property": "C42",
   "status": "proved",
   "theorems": [
    "Pytwoway.Interacted.C42_least_squares"
   ],
   "note": "Given exact slopes and an exact solve of the reduced system, the returned intercepts and worker effects minimise the weighted squared residuals with the last firm's intercept zero."
  },
  {
   "property": "C43",
   "status": "proved",
   "theorems": [
    "Pytwoway.Sim.C43_dyn_worker_ids",
    "Pytwoway.Sim.C43_dyn_one_move",
    "Pytwoway.Sim.C43_dyn_firms",
    "Pytwoway.Sim.C43_dyn_counts",
    "Pytwoway.Sim.C43_worker_ids",
    "Pytwoway.Sim.C43_movers_move",
    "Pytwoway.Sim.C43_firms",
    "Pytwoway.Sim.C43_counts"
   ],
   "note": "Proved for every parameter set and every oracle of draws: worker ids identify workers, movers change firm, firms lie in their clusters' ranges, row counts match NNm, NNs and the multipliers."
  },
  {
   "property": "C44",
   "status": "partial",
   "theorems": [
    "Pytwoway.Sim.C44_dyn_iff",
    "Pytwoway.Sim.C44_dyn_sorted_partial",
    "Pytwoway.Sim.C44_dyn_wrong",
    "Pytwoway.Sim.C44_first",
    "Pytwoway.Sim.C44_second_iff",
    "Pytwoway.Sim.C44_sorted_partial",
    "Pytwoway.Sim.C44_second_wrong"
   ],
   "note": "The first period's firm lies in the recorded cluster; the second does only when flows between clusters are one-directional in the way C44_second_iff says; C44_second_wrong exhibits the defect."
  },
  {
   "property": "C45",
   "status": "partial",
   "theorems": [
    "Pytwoway.Sim.C45_sorted",
    "Pytwoway.Sim.C45_monotone",
    "Pytwoway.Sim.C45_stationary",
    "Pytwoway.Sim.C45_additive",
    "Pytwoway.Sim.C45_firm_variation_partial",
    "Pytwoway.Sim.C45_firm_variation_raises",
    "Pytwoway.Sim.C45_firm_variation_iff",
    "Pytwoway.Sim.C45_firm_variation_shape"
   ],
   "note": "All options proved except stationary_firm_type_variation, which raises or produces a wrong result (C45_firm_variation_*)."
  },
  {
   "property": "C46",
   "status": "partial",
   "theorems": [
    "Pytwoway.Sim.Dyn.C46_switch_off_partial",
    "Pytwoway.Sim.Dyn.C46_switch_off_cat",
    "Pytwoway.Sim.Dyn.C46_stationary_zeroes",
    "Pytwoway.Sim.Dyn.C46_stationary_zeroes_cat",
    "Pytwoway.Sim.Dyn.C46_stationary_equal",
    "Pytwoway.Sim.Dyn.C46_stationary_simulation_raises",
    "Pytwoway.Sim.Dyn.C46_firm_variation_raises",
    "Pytwoway.Sim.Dyn.C46_simulation_means",
    "Pytwoway.Sim.Dyn.C46_types_ordered",
    "Pytwoway.Sim.Dyn.C46_strictly_ordered"
   ],
   "note": "Switching an effect off zeroes exactly that effect unless stationary_A is set, in which case the arrays are shared and every period is zeroed (C46_stationary_zeroes); stationary_A then makes the simulation raise, and stationary firm variation always raises."
  },
  {
   "property": "C47",
   "status": "partial",
   "theorems": [
    "Pytwoway.Attrition.C47_rounding",
    "Pytwoway.Attrition.C47_fractions",
    "Pytwoway.Attrition.C47_one_per_fraction",
    "Pytwoway.Attrition.C47_nested",
    "Pytwoway.Attrition.C47_sizes",
    "Pytwoway.Attrition.C47_parameters_partial",
    "Pytwoway.Attrition.C47_parameters_lost",
    "Pytwoway.Attrition.C47_nested_needs_closed"
   ],
   "note": "The nesting, sizes and fractions are proved; the user's cleaning parameters are restored only when the iteration does not raise (C47_parameters_lost)."
  },
  {
   "property": "C48",
   "status": "partial",
   "theorems": [
    "Pytwoway.Attrition.C48_stored",
    "Pytwoway.Attrition.C48_combined_partial",
    "Pytwoway.Attrition.C48_decreasing_raises"
   ],
   "note": "Proved when some fraction exceeds its predecessor; for decreasing attrition np.flip is applied to dictionaries and raises (C48_decreasing_raises)."
  },
  {
   "property": "C49",
   "status": "proved",
   "theorems": [
    "Pytwoway.MonteCarlo.C49_positions",
    "Pytwoway.MonteCarlo.C49_estimators",
    "Pytwoway.MonteCarlo.C49_parameters",
    "Pytwoway.MonteCarlo.C49_collapse_raises"
   ],
   "note": "Position of every simulation's estimates for one and several cores; exact parameter dictionaries, with aliasing of the caller's dictionaries."
  },
  {
   "property": "C50",
   "status": "partial",
   "theorems": [
    "Pytwoway.BLM.C50_value_of_pairing",
    "Pytwoway.BLM.C50_value_partial",
    "Pytwoway.BLM.C50_zero_iff_disconnected",
    "Pytwoway.BLM.C50_zero_iff_partial",
    "Pytwoway.BLM.C50_returns_iff",
    "Pytwoway.BLM.C50_relabelling",
    "Pytwoway.BLM.C50_all_ignored",
    "Pytwoway.BLM.C50_wrong"
   ],
   "note": "Flows are paired with the opposite flow's proportions, so the value is right for symmetric flows (partial); zero iff disconnected holds for all flows when every proportion is positive. all=True is ignored."
  },
  {
   "property": "C51",
   "status": "partial",
   "theorems": [
    "Pytwoway.SimBS.C51_rejects_partial",
    "Pytwoway.SimBS.C51_stored",
    "Pytwoway.SimBS.C51_perfect_correlation",
    "Pytwoway.SimBS.C51_counts",
    "Pytwoway.SimBS.C51_counts_unique",
    "Pytwoway.SimBS.C51_smaller_side_grows",
    "Pytwoway.SimBS.C51_gap_closed",
    "Pytwoway.SimBS.C51_counts_may_not_end",
    "Pytwoway.SimBS.C51_matching"
   ],
   "note": "Counts, matching and assortativity are proved for every draw; the parameter check is exact for |rho| < 1, at rho = +-1 the threshold is nan and parameters pass (C51_perfect_correlation)."
  },
  {
   "property": "C52",
   "status": "partial",
   "theorems": [
    "Pytwoway.Precond.C52_cholesky_solves",
    "Pytwoway.Precond.C52_cholesky_spd",
    "Pytwoway.Precond.C52_fe_jacobi",
    "Pytwoway.Precond.C52_fe_vcycle",
    "Pytwoway.Precond.C52_controls_vcycle_indefinite",
    "Pytwoway.Precond.C52_ichol_spd",
    "Pytwoway.Precond.C52_downsample",
    "Pytwoway.Precond.C52_jacobi_divides_partial",
    "Pytwoway.Precond.C52_jacobi_spd",
    "Pytwoway.Precond.C52_jacobi_small",
    "Pytwoway.Precond.C52_vcycle_symmetric",
    "Pytwoway.Precond.C52_vcycle_spd"
   ],
   "note": "Jacobi, V-cycle and Cholesky operators proved symmetric positive definite on the two-way estimator's matrix; Jacobi divides by the diagonal only where it exceeds 1e-8 (C52_jacobi_small); with a categorical control the default V-cycle is indefinite (C52_controls_vcycle_indefinite); spilu is external."
  },
  {
   "property": "C53",
   "status": "partial",
   "theorems": [
    "Pytwoway.Dynamic.C53_moments_partial",
    "Pytwoway.Dynamic.C53_wrong_rows",
    "Pytwoway.Dynamic.C53_truth_rejected",
    "Pytwoway.Dynamic.C53_weights_misaligned",
    "Pytwoway.Dynamic.C53_weights_one",
    "Pytwoway.Dynamic.C53_differences_raise"
   ],
   "note": "Seven of ten moments are right; the other three are wrong (C53_wrong_rows), so the criterion is positive at the truth (C53_truth_rejected); weights are misaligned for two or more firm classes and differences work only for eight."
  },
  {
   "property": "C54",
   "status": "partial",
   "theorems": [
    "Pytwoway.Dynamic.C54_unchanged_partial",
    "Pytwoway.Dynamic.C54_normalised",
    "Pytwoway.Dynamic.C54_normalised_first",
    "Pytwoway.Dynamic.C54_raises"
   ],
   "note": "Whenever it returns the model is unchanged; what is normalised is C54_normalised and C54_normalised_first. It raises KeyError unless some control is time-varying and interacts with worker types (C54_raises)."
  },
  {
   "property": "C55",
   "status": "proved",
   "theorems": [
    "Pytwoway.Dynamic.C55_minimises",
    "Pytwoway.Dynamic.C55_likelihood_can_fall"
   ],
   "note": "The update is the unique minimiser of the weighted squared residuals; it is not an ascent step of the likelihood (C55_likelihood_can_fall)."
  },
  {
   "property": "C56",
   "status": "partial",
   "theorems": [
    "Pytwoway.Options.C56_control_init",
    "Pytwoway.Options.C56_control_exact",
    "Pytwoway.Options.C56_control_supported_partial",
    "Pytwoway.Options.C56_control_path",
    "Pytwoway.Options.C56_control_init_suffices",
    "Pytwoway.Options.C56_control_late",
    "Pytwoway.Options.C56_fe_supported_partial",
    "Pytwoway.Options.C56_fe_outcome",
    "Pytwoway.Options.C56_fe_late",
    "Pytwoway.Options.C56_fe_path",
    "Pytwoway.Options.C56_fe_results",
    "Pytwoway.Options.C56_fe_init",
    "Pytwoway.Options.C56_interacted_rejects",
    "Pytwoway.Options.C56_interacted_path",
    "Pytwoway.Options.C56_interacted_supported_partial",
    "Pytwoway.Options.C56_interacted_hful"
   ],
   "note": "Exactly which options FEEstimator, FEControlEstimator and the linear interacted estimator accept, which exception the others raise, and that accepted ones select one method per task. The check comes before any work only for the control estimator's exact options and the interacted validation; elsewhere it comes after OLS (C56_fe_late, C56_control_late, C56_interacted_hful). Constraints of the BLM models are the subject of C07-C14, C58 and C59."
  },
  {
   "property": "C57",
   "status": "partial",
   "theorems": [
    "Pytwoway.Util.C57_melt_mislabels",
    "Pytwoway.Util.C57_melt_one_column_partial"
   ],
   "note": "False of the code: C57_melt_mislabels. Holds for arrays with one column."
  },
  {
   "property": "C58",
   "status": "partial",
   "theorems": [
    "Pytwoway.Constraints.C58_solve_minimises",
    "Pytwoway.Constraints.C58_checkFeasible_partial",
    "Pytwoway.Constraints.C58_checkFeasible_two_periods_raises",
    "Pytwoway.Constraints.C58_pad_partial",
    "Pytwoway.Constraints.C58_pad_empty"
   ],
   "note": "Solver is an oracle assumed optimal. check_feasible raises for two periods and pad on an empty set breaks, both proved."
  },
  {
   "property": "C59",
   "status": "partial",
   "theorems": [
    "Pytwoway.Constraints.C59_genConstraints_partial",
    "Pytwoway.Constraints.C59_force_min_firm_type",
    "Pytwoway.Constraints.C59_depends_on_column_order"
   ],
   "note": "Partial: false in general (C59_depends_on_column_order), holds when every interacted control is stationary."
  },
  {
   "property": "C60",
   "status": "partial",
   "theorems": [
    "Pytwoway.FE.C60_stayer_leverage",
    "Pytwoway.FE.C60_firm_mean",
    "Pytwoway.FE.C60_upper_bound_unweighted",
    "Pytwoway.FE.C60_upper_bound_weighted_partial",
    "Pytwoway.FE.C60_single_row_stayer",
    "Pytwoway.FE.C60_unbiased"
   ],
   "note": "With weights, upper_bound uses 1/T for the leverage w/T, so only rows of weight 1 get the leave-one-out estimate; a stayer in a single row gets 0 (C60_single_row_stayer). C60_unbiased: in expectation the estimates are the true variances when these are inversely proportional to weights."
  },
  {
   "property": "C61",
   "status": "proved",
   "theorems": [
    "Pytwoway.FEControl.C61_least_squares"
   ],
   "note": ""
  },
  {
   "property": "C62",
   "status": "partial",
   "theorems": [
    "Pytwoway.FEControl.C62_unweighted_partial",
    "Pytwoway.FEControl.C62_weighted",
    "Pytwoway.FEControl.C62_residual_variance"
   ],
   "note": "Holds without weights; with a common weight k the squared standard error is off by 1/k^2 (C62_weighted)."
  },
  {
   "property": "C63",
   "status": "proved",
   "theorems": [
    "Pytwoway.CRE.C63_least_squares",
    "Pytwoway.CRE.C63_recovers",
    "Pytwoway.CRE.C63_centred"
   ],
   "note": "Full, assuming spsolve solves nonsingular systems; nonsingularity is proved from connectedness."
  },
  {
   "property": "C64",
   "status": "partial",
   "theorems": [
    "Pytwoway.CRE.C64_mean",
    "Pytwoway.CRE.C64_posterior_partial",
    "Pytwoway.CRE.C64_stayer_only_prior",
    "Pytwoway.CRE.C64_prior",
    "Pytwoway.CRE.C64_stayer_only_mean"
   ],
   "note": "Posterior mean proved. var_posterior mixes ddof=0 and ddof=1 so its probe average exceeds the posterior expectation by 1/n of the second term; firms without movers get prior mean 0 instead of their cluster effect (C64_stayer_only_mean)."
  },
  {
   "property": "C65",
   "status": "partial",
   "theorems": [
    "Pytwoway.BS.C65_alternative_unweighted",
    "Pytwoway.BS.C65_alternative_weighted_wrong",
    "Pytwoway.BS.C65_alternative_weighted_partial",
    "Pytwoway.BS.C65_constant_wage",
    "Pytwoway.BS.C65_var_y_unweighted_partial",
    "Pytwoway.BS.C65_var_y_weighted_wrong",
    "Pytwoway.BS.C65_returns"
   ],
   "note": "Unweighted: proved for both estimators. Weighted: the code's var(y) is the variance of weight*outcome (witness), and the weighted alternative estimator reports -c^2/2 for constant wages (proved for all panels)."
  },
  {
   "property": "C66",
   "status": "partial",
   "theorems": [
    "Pytwoway.FE.C66_factor",
    "Pytwoway.FE.C66_wrong_example",
    "Pytwoway.FE.C66_half_partial"
   ],
   "note": "The code's factor differs from the one removing the second-order bias by an explicit term (C66_factor, with a concrete case)."
  },
  {
   "property": "C67",
   "status": "partial",
   "theorems": [
    "Pytwoway.Sorkin.C67_shifted",
    "Pytwoway.Sorkin.C67_aligned_iff_partial"
   ],
   "note": "Fails: the effects are shifted by one firm; aligned only if all effects are zero."
  },
  {
   "property": "C68",
   "status": "proved",
   "theorems": [
    "Pytwoway.BLM.C68_stayers_stop",
    "Pytwoway.BLM.C68_stayers_first",
    "Pytwoway.BLM.C68_movers_stop",
    "Pytwoway.BLM.C68_movers_first",
    "Pytwoway.BLM.C68_movers_second"
   ],
   "note": "Full, without controls for movers."
  },
  {
   "property": "C69",
   "status": "partial",
   "theorems": [
    "Pytwoway.Interacted.C69_recovers_partial",
    "Pytwoway.Interacted.C69_rejects_returns",
    "Pytwoway.Interacted.C69_default_recovers",
    "Pytwoway.Interacted.C69_weighted_wrong"
   ],
   "note": "Holds when a worker's observations carry equal weights (C69_default_recovers for the default settings, C69_recovers_partial for all settings given that the fixed point is unique); refuted for weights that differ within a worker (C69_weighted_wrong). Workers with equal mean wages are assumed not to interleave."
  },
  {
   "property": "C70",
   "status": "partial",
   "theorems": [
    "Pytwoway.Interacted.C70_aligned_partial",
    "Pytwoway.Interacted.C70_general",
    "Pytwoway.Interacted.C70_misaligned"
   ],
   "note": "Holds when every firm has a stayer; firms without stayers are dropped from the array, shifting all later entries (C70_misaligned). C70_general says what is returned in every case."
  },
  {
   "property": "C71",
   "status": "proved",
   "theorems": [
    "Pytwoway.Sim.C71_density",
    "Pytwoway.Sim.C71_types"
   ],
   "note": "Law of the simulated wage has density exp(lp) for independent standard normal draws; types drawn from the row KK."
  },
  {
   "property": "C72",
   "status": "partial",
   "theorems": [
    "Pytwoway.Sim.C72_density_partial",
    "Pytwoway.Sim.C72_weighted_variance"
   ],
   "note": "Proved without weights; with weights the draws have variance S^2/w^2 and re-estimation does not give S^2 (C72_weighted_variance)."
  },
  {
   "property": "C73",
   "status": "partial",
   "theorems": [
    "Pytwoway.Dynamic.C73_movers_partial",
    "Pytwoway.Dynamic.C73_stayers_partial",
    "Pytwoway.Dynamic.C73_types",
    "Pytwoway.Dynamic.C73_controls_wrong",
    "Pytwoway.Dynamic.C73_continuous_raise"
   ],
   "note": "Proved without controls and with categorical controls of standard deviation 0 or 1; the simulator adds controls' standard deviations unsquared (C73_controls_wrong) and continuous controls make the likelihood raise (C73_continuous_raise)."
  },
  {
   "property": "C74",
   "status": "partial",
   "theorems": [
    "Pytwoway.Dynamic.C74_density_partial",
    "Pytwoway.Dynamic.C74_controls_raise"
   ],
   "note": "Proved without controls; with any control the bootstrap raises KeyError (C74_controls_raise)."
  },
  {
   "property": "C75",
   "status": "proved",
   "theorems": [
    "Pytwoway.Dynamic.C75_flow",
    "Pytwoway.Dynamic.C75_movers_posterior",
    "Pytwoway.Dynamic.C75_stayers_posterior",
    "Pytwoway.Dynamic.C75_proportions",
    "Pytwoway.Dynamic.C75_raises"
   ],
   "note": "Dynamic model without controls. Posterior, proportions and when the update raises."
  },
  {
   "property": "C77",
   "status": "partial",
   "theorems": [
    "Pytwoway.Dynamic.C77_stayers_variances_lower",
    "Pytwoway.Dynamic.C77_movers_variances_lower",
    "Pytwoway.Dynamic.C77_movers_means_lower",
    "Pytwoway.Dynamic.C77_movers_recorded",
    "Pytwoway.Dynamic.C77_stayers_recorded",
    "Pytwoway.Dynamic.C77_stayers_partial",
    "Pytwoway.Dynamic.C77_movers_partial",
    "Pytwoway.Dynamic.C77_stayers_returns",
    "Pytwoway.Dynamic.C77_movers_returns",
    "Pytwoway.Dynamic.C77_stayers_variances",
    "Pytwoway.Dynamic.C77_movers_factors",
    "Pytwoway.Dynamic.C77_stayers_factors",
    "Pytwoway.Dynamic.C77_movers_means",
    "Pytwoway.Dynamic.C77_movers_variances",
    "Pytwoway.Dynamic.C77_stayers_variances_new",
    "Pytwoway.Dynamic.C77_movers_kept",
    "Pytwoway.Dynamic.C77_stayers_kept",
    "Pytwoway.Dynamic.C77_stayers_alternate",
    "Pytwoway.Dynamic.C77_movers_alternate",
    "Pytwoway.Dynamic.C77_prior_lower"
   ],
   "note": "False as stated: C77_movers_means_lower (rows weighted by 1/sd instead of 1/variance), C77_movers_variances_lower and C77_stayers_variances_lower (variance regression with wrong signs and powers, C77_stayers_variances), C77_prior_lower (prior missing from the first recorded value), C55_likelihood_can_fall for the persistence. Proved: stayers' proportions and means, movers' proportions; what each update minimises; parameters not to be updated are kept. Without controls."
  },
  {
   "property": "C78",
   "status": "partial",
   "theorems": [
    "Pytwoway.Dynamic.C78_stayers_partial",
    "Pytwoway.Dynamic.C78_threshold_ignored",
    "Pytwoway.Dynamic.C78_stayers_wrong",
    "Pytwoway.Dynamic.C78_movers_stop"
   ],
   "note": "False for stayers: threshold_stayers is never read (C78_threshold_ignored, C78_stayers_wrong); stated and proved with threshold_movers. Movers: proved with the smallest firm type forced."
  },
  {
   "property": "C76",
   "status": "partial",
   "theorems": [
    "Pytwoway.Dynamic.C76_off_partial",
    "Pytwoway.Dynamic.C76_no_effect",
    "Pytwoway.Dynamic.C76_controls_raise",
    "Pytwoway.Dynamic.C76_controls_error",
    "Pytwoway.Dynamic.C76_continuous_kept"
   ],
   "note": "Proved without categorical controls; with one the constructor raises (C76_controls_raise); continuous controls keep their effect (C76_continuous_kept)."
  },
  {
   "property": "C79",
   "status": "partial",
   "theorems": [
    "Pytwoway.Attrition.C79_no_line_raises",
    "Pytwoway.Attrition.C79_line_partial",
    "Pytwoway.Attrition.C79_needs_monotone"
   ],
   "note": "Proved for averages that never fall along the axis; drawing the plots without the line always raises (C79_no_line_raises)."
  },
  {
   "property": "C80",
   "status": "proved",
   "theorems": [
    "Pytwoway.Attrition.C80_nested",
    "Pytwoway.Attrition.C80_sizes",
    "Pytwoway.Attrition.C80_fractions"
   ],
   "note": "Nesting, sizes up to rounding and one sample per fraction."
  },
  {
   "property": "C81",
   "status": "proved",
   "theorems": [
    "Pytwoway.MonteCarlo.C81_range"
   ],
   "note": "All errors are inside the range."
  },
  {
   "property": "C82",
   "status": "partial",
   "theorems": [
    "Pytwoway.SimBS.C82_degenerate_undefined",
    "Pytwoway.SimBS.C82_degenerate_accepted",
    "Pytwoway.SimBS.C82_columns_scaled",
    "Pytwoway.SimBS.C82_moments_partial"
   ],
   "note": "Moments proved for positive variances, |rho| < 1, and a firm type equal to the drawn chi; columns are scaled (C82_columns_scaled), border cases give no finite wage (C82_degenerate_undefined)."
  },
  {
   "property": "C83",
   "status": "proved",
   "theorems": [
    "Pytwoway.Precond.C83_error_bound",
    "Pytwoway.Precond.C83_exact",
    "Pytwoway.Precond.C83_direct_solver",
    "Pytwoway.Precond.C83_fe_succeeds",
    "Pytwoway.Precond.C83_missing_diagonal"
   ],
   "note": "ichol's linked-list algorithm refines a dense factorisation; error bound, exactness with zero thresholds, success on the estimator's matrix. A column without a stored diagonal entry is misread (C83_missing_diagonal)."
  },
  {
   "property": "C84",
   "status": "partial",
   "theorems": [
    "Pytwoway.Options.C84_control_refit",
    "Pytwoway.Options.C84_control_refit_path",
    "Pytwoway.Options.C84_control_refit_results",
    "Pytwoway.Options.C84_control_leftovers_partial",
    "Pytwoway.Options.C84_refit_outcome",
    "Pytwoway.Options.C84_refit_path",
    "Pytwoway.Options.C84_refit_results",
    "Pytwoway.Options.C84_no_leftovers_partial",
    "Pytwoway.Options.C84_leftovers"
   ],
   "note": "Outcome, path and results of a repeated call proved for all call sequences, for both estimators, by an invariant of the estimator's attributes. False: matrices stay behind if he is set with statsonly or feonly (C84_leftovers; exactly then by C84_no_leftovers_partial, C84_control_leftovers_partial). With an output file the stored results are strings."
  },
  {
   "property": "C85",
   "status": "proved",
   "theorems": [
    "Pytwoway.FEControl.C85_plug_in",
    "Pytwoway.FEControl.C85_sigma2_unbiased",
    "Pytwoway.FEControl.C85_draws",
    "Pytwoway.FEControl.C85_ho_unbiased",
    "Pytwoway.FEControl.C85_ho_unbiased_var",
    "Pytwoway.FEControl.C85_sigma2_hutchinson",
    "Pytwoway.FEControl.C85_sigma2_hutchPP",
    "Pytwoway.FEControl.C85_unknown_name"
   ],
   "note": "Traces drawn with probes of mean 0 and variance 1, uncorrelated across coordinates; solver returns a solution of the normal equations when there is one."
  },
  {
   "property": "C86",
   "status": "partial",
   "theorems": [
    "Pytwoway.FEControl.C86_leverage_expectation",
    "Pytwoway.FEControl.C86_leverage_range",
    "Pytwoway.FEControl.C86_files",
    "Pytwoway.FEControl.C86_leave_one_out",
    "Pytwoway.FEControl.C86_variance_expectation",
    "Pytwoway.FEControl.C86_variance_partial",
    "Pytwoway.FEControl.C86_stayers_upper_bound",
    "Pytwoway.FEControl.C86_draws",
    "Pytwoway.FEControl.C86_he_expectation",
    "Pytwoway.FEControl.C86_he_unbiased_partial",
    "Pytwoway.FEControl.C86_heteroskedastic_biased",
    "Pytwoway.FEControl.C86_not_upper_bound",
    "Pytwoway.FEControl.C86_lone_stayer_refused"
   ],
   "note": "Leverages, files, leave-one-out and traces proved in general. Unbiasedness holds for error variances inversely proportional to the weights with true leverages: C86_he_unbiased_partial covers firm_mean, unweighted upper_bound and movers-only data. False otherwise: C86_heteroskedastic_biased, C86_not_upper_bound. The JLA factor is the subject of C66."
  },
  {
   "property": "C87",
   "status": "proved",
   "theorems": [
    "Pytwoway.BLM.C87_no_stale_values",
    "Pytwoway.BLM.C87_mstep",
    "Pytwoway.BLM.C87_each_column",
    "Pytwoway.BLM.C87_interacted_closed_form",
    "Pytwoway.BLM.C87_pooled_closed_form",
    "Pytwoway.BLM.C87_missing_category",
    "Pytwoway.BLM.C87_update_a_alone"
   ],
   "note": "Proved for movers; solver: any exact minimiser of the quadratic programme within the column's constraints. Column weights use the column's own variance, not the total."
  },
  {
   "property": "C88",
   "status": "partial",
   "theorems": [
    "Pytwoway.BLM.C88_effects_partial",
    "Pytwoway.BLM.C88_likelihood_falls",
    "Pytwoway.BLM.C88_category_variance",
    "Pytwoway.BLM.C88_slope_variance",
    "Pytwoway.BLM.C88_double_count"
   ],
   "note": "False of the code: the variance half counts the residual once per block. Effects half proved not to raise the weighted squared residuals when all blocks share one variance."
  },
  {
   "property": "C89",
   "status": "partial",
   "theorems": [
    "Pytwoway.FE.C89_aligned",
    "Pytwoway.FE.C89_component",
    "Pytwoway.FE.C89_plug_in",
    "Pytwoway.FE.C89_normalisation",
    "Pytwoway.FE.C89_ho_unbiased",
    "Pytwoway.FE.C89_ho_probes",
    "Pytwoway.FE.C89_he_probes_partial",
    "Pytwoway.FE.C89_needs_grouped"
   ],
   "note": "Plug-in and homoskedastic correction proved in full. The heteroskedastic correction inherits the limits of C20 (proved for variances inversely proportional to weights, movers only). Needs data grouped by worker (C89_needs_grouped)."
  },
  {
   "property": "C90",
   "status": "proved",
   "theorems": [
    "Pytwoway.Dynamic.C90_relabelling",
    "Pytwoway.Dynamic.C90_likelihood",
    "Pytwoway.Dynamic.C90_likelihood_controls",
    "Pytwoway.Dynamic.C90_sorted",
    "Pytwoway.Dynamic.C90_idempotent"
   ],
   "note": "Full; likelihoods with continuous controls cannot be computed by the code (C73_continuous_raise)."
  },
  {
   "property": "C91",
   "status": "partial",
   "theorems": [
    "Pytwoway.Constraints.C91_base_means_partial",
    "Pytwoway.Constraints.C91_force_min_firm_type",
    "Pytwoway.Constraints.C91_base_sds",
    "Pytwoway.Constraints.C91_control_means",
    "Pytwoway.Constraints.C91_control_sds_partial",
    "Pytwoway.Constraints.C91_control_sds_b",
    "Pytwoway.Constraints.C91_user_constraint_fits_one"
   ],
   "note": "C91_base_means_partial, C91_base_sds, C91_control_means and C91_control_sds_partial characterise the feasible sets; they need the controls that interact with worker type to be stationary (as C59) and say nothing about 'b' standard deviations of interacted controls, which the code leaves free (C91_control_sds_b). C91_user_constraint_fits_one: any user constraint makes either the movers' or the stayers' solver raise."
  },
  {
   "property": "C92",
   "status": "partial",
   "theorems": [
    "Pytwoway.CLI.C92_parameters_partial",
    "Pytwoway.CLI.C92_options_that_raise",
    "Pytwoway.CLI.C92_data",
    "Pytwoway.CLI.C92_runs",
    "Pytwoway.CLI.C92_unknown_measure"
   ],
   "note": "C92_parameters_partial: a run that does not raise uses exactly the given values and the defaults. Partial because number options always raise (C92_options_that_raise). paramsdict (not in the repository) is assumed to refuse unknown keys and text where a number or a truth value is required; NumPy refuses text as seed."
  },
  {
   "property": "C93",
   "status": "proved",
   "theorems": [
    "Pytwoway.FE.C93_between",
    "Pytwoway.FE.C93_decomposition",
    "Pytwoway.FE.C93_ordering",
    "Pytwoway.FE.C93_counts",
    "Pytwoway.FE.C93_quantiles"
   ],
   "note": ""
  },
  {
   "property": "C94",
   "status": "partial",
   "theorems": [
    "Pytwoway.Diagnostics.C94_panels_partial",
    "Pytwoway.Diagnostics.C94_partition",
    "Pytwoway.Diagnostics.C94_unequal_windows",
    "Pytwoway.Diagnostics.C94_unclustered",
    "Pytwoway.Diagnostics.C94_single_type"
   ],
   "note": "partial: the code raises for unequal windows, one firm type and unclustered data, which the three negative theorems prove."
  },
  {
   "property": "C95",
   "status": "partial",
   "theorems": [
    "Pytwoway.Dynamic.C95_movers_usable",
    "Pytwoway.Dynamic.C95_movers_means_partial",
    "Pytwoway.Dynamic.C95_running_sum",
    "Pytwoway.Dynamic.C95_loop_fresh",
    "Pytwoway.Dynamic.C95_variance_counted_twice",
    "Pytwoway.Dynamic.C95_stayers_raise",
    "Pytwoway.Dynamic.C95_stayers_overwritten",
    "Pytwoway.Dynamic.C95_stayers_twice",
    "Pytwoway.Dynamic.C95_stayers_no_solution",
    "Pytwoway.Dynamic.C95_stayers_running_sum",
    "Pytwoway.Dynamic.C95_stayers_third_period",
    "Pytwoway.Dynamic.C95_estep",
    "Pytwoway.Dynamic.C95_alternate",
    "Pytwoway.Dynamic.C95_persistence",
    "Pytwoway.Dynamic.C95_stayers_base_partial",
    "Pytwoway.Dynamic.Order.C95_order",
    "Pytwoway.Dynamic.Order.C95_order_raises",
    "Pytwoway.Dynamic.C95_stayers_no_stale_sum",
    "Pytwoway.Dynamic.C95_stayers_posterior",
    "Pytwoway.Dynamic.C95_stayers_rho"
   ],
   "note": "False in part: the stayers' M-step overwrites every control's effects with those of the firm types (C95_stayers_overwritten) and uses second-period categories in the third period (C95_stayers_third_period); so C95_stayers_base_partial covers the main effects. C95_movers_means_partial: weights come from one control's standard deviations only. Proved in full: the design and its order, running sums (C95_stayers_no_stale_sum), posteriors (C95_stayers_posterior), persistence (C95_stayers_rho). With continuous controls the E-step already raises (C73_continuous_raise)."
  },
  {
   "property": "C96",
   "status": "partial",
   "theorems": [
    "Pytwoway.BLM.C96_cycle",
    "Pytwoway.BLM.C96_cycle_static",
    "Pytwoway.BLM.C96_no_cycle",
    "Pytwoway.BLM.C96_forced_best",
    "Pytwoway.BLM.C96_forced_ok",
    "Pytwoway.BLM.C96_fit_movers_forced",
    "Pytwoway.BLM.C96_restart_partial",
    "Pytwoway.BLM.C96_setting_left",
    "Pytwoway.BLM.C96_return_qi",
    "Pytwoway.BLM.C96_pk0_left",
    "Pytwoway.BLM.C96_pk0_mismatch",
    "Pytwoway.BLM.C96_forced_lowest",
    "Pytwoway.Dynamic.C96_dynamic_forced",
    "Pytwoway.Dynamic.C96_dynamic_cycle"
   ],
   "note": "Exactly-when claim about the check, the choice of the best fit and the restart are proved in full. False of the code: if a restarted fit raises the setting stays on (C96_setting_left), pk0 is not put into the order of the other parameters (C96_pk0_mismatch), and in the dynamic model forcing and every detected cycle raise TypeError (C96_dynamic_forced, C96_dynamic_cycle). Solver answers are assumed to meet the constraints (C96_forced_lowest)."
  },
  {
   "property": "C97",
   "status": "partial",
   "theorems": [
    "Pytwoway.Dynamic.C97_bootstrap_partial",
    "Pytwoway.Dynamic.C97_bootstrap_standard",
    "Pytwoway.Dynamic.C97_bootstrap_crash",
    "Pytwoway.Dynamic.C97_vardec_partial",
    "Pytwoway.Dynamic.C97_stayers_firms_lost",
    "Pytwoway.Dynamic.C97_ids_mixed",
    "Pytwoway.Dynamic.C97_vardec_crash",
    "Pytwoway.Dynamic.C97_fit_A_partial",
    "Pytwoway.Dynamic.C97_fit_S_partial",
    "Pytwoway.Dynamic.C97_fit_pk_partial",
    "Pytwoway.Dynamic.C97_fit_A_S_return",
    "Pytwoway.Dynamic.C97_settings_lost",
    "Pytwoway.Dynamic.C97_fit_pk_raises",
    "Pytwoway.Dynamic.C97_persistence_changed",
    "Pytwoway.Dynamic.C97_cstr_partial",
    "Pytwoway.Dynamic.C97_cstr_sequence",
    "Pytwoway.Dynamic.C97_cstr_lost",
    "Pytwoway.Dynamic.C97_periods",
    "Pytwoway.Dynamic.C97_start_static",
    "Pytwoway.Dynamic.C97_start_some"
   ],
   "note": "The partial theorems are about calls that return; after an exception the settings and data are left changed (C97_fit_pk_raises). False parts: stayers' first firm is lost (C97_stayers_firms_lost), firm types and identifiers are mixed (C97_ids_mixed), persistence parameters change (C97_persistence_changed)."
  },
  {
   "property": "C98",
   "status": "partial",
   "theorems": [
    "Pytwoway.Estim.C98_schedule",
    "Pytwoway.Estim.C98_schedule_dynamic",
    "Pytwoway.Estim.C98_which_exception",
    "Pytwoway.Estim.C98_seeds",
    "Pytwoway.Estim.C98_seeds_prefix",
    "Pytwoway.Estim.C98_starts",
    "Pytwoway.Estim.C98_kept",
    "Pytwoway.Estim.C98_fails",
    "Pytwoway.Estim.C98_recorded_partial",
    "Pytwoway.Estim.C98_zeros_stored",
    "Pytwoway.Estim.C98_more_starts_partial",
    "Pytwoway.Estim.C98_more_starts_worse",
    "Pytwoway.Estim.C98_plot_partial",
    "Pytwoway.Estim.C98_plot_jitter",
    "Pytwoway.Estim.C98_plot_stale",
    "Pytwoway.Estim.C98_fresh",
    "Pytwoway.Estim.C98_fresh_dynamic",
    "Pytwoway.Estim.C98_isolation_needed"
   ],
   "note": "False parts: zeros are stored for runs without connectedness (C98_zeros_stored), more starts can lower the likelihood with n_best > 1 (C98_more_starts_worse), fit and the plots raise in some settings (C98_fails, C98_plot_stale, C98_plot_jitter); the partial theorems cover the rest."
  },
  {
   "property": "C99",
   "status": "partial",
   "theorems": [
    "Pytwoway.Plots.C99_class_without_movers",
    "Pytwoway.Plots.C99_bars_for_nobody",
    "Pytwoway.Plots.C99_not_yet_fitted",
    "Pytwoway.Plots.C99_dynamic_stayers_refused",
    "Pytwoway.Plots.C99_bootstrap_bars",
    "Pytwoway.Plots.C99_bootstrap_stayers_refused",
    "Pytwoway.Plots.C99_error_bars_partial",
    "Pytwoway.Plots.C99_error_bars_raise",
    "Pytwoway.Plots.C99_log_earnings",
    "Pytwoway.Plots.C99_other_period",
    "Pytwoway.Plots.C99_bars",
    "Pytwoway.Plots.C99_stayers",
    "Pytwoway.Plots.C99_types_partial",
    "Pytwoway.Plots.C99_periods_swapped",
    "Pytwoway.Plots.C99_types_wrong"
   ],
   "note": "C99_types_partial needs opposite flows with the same type probabilities, because pk1 is reshaped in the wrong order (C99_periods_swapped, C99_types_wrong); C99_error_bars_partial needs at most 40 models (C99_error_bars_raise)."
  },
  {
   "property": "C100",
   "status": "partial",
   "theorems": [
    "Pytwoway.Interacted.C100_agrees",
    "Pytwoway.Interacted.C100_coarse_recovers",
    "Pytwoway.Interacted.C100_liml2_weighted_wrong",
    "Pytwoway.Interacted.C100_hful_minimises_partial",
    "Pytwoway.Interacted.C100_hful_recovers_partial",
    "Pytwoway.Interacted.C100_hful_noiseless_raises",
    "Pytwoway.Interacted.C100_hful_default_wrong",
    "Pytwoway.Interacted.C100_hful_pairs_wrong",
    "Pytwoway.Interacted.C100_hful_weighted_wrong",
    "Pytwoway.Interacted.C100_hful_leave_out",
    "Pytwoway.Interacted.C100_coarse_workers_raises",
    "Pytwoway.Interacted.C100_profiling_recovers_partial",
    "Pytwoway.Interacted.C100_profiling_one_slope",
    "Pytwoway.Interacted.C100_profiling_two_firms_raises",
    "Pytwoway.Interacted.C100_profiling_wrong",
    "Pytwoway.Interacted.C100_profiling_free_recovers_partial",
    "Pytwoway.Interacted.C100_liml2_minimises",
    "Pytwoway.Interacted.C100_liml2_recovers_partial",
    "Pytwoway.Interacted.C100_hful_returns",
    "Pytwoway.Interacted.C100_liml2_returns"
   ],
   "note": "hful is proved for C = 0, equal weights and pairs of equal size, liml_2 for equal weights, profiling under extra moment conditions; outside these the claim is false (C100_hful_default_wrong, C100_hful_pairs_wrong, C100_hful_weighted_wrong, C100_liml2_weighted_wrong, C100_profiling_wrong)."
  },
  {
   "property": "C101",
   "status": "partial",
   "theorems": [
    "Pytwoway.FEResults.C101_eps_clash",
    "Pytwoway.FEResults.C101_missing",
    "Pytwoway.FEResults.C101_bad_requests",
    "Pytwoway.FEResults.C101_saved",
    "Pytwoway.FEResults.C101_saved_numbers",
    "Pytwoway.FEResults.C101_counts_partial",
    "Pytwoway.FEResults.C101_counts_clash",
    "Pytwoway.FEResults.C101_levfile",
    "Pytwoway.FEResults.C101_summary_partial",
    "Pytwoway.FEResults.C101_succeeds_partial",
    "Pytwoway.FEResults.C101_demo_partial",
    "Pytwoway.FEResults.C101_names_partial",
    "Pytwoway.FEResults.C101_names_clash",
    "Pytwoway.FEResults.C101_values_partial"
   ],
   "note": "Values, names, counts and the summary are proved for requests whose column names have no space or comma and for controls not called firms, workers, movers or stayers; the theorems' docstrings say what happens otherwise."
  },
  {
   "property": "C102",
   "status": "partial",
   "theorems": [
    "Pytwoway.SorkinAttrition.C102_correlation",
    "Pytwoway.SorkinAttrition.C102_units",
    "Pytwoway.SorkinAttrition.C102_demo",
    "Pytwoway.SorkinAttrition.C102_stored_partial",
    "Pytwoway.SorkinAttrition.C102_cores",
    "Pytwoway.SorkinAttrition.C102_failed",
    "Pytwoway.SorkinAttrition.C102_two_firms",
    "Pytwoway.SorkinAttrition.C102_plot",
    "Pytwoway.SorkinAttrition.C102_run",
    "Pytwoway.SorkinAttrition.C102_dropping_lost",
    "Pytwoway.SorkinAttrition.C102_dropping_lost_demo"
   ],
   "note": "C102_stored_partial says what is stored. That the effects belong to the firms they are paired with is false (C102_two_firms, C102_run): the reference firm's zero is put at the wrong end."
  },
  {
   "property": "C103",
   "status": "partial",
   "theorems": [
    "Pytwoway.Interior.C103_bs_entries",
    "Pytwoway.Interior.C103_bs_adds",
    "Pytwoway.Interior.C103_independent",
    "Pytwoway.AttritionParams.C103_parameters_partial",
    "Pytwoway.AttritionParams.C103_cluster_stale",
    "Pytwoway.AttritionParams.C103_sorkin"
   ],
   "note": "With increasing fractions the clustering uses cleaning parameters that still ask for the connected set (C103_cluster_stale)."
  },
  {
   "property": "C104",
   "status": "proved",
   "theorems": [
    "Pytwoway.Interior.C104_true",
    "Pytwoway.Interior.C104_entries",
    "Pytwoway.Interior.C104_bs_adds",
    "Pytwoway.Interior.C104_missing",
    "Pytwoway.Interior.C104_true_other_sample",
    "Pytwoway.Interior.C104_run"
   ],
   "note": ""
  },
  {
   "property": "C105",
   "status": "partial",
   "theorems": [
    "Pytwoway.Attrition.C105_plots_partial",
    "Pytwoway.Attrition.C105_averages",
    "Pytwoway.Attrition.C105_boxplots_partial",
    "Pytwoway.Attrition.C105_boxplots_fail",
    "Pytwoway.Attrition.C105_not_run",
    "Pytwoway.Attrition.C105_run"
   ],
   "note": "Plots with decreasing fractions or without the line of the full sample raise (C48_decreasing_raises, C79_no_line_raises), box plots with fewer than two estimators besides FE-HE raise (C105_boxplots_fail)."
  },
  {
   "property": "C106",
   "status": "partial",
   "theorems": [
    "Pytwoway.CREPrep.C106_counts",
    "Pytwoway.CREPrep.C106_collapsed",
    "Pytwoway.CREPrep.C106_sample",
    "Pytwoway.CREPrep.C106_mover_table",
    "Pytwoway.CREPrep.C106_stayer_table",
    "Pytwoway.CREPrep.C106_stayer_table_partial",
    "Pytwoway.CREPrep.C106_stayer_table_shifted",
    "Pytwoway.CREPrep.C106_results",
    "Pytwoway.CREPrep.C106_results_sample"
   ],
   "note": "The table of stayers' averages is right only if every cluster has stayers (C106_stayer_table_shifted shows the rest)."
  },
  {
   "property": "C107",
   "status": "partial",
   "theorems": [
    "Pytwoway.BLMStart.C107_raises",
    "Pytwoway.BLMStart.C107_starting_values",
    "Pytwoway.BLMStart.C107_bounds",
    "Pytwoway.BLMStart.C107_proportions_partial",
    "Pytwoway.BLMStart.C107_order",
    "Pytwoway.BLMStart.C107_base_same",
    "Pytwoway.BLMStart.C107_columns",
    "Pytwoway.BLMStart.C107_sample",
    "Pytwoway.BLMStart.C107_prior_length"
   ],
   "note": "Priors of the wrong length are accepted and give proportions of the wrong shape (C107_prior_length)."
  },
  {
   "property": "C108",
   "status": "partial",
   "theorems": [
    "Pytwoway.SimCols.C108_raises",
    "Pytwoway.SimCols.C108_movers_partial",
    "Pytwoway.SimCols.C108_stayers_partial",
    "Pytwoway.SimCols.C108_ids_partial",
    "Pytwoway.SimCols.C108_control_j",
    "Pytwoway.SimCols.C108_control_y",
    "Pytwoway.SimCols.C108_order_partial",
    "Pytwoway.SimCols.C108_cat_order",
    "Pytwoway.SimCols.C108_dynamic_partial",
    "Pytwoway.SimCols.C108_counts_too_many",
    "Pytwoway.SimCols.C108_counts_too_few"
   ],
   "note": "The order in which categorical controls are entered matters (C108_cat_order); the order of continuous ones does not. Draws are oracles, so nothing is said about the distribution of the controls."
  },
  {
   "property": "C109",
   "status": "partial",
   "theorems": [
    "Pytwoway.FE.Tol.C109_workers",
    "Pytwoway.FE.Tol.C109_firms",
    "Pytwoway.FE.Tol.C109_fit",
    "Pytwoway.FE.Tol.C109_error",
    "Pytwoway.FE.Tol.C109_stiff_exists",
    "Pytwoway.FE.Tol.C109_limit",
    "Pytwoway.FE.Tol.C109_solver_exists",
    "Pytwoway.FE.Tol.C109_best_exists",
    "Pytwoway.FE.Tol.C109_leverage_limit_partial",
    "Pytwoway.FE.Tol.C109_sharp",
    "Pytwoway.FE.Tol.C109_large_tolerance",
    "Pytwoway.FE.Tol.C109_settable",
    "Pytwoway.FE.Tol.C109_calls",
    "Pytwoway.FE.Tol.C109_amg_leverage",
    "Pytwoway.FE.Tol.C109_amg_leverage_off",
    "Pytwoway.FE.Tol.C109_failure_unnoticed",
    "Pytwoway.FE.Tol.C109_prepare",
    "Pytwoway.FE.Tol.C109_options_written"
   ],
   "note": "Partial: bounds and limits are proved; false: amg leverages ignore the tolerance, failure is not noticed, only integer tolerances can be set (the type check is that of the package paramsdict, read from fe.py:142)."
  },
  {
   "property": "C110",
   "status": "proved",
   "theorems": [
    "Pytwoway.FEControl.Tol.C110_moments",
    "Pytwoway.FEControl.Tol.C110_error",
    "Pytwoway.FEControl.Tol.C110_each",
    "Pytwoway.FEControl.Tol.C110_stiff_exists",
    "Pytwoway.FEControl.Tol.C110_best_exists",
    "Pytwoway.FEControl.Tol.C110_limit",
    "Pytwoway.FEControl.Tol.C110_sharp",
    "Pytwoway.FEControl.Tol.C110_failure_unnoticed",
    "Pytwoway.FEControl.Tol.C110_calls"
   ],
   "note": ""
  },
  {
   "property": "C111",
   "status": "proved",
   "theorems": [
    "Pytwoway.FE.C111_fe_cores",
    "Pytwoway.FE.C111_fe_refused",
    "Pytwoway.FE.C111_fe_leverage_one",
    "Pytwoway.FE.C111_fe_false_refusal",
    "Pytwoway.FE.C111_fe_reported",
    "Pytwoway.FE.C111_fe_spread",
    "Pytwoway.FE.C111_fe_accuracy",
    "Pytwoway.FE.C111_fe_consistent",
    "Pytwoway.FE.C111_fe_bad_luck",
    "Pytwoway.FEControl.C111_cores",
    "Pytwoway.FEControl.C111_refused",
    "Pytwoway.FEControl.C111_leverage_one",
    "Pytwoway.FEControl.C111_false_refusal",
    "Pytwoway.FEControl.C111_reported",
    "Pytwoway.FEControl.C111_spread",
    "Pytwoway.FEControl.C111_accuracy",
    "Pytwoway.FEControl.C111_consistent",
    "Pytwoway.FEControl.C111_bad_luck"
   ],
   "note": ""
  },
  {
   "property": "C112",
   "status": "partial",
   "theorems": [
    "Pytwoway.BLM.Torch.C112_movers_controls_partial",
    "Pytwoway.BLM.Torch.C112_one_type_controls_pk",
    "Pytwoway.BLM.Torch.C112_one_type_controls_fails",
    "Pytwoway.BLM.Torch.C112_movers_controls_false",
    "Pytwoway.BLM.Torch.C112_helpers",
    "Pytwoway.BLM.Torch.C112_helpers_single",
    "Pytwoway.BLM.Torch.C112_logsumexp",
    "Pytwoway.BLM.Torch.C112_logsumexp_all",
    "Pytwoway.BLM.Torch.C112_density",
    "Pytwoway.BLM.Torch.C112_density_sd",
    "Pytwoway.BLM.Torch.C112_density_single",
    "Pytwoway.BLM.Torch.C112_density_args",
    "Pytwoway.BLM.Torch.C112_movers_partial",
    "Pytwoway.BLM.Torch.C112_one_type_pk",
    "Pytwoway.BLM.Torch.C112_one_type_fails",
    "Pytwoway.BLM.Torch.C112_movers_false",
    "Pytwoway.BLM.Torch.C112_stayers",
    "Pytwoway.BLM.Torch.C112_return_qi"
   ],
   "note": "False with one worker type: torch's squeezed arrays make the M-step raise, with and without controls (C112_one_type_fails, C112_movers_false, C112_one_type_controls_fails, C112_movers_controls_false). For two or more worker types proved for movers and stayers with any controls."
  },
  {
   "property": "C113",
   "status": "partial",
   "theorems": [
    "Pytwoway.FE.C113_effects",
    "Pytwoway.FE.C113_residuals",
    "Pytwoway.FE.C113_plug_in",
    "Pytwoway.FE.C113_leverages",
    "Pytwoway.FE.C113_sigma2",
    "Pytwoway.FE.C113_homoskedastic",
    "Pytwoway.FE.C113_loo",
    "Pytwoway.FE.C113_sii_partial",
    "Pytwoway.FE.C113_heteroskedastic_partial",
    "Pytwoway.FE.C113_weight_units",
    "Pytwoway.FE.C113_weight_units_matter"
   ],
   "note": "For rows that are not sorted by worker, rests on bipartitepandas.get_worker_m(is_sorted=True) (fe.py:427) giving the right mover flags; that package is not modelled."
  },
  {
   "property": "C114",
   "status": "partial",
   "theorems": [
    "Pytwoway.BLM.C114_movers",
    "Pytwoway.BLM.C114_lowest_firm_type",
    "Pytwoway.BLM.C114_lowest_firm_type_ties",
    "Pytwoway.BLM.C114_movers_lowest_partial",
    "Pytwoway.BLM.C114_stayers",
    "Pytwoway.BLM.C114_stayers_numbering",
    "Pytwoway.BLM.C114_movers_controls",
    "Pytwoway.BLM.C114_movers_controls_lowest_partial",
    "Pytwoway.BLM.C114_stayers_controls",
    "Pytwoway.BLM.C114_control_units",
    "Pytwoway.BLM.C114_control_order",
    "Pytwoway.BLM.C114_control_names"
   ],
   "note": "Proved with and without control variables, for movers and stayers (C114_movers, C114_movers_controls, C114_stayers, C114_stayers_controls), with categories of controls renamed as well. Exceptions proved: a highest-numbered firm type without stayers makes fit_stayers raise; the unit of a continuous control matters; the names of control columns matter. Missing: when the lowest firm type is computed by _min_firm_type (not given), renumbering firm types is covered only without ties."
  },
  {
   "property": "C115",
   "status": "partial",
   "theorems": [
    "Pytwoway.BS.C115_var_y_weight_units",
    "Pytwoway.BS.C115_units_partial",
    "Pytwoway.BS.C115_sides",
    "Pytwoway.BS.C115_weighted_shift_wrong",
    "Pytwoway.BS.C115_unsorted_wrong"
   ],
   "note": "Proved for panels sorted by worker. The full statement is false of the code for rows that are not sorted by worker (C115_unsorted_wrong) and, with weights, for an added constant (C115_weighted_shift_wrong)."
  },
  {
   "property": "C116",
   "status": "proved",
   "theorems": [
    "Pytwoway.FE.C116_effects",
    "Pytwoway.FE.C116_plug_in",
    "Pytwoway.FE.C116_leverage",
    "Pytwoway.FE.C116_exact_trace",
    "Pytwoway.FE.C116_draw_trace"
   ],
   "note": ""
  },
  {
   "property": "C117",
   "status": "partial",
   "theorems": [
    "Pytwoway.CRE.C117_cluster_effects",
    "Pytwoway.CRE.C117_within",
    "Pytwoway.CRE.C117_results",
    "Pytwoway.CRE.C117_posterior_partial",
    "Pytwoway.CRE.C117_posterior_wrong"
   ],
   "note": "Posterior variance: firms without movers get the effect of the last-numbered cluster, so renaming clusters changes it (C117_posterior_wrong). Everything else is proved."
  },
  {
   "property": "C118",
   "status": "proved",
   "theorems": [
    "Pytwoway.FEControl.C118_effects",
    "Pytwoway.FEControl.C118_residuals",
    "Pytwoway.FEControl.C118_plug_in",
    "Pytwoway.FEControl.C118_trace_sigma2",
    "Pytwoway.FEControl.C118_draws",
    "Pytwoway.FEControl.C118_corrected",
    "Pytwoway.FEControl.C118_leverages"
   ],
   "note": ""
  },
  {
   "property": "C119",
   "status": "partial",
   "theorems": [
    "Pytwoway.FEControl.C119_identified",
    "Pytwoway.FEControl.C119_effects",
    "Pytwoway.FEControl.C119_coefficients",
    "Pytwoway.FEControl.C119_residuals",
    "Pytwoway.FEControl.C119_plug_in",
    "Pytwoway.FEControl.C119_leverages",
    "Pytwoway.FEControl.C119_sigma2",
    "Pytwoway.FEControl.C119_approximate_leverages",
    "Pytwoway.FEControl.C119_homoskedastic",
    "Pytwoway.FEControl.C119_sii_partial",
    "Pytwoway.FEControl.C119_heteroskedastic",
    "Pytwoway.FEControl.C119_standard_partial",
    "Pytwoway.FEControl.C119_clustered_partial",
    "Pytwoway.FEControl.C119_first_matters",
    "Pytwoway.FEControl.C119_upper_bound_units"
   ],
   "note": "Proved for effects, coefficients, residuals, plug-in components, leverages, error variances and expected corrected components. Partial: clustered standard errors keep their value only if the first category stays first, all standard errors depend on the units of weights, and so does upper_bound (C119_first_matters, C119_standard_partial, C119_upper_bound_units)."
  },
  {
   "property": "C120",
   "status": "partial",
   "theorems": [
    "Pytwoway.BLM.C120_movers_partial",
    "Pytwoway.BLM.C120_movers_unchanged",
    "Pytwoway.BLM.C120_posteriors",
    "Pytwoway.BLM.C120_movers_complete",
    "Pytwoway.BLM.C120_pk0_reordered",
    "Pytwoway.BLM.C120_em_raises",
    "Pytwoway.BLM.C120_stayers",
    "Pytwoway.BLM.C120_stayers_complete",
    "Pytwoway.Dynamic.C120_dynamic_movers_partial",
    "Pytwoway.Dynamic.C120_dynamic_movers_lost",
    "Pytwoway.Dynamic.C120_dynamic_movers_complete",
    "Pytwoway.Dynamic.C120_dynamic_stayers",
    "Pytwoway.Dynamic.C120_dynamic_stayers_complete",
    "Pytwoway.Dynamic.C120_dynamic_stayers_controls_complete",
    "Pytwoway.Dynamic.C120_dynamic_stayers_partial",
    "Pytwoway.Dynamic.C120_dynamic_half_done",
    "Pytwoway.Dynamic.C120_dynamic_half_done_instance"
   ],
   "note": "Proved without exception for fit_stayers of the static model (C120_stayers) and of the dynamic one without controls (C120_dynamic_stayers), and for fit_movers when the worker types are in order, pk0 is the same for all types, or the lowest firm type is forced (C120_movers_unchanged). The full claim is false: pk0 is rearranged (C120_pk0_reordered, hence C120_movers_partial and C120_dynamic_movers_partial), posterior columns are in sorted order (C120_posteriors), and stayers of the dynamic model with categorical controls can be left half done (C120_dynamic_half_done, hence C120_dynamic_stayers_partial)."
  },
  {
   "property": "C121",
   "status": "proved",
   "theorems": [
    "Pytwoway.Dynamic.C121_movers",
    "Pytwoway.Dynamic.C121_stayers",
    "Pytwoway.Dynamic.C121_movers_solvers",
    "Pytwoway.Dynamic.C121_stayers_solvers",
    "Pytwoway.Dynamic.C121_min_type",
    "Pytwoway.Dynamic.C121_units",
    "Pytwoway.Dynamic.C121_constant",
    "Pytwoway.Dynamic.C121_movers_controls",
    "Pytwoway.Dynamic.C121_package_constraints",
    "Pytwoway.Dynamic.C121_worker_order",
    "Pytwoway.Dynamic.C121_control_constraints",
    "Pytwoway.Dynamic.C121_stayers_controls_numbering",
    "Pytwoway.Dynamic.C121_stayers_controls_fails"
   ],
   "note": ""
  },
  {
   "property": "C122",
   "status": "proved",
   "theorems": [
    "Pytwoway.Sorkin.C122_converges",
    "Pytwoway.Sorkin.C122_stops",
    "Pytwoway.Sorkin.C122_mixing_of_stay",
    "Pytwoway.Sorkin.C122_stays",
    "Pytwoway.Sorkin.C122_order",
    "Pytwoway.Sorkin.C122_copies",
    "Pytwoway.Sorkin.C122_names",
    "Pytwoway.Sorkin.C122_case"
   ],
   "note": ""
  },
  {
   "property": "C123",
   "status": "proved",
   "theorems": [
    "Pytwoway.Interacted.C123_iv",
    "Pytwoway.Interacted.C123_liml1",
    "Pytwoway.Interacted.C123_liml1_norm",
    "Pytwoway.Interacted.C123_linear",
    "Pytwoway.Interacted.C123_iv_norm_matters"
   ],
   "note": "liml_1 needs that only one direction belongs to the smallest eigenvalue (otherwise numpy's choice of eigenvector decides). That norm_fid matters for iv is C123_iv_norm_matters."
  },
  {
   "property": "C124",
   "status": "proved",
   "theorems": [
    "Pytwoway.BLM.C124_movers",
    "Pytwoway.BLM.C124_stayers",
    "Pytwoway.BLM.C124_twins"
   ],
   "note": "For the NumPy branch; with PyTorch installed one worker type makes the M-step raise (C112_one_type_fails)."
  },
  {
   "property": "C125",
   "status": "partial",
   "theorems": [
    "Pytwoway.FE.C125_leverage_one",
    "Pytwoway.FE.C125_exact_step",
    "Pytwoway.FE.C125_approx_step",
    "Pytwoway.FE.C125_prediction",
    "Pytwoway.FEControl.C125_controls_partial",
    "Pytwoway.FEControl.C125_controls_blamed"
   ],
   "note": "exact leverages: an observation is flagged exactly when its firm and worker are joined by no other path, proved in both directions; approximate leverages: one direction, the other fails by chance of the draws (C111); with controls the message blames connectedness although a control can be the cause: C125_controls_blamed"
  },
  {
   "property": "C126",
   "status": "proved",
   "theorems": [
    "Pytwoway.FE.C126_effects",
    "Pytwoway.FE.C126_stayer",
    "Pytwoway.FE.C126_residuals",
    "Pytwoway.FE.C126_leverages"
   ],
   "note": "proved in full for any set of workers seen at one firm only"
  },
  {
   "property": "C127",
   "status": "proved",
   "theorems": [
    "Pytwoway.FE.C127_linear",
    "Pytwoway.FE.C127_added",
    "Pytwoway.FEControl.C127_controls_added",
    "Pytwoway.FEControl.C127_net"
   ],
   "note": "proved in full, without and with control variables"
  },
  {
   "property": "C128",
   "status": "proved",
   "theorems": [
    "Pytwoway.FE.C128_any_solution",
    "Pytwoway.FE.C128_part",
    "Pytwoway.FE.C128_between_parts"
   ],
   "note": "proved for every solution of the normal equations a solver can return; C128_between_parts shows what is not determined"
  },
  {
   "property": "C129",
   "status": "proved",
   "theorems": [
    "Pytwoway.FE.C129_direction",
    "Pytwoway.FE.C129_strict",
    "Pytwoway.FE.C129_alpha_and_cov",
    "Pytwoway.FE.C129_direction_probes",
    "Pytwoway.FE.C129_adds_up_ho",
    "Pytwoway.FE.C129_adds_up_he",
    "Pytwoway.FE.C129_adds_up_mean",
    "Pytwoway.FE.C129_adds_up_fails",
    "Pytwoway.FEControl.C129_controls"
   ],
   "note": "signs and accounting proved for every data set and draw; C129_adds_up_fails shows that one draw does not give an exact sum; C129_alpha_and_cov: with exact traces the corrections of var(alpha) and cov(psi, alpha) cancel, a consequence of fe.py:1280"
  },
  {
   "property": "C130",
   "status": "proved",
   "theorems": [
    "Pytwoway.BLM.C130_movers",
    "Pytwoway.BLM.C130_stayers",
    "Pytwoway.BLM.C130_weight_is_not_count",
    "Pytwoway.BLM.C130_movers_controls",
    "Pytwoway.BLM.C130_right_solvers"
   ],
   "note": "Movers without controls for right solvers of convex constraints; with controls for solvers whose answer does not change when the objective is multiplied by a positive number (C130_right_solvers says why); stayers with and without controls. C130_weight_is_not_count: weights multiply log densities of wages but not log proportions."
  },
  {
   "property": "C131",
   "status": "proved",
   "theorems": [
    "Pytwoway.Dynamic.C131_movers",
    "Pytwoway.Dynamic.C131_stayers",
    "Pytwoway.Dynamic.C131_same_ridge"
   ],
   "note": "Without controls. The ridge is an absolute number, so with unchanged settings repeating the data changes the estimates (C131_same_ridge)."
  },
  {
   "property": "C132",
   "status": "proved",
   "theorems": [
    "Pytwoway.Dynamic.C132_movers",
    "Pytwoway.Dynamic.C132_stayers",
    "Pytwoway.Dynamic.C132_solvers",
    "Pytwoway.Dynamic.C132_monotone_names"
   ],
   "note": "Without controls."
  },
  {
   "property": "C133",
   "status": "proved",
   "theorems": [
    "Pytwoway.BLM.C133_movers_bound",
    "Pytwoway.BLM.C133_movers_ends",
    "Pytwoway.BLM.C133_stayers_bound",
    "Pytwoway.BLM.C133_stayers_ends",
    "Pytwoway.BLM.C133_no_threshold",
    "Pytwoway.BLM.C133_case",
    "Pytwoway.BLM.C133_case_movers"
   ],
   "note": ""
  },
  {
   "property": "C134",
   "status": "proved",
   "theorems": [
    "Pytwoway.BLM.C134_movers",
    "Pytwoway.BLM.C134_movers_gradient",
    "Pytwoway.BLM.C134_movers_converse",
    "Pytwoway.BLM.C134_case",
    "Pytwoway.BLM.C134_stayers_gap",
    "Pytwoway.BLM.C134_stayers_maximum",
    "Pytwoway.BLM.C134_case_stayers"
   ],
   "note": ""
  },
  {
   "property": "C135",
   "status": "proved",
   "theorems": [
    "Pytwoway.BLM.C135_stayers_rate",
    "Pytwoway.BLM.C135_stayers_even",
    "Pytwoway.BLM.C135_case"
   ],
   "note": ""
  },
  {
   "property": "C136",
   "status": "proved",
   "theorems": [
    "Pytwoway.BLM.C136_stayers_monotone",
    "Pytwoway.BLM.C136_stayers_rate",
    "Pytwoway.BLM.C136_movers_monotone",
    "Pytwoway.BLM.C136_case"
   ],
   "note": ""
  },
  {
   "property": "C137",
   "status": "proved",
   "theorems": [
    "Pytwoway.BLM.C137_movers",
    "Pytwoway.BLM.C137_movers_free",
    "Pytwoway.BLM.C137_constraints",
    "Pytwoway.BLM.C137_stayers",
    "Pytwoway.BLM.C137_case"
   ],
   "note": ""
  },
  {
   "property": "C138",
   "status": "proved",
   "theorems": [
    "Pytwoway.BLM.C138_stayers_converge",
    "Pytwoway.BLM.C138_stayers_one_limit",
    "Pytwoway.BLM.C138_case"
   ],
   "note": "Movers' fits are not covered: their likelihood has several local maxima."
  },
  {
   "property": "C139",
   "status": "proved",
   "theorems": [
    "Pytwoway.BLM.C139_settled_critical",
    "Pytwoway.BLM.C139_limits_critical",
    "Pytwoway.BLM.C139_posteriors",
    "Pytwoway.BLM.C139_estimates",
    "Pytwoway.BLM.C139_limits_unmoved",
    "Pytwoway.BLM.C139_limits_exist",
    "Pytwoway.BLM.C139_case"
   ],
   "note": ""
  },
  {
   "property": "C140",
   "status": "proved",
   "theorems": [
    "Pytwoway.FE.C140_ho",
    "Pytwoway.FE.C140_he",
    "Pytwoway.FE.C140_sigma2",
    "Pytwoway.FE.C140_hutchPP",
    "Pytwoway.FE.C140_hutchPP_exact",
    "Pytwoway.FE.C140_corrected",
    "Pytwoway.FE.C140_case",
    "Pytwoway.FEControl.C140_controls_ho",
    "Pytwoway.FEControl.C140_controls_he",
    "Pytwoway.FEControl.C140_controls_sigma2"
   ],
   "note": ""
  },
  {
   "property": "C141",
   "status": "proved",
   "theorems": [
    "Pytwoway.FE.C141_unbiased",
    "Pytwoway.FE.C141_best",
    "Pytwoway.FE.C141_more_data",
    "Pytwoway.FE.C141_unequal_variances",
    "Pytwoway.FEControl.C141_controls",
    "Pytwoway.FEControl.C141_coefficient"
   ],
   "note": ""
  },
  {
   "property": "C142",
   "status": "proved",
   "theorems": [
    "Pytwoway.FEControl.C142_average",
    "Pytwoway.FEControl.C142_too_small",
    "Pytwoway.FEControl.C142_clustered"
   ],
   "note": ""
  },
  {
   "property": "C143",
   "status": "proved",
   "theorems": [
    "Pytwoway.Dynamic.C143_stayers",
    "Pytwoway.Dynamic.C143_movers",
    "Pytwoway.Dynamic.C143_case"
   ],
   "note": ""
  },
  {
   "property": "C144",
   "status": "proved",
   "theorems": [
    "Pytwoway.FE.C144_pair",
    "Pytwoway.FE.C144_path",
    "Pytwoway.FE.C144_probability",
    "Pytwoway.FE.C144_consistent"
   ],
   "note": ""
  },
  {
   "property": "C145",
   "status": "proved",
   "theorems": [
    "Pytwoway.FE.C145_workers",
    "Pytwoway.FE.C145_worker",
    "Pytwoway.FE.C145_worker_gap",
    "Pytwoway.FE.C145_firm_gap",
    "Pytwoway.FEControl.C145_controls"
   ],
   "note": ""
  },
  {
   "property": "C146",
   "status": "proved",
   "theorems": [
    "Pytwoway.FE.C146_firms",
    "Pytwoway.FE.C146_workers",
    "Pytwoway.FE.C146_total",
    "Pytwoway.FE.C146_cov",
    "Pytwoway.FE.C146_unequal",
    "Pytwoway.FE.C146_workers_tight",
    "Pytwoway.FE.C146_firms_tight"
   ],
   "note": ""
  },
  {
   "property": "C147",
   "status": "proved",
   "theorems": [
    "Pytwoway.FE.C147_bias",
    "Pytwoway.FE.C147_vanishes",
    "Pytwoway.FE.C147_case"
   ],
   "note": ""
  },
  {
   "property": "C148",
   "status": "proved",
   "theorems": [
    "Pytwoway.FE.C148_balance",
    "Pytwoway.FE.C148_mobility"
   ],
   "note": ""
  }
 ]
}