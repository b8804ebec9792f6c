{
 "claims": [
  {
   "property": "C01",
   "status": "proved",
   "theorems": [
    "PyHawkes.C01_causal",
    "PyHawkes.C01_interpolated_first_row",
    "PyHawkes.C01_identity_first_row",
    "PyHawkes.C01_strict_needs_zero_row"
   ],
   "note": ""
  },
  {
   "property": "C02",
   "status": "proved",
   "theorems": [
    "PyHawkes.C02_convolve_eq_filtered",
    "PyHawkes.C02_convolve_error_iff",
    "PyHawkes.C02_linear",
    "PyHawkes.C02_separate",
    "PyHawkes.C02_nonneg",
    "PyHawkes.C02_prefix"
   ],
   "note": ""
  },
  {
   "property": "C03",
   "status": "proved",
   "theorems": [
    "PyHawkes.C03_interpolate_unit_area",
    "PyHawkes.C03_interpolate_ok_iff",
    "PyHawkes.C03_identity_unit_area"
   ],
   "note": ""
  },
  {
   "property": "C04",
   "status": "proved",
   "theorems": [
    "PyHawkes.C04_default_cosine",
    "PyHawkes.C04_general_cosine",
    "PyHawkes.C04_no_cosine_raises"
   ],
   "note": ""
  },
  {
   "property": "C05",
   "status": "proved",
   "theorems": [
    "PyHawkes.C05_compute_rate_eq",
    "PyHawkes.C05_compute_rate_ok_iff",
    "PyHawkes.C05_proc_is_column",
    "PyHawkes.C05_proc_out_of_range",
    "PyHawkes.C05_rate_ge_background"
   ],
   "note": ""
  },
  {
   "property": "C06",
   "status": "proved",
   "theorems": [
    "PyHawkes.C06_generate_rate",
    "PyHawkes.C06_draws_use_returned_rate",
    "PyHawkes.C06_generate_total",
    "PyHawkes.C06_float_length_raises"
   ],
   "note": ""
  },
  {
   "property": "C07",
   "status": "proved",
   "theorems": [
    "PyHawkes.C07_no_edge_no_influence",
    "PyHawkes.C07_no_self_excitation"
   ],
   "note": ""
  },
  {
   "property": "C08",
   "status": "proved",
   "theorems": [
    "PyHawkes.C08_sparse_eq_dense",
    "PyHawkes.C08_model_sum",
    "PyHawkes.C08_u32_wrap_violated"
   ],
   "note": ""
  },
  {
   "property": "C09",
   "status": "proved",
   "theorems": [
    "PyHawkes.C09_training_le_heldout"
   ],
   "note": ""
  },
  {
   "property": "C10",
   "status": "proved",
   "theorems": [
    "PyHawkes.C10_blocks_concat",
    "PyHawkes.C10_block_size",
    "PyHawkes.C10_add_data_blocks",
    "PyHawkes.C10_log_likelihood",
    "PyHawkes.C10_suff_stats",
    "PyHawkes.C10_bad_minibatch"
   ],
   "note": ""
  },
  {
   "property": "C11",
   "status": "proved",
   "theorems": [
    "PyHawkes.C11_parents_partition_events",
    "PyHawkes.C11_u32_wrap_violated"
   ],
   "note": ""
  },
  {
   "property": "C12",
   "status": "proved",
   "theorems": [
    "PyHawkes.C12_python_eq_gsl",
    "PyHawkes.C12_probability_vector"
   ],
   "note": ""
  },
  {
   "property": "C13",
   "status": "proved",
   "theorems": [
    "PyHawkes.C13_conservation",
    "PyHawkes.C13_exposure",
    "PyHawkes.C13_expected_conservation",
    "PyHawkes.C13_after_resample"
   ],
   "note": ""
  },
  {
   "property": "C14",
   "status": "proved",
   "theorems": [
    "PyHawkes.C14_rows_sum",
    "PyHawkes.C14_update_data_set",
    "PyHawkes.C14_cython_eq_python"
   ],
   "note": ""
  },
  {
   "property": "C15",
   "status": "proved",
   "theorems": [
    "PyHawkes.C15_mf_update_optimal",
    "PyHawkes.C15_mf_update_optimal_any_rows",
    "PyHawkes.C15_allowance_vanishes"
   ],
   "note": ""
  },
  {
   "property": "C16",
   "status": "proved",
   "theorems": [
    "PyHawkes.C16_background_conditional"
   ],
   "note": ""
  },
  {
   "property": "C17",
   "status": "proved",
   "theorems": [
    "PyHawkes.C17_weight_conditional",
    "PyHawkes.C17_absent_edge_prior"
   ],
   "note": ""
  },
  {
   "property": "C18",
   "status": "proved",
   "theorems": [
    "PyHawkes.C18_impulse_law",
    "PyHawkes.C18_impulse_conditional",
    "PyHawkes.C18_no_children_prior"
   ],
   "note": ""
  },
  {
   "property": "C19",
   "status": "proved",
   "theorems": [
    "PyHawkes.C19_sweep_is_gibbs",
    "PyHawkes.C19_edge_probability",
    "PyHawkes.C19_certain_edges"
   ],
   "note": ""
  },
  {
   "property": "C20",
   "status": "proved",
   "theorems": [
    "PyHawkes.C20_parallel_eq_serial"
   ],
   "note": ""
  },
  {
   "property": "C21",
   "status": "proved",
   "theorems": [
    "PyHawkes.C21_mixture_edge",
    "PyHawkes.C21_mixture_weight"
   ],
   "note": ""
  },
  {
   "property": "C22",
   "status": "partial",
   "theorems": [
    "PyHawkes.C22_block_weights_law",
    "PyHawkes.C22_block_probability_partial",
    "PyHawkes.C22_block_probability_violated",
    "PyHawkes.C22_block_scale",
    "PyHawkes.C22_block_weights",
    "PyHawkes.C22_labels_partial",
    "PyHawkes.C22_labels_violated",
    "PyHawkes.C22_sweep_partial",
    "PyHawkes.C22_sweep_fixed_sparsity_partial"
   ],
   "note": "v and m: full. p: proved for all block pairs except a block's own p with self connections disallowed, where the property is FALSE of the code (C22_block_probability_violated). labels: proved when self edges carry no label information; otherwise FALSE, the self edge is counted twice (C22_labels_violated). The whole sweep (C22_sweep_partial): every block it draws is proposed with arguments read from the values just before it, in the code's order. C22_block_weights_law: the Dirichlet posterior as a law."
  },
  {
   "property": "C23",
   "status": "proved",
   "theorems": [
    "PyHawkes.C23_fixed_never_changes",
    "PyHawkes.C23_fixed_sparsity_keeps_p",
    "PyHawkes.C23_erdos_renyi"
   ],
   "note": ""
  },
  {
   "property": "C24",
   "status": "proved",
   "theorems": [
    "PyHawkes.C24_network_stays_valid",
    "PyHawkes.C24_resample_keeps_valid",
    "PyHawkes.C24_constructor_accepts",
    "PyHawkes.C24_new_model_valid",
    "PyHawkes.C24_sampler_state_valid",
    "PyHawkes.C24_resample_keeps_data",
    "PyHawkes.C24_erdos_renyi_constructed_valid",
    "PyHawkes.C24_block_model_constructed_valid"
   ],
   "note": ""
  },
  {
   "property": "C25",
   "status": "proved",
   "theorems": [
    "PyHawkes.C25_add_data"
   ],
   "note": ""
  },
  {
   "property": "C26",
   "status": "proved",
   "theorems": [
    "PyHawkes.C26_parents",
    "PyHawkes.C26_resample_succeeds"
   ],
   "note": ""
  },
  {
   "property": "C27",
   "status": "proved",
   "theorems": [
    "PyHawkes.C27_early_termination",
    "PyHawkes.C27_sorting_needed"
   ],
   "note": ""
  },
  {
   "property": "C28",
   "status": "proved",
   "theorems": [
    "PyHawkes.C28_statistics",
    "PyHawkes.C28_index_error_iff"
   ],
   "note": ""
  },
  {
   "property": "C29",
   "status": "proved",
   "theorems": [
    "PyHawkes.C29_rates_agree"
   ],
   "note": ""
  },
  {
   "property": "C30",
   "status": "proved",
   "theorems": [
    "PyHawkes.C30_generate"
   ],
   "note": ""
  },
  {
   "property": "C31",
   "status": "proved",
   "theorems": [
    "PyHawkes.C31_unit_area",
    "PyHawkes.C31_integrated_rate",
    "PyHawkes.C31_kernel_constant"
   ],
   "note": ""
  },
  {
   "property": "C32",
   "status": "partial",
   "theorems": [
    "PyHawkes.C32_background_partial",
    "PyHawkes.C32_background_violated"
   ],
   "note": "Proved for no data set and one data set; FALSE with several: ContinuousTime background resampling keeps the statistics of the last data set only (C32_background_violated)."
  },
  {
   "property": "C33",
   "status": "partial",
   "theorems": [
    "PyHawkes.C33_draw",
    "PyHawkes.C33_parameters",
    "PyHawkes.C33_conditional_iff",
    "PyHawkes.C33_single_data_set_partial",
    "PyHawkes.C33_no_lags_prior",
    "PyHawkes.C33_violated"
   ],
   "note": "Exact characterisation: the draw is from the Bayes posterior iff all data sets with lags have the same mean scaled lag (C33_conditional_iff); in particular always with one data set. FALSE otherwise (C33_violated)."
  },
  {
   "property": "C34",
   "status": "partial",
   "theorems": [
    "PyHawkes.C34_compute_rate_partial",
    "PyHawkes.C34_compute_rate_violated"
   ],
   "note": "Proved with no event in the window, and with one of effective weight 1. FALSE otherwise: compute_rate overwrites instead of adding and omits the weights (C34_compute_rate_violated)."
  },
  {
   "property": "C35",
   "status": "proved",
   "theorems": [
    "PyHawkes.C35_log_posterior_value",
    "PyHawkes.C35_gradient",
    "PyHawkes.C35_partial_derivative",
    "PyHawkes.C35_log_space"
   ],
   "note": ""
  },
  {
   "property": "C36",
   "status": "proved",
   "theorems": [
    "PyHawkes.C36_concave",
    "PyHawkes.C36_stationary_is_max",
    "PyHawkes.C36_stationary_is_max_no_self"
   ],
   "note": ""
  },
  {
   "property": "C37",
   "status": "proved",
   "theorems": [
    "PyHawkes.C37_weights_positive",
    "PyHawkes.C37_self_weights_fixed",
    "PyHawkes.C37_steps_never_fail",
    "PyHawkes.C37_gradient_step_value",
    "PyHawkes.C37_sgd_step_value"
   ],
   "note": ""
  },
  {
   "property": "C38",
   "status": "partial",
   "theorems": [
    "PyHawkes.C38_nonlinear_rate",
    "PyHawkes.C38_nonlinear_G",
    "PyHawkes.C38_nonlinear_zero_weight_violated",
    "PyHawkes.C38_G_values",
    "PyHawkes.C38_G_total",
    "PyHawkes.C38_G_overwrites_weights",
    "PyHawkes.C38_reading_G_changes_W_violated"
   ],
   "note": "Values and totals of G proved; reading G overwrites zero weight rows with 1/B in place, so reading changes W: FALSE (C38_reading_G_changes_W_violated). Nonlinear G: proved for nonzero weights, nan where weights are zero (C38_nonlinear_zero_weight_violated)."
  },
  {
   "property": "C39",
   "status": "partial",
   "theorems": [
    "PyHawkes.C39_nonlinear_heldout",
    "PyHawkes.C39_nonlinear_heldout_interrupted_violated",
    "PyHawkes.C39_nonlinear_copy",
    "PyHawkes.C39_nonlinear_copy_interrupted_violated",
    "PyHawkes.C39_std_heldout",
    "PyHawkes.C39_std_heldout_interrupted_violated",
    "PyHawkes.C39_copy_sample",
    "PyHawkes.C39_copy_sample_interrupted_violated",
    "PyHawkes.C39_ct_heldout"
   ],
   "note": "Standard, network and continuous-time heldout/copy_sample proved when no exception intervenes; an exception in between leaks or loses data (two violated theorems). Nonlinear models: same, with their own violated theorems for interrupted calls."
  },
  {
   "property": "C40",
   "status": "proved",
   "theorems": [
    "PyHawkes.C40_sum_over_processes",
    "PyHawkes.C40_all_processes",
    "PyHawkes.C40_sum_over_data_sets",
    "PyHawkes.C40_all_data_sets",
    "PyHawkes.C40_posterior_sum",
    "PyHawkes.C40_minibatches"
   ],
   "note": ""
  },
  {
   "property": "C41",
   "status": "partial",
   "theorems": [
    "PyHawkes.C41_node_background",
    "PyHawkes.C41_homogeneous_fit",
    "PyHawkes.C41_background_rate_optimal",
    "PyHawkes.C41_event_less_process_violated"
   ],
   "note": "Background-rate fit maximises the Poisson likelihood; FALSE for a process without events (nan) (C41_event_less_process_violated). Nonlinear homogeneous fit and node background also proved."
  },
  {
   "property": "C42",
   "status": "partial",
   "theorems": [
    "PyHawkes.C42_link_invlink",
    "PyHawkes.C42_relu_inverse_violated",
    "PyHawkes.C42_link_pos",
    "PyHawkes.C42_log_likelihood_defined"
   ],
   "note": "exp and linear links: exact inverses; log likelihood defined for positive rates. FALSE for the rectified link: invlink(link(x)) is off by exactly 1e-16 (C42_relu_inverse_violated)."
  },
  {
   "property": "C43",
   "status": "partial",
   "theorems": [
    "PyHawkes.C43_objective_value",
    "PyHawkes.C43_default_node_violated",
    "PyHawkes.C43_convex",
    "PyHawkes.C43_relu_not_convex"
   ],
   "note": "Objective = negative penalised log likelihood and convexity proved for exp/linear links; FALSE for the node built with default arguments (lmbda=inf: C43_default_node_violated); the rectified link is not convex (C43_relu_not_convex)."
  },
  {
   "property": "C44",
   "status": "partial",
   "theorems": [
    "PyHawkes.C44_nodes_in_step",
    "PyHawkes.C44_interrupted_add_violated",
    "PyHawkes.C44_settings_kept"
   ],
   "note": "Proved for every history without an exception inside add_data; an exception between two nodes leaves them with different numbers of data sets (C44_interrupted_add_violated)."
  },
  {
   "property": "C45",
   "status": "partial",
   "theorems": [
    "PyHawkes.C45_two_processes_violated",
    "PyHawkes.C45_single_process_partial"
   ],
   "note": "Proved for one process; FALSE for two or more: trailing comma makes B a tuple (C45_two_processes_violated)."
  },
  {
   "property": "C46",
   "status": "partial",
   "theorems": [
    "PyHawkes.C46_round_trip_violated",
    "PyHawkes.C46_set_then_get_partial"
   ],
   "note": "Round trip is FALSE for every model: get_parameters returns 6 values, set_parameters unpacks 8 (C46_round_trip_violated). Proved: eight valid values are stored and read back."
  },
  {
   "property": "C47",
   "status": "partial",
   "theorems": [
    "PyHawkes.C47_true_iff",
    "PyHawkes.C47_standard_violated",
    "PyHawkes.C47_large_violated"
   ],
   "note": "Proved for 0<K<100. FALSE for the standard model (AxisError) and from K>=100 (largest-modulus eigenvalue may be negative)."
  },
  {
   "property": "C48",
   "status": "proved",
   "theorems": [
    "PyHawkes.C48_erdos_renyi_scale_rules",
    "PyHawkes.C48_default_scale_half",
    "PyHawkes.C48_P"
   ],
   "note": ""
  },
  {
   "property": "C49",
   "status": "partial",
   "theorems": [
    "PyHawkes.C49_lookup",
    "PyHawkes.C49_all_given_kept_partial",
    "PyHawkes.C49_given_p_lost_violated",
    "PyHawkes.C49_fixed_sparsity_keeps_p",
    "PyHawkes.C49_labels_rejected_violated",
    "PyHawkes.C49_accepts",
    "PyHawkes.C49_new_valid",
    "PyHawkes.C49_given_m_lost_violated"
   ],
   "note": "Lookup proved; given values kept when c,p,v all given and by the fixed-sparsity model; which constructor arguments are accepted (C49_accepts) and validity of every new network (C49_new_valid). FALSE in general: GibbsSBM.__init__ overwrites a given p (C49_given_p_lost_violated) and given class frequencies (C49_given_m_lost_violated), and giving labels of >=2 nodes raises on numpy>=1.13 (C49_labels_rejected_violated)."
  },
  {
   "property": "C50",
   "status": "proved",
   "theorems": [
    "PyHawkes.C50_valid_forever",
    "PyHawkes.C50_step_zero_nan_violated"
   ],
   "note": "For step sizes in (0,1], and step size 0 when no prior edge probability is 0 or 1 (otherwise nan: C50_step_zero_nan_violated, a finding)."
  },
  {
   "property": "C51",
   "status": "proved",
   "theorems": [
    "PyHawkes.C51_dirichlet_expectations",
    "PyHawkes.C51_are_expectations",
    "PyHawkes.C51_log_fixed_probabilities",
    "PyHawkes.C51_expectations",
    "PyHawkes.C51_blocks",
    "PyHawkes.C51_reachable_legal"
   ],
   "note": ""
  },
  {
   "property": "C52",
   "status": "proved",
   "theorems": [
    "PyHawkes.C52_offsets",
    "PyHawkes.C52_epoch_partition",
    "PyHawkes.C52_reads_only_window"
   ],
   "note": ""
  },
  {
   "property": "C53",
   "status": "partial",
   "theorems": [
    "PyHawkes.C53_network_full_step",
    "PyHawkes.C53_fixed_sparsity_violated",
    "PyHawkes.C53_full_batch_is_coordinate_step",
    "PyHawkes.C53_step_zero",
    "PyHawkes.C53_step_zero_violated"
   ],
   "note": "Proved for block-model and Erdos-Renyi networks; FALSE for the fixed-sparsity network (C53_fixed_sparsity_violated) and for step size 0 with disallowed self connections (C53_step_zero_violated)."
  },
  {
   "property": "C54",
   "status": "partial",
   "theorems": [
    "PyHawkes.C54_update_p_ignored_violated",
    "PyHawkes.C54_flags_partial"
   ],
   "note": "meanfield_sgdstep respects flags, meanfieldupdate respects v,m,c; FALSE for update_p of the coordinate update: the code tests update_c (C54_update_p_ignored_violated)."
  },
  {
   "property": "C55",
   "status": "partial",
   "theorems": [
    "PyHawkes.C55_impulse_divergence",
    "PyHawkes.C55_bias_update_ascends_partial",
    "PyHawkes.C55_impulse_update_ascends",
    "PyHawkes.C55_bias_update_violated",
    "PyHawkes.C55_network_value",
    "PyHawkes.C55_network_bound_partial",
    "PyHawkes.C55_network_violated",
    "PyHawkes.C55_er_nonpos",
    "PyHawkes.C55_bias_minus_kl",
    "PyHawkes.C55_bias_nonpos",
    "PyHawkes.C55_impulse_value",
    "PyHawkes.C55_impulse_nonpos_partial",
    "PyHawkes.C55_impulse_violated"
   ],
   "note": "Bias and Erdos-Renyi parts: minus KL, never positive (full). Impulse and block-model parts equal minus KL plus (n-1) times the log normaliser of the prior, so the claim is FALSE there (C55_impulse_violated, C55_network_violated); bias ascent proved for dt=1 and FALSE for dt=10 (C55_bias_update_violated); impulse ascent full. C55_impulse_divergence: the impulse part's KL is Mathlib's klDiv of the two Dirichlet laws."
  },
  {
   "property": "C56",
   "status": "partial",
   "theorems": [
    "PyHawkes.C56_bound_finite_partial",
    "PyHawkes.C56_no_self_connections_violated",
    "PyHawkes.C56_fixed_sparsity_violated",
    "PyHawkes.C56_certain_absence_violated",
    "PyHawkes.C56_er_without_prior_violated"
   ],
   "note": "Finite when self connections are allowed, for block models and Erdos-Renyi with a scale prior; FALSE without self connections (C56_no_self_connections_violated), for the fixed-sparsity network and the default Erdos-Renyi network without prior (exceptions)."
  },
  {
   "property": "C57",
   "status": "partial",
   "theorems": [
    "PyHawkes.C57_dirichlet_negentropy",
    "PyHawkes.C57_discrete_log_mass_partial",
    "PyHawkes.C57_discrete_log_mass_violated",
    "PyHawkes.C57_discrete_accepts",
    "PyHawkes.C57_dirichlet_expectations",
    "PyHawkes.C57_beta_expectations",
    "PyHawkes.C57_gamma_log_density",
    "PyHawkes.C57_gamma_negentropy",
    "PyHawkes.C57_bernoulli_log_mass",
    "PyHawkes.C57_bernoulli_impossible",
    "PyHawkes.C57_bernoulli_validation",
    "PyHawkes.C57_discrete_validation",
    "PyHawkes.C57_dirichlet_log_density_partial",
    "PyHawkes.C57_beta_log_density_partial",
    "PyHawkes.C57_batch_log_density_violated",
    "PyHawkes.C57_validation_violated",
    "PyHawkes.C57_bernoulli_negentropy",
    "PyHawkes.C57_bernoulli_negentropy_violated",
    "PyHawkes.C57_beta_negentropy"
   ],
   "note": "Gamma, Bernoulli log densities, Gamma and Bernoulli negentropies proved; Dirichlet/Beta log density proved for a single distribution. FALSE for batches (C57_batch_log_density_violated), and Gamma/Dirichlet constructors validate nothing (C57_validation_violated); Bernoulli negentropy at p=0 is nan. Beta negentropy proved (C57_beta_negentropy). Dirichlet negentropy as the expectation under the Dirichlet law (C57_dirichlet_negentropy). Expectations of Dirichlet and Beta proved. Discrete.log_probability proved for one-hot vectors and probability vectors without zeros; FALSE for indices (always raises), vectors with zeros (nan), and vectors that are not one-hot are accepted (C57_discrete_log_mass_violated)."
  },
  {
   "property": "C58",
   "status": "proved",
   "theorems": [
    "PyHawkes.C58_logit_logistic",
    "PyHawkes.C58_logistic_logit",
    "PyHawkes.C58_logistic_range",
    "PyHawkes.C58_logistic_increasing"
   ],
   "note": ""
  },
  {
   "property": "C59",
   "status": "partial",
   "theorems": [
    "PyHawkes.C59_to_continuous",
    "PyHawkes.C59_round_trip",
    "PyHawkes.C59_identity",
    "PyHawkes.C59_trailing_process_violated"
   ],
   "note": "Round trip proved when the last process has an event. FALSE in general: trailing empty processes are dropped and an event-free count matrix raises (C59_trailing_process_violated)."
  },
  {
   "property": "C60",
   "status": "proved",
   "theorems": [
    "PyHawkes.C60_accepts_iff",
    "PyHawkes.C60_counts",
    "PyHawkes.C60_bins_partition"
   ],
   "note": "Assumes the S and C arrays have equal length and numpy<1.24 (np.int was removed later)."
  },
  {
   "property": "C61",
   "status": "partial",
   "theorems": [
    "PyHawkes.C61_name_form_partial",
    "PyHawkes.C61_fresh_iff_partial",
    "PyHawkes.C61_fresh_in_histories_partial",
    "PyHawkes.C61_deletion_violated"
   ],
   "note": "Fresh in histories that only create files. FALSE after a deletion (C61_deletion_violated): the count of matching files is used as the suffix."
  },
  {
   "property": "C62",
   "status": "partial",
   "theorems": [
    "PyHawkes.C62_inverts_cumulative_rate",
    "PyHawkes.C62_sloping_rate_violated"
   ],
   "note": "Exact inversion proved for the step-function rate the code actually integrates. FALSE for the continuously sloping rate (C62_sloping_rate_violated)."
  },
  {
   "property": "C63",
   "status": "partial",
   "theorems": [
    "PyHawkes.C63_values",
    "PyHawkes.C63_chunk_independent",
    "PyHawkes.C63_constant_column_violated"
   ],
   "note": "Values proved for non-constant columns and dtmax<=T+1. FALSE for constant columns, whose diagonal is nan (C63_constant_column_violated)."
  },
  {
   "property": "C64",
   "status": "proved",
   "theorems": [
    "PyHawkes.C64_window_mean",
    "PyHawkes.C64_zero_window_rejected"
   ],
   "note": ""
  },
  {
   "property": "C65",
   "status": "partial",
   "theorems": [
    "PyHawkes.C65_valid_parameters",
    "PyHawkes.C65_standard_model_altered_violated",
    "PyHawkes.C65_self_edges_violated",
    "PyHawkes.C65_zero_weights_violated",
    "PyHawkes.C65_legal_variational_start",
    "PyHawkes.C65_gamma_mixture",
    "PyHawkes.C65_fresh_standard_model",
    "PyHawkes.C65_spike_and_slab"
   ],
   "note": "Validity proved for positive standard weights (given or fitted model), and the gamma-mixture variational start. FALSE: the standard model is altered by the call (C65_standard_model_altered_violated), forbidden self edges are set (C65_self_edges_violated), zero summed weights give nan (C65_zero_weights_violated)."
  },
  {
   "property": "C66",
   "status": "proved",
   "theorems": [
    "PyHawkes.C66_mixture_resample_keeps_valid",
    "PyHawkes.C66_constructor_accepts",
    "PyHawkes.C66_mixture_state_valid"
   ],
   "note": ""
  },
  {
   "property": "C67",
   "status": "proved",
   "theorems": [
    "PyHawkes.C67_sweep_is_gibbs",
    "PyHawkes.C67_edge_probability",
    "PyHawkes.C67_parallel_eq_serial",
    "PyHawkes.C67_certain_edges"
   ],
   "note": ""
  },
  {
   "property": "C68",
   "status": "proved",
   "theorems": [
    "PyHawkes.C68_weight_conditional",
    "PyHawkes.C68_absent_edges_childless"
   ],
   "note": ""
  },
  {
   "property": "C69",
   "status": "proved",
   "theorems": [
    "PyHawkes.C69_resample_keeps_valid",
    "PyHawkes.C69_new_model_valid",
    "PyHawkes.C69_sampler_state_valid"
   ],
   "note": ""
  },
  {
   "property": "C70",
   "status": "proved",
   "theorems": [
    "PyHawkes.C70_rate_is_intensity",
    "PyHawkes.C70_log_likelihood",
    "PyHawkes.C70_boundary_disagrees"
   ],
   "note": ""
  },
  {
   "property": "C71",
   "status": "proved",
   "theorems": [
    "PyHawkes.C71_optimum_exists",
    "PyHawkes.C71_bfgs_joint_maximum"
   ],
   "note": ""
  },
  {
   "property": "C72",
   "status": "proved",
   "theorems": [
    "PyHawkes.C72_interpolated_values",
    "PyHawkes.C72_normalised_values",
    "PyHawkes.C72_between_bounds",
    "PyHawkes.C72_exact_at_samples"
   ],
   "note": ""
  },
  {
   "property": "C73",
   "status": "proved",
   "theorems": [
    "PyHawkes.C73_network_accepts_iff",
    "PyHawkes.C73_network_stores",
    "PyHawkes.C73_std_accepts_iff",
    "PyHawkes.C73_std_stores",
    "PyHawkes.C73_ct_accepts_iff",
    "PyHawkes.C73_nonlinear_accepts_iff"
   ],
   "note": ""
  },
  {
   "property": "C74",
   "status": "proved",
   "theorems": [
    "PyHawkes.C74_fit_joint_maximum"
   ],
   "note": ""
  },
  {
   "property": "C75",
   "status": "partial",
   "theorems": [
    "PyHawkes.C75_stable_iff_finite_cascades",
    "PyHawkes.C75_cascade_size",
    "PyHawkes.C75_large_partial"
   ],
   "note": "Proved for 0<K<100 and nonnegative weights; from K>=100 one direction, and both when the sparse solver returns the nonnegative real eigenvalue (C75_large_partial); FALSE in general there (C47_large_violated)."
  },
  {
   "property": "C76",
   "status": "partial",
   "theorems": [
    "PyHawkes.C76_continuous_time",
    "PyHawkes.C76_precision_unchecked_violated"
   ],
   "note": "Proved for nonzero summed weights and single edge probability; legality needs the unconstrained solver to return positive precisions, otherwise FALSE (C76_precision_unchecked_violated)."
  },
  {
   "property": "C77",
   "status": "partial",
   "theorems": [
    "PyHawkes.C77_background",
    "PyHawkes.C77_impulse",
    "PyHawkes.C77_weights",
    "PyHawkes.C77_coordinate_step",
    "PyHawkes.C77_stochastic_step",
    "PyHawkes.C77_edges",
    "PyHawkes.C77_weights_update",
    "PyHawkes.C77_edges_step",
    "PyHawkes.C77_edges_certain",
    "PyHawkes.C77_block_probability_partial",
    "PyHawkes.C77_block_scale_partial",
    "PyHawkes.C77_block_frequencies",
    "PyHawkes.C77_label",
    "PyHawkes.C77_label_sweep",
    "PyHawkes.C77_block_model_step_partial",
    "PyHawkes.C77_block_probability_violated",
    "PyHawkes.C77_er_scale_partial"
   ],
   "note": "Background, impulses, weights, edges (clipped probability), block frequencies and labels: full. Block probabilities and scales: proved when self connections are allowed; FALSE otherwise, forbidden diagonal pairs still count (C77_block_probability_violated)."
  },
  {
   "property": "C78",
   "status": "proved",
   "theorems": [
    "PyHawkes.C78_unbiased",
    "PyHawkes.C78_partial_step",
    "PyHawkes.C78_step_uses_window"
   ],
   "note": ""
  },
  {
   "property": "C79",
   "status": "partial",
   "theorems": [
    "PyHawkes.C79_one_block_coordinate_step_partial",
    "PyHawkes.C79_label_update_violated",
    "PyHawkes.C79_block_probability_ascends",
    "PyHawkes.C79_block_scale_ascends",
    "PyHawkes.C79_block_frequencies_ascend",
    "PyHawkes.C79_parents_update_partial",
    "PyHawkes.C79_er_coordinate_step_partial",
    "PyHawkes.C79_er_scale_ascends",
    "PyHawkes.C79_every_reachable_state_partial",
    "PyHawkes.C79_weights_update_ascends"
   ],
   "note": "Weights/edges, impulse weights, block probabilities, scales, frequencies and Erdos-Renyi scale: ascent proved in every reachable state (self connections allowed; otherwise the bound is not finite, C56). Parents: decrease at most 1e-32-guard terms per event. Whole coordinate step: Erdos-Renyi network, or the default learned one-block network; dt=1. FALSE for the labels (C79_label_update_violated)."
  },
  {
   "property": "C80",
   "status": "proved",
   "theorems": [
    "PyHawkes.C80_branching",
    "PyHawkes.C80_record_transparent",
    "PyHawkes.C80_lag_law",
    "PyHawkes.C80_background_law"
   ],
   "note": ""
  },
  {
   "property": "C81",
   "status": "partial",
   "theorems": [
    "PyHawkes.C81_bias",
    "PyHawkes.C81_spike_slab_partial",
    "PyHawkes.C81_certain_edge_violated",
    "PyHawkes.C81_impossible_edge_violated",
    "PyHawkes.C81_mixture_partial",
    "PyHawkes.C81_mixture_certain_violated",
    "PyHawkes.C81_impulse_partial",
    "PyHawkes.C81_impulse_violated",
    "PyHawkes.C81_block_model_partial",
    "PyHawkes.C81_one_block",
    "PyHawkes.C81_block_model_violated",
    "PyHawkes.C81_fixed_sparsity_violated",
    "PyHawkes.C81_sampled_model_partial",
    "PyHawkes.C81_sampled_mixture_partial",
    "PyHawkes.C81_joint_violated",
    "PyHawkes.C81_continuous_partial",
    "PyHawkes.C81_continuous_violated"
   ],
   "note": "Exact: background rates, one-block networks. Weights: exact up to 2e-32 per forbidden edge for spike-and-slab, exact for mixtures with probabilities in (0,1). FALSE: impulse responses and block models are off by a constant, certain/impossible edges give wrong or nan values, fixed-sparsity networks raise, and the models' log_probability() leaves out most priors (see the *_violated theorems)."
  },
  {
   "property": "C82",
   "status": "partial",
   "theorems": [
    "PyHawkes.C82_valid",
    "PyHawkes.C82_self_edges_violated",
    "PyHawkes.C82_given_network_violated",
    "PyHawkes.C82_fixed_sparsity_violated",
    "PyHawkes.C82_given_scale_violated",
    "PyHawkes.C82_self_pair_disagrees",
    "PyHawkes.C82_lawful_draws_exist",
    "PyHawkes.C82_expectations",
    "PyHawkes.C82_network_expectations",
    "PyHawkes.C82_inert"
   ],
   "note": "Validity, all means and log means, mean rate (self connections allowed) and independence from inference: proved, with lawful generators shown to exist. FALSE: self pairs are drawn although disallowed (C82_self_edges_violated); expected_p of an allowed self pair is not the mean of the drawn one (C82_self_pair_disagrees); given network parameters are overwritten (C82_given_network_violated, C82_fixed_sparsity_violated); Erdos-Renyi with given scale raises (C82_given_scale_violated)."
  },
  {
   "property": "C83",
   "status": "proved",
   "theorems": [
    "PyHawkes.C83_block_posterior_invariant",
    "PyHawkes.C83_block_chain_invariant",
    "PyHawkes.C83_block_posterior_proper",
    "PyHawkes.C83_beta_sampler_exists",
    "PyHawkes.C83_block_hypotheses_met",
    "PyHawkes.C83_chain_hypotheses_met",
    "PyHawkes.C83_block_chain_hypotheses_met",
    "PyHawkes.C83_generator_exists",
    "PyHawkes.C83_posterior_invariant",
    "PyHawkes.C83_chain_invariant",
    "PyHawkes.C83_posterior_proper",
    "PyHawkes.C83_hypotheses_met",
    "PyHawkes.C83_add_data_filtered"
   ],
   "note": ""
  },
  {
   "property": "C84",
   "status": "proved",
   "theorems": [
    "PyHawkes.C84_block_posterior_invariant",
    "PyHawkes.C84_block_chain_invariant",
    "PyHawkes.C84_block_posterior_proper",
    "PyHawkes.C84_block_chain_hypotheses_met",
    "PyHawkes.C84_posterior_invariant",
    "PyHawkes.C84_chain_invariant",
    "PyHawkes.C84_generator_exists",
    "PyHawkes.C84_posterior_proper",
    "PyHawkes.C84_hypotheses_met",
    "PyHawkes.C84_chain_hypotheses_met"
   ],
   "note": ""
  },
  {
   "property": "C85",
   "status": "partial",
   "theorems": [
    "PyHawkes.C85_block_posterior_partial",
    "PyHawkes.C85_block_chain_partial",
    "PyHawkes.C85_block_violated",
    "PyHawkes.C85_block_posterior_proper",
    "PyHawkes.C85_block_hypotheses_met",
    "PyHawkes.C85_posterior_partial",
    "PyHawkes.C85_chain_partial",
    "PyHawkes.C85_violated",
    "PyHawkes.C85_posterior_proper",
    "PyHawkes.C85_hypotheses_met"
   ],
   "note": "Everything except the clipping of W at 1e-32 (weights.py:481) is exact: the new parameters are an exact posterior draw in which weights below 1e-32 are replaced by 1e-32 (C85_posterior_partial), so probabilities after t calls are off by at most t times the posterior probability of a weight below 1e-32 (C85_chain_partial). The full claim is FALSE: the clipped weights have an atom at 1e-32 which the posterior does not have (C85_violated). The same for learned one-block networks: C85_block_posterior_partial, C85_block_chain_partial, C85_block_violated."
  },
  {
   "property": "C86",
   "status": "partial",
   "theorems": [
    "PyHawkes.C86_legal_start",
    "PyHawkes.C86_means",
    "PyHawkes.C86_spread",
    "PyHawkes.C86_shared_spike_violated",
    "PyHawkes.C86_separate_otherwise",
    "PyHawkes.C86_shared_spike_occurs"
   ],
   "note": "Legal start, means and spread: full. Independence of the weights of absent edges right after the call: FALSE, mf_kappa_0 and mf_v_0 become scalars, so resample_from_mf draws one number for all of them (C86_shared_spike_violated)."
  },
  {
   "property": "C87",
   "status": "partial",
   "theorems": [
    "PyHawkes.C87_curves_give_rate",
    "PyHawkes.C87_unit_area",
    "PyHawkes.C87_continuous_partial",
    "PyHawkes.C87_continuous_ends_violated"
   ],
   "note": "Discrete time: full. Continuous time: proved at the interior lags; FALSE at lags 0 and dt_max, where nan is reported (C87_continuous_ends_violated)."
  },
  {
   "property": "C88",
   "status": "partial",
   "theorems": [
    "PyHawkes.C88_range",
    "PyHawkes.C88_interior",
    "PyHawkes.C88_events",
    "PyHawkes.C88_bad_windows",
    "PyHawkes.C88_area_violated"
   ],
   "note": "Range, interior averages, event counts, bad windows: full. Unchanged area: FALSE, the padding changes it (C88_area_violated)."
  },
  {
   "property": "C89",
   "status": "partial",
   "theorems": [
    "PyHawkes.C89_agree_partial",
    "PyHawkes.C89_close_events_violated"
   ],
   "note": "Proved when no gap is below 1e-8 or within 1e-8 of dt_max; FALSE for two events closer than 1e-8 (C89_close_events_violated)."
  },
  {
   "property": "C90",
   "status": "proved",
   "theorems": [
    "PyHawkes.C90_count_probability",
    "PyHawkes.C90_heldout_likelihood",
    "PyHawkes.C90_sampler_exists"
   ],
   "note": ""
  },
  {
   "property": "C91",
   "status": "partial",
   "theorems": [
    "PyHawkes.C91_posterior_is_conditional_partial",
    "PyHawkes.C91_block_posterior_is_conditional_partial",
    "PyHawkes.C91_mixture_posterior_is_conditional_partial",
    "PyHawkes.C91_mixture_block_posterior_is_conditional_partial",
    "PyHawkes.C91_hypotheses_met",
    "PyHawkes.C91_training_gap",
    "PyHawkes.C91_late_events_violated"
   ],
   "note": "Proved (four models) when no observed event is so late that its response is cut off by the end of the recording; the exact difference is C91_training_gap (held-out = training + expected number of events triggered after the end). FALSE otherwise (C91_late_events_violated): the training likelihood charges every event its whole weight."
  },
  {
   "property": "C92",
   "status": "proved",
   "theorems": [
    "PyHawkes.C92_rate_of_added_data",
    "PyHawkes.C92_earlier_data_unchanged",
    "PyHawkes.C92_default_is_first_data"
   ],
   "note": ""
  },
  {
   "property": "C93",
   "status": "proved",
   "theorems": [
    "PyHawkes.C93_expected_counts",
    "PyHawkes.C93_stationary_rate",
    "PyHawkes.C93_stable_iff_bounded",
    "PyHawkes.C93_unstable_explodes",
    "PyHawkes.C93_hypotheses_met"
   ],
   "note": ""
  },
  {
   "property": "C94",
   "status": "proved",
   "theorems": [
    "PyHawkes.C94_converges",
    "PyHawkes.C94_stationary_unique",
    "PyHawkes.C94_hypotheses_met",
    "PyHawkes.C94_demo_start",
    "PyHawkes.C94_block_converges",
    "PyHawkes.C94_block_stationary_unique",
    "PyHawkes.C94_block_hypotheses_met",
    "PyHawkes.C94_block_demo_start",
    "PyHawkes.C94_ct_converges",
    "PyHawkes.C94_ct_stationary_unique",
    "PyHawkes.C94_ct_block_converges",
    "PyHawkes.C94_ct_hypotheses_met",
    "PyHawkes.C94_ct_block_hypotheses_met",
    "PyHawkes.C94_ct_demo_start",
    "PyHawkes.C94_from_standard_model",
    "PyHawkes.C94_demo_from_standard",
    "PyHawkes.C94_ct_block_stationary_unique"
   ],
   "note": ""
  },
  {
   "property": "C95",
   "status": "proved",
   "theorems": [
    "PyHawkes.C95_averages",
    "PyHawkes.C95_edge_frequency",
    "PyHawkes.C95_prior_integrable",
    "PyHawkes.C95_background_integrable",
    "PyHawkes.C95_block_averages",
    "PyHawkes.C95_ct_averages",
    "PyHawkes.C95_ct_block_averages",
    "PyHawkes.C95_demo_run"
   ],
   "note": ""
  },
  {
   "property": "C96",
   "status": "proved",
   "theorems": [
    "PyHawkes.C96_posterior_invariant",
    "PyHawkes.C96_chain_invariant",
    "PyHawkes.C96_posterior_proper",
    "PyHawkes.C96_converges",
    "PyHawkes.C96_stationary_unique",
    "PyHawkes.C96_chain_hypotheses_met",
    "PyHawkes.C96_hypotheses_met",
    "PyHawkes.C96_demo_run",
    "PyHawkes.C96_ct_posterior_invariant",
    "PyHawkes.C96_ct_chain_invariant",
    "PyHawkes.C96_ct_posterior_proper",
    "PyHawkes.C96_ct_converges",
    "PyHawkes.C96_ct_chain_hypotheses_met",
    "PyHawkes.C96_ct_hypotheses_met",
    "PyHawkes.C96_ct_demo_run",
    "PyHawkes.C96_sampler_exists",
    "PyHawkes.C96_ct_stationary_unique"
   ],
   "note": ""
  },
  {
   "property": "C97",
   "status": "proved",
   "theorems": [
    "PyHawkes.C97_gradient",
    "PyHawkes.C97_positive_in_bounds",
    "PyHawkes.C97_joint_maximum",
    "PyHawkes.C97_optimum_exists",
    "PyHawkes.C97_no_events_no_solution",
    "PyHawkes.C97_demo"
   ],
   "note": ""
  },
  {
   "property": "C98",
   "status": "proved",
   "theorems": [
    "PyHawkes.C98_same_counts",
    "PyHawkes.C98_exact_is_integrated_response",
    "PyHawkes.C98_additive",
    "PyHawkes.C98_exact_le_approx",
    "PyHawkes.C98_bin_width_violated"
   ],
   "note": "Exact arithmetic. C98_bin_width_violated records that the code's exact statistic lacks the factor dt."
  },
  {
   "property": "C99",
   "status": "proved",
   "theorems": [
    "PyHawkes.C99_at_expected_parameters",
    "PyHawkes.C99_upper_bound",
    "PyHawkes.C99_lower_bound_violated"
   ],
   "note": "The inequality needs self connections allowed (with a mask the drawn self weights differ from expected_W, see C82). C99_lower_bound_violated records that the documented direction is wrong."
  },
  {
   "property": "C100",
   "status": "proved",
   "theorems": [
    "PyHawkes.C100_values",
    "PyHawkes.C100_range",
    "PyHawkes.C100_affine_invariant",
    "PyHawkes.C100_delayed_copy",
    "PyHawkes.C100_zero_window"
   ],
   "note": ""
  },
  {
   "property": "C101",
   "status": "proved",
   "theorems": [
    "PyHawkes.C101_linear_solution_exists",
    "PyHawkes.C101_penalised_solution_exists",
    "PyHawkes.C101_unpenalised_no_solution_violated",
    "PyHawkes.C101_linear_fit"
   ],
   "note": ""
  },
  {
   "property": "C102",
   "status": "partial",
   "theorems": [
    "PyHawkes.C102_python_parents_partial",
    "PyHawkes.C102_same_weights_as_kernel",
    "PyHawkes.C102_absent_edge_violated",
    "PyHawkes.C102_simultaneous_violated",
    "PyHawkes.C102_impulse_statistics_violated",
    "PyHawkes.C102_zero_background_violated"
   ],
   "note": "Proved: exact law of the draw, counts and conservation for sorted events without ties (C102_python_parents_partial), equal to the compiled sampler's weights over present edges up to its constant for sqrt(2 pi). FALSE of the code when an edge is absent (W is read instead of W_effective), for simultaneous events (assertion), for events nothing can explain (uniform choice, even outside the window) and for the impulse statistics (wrong shape): see the _violated theorems."
  },
  {
   "property": "C103",
   "status": "partial",
   "theorems": [
    "PyHawkes.C103_lower_bound_partial",
    "PyHawkes.C103_uniform_bound_partial",
    "PyHawkes.C103_block_lower_bound_partial",
    "PyHawkes.C103_block_uniform_bound_partial",
    "PyHawkes.C103_block_demo_partial",
    "PyHawkes.C103_impulse_normaliser_violated",
    "PyHawkes.C103_long_bins_violated",
    "PyHawkes.C103_fresh_violated",
    "PyHawkes.C103_simulated_data_partial",
    "PyHawkes.C103_demo_partial"
   ],
   "note": "Proved: get_vlb() is at most the log evidence (and the log probability of simulating the observed counts) plus an explicit correction, (K*K-1) times the log normaliser of the Dirichlet prior, and an explicit allowance of order 1e-32 for the guards in the code, after every history with a coordinate step, for bins of at most one time unit. The correction is 0 for one basis function and at most 0 wherever the normaliser is at most 1. FALSE of the code without the correction (C103_impulse_normaliser_violated), for long bins (C103_long_bins_violated) and before the first coordinate step (C103_fresh_violated). Both for an Erdos-Renyi network of fixed sparsity with a learned weight scale and for the default learned one-block network. Several blocks are not covered (there the network part itself is counted wrongly, see C55_network_violated)."
  },
  {
   "property": "C104",
   "status": "proved",
   "theorems": [
    "PyHawkes.C104_meanfield_relabel",
    "PyHawkes.C104_vlb_relabel",
    "PyHawkes.C104_rate_relabel",
    "PyHawkes.C104_heldout_relabel",
    "PyHawkes.C104_log_likelihood_relabel",
    "PyHawkes.C104_generate_relabel",
    "PyHawkes.C104_ct_log_likelihood_relabel",
    "PyHawkes.C104_log_probability_relabel",
    "PyHawkes.C104_log_probability_mix_relabel",
    "PyHawkes.C104_ct_log_probability_relabel",
    "PyHawkes.C104_data_order",
    "PyHawkes.C104_demo"
   ],
   "note": ""
  },
  {
   "property": "C105",
   "status": "proved",
   "theorems": [
    "PyHawkes.C105_index",
    "PyHawkes.C105_negative",
    "PyHawkes.C105_proc",
    "PyHawkes.C105_whole",
    "PyHawkes.C105_given_filter",
    "PyHawkes.C105_stable",
    "PyHawkes.C105_minibatch"
   ],
   "note": ""
  },
  {
   "property": "C106",
   "status": "partial",
   "theorems": [
    "PyHawkes.C106_plot_network",
    "PyHawkes.C106_replot",
    "PyHawkes.C106_rates_partial",
    "PyHawkes.C106_event_position_violated",
    "PyHawkes.C106_no_axes_violated",
    "PyHawkes.C106_update_rates"
   ],
   "note": "Proved: the network picture and its updates for every history; the lines of the rates, their updates, and the stems for dt = 1. FALSE of the code for dt != 1: events are drawn at t + dt/2 instead of (t + 1/2) dt (C106_event_position_violated). plot_rates() without axes always raises (C106_no_axes_violated)."
  },
  {
   "property": "C107",
   "status": "proved",
   "theorems": [
    "PyHawkes.C107_meanfield",
    "PyHawkes.C107_vlb",
    "PyHawkes.C107_conditionals",
    "PyHawkes.C107_gibbs_spike_and_slab",
    "PyHawkes.C107_gibbs_mixture",
    "PyHawkes.C107_network_log_probability",
    "PyHawkes.C107_model_log_probability",
    "PyHawkes.C107_pairs",
    "PyHawkes.C107_demo"
   ],
   "note": ""
  },
  {
   "property": "C108",
   "status": "proved",
   "theorems": [
    "PyHawkes.C108_basis",
    "PyHawkes.C108_basis_unnormalised",
    "PyHawkes.C108_compute_rate",
    "PyHawkes.C108_generate",
    "PyHawkes.C108_log_likelihood",
    "PyHawkes.C108_heldout",
    "PyHawkes.C108_gibbs_spike_and_slab",
    "PyHawkes.C108_gibbs_mixture",
    "PyHawkes.C108_log_probability",
    "PyHawkes.C108_meanfield",
    "PyHawkes.C108_bound_violated",
    "PyHawkes.C108_bound_demo",
    "PyHawkes.C108_gibbs_demo",
    "PyHawkes.C108_meanfield_demo"
   ],
   "note": ""
  },
  {
   "property": "C109",
   "status": "partial",
   "theorems": [
    "PyHawkes.C109_compute_rate",
    "PyHawkes.C109_rate_at_events_partial",
    "PyHawkes.C109_log_likelihood_partial",
    "PyHawkes.C109_generate",
    "PyHawkes.C109_gibbs_partial",
    "PyHawkes.C109_cutoff_violated",
    "PyHawkes.C109_gibbs_demo_partial"
   ],
   "note": "Proved without restriction for compute_rate and generate; for the rates at events, log_likelihood and every history of the sampler when no lag (or distance of a lag from dt_max) is nonzero and below 1e-8 in either unit. FALSE of the code otherwise: the kernels compare lags with the absolute number 1e-8, see C109_cutoff_violated."
  },
  {
   "property": "C110",
   "status": "partial",
   "theorems": [
    "PyHawkes.C110_bound_settles_partial",
    "PyHawkes.C110_demo_partial",
    "PyHawkes.C110_one_block_settles_partial",
    "PyHawkes.C110_one_block_demo_partial"
   ],
   "note": "Proved for the Erdos-Renyi network with a gamma prior on the weight scale and for the default learned one-block network (self connections allowed), bins of unit length, data as stored by add_data: the bound without guards never decreases over a whole coordinate step and is bounded by the log evidence (C103), hence converges; get_vlb() differs from it by at most settleSlack, an explicit function of the data of order 1e-32 per event. Missing: other bin lengths and several blocks, where single updates can decrease the bound (C55_bias_update_violated, C79_label_update_violated)."
  },
  {
   "property": "C111",
   "status": "proved",
   "theorems": [
    "PyHawkes.C111_log_likelihood",
    "PyHawkes.C111_resample",
    "PyHawkes.C111_resample_mix",
    "PyHawkes.C111_run",
    "PyHawkes.C111_run_mix",
    "PyHawkes.C111_log_probability",
    "PyHawkes.C111_meanfield",
    "PyHawkes.C111_meanfield_run",
    "PyHawkes.C111_vlb",
    "PyHawkes.C111_draws_exist",
    "PyHawkes.C111_silence",
    "PyHawkes.C111_minibatches",
    "PyHawkes.C111_heldout",
    "PyHawkes.C111_silent_recording",
    "PyHawkes.C111_demo",
    "PyHawkes.C111_needs_silence"
   ],
   "note": ""
  },
  {
   "property": "C112",
   "status": "partial",
   "theorems": [
    "PyHawkes.C112_cut_likelihood_partial",
    "PyHawkes.C112_cut_adjacency_partial",
    "PyHawkes.C112_cut_parents_partial",
    "PyHawkes.C112_cut_weights_partial",
    "PyHawkes.C112_background_violated",
    "PyHawkes.C112_impulse_violated",
    "PyHawkes.C112_cut_violated_concretely",
    "PyHawkes.C112_origin_likelihood_partial",
    "PyHawkes.C112_origin_sweep_partial"
   ],
   "note": "Origin of time: proved for every delay (whole sweep, C112_origin_sweep_partial). Cutting at a silence: likelihoods, adjacency update, parents, statistics and weight draws agree (C112_cut_*_partial). FALSE of the code for two draws: the background rate is drawn given the last data set only (C112_background_violated) and the rate parameter of the impulse-response draw loses the sum of squares between the parts (C112_impulse_violated)."
  },
  {
   "property": "C113",
   "status": "proved",
   "theorems": [
    "PyHawkes.C113_rates",
    "PyHawkes.C113_process_likelihood",
    "PyHawkes.C113_log_likelihood",
    "PyHawkes.C113_heldout",
    "PyHawkes.C113_parents",
    "PyHawkes.C113_ct_rates",
    "PyHawkes.C113_ct_log_likelihood",
    "PyHawkes.C113_ct_parents",
    "PyHawkes.C113_ct_edges",
    "PyHawkes.C113_conditional_draws",
    "PyHawkes.C113_edge_column",
    "PyHawkes.C113_edges",
    "PyHawkes.C113_ct_edge_update",
    "PyHawkes.C113_ct_statistics",
    "PyHawkes.C113_ct_conditional_draws"
   ],
   "note": ""
  },
  {
   "property": "C114",
   "status": "proved",
   "theorems": [
    "PyHawkes.C114_superposition",
    "PyHawkes.C114_monotone",
    "PyHawkes.C114_scaled_rates",
    "PyHawkes.C114_scaled_parents",
    "PyHawkes.C114_scaled_log_likelihood",
    "PyHawkes.C114_best_factor",
    "PyHawkes.C114_maximum_likelihood",
    "PyHawkes.C114_ct_parents",
    "PyHawkes.C114_ct_rates",
    "PyHawkes.C114_ct_monotone",
    "PyHawkes.C114_ct_log_likelihood",
    "PyHawkes.C114_ct_best_factor",
    "PyHawkes.C114_ct_maximum_likelihood"
   ],
   "note": ""
  },
  {
   "property": "C115",
   "status": "proved",
   "theorems": [
    "PyHawkes.C115_certificate",
    "PyHawkes.C115_tolerance",
    "PyHawkes.C115_predicted_events",
    "PyHawkes.C115_converged_fit"
   ],
   "note": ""
  },
  {
   "property": "C116",
   "status": "proved",
   "theorems": [
    "PyHawkes.C116_merged_rates",
    "PyHawkes.C116_predicted_events"
   ],
   "note": ""
  }
 ]
}