{
 "C22": {
  "status": "partial",
  "note": "v and m: full. p: proved for all block pairs except a block's own p with self connections disallowed, where the property is FALSE of the code (C22_block_probability_violated). labels: proved when self edges carry no label information; otherwise FALSE, the self edge is counted twice (C22_labels_violated). The whole sweep (C22_sweep_partial): every block it draws is proposed with arguments read from the values just before it, in the code's order. C22_block_weights_law: the Dirichlet posterior as a law."
 },
 "C49": {
  "status": "partial",
  "note": "Lookup proved; given values kept when c,p,v all given and by the fixed-sparsity model; which constructor arguments are accepted (C49_accepts) and validity of every new network (C49_new_valid). FALSE in general: GibbsSBM.__init__ overwrites a given p (C49_given_p_lost_violated) and given class frequencies (C49_given_m_lost_violated), and giving labels of >=2 nodes raises on numpy>=1.13 (C49_labels_rejected_violated)."
 },
 "C57": {
  "status": "partial",
  "note": "Gamma, Bernoulli log densities, Gamma and Bernoulli negentropies proved; Dirichlet/Beta log density proved for a single distribution. FALSE for batches (C57_batch_log_density_violated), and Gamma/Dirichlet constructors validate nothing (C57_validation_violated); Bernoulli negentropy at p=0 is nan. Beta negentropy proved (C57_beta_negentropy). Dirichlet negentropy as the expectation under the Dirichlet law (C57_dirichlet_negentropy). Expectations of Dirichlet and Beta proved. Discrete.log_probability proved for one-hot vectors and probability vectors without zeros; FALSE for indices (always raises), vectors with zeros (nan), and vectors that are not one-hot are accepted (C57_discrete_log_mass_violated)."
 },
 "C50": {
  "status": "proved",
  "note": "For step sizes in (0,1], and step size 0 when no prior edge probability is 0 or 1 (otherwise nan: C50_step_zero_nan_violated, a finding)."
 },
 "C53": {
  "status": "partial",
  "note": "Proved for block-model and Erdos-Renyi networks; FALSE for the fixed-sparsity network (C53_fixed_sparsity_violated) and for step size 0 with disallowed self connections (C53_step_zero_violated)."
 },
 "C54": {
  "status": "partial",
  "note": "meanfield_sgdstep respects flags, meanfieldupdate respects v,m,c; FALSE for update_p of the coordinate update: the code tests update_c (C54_update_p_ignored_violated)."
 },
 "C55": {
  "status": "partial",
  "note": "Bias and Erdos-Renyi parts: minus KL, never positive (full). Impulse and block-model parts equal minus KL plus (n-1) times the log normaliser of the prior, so the claim is FALSE there (C55_impulse_violated, C55_network_violated); bias ascent proved for dt=1 and FALSE for dt=10 (C55_bias_update_violated); impulse ascent full. C55_impulse_divergence: the impulse part's KL is Mathlib's klDiv of the two Dirichlet laws."
 },
 "C56": {
  "status": "partial",
  "note": "Finite when self connections are allowed, for block models and Erdos-Renyi with a scale prior; FALSE without self connections (C56_no_self_connections_violated), for the fixed-sparsity network and the default Erdos-Renyi network without prior (exceptions)."
 },
 "C32": {
  "status": "partial",
  "note": "Proved for no data set and one data set; FALSE with several: ContinuousTime background resampling keeps the statistics of the last data set only (C32_background_violated)."
 },
 "C33": {
  "status": "partial",
  "note": "Exact characterisation: the draw is from the Bayes posterior iff all data sets with lags have the same mean scaled lag (C33_conditional_iff); in particular always with one data set. FALSE otherwise (C33_violated)."
 },
 "C34": {
  "status": "partial",
  "note": "Proved with no event in the window, and with one of effective weight 1. FALSE otherwise: compute_rate overwrites instead of adding and omits the weights (C34_compute_rate_violated)."
 },
 "C38": {
  "status": "partial",
  "note": "Values and totals of G proved; reading G overwrites zero weight rows with 1/B in place, so reading changes W: FALSE (C38_reading_G_changes_W_violated). Nonlinear G: proved for nonzero weights, nan where weights are zero (C38_nonlinear_zero_weight_violated)."
 },
 "C39": {
  "status": "partial",
  "note": "Standard, network and continuous-time heldout/copy_sample proved when no exception intervenes; an exception in between leaks or loses data (two violated theorems). Nonlinear models: same, with their own violated theorems for interrupted calls."
 },
 "C41": {
  "status": "partial",
  "note": "Background-rate fit maximises the Poisson likelihood; FALSE for a process without events (nan) (C41_event_less_process_violated). Nonlinear homogeneous fit and node background also proved."
 },
 "C45": {
  "status": "partial",
  "note": "Proved for one process; FALSE for two or more: trailing comma makes B a tuple (C45_two_processes_violated)."
 },
 "C42": {
  "status": "partial",
  "note": "exp and linear links: exact inverses; log likelihood defined for positive rates. FALSE for the rectified link: invlink(link(x)) is off by exactly 1e-16 (C42_relu_inverse_violated)."
 },
 "C43": {
  "status": "partial",
  "note": "Objective = negative penalised log likelihood and convexity proved for exp/linear links; FALSE for the node built with default arguments (lmbda=inf: C43_default_node_violated); the rectified link is not convex (C43_relu_not_convex)."
 },
 "C44": {
  "status": "partial",
  "note": "Proved for every history without an exception inside add_data; an exception between two nodes leaves them with different numbers of data sets (C44_interrupted_add_violated)."
 },
 "C46": {
  "status": "partial",
  "note": "Round trip is FALSE for every model: get_parameters returns 6 values, set_parameters unpacks 8 (C46_round_trip_violated). Proved: eight valid values are stored and read back."
 },
 "C47": {
  "status": "partial",
  "note": "Proved for 0<K<100. FALSE for the standard model (AxisError) and from K>=100 (largest-modulus eigenvalue may be negative)."
 },
 "C75": {
  "status": "partial",
  "note": "Proved for 0<K<100 and nonnegative weights; from K>=100 one direction, and both when the sparse solver returns the nonnegative real eigenvalue (C75_large_partial); FALSE in general there (C47_large_violated)."
 },
 "C59": {
  "status": "partial",
  "note": "Round trip proved when the last process has an event. FALSE in general: trailing empty processes are dropped and an event-free count matrix raises (C59_trailing_process_violated)."
 },
 "C60": {
  "status": "proved",
  "note": "Assumes the S and C arrays have equal length and numpy<1.24 (np.int was removed later)."
 },
 "C61": {
  "status": "partial",
  "note": "Fresh in histories that only create files. FALSE after a deletion (C61_deletion_violated): the count of matching files is used as the suffix."
 },
 "C62": {
  "status": "partial",
  "note": "Exact inversion proved for the step-function rate the code actually integrates. FALSE for the continuously sloping rate (C62_sloping_rate_violated)."
 },
 "C63": {
  "status": "partial",
  "note": "Values proved for non-constant columns and dtmax<=T+1. FALSE for constant columns, whose diagonal is nan (C63_constant_column_violated)."
 },
 "C64": {
  "status": "proved",
  "note": ""
 },
 "C65": {
  "status": "partial",
  "note": "Validity proved for positive standard weights (given or fitted model), and the gamma-mixture variational start. FALSE: the standard model is altered by the call (C65_standard_model_altered_violated), forbidden self edges are set (C65_self_edges_violated), zero summed weights give nan (C65_zero_weights_violated)."
 },
 "C76": {
  "status": "partial",
  "note": "Proved for nonzero summed weights and single edge probability; legality needs the unconstrained solver to return positive precisions, otherwise FALSE (C76_precision_unchecked_violated)."
 },
 "C77": {
  "status": "partial",
  "note": "Background, impulses, weights, edges (clipped probability), block frequencies and labels: full. Block probabilities and scales: proved when self connections are allowed; FALSE otherwise, forbidden diagonal pairs still count (C77_block_probability_violated)."
 },
 "C79": {
  "status": "partial",
  "note": "Weights/edges, impulse weights, block probabilities, scales, frequencies and Erdos-Renyi scale: ascent proved in every reachable state (self connections allowed; otherwise the bound is not finite, C56). Parents: decrease at most 1e-32-guard terms per event. Whole coordinate step: Erdos-Renyi network, or the default learned one-block network; dt=1. FALSE for the labels (C79_label_update_violated)."
 },
 "C81": {
  "status": "partial",
  "note": "Exact: background rates, one-block networks. Weights: exact up to 2e-32 per forbidden edge for spike-and-slab, exact for mixtures with probabilities in (0,1). FALSE: impulse responses and block models are off by a constant, certain/impossible edges give wrong or nan values, fixed-sparsity networks raise, and the models' log_probability() leaves out most priors (see the *_violated theorems)."
 },
 "C82": {
  "status": "partial",
  "note": "Validity, all means and log means, mean rate (self connections allowed) and independence from inference: proved, with lawful generators shown to exist. FALSE: self pairs are drawn although disallowed (C82_self_edges_violated); expected_p of an allowed self pair is not the mean of the drawn one (C82_self_pair_disagrees); given network parameters are overwritten (C82_given_network_violated, C82_fixed_sparsity_violated); Erdos-Renyi with given scale raises (C82_given_scale_violated)."
 },
 "C85": {
  "status": "partial",
  "note": "Everything except the clipping of W at 1e-32 (weights.py:481) is exact: the new parameters are an exact posterior draw in which weights below 1e-32 are replaced by 1e-32 (C85_posterior_partial), so probabilities after t calls are off by at most t times the posterior probability of a weight below 1e-32 (C85_chain_partial). The full claim is FALSE: the clipped weights have an atom at 1e-32 which the posterior does not have (C85_violated). The same for learned one-block networks: C85_block_posterior_partial, C85_block_chain_partial, C85_block_violated."
 },
 "C86": {
  "status": "partial",
  "note": "Legal start, means and spread: full. Independence of the weights of absent edges right after the call: FALSE, mf_kappa_0 and mf_v_0 become scalars, so resample_from_mf draws one number for all of them (C86_shared_spike_violated)."
 },
 "C87": {
  "status": "partial",
  "note": "Discrete time: full. Continuous time: proved at the interior lags; FALSE at lags 0 and dt_max, where nan is reported (C87_continuous_ends_violated)."
 },
 "C88": {
  "status": "partial",
  "note": "Range, interior averages, event counts, bad windows: full. Unchanged area: FALSE, the padding changes it (C88_area_violated)."
 },
 "C89": {
  "status": "partial",
  "note": "Proved when no gap is below 1e-8 or within 1e-8 of dt_max; FALSE for two events closer than 1e-8 (C89_close_events_violated)."
 },
 "C91": {
  "status": "partial",
  "note": "Proved (four models) when no observed event is so late that its response is cut off by the end of the recording; the exact difference is C91_training_gap (held-out = training + expected number of events triggered after the end). FALSE otherwise (C91_late_events_violated): the training likelihood charges every event its whole weight."
 },
 "C98": {
  "status": "proved",
  "note": "Exact arithmetic. C98_bin_width_violated records that the code's exact statistic lacks the factor dt."
 },
 "C99": {
  "status": "proved",
  "note": "The inequality needs self connections allowed (with a mask the drawn self weights differ from expected_W, see C82). C99_lower_bound_violated records that the documented direction is wrong."
 },
 "C102": {
  "status": "partial",
  "note": "Proved: exact law of the draw, counts and conservation for sorted events without ties (C102_python_parents_partial), equal to the compiled sampler's weights over present edges up to its constant for sqrt(2 pi). FALSE of the code when an edge is absent (W is read instead of W_effective), for simultaneous events (assertion), for events nothing can explain (uniform choice, even outside the window) and for the impulse statistics (wrong shape): see the _violated theorems."
 },
 "C103": {
  "status": "partial",
  "note": "Proved: get_vlb() is at most the log evidence (and the log probability of simulating the observed counts) plus an explicit correction, (K*K-1) times the log normaliser of the Dirichlet prior, and an explicit allowance of order 1e-32 for the guards in the code, after every history with a coordinate step, for bins of at most one time unit. The correction is 0 for one basis function and at most 0 wherever the normaliser is at most 1. FALSE of the code without the correction (C103_impulse_normaliser_violated), for long bins (C103_long_bins_violated) and before the first coordinate step (C103_fresh_violated). Both for an Erdos-Renyi network of fixed sparsity with a learned weight scale and for the default learned one-block network. Several blocks are not covered (there the network part itself is counted wrongly, see C55_network_violated)."
 },
 "C106": {
  "status": "partial",
  "note": "Proved: the network picture and its updates for every history; the lines of the rates, their updates, and the stems for dt = 1. FALSE of the code for dt != 1: events are drawn at t + dt/2 instead of (t + 1/2) dt (C106_event_position_violated). plot_rates() without axes always raises (C106_no_axes_violated)."
 },
 "C109": {
  "status": "partial",
  "note": "Proved without restriction for compute_rate and generate; for the rates at events, log_likelihood and every history of the sampler when no lag (or distance of a lag from dt_max) is nonzero and below 1e-8 in either unit. FALSE of the code otherwise: the kernels compare lags with the absolute number 1e-8, see C109_cutoff_violated."
 },
 "C110": {
  "status": "partial",
  "note": "Proved for the Erdos-Renyi network with a gamma prior on the weight scale and for the default learned one-block network (self connections allowed), bins of unit length, data as stored by add_data: the bound without guards never decreases over a whole coordinate step and is bounded by the log evidence (C103), hence converges; get_vlb() differs from it by at most settleSlack, an explicit function of the data of order 1e-32 per event. Missing: other bin lengths and several blocks, where single updates can decrease the bound (C55_bias_update_violated, C79_label_update_violated)."
 },
 "C112": {
  "status": "partial",
  "note": "Origin of time: proved for every delay (whole sweep, C112_origin_sweep_partial). Cutting at a silence: likelihoods, adjacency update, parents, statistics and weight draws agree (C112_cut_*_partial). FALSE of the code for two draws: the background rate is drawn given the last data set only (C112_background_violated) and the rate parameter of the impulse-response draw loses the sum of squares between the parts (C112_impulse_violated)."
 }
}
