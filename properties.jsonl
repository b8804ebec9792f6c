{"id": "C01", "title": "Filtered regressors are strictly causal", "statement": "When a basis is built with allow_instantaneous=False, the filtered counts returned for time bin t depend only on event counts in bins strictly before t; with allow_instantaneous=True they depend only on bins up to and including t.", "quantifier": "every basis matrix, every pair of count matrices that agree before (up to) t, every t, process and basis index", "why_tests_cant": "A test compares a few matrices; causality is a statement about all pairs of histories that agree on the past.", "anchors": ["pyhawkes/utils/basis.py:Basis.convolve_with_basis", "pyhawkes/utils/basis.py:Basis.interpolate_basis"]}
{"id": "C02", "title": "Filtering is the causal convolution and respects prefixes", "statement": "convolve_with_basis returns, for every bin, process and basis function, the sum over lags of basis value times the count that many bins earlier; it is linear in the counts, treats processes separately, is nonnegative for nonnegative inputs (the final clip changes nothing), and filtering a prefix of the data gives the prefix of the filtered data.", "quantifier": "every basis matrix, every T x K count matrix with T,K > 0, every bin/process/basis index", "why_tests_cant": "Needs all sizes and all values, including T shorter than the basis.", "anchors": ["pyhawkes/utils/basis.py:Basis.convolve_with_basis"]}
{"id": "C03", "title": "A normalised basis has unit area and the documented shape", "statement": "With norm=True every column of an interpolated basis (and of an identity basis) satisfies dt * (sum over lags) = 1 whenever the column is not identically zero on the sampled grid; a non-instantaneous basis starts with a zero row; the number of rows is ceil(dt_max/dt) plus one if non-instantaneous.", "quantifier": "every prototype basis, every positive dt and dt_max", "why_tests_cant": "The normaliser interacts with interpolation and the prepended row for every dt/dt_max ratio.", "anchors": ["pyhawkes/utils/basis.py:Basis.interpolate_basis", "pyhawkes/utils/basis.py:IdentityBasis.create_basis"]}
{"id": "C04", "title": "Raised-cosine bases are nonnegative with mass in every column", "statement": "Creating the default cosine basis with at least one cosine never hits the \"nonnegative\" exception; before normalisation every entry lies in [0,1] and every column contains an entry equal to 1, so normalising never divides by zero.", "quantifier": "every number of basis functions B, identity count n_eye < B, grid length L, scaling a>0 and offset b>0 for which the centre spacing is nonzero", "why_tests_cant": "Infinitely many hyperparameter combinations; uses cos/log over the reals.", "anchors": ["pyhawkes/utils/basis.py:CosineBasis.create_basis"]}
{"id": "C05", "title": "compute_rate is background plus weighted filtered history", "statement": "compute_rate returns lambda0[k] + sum over source processes and basis functions of effective weight * impulse weight * filtered count; asking for one process (proc=k) gives exactly column k of the full answer; with nonnegative parameters and data the rate is never below lambda0.", "quantifier": "every K, B, T, parameters and filtered data, every process", "why_tests_cant": "Index permutations (transpose/tensordot) are only distinguished by all sizes and values.", "anchors": ["pyhawkes/models.py:_DiscreteTimeNetworkHawkesModelBase.compute_rate"]}
{"id": "C06", "title": "generate returns the rate of the data it generated", "statement": "The rate matrix returned by generate() equals compute_rate() evaluated on the returned event counts, for every outcome of the Poisson draws; and, for a strictly causal basis, the counts in bin t were drawn with exactly the rate that is returned for bin t.", "quantifier": "every outcome of every Poisson draw (every random generator), every T, K, B, basis and parameters", "why_tests_cant": "The existing test samples one random seed with K=1; the claim quantifies over all draw histories.", "anchors": ["pyhawkes/models.py:_DiscreteTimeNetworkHawkesModelBase.generate", "pyhawkes/models.py:_DiscreteTimeNetworkHawkesModelBase.compute_rate"]}
{"id": "C07", "title": "No edge, no influence", "statement": "In the spike-and-slab model, if there is no edge k1->k2 then the rate of process k2 does not depend on the events of k1; and with allow_self_connections=False no process ever excites itself after any sequence of sampler iterations.", "quantifier": "every parameter setting, every pair of data sets differing only in process k1, every Gibbs history", "why_tests_cant": "Quantifies over all histories of random draws and all data pairs.", "anchors": ["pyhawkes/internals/weights.py:SpikeAndSlabGammaWeights.W_effective", "pyhawkes/internals/weights.py:GammaMixtureWeights.W_effective", "pyhawkes/internals/network.py:ErdosRenyiFixedSparsity.P"]}
{"id": "C08", "title": "Sparse log likelihood equals the dense marginal log likelihood", "statement": "For counts that fit in 32 bits, log_likelihood(), which only visits bins containing events, equals the dense sum over all bins of S*log(rate) minus the documented integrated rate lambda0*T*dt + sum of outgoing weight times event count.", "quantifier": "every data set, every K, B, T and parameters with positive rates, counts below 2^32", "why_tests_cant": "Sparsity patterns are unbounded.", "anchors": ["pyhawkes/internals/parents.py:DiscreteTimeParents.__init__", "pyhawkes/internals/parents.py:DiscreteTimeParents.log_likelihood_single_process", "pyhawkes/models.py:_DiscreteTimeNetworkHawkesModelBase.log_likelihood"]}
{"id": "C09", "title": "Training log likelihood never exceeds the held-out Poisson log likelihood", "statement": "For a normalised basis and impulse weights summing to one, log_likelihood() of a data set is at most heldout_log_likelihood() of the same counts, with equality when there are no events close enough to the end for their impulse response to be truncated.", "quantifier": "every data set and nonnegative parameter setting", "why_tests_cant": "The two code paths use different integrated-rate formulas; the relation must hold for all data.", "anchors": ["pyhawkes/internals/parents.py:DiscreteTimeParents.log_likelihood_single_process", "pyhawkes/models.py:_DiscreteTimeNetworkHawkesModelBase._poisson_log_likelihood", "pyhawkes/models.py:_DiscreteTimeNetworkHawkesModelBase.heldout_log_likelihood"]}
{"id": "C10", "title": "Minibatching partitions the data and preserves the log likelihood", "statement": "add_data(S, minibatchsize=m) appends consecutive blocks of at most m bins that concatenate to S and to its filtered version (so history is not cut at block boundaries), and the total log likelihood and sufficient statistics equal those of adding S whole.", "quantifier": "every T, every m >= 1, all data", "why_tests_cant": "All T/m combinations including m > T and m not dividing T.", "anchors": ["pyhawkes/models.py:_DiscreteTimeNetworkHawkesModelBase.add_data", "pyhawkes/models.py:DiscreteTimeStandardHawkesModel.add_data"]}
{"id": "C11", "title": "Every event is assigned to exactly one parent", "statement": "After the discrete parents are resampled (counts below 2^32), in every bin and process the counts assigned to background and to all (source process, basis function) parents sum to the observed event count, and no event is assigned to a parent with zero rate.", "quantifier": "every data set with counts below 2^32, every parameter setting with positive background rate, every outcome of the multinomial draws", "why_tests_cant": "All draw outcomes and sparsity patterns.", "anchors": ["pyhawkes/internals/parents.py:DiscreteTimeParents._resample_Z_python", "pyhawkes/internals/parents.py:DiscreteTimeParents._resample_Z_gsl"]}
{"id": "C12", "title": "Both parent samplers use the same valid probability vector", "statement": "The pure python and the GSL code paths compute, for every event bin, the same probability vector; it is nonnegative, sums to one, has background mass lambda0/rate, and its entry for (source, basis) is weight*impulse*filtered count divided by the total rate.", "quantifier": "every K, B, data row and nonnegative parameters with lambda0 > 0", "why_tests_cant": "Two implementations with different flattening orders must agree for every K and B.", "anchors": ["pyhawkes/internals/parents.py:DiscreteTimeParents._resample_Z_python", "pyhawkes/internals/parents.py:DiscreteTimeParents._resample_Z_gsl"]}
{"id": "C13", "title": "Parent sufficient statistics conserve events", "statement": "For parents that add up to the data: background count plus weight statistics summed over sources equals the number of events of each process; impulse statistics summed over basis functions equal the weight statistics; expected statistics obey the same laws; exposure entries equal T*dt and the per-process event counts.", "quantifier": "every K, B, parent array and data set", "why_tests_cant": "reshape/ravel conventions for all K, B.", "anchors": ["pyhawkes/internals/parents.py:DiscreteTimeParents.compute_bkgd_ss", "pyhawkes/internals/parents.py:DiscreteTimeParents.compute_approx_weight_ss", "pyhawkes/internals/parents.py:DiscreteTimeParents.compute_ir_ss", "pyhawkes/internals/parents.py:DiscreteTimeParents.compute_exp_weight_ss"]}
{"id": "C14", "title": "Mean-field parent updates conserve expected events and agree across implementations", "statement": "The mean-field update sets nonnegative expected parent counts whose row sums equal the observed counts, and the cython kernel computes the same values as the python implementation, whatever the order in which its parallel loop runs.", "quantifier": "every K, B, T, positive expectations, and every schedule of the parallel loop", "why_tests_cant": "All schedules and sizes.", "anchors": ["pyhawkes/internals/parents.py:DiscreteTimeParents._mf_update_Z_python", "pyhawkes/internals/parent_updates.pyx:mf_update_Z"]}
{"id": "C15", "title": "Mean-field parent update maximises its part of the variational bound", "statement": "Among all nonnegative expected-parent rows with the observed row sum, the row written by the mean-field update gives the largest value of the corresponding term of the variational lower bound.", "quantifier": "every competing row, all parameters", "why_tests_cant": "An optimality claim over a continuum of alternatives.", "anchors": ["pyhawkes/internals/parents.py:DiscreteTimeParents._mf_update_Z_python", "pyhawkes/internals/parents.py:DiscreteTimeParents.get_vlb_python"]}
{"id": "C16", "title": "Background rates are drawn from their exact conditional", "statement": "The gamma distribution used to resample the background rates is, for any collection of data sets, proportional to prior times Poisson likelihood of the background-assigned events over the total observed time.", "quantifier": "every list of data sets (including empty), every hyperparameter, every candidate rate", "why_tests_cant": "Equality of unnormalised densities for every lambda and every list of data sets.", "anchors": ["pyhawkes/internals/bias.py:GammaBias.resample", "pyhawkes/internals/parents.py:DiscreteTimeParents.compute_bkgd_ss"]}
{"id": "C17", "title": "Weights are drawn from their exact conditional given edges and parents", "statement": "The gamma distribution used to resample the weights is proportional to the gamma prior times the likelihood of the assigned children and of the exposure of present edges; right after a parent update an absent edge has its weight drawn from the prior.", "quantifier": "every list of data sets, adjacency and hyperparameters", "why_tests_cant": "Density identity for all weights and histories.", "anchors": ["pyhawkes/internals/weights.py:SpikeAndSlabGammaWeights.resample_W_given_A_and_z", "pyhawkes/internals/weights.py:SpikeAndSlabContinuousTimeGammaWeights.resample_W_given_A_and_z"]}
{"id": "C18", "title": "Impulse weights are drawn from their exact conditional", "statement": "The Dirichlet used for each pair of processes is proportional to the prior times the multinomial likelihood of basis assignments pooled over all data sets.", "quantifier": "every list of data sets, K, B, prior", "why_tests_cant": "Density identity for all points of the simplex.", "anchors": ["pyhawkes/internals/impulses.py:DirichletImpulseResponses.resample"]}
{"id": "C19", "title": "Edges are drawn from their exact conditional; impossible and certain edges stay put", "statement": "Each adjacency entry is set to 1 exactly when the uniform draw falls below prior odds times likelihood ratio, i.e. with the Bernoulli conditional probability; entries with prior probability 0 are always absent and with prior probability 1 always present.", "quantifier": "every prior probability in [0,1], every pair of finite log likelihoods, every uniform draw in [0,1)", "why_tests_cant": "Includes the IEEE special values -inf arising from log(0), for all draws.", "anchors": ["pyhawkes/internals/weights.py:SpikeAndSlabGammaWeights._resample_A_given_W", "pyhawkes/internals/parallel_adjacency_resampling.py:_resample_column_of_A", "pyhawkes/internals/parallel_adjacency_resampling.py:_ct_resample_column_of_A"]}
{"id": "C20", "title": "Parallel adjacency resampling equals the serial sweep under every schedule", "statement": "Resampling the columns of A in worker processes, in any completion order, gives the same matrix as the serial double loop fed the same per-entry uniforms.", "quantifier": "every K, data, parameters, uniforms, and every order in which columns are processed", "why_tests_cant": "Schedules cannot be enumerated by tests.", "anchors": ["pyhawkes/internals/weights.py:SpikeAndSlabGammaWeights._joblib_resample_A_given_W", "pyhawkes/internals/weights.py:SpikeAndSlabGammaWeights._resample_A_given_W", "pyhawkes/internals/parallel_adjacency_resampling.py:_resample_column_of_A"]}
{"id": "C21", "title": "Gamma-mixture edges are drawn with the weight integrated out", "statement": "In the gamma-mixture model the log odds used for each edge equal the log of the prior odds times the ratio of the integrals of gamma prior times child likelihood over all weights; the weight is then drawn from the conditional of the selected component.", "quantifier": "every statistic, hyperparameters, draw", "why_tests_cant": "Contains an improper-looking integral over all weights; must hold for every statistic.", "anchors": ["pyhawkes/internals/weights.py:GammaMixtureWeights._resample_A", "pyhawkes/internals/weights.py:GammaMixtureWeights._resample_W_given_A"]}
{"id": "C22", "title": "Block model parameters are drawn from their conditionals", "statement": "The beta, gamma and Dirichlet parameters used for p, v and m of the stochastic block model are proportional to prior times the likelihood of the current adjacency matrix, weights and block labels; block labels are drawn from the log probabilities of the resulting network.", "quantifier": "every K, C, labels, adjacency, weights", "why_tests_cant": "All label vectors and matrices.", "anchors": ["pyhawkes/internals/network.py:GibbsSBM.resample_p", "pyhawkes/internals/network.py:GibbsSBM.resample_v", "pyhawkes/internals/network.py:GibbsSBM.resample_c", "pyhawkes/internals/network.py:GibbsSBM.resample_m"]}
{"id": "C23", "title": "Fixed network parameters never change", "statement": "A network whose c, p and v are all given never changes under any number of sampler iterations; a fixed-sparsity network never changes p; an Erdos-Renyi fixed-sparsity network changes its scale only when a gamma prior with nonzero alpha and beta was given.", "quantifier": "every history of resample calls with any data and draws", "why_tests_cant": "Histories are unbounded.", "anchors": ["pyhawkes/internals/network.py:GibbsSBM.resample", "pyhawkes/internals/network.py:StochasticBlockModelFixedSparsity.resample", "pyhawkes/internals/network.py:ErdosRenyiFixedSparsity.resample"]}
{"id": "C24", "title": "Sampler state stays valid forever", "statement": "After any sequence of add_data / resample_model calls on the spike-and-slab model: adjacency entries are 0/1, weights and rates are nonnegative, impulse weights are probability vectors, forbidden self edges are absent, and every data set keeps its parents consistent with its counts once resampled. The constructor accepts exactly networks of the right size that do not combine instantaneous effects with self connections.", "quantifier": "every history of operations and every outcome of the draws within the samplers ranges", "why_tests_cant": "Invariant over unbounded histories.", "anchors": ["pyhawkes/models.py:DiscreteTimeNetworkHawkesModelSpikeAndSlab.resample_model", "pyhawkes/models.py:_DiscreteTimeNetworkHawkesModelBase.add_data"]}
{"id": "C25", "title": "Continuous-time add_data accepts exactly valid event lists and is atomic", "statement": "add_data succeeds exactly when times are sorted, lie in [0,T), labels match in length and lie in 0..K-1; on rejection the list of data sets is unchanged, on success exactly one data set with those events is appended.", "quantifier": "every time list, label list, T and K", "why_tests_cant": "All malformed inputs and the state after each failure.", "anchors": ["pyhawkes/models.py:ContinuousTimeNetworkHawkesModel.add_data", "pyhawkes/internals/parents.py:ContinuousTimeParents.__init__"]}
{"id": "C26", "title": "Continuous parents: valid and drawn with the right probability", "statement": "The sampled parent of event n is background or an earlier event whose lag is at least 1e-8 and at most dt_max-1e-8 with positive weight; the set of uniform draws selecting a given parent is an interval whose length is its rate divided by the total rate; this holds for every schedule of the parallel loop and the serial kernel gives the same result.", "quantifier": "every sorted event list, parameters with positive background rate, uniform draws in [0,1), loop schedules", "why_tests_cant": "Exact sampling probabilities and all schedules.", "anchors": ["pyhawkes/internals/continuous_time_helpers.pyx:ct_resample_Z_logistic_normal", "pyhawkes/internals/continuous_time_helpers.pyx:ct_resample_Z_logistic_normal_serial", "pyhawkes/internals/parents.py:ContinuousTimeParents.resample"]}
{"id": "C27", "title": "Early termination of the backward scan loses nothing", "statement": "Because event times are sorted, stopping the backward scan at the first event older than dt_max gives the same total rate as summing over all earlier events in the window; without sorting this would be false.", "quantifier": "every sorted event list and every event", "why_tests_cant": "All lists; the necessity of sorting needs a witness.", "anchors": ["pyhawkes/internals/continuous_time_helpers.pyx:ct_resample_Z_logistic_normal", "pyhawkes/internals/continuous_time_helpers.pyx:compute_rate_at_events", "pyhawkes/internals/continuous_time_helpers.pyx:compute_weighted_impulses_at_events"]}
{"id": "C28", "title": "Continuous sufficient statistics conserve events and never read out of bounds", "statement": "For any parent assignment in {-1,...,n-1} the background statistics plus the column sums of the weight statistics equal the event counts of each process, the impulse count statistic equals the weight statistic, and no array access is out of bounds; an unassigned parent (-2) would read out of bounds.", "quantifier": "every event list, label list and parent assignment", "why_tests_cant": "Memory safety with bounds checks disabled is a for-all statement.", "anchors": ["pyhawkes/internals/continuous_time_helpers.pyx:ct_compute_suff_stats", "pyhawkes/internals/parents.py:ContinuousTimeParents.resample"]}
{"id": "C29", "title": "Rates at events agree between likelihood and adjacency resampling", "statement": "The instantaneous rate used by log_likelihood equals background plus the adjacency-weighted sum of the precomputed impulses used when resampling A, for every event.", "quantifier": "every sorted data set, 0/1 adjacency, nonnegative weights", "why_tests_cant": "Two kernels, all data.", "anchors": ["pyhawkes/internals/continuous_time_helpers.pyx:compute_rate_at_events", "pyhawkes/internals/continuous_time_helpers.pyx:compute_weighted_impulses_at_events", "pyhawkes/internals/parallel_adjacency_resampling.py:_ct_log_likelihood_single_process", "pyhawkes/models.py:ContinuousTimeNetworkHawkesModel.log_likelihood"]}
{"id": "C30", "title": "Generated continuous data is always valid input", "statement": "Whatever the random draws, generate(T) either fails with the recursion-depth assertion leaving the model unchanged, or returns sorted event times in [0,T) with labels in 0..K-1, which add_data accepts; every non-background event follows its parent by a lag in (0, dt_max) along an existing edge.", "quantifier": "every outcome of the draws, every parameter setting, T > 0, max_round", "why_tests_cant": "All cascades of unbounded size.", "anchors": ["pyhawkes/models.py:ContinuousTimeNetworkHawkesModel.generate"]}
{"id": "C31", "title": "Continuous impulse responses have unit area", "statement": "The logistic-normal impulse response integrates to one over (0, dt_max), so each event on k1 adds exactly W[k1,k2] expected events on k2, and compute_integrated_rate is lambda0*T plus that count-weighted sum.", "quantifier": "every mean, positive precision and dt_max", "why_tests_cant": "An integral identity over a continuum of parameters.", "anchors": ["pyhawkes/internals/impulses.py:ContinuousTimeImpulseResponses.impulse", "pyhawkes/models.py:ContinuousTimeNetworkHawkesModel.compute_integrated_rate"]}
{"id": "C32", "title": "Continuous background rates use all data sets", "statement": "Resampling the continuous-time background rates uses the background events and durations of every data set that was added.", "quantifier": "every list of data sets", "why_tests_cant": "Only visible with two or more data sets; claim ranges over all lists.", "anchors": ["pyhawkes/internals/bias.py:ContinuousTimeGammaBias._get_suff_statistics", "pyhawkes/internals/bias.py:ContinuousTimeGammaBias.resample"]}
{"id": "C33", "title": "Continuous impulse parameters are drawn from the normal-gamma posterior", "statement": "The parameters used to resample the mean and precision of the logistic-normal impulse responses are the normal-gamma posterior given all parent-child lags of all data sets; with no lags they equal the prior.", "quantifier": "every list of data sets and parent assignments", "why_tests_cant": "All lists; pooled versus per-data-set sums of squares only differ with several data sets.", "anchors": ["pyhawkes/internals/impulses.py:ContinuousTimeImpulseResponses.resample", "pyhawkes/internals/continuous_time_helpers.pyx:ct_compute_suff_stats"]}
{"id": "C34", "title": "Continuous compute_rate reports the model intensity", "statement": "compute_rate(S,C,T,dt) returns at each grid point lambda0 plus the sum over events in the preceding window of effective weight times impulse response.", "quantifier": "every event list and grid", "why_tests_cant": "Overlapping events must be summed for every configuration.", "anchors": ["pyhawkes/models.py:ContinuousTimeNetworkHawkesModel.compute_rate"]}
{"id": "C35", "title": "compute_gradient is the gradient of log_posterior", "statement": "For the standard Hawkes model compute_gradient(k) is the vector of partial derivatives of log_posterior(ks=[k]) with respect to the weights of process k (zero on forbidden self weights), and the log-space gradient used by the optimisers is the derivative with respect to log weights.", "quantifier": "every data set, positive weights, alpha >= 1, beta, k and coordinate", "why_tests_cant": "Numeric gradient checks sample points; the existing test does not even assert.", "anchors": ["pyhawkes/models.py:DiscreteTimeStandardHawkesModel.compute_gradient", "pyhawkes/models.py:DiscreteTimeStandardHawkesModel.log_posterior", "pyhawkes/models.py:DiscreteTimeStandardHawkesModel._d_log_prior_d_W"]}
{"id": "C36", "title": "The MAP objective is concave", "statement": "With alpha >= 1 (asserted by the constructor) the log posterior of each process is a concave function of its positive weights, so a stationary point is a global maximum.", "quantifier": "all pairs of weight vectors and all convex combinations, all data", "why_tests_cant": "Continuum.", "anchors": ["pyhawkes/models.py:DiscreteTimeStandardHawkesModel.log_posterior", "pyhawkes/models.py:DiscreteTimeStandardHawkesModel.__init__"]}
{"id": "C37", "title": "Gradient steps keep weights positive and forbidden self weights untouched", "statement": "Any sequence of gradient_descent_step / sgd_step calls keeps every weight positive, and with allow_self_connections=False the self weights keep exactly their initial value when momentum starts at zero.", "quantifier": "every history of steps, step sizes, momenta, minibatch choices", "why_tests_cant": "Unbounded histories.", "anchors": ["pyhawkes/models.py:DiscreteTimeStandardHawkesModel.gradient_descent_step", "pyhawkes/models.py:DiscreteTimeStandardHawkesModel.sgd_step"]}
{"id": "C38", "title": "Reading W, G and bias does not change the model and G is normalised", "statement": "The read-only properties W, bias and G of a standard model leave its weights unchanged; W[k1,k2] is the summed weight from k1 to k2; G[k1,k2,:] sums to one; W*G reproduces the weights.", "quantifier": "every weight matrix, K, B", "why_tests_cant": "Aliasing (numpy views) is invisible to value tests that read once.", "anchors": ["pyhawkes/models.py:DiscreteTimeStandardHawkesModel.G", "pyhawkes/models.py:DiscreteTimeStandardHawkesModel.W", "pyhawkes/standard_models.py:_NonlinearHawkesProcessBase.G", "pyhawkes/standard_models.py:_NonlinearHawkesProcessBase.W"]}
{"id": "C39", "title": "Held-out evaluation and copying leave the model as it was", "statement": "heldout_log_likelihood returns the log likelihood of the given data only and afterwards the list of data sets is as before; copy_sample returns a data-less copy with the same parameters and restores the original, also when an exception is raised part way.", "quantifier": "every model state, every argument, every crash point inside the call", "why_tests_cant": "Crash points and all states.", "anchors": ["pyhawkes/models.py:DiscreteTimeStandardHawkesModel.heldout_log_likelihood", "pyhawkes/models.py:DiscreteTimeStandardHawkesModel.copy_sample", "pyhawkes/models.py:_DiscreteTimeNetworkHawkesModelBase.copy_sample", "pyhawkes/models.py:ContinuousTimeNetworkHawkesModel.heldout_log_likelihood", "pyhawkes/standard_models.py:_NonlinearHawkesProcessBase.heldout_log_likelihood", "pyhawkes/standard_models.py:_NonlinearHawkesProcessBase.copy_sample"]}
{"id": "C40", "title": "Log likelihood decomposes over processes, data sets and minibatches", "statement": "For the standard model log_likelihood over all processes is the sum of the per-process values, over all data sets the sum of per-data-set values, over minibatches the value on the whole data, and log_posterior over all processes is the sum of the per-process objectives that the optimiser maximises one by one.", "quantifier": "every data list, index list and process list", "why_tests_cant": "All subsets.", "anchors": ["pyhawkes/models.py:DiscreteTimeStandardHawkesModel.log_likelihood", "pyhawkes/models.py:DiscreteTimeStandardHawkesModel.log_posterior", "pyhawkes/models.py:DiscreteTimeStandardHawkesModel.compute_rate", "pyhawkes/standard_models.py:_NonlinearHawkesProcessBase.log_likelihood"]}
{"id": "C41", "title": "Initialising to the background rate gives the best constant-rate model", "statement": "initialize_to_background_rate sets each bias to (number of events)/(observed time) over all data sets, which maximises the likelihood among all constant-rate models; fitting the homogeneous Poisson model returns that optimum with zero coupling.", "quantifier": "every data list with positive total time and at least one event per process, every competing rate", "why_tests_cant": "Optimality over a continuum.", "anchors": ["pyhawkes/models.py:DiscreteTimeStandardHawkesModel.initialize_to_background_rate", "pyhawkes/standard_models.py:_NonlinearHawkesNodeBase.initialize_to_background_rate", "pyhawkes/standard_models.py:HomogeneousPoissonNode.fit_with_bfgs"]}
{"id": "C42", "title": "Link functions are positive and invert", "statement": "For the nonlinear models link(invlink(rate)) returns the rate for every positive rate, and the rectified-linear and exponential links are strictly positive for every input, so the log likelihood is always defined.", "quantifier": "every real activation and positive rate", "why_tests_cant": "Continuum.", "anchors": ["pyhawkes/standard_models.py:LinearHawkesNode", "pyhawkes/standard_models.py:RectLinearHawkesNode", "pyhawkes/standard_models.py:ExpNonlinearHawkesNode"]}
{"id": "C43", "title": "The fitting objective is minus the per-event log likelihood plus penalties", "statement": "objective(w) equals -(log likelihood at w)/(number of events) plus the L2 and L1 penalties on the non-bias weights over the number of events, and is convex for the linear and exponential models.", "quantifier": "every data list with at least one event, every w", "why_tests_cant": "All w, all data; convexity.", "anchors": ["pyhawkes/standard_models.py:_NonlinearHawkesNodeBase.objective", "pyhawkes/standard_models.py:_NonlinearHawkesNodeBase.log_likelihood"]}
{"id": "C44", "title": "Data lists of all nodes stay in step", "statement": "In the multi-node nonlinear models all nodes always hold the same number of data sets in the same order with column k of the counts at node k, after any sequence of add_data, remove_data and heldout_log_likelihood calls, including rejected ones.", "quantifier": "every history of calls", "why_tests_cant": "Unbounded histories with failures.", "anchors": ["pyhawkes/standard_models.py:_NonlinearHawkesProcessBase.add_data", "pyhawkes/standard_models.py:_NonlinearHawkesProcessBase.remove_data", "pyhawkes/standard_models.py:_NonlinearHawkesNodeBase.add_data"]}
{"id": "C45", "title": "A standard model initialised from a network model has the same rates", "statement": "After initialize_with_gibbs_model the standard model predicts the same rate as the network model it was initialised from.", "quantifier": "every K, B, parameters and data", "why_tests_cant": "All K.", "anchors": ["pyhawkes/models.py:DiscreteTimeStandardHawkesModel.initialize_with_gibbs_model"]}
{"id": "C46", "title": "set_parameters(get_parameters()) is the identity", "statement": "The parameter tuple returned by get_parameters can be given back to set_parameters.", "quantifier": "every model", "why_tests_cant": "API contract for all models.", "anchors": ["pyhawkes/models.py:_DiscreteTimeNetworkHawkesModelBase.get_parameters", "pyhawkes/models.py:_DiscreteTimeNetworkHawkesModelBase.set_parameters"]}
{"id": "C47", "title": "check_stability decides stability", "statement": "check_stability returns True only if the weight matrix is stable (no eigenvalue with real part 1 or more), for each model class.", "quantifier": "every weight matrix", "why_tests_cant": "All matrices.", "anchors": ["pyhawkes/models.py:DiscreteTimeStandardHawkesModel.check_stability", "pyhawkes/models.py:_DiscreteTimeNetworkHawkesModelBase.check_stability"]}
{"id": "C48", "title": "Erdos-Renyi scale rules", "statement": "With no scale given v = 2*K*kappa*p so the expected total outgoing effective weight of a process is 1/2; an explicit v wins over alpha, beta; alpha alone gives v = 1/K; beta alone is rejected; P is constant p with zero diagonal when self connections are disallowed.", "quantifier": "every K, kappa, p and combination of given hyperparameters", "why_tests_cant": "Full decision table for all values.", "anchors": ["pyhawkes/internals/network.py:ErdosRenyiFixedSparsity.__init__", "pyhawkes/internals/network.py:ErdosRenyiFixedSparsity.P"]}
{"id": "C49", "title": "A stochastic block model honours the parameters it is given", "statement": "Constructing a block model with a given p, v or c keeps these values; P and V look up the block pair of each process pair, with zero diagonal of P when self connections are disallowed.", "quantifier": "every K, C, labels and parameters, every draw", "why_tests_cant": "All combinations of given/omitted parameters.", "anchors": ["pyhawkes/internals/network.py:_StochasticBlockModelBase.__init__", "pyhawkes/internals/network.py:GibbsSBM.__init__", "pyhawkes/internals/network.py:_StochasticBlockModelBase.P"]}
{"id": "C50", "title": "Variational parameters stay valid forever", "statement": "After any sequence of mean-field and stochastic mean-field steps with step sizes in (0,1] (or also 0 if no prior edge probability is 0 or 1) and minibatch fractions in (0,1], every variational shape/rate/concentration stays positive (at least the smaller of its prior and initial value), edge probabilities stay in [1e-8, 1-1e-8], and block membership rows stay probability vectors.", "quantifier": "every history of steps", "why_tests_cant": "Unbounded histories.", "anchors": ["pyhawkes/internals/bias.py:GammaBias.mf_update_lambda0", "pyhawkes/internals/impulses.py:DirichletImpulseResponses.mf_update_gamma", "pyhawkes/internals/weights.py:GammaMixtureWeights.meanfieldupdate_kappa_v", "pyhawkes/internals/weights.py:GammaMixtureWeights.meanfieldupdate_p", "pyhawkes/internals/network.py:MeanFieldSBM.mf_update_c"]}
{"id": "C51", "title": "Expected network quantities are probabilities", "statement": "expected_p lies in [0,1] with zero diagonal when self connections are disallowed, expected_p + expected_notp = 1, expected block probabilities sum to one, expected_v is positive.", "quantifier": "every variational state reachable by updates", "why_tests_cant": "All states.", "anchors": ["pyhawkes/internals/network.py:MeanFieldSBM.expected_p", "pyhawkes/internals/network.py:MeanFieldSBM.expected_notp", "pyhawkes/internals/network.py:MeanFieldSBM.expected_v", "pyhawkes/internals/network.py:MeanFieldSBM.expected_m"]}
{"id": "C52", "title": "Stochastic variational sweeps visit every time bin once per epoch", "statement": "With a constant minibatch size, consecutive sgd_step calls use consecutive nonempty windows of the data that partition the T bins and then start over; the minibatch fractions of an epoch sum to one.", "quantifier": "every T >= 1, minibatch size >= 1, number of calls", "why_tests_cant": "All T, m and unbounded call counts.", "anchors": ["pyhawkes/models.py:DiscreteTimeNetworkHawkesModelGammaMixture.sgd_step"]}
{"id": "C53", "title": "A stochastic step with the full batch and step size one is a coordinate step", "statement": "meanfield_sgdstep with minibatchfrac=1 and stepsize=1 sets exactly the same variational parameters as meanfieldupdate, for bias, impulse, weight and network models; with stepsize 0 it changes nothing.", "quantifier": "every state and statistics", "why_tests_cant": "All states.", "anchors": ["pyhawkes/internals/bias.py:GammaBias.meanfield_sgdstep", "pyhawkes/internals/impulses.py:DirichletImpulseResponses.meanfield_sgdstep", "pyhawkes/internals/weights.py:GammaMixtureWeights.meanfield_sgdstep", "pyhawkes/internals/network.py:MeanFieldSBM.meanfield_sgdstep"]}
{"id": "C54", "title": "Update flags are respected", "statement": "meanfieldupdate(update_p=False) of a block model leaves the variational parameters of p unchanged; in particular the fixed-sparsity model never changes them.", "quantifier": "every state and flag combination", "why_tests_cant": "All flag combinations.", "anchors": ["pyhawkes/internals/network.py:MeanFieldSBM.meanfieldupdate", "pyhawkes/internals/network.py:StochasticBlockModelFixedSparsity.meanfieldupdate"]}
{"id": "C55", "title": "Prior terms of the variational bound are minus KL divergences", "statement": "The bound contribution of the bias, impulse and network parameters is never positive and is zero when the variational distribution equals the prior; a bias coordinate update never decreases the total bound.", "quantifier": "every valid variational state", "why_tests_cant": "Inequality over a continuum.", "anchors": ["pyhawkes/internals/bias.py:GammaBias.get_vlb", "pyhawkes/internals/impulses.py:DirichletImpulseResponses.get_vlb", "pyhawkes/internals/distributions.py:Gamma.negentropy", "pyhawkes/internals/distributions.py:Dirichlet.negentropy", "pyhawkes/internals/parent_updates.pyx:mf_vlb"]}
{"id": "C56", "title": "The variational bound is a finite number", "statement": "get_vlb() returns a finite number for every reachable variational state, also when self connections are disallowed.", "quantifier": "every reachable state", "why_tests_cant": "Includes IEEE infinities and NaN.", "anchors": ["pyhawkes/internals/weights.py:GammaMixtureWeights.get_vlb", "pyhawkes/internals/network.py:MeanFieldSBM.expected_log_p", "pyhawkes/internals/parent_updates.pyx:mf_vlb", "pyhawkes/internals/network.py:StochasticBlockModelFixedSparsity.get_vlb"]}
{"id": "C57", "title": "Distribution helpers validate and compute the documented log densities", "statement": "Gamma, Dirichlet, Beta, Bernoulli and Discrete helpers reject invalid parameters and return the log density of the named distribution (Discrete: for an outcome given as index or one-hot vector); the expected_* methods return the means of the named quantities; the negative entropies with default expectations equal the expected log density.", "quantifier": "every parameter and point", "why_tests_cant": "All parameters.", "anchors": ["pyhawkes/internals/distributions.py:Gamma", "pyhawkes/internals/distributions.py:Dirichlet", "pyhawkes/internals/distributions.py:Beta", "pyhawkes/internals/distributions.py:Bernoulli", "pyhawkes/internals/impulses.py:DirichletImpulseResponses.log_likelihood", "pyhawkes/internals/bias.py:GammaBias.log_likelihood"]}
{"id": "C58", "title": "logistic and logit are inverse", "statement": "logit(logistic(x,m),m) = x for every real x, logistic(logit(y,m),m) = y for 0<y<m, logistic is increasing with values strictly between 0 and m.", "quantifier": "all reals and all m > 0", "why_tests_cant": "Continuum.", "anchors": ["pyhawkes/utils/utils.py:logistic", "pyhawkes/utils/utils.py:logit"]}
{"id": "C59", "title": "Discrete to continuous to discrete is the identity", "statement": "Converting counts to continuous events and binning them again with the same dt returns the original counts, for every outcome of the within-bin uniform draws; the continuous events are sorted, lie in [0,T) and keep one label per event.", "quantifier": "every count matrix whose last process has an event, every dt>0, all draws", "why_tests_cant": "All matrices and draws.", "anchors": ["pyhawkes/utils/utils.py:convert_discrete_to_continuous", "pyhawkes/utils/utils.py:convert_continuous_to_discrete"]}
{"id": "C60", "title": "Binning conserves events", "statement": "convert_continuous_to_discrete either raises or returns nonnegative counts whose (t,k) entry is the number of events of process k in bin t (last bin closed); it raises exactly when some event lies outside [T_min,T_max].", "quantifier": "every event list, dt > 0 and window", "why_tests_cant": "All lists and edge positions.", "anchors": ["pyhawkes/utils/utils.py:convert_continuous_to_discrete"]}
{"id": "C61", "title": "Unique file names are unique", "statement": "get_unique_file_name returns a name that does not exist in the directory.", "quantifier": "every directory listing and every sequence of calls that create the returned file", "why_tests_cant": "All listings and histories.", "anchors": ["pyhawkes/utils/utils.py:get_unique_file_name"]}
{"id": "C62", "title": "Time-rescaling sampler inverts the cumulative rate", "statement": "sampleInhomogeneousPoissonProc returns sorted times within the grid whose cumulative rate equals the uniform draws, and never indexes outside the grid.", "quantifier": "every increasing grid, nonnegative rates with positive total, every sorted list of draws in (0,total]", "why_tests_cant": "All grids and draws.", "anchors": ["pyhawkes/utils/poisson_process.py:sampleInhomogeneousPoissonProc"]}
{"id": "C63", "title": "Cross-correlation does not depend on chunking", "statement": "xcorr returns for every pair of columns and offset the correlation coefficient of the shifted columns, independent of the internal chunk size, with zero diagonal at offset zero.", "quantifier": "every N, T, dtmax and chunk size", "why_tests_cant": "All N relative to the chunk size.", "anchors": ["baselines/xcorr.py:xcorr"]}
{"id": "C64", "title": "Moving average is the window mean", "statement": "The smoothing used by the cross-correlation baseline returns, at each position, the mean of the window starting there.", "quantifier": "every length and window 1 <= w <= length", "why_tests_cant": "All sizes.", "anchors": ["baselines/xcorr.py:_moving_average"]}
{"id": "C65", "title": "Initialising a network model from a standard model gives valid parameters", "statement": "initialize_with_standard_model sets positive weights, impulse weights that are positive probability vectors, 0/1 adjacency equal to a threshold of the weights, background rates equal to those of the standard model, and does not alter the standard model.", "quantifier": "every standard model with nonnegative weights", "why_tests_cant": "All weight matrices.", "anchors": ["pyhawkes/models.py:_DiscreteTimeNetworkHawkesModelBase.initialize_with_standard_model", "pyhawkes/models.py:DiscreteTimeNetworkHawkesModelSpikeAndSlab.initialize_with_standard_model"]}
{"id": "C66", "title": "Gamma-mixture sampler state stays valid forever", "statement": "After any sequence of add_data / resample_model(resample_network=...) calls on the gamma-mixture model: weights are at least 1e-32, rates positive, impulse weights probability vectors, edges 0/1, network parameters valid, parents of resampled data sets add up to the counts, and resample_model never fails; with resample_network=False the network is unchanged. The constructor accepts exactly networks of the right size that do not combine instantaneous effects with self connections.", "quantifier": "every history of calls and every outcome of the random draws", "why_tests_cant": "Unbounded histories and all random outcomes.", "anchors": ["pyhawkes/models.py:DiscreteTimeNetworkHawkesModelGammaMixture.resample_model", "pyhawkes/internals/weights.py:GammaMixtureWeights"]}
{"id": "C67", "title": "Continuous-time edges are drawn from their exact conditional", "statement": "Resampling the adjacency matrix of a continuous-time model is a single-site Gibbs sweep: each edge is set with probability p*L1/(p*L1+(1-p)*L0) where L0, L1 are the likelihoods (exp of log_likelihood) of all data sets without and with the edge; entries with prior probability 0 or 1 come out 0 or 1; the parallel version returns the same matrix as the serial one for every completion order.", "quantifier": "every weights, parameters, data list, 0/1 matrix, outcome of the draws and completion order", "why_tests_cant": "All data, random outcomes and schedules.", "anchors": ["pyhawkes/internals/weights.py:ContinuousTimeSpikeAndSlabGammaWeights._resample_A_given_W", "pyhawkes/internals/weights.py:ContinuousTimeSpikeAndSlabGammaWeights._joblib_resample_A_given_W"]}
{"id": "C68", "title": "Continuous-time weights are drawn from their exact conditional", "statement": "Given edges and parents, the weight of each edge is drawn from the posterior of its gamma prior given Poisson children with mean weight times number of parent events; absent edges (which never have children after a parent update) draw from the prior.", "quantifier": "every data list with valid parent assignments, every 0/1 adjacency", "why_tests_cant": "All data and parent assignments.", "anchors": ["pyhawkes/internals/weights.py:ContinuousTimeSpikeAndSlabGammaWeights.resample_W_given_A_and_z"]}
{"id": "C69", "title": "Continuous-time sampler state stays valid forever", "statement": "After construction and any sequence of add_data / generate / resample_model calls: background rates, weights and impulse precisions are positive, edges 0/1, forbidden self edges absent, the network valid, every data set carries a valid parent assignment with its exact statistics, and a further resample_model call succeeds and keeps the events.", "quantifier": "every history of calls, every outcome of all random draws, every schedule of the parallel loops", "why_tests_cant": "Unbounded histories, all random outcomes and schedules.", "anchors": ["pyhawkes/models.py:ContinuousTimeNetworkHawkesModel.resample_model", "pyhawkes/models.py:ContinuousTimeNetworkHawkesModel.add_data", "pyhawkes/models.py:ContinuousTimeNetworkHawkesModel.generate"]}
{"id": "C70", "title": "Continuous-time log likelihood is the Poisson process log likelihood", "statement": "log_likelihood equals the sum over events of the log intensity minus the integrated rates, summed over data sets, with positive intensities, whenever no two events are exactly dt_max-1e-8 apart (at that single lag the likelihood and the parent update disagree).", "quantifier": "every valid model and list of sorted data sets", "why_tests_cant": "All event sequences.", "anchors": ["pyhawkes/models.py:ContinuousTimeNetworkHawkesModel.log_likelihood"]}
{"id": "C71", "title": "fit_with_bfgs posterior is a joint maximum", "statement": "If every per-process optimisation started by fit_with_bfgs returns a maximiser of the objective it was handed, within the bounds it was handed, the resulting weights maximise the whole log posterior of the standard model over all weight matrices within those bounds.", "quantifier": "every model, data list and every optimiser output meeting its contract", "why_tests_cant": "All data sets and optimiser results.", "anchors": ["pyhawkes/models.py:DiscreteTimeStandardHawkesModel.fit_with_bfgs", "pyhawkes/models.py:DiscreteTimeStandardHawkesModel.log_posterior"]}
{"id": "C72", "title": "Interpolated basis has the right values", "statement": "The basis handed to the models is, at every integer lag 1..dt_max, the linear interpolation of the fine basis between the two neighbouring fine samples (then normalised when requested), lies between those samples, and equals a fine sample when the lag coincides with one.", "quantifier": "every fine basis, length, number of basis functions and dt_max", "why_tests_cant": "All bases and sizes.", "anchors": ["pyhawkes/utils/basis.py:_Basis", "pyhawkes/utils/basis.py:CosineBasis.create_basis"]}
{"id": "C73", "title": "add_data accepts exactly valid inputs and stores them", "statement": "add_data on the discrete-time models succeeds exactly when the array is 2-D, integer typed, nonnegative with K columns (and, if supplied, F has the right shape), stores S and its filtered version at the end of the data list and leaves earlier entries as they were; the continuous-time add_data succeeds exactly when its stated assertions hold.", "quantifier": "every input array and model state", "why_tests_cant": "All inputs and histories.", "anchors": ["pyhawkes/models.py:_DiscreteTimeNetworkHawkesModelBase.add_data", "pyhawkes/models.py:DiscreteTimeStandardHawkesModel.add_data", "pyhawkes/models.py:ContinuousTimeNetworkHawkesModel.add_data"]}
{"id": "C74", "title": "Nonlinear fit_with_bfgs is a joint maximum", "statement": "If every per-node optimisation started by fit_with_bfgs of the nonlinear models returns a minimiser of the objective it was handed, within the bounds it was handed, the resulting weights maximise the penalised log likelihood of the whole model over all weights within those bounds.", "quantifier": "every nonlinear model, data list and every optimiser output meeting its contract", "why_tests_cant": "All data sets and optimiser results.", "anchors": ["pyhawkes/standard_models.py:_NonlinearHawkesProcessBase.fit_with_bfgs", "pyhawkes/standard_models.py:_NonlinearHawkesNodeBase.objective"]}
{"id": "C75", "title": "check_stability means finite cascades", "statement": "For nonnegative effective weights check_stability returns True exactly when every event has, in expectation, finitely many descendants over all generations; then the expected cascade sizes X are finite, nonnegative and solve X = 1 + X W.", "quantifier": "every number of processes and every nonnegative weight matrix", "why_tests_cant": "All sizes and matrices; infinite sums over generations.", "anchors": ["pyhawkes/models.py:_DiscreteTimeNetworkHawkesModelBase.check_stability", "pyhawkes/models.py:ContinuousTimeNetworkHawkesModel.check_stability"]}
{"id": "C76", "title": "Initialising a continuous-time model from a standard process gives legal parameters", "statement": "initialize_with_standard_model of the continuous-time model, given a StandardHawkesProcess with positive biases, sets background rates to the biases, weights to the summed weights clipped below at 1e-16, 0/1 edges by one common threshold with at most ceil(p*(K^2-1)) edges, impulse parameters to the least-squares fit of each pair, leaves everything else alone, and the resulting parameters are legal (positive precisions).", "quantifier": "every standard process, model state, edge probability and least-squares outcome", "why_tests_cant": "All weight matrices and solver outcomes.", "anchors": ["pyhawkes/models.py:ContinuousTimeNetworkHawkesModel.initialize_with_standard_model", "pyhawkes/standard_models.py:StandardHawkesProcess"]}
{"id": "C77", "title": "Mean-field steps are natural-gradient steps towards the exact conditional", "statement": "A mean-field (meanfieldupdate / meanfield_sgdstep) update of the background rates, impulse responses, edges and weights, and block-model parameters with step size s replaces the old factor q by the density proportional to q^(1-s) times (prior times exp of the expected log likelihood of everything that depends on the variable)^s; with s = 1 it is exactly the optimal mean-field factor given the other factors. The edge probability moves on the log-odds scale by the difference of the log evidences with and without an edge.", "quantifier": "every model, data list, variational state and step size", "why_tests_cant": "Equality of densities up to normalisation over a continuum of values and every state.", "anchors": ["pyhawkes/internals/bias.py:GammaBias.meanfieldupdate", "pyhawkes/internals/bias.py:GammaBias.meanfield_sgdstep", "pyhawkes/internals/impulses.py:DirichletImpulseResponses.meanfieldupdate", "pyhawkes/internals/weights.py:GammaMixtureWeights.meanfieldupdate_p", "pyhawkes/internals/weights.py:GammaMixtureWeights.meanfieldupdate_kappa_v", "pyhawkes/internals/network.py:StochasticBlockModel.meanfieldupdate", "pyhawkes/internals/network.py:StochasticBlockModel.mf_update_c"]}
{"id": "C78", "title": "Stochastic steps of an epoch average to the coordinate step", "statement": "With the minibatches of one epoch covering the data and minibatch fractions handed in as their relative sizes, the average over the minibatches (weighted by their fraction) of the target statistics used by a stochastic variational step equals the statistics of the full-data coordinate step for the same expected parents.", "quantifier": "every data set, minibatch partition and variational state", "why_tests_cant": "All partitions of all data sets.", "anchors": ["pyhawkes/models.py:DiscreteTimeNetworkHawkesModelGammaMixture.sgd_step", "pyhawkes/internals/bias.py:GammaBias.meanfield_sgdstep", "pyhawkes/internals/impulses.py:DirichletImpulseResponses.meanfield_sgdstep", "pyhawkes/internals/weights.py:GammaMixtureWeights.meanfield_sgdstep"]}
{"id": "C79", "title": "Coordinate updates never decrease the variational lower bound", "statement": "Each coordinate update of variational inference (expected parents, weights and edges, block probabilities, block scales, block frequencies, labels, common scale of the Erdos-Renyi network) leaves get_vlb() no smaller than before, in every state reachable by mean-field calls.", "quantifier": "every model, data set and history of mean-field calls", "why_tests_cant": "An inequality between transcendental expressions over every reachable variational state.", "anchors": ["pyhawkes/models.py:DiscreteTimeNetworkHawkesModelGammaMixture.meanfield_coordinate_descent_step", "pyhawkes/models.py:DiscreteTimeNetworkHawkesModelGammaMixture.get_vlb", "pyhawkes/internals/weights.py:GammaMixtureWeights.meanfieldupdate", "pyhawkes/internals/network.py:StochasticBlockModel.meanfieldupdate", "pyhawkes/internals/network.py:ErdosRenyiFixedSparsity.meanfieldupdate", "pyhawkes/internals/parents.py:DiscreteTimeParents.meanfieldupdate"]}
{"id": "C80", "title": "The continuous-time simulator draws from the model", "statement": "generate(T) of the continuous-time model makes exactly the draws of the Hawkes branching process: one Poisson(lambda0[k]*T) number of background events per process at uniform times, and for every returned event and every existing edge from its process exactly one Poisson(W) number of children; child lags made from a standard normal have the impulse response as their density, background times are uniform on [0,T).", "quantifier": "every generator, parameter setting, window and cascade", "why_tests_cant": "Cascades are unbounded, and the laws of the lags are statements about densities, not samples.", "anchors": ["pyhawkes/models.py:ContinuousTimeNetworkHawkesModel.generate", "pyhawkes/internals/impulses.py:ContinuousTimeImpulseResponses.impulse"]}
{"id": "C81", "title": "Reported log priors and joint log probabilities are log densities", "statement": "log_probability() of the background rates, weights, impulse responses and network objects is the log density of their current values under their prior, and log_prior()/log_probability() of a model is the log density of all parameters / of data and parameters, in every state the sampler can reach.", "quantifier": "every number of processes, blocks and basis functions, every prior and every reachable parameter state", "why_tests_cant": "Equality of transcendental expressions over all parameter values and sizes; edge cases (probability 0 or 1) involve nan propagation.", "anchors": ["pyhawkes/internals/bias.py:GammaBias.log_probability", "pyhawkes/internals/weights.py:SpikeAndSlabGammaWeights.log_probability", "pyhawkes/internals/weights.py:GammaMixtureWeights.log_probability", "pyhawkes/internals/impulses.py:DirichletImpulseResponses.log_probability", "pyhawkes/internals/network.py:StochasticBlockModel.log_probability", "pyhawkes/internals/network.py:StochasticBlockModelFixedSparsity.log_likelihood", "pyhawkes/internals/network.py:ErdosRenyiFixedSparsity.log_probability", "pyhawkes/models.py:DiscreteTimeNetworkHawkesModelSpikeAndSlab.log_probability", "pyhawkes/models.py:ContinuousTimeNetworkHawkesModel.log_probability"]}
{"id": "C82", "title": "Drawing parameters from the variational distribution", "statement": "In every state reached by mean-field steps resample_from_mf() succeeds and sets valid parameters (positive rates and weights, 0/1 edges, probability vectors, valid network parameters) without touching variational parameters or data; with generators that follow their documented laws the drawn parameters have exactly the means and log means that the expected_* methods report, and the mean rate is the rate of the mean parameters; loops that mix draws with mean-field steps and get_vlb() read the same bounds and end in the same variational state as without the draws.", "quantifier": "every model, variational state, history of calls, and every outcome and joint law of the generators", "why_tests_cant": "Means over continuous distributions in every reachable state; every interleaving of calls.", "anchors": ["pyhawkes/models.py:DiscreteTimeNetworkHawkesModelGammaMixture.resample_from_mf", "pyhawkes/internals/bias.py:GammaBias.resample_from_mf", "pyhawkes/internals/weights.py:GammaMixtureWeights.resample_from_mf", "pyhawkes/internals/impulses.py:DirichletImpulseResponses.resample_from_mf", "pyhawkes/internals/network.py:StochasticBlockModel.resample_from_mf", "pyhawkes/internals/network.py:ErdosRenyiFixedSparsity.resample_from_mf"]}
{"id": "C83", "title": "resample_model leaves the posterior distribution invariant", "statement": "For the spike-and-slab model with an ErdosRenyiFixedSparsity network (weight scale given or learned), or with a learned one-block network (ErdosRenyiModel, the default StochasticBlockModel with C=1 and self connections: edge probability and weight scale learned): if the joint distribution of the edge probability (where learned), adjacency matrix, weight scale, weights, background rates and impulse weights is the Bayesian posterior given the data added with add_data, then resample_model() succeeds and afterwards they again have exactly that distribution; so every state of a chain of calls started from the posterior is an exact posterior sample. The posterior is a proper probability distribution.", "quantifier": "every number of processes, basis functions and data sets, every data set, prior and number of calls; generators that are only assumed to have their documented laws", "why_tests_cant": "An equality of probability measures on an unbounded-dimensional continuous/discrete space; sampling tests can only detect gross deviations.", "anchors": ["pyhawkes/models.py:DiscreteTimeNetworkHawkesModelSpikeAndSlab.resample_model", "pyhawkes/internals/parents.py:DiscreteTimeParents.resample", "pyhawkes/internals/bias.py:GammaBias.resample", "pyhawkes/internals/impulses.py:DirichletImpulseResponses.resample", "pyhawkes/internals/weights.py:SpikeAndSlabGammaWeights.resample", "pyhawkes/internals/network.py:ErdosRenyiFixedSparsity.resample"]}
{"id": "C84", "title": "Continuous-time resample_model leaves the posterior distribution invariant", "statement": "For the continuous-time model with an ErdosRenyiFixedSparsity network, or with a one-block StochasticBlockModel (its default C=1; also ErdosRenyiModel) whose p and v are learned, and one data set: if the parameters (A, W, lambda0, mu, tau, v, and p when learned) are distributed according to the posterior given the events (documented prior times exp(log_likelihood())), then resample_model() succeeds and the parameters it leaves have the same distribution; likewise after any number of successive calls. The posterior is a proper probability distribution. Needs: no two events exactly dt_max - 1e-8 apart (C70), one data set (with several the impulse update is wrong, C33).", "quantifier": "all numbers of processes and events, event times and labels, hyperparameters, thread schedules of the parent update, serial or parallel adjacency update, random generators with the documented laws, numbers of calls", "why_tests_cant": "a statement about probability distributions over a continuous parameter space; a test can only compare histograms", "anchors": ["pyhawkes/models.py:ContinuousTimeNetworkHawkesModel.resample_model", "pyhawkes/internals/parents.py:ContinuousTimeParents.resample", "pyhawkes/internals/impulses.py:ContinuousTimeImpulseResponses.resample", "pyhawkes/internals/bias.py:ContinuousTimeGammaBias.resample", "pyhawkes/internals/weights.py:SpikeAndSlabContinuousTimeGammaWeights.resample", "pyhawkes/internals/network.py:ErdosRenyiFixedSparsity.resample"]}
{"id": "C85", "title": "Gamma-mixture resample_model leaves the posterior distribution invariant", "statement": "For the gamma-mixture model with an ErdosRenyiFixedSparsity network, or with a learned one-block network (ErdosRenyiModel, or StochasticBlockModel with its default C=1; then the edge probability p is a parameter too): if the parameters (A, W, lambda0, g, v) are distributed according to the posterior given the data (documented prior \u2014 W[i,j] ~ Gamma(kappa, v) if A[i,j]=1, else Gamma(kappa_0, nu_0) \u2014 times exp(log_likelihood())), then resample_model(resample_network) succeeds and the parameters it leaves have the same distribution; likewise after any number of successive calls. The posterior is a proper probability distribution.", "quantifier": "all numbers of processes, basis functions, data sets and time bins, count matrices, hyperparameters, random generators with the documented laws, numbers of calls, with or without the network update", "why_tests_cant": "a statement about probability distributions over a continuous parameter space; a test can only compare histograms", "anchors": ["pyhawkes/models.py:DiscreteTimeNetworkHawkesModelGammaMixture.resample_model", "pyhawkes/internals/weights.py:GammaMixtureWeights.resample", "pyhawkes/internals/weights.py:GammaMixtureWeights._resample_A", "pyhawkes/internals/weights.py:GammaMixtureWeights._resample_W_given_A", "pyhawkes/internals/network.py:ErdosRenyiFixedSparsity.resample", "pyhawkes/internals/bias.py:GammaBias.resample", "pyhawkes/internals/impulses.py:DirichletImpulseResponses.resample"]}
{"id": "C86", "title": "Starting mean-field inference from a Gibbs sample", "statement": "After initialize_from_gibbs(A, W, scale) with a 0/1 adjacency matrix, positive weights and positive scale, the variational state is legal: any sequence of mean-field updates, draws and bounds succeeds and stays valid; the expected edges are 0.95 where the sample has an edge and 0.05 elsewhere, the expected weight given an edge is the sampled weight with variance W/scale, the expected weight given no edge is the prior mean of the spike; a draw from the variational distribution right after it draws the weights of the absent edges independently.", "quantifier": "all samples, scales, models and later histories of calls", "why_tests_cant": "every later history; statements about means and variances", "anchors": ["pyhawkes/internals/weights.py:GammaMixtureWeights.initialize_from_gibbs", "pyhawkes/internals/weights.py:GammaMixtureWeights.resample_from_mf", "pyhawkes/internals/weights.py:GammaMixtureWeights.expected_W"]}
{"id": "C87", "title": "Reported impulse response curves describe the rate", "statement": "The curves returned by the discrete-time impulses property are the ones that generate the rate: the rate of a process is its background plus the sum over earlier events of the effective weight times the curve at the lag. With a normalised basis every curve has unit area, is nonnegative, and is zero at lag 0 if the basis is. In continuous time, impulses and compute_impulses report, at evenly spaced lags from 0 to dt_max, the (finite, positive) impulse response of the model at that lag.", "quantifier": "all bases, impulse weights, count matrices; all continuous-time parameters and lags", "why_tests_cant": "all real parameters and lags, including the end points", "anchors": ["pyhawkes/internals/impulses.py:DirichletImpulseResponses.impulses", "pyhawkes/internals/impulses.py:ContinuousTimeImpulseResponses.impulses", "pyhawkes/models.py:ContinuousTimeNetworkHawkesModel.compute_impulses", "pyhawkes/models.py:ContinuousTimeNetworkHawkesModel.get_parameters"]}
{"id": "C88", "title": "The approximate firing rate is an average of the empirical rates", "statement": "approximateFiringRate(S, (T_start, T_stop), N_bins) returns N_bins values, each between the smallest and largest empirical rate (events per bin width); inside the window each value is the Gaussian-weighted average of the nine surrounding bins; every event of the window is counted exactly once and no other; smoothing leaves the total area unchanged; an empty or reversed window or no bins never yields a rate.", "quantifier": "all spike lists, windows and bin numbers", "why_tests_cant": "all real spike times, boundary bins and bin numbers", "anchors": ["pyhawkes/utils/poisson_process.py:approximateFiringRate"]}
{"id": "C89", "title": "The two implementations of the impulses at events agree", "statement": "The reference implementation of the weighted impulses received at each event and the compiled one return the same values (transposed), up to the accuracy of the literal used for sqrt(2 pi).", "quantifier": "all event times, labels, parameters", "why_tests_cant": "all real event times, including ties and events close to the window boundary", "anchors": ["pyhawkes/internals/weights.py:SpikeAndSlabContinuousTimeGammaWeights._compute_weighted_impulses_at_events_manual", "pyhawkes/internals/weights.py:SpikeAndSlabContinuousTimeGammaWeights._compute_weighted_impulses_at_events", "pyhawkes/internals/continuous_time_helpers.pyx:compute_weighted_impulses_at_events"]}
{"id": "C90", "title": "The discrete-time simulator draws from the model, and heldout_log_likelihood is the log of its probability", "statement": "With independent Poisson draws, generate(T) returns the count matrix s with probability the product over bins and processes of Poisson probabilities whose means are the model's rate (background plus weighted filtered history of s) times dt; heldout_log_likelihood(s) is the logarithm of that probability up to a constant depending only on the counts and dt.", "quantifier": "all sizes, positive background rates, nonnegative weights, impulse weights, causal bases, count matrices, Poisson samplers", "why_tests_cant": "a statement about the joint distribution of an adaptive sequence of draws", "anchors": ["pyhawkes/models.py:_DiscreteTimeNetworkHawkesModelBase.generate", "pyhawkes/models.py:_DiscreteTimeNetworkHawkesModelBase.heldout_log_likelihood", "pyhawkes/models.py:_DiscreteTimeNetworkHawkesModelBase.compute_rate"]}
{"id": "C91", "title": "The distribution sampled by resample_model is the conditional distribution of the parameters given simulated data", "statement": "If parameters are drawn from the prior and the data sets are simulated by generate with those parameters, the distribution that resample_model leaves invariant is the conditional distribution of the parameters given the data.", "quantifier": "all sizes, hyperparameters, numbers of data sets, count matrices; spike-and-slab and gamma-mixture models, fixed and learned one-block networks", "why_tests_cant": "a statement about the joint distribution of parameters and data", "anchors": ["pyhawkes/models.py:_DiscreteTimeNetworkHawkesModelBase.generate", "pyhawkes/models.py:DiscreteTimeNetworkHawkesModelSpikeAndSlab.resample_model", "pyhawkes/models.py:_DiscreteTimeNetworkHawkesModelBase.log_likelihood"]}
{"id": "C92", "title": "The standard model's compute_rate is bias plus weighted filtered history of the data set asked for", "statement": "After add_data(S), compute_rate of that data set (by position, or -1 for the latest, or by default for the first one) returns for every process asked for (one, several, all) the bias weight plus the weighted causally filtered counts of S; adding further data changes no earlier rate.", "quantifier": "all sizes, weights, bases, count arrays, sequences of add_data calls, choices of processes", "why_tests_cant": "all arrays and histories", "anchors": ["pyhawkes/models.py:DiscreteTimeStandardHawkesModel.compute_rate", "pyhawkes/models.py:DiscreteTimeStandardHawkesModel.add_data"]}
{"id": "C93", "title": "check_stability decides whether simulated data stay bounded in expectation", "statement": "For generate() of the discrete-time network model with a basis of unit area that does not react within the same bin: the expected counts satisfy the rate equation with the expected history in place of the history; if check_stability() returns True, the expected rates increase from bin to bin and converge to the stationary rate (background rates times the expected sizes of the cascades they start, X = 1 + X W), and never exceed it; if it returns False, the expected counts of some process grow without bound.", "quantifier": "all numbers of processes 0 < K < 100, nonnegative effective weights, positive background rates, impulse weights, bases, bin widths, simulation lengths, Poisson samplers and probability spaces", "why_tests_cant": "A statement about expectations over all random outcomes and about the limit of ever longer simulations.", "anchors": ["pyhawkes/models.py:_DiscreteTimeNetworkHawkesModelBase.generate", "pyhawkes/models.py:_DiscreteTimeNetworkHawkesModelBase.check_stability"]}
{"id": "C94", "title": "Repeated sampling converges to the posterior distribution from every valid start", "statement": "For a spike-and-slab network model (discrete or continuous time) with a fixed or a learned one-block network: whatever valid state the sampler is started from, the distribution of the parameters after n calls of resample_model() gets within any given distance of the posterior given the data, uniformly over all events, once n is large enough; no call raises; and the posterior is the only distribution of the parameters that a call leaves unchanged.", "quantifier": "all sizes, hyperparameters, data sets, valid (random) starting states, numbers of sweeps, probability spaces and generators whose draws are independent of the past and have the distributions asked for", "why_tests_cant": "a limit statement about the distribution of the sampler over all random outcomes and all starting points", "anchors": ["pyhawkes/models.py:DiscreteTimeNetworkHawkesModelSpikeAndSlab.resample_model", "pyhawkes/models.py:ContinuousTimeNetworkHawkesModel.resample_model"]}
{"id": "C95", "title": "Averages over posterior samples converge to posterior expectations", "statement": "For the models of C94: whatever valid state the sampler is started from and whatever burn-in is discarded, the average of any function of the parameters over the states returned by successive calls of resample_model() is as close as wanted to its posterior expectation, except with arbitrarily small probability, once enough samples are averaged. In particular the fraction of samples in which an edge is present converges to the posterior probability of the edge, and the average of the sampled background rates to their posterior mean.", "quantifier": "all models of C94, all integrable functions of the parameters, all valid (random) starting states, burn-in lengths, numbers of samples, probability spaces and generators", "why_tests_cant": "a law of large numbers: a limit statement over all random outcomes", "anchors": ["pyhawkes/models.py:DiscreteTimeNetworkHawkesModelSpikeAndSlab.resample_model", "pyhawkes/models.py:ContinuousTimeNetworkHawkesModel.resample_model"]}
{"id": "C96", "title": "Sampling a network with several blocks converges to its joint posterior", "statement": "For a model (discrete time, or continuous time with one data set) whose network is a StochasticBlockModelFixedSparsity with any number of blocks, one connection probability given as a number and allow_self_connections=False, learned: the joint posterior over adjacency matrix, block labels, block probabilities, weight scales, weights, background rates and impulse responses is a probability distribution; resample_model never fails and maps it to itself; from any valid starting state with positive block probabilities the distribution of the parameters after t calls converges to it in total variation and sample averages converge to posterior expectations. With random number generators that produce the documented distributions.", "quantifier": "every number of processes and blocks, hyperparameters, data and valid starting state; every number of calls", "why_tests_cant": "A statement about joint distributions over mixed discrete and continuous parameters in the limit of infinitely many calls; a test sees one finite run", "anchors": ["pyhawkes/internals/network.py:StochasticBlockModelFixedSparsity.resample", "pyhawkes/internals/network.py:GibbsSBM.resample_c", "pyhawkes/internals/network.py:GibbsSBM.resample_v", "pyhawkes/internals/network.py:GibbsSBM.resample_m", "pyhawkes/models.py:DiscreteTimeNetworkHawkesModelSpikeAndSlab.resample_model", "pyhawkes/models.py:ContinuousTimeNetworkHawkesModel.resample_model"]}
{"id": "C97", "title": "fit_with_bfgs_logspace solves the right problem", "statement": "The gradient fit_with_bfgs_logspace hands to the optimiser is the gradient of the objective it hands over, at every point; started with positive weights it ends with positive weights not exceeding W_max whatever the optimiser returns within the bounds; if each per-process optimisation returns a minimiser, the result maximises the joint log posterior over all positive weights within W_max (disallowed self weights unchanged). Minimisers exist if alpha > 1 and every process has an event that nothing precedes; for a process without events none exists.", "quantifier": "every model, data list, point of evaluation and optimiser output meeting its contract", "why_tests_cant": "All data sets, points and optimiser results.", "anchors": ["pyhawkes/models.py:DiscreteTimeStandardHawkesModel.fit_with_bfgs_logspace", "pyhawkes/models.py:DiscreteTimeStandardHawkesModel.log_posterior", "pyhawkes/models.py:DiscreteTimeStandardHawkesModel.compute_gradient"]}
{"id": "C98", "title": "Exact and approximate weight statistics agree up to truncation", "statement": "compute_exact_weight_ss and compute_weight_ss report the same numbers of attributed events. dt times the exact second statistic times the weight is what an edge adds to the expected number of events over the recording; it is at most A times the approximate one (for counts filtered with a nonnegative unit-area basis and impulse weights summing to one), and equal to it if the source has no events in the last L bins. Both statistics add up over consecutive pieces of a recording.", "quantifier": "every data set, model, pair of processes and split of the recording", "why_tests_cant": "All data sets and basis functions; the equality case is a condition on all event times.", "anchors": ["pyhawkes/internals/parents.py:DiscreteTimeParents.compute_exact_weight_ss", "pyhawkes/internals/parents.py:DiscreteTimeParents.compute_weight_ss", "pyhawkes/internals/parents.py:DiscreteTimeParents.compute_approx_weight_ss"]}
{"id": "C99", "title": "expected_log_likelihood is the log likelihood at the expected parameters and never underestimates its expectation", "statement": "expected_log_likelihood equals log_likelihood evaluated at the variational means. With self connections allowed, it is at least the expectation of the log likelihood when the parameters follow the variational distribution, and larger whenever some event comes in a bin that no earlier event influences. (The documentation calls it a lower bound; it is not.)", "quantifier": "every legal variational state, data set, probability space and independent generators with the documented laws", "why_tests_cant": "An inequality between integrals over all parameter values.", "anchors": ["pyhawkes/internals/parents.py:DiscreteTimeParents.expected_log_likelihood", "pyhawkes/models.py:DiscreteTimeNetworkHawkesModelGammaMixture.resample_from_mf"]}
{"id": "C100", "title": "infer_net_from_xcorr scores pairs by total absolute correlation over the lags", "statement": "With a nonzero smoothing window (or none) and at most one more lag than (smoothed) rows, the call succeeds. Entry (i,j) is the sum over the lags d < dtmax of the absolute correlation of column i with column j taken d rows later, without lag 0 on the diagonal, and nan exactly if one of these samples is constant. Scores lie between 0 and dtmax (dtmax-1 on the diagonal), do not change when columns are rescaled or shifted, and are at least 1 if column j repeats column i at one of the lags.", "quantifier": "every recording, number of columns, number of lags and smoothing window", "why_tests_cant": "All real arrays, all sizes and all affine changes of units.", "anchors": ["baselines/xcorr.py:infer_net_from_xcorr", "baselines/xcorr.py:xcorr", "baselines/xcorr.py:_moving_average"]}
{"id": "C101", "title": "The fitting problem of the nonlinear models has a solution", "statement": "The problem fit_with_bfgs hands to the optimiser has a solution: for linear nodes with nonnegative regressors always (penalties optional), so the fitted linear model has all weights at least 1e-16 and a finite likelihood; for exponential and rectified-linear nodes whenever one of the two penalties is on. Without penalties, the default, an exponential or rectified-linear node has no best weights as soon as some regressor is positive only in bins without events.", "quantifier": "every node, number of processes and basis functions, data list and penalty values", "why_tests_cant": "Existence of a minimiser over an unbounded set, for all data.", "anchors": ["pyhawkes/standard_models.py:_NonlinearHawkesNodeBase.fit_with_bfgs", "pyhawkes/standard_models.py:_NonlinearHawkesNodeBase.objective", "pyhawkes/standard_models.py:LinearHawkesNode"]}
{"id": "C102", "title": "resample_Z_python draws parents from the same conditional distribution as resample", "statement": "The pure-Python parent sampler of the continuous-time model succeeds on sorted events, draws every parent independently with probability proportional to background rate and effective weight times impulse response, and stores the counts of background events and children and the statistics that the impulse update needs.", "quantifier": "every event list, parameter values and uniform numbers", "why_tests_cant": "Probabilities for all data and parameters; exceptional lags.", "anchors": ["pyhawkes/internals/parents.py:ContinuousTimeParents.resample_Z_python", "pyhawkes/internals/impulses.py:ContinuousTimeImpulseResponses.impulse"]}
{"id": "C103", "title": "get_vlb() is a lower bound on the log evidence", "statement": "Gamma-mixture model with a gamma prior on the weight scale and a fixed edge probability or the default learned one-block network: after any history of meanfield_coordinate_descent_step and sgd_step calls, get_vlb() is at most the logarithm of the evidence, i.e. of the likelihood averaged over the prior; so, plus the logarithm of the factor of the counts that the code leaves out, at most the log probability that parameters drawn from the prior and generate() reproduce exactly the observed counts. One bound holds for all histories.", "quantifier": "every valid model, data list, starting state and history of updates", "why_tests_cant": "An inequality with an integral over all parameters, for every reachable variational state.", "anchors": ["pyhawkes/models.py:DiscreteTimeNetworkHawkesModelGammaMixture.get_vlb", "pyhawkes/models.py:DiscreteTimeNetworkHawkesModelGammaMixture.meanfield_coordinate_descent_step", "pyhawkes/models.py:DiscreteTimeNetworkHawkesModelGammaMixture.sgd_step", "pyhawkes/internals/parents.py:DiscreteTimeParents.get_vlb"]}
{"id": "C104", "title": "Results do not depend on the numbering of the processes or the order of the data sets", "statement": "Renumber the processes of a model (parameters, variational state, counts and filtered counts permuted alike) and reorder its data sets. Then compute_rate returns the renumbered rates, heldout_log_likelihood, log_likelihood and log_probability (spike-and-slab, gamma-mixture and continuous-time models, any network) are unchanged, generate() with renumbered draws returns the renumbered counts, and, for Erdos-Renyi and one-block networks, every sequence of meanfield_coordinate_descent_step and sgd_step calls ends the same way (same error, or states that differ only by the renumbering) with the same get_vlb(). For every network the order of the data sets alone changes nothing but that order. Reals instead of doubles; networks with several blocks are excluded from the mean-field claim, because their label sweep runs through the nodes in order.", "quantifier": "all numbers of processes and basis functions, all permutations, all parameter values and data, all numbers and orders of data sets, all histories of mean-field steps", "why_tests_cant": "a test can try a few permutations of a few models; that no index is tied to a particular process number in any state after any history needs a proof by symmetry", "anchors": ["pyhawkes/models.py:_DiscreteTimeNetworkHawkesModelBase.compute_rate", "pyhawkes/models.py:_DiscreteTimeNetworkHawkesModelBase.heldout_log_likelihood", "pyhawkes/models.py:_DiscreteTimeNetworkHawkesModelBase.log_likelihood", "pyhawkes/models.py:_DiscreteTimeNetworkHawkesModelBase.log_probability", "pyhawkes/models.py:_DiscreteTimeNetworkHawkesModelBase.generate", "pyhawkes/models.py:DiscreteTimeNetworkHawkesModelGammaMixture.meanfield_coordinate_descent_step", "pyhawkes/models.py:DiscreteTimeNetworkHawkesModelGammaMixture.sgd_step", "pyhawkes/models.py:DiscreteTimeNetworkHawkesModelGammaMixture.get_vlb"]}
{"id": "C105", "title": "compute_rate(index) gives the rates of the stored recording", "statement": "compute_rate(index=i) succeeds exactly for -n <= i < n, where n is the number of stored data sets, and a negative index counts from the end. After add_data(S) the new data set reports exactly the rates of compute_rate(S=S); with a user-supplied F they are computed from F. Cut into minibatches of m bins, bin t of the recording is bin t % m of minibatch t // m and its rate is the same: the history before the minibatch is not lost. compute_rate(index, proc=p) is column p. Later add_data calls never change the rates reported for earlier recordings.", "quantifier": "all models, stored data lists, recordings, minibatch sizes, bins, processes and indices", "why_tests_cant": "a test fixes one recording and one minibatch size; the claim is about every bin of every recording for every way to cut it and every later call", "anchors": ["pyhawkes/models.py:_DiscreteTimeNetworkHawkesModelBase.compute_rate", "pyhawkes/models.py:_DiscreteTimeNetworkHawkesModelBase.add_data"]}
{"id": "C106", "title": "The pictures show the current model", "statement": "plot_network() draws one arrow for every ordered pair of different processes, visible exactly if there is an edge, its width three times the effective weight; updating the returned handles any number of times never raises and then shows the last network. plot_rates(axs, data_index) draws for each process the rates of compute_rate(data_index) over time and one stem per bin with events, in the middle of its bin; updating its handles replaces the lines by those of a new picture.", "quantifier": "all numbers of processes, networks, weights, recordings and histories of plot calls with handles", "why_tests_cant": "the handles are matched to pairs by counting, so a picture can silently show the wrong edge for some K and some history; tests look at single pictures", "anchors": ["pyhawkes/models.py:_DiscreteTimeNetworkHawkesModelBase.plot_network", "pyhawkes/models.py:_DiscreteTimeNetworkHawkesModelBase.plot_rates"]}
{"id": "C107", "title": "The numbering of the blocks carries no meaning", "statement": "Renumber the blocks of a stochastic block model (labels, link probabilities, weight scales, proportions and variational parameters moved alike, everything else untouched). Then P, V, expected_p, expected_log_p, expected_v, ... of every pair of processes, network.log_probability(), the log_prior() and log_probability() of the model and get_vlb() are unchanged; every sequence of meanfield_coordinate_descent_step and sgd_step calls ends the same way, with identical rates, impulse responses, weights, expected parents, and networks that differ only by the renumbering; and so does every sequence of add_data and resample_model calls (spike-and-slab and gamma-mixture), when the network draws are moved along: the parameters of the distributions drawn from are those of the original network, moved.", "quantifier": "all networks with any number of blocks and nodes, all permutations of the blocks, all models, data and histories of calls", "why_tests_cant": "a test can permute two blocks of one network; that no formula singles out a block number in any state after any history needs a proof by symmetry", "anchors": ["pyhawkes/internals/network.py:StochasticBlockModel", "pyhawkes/internals/network.py:StochasticBlockModelFixedSparsity", "pyhawkes/internals/network.py:MeanFieldSBM.meanfieldupdate", "pyhawkes/internals/network.py:MeanFieldSBM.get_vlb", "pyhawkes/internals/network.py:GibbsSBM.resample", "pyhawkes/internals/network.py:_StochasticBlockModelBase.log_probability", "pyhawkes/models.py:DiscreteTimeNetworkHawkesModelGammaMixture.get_vlb"]}
{"id": "C108", "title": "The unit of time carries no meaning (discrete time)", "statement": "Express every duration (dt, dt_max, the rate parameters beta of the background priors) in a unit c times smaller, and every density over time accordingly. Then the normalised basis is the old one per new unit with the same number of bins; compute_rate returns the old rates per new unit; generate with the same random numbers simulates the same counts; log_likelihood, heldout_log_likelihood and log_probability change by minus the number of events times log c, a constant that does not depend on the parameters; every history of add_data and resample_model calls with the same random numbers leads to the same edges, weights, impulse weights, network and parents, with the background rates converted; and every history of meanfield_coordinate_descent_step and sgd_step calls leads to the same variational approximation, converted. (Not claimed of get_vlb: the code leaves out the bin width, so the reported bound does depend on the unit.)", "quantifier": "all unit ratios c > 0, models, data, random draws and histories of calls", "why_tests_cant": "a test can compare one model in two units; that no formula mixes a count with a duration in any reachable state needs a proof by symmetry", "anchors": ["pyhawkes/models.py:DiscreteTimeNetworkHawkesModelSpikeAndSlab.resample_model", "pyhawkes/models.py:DiscreteTimeNetworkHawkesModelGammaMixture.meanfield_coordinate_descent_step", "pyhawkes/models.py:DiscreteTimeNetworkHawkesModelGammaMixture.sgd_step", "pyhawkes/utils/basis.py:CosineBasis", "pyhawkes/utils/basis.py:IdentityBasis", "pyhawkes/internals/bias.py:GammaBias", "pyhawkes/models.py:_DiscreteTimeNetworkHawkesModelBase.generate"]}
{"id": "C109", "title": "The unit of time carries no meaning (continuous time)", "statement": "Express every duration (event times, T, dt_max, the rate parameter beta of the background prior) in a unit c times smaller. Then compute_rate at the same instants returns the old rates per new unit; generate with the same random numbers simulates the same events, converted; compute_rate_at_events returns the old rates per new unit and log_likelihood changes by minus the number of events times log c, whatever the parameters; and every history of add_data, generate and resample_model calls with the same random numbers leads to the same edges, weights, impulse parameters, network and parents, with the background rates converted.", "quantifier": "all unit ratios c > 0, models, recordings, random draws and histories of calls", "why_tests_cant": "a test can compare one recording in two units; that no formula mixes a pure number with a duration in any reachable state needs a proof by symmetry", "anchors": ["pyhawkes/models.py:ContinuousTimeNetworkHawkesModel.resample_model", "pyhawkes/models.py:ContinuousTimeNetworkHawkesModel.generate", "pyhawkes/models.py:ContinuousTimeNetworkHawkesModel.log_likelihood", "pyhawkes/models.py:ContinuousTimeNetworkHawkesModel.compute_rate", "pyhawkes/internals/continuous_time_helpers.pyx:ln_impulse", "pyhawkes/internals/continuous_time_helpers.pyx:ct_resample_Z_logistic_normal", "pyhawkes/internals/bias.py:ContinuousTimeGammaBias"]}
{"id": "C110", "title": "Repeating the mean-field coordinate step, the variational lower bound settles", "statement": "After any history of mean-field calls, calling meanfield_coordinate_descent_step() again and again, every call succeeds, get_vlb() is a finite number after every call, and there is one number such that the values eventually stay within any given tolerance of it (plus the size of the 1e-32 guards the code adds inside logarithms, which depends on the data alone), so a fit that stops when the bound changes by less than a tolerance terminates.", "quantifier": "every model, data set, history of mean-field calls and tolerance; infinitely many further calls", "why_tests_cant": "a limit over infinitely many iterations; a test can only run finitely many and cannot exclude later oscillation or divergence", "anchors": ["pyhawkes/models.py:DiscreteTimeNetworkHawkesModelGammaMixture.meanfield_coordinate_descent_step", "pyhawkes/models.py:DiscreteTimeNetworkHawkesModelGammaMixture.get_vlb", "pyhawkes/internals/network.py:StochasticBlockModel.meanfieldupdate", "pyhawkes/internals/network.py:ErdosRenyiFixedSparsity.meanfieldupdate", "pyhawkes/internals/parents.py:DiscreteTimeParents.meanfieldupdate"]}
{"id": "C111", "title": "It does not matter how recordings are cut into data sets (discrete time)", "statement": "If two lists of data sets, laid end to end, are the same sequence of time bins (counts and filtered counts), they are interchangeable: log_likelihood and log_probability agree; resample_model of both Gibbs models, with the same random number for every event bin and every parameter, either raises for both or gives both the same parameters, network, edges and parents, however often it is called; meanfield_coordinate_descent_step gives the same variational parameters and get_vlb the same number. Adding a recording in minibatches, or adding two recordings separately instead of as one with at least L-1 silent bins between them (L the length of the basis), are such cuts; heldout_log_likelihood is then the sum over the two, and silence costs only the expected background events. Without the silence the held-out value does change.", "quantifier": "all models, parameters, lists of data sets, cuts, random draws, and any number of calls", "why_tests_cant": "a test can compare one cut of one recording; that no update uses the number, order or borders of the data sets in any state needs a proof", "anchors": ["pyhawkes/models.py:_DiscreteTimeNetworkHawkesModelBase.add_data", "pyhawkes/models.py:DiscreteTimeNetworkHawkesModelSpikeAndSlab.resample_model", "pyhawkes/models.py:DiscreteTimeNetworkHawkesModelGammaMixture.resample_model", "pyhawkes/models.py:DiscreteTimeNetworkHawkesModelGammaMixture.meanfield_coordinate_descent_step", "pyhawkes/models.py:_DiscreteTimeNetworkHawkesModelBase.heldout_log_likelihood", "pyhawkes/utils/basis.py:Basis.convolve_with_basis"]}
{"id": "C112", "title": "The origin of time does not matter, nor where a recording is cut at a silence (continuous time)", "statement": "Delaying all events of a recording by a constant changes nothing: rates at the events, log likelihood, edge likelihoods and a whole resample_model sweep with the same random numbers give the same results (or fail the same way). Adding one recording, or its two parts cut at a silence at least as long as dt_max, gives the same log likelihood, the same adjacency update, the same parents under the same uniforms, and the same distributions for all parameter draws.", "quantifier": "every model, every list of recordings, every delay of each of them, every place of the cut where the last event before and the first event after are at least dt_max apart, every random number stream and schedule", "why_tests_cant": "Universal over recordings, delays and cuts; relates two complete runs of the sampler rather than one output to an expected value.", "anchors": ["pyhawkes/internals/continuous_time_helpers.pyx:ct_resample_Z_logistic_normal", "pyhawkes/internals/continuous_time_helpers.pyx:compute_rate_at_events", "pyhawkes/internals/continuous_time_helpers.pyx:ct_compute_suff_stats", "pyhawkes/internals/continuous_time_helpers.pyx:compute_weighted_impulses_at_events", "pyhawkes/models.py:ContinuousTimeNetworkHawkesModel.resample_model", "pyhawkes/models.py:ContinuousTimeNetworkHawkesModel.log_likelihood", "pyhawkes/internals/bias.py:ContinuousTimeGammaBias.resample", "pyhawkes/internals/impulses.py:ContinuousTimeImpulseResponses.resample", "pyhawkes/internals/weights.py:SpikeAndSlabContinuousTimeGammaWeights.resample"]}
{"id": "C113", "title": "Groups of processes without connections between them are separate models", "statement": "If the effective weights from all other processes into a group of processes are zero, then everything the model computes for that group is what a model of the group alone computes on the events of the group alone: the rates, the likelihood of each process, the probabilities with which parents are drawn (other processes are never parents), the likelihoods of edges, the distributions from which background rates, weights and impulse responses are drawn, and a whole serial or parallel update of the adjacency matrix (edges from outside being impossible). If the processes fall into two such groups, the log likelihood, and the held-out log likelihood, is the sum of those of the two separate models.", "quantifier": "every discrete- or continuous-time model, every numbering of the groups, every list of recordings (time-ordered events in continuous time), every stream of uniforms and schedule", "why_tests_cant": "Universal over models, groups and recordings; relates one computation to two others on restricted inputs.", "anchors": ["pyhawkes/models.py:_DiscreteTimeNetworkHawkesModelBase.compute_rate", "pyhawkes/models.py:_DiscreteTimeNetworkHawkesModelBase.log_likelihood", "pyhawkes/models.py:_DiscreteTimeNetworkHawkesModelBase.heldout_log_likelihood", "pyhawkes/internals/continuous_time_helpers.pyx:compute_rate_at_events", "pyhawkes/internals/continuous_time_helpers.pyx:compute_weighted_impulses_at_events", "pyhawkes/internals/continuous_time_helpers.pyx:ct_resample_Z_logistic_normal", "pyhawkes/models.py:ContinuousTimeNetworkHawkesModel.log_likelihood"]}
{"id": "C114", "title": "Events add up and never inhibit; a common factor of all rates is a matter of the number of events", "statement": "The rates for two recordings taken together are the sum of the rates for each, the background counted once; with nonnegative parameters, more events, larger background rates or larger weights never lower a rate. Multiplying all background rates and weights by a factor c multiplies every rate by c, leaves the parents drawn as they are, and changes the log likelihood by N log c - (c - 1) L, where N is the number of events and L the number the parameters predict for the recordings; so N / L is the one best factor, and at maximum-likelihood parameters the predicted number of events is the observed one.", "quantifier": "every discrete- or continuous-time model, every pair of recordings, every list of recordings, every positive factor, every stream of uniforms and schedule", "why_tests_cant": "Universal over models, recordings and factors; relates computations on different inputs, and the last part is a statement about all maximisers.", "anchors": ["pyhawkes/models.py:_DiscreteTimeNetworkHawkesModelBase.compute_rate", "pyhawkes/models.py:_DiscreteTimeNetworkHawkesModelBase.log_likelihood", "pyhawkes/internals/parents.py:DiscreteTimeParents.resample", "pyhawkes/internals/continuous_time_helpers.pyx:compute_rate_at_events", "pyhawkes/internals/continuous_time_helpers.pyx:ct_resample_Z_logistic_normal", "pyhawkes/models.py:ContinuousTimeNetworkHawkesModel.log_likelihood"]}
{"id": "C115", "title": "compute_gradient certifies the fitted weights, and fitted rates predict the observed number of events up to the prior", "statement": "Weights of a process inside the bounds of fit_with_bfgs solve the problem that method hands to the optimiser if and only if every entry of compute_gradient(k) for a weight above its lower bound is nonnegative and every entry for a weight below its upper bound is nonpositive; so the returned gradient decides, for the whole box, whether a fit has converged. At such a solution (no upper bound, self connections allowed) the number of events the fitted rates predict for the data is at least the observed number plus K B (alpha - 1) - beta times the sum of the weights, with equality when no weight is at its lower bound. With self connections allowed, an optimiser that merely stops where the gradient reports no uphill move inside the bounds makes fit_with_bfgs return the weights that maximise the joint log posterior over the whole box; and if the conditions hold only up to a tolerance, the fit is off by at most the tolerance times the distance to any better point.", "quantifier": "every standard Hawkes model with alpha >= 1, every list of data sets, every process and every weight vector inside the bounds", "why_tests_cant": "Compares the fitted point with every other point of the box; a test can compare it with finitely many.", "anchors": ["pyhawkes/models.py:DiscreteTimeStandardHawkesModel.fit_with_bfgs", "pyhawkes/models.py:DiscreteTimeStandardHawkesModel.compute_gradient", "pyhawkes/models.py:DiscreteTimeStandardHawkesModel.log_posterior"]}
{"id": "C116", "title": "Indistinguishable processes may be recorded together", "statement": "If all processes of a class have the same total influence on every class, then the model with one process per class - background rate the sum over the class, influence the common total influence - computes, from the recording in which the events of a class are counted together, exactly the sum over the class of the rates the original model computes from the original recording; so both predict the same number of events in every bin.", "quantifier": "every discrete-time model, every partition of its processes into classes that satisfies the condition, every recording", "why_tests_cant": "Universal over models, partitions and recordings; relates computations of two different models on two different inputs.", "anchors": ["pyhawkes/models.py:_DiscreteTimeNetworkHawkesModelBase.compute_rate", "pyhawkes/models.py:_DiscreteTimeNetworkHawkesModelBase.add_data"]}
