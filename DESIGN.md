# DESIGN — a Lean 4 model of slinderman/pyhawkes

## 1. What is here

* `properties.jsonl` — the properties (C01…), generated by `tools/props.py`.
* `lean/Verif/Prelude/` — Python-ish basics (exceptions, loops, sparse arrays, IEEE special values).
* `lean/Verif/Model/` — the model, function by function; every definition cites `/repo` file:lines.
* `lean/Verif/Spec/` — small specifications, written without the model's helpers.
* `lean/Verif/Props/` — the property theorems, one file per area, with non-vacuity examples.
* `MANIFEST.json` — property → theorem names and status.
* `seeded/LOG.jsonl` — record of mutation experiments against the model.

## 2. Trusted base

* Lean 4.33.0's kernel and the Mathlib installed in the sandbox. Axioms allowed in any theorem:
  `propext`, `Classical.choice`, `Quot.sound`. No axioms of our own, no compiled evaluation.
* The reading of the code: the model is hand written from the text of `/repo` (the code was never run).
* **Numbers.** Floating point numbers are modelled as exact elements of an ordered field (`ℝ`, or a generic
  ordered field `R` for purely algebraic parts). Rounding, overflow and underflow are *not* modelled. Where
  the code depends on infinities or nan (edge odds with probability 0 or 1, normalising by a zero weight,
  the variational bound with forbidden self connections) a type of extended floats
  `FX = nan | -inf | fin x | +inf` with the IEEE special-value rules is used instead.
* **Arrays.** `numpy` arrays are functions from indices to values together with explicit extents
  (`Vec R := ℕ → R`, …). Views/aliasing are modelled only where the code's behaviour depends on it
  (`DiscreteTimeStandardHawkesModel.G`). Python negative indices are modelled where they are reachable.
* **Randomness.** A random draw is an argument of the model function (an "oracle"), universally quantified in
  the theorems under the contract of the library routine: `multinomial(n,p)` returns nonnegative counts summing
  to n that are zero where p is zero; uniform draws lie in [0,1); `gamma` returns a nonnegative (positive where
  said) number; `dirichlet` returns a probability vector; `poisson(0)=0`. That a sampler hits the *right
  distribution* is stated through the parameters handed to the library routine (the density with these
  parameters is proportional, as a function of the unknown, to prior times likelihood), or for hand-written inverse-CDF
  samplers through the exact set of uniforms that give each outcome.
* **Parallelism.** `joblib.Parallel` workers and cython `prange` bodies write to disjoint cells; a schedule is any
  permutation of iterations (and, for the generic lemma, any interleaving of single writes). Data races at the
  machine level, the GIL and process start-up are not modelled.
* **scipy/numpy routines** taken at their documented mathematical meaning: `fftconvolve` (exact convolution),
  `np.interp` (piecewise linear), `np.histogram`-style binning, `gammaln = log Γ`, `psi = (log Γ)'`, `np.linalg.eigvals`
  (an oracle), `argsort` (a sorting permutation), `scipy.optimize.minimize` (an oracle returning a point in bounds).
* **What is modelled** (`lean/Verif/Model`): `utils/basis.py` (Basis, CosineBasis without `orth=True`), `models.py` (standard model: constructor, data, rates, likelihood, prior,
  gradients, gradient and stochastic steps, BFGS, held-out evaluation, copying, initialisers; discrete-time network models: data, rates, simulation, likelihood, Gibbs sampler, mean-field and
  stochastic variational steps, variational bound, parameter tuples, stability, copying, initialisation from a standard model; continuous-time model: data, simulation, rates, likelihood, Gibbs sampler,
  held-out evaluation, copying, initialisation), `standard_models.py` (nonlinear nodes and processes), `internals/` (bias, impulses, weights, network, parents, distributions; the cython kernels
  `parent_updates.pyx`, `continuous_time_helpers.pyx`), `utils/utils.py` (conversions, logistic/logit, `sample_nig`, file names), `utils/poisson_process.py`, `baselines/xcorr.py`.
* Not modelled: plotting, pickling, examples/, experiments/, `profiling.py`, printing, `pdb.set_trace()` (taken as no-op),
  GSL random number generator seeding, file IO other than the directory listing used by `get_unique_file_name`.

## 3. Conventions

* Exceptions are values: `Except PyErr α`.
* Loops are folds over `List.range`; `+=` accumulations are modelled as folds and then proved equal to sums.
* If the unchanged code violates a property, the negation is proved with a concrete witness
  (`Cxx_…_violated`), the part that does hold is proved with the suffix `_partial`, and the disagreement is in section 5.

## 4. Plan per property

| id | model | proof |
|---|---|---|
| C01 | `convolve` as truncated causal convolution over lags; `interpolate` prepends a zero row | if S, S' agree on bins < t then F(t)=F'(t); sharp counterexample with instantaneous basis |
| C02 | same | closed form = Σ_l basis[l,b]·S[t−l,k]; linearity, per-process independence, clip is identity on nonneg., prefix law |
| C03 | `interpolate_basis`, `IdentityBasis` | field algebra: dt·colsum = 1 if colsum ≠ 0; shape law with ceil |
| C04 | `CosineBasis.create_basis` with log/cos | entry bounds from cos ∈ [−1,1]; center c_i sits on the grid so entry = 1 |
| C05 | `compute_rate` as nested loops | closed form by fold-to-sum; column law; monotone |
| C06 | `generate` as a time loop over a rate buffer with additive writes of slices | loop invariant: buffer at step t = λ0 + contributions of S[<t]; final buffer = compute_rate |
| C07 | `W_effective` for spike&slab and mixture; sampler steps | rate independence by C05; invariance over op lists; mixture violates (negation proved) |
| C08 | sparse parents `ts, ns, Ss, Fs` and the sparse LL | reindex sum over `filter` |
| C09 | sparse LL vs dense Poisson LL | truncated column sums ≤ 1/dt; equality when events are ≥ L bins from the end |
| C10 | `add_data` minibatch loop | induction on number of blocks: blocks concatenate, LL & statistics additive |
| C11,C12 | `_resample_Z_python/gsl` with a multinomial oracle | probability vector laws |
| C13 | sufficient statistics loops | sum exchange |
| C14 | `mf_update_Z` python/cython | sums to S; any schedule |
| C15 | the row's VLB term | Gibbs inequality (log-sum) |
| C16–C19, C21, C22 | parameters passed to samplers | log density difference independent of the unknown ; Γ integral for C21 ; odds interval for C19 ; Dirichlet cases also as an equality of laws (`Props/DirichletDensity`, `DirichletBayes`): direction of independent gammas is independent of their sum, change of concentration is a density ratio ; C22 sweep by `Props/NetworkSweep` |
| C20 | joblib columns | permutation invariance of disjoint writes |
| C23, C24, C07b | state machine of the Gibbs sampler | invariant by induction on op list |
| C25 | `add_data` validation | iff + atomicity |
| C26–C29 | cython kernels as recursions over event lists | scan invariants, sortedness |
| C30 | cascade recursion with fuel=max_round | induction |
| C31 | impulse density | change of variables to a Gaussian |
| C32 | bias statistics: `=` vs `+=` | negation + partial (one data set) |
| C33 | NIG update | negation for ≥2 data sets + partial |
| C34 | CT compute_rate | negation + partial |
| C35, C36 | gradient/log posterior in ℝ | `HasDerivAt`, concavity of log |
| C37 | log-space updates | exact formula of one gradient / stochastic step; exp positivity; invariant |
| C38 | G as a view that mutates | negation + partial, proof for nonlinear models |
| C39 | heldout, copy_sample with exceptions | state equations; negation for exceptional exits |
| C40 | sums | additivity |
| C41 | constant rate optimum | log inequality |
| C42, C43 | link functions, objective | algebra; convexity |
| C44 | list invariants | induction on ops |
| C45, C46, C47 | violated | negation + partial |
| C48, C49 | constructor decision tables | case analysis |
| C50–C56 | variational state machine | invariants; KL ≥ 0; FX arithmetic for finiteness (violated) |
| C57 | distribution helpers | formulas; assertion bug negation |
| C58 | logistic/logit | real analysis |
| C59, C60 | conversions | counting lemmas |
| C61 | file names | negation + partial |
| C62 | inverse CDF | piecewise linear inversion |
| C63, C64 | xcorr | chunk independence; telescoping sums |
| C65, C76 | `initialize_with_standard_model` (base class and the spike-and-slab override that also redraws the parents), `np.percentile` | clip / renormalise algebra; counting in a sorted list; mutation of argument (violated) |
| C66 | gamma-mixture sampler state machine | invariant by induction |
| C67–C71 | continuous-time adjacency, weights, sampler, likelihood; BFGS as an oracle | Bayes' rule with Mathlib densities; invariants; concavity |
| C72, C73 | `np.interp`, `add_data` | algebra; iff characterisation of accepted inputs |
| C77 | variational updates of `Model/Variational`, `Model/Network` | log densities (Mathlib gamma/beta, own Dirichlet) of old, prior and likelihood add up; integrals of gamma densities for the evidences; sweep over labels by induction; whole-model theorem over every history |
| C78 | stochastic window of `sgd_step` | the windows of an epoch partition the bins (C52), sums over windows regroup |
| C79 | `get_vlb` of `Model/VLB`, single updates `updateWeights`, `withNet`, `updateParents` | the bound as a function of one factor is a constant minus the divergence of that factor from the updated one (`klGamma`, `klBeta`, `klDirichlet`, Gibbs inequality for edges and parents); history theorems via `runActs_inv` |
| C80 | `genHelper`/`genAll` of `Model/CTModel` run with a recording generator | the draws and events are split into litters (`Spec/Branching`); induction on the recursion depth; the record changes nothing (simulation argument); change of variables for the lag law |
| C81 | `log_likelihood`/`log_probability` of every component and model (`Model/LogJoint`), in `FX` | sums of logs against products of Mathlib densities (`Spec/LogJoint`); sampler invariants C24, C66, C69 for the history versions |
| C82 | `resample_from_mf` of every component and of the model (`Model/MFSample`), generators as oracles with laws (`Spec/MFSample`, `Spec/Dirichlet`) | result in closed form on the C50 invariant; means by change of variables, the Dirichlet law as normalised gammas (`Props/DirichletLaw`), independence; inertness by commuting every step with a change of the drawn network parameters |
| C83 | the existing model of `resample_model` (`Model/GibbsModel`), driven by measurable generators with the documented laws (`Spec/Posterior.Generator`); prior, likelihood and posterior as measures on the parameter space (`Spec/Posterior`) | the call is a measurable function of parameters and seeds (`GibbsSweepMap`); parents are integrated out by the augmented likelihood factorisation (`GibbsLik`), conjugate steps as change of measure (`GibbsLaws`, `GibbsScale`), edges as a composition of one-site kernels (`GibbsEdges`), put together in `GibbsAbstract`/`GibbsInvariant`; independence of the seeds in `GibbsPosterior`; properness, existence of lawful generators and of the hypotheses in `GibbsProper`, `GibbsExists`; for one-block networks (`Spec/PosteriorBlock`) the sweep is edges ∘ beta draw of `p` ∘ the rest, the beta draw by conjugacy (`BlockPosterior`, `BlockSweep`, `BlockChain`). With several blocks or no self connections the network update itself is not a Gibbs step (see C22), so nothing is claimed there |
| C84 | the existing model of the continuous-time `resample_model` (`Model/CTModel`), driven by measurable generators with the documented laws (`Spec/PosteriorCT`: uniform, gamma, normal); prior (normal-gamma for the impulse responses), likelihood and posterior as measures | `AugSystem` is the argument of C83 with the data, latent variables and non-weight parameters abstract (`AugSys.Ok`: likelihood × law of the latent variables factorises into per-block factors; conjugate step for the rest); `CTNigLaw` proves that `sample_nig` draws from the normal-gamma law and is conjugate, `CTAugment`/`CTAugmentOk` prove the factorisation for the parent assignment, `CTSweepMap` that one call is the abstract sweep (for every schedule and either adjacency update), `CTPosterior` puts it together, `CTProper` properness and existence of the hypotheses; `NetSystem` repeats the argument with the network's own parameters abstract (`NetSys.Ok`: given p and v the edges are independent coins and the network step is conjugate), `NetBlock` supplies the learned one-block network (p ~ beta, v ~ gamma), `CTSweepNet` the call for any network kind, `CTBlockPosterior` the `C84_block_*` theorems |
| C85 | the existing model of the gamma-mixture `resample_model` (`Model/GibbsModel.resampleModelMix`) driven by the generators of C83; prior, likelihood and posterior as measures (`Spec/PosteriorMix`) | `MixSteps`: component and weight of an edge are drawn from their joint conditional (marginal likelihood, then gamma), the scale from its conditional; `MixSweepMap`: one call as a function of parameters and seeds; `MixInvariant`: without the clip the sweep preserves the posterior; `MixPosterior`: coupling with the clipped sweep, error bound for whole runs, and the atom at 1e-32; `MixProper`/`ChainSpace`: properness, existence of the hypotheses for whole runs (also for C83, C84). Learned one-block networks: `Spec/PosteriorMixBlock`, `MixBlock` (for a fixed edge probability the prior is that of `MixInvariant`; the edge-probability update is the beta conjugate step), `MixBlockSweep`, `MixBlockPosterior` |
| C86 | `initialize_from_gibbs` as a function on the variational weights; the draw that follows it, with the scalar spike parameters (`Model/FromGibbs`) | legality is an instance of the invariant of C50; means and variance by the gamma moments; the shared draw by evaluation |
| C87, C89 | impulse response curves (extended arithmetic at the end points), the reference loop for impulses at events (`Model/Curves`) | finite sums exchanged; the loops compared by induction on the number of earlier events |
| C88 | `approximateFiringRate` with histogram, padding and convolution (`Model/FiringRate`) | every output is a convex combination of padded bins |
| C90, C91 | discrete `generate` driven by a measurable Poisson sampler and independent seeds; prior, posterior and likelihood of C83/C85 | the simulation returns `s` iff each draw, made with the rate implied by `s`, equals the count (causality of the basis); product law; Bayes' rule with the identity held-out = training + cut-off mass; strict inequality of densities for late events |
| C92 | standard `add_data`, `compute_rate` | flattening of the regressors; Python indexing; induction on further data |
| C93 | `generate`, `check_stability` | seeds of bin t independent of the history; Poisson mean; induction over bins; monotone convergence to the fixed point; C75 |
| C94 | the whole sampler of C83/C84 and its network updates (abstract systems `AugSys`, `NetSys`) | the law of the parameters after one sweep has the same null sets as the posterior whatever the start; a convergence theorem for kernels with this property and an invariant law (coupling of absolutely continuous parts, `Props/MarkovConverge`, `Props/Ergodic`), transferred to runs of the program; instance started by `initialize_with_standard_model` |
| C95 | as C94 | covariances along the stationary chain vanish (C94 and dominated convergence), Cesàro; truncation for unbounded functions; transfer to every start because the law after one call is absolutely continuous; layer-cake formula |
| C96 | `Spec/PosteriorLabels.lean`, `Spec/PosteriorLabelsCT.lean`: prior with block labels (counting measure with density `prod m[c[k]]`), block probabilities (Dirichlet) and scales; network, edge and parent updates of the model unchanged | label sweep = composition of exact conditional draws (`LabelSite`, `LabelInvariant`), network step invariant and of full support (`LabelNetOk`), then the generic sweep/convergence theorems of C83, C94, C95. The model computes `log m[b]` with `Real.log` (0 at 0, the code has -inf): block probabilities are positive at the start by hypothesis and afterwards almost surely. With self connections or block-dependent `p` the claim is false (`C22_labels_violated`) |
| C97 | `fit_with_bfgs_logspace`: objective, gradient, bounds, the loop over processes (optimiser = oracle) | chain rule from C35; loop invariant; coercivity in the log weights and compactness for existence; strict decrease in the bias without events |
| C98 | `compute_exact_weight_ss` (the nested loops that reuse `k2`), `compute_approx_weight_ss`, `compute_weight_ss` | loop unrolling by induction, then the summation of C09 |
| C99 | `expected_log_likelihood` in a variational state, `log_likelihood` of the parameters drawn by `resample_from_mf` | Jensen by the tangent of the logarithm, with the laws and independence of C82; integrability of the log rate from that of the log background rate |
| C100 | `infer_net_from_xcorr` with optional smoothing | from C63 and C64; Cauchy-Schwarz, affine change of variables in Pearson's coefficient |
| C101 | solutions of the nonlinear fits | coercivity: log beaten by any slope, penalties grow linearly, limits of the link at a bias far below zero; compactness; strict improvement along a direction when unpenalised |
| C102 | `resample_Z_python` (external `sample_discrete` by its source formula) | invariant of the backward loop; initial segments of a monotone sequence; Lebesgue measure of the intervals |
| C103 | `get_vlb` and the updates (as C79/C86), prior and likelihood of the gamma-mixture model (as C85) | Jensen: evidence ≥ exp of the expected log of likelihood × prior / variational density, factor by factor (gamma, Dirichlet and mixture-weight variational inequalities); invariant over all histories |
| C104 | rates, likelihoods, log probabilities, simulation, mean-field updates and `get_vlb` (existing models) | equivariance of every function under a permutation of the process numbers (sums over processes are permutation invariant), list permutation of the data sets, induction over the history; several blocks excluded (sequential label sweep) |
| C105 | `compute_rate(index, proc)` on stored recordings, `add_data` (`Model/Plot.lean`, `Model/DParents.lean`) | case analysis of the index; the slices of the minibatches keep the filtered counts of the whole recording |
| C106 | `plot_network`, `plot_rates` with and without handles (`Model/Plot.lean`): arrows with endpoints, width, visibility; points and stems. Not modelled: matplotlib itself, labels, limits | invariant: the handles list the pairs in row order; induction over the history. Stem positions are right only for `dt = 1` |
| C107 | block networks: expectations, mean-field and Gibbs updates, `log_probability`, `get_vlb` (existing models) | `renumberBlocks` commutes with every update (sums over blocks are permutation invariant; the label sweep is sequential in the nodes, not in the blocks); induction over the history |
| C108 | basis sampling, `compute_rate`, `generate`, likelihoods, the two Gibbs samplers, mean field and stochastic steps (existing models) | `rescale*` commutes with every update: filtered counts and rates per new unit, background posterior `Gamma(alpha + n, c (beta + T dt))`, all parent probabilities are ratios; induction over the history |
| C109 | continuous-time `compute_rate`, `generate`, likelihoods, parent kernels, `resample_model` (existing models) | `rescaleCT*` commutes with every update; ratios of weights are free of the unit; the absolute cut-offs of 1e-8 in the kernels break the symmetry, so for data clear of them only (partial), with a `_violated` theorem for the rest |
| C110 | `meanfield_coordinate_descent_step`, `get_vlb` (existing models), `runActs` followed by `n` coordinate steps | subtract from `get_vlb` what the guards add (`dataGuard`, a function of the expected parents alone): the rest never decreases (Gibbs inequality with zeros for the parents, C79 for the other updates; with one block the label update is the identity) and is bounded by C103, so it converges; `dataGuard` is bounded by `settleSlack` |
| C111 | `add_data`, `resample_model` (both Gibbs models), `coordStep`, `get_vlb`, log likelihoods (existing models) | `SameBins`: the concatenated bins of the two lists agree; every statistic is a sum over the concatenated bins or over the concatenated parent rows, so both runs stay in the relation (the random numbers are matched bin by bin, `SameDraws`, and matching ones exist for any draws); causal filtering with a basis of length `L` forgets everything before `L-1` silent bins |
| C112 | continuous time: `resample_model`, rates, log likelihood, edge likelihoods, statistics, parameter draws (existing models) | `delay`: every function reads only differences of event times, so the sweep commutes with it; `Joined`: at a silence of at least `dt_max` no contribution crosses, so cumulative parent probabilities, rates and impulse sums agree event by event and the statistics add. False for two draws, proved: the background rate uses the last data set only and the impulse-response draw loses the sum of squares between the parts |
| C113 | `compute_rate`, `log_likelihood`, `heldout_log_likelihood`, parent weights (discrete); rates at events, edge likelihood columns, log likelihood, parent kernel (continuous) (existing models) | a group is an injective numbering `e`; sums over processes and over events whose terms vanish outside the group are sums over the group (`group_sum`, `ge_sum`), the backward scans are such sums on time-ordered events, and the parent is the interval of cumulative probabilities in which the uniform lies; statistics restrict to the group, and the column update of the whole model simulates that of the group step by step (`GroupsGibbs`, `GroupsGibbsCT`) |
| C114 | `compute_rate`, parent weights, `log_likelihood` (discrete); rates at events, parent kernel, `log_likelihood` (continuous) (existing models) | the filter is linear and the rate is affine in the counts and linear in `(lambda0, W)` (C05); scans scale term by term (`scaleCT_backScan`, `scaleCT_rateScan`) so normalised parent weights do not move; `log x < x - 1` gives the best factor and, at a maximiser, equality of predicted and observed counts |
| C115 | `fit_with_bfgs`, `compute_gradient`, `log_posterior` of the standard model (existing model) | one-sided directional derivatives of the log posterior along the coordinates (C35) give necessity, the supergradient inequality of the concave log posterior (C36) gives sufficiency over the whole box; the gradient along the weights themselves telescopes to observed minus predicted events plus the pull of the prior; so an optimiser that only meets its own convergence criterion suffices for C71 (`C115_converged_fit`) |
| C116 | `compute_rate` (existing model) | `Spec/Merge.lean` says which smaller model is the merged one; the filtered merged recording is the sum of the filtered recordings, and summing over the classes of the sources regroups the double sum |
| C74, C75 | nonlinear fit; stability | sum of node optima; Neumann series and spectral radius |

## 5. Findings: places where the unchanged code violates the property

Each is a theorem about the model (generated from the theorem comments by `tools/findings.py`).

* C08 `C08_u32_wrap_violated`: The 32-bit bound is needed: a bin with `2^32` events is silently dropped from the sparse log-rate term, so here the sparse value differs from the dense one.
* C11 `C11_u32_wrap_violated`: With a bin of `2^32` events the python implementation stops with an `AssertionError` (the count wraps to 0).
* C22 `C22_block_probability_violated`: With self connections disallowed a block's own `p` is not drawn from its conditional: the forbidden self edges are counted as observed non-edges. In the one-node network nothing is observed about `p`, so the conditional is the prior; the density used is different.
* C22 `C22_labels_violated`: The conditional probability of the first block is 2/3, the code draws it with probability 4/5.
* C32 `C32_background_violated`: Whenever data sets were observed for some time before the last one was added, the density used is *not* the posterior given all of them.
* C33 `C33_violated`: Two data sets with one lag each, 1/4 and 1/2 of the window: the draw is not from the posterior.
* C34 `C34_compute_rate_violated`: With two events in the window (weights all 1) the reported rate misses the first one; with one event and weight 2 it misses half of the excitation.
* C38 `C38_nonlinear_zero_weight_violated`: If some summed weight is zero, as in every new process and in every fitted homogeneous process, `G` is not a number: the code meant to replace such rows by `1/B` never runs.
* C38 `C38_reading_G_changes_W_violated`: There is a model on which reading `G` changes the value of `W`: from 2 to 1.
* C39 `C39_copy_sample_interrupted_violated`: Interrupted during the deep copy, the model has lost its data.
* C39 `C39_nonlinear_copy_interrupted_violated`: Interrupted while node `k` is being copied, that node has lost its data and the others have not, so that the nodes no longer hold the same data sets; interrupted while the object is copied, all nodes have lost their data.
* C39 `C39_nonlinear_heldout_interrupted_violated`: Interrupted during the evaluation, the held-out data stay in every node.
* C39 `C39_std_heldout_interrupted_violated`: If the evaluation is interrupted, the held-out data stay in the model and are counted by every later likelihood, fit or held-out evaluation.
* C41 `C41_event_less_process_violated`: If some process has no event, its bias becomes 0; in any bin in which its regressors are zero (with a non-instantaneous basis, the first bin of every recording) its rate is then 0 and the log likelihood of the initialised model is not a number.
* C42 `C42_relu_inverse_violated`: There the result is too large by exactly `1e-16`.
* C43 `C43_default_node_violated`: A node constructed directly (`lmbda` defaults to `np.inf`) with at least one coupling weight has no finite objective at any weights, whatever the data.
* C44 `C44_interrupted_add_violated`: An `add_data` call interrupted between two nodes (for example by `KeyboardInterrupt`) leaves the nodes out of step: with two processes the first has the data set, the second does not.
* C45 `C45_two_processes_violated`: For every network model with two or more processes of matching size, `initialize_with_gibbs_model` raises `ValueError`.
* C46 `C46_round_trip_violated`: For every model `set_parameters(get_parameters())` raises `ValueError`: six values are returned, eight are unpacked.
* C47 `C47_large_violated`: For every `K ≥ 100` there are nonnegative weights and an answer that `scipy.sparse.linalg.eigs` is allowed to give for which `check_stability()` returns `True` although the matrix has an eigenvalue with real part 2 and cascades are infinite: eigenvalues `2` and `-2` have the same modulus.
* C47 `C47_standard_violated`: `check_stability()` of `DiscreteTimeStandardHawkesModel` raises `AxisError` on every model.
* C49 `C49_given_m_lost_violated`: Class frequencies `m` given to a block model whose `c`, `p`, `v` are not all given are lost: the constructor replaces them by the uniform vector, whatever the draws.
* C49 `C49_given_p_lost_violated`: A block model that is given `p = 1/2` and no labels ends up with whatever `GibbsSBM.__init__` draws for `p`.
* C49 `C49_labels_rejected_violated`: With numpy 1.13 or later, giving the labels of two or more nodes makes the constructor raise — in particular every `ErdosRenyiModel` of two or more nodes.
* C50 `C50_step_zero_nan_violated`: The restriction on step size 0 is needed: with self connections disallowed a stochastic step with step size 0 computes `0 * (-inf)` on the diagonal and stores `nan` as edge probability.
* C53 `C53_fixed_sparsity_violated`: the same for the fixed-sparsity network is false: the coordinate update changes the variational parameters of `p`, the stochastic step does not
* C53 `C53_step_zero_violated`: Without that restriction the claim fails: with self connections disallowed a step of size zero stores `nan` in the edge probabilities.
* C54 `C54_update_p_ignored_violated`: `meanfieldupdate(update_p=False)` of a block model, and in particular the update of the fixed-sparsity network, changes the variational parameters of `p`: the code tests `update_c` before calling `mf_update_p`.
* C55 `C55_bias_update_violated`: With bins of length 10, one bin and no events, the background update lowers the bound.
* C55 `C55_impulse_violated`: With two processes, two basis functions and prior concentrations 1/2 the contribution at the prior is `3 log π`, which is positive.
* C55 `C55_network_violated`: With two blocks and `tau0 = tau1 = 1/2` the contribution of the block probabilities at the prior is `3 log π > 0`.
* C56 `C56_certain_absence_violated`: In a fixed-sparsity network without self connections a self connection is certainly absent, so the logarithm of that probability is 0; `expected_log_notp` returns `+inf`, and every bound that uses it is infinite or not a number.
* C56 `C56_er_without_prior_violated`: An Erdos-Renyi network without a gamma prior has no variational parameters: `get_vlb()` raises.
* C56 `C56_fixed_sparsity_violated`: `get_vlb()` always raises, because the network's `get_vlb` returns `None`.
* C56 `C56_no_self_connections_violated`: In a block model without self connections the bound is not a finite number in ANY state.
* C57 `C57_batch_log_density_violated`: With a batch of two uniform Beta distributions the code reports the log density `log 6` at the centre, where the true value is `log 1 = 0`: the normaliser is summed over the whole batch. The block model calls it on exactly such a batch (`network.py`).
* C57 `C57_discrete_log_mass_violated`: (1) The outcome given as an index, which the code provides for, always raises: `_is_one_hot` reads `x.shape` first (a numpy integer fails the assertion); (2) if another outcome has probability zero, the log probability of an outcome is `nan`, not its log; (3) vectors that are not one-hot are accepted, such as `[2, -1]`.
* C57 `C57_validation_violated`: The constructors accept every parameter, also negative ones: the assertion compares the Boolean `np.all(...)` with 0. All that the Dirichlet constructor checks is that there is at least one component.
* C59 `C59_trailing_process_violated`: When the last process has no event, the round trip never returns an array of the original shape: trailing processes without events are lost, or an exception is raised.
* C61 `C61_deletion_violated`: For every plain name: call the function three times in an empty directory, creating the file each time, then delete the second file; the fourth call returns the name of the third file, which exists.
* C62 `C62_sloping_rate_violated`: The docstring's cumulative rate is the integral of the rate through the grid values. On the grid `0, 1` with rates `0, 2`, every draw `0 < q < 1` is mapped to a time whose integrated (linear) rate is `q ^ 2`, not `q`: within a grid interval the rate is treated as constant.
* C63 `C63_constant_column_violated`: At offset 0 the diagonal entry of a constant column is `nan`, not 0.
* C65 `C65_self_edges_violated`: The edges chosen ignore the network's constraint on self connections: whatever the network (in particular one that forbids self connections), with edge probability 1/2 the self edges of this model are set.
* C65 `C65_standard_model_altered_violated`: The property's last clause is false: after the call every summed weight of the standard model reads 1.
* C65 `C65_zero_weights_violated`: A standard model whose weights are nonnegative but vanish for one pair of processes is not handled: the impulse weights of that pair come out as `nan`.
* C70 `C70_boundary_disagrees`: The excluded case is real: with a lag of exactly `dt_max - 1e-8` the parent update still considers the first event a possible parent of the second, but the rate in the likelihood leaves it out.
* C76 `C76_precision_unchecked_violated`: The solver is unconstrained and its result is stored as it is: if it returns a nonpositive precision, the parameters are not legal afterwards.
* C77 `C77_block_probability_violated`: With self connections disallowed a block's own probability does not step towards its conditional: in the one-node network there is no possible edge, so nothing should be learned about `p`, but the coordinate update counts the forbidden self edge and leaves a different density.
* C79 `C79_label_update_violated`: `mf_update_c` can decrease the bound: for the pair of a node with itself the update uses the same block at both ends, as it should, while `get_vlb` averages over two independent blocks.
* C81 `C81_block_model_violated`: With two blocks and the default uniform prior on link probabilities the reported log density is `4 log 5040` too large.
* C81 `C81_certain_edge_violated`: As soon as one present edge has probability 1, the probability of the whole adjacency matrix is dropped from `weight_model.log_probability()` (`0 * log 0` makes the sum `nan`, which `nan_to_num` replaces by 0): the reported value is the log density of the weights alone. With a second, absent, edge of probability 3/4 the true log density is `log (1/4)` away.
* C81 `C81_continuous_violated`: `log_probability()` ignores the priors of the weights, of the adjacency matrix and of the impulse responses: without data, replacing them by anything else does not change it.
* C81 `C81_fixed_sparsity_violated`: `network.log_probability()` always raises: a `ValueError` for the block model with fixed sparsity, an `AttributeError` for `ErdosRenyiFixedSparsity`.
* C81 `C81_impossible_edge_violated`: An adjacency matrix of probability zero (a present edge with edge probability 0) is reported with an ordinary number instead of `-inf`.
* C81 `C81_impulse_violated`: The sign of the normaliser is wrong: with two basis functions and `gamma = (2, 2)` the reported value is off by `2 log 6` per pair.
* C81 `C81_joint_violated`: `log_probability()`, documented as the joint log probability of data and parameters, ignores the priors of the background rates and of the impulse responses: without data, replacing them by anything else does not change it, although the prior densities differ.
* C81 `C81_mixture_certain_violated`: If some edge has probability 0 and is absent, as every self edge when self connections are disallowed, or probability 1 and is present, `weight_model.log_probability()` is `nan`, and so are `log_prior()` and `log_probability()`.
* C82 `C82_fixed_sparsity_violated`: In the fixed-sparsity block network `resample_from_mf` redraws the labels, which changes the "fixed" connection probabilities that `expected_p` reports and that the next mean-field step uses.
* C82 `C82_given_network_violated`: `resample_from_mf` overwrites connection probabilities, scales and labels that were GIVEN to the block network as known: afterwards `expected_p` reports other values, and the next mean-field step uses them.
* C82 `C82_given_scale_violated`: A network built with a given weight scale instead of a gamma prior has no variational parameters: `resample_from_mf` raises `AttributeError` after it has already replaced background rates, weights and impulse responses.
* C82 `C82_self_edges_violated`: With self connections disallowed the drawn weight of EVERY self pair is positive, in every state and for all draws, although `expected_W` is 0 there; and a draw can put an edge there.
* C82 `C82_self_pair_disagrees`: For a self pair `expected_p` is NOT the mean of the drawn connection probability: the code averages over two independent labels, but a self pair has one label. In this two-block example the drawn probability has mean 3/4, `expected_p` reports 5/8.
* C85 `C85_block_violated`: for a learned one-block network too: after a call started from the posterior distribution every weight is exactly `1e-32` with positive probability; the posterior gives that event probability zero.
* C85 `C85_violated`: : for every valid model with at least one process, after a call started from the posterior distribution every weight is exactly `1e-32` with positive probability; the posterior gives that event probability zero. So the new parameters do not have the posterior distribution.
* C86 `C86_shared_spike_violated`: The claim that a draw from the variational distribution draws the weights independently fails between `initialize_from_gibbs` and the next update: all absent edges get one and the same weight, whatever the generator returns.
* C87 `C87_continuous_ends_violated`: The first and the last value of every curve are `nan`, in `impulses` (hence in `get_parameters`) and in `compute_impulses` for every positive step.
* C88 `C88_area_violated`: The documented aim of the normalisation, leaving the area under the rate unchanged, is not met: one event at 0.5 in three bins of the window [0, 3] gives a rate whose integral is less than 1.
* C89 `C89_close_events_violated`: For two events closer than `1e-8` the implementations disagree: the reference counts the earlier event, the compiled code ignores it.
* C91 `C91_late_events_violated`: If no connection is certain, the connection from `i` to `j` is possible, and in one of the data sets some response to the events of `i` is cut off by the end of the recording, then the distribution that `resample_model` leaves invariant is not the conditional distribution of the parameters given the simulated data: the probability of an empty network differs.
* C98 `C98_bin_width_violated`: `compute_exact_weight_ss`, "for comparison" with the approximate statistic, omits the bin width: with bins of width one half and all events early, so that the approximation is exact, it returns twice the value.
* C99 `C99_lower_bound_violated`: The method's documentation promises a lower bound. For a concrete model with self connections, one event in the first bin and lawful generators, the value is strictly above the expectation it is supposed to bound from below.
* C101 `C101_unpenalised_no_solution_violated`: With the default penalties (`sigma = inf`, `lmbda = 0`) an exponential or rectified-linear node has no best weights as soon as one regressor is never negative, is zero in every bin with an event and positive in some bin: making its weight smaller always improves the fit, so the optimiser runs off to minus infinity.
* C102 `C102_absent_edge_violated`: The method reads `W` where `resample` reads `W_effective`. An event within `dt_max` after an event of a process without an edge to it, but with a positive weight, has that event drawn as its parent with positive probability, and the edge's weight count becomes positive, although it is no possible parent under the model.
* C102 `C102_impulse_statistics_violated`: The method stores only the sums of scaled lags, in an array of the wrong shape, and the impulse update then takes the same numbers for the counts, the sums and the squared deviations: whatever the data, all three are the sum of scaled lags. There are runs in which an edge has a child but its count is read as zero.
* C102 `C102_simultaneous_violated`: If two successive events have the same time stamp, the impulse response at lag zero is `nan` and the call fails on the assertion inside `sample_discrete`. (`resample` handles such events: C26.)
* C102 `C102_zero_background_violated`: When the background rate of an event's process is zero and its predecessor is already outside the window, every entry given to `sample_discrete` is zero, which then picks uniformly: with probability 1/2 (`u ≥ 1/2`) the event is attributed to an event more than `dt_max` before it.
* C103 `C103_fresh_violated`: Before the first coordinate step the expected parents are zero, so the events do not enter the bound: with one event and a small background rate `get_vlb()` of a newly constructed model exceeds the log evidence.
* C103 `C103_impulse_normaliser_violated`: With two processes, two basis functions and concentrations 1/2, and one bin without events: `get_vlb()` of the newly constructed model is positive, but the log evidence is not: the code counts the normaliser of the impulse weights' prior once instead of four times.
* C103 `C103_long_bins_violated`: With bins of 100 time units and one bin without events, `get_vlb()` of a newly constructed model exceeds the log evidence: the code charges the background rate per bin instead of per time unit.
* C106 `C106_event_position_violated`: The code draws the event of bin `t` at `t + dt/2`, but the line uses `t*dt`: unless `dt = 1`, every event after the first bin is drawn outside the middle of its bin.
* C106 `C106_no_axes_violated`: Without axes `plot_rates()` always raises: it takes the pair returned by `plt.subplots` for the list of axes.
* C108 `C108_bound_violated`: C108: the bound reported by `get_vlb` does depend on the unit. For recordings in which nothing happened the density of the data has no unit (`N = 0`), so the bound should not change; it changes by `(1 - 1/c)` times the number of bins times the sum of the expected background rates, because the code leaves out the bin width.
* C109 `C109_cutoff_violated`: C109: the absolute cut-off of 1e-8 makes the result depend on the unit. Take a recording in which the second event follows the first after a lag that is an ordinary lag in the old unit (neither it nor its distance to `dt_max` is below 1e-8), but below 1e-8 in the new one: 0.5 ms, say, with time in days. In the old unit the first event is drawn as parent of the second with positive probability; in the new unit it never is, whatever the weight.
* C112 `C112_background_violated`: If the recording is the last one in the list, the background rate of process `k` is drawn given the background events and the duration of the whole recording, and after cutting it given those of the second part only: the shape loses the background events of the first part and the rate its duration.
* C112 `C112_cut_violated_concretely`: Two pairs with lags 1/4 and 1/2, ten windows apart, as one recording or as two: all hypotheses of the cut theorems hold, and both the background rate and the impulse response are drawn from different distributions.
* C112 `C112_impulse_violated`: Cutting leaves shape, mean and count of the normal-gamma draw for the impulse response from `k1` to `k2` alone but lowers its rate parameter by half the sum of squares between the mean scaled lags `m1`, `m2` of the two parts, `n1 n2 / (n1 + n2) (m1 - m2)²`.

Observations on the code that are not stated as theorems, or only as comments in the model:

* `np.int` was removed in numpy 1.24: `add_data` and the conversions need an older numpy. `None in (array, ...)` (network constructors) raises on numpy >= 1.13.
* `resample_A` of the spike-and-slab and continuous-time weight models forks workers that all start from the parent's random state, so columns resampled by different workers may share uniforms (`joblib`); the theorems take the uniforms as given and say nothing about their independence.
* Gamma-mixture model without self connections: the forbidden self weight still enters the rate, because `W_effective = W`.
* The continuous-time `add_data` accepts a negative duration if there are no events.
* `compute_exact_weight_ss` omits the bin width: it is larger than the approximate statistic by the factor `1/dt` even when the approximation is exact (`C98_bin_width_violated`).
* `expected_log_likelihood` is documented as a lower bound obtained by Jensen's inequality; Jensen makes it an upper bound (`C99_upper_bound`, `C99_lower_bound_violated`).
* With its default penalties (none) the fit of the exponential and rectified-linear models may have no solution: `C101_unpenalised_no_solution_violated`. One event followed by silence is enough.
* `fit_with_bfgs_logspace` poses, for a process without events, a problem without solution (`C97_no_events_no_solution`).
* `fit_with_bfgs` with self connections disallowed starts at `1e-32`, below its lower bound `1e-16`; a process without events starts with bias 0.
* `leastsq` in the continuous-time `initialize_with_standard_model` is unconstrained, so the precision may be negative.
* `initialize_with_gibbs_model` ends a line in a comma and so raises for two or more processes (C45).
* The nonlinear `add_data` with a regressor matrix without bias column always raises; the fallback in the nonlinear `G` never runs.
* `weights.py` SpikeAndSlab `rvs` calls `size(...)` on a tuple (TypeError); `impulses.py:60-73` adds the normaliser with the wrong sign; `network.py` fixed-sparsity `log_likelihood` unpacks three of four values, the Erdos-Renyi `log_probability` reads attributes that do not exist; `parents.py` `resample_Z_python` uses `W`, not `W_effective`; `log_prior(ks=None)` of the standard model raises; `initialize_pyrngs` compares the string `OMP_NUM_THREADS` with an int.
