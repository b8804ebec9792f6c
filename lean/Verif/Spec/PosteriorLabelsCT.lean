import Verif.Spec.PosteriorLabels
/-!
# Specification: the posterior distribution sampled by `resample_model` of the continuous-time model when the network has several blocks

Network as in `Spec.PosteriorLabels` (`StochasticBlockModelFixedSparsity` with `C` blocks, one fixed connection probability, `allow_self_connections=False`), otherwise as in `Spec.PosteriorCT`.
-/
namespace PyHawkes.Spec
open MeasureTheory ProbabilityTheory Finset

/-- the sampled parameters: adjacency matrix, network parameters, weights, background rates, impulse responses `(mu, tau)` -/
abbrev ThetaCTL (K C : ℕ) := (Pair K → ℝ) × NetLabels K C × (Pair K → ℝ) × (Fin K → ℝ) × (Pair K → ℝ × ℝ)

/-- read the sampled parameters off a model object -/
def thetaCTL (K C : ℕ) [NeZero C] (s : CTState) : ThetaCTL K C :=
  (fun e => s.P.A e.1 e.2, netLabels K C s.net, fun e => s.P.W e.1 e.2, fun k => s.P.lam0 k, fun e => (s.P.mu e.1 e.2, s.P.tau e.1 e.2))

/-- prior of all parameters of the model `c` with network `n` -/
noncomputable def priorCTL (c : CTState) (n : SBM) : Measure (ThetaCTL c.P.K n.C) :=
  ((Measure.pi fun _ : Pair c.P.K => Measure.dirac (0 : ℝ) + Measure.dirac 1).prod ((labelPrior c.P.K n).prod ((Measure.pi fun _ => volume).prod
    ((Measure.pi fun _ => gammaMeasure c.alpha c.beta).prod (Measure.pi fun _ => nigLaw c.nig))))).withDensity
    fun θ => labelDens n θ.2.1 θ.1 θ.2.2.1

/-- likelihood of all data sets of the model: the exponential of `log_likelihood()` -/
noncomputable def likelihoodCTL (c : CTState) {C : ℕ} (θ : ThetaCTL c.P.K C) : ENNReal :=
  ENNReal.ofReal (Real.exp (ctLogLik (ctRateParams c.P θ.1 θ.2.2.1 θ.2.2.2.1 θ.2.2.2.2) c.data))

/-- posterior distribution of the parameters given the data: prior times likelihood, normalised -/
noncomputable def posteriorCTL (c : CTState) (n : SBM) : Measure (ThetaCTL c.P.K n.C) :=
  (∫⁻ θ, likelihoodCTL c θ ∂priorCTL c n)⁻¹ • (priorCTL c n).withDensity (likelihoodCTL c)

/-- the draws of one call when the seed of call site `σ` is `x σ`; the implementation choices are those of `d` -/
def ctDrawsL {U : Type} [MeasurableSpace U] {μ : Measure U} (G : Generator μ) (Ls : LabelSampler μ) (N : NormalSampler μ) (C : ℕ) (d : CTDraws) (x : SiteL CTSite → U) : CTDraws :=
  { ctDraws G N d (fun σ => x (.other σ)) with net := netDrawsL G Ls C d.net x }

/-- `s` is a state of the same model as `c`: same sizes, window, hyperparameters, network hyperparameters and observed events; the sampled quantities may differ -/
structure SameModelCTL (c : CTState) (n : SBM) (s : CTState) : Prop where
  K : s.P.K = c.P.K
  dtMax : s.P.dtMax = c.P.dtMax
  alpha : s.alpha = c.alpha
  beta : s.beta = c.beta
  nig : s.nig = c.nig
  net : ∃ v l m, s.net = .sbmFixed { n with v := v, c := l, m := m }
  data : List.Forall₂ (fun D D' : CTData => D'.N = D.N ∧ D'.S = D.S ∧ D'.C = D.C ∧ D'.T = D.T) c.data s.data

/-- valid settings with a single data set: as `CfgOkCT`, with a valid network with several blocks -/
structure CfgOkCTL (c : CTState) (n : SBM) (D : CTData) : Prop where
  data : c.data = [D]
  labels : LabelsOk c.P.K D
  sorted : SortedTimes D
  T : 0 ≤ D.T
  boundary : ∀ m < D.N, ∀ j < m, D.S m - D.S j ≠ c.P.dtMax - 1e-8
  hyper : CTHyperOk c
  net : LabelOk c.P.K n

end PyHawkes.Spec
