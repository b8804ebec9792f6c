import Verif.Spec.PosteriorBlock
import Verif.Spec.PosteriorCT
/-!
# Specification: the posterior distribution sampled by `resample_model` of the continuous-time model with a learned one-block network

Continuous-time model with a learned one-block network (`StochasticBlockModel` with the default `C=1`, or `ErdosRenyiModel`): `p ~ Beta(tau1, tau0)`, `v ~ Gamma(alpha_v, beta_v)`,
`A[i,j] ~ Bernoulli(p)`, `W[i,j] ~ Gamma(kappa, v)`; otherwise as in `Spec.PosteriorCT`.
-/
namespace PyHawkes.Spec
open MeasureTheory ProbabilityTheory Finset

/-- the sampled parameters: adjacency matrix, edge probability and weight scale, weights, background rates, impulse responses `(mu, tau)` -/
abbrev ThetaCTB (K : ℕ) := (Pair K → ℝ) × (ℝ × ℝ) × (Pair K → ℝ) × (Fin K → ℝ) × (Pair K → ℝ × ℝ)

/-- read the sampled parameters off a model object -/
def thetaCTB (K : ℕ) (s : CTState) : ThetaCTB K :=
  (fun e => s.P.A e.1 e.2, (netProb s.net, netScaleB s.net), fun e => s.P.W e.1 e.2, fun k => s.P.lam0 k, fun e => (s.P.mu e.1 e.2, s.P.tau e.1 e.2))

/-- prior of the parameters of the model `c` with the one-block network `n`; the factors of the density are the probability of the adjacency matrix given `p` and the density of the weights
given `v` -/
noncomputable def priorCTB (c : CTState) (n : SBM) : Measure (ThetaCTB c.P.K) :=
  ((Measure.pi fun _ : Pair c.P.K => Measure.dirac (0 : ℝ) + Measure.dirac 1).prod (((betaMeasure n.tau1 n.tau0).prod (gammaMeasure n.alpha n.beta)).prod ((Measure.pi fun _ => volume).prod
    ((Measure.pi fun _ => gammaMeasure c.alpha c.beta).prod (Measure.pi fun _ => nigLaw c.nig))))).withDensity
    fun θ => (∏ e, edgePmf θ.2.1.1 (θ.1 e)) * ∏ e, gammaPDF n.kappa θ.2.1.2 (θ.2.2.1 e)

/-- likelihood of all data sets of the model: the exponential of `log_likelihood()` -/
noncomputable def likelihoodCTB (c : CTState) (θ : ThetaCTB c.P.K) : ENNReal :=
  ENNReal.ofReal (Real.exp (ctLogLik (ctRateParams c.P θ.1 θ.2.2.1 θ.2.2.2.1 θ.2.2.2.2) c.data))

/-- posterior distribution of the parameters given the data: prior times likelihood, normalised -/
noncomputable def posteriorCTB (c : CTState) (n : SBM) : Measure (ThetaCTB c.P.K) :=
  (∫⁻ θ, likelihoodCTB c θ ∂priorCTB c n)⁻¹ • (priorCTB c n).withDensity (likelihoodCTB c)

/-- the generator calls of one `resample_model` call: the edge probability, and those of `Spec.CTSite` -/
inductive CTSiteB where
  | prob
  | other (σ : CTSite)
  deriving DecidableEq

/-- the draws of one call when the seed of call site `σ` is `x σ`; the implementation choices, and the unused block labels and block probabilities, are those of `d` -/
def ctDrawsB {U : Type*} [MeasurableSpace U] {μ : Measure U} (G : Generator μ) (Bt : BetaSampler μ) (N : NormalSampler μ) (d : CTDraws) (x : CTSiteB → U) : CTDraws :=
  { ctDraws G N d (fun σ => x (.other σ)) with
    net := { d.net with
      beta := fun _ _ a => Bt.bet a (x .prob)
      gamma := fun _ _ a => G.gam a (x (.other .scale)) } }

/-- the seeds of one call are independent of each other and of everything that happened before, and have distribution `μ` -/
structure FreshSeedsCTB {U Ω E : Type*} [MeasurableSpace U] [MeasurableSpace Ω] [MeasurableSpace E] (μ : Measure U) (Pr : Measure Ω) (past : Ω → E) (x : Ω → CTSiteB → U) : Prop where
  indep : iIndepFun (fun σ ω => x ω σ) Pr
  law : ∀ σ, HasLaw (fun ω => x ω σ) μ Pr
  fresh : IndepFun past x Pr

/-- `s` is a state of the same model as `c`: same sizes, window, hyperparameters, network hyperparameters and observed events; the sampled quantities may differ -/
structure SameModelCTB (c : CTState) (n : SBM) (s : CTState) : Prop where
  K : s.P.K = c.P.K
  dtMax : s.P.dtMax = c.P.dtMax
  alpha : s.alpha = c.alpha
  beta : s.beta = c.beta
  nig : s.nig = c.nig
  net : ∃ p v m, s.net = .sbm { n with p := p, v := v, m := m }
  data : List.Forall₂ (fun D D' : CTData => D'.N = D.N ∧ D'.S = D.S ∧ D'.C = D.C ∧ D'.T = D.T) c.data s.data

/-- valid settings with a single data set: as `CfgOkCT`, with a valid learned network with one block and self connections -/
structure CfgOkCTB (c : CTState) (n : SBM) (D : CTData) : Prop where
  data : c.data = [D]
  labels : LabelsOk c.P.K D
  sorted : SortedTimes D
  T : 0 ≤ D.T
  boundary : ∀ m < D.N, ∀ j < m, D.S m - D.S j ≠ c.P.dtMax - 1e-8
  hyper : CTHyperOk c
  net : SbmOk c.P.K n
  one : n.C = 1
  self : n.allowSelf = true
  learned : n.fixed = false

end PyHawkes.Spec
