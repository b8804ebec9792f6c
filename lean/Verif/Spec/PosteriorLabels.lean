import Verif.Spec.PosteriorBlock
import Verif.Spec.PosteriorCT
/-!
# Specification: the posterior distribution sampled by `resample_model` when the network has several blocks

Network `StochasticBlockModelFixedSparsity` with `C` blocks, one fixed connection probability `p` (`p` given as a number) and `allow_self_connections=False`. The prior is the documented
generative model of the class: block probabilities `m ~ Dirichlet(pi)`, labels `c[k] ~ Discrete(m)`, scales `v[a,b] ~ Gamma(alpha, beta)`, `A[i,j] ~ Bernoulli(p)` for `i != j` and
`A[i,i] = 0`, `W[i,j] ~ Gamma(kappa, v[c[i], c[j]])`. The block labels, the scales and the block probabilities are learned together with all other parameters.
-/
namespace PyHawkes.Spec
open MeasureTheory ProbabilityTheory Finset

/-- `sample_discrete_from_log(lp)`, `lp` of length `n`: a function of its argument and a seed with distribution `μ`; returns `i` with probability proportional to `exp(lp[i])` -/
structure LabelSampler {U : Type*} [MeasurableSpace U] (μ : Measure U) where
  lab : ℕ → Vec ℝ → U → ℕ
  lab_meas : ∀ n, Measurable fun x : Vec ℝ × U => lab n x.1 x.2
  lab_lt : ∀ n lp u, 0 < n → lab n lp u < n
  lab_law : ∀ n lp, ∀ i < n, μ {u | lab n lp u = i} = ENNReal.ofReal (Real.exp (lp i) / ∑ j ∈ range n, Real.exp (lp j))

/-- the sampled parameters of the network: scales `v`, labels `c`, block probabilities `m` -/
abbrev NetLabels (K C : ℕ) := (Pair C → ℝ) × (Fin K → Fin C) × Vec ℝ

/-- prior of the network's parameters; the density is the probability of the labels given `m` -/
noncomputable def labelPrior (K : ℕ) (n : SBM) : Measure (NetLabels K n.C) :=
  (Measure.pi fun _ : Pair n.C => gammaMeasure n.alpha n.beta).prod
    (((Measure.count : Measure (Fin K → Fin n.C)).prod (dirichletLaw n.C n.pi)).withDensity fun y => ∏ k, ENNReal.ofReal (y.2 (y.1 k)))

/-- probability of the edge `e`: no self connections -/
noncomputable def labelP {K : ℕ} (n : SBM) (e : Pair K) : ℝ := if e.1 = e.2 then 0 else n.p 0 0

/-- scale of the weight of the edge `e` -/
def labelV {K C : ℕ} (η : NetLabels K C) (e : Pair K) : ℝ := η.1 (η.2.1 e.1, η.2.1 e.2)

/-- density of adjacency matrix and weights given the network's parameters -/
noncomputable def labelDens {K : ℕ} (n : SBM) (η : NetLabels K n.C) (A W : Pair K → ℝ) : ENNReal :=
  (∏ e, edgePmf (labelP n e) (A e)) * ∏ e, gammaPDF n.kappa (labelV η e) (W e)

/-- the labels of a network with `C` blocks -/
def netLabels (K C : ℕ) [NeZero C] : Net → NetLabels K C
  | .sbmFixed n => (fun a => n.v a.1 a.2, fun k => Fin.ofNat C (n.c k), n.m)
  | _ => (fun _ => 0, fun _ => 0, fun _ => 0)

/-- a valid network of this kind -/
structure LabelOk (K : ℕ) (n : SBM) : Prop where
  net : SbmOk K n
  p : ∀ a < n.C, ∀ b < n.C, n.p a b = n.p 0 0
  self : n.allowSelf = false
  learned : n.fixed = false

/-! ### discrete time -/

/-- the sampled parameters: adjacency matrix, network parameters, weights, background rates, impulse weights -/
abbrev ThetaL (K C : ℕ) := (Pair K → ℝ) × NetLabels K C × (Pair K → ℝ) × (Fin K → ℝ) × (Pair K → Vec ℝ)

/-- prior of all parameters of the model `c` with network `n` -/
noncomputable def priorL (c : HawkesState) (n : SBM) : Measure (ThetaL c.base.K n.C) :=
  ((Measure.pi fun _ : Pair c.base.K => Measure.dirac (0 : ℝ) + Measure.dirac 1).prod ((labelPrior c.base.K n).prod ((Measure.pi fun _ => volume).prod
    ((Measure.pi fun _ => gammaMeasure c.alpha c.beta).prod (Measure.pi fun _ => dirichletLaw c.base.B c.gamma))))).withDensity
    fun θ => labelDens n θ.2.1 θ.1 θ.2.2.1

/-- likelihood of all data sets of the model: the exponential of `log_likelihood()` -/
noncomputable def likelihoodL (c : HawkesState) {C : ℕ} (θ : ThetaL c.base.K C) : ENNReal :=
  ENNReal.ofReal (Real.exp (llModel (rateParams c.base θ.1 θ.2.2.1 θ.2.2.2.1 θ.2.2.2.2) c.data))

/-- posterior distribution of the parameters given the data: prior times likelihood, normalised -/
noncomputable def posteriorL (c : HawkesState) (n : SBM) : Measure (ThetaL c.base.K n.C) :=
  (∫⁻ θ, likelihoodL c θ ∂priorL c n)⁻¹ • (priorL c n).withDensity (likelihoodL c)

/-- read the sampled parameters off a model object -/
def thetaL (K C : ℕ) [NeZero C] (s : HawkesState) : ThetaL K C :=
  (fun e => s.A e.1 e.2, netLabels K C s.net, fun e => s.W e.1 e.2, fun k => s.base.lam0 k, fun e => s.base.g e.1 e.2)

/-- the generator calls of the network update, and those of `S` -/
inductive SiteL (S : Type) where
  | scale (a b : ℕ)
  | label (k : ℕ)
  | blocks
  | other (σ : S)
  deriving DecidableEq

/-- the network's draws when the seed of call site `σ` is `x σ` -/
def netDrawsL {U S : Type} [MeasurableSpace U] {μ : Measure U} (G : Generator μ) (Ls : LabelSampler μ) (C : ℕ) (o : SBMOracle) (x : SiteL S → U) : SBMOracle :=
  { o with
    gamma := fun a b r => G.gam r (x (.scale a b))
    label := fun k lp => Ls.lab C (arr C lp) (x (.label k))
    dirichlet := fun v => G.dir C (arr C v) (x .blocks) }

/-- the draws of one call when the seed of call site `σ` is `x σ`; the implementation choices are those of `d` -/
def drawsL {U : Type} [MeasurableSpace U] {μ : Measure U} (G : Generator μ) (Ls : LabelSampler μ) (K B C : ℕ) (d : StepDraws) (x : SiteL Site → U) : StepDraws :=
  { G.draws K B d (fun σ => x (.other σ)) with net := netDrawsL G Ls C d.net x }

/-- the seeds of one call are independent of each other and of everything that happened before, and have distribution `μ` -/
structure FreshSeedsL {U Ω E S : Type*} [MeasurableSpace U] [MeasurableSpace Ω] [MeasurableSpace E] (μ : Measure U) (Pr : Measure Ω) (past : Ω → E) (x : Ω → S → U) : Prop where
  indep : iIndepFun (fun σ ω => x ω σ) Pr
  law : ∀ σ, HasLaw (fun ω => x ω σ) μ Pr
  fresh : IndepFun past x Pr

/-- `s` is a state of the same model as `c`: same sizes, hyperparameters, network hyperparameters and observed data; the sampled quantities may differ -/
structure SameModelL (c : HawkesState) (n : SBM) (s : HawkesState) : Prop where
  base : s.base = { c.base with lam0 := s.base.lam0, g := s.base.g, Weff := s.base.Weff }
  alpha : s.alpha = c.alpha
  beta : s.beta = c.beta
  gamma : s.gamma = c.gamma
  net : ∃ v l m, s.net = .sbmFixed { n with v := v, c := l, m := m }
  data : List.Forall₂ (fun D D' : DParents ℝ => D'.T = D.T ∧ D'.S = D.S ∧ D'.F = D.F) c.data s.data

/-- valid settings: positive hyperparameters, a valid network, at least one basis function, well-formed data -/
structure CfgOkL (c : HawkesState) (n : SBM) : Prop where
  B : 0 < c.base.B
  data : ∀ D ∈ c.data, DataOk c.base.K c.base.B D
  hyper : HyperOk c
  net : LabelOk c.base.K n

end PyHawkes.Spec
