import Verif.Spec.Posterior
import Verif.Spec.CTSampler
/-!
# Specification: the posterior distribution sampled by `resample_model` of the continuous-time model

Continuous-time model with an `ErdosRenyiFixedSparsity` network. The prior is the generative model documented for the class: `lambda0[k] ~ Gamma(alpha, beta)`,
`(mu[i,j], tau[i,j]) ~ NormalGamma(mu_0, lambda_0, alpha_0, beta_0)`, `A[i,j] ~ Bernoulli(P[i,j])`, `v ~ Gamma(alpha_v, beta_v)` (or fixed), `W[i,j] ~ Gamma(kappa, v)`.
The likelihood of the data is the exponential of what `log_likelihood()` returns.
-/
namespace PyHawkes.Spec
open MeasureTheory ProbabilityTheory Finset

/-! ### Random draws -/

/-- `np.random.normal(m, s)`, with seed `u` -/
structure NormalSampler {U : Type*} [MeasurableSpace U] (μ : Measure U) where
  normal : ℝ → ℝ → U → ℝ
  meas : Measurable fun x : (ℝ × ℝ) × U => normal x.1.1 x.1.2 x.2
  law : ∀ m s, 0 < s → μ.map (normal m s) = gaussianReal m (s ^ 2).toNNReal

/-- the generator calls of one `resample_model` call: the uniform draw for event `n` of data set `i`; background rates; precisions and means of the impulse responses; the network's
weight scale; weights; the uniform draws of the adjacency update -/
inductive CTSite where
  | parent (i n : ℕ)
  | lam (k : ℕ)
  | precision (i j : ℕ)
  | mean (i j : ℕ)
  | scale
  | weight (i j : ℕ)
  | unif (i j : ℕ)
  deriving DecidableEq

/-- the draws of one call when the seed of call site `σ` is `x σ`; schedules and other implementation choices are those of `d` -/
def ctDraws {U : Type*} [MeasurableSpace U] {μ : Measure U} (G : Generator μ) (N : NormalSampler μ) (d : CTDraws) (x : CTSite → U) : CTDraws :=
  { d with
    parU := fun i n => G.unif (x (.parent i n))
    lam := fun k a => G.gam a (x (.lam k))
    nigGam := fun i j a => G.gam a (x (.precision i j))
    nigNormal := fun i j m s => N.normal m s (x (.mean i j))
    erGamma := fun a => G.gam a (x .scale)
    weight := fun i j a => G.gam a (x (.weight i j))
    u := fun i j => G.unif (x (.unif i j)) }

/-- the seeds of one call are independent of each other and of everything that happened before, and have distribution `μ` -/
structure FreshSeedsCT {U Ω E : Type*} [MeasurableSpace U] [MeasurableSpace Ω] [MeasurableSpace E] (μ : Measure U) (Pr : Measure Ω) (past : Ω → E) (x : Ω → CTSite → U) : Prop where
  indep : iIndepFun (fun σ ω => x ω σ) Pr
  law : ∀ σ, HasLaw (fun ω => x ω σ) μ Pr
  fresh : IndepFun past x Pr

/-! ### Parameters -/

/-- the sampled parameters of a network of `K` processes: adjacency matrix, weight scale `v`, weights, background rates, impulse responses `(mu, tau)` -/
abbrev ThetaCT (K : ℕ) := (Pair K → ℝ) × ℝ × (Pair K → ℝ) × (Fin K → ℝ) × (Pair K → ℝ × ℝ)

/-- read the sampled parameters off a model object -/
def thetaCT (K : ℕ) (s : CTState) : ThetaCT K :=
  (fun e => s.P.A e.1 e.2, netScale s.net, fun e => s.P.W e.1 e.2, fun k => s.P.lam0 k, fun e => (s.P.mu e.1 e.2, s.P.tau e.1 e.2))

/-- a matrix of size `K`, as a function that is 0 outside -/
noncomputable def padM {K : ℕ} (A : Pair K → ℝ) : Mat ℝ := fun i j => if h : i < K ∧ j < K then A (⟨i, h.1⟩, ⟨j, h.2⟩) else 0

/-- the model `c` with other parameters -/
noncomputable def ctRateParams {K : ℕ} (c : CTParams) (A W : Pair K → ℝ) (lam : Fin K → ℝ) (m : Pair K → ℝ × ℝ) : CTParams :=
  { c with
    lam0 := fun k => if h : k < K then lam ⟨k, h⟩ else 0
    W := padM W
    A := padM A
    mu := padM fun e => (m e).1
    tau := padM fun e => (m e).2 }

/-! ### Prior and posterior -/

/-- the normal-gamma distribution of `(mu, tau)` -/
noncomputable def nigLaw (a : NigArgs) : Measure (ℝ × ℝ) := (volume.prod volume).withDensity fun x => ENNReal.ofReal (nigPdf a x.1 x.2)

/-- prior of the parameters of the model `c` with network `n`; the factor is the density of the weights given the scale -/
noncomputable def priorCT (c : CTState) (n : ERFixed) : Measure (ThetaCT c.P.K) :=
  ((Measure.pi fun e : Pair c.P.K => coinLaw (n.P e.1 e.2)).prod ((scalePrior n).prod ((Measure.pi fun _ => volume).prod
    ((Measure.pi fun _ => gammaMeasure c.alpha c.beta).prod (Measure.pi fun _ => nigLaw c.nig))))).withDensity
    fun θ => ∏ e, gammaPDF n.kappa θ.2.1 (θ.2.2.1 e)

/-- likelihood of all data sets of the model: the exponential of `log_likelihood()` -/
noncomputable def likelihoodCT (c : CTState) (θ : ThetaCT c.P.K) : ENNReal :=
  ENNReal.ofReal (Real.exp (ctLogLik (ctRateParams c.P θ.1 θ.2.2.1 θ.2.2.2.1 θ.2.2.2.2) c.data))

/-- posterior distribution of the parameters given the data: prior times likelihood, normalised -/
noncomputable def posteriorCT (c : CTState) (n : ERFixed) : Measure (ThetaCT c.P.K) :=
  (∫⁻ θ, likelihoodCT c θ ∂priorCT c n)⁻¹ • (priorCT c n).withDensity (likelihoodCT c)

/-- `s` is a state of the same model as `c`: same sizes, window, hyperparameters, kind of network and observed events; the sampled quantities may differ -/
structure SameModelCT (c : CTState) (n : ERFixed) (s : CTState) : Prop where
  K : s.P.K = c.P.K
  dtMax : s.P.dtMax = c.P.dtMax
  alpha : s.alpha = c.alpha
  beta : s.beta = c.beta
  nig : s.nig = c.nig
  net : s.net = .er { n with v := netScale s.net }
  data : List.Forall₂ (fun D D' : CTData => D'.N = D.N ∧ D'.S = D.S ∧ D'.C = D.C ∧ D'.T = D.T) c.data s.data

/-- valid settings with a single data set: positive hyperparameters, a valid network, events in order with labels in range, a nonnegative duration, no two events exactly
`dt_max - 1e-8` apart (there the parent update and `log_likelihood` disagree, `C70_boundary_disagrees`) -/
structure CfgOkCT (c : CTState) (n : ERFixed) (D : CTData) : Prop where
  data : c.data = [D]
  labels : LabelsOk c.P.K D
  sorted : SortedTimes D
  T : 0 ≤ D.T
  boundary : ∀ m < D.N, ∀ j < m, D.S m - D.S j ≠ c.P.dtMax - 1e-8
  hyper : CTHyperOk c
  net : ErOk c.P.K n

end PyHawkes.Spec
