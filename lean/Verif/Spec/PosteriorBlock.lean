import Verif.Spec.Posterior
import Mathlib.Probability.Distributions.Beta
/-!
# Specification: the posterior distribution sampled by `resample_model` when the network is a one-block model (`ErdosRenyiModel`, or `StochasticBlockModel` with `C=1`)

The edge probability `p ~ Beta(tau1, tau0)` and the weight scale `v ~ Gamma(alpha, beta)` are learned; otherwise as in `Spec.Posterior`.
-/
namespace PyHawkes.Spec
open MeasureTheory ProbabilityTheory Finset

/-- `np.random.beta(a, b)`: a function of its arguments and a seed with distribution `μ` -/
structure BetaSampler {U : Type*} [MeasurableSpace U] (μ : Measure U) where
  bet : BetaArgs → U → ℝ
  bet_meas : Measurable fun x : (ℝ × ℝ) × U => bet ⟨x.1.1, x.1.2⟩ x.2
  bet_mem : ∀ a u, 0 < a.a → 0 < a.b → 0 ≤ bet a u ∧ bet a u ≤ 1
  bet_law : ∀ a, 0 < a.a → 0 < a.b → μ.map (bet a) = betaMeasure a.a a.b

/-- the sampled parameters: edge probability, then those of `Spec.Theta` -/
abbrev ThetaB (K : ℕ) := ℝ × Theta K

/-- probability of the adjacency entry `a` (0 or 1) when an edge has probability `p` -/
noncomputable def edgePmf (p a : ℝ) : ENNReal := ENNReal.ofReal (if a = 1 then p else 1 - p)

/-- prior of the parameters of the model `c` with the one-block network `n`: `p ~ Beta(tau1, tau0)`, `v ~ Gamma(alpha, beta)`, `lambda0[k] ~ Gamma`, `g[i,j] ~ Dirichlet`; the factors of the
density are the probability of the adjacency matrix given `p` and the density of the weights given `v` -/
noncomputable def priorB (c : HawkesState) (n : SBM) : Measure (ThetaB c.base.K) :=
  ((betaMeasure n.tau1 n.tau0).prod ((Measure.pi fun _ : Pair c.base.K => Measure.dirac (0 : ℝ) + Measure.dirac 1).prod ((gammaMeasure n.alpha n.beta).prod ((Measure.pi fun _ => volume).prod
    ((Measure.pi fun _ => gammaMeasure c.alpha c.beta).prod (Measure.pi fun _ => dirichletLaw c.base.B c.gamma)))))).withDensity
    fun θ => (∏ e, edgePmf θ.1 (θ.2.1 e)) * ∏ e, gammaPDF n.kappa θ.2.2.1 (θ.2.2.2.1 e)

/-- posterior distribution of the parameters given the data: prior times likelihood, normalised -/
noncomputable def posteriorB (c : HawkesState) (n : SBM) : Measure (ThetaB c.base.K) :=
  (∫⁻ θ, likelihood c θ.2 ∂priorB c n)⁻¹ • (priorB c n).withDensity fun θ => likelihood c θ.2

/-! ### Model objects and random draws -/

/-- the (only) edge probability `network.p` and the (only) weight scale `network.v` of a one-block network -/
def netProb : Net → ℝ
  | .sbm n => n.p 0 0
  | _ => 0

/-- see `netProb` -/
def netScaleB : Net → ℝ
  | .sbm n => n.v 0 0
  | _ => 0

/-- read the sampled parameters off a model object -/
def thetaB (K : ℕ) (s : HawkesState) : ThetaB K :=
  (netProb s.net, fun e => s.A e.1 e.2, netScaleB s.net, fun e => s.W e.1 e.2, fun k => s.base.lam0 k, fun e => s.base.g e.1 e.2)

/-- the generator calls of one `resample_model` call: the edge probability, and those of `Spec.Site` -/
inductive SiteB where
  | prob
  | other (σ : Site)
  deriving DecidableEq

/-- the draws of one call when the seed of call site `σ` is `x σ`; the implementation choices, and the unused block labels and block probabilities, are those of `d` -/
def drawsB {U : Type*} [MeasurableSpace U] {μ : Measure U} (G : Generator μ) (Bt : BetaSampler μ) (K B : ℕ) (d : StepDraws) (x : SiteB → U) : StepDraws :=
  { G.draws K B d (fun σ => x (.other σ)) with
    net := { d.net with
      beta := fun _ _ a => Bt.bet a (x .prob)
      gamma := fun _ _ a => G.gam a (x (.other .scale)) } }

/-- the seeds of one call are independent of each other and of everything that happened before, and have distribution `μ` -/
structure FreshSeedsB {U Ω E : Type*} [MeasurableSpace U] [MeasurableSpace Ω] [MeasurableSpace E] (μ : Measure U) (Pr : Measure Ω) (past : Ω → E) (x : Ω → SiteB → U) : Prop where
  indep : iIndepFun (fun σ ω => x ω σ) Pr
  law : ∀ σ, HasLaw (fun ω => x ω σ) μ Pr
  fresh : IndepFun past x Pr

/-- `s` is a state of the same model as `c`: same sizes, hyperparameters, network hyperparameters and observed data; the sampled quantities may differ -/
structure SameModelB (c : HawkesState) (n : SBM) (s : HawkesState) : Prop where
  base : s.base = { c.base with lam0 := s.base.lam0, g := s.base.g, Weff := s.base.Weff }
  alpha : s.alpha = c.alpha
  beta : s.beta = c.beta
  gamma : s.gamma = c.gamma
  net : ∃ p v m, s.net = .sbm { n with p := p, v := v, m := m }
  data : List.Forall₂ (fun D D' : DParents ℝ => D'.T = D.T ∧ D'.S = D.S ∧ D'.F = D.F) c.data s.data

/-- valid settings: positive hyperparameters, a valid learned network with one block and self connections, at least one basis function, well-formed data -/
structure CfgOkB (c : HawkesState) (n : SBM) : Prop where
  B : 0 < c.base.B
  data : ∀ D ∈ c.data, DataOk c.base.K c.base.B D
  hyper : HyperOk c
  net : SbmOk c.base.K n
  one : n.C = 1
  self : n.allowSelf = true
  learned : n.fixed = false

end PyHawkes.Spec
