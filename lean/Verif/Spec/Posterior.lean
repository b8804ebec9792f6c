import Verif.Spec.Sampler
import Verif.Spec.Dirichlet
import Mathlib.MeasureTheory.Measure.Lebesgue.Basic
import Mathlib.MeasureTheory.Measure.Prod
import Mathlib.Data.Nat.Choose.Multinomial
import Mathlib.Probability.HasLaw
import Mathlib.Probability.Independence.Basic
/-!
# Specification: the posterior distribution sampled by `resample_model`, and what it means that its generator calls are random

Spike-and-slab model with an `ErdosRenyiFixedSparsity` network. The prior is the generative model documented for the class:
`lambda0[k] ~ Gamma(alpha, beta)`, `g[i,j] ~ Dirichlet(gamma)`, `A[i,j] ~ Bernoulli(P[i,j])`, `v ~ Gamma(alpha_v, beta_v)` (or fixed), `W[i,j] ~ Gamma(kappa, v)`.
The likelihood of the data is the exponential of what `log_likelihood()` returns.
-/
namespace PyHawkes.Spec
open MeasureTheory ProbabilityTheory Finset

/-! ### Random draws -/

/-- probability that `np.random.multinomial(s, p)`, `p` of length `n`, returns `z` -/
noncomputable def multinomialPmf (n s : ℕ) (p : Vec ℝ) (z : Vec ℕ) : ℝ :=
  if ∑ c ∈ range n, z c = s then (Nat.multinomial (range n) z : ℝ) * ∏ c ∈ range n, p c ^ z c else 0

/-- an array of length `n`, as a function that is 0 beyond the end -/
def arr (n : ℕ) (p : Vec ℝ) : Vec ℝ := fun j => if j < n then p j else 0

/-- numpy's samplers: functions of their arguments and of a seed `u` with distribution `μ`. They are measurable, return values in their documented ranges, and have their documented
distributions. -/
structure Generator {U : Type*} [MeasurableSpace U] (μ : Measure U) where
  gam : GammaArgs → U → ℝ
  dir : ℕ → Vec ℝ → U → Vec ℝ
  mult : ℕ → ℕ → Vec ℝ → U → Vec ℕ
  unif : U → ℝ
  gam_meas : Measurable fun x : (ℝ × ℝ) × U => gam ⟨x.1.1, x.1.2⟩ x.2
  dir_meas : ∀ n, Measurable fun x : Vec ℝ × U => dir n x.1 x.2
  mult_meas : ∀ n s, Measurable fun x : Vec ℝ × U => mult n s x.1 x.2
  unif_meas : Measurable unif
  gam_pos : ∀ a u, 0 < a.shape → 0 < a.scale → 0 < gam a u
  dir_prob : ∀ n v u, 0 < n → (∀ b < n, 0 < v b) → IsProb n (dir n v u)
  mult_ok : ∀ n u, MultinomialSampler n fun s p => mult n s p u
  unif_mem : ∀ u, 0 ≤ unif u ∧ unif u < 1
  gam_law : ∀ a, 0 < a.shape → 0 < a.scale → μ.map (gam a) = gammaMeasure a.shape (1 / a.scale)
  dir_law : ∀ n v, 0 < n → (∀ b < n, 0 < v b) → μ.map (dir n v) = dirichletLaw n v
  mult_law : ∀ n s p, IsProb n p → ∀ z : Vec ℕ, μ {u | ∀ c < n, mult n s p u c = z c} = ENNReal.ofReal (multinomialPmf n s p z)
  unif_law : μ.map unif = volume.restrict (Set.Ico 0 1)

/-- the generator calls of one `resample_model` call: parents of the `r`-th event bin of process `k` in data set `i`; background rates; impulse weights; the network's weight scale;
weights; the uniform draws of the adjacency update -/
inductive Site where
  | parents (i k r : ℕ)
  | lam (k : ℕ)
  | dir (i j : ℕ)
  | scale
  | weight (i j : ℕ)
  | unif (i j : ℕ)
  deriving DecidableEq

/-- the draws of one call when the seed of call site `σ` is `x σ`; the implementation choices are those of `d` -/
def Generator.draws {U : Type*} [MeasurableSpace U] {μ : Measure U} (G : Generator μ) (K B : ℕ) (d : StepDraws) (x : Site → U) : StepDraws :=
  { d with
    mult := fun i k r s p => G.mult (1 + K * B) s (arr (1 + K * B) p) (x (.parents i k r))
    lam := fun k a => G.gam a (x (.lam k))
    dir := fun i j v => G.dir B (arr B v) (x (.dir i j))
    erGamma := fun a => G.gam a (x .scale)
    weight := fun i j a => G.gam a (x (.weight i j))
    u := fun i j => G.unif (x (.unif i j)) }

/-- the seeds of one call are independent of each other and of everything that happened before, and have distribution `μ` -/
structure FreshSeeds {U Ω E : Type*} [MeasurableSpace U] [MeasurableSpace Ω] [MeasurableSpace E] (μ : Measure U) (Pr : Measure Ω) (past : Ω → E) (x : Ω → Site → U) : Prop where
  indep : iIndepFun (fun σ ω => x ω σ) Pr
  law : ∀ σ, HasLaw (fun ω => x ω σ) μ Pr
  fresh : IndepFun past x Pr

/-! ### Parameters -/

/-- ordered pairs of processes -/
abbrev Pair (K : ℕ) := Fin K × Fin K

/-- the sampled parameters of a network of `K` processes: adjacency matrix, weight scale `v`, weights, background rates, impulse weights -/
abbrev Theta (K : ℕ) := (Pair K → ℝ) × ℝ × (Pair K → ℝ) × (Fin K → ℝ) × (Pair K → Vec ℝ)

/-- `network.v` -/
def netScale : Net → ℝ
  | .er n => n.v
  | _ => 0

/-- read the sampled parameters off a model object -/
def theta (K : ℕ) (s : HawkesState) : Theta K :=
  (fun e => s.A e.1 e.2, netScale s.net, fun e => s.W e.1 e.2, fun k => s.base.lam0 k, fun e => s.base.g e.1 e.2)

/-- the parameters of the rate: `lambda0`, `W_effective = A * W`, `g` -/
noncomputable def rateParams {K : ℕ} (c : NetParams ℝ) (A W : Pair K → ℝ) (lam : Fin K → ℝ) (g : Pair K → Vec ℝ) : NetParams ℝ :=
  { c with
    lam0 := fun k => if h : k < K then lam ⟨k, h⟩ else 0
    Weff := fun i j => if h : i < K ∧ j < K then A (⟨i, h.1⟩, ⟨j, h.2⟩) * W (⟨i, h.1⟩, ⟨j, h.2⟩) else 0
    g := fun i j => if h : i < K ∧ j < K then g (⟨i, h.1⟩, ⟨j, h.2⟩) else fun _ => 0 }

/-! ### Prior and posterior -/

/-- distribution of a 0/1 variable that is 1 with probability `p` -/
noncomputable def coinLaw (p : ℝ) : Measure ℝ := ENNReal.ofReal p • Measure.dirac 1 + ENNReal.ofReal (1 - p) • Measure.dirac 0

/-- prior of the weight scale: `Gamma(alpha, beta)` when both hyperparameters are given, otherwise fixed -/
noncomputable def scalePrior (n : ERFixed) : Measure ℝ :=
  match n.alpha, n.beta with
  | some a, some b => if truthy (some a) && truthy (some b) then gammaMeasure a b else Measure.dirac n.v
  | _, _ => Measure.dirac n.v

/-- prior of the parameters of the model `c` with network `n`; the factor is the density of the weights given the scale -/
noncomputable def prior (c : HawkesState) (n : ERFixed) : Measure (Theta c.base.K) :=
  ((Measure.pi fun e : Pair c.base.K => coinLaw (n.P e.1 e.2)).prod ((scalePrior n).prod ((Measure.pi fun _ => volume).prod
    ((Measure.pi fun _ => gammaMeasure c.alpha c.beta).prod (Measure.pi fun _ => dirichletLaw c.base.B c.gamma))))).withDensity
    fun θ => ∏ e, gammaPDF n.kappa θ.2.1 (θ.2.2.1 e)

/-- likelihood of all data sets of the model: the exponential of `log_likelihood()` -/
noncomputable def likelihood (c : HawkesState) (θ : Theta c.base.K) : ENNReal :=
  ENNReal.ofReal (Real.exp (llModel (rateParams c.base θ.1 θ.2.2.1 θ.2.2.2.1 θ.2.2.2.2) c.data))

/-- posterior distribution of the parameters given the data: prior times likelihood, normalised -/
noncomputable def posterior (c : HawkesState) (n : ERFixed) : Measure (Theta c.base.K) :=
  (∫⁻ θ, likelihood c θ ∂prior c n)⁻¹ • (prior c n).withDensity (likelihood c)

/-- `s` is a state of the same model as `c`: same sizes, hyperparameters, kind of network and observed data; the sampled quantities may differ -/
structure SameModel (c : HawkesState) (n : ERFixed) (s : HawkesState) : Prop where
  base : s.base = { c.base with lam0 := s.base.lam0, g := s.base.g, Weff := s.base.Weff }
  alpha : s.alpha = c.alpha
  beta : s.beta = c.beta
  gamma : s.gamma = c.gamma
  net : s.net = .er { n with v := netScale s.net }
  data : List.Forall₂ (fun D D' : DParents ℝ => D'.T = D.T ∧ D'.S = D.S ∧ D'.F = D.F) c.data s.data

/-- valid settings: positive hyperparameters, a valid network, at least one basis function, well-formed data -/
structure CfgOk (c : HawkesState) (n : ERFixed) : Prop where
  B : 0 < c.base.B
  data : ∀ D ∈ c.data, DataOk c.base.K c.base.B D
  hyper : HyperOk c
  net : ErOk c.base.K n

/-- the filtered counts come from events: if they are nonzero for a process, that process has an event in one of the data sets. `add_data` guarantees this (`C83_add_data_filtered`). -/
def FilteredFromEvents (K B : ℕ) (data : List (DParents ℝ)) : Prop :=
  ∀ D ∈ data, ∀ t < D.T, ∀ i < K, ∀ b < B, D.F t i b ≠ 0 → ∃ D' ∈ data, ∃ t' < D'.T, D'.S t' i ≠ 0

end PyHawkes.Spec
