import Verif.Spec.Bayes
import Verif.Spec.Rate
import Verif.Spec.Basis
import Verif.Spec.Posterior
import Verif.Model.Rate
/-!
# Specification: the law of the data simulated by the discrete-time `generate`
-/
namespace PyHawkes.Spec
open MeasureTheory ProbabilityTheory Finset

/-- `np.random.poisson`: a function of the mean and of a seed with distribution `μ`; measurable, with the Poisson distribution -/
structure PoissonSampler {U : Type*} [MeasurableSpace U] (μ : Measure U) where
  pois : ℝ → U → ℕ
  pois_meas : Measurable fun x : ℝ × U => pois x.1 x.2
  pois_law : ∀ m, 0 ≤ m → ∀ j, μ {u | pois m u = j} = ENNReal.ofReal (poissonPmf m j)

/-- the draws of the `i`-th call of `generate`: the count of process `k` in bin `t` uses seed `(i, t, k)` -/
def PoissonSampler.draws {U : Type*} [MeasurableSpace U] {μ : Measure U} (Ps : PoissonSampler μ) (x : ℕ × ℕ × ℕ → U) (i : ℕ) : ℕ → ℕ → ℝ → ℕ := fun t k m => Ps.pois m (x (i, t, k))

/-- `generate(T=T)` succeeds and the counts it returns are `s` -/
def Simulates (P : NetParams ℝ) (draw : ℕ → ℕ → ℝ → ℕ) (T : ℕ) (s : Mat ℕ) : Prop :=
  ∃ S r, generate P draw T = .ok (S, r) ∧ ∀ t < T, ∀ k < P.K, S t k = s t k

/-- probability of the counts `s` under the model: every bin is Poisson with mean rate times bin width, the rate being background plus weighted filtered history -/
noncomputable def countProb (P : NetParams ℝ) (T : ℕ) (s : Mat ℕ) : ℝ :=
  ∏ t ∈ range T, ∏ k ∈ range P.K, poissonPmf (rate P.K P.B P.lam0 P.Weff P.g (filtered P.L P.basis fun t k => (s t k : ℝ)) t k * P.dt) (s t k)

/-- the part of the probability that does not depend on the parameters of the model -/
noncomputable def countConst (dt : ℝ) (T K : ℕ) (s : Mat ℕ) : ℝ := ∏ t ∈ range T, ∏ k ∈ range K, dt ^ s t k / (s t k).factorial

/-- usable simulation settings: at least one process, basis function and lag; an integer basis length; positive bin width; a nonnegative basis that does not react within the same bin -/
structure SimOk (P : NetParams ℝ) : Prop where
  K : 0 < P.K
  B : 0 < P.B
  L : 0 < P.L
  len : P.lenIsInt = true
  dt : 0 < P.dt
  basis : ∀ l < P.L, ∀ b < P.B, 0 ≤ P.basis l b
  causal : ∀ b < P.B, P.basis 0 b = 0

/-- legal rate parameters: positive background rates, nonnegative weights, impulse weights that are probability vectors -/
structure RateOk (P : NetParams ℝ) : Prop where
  lam : ∀ k < P.K, 0 < P.lam0 k
  W : ∀ i < P.K, ∀ j < P.K, 0 ≤ P.Weff i j
  g : ∀ i < P.K, ∀ j < P.K, IsProb P.B (P.g i j)

end PyHawkes.Spec
