import Verif.Spec.Random
import Verif.Model.GibbsModel
/-! # Specification: contracts of the generators used by one sampler iteration, and what a valid sampler state is -/
namespace PyHawkes.Spec
open Finset

/-- what numpy guarantees about the draws of one `resample_model` call (exact arithmetic): gamma draws are positive for positive parameters, Dirichlet draws are
probability vectors for positive parameters, beta draws lie in [0,1] for positive parameters, labels are block numbers, uniforms lie in [0,1), multinomial draws are possible
outcomes; the workers finish in some order -/
structure DrawsOk (K B C : ℕ) (d : StepDraws) : Prop where
  mult : ∀ i k j, MultinomialSampler (1 + K * B) (d.mult i k j)
  lam : ∀ k a, 0 < a.shape → 0 < a.scale → 0 < d.lam k a
  dir : ∀ i j v, (∀ b < B, 0 < v b) → IsProb B (d.dir i j v)
  weight : ∀ i j a, 0 < a.shape → 0 < a.scale → 0 < d.weight i j a
  erGamma : ∀ a, 0 < a.shape → 0 < a.scale → 0 < d.erGamma a
  netGamma : ∀ i j a, 0 < a.shape → 0 < a.scale → 0 < d.net.gamma i j a
  netBeta : ∀ i j a, 0 < a.a → 0 < a.b → 0 ≤ d.net.beta i j a ∧ d.net.beta i j a ≤ 1
  netLabel : ∀ k v, d.net.label k v < C
  netDir : ∀ v, (∀ b < C, 0 < v b) → IsProb C (d.net.dirichlet v)
  unif : ∀ i j, 0 ≤ d.u i j ∧ d.u i j < 1
  order : d.order.Perm (List.range K)

/-- the part of the contracts that concerns the network -/
structure NetDrawsOk (C : ℕ) (o : SBMOracle) (erGamma : GammaArgs → ℝ) : Prop where
  erGamma : ∀ a, 0 < a.shape → 0 < a.scale → 0 < erGamma a
  netGamma : ∀ i j a, 0 < a.shape → 0 < a.scale → 0 < o.gamma i j a
  netBeta : ∀ i j a, 0 < a.a → 0 < a.b → 0 ≤ o.beta i j a ∧ o.beta i j a ≤ 1
  netLabel : ∀ k v, o.label k v < C
  netDir : ∀ v, (∀ b < C, 0 < v b) → IsProb C (o.dirichlet v)

/-- valid hyperparameters and parameters of a block model on `K` nodes -/
structure SbmOk (K : ℕ) (n : SBM) : Prop where
  size : n.K = K
  hyper : 0 < n.tau0 ∧ 0 < n.tau1 ∧ 0 < n.alpha ∧ 0 < n.beta ∧ 0 < n.kappa ∧ ∀ b < n.C, 0 < n.pi b
  labels : ∀ k < K, n.c k < n.C
  p : ∀ i < n.C, ∀ j < n.C, 0 ≤ n.p i j ∧ n.p i j ≤ 1
  v : ∀ i < n.C, ∀ j < n.C, 0 < n.v i j

/-- valid parameters of an `ErdosRenyiFixedSparsity` network -/
structure ErOk (K : ℕ) (n : ERFixed) : Prop where
  size : n.K = K
  p : 0 ≤ n.p ∧ n.p ≤ 1
  kappa : 0 < n.kappa
  v : 0 < n.v
  hyper : (∀ a ∈ n.alpha, 0 ≤ a) ∧ ∀ b ∈ n.beta, 0 ≤ b

/-- valid network of any of the four classes -/
def NetOk (K : ℕ) : Net → Prop
  | .sbm n => SbmOk K n
  | .sbmFixed n => SbmOk K n
  | .er n => ErOk K n

/-- number of blocks (1 for `ErdosRenyiFixedSparsity`, which has no labels) -/
def blocks : Net → ℕ
  | .sbm n => n.C
  | .sbmFixed n => n.C
  | .er _ => 1

/-- a data set the sampler can work with: nonnegative filtered counts and counts that fit in 32 bits -/
def DataOk (K B : ℕ) (D : DParents ℝ) : Prop :=
  (∀ t < D.T, ∀ k < K, ∀ b < B, 0 ≤ D.F t k b) ∧ ∀ t < D.T, ∀ k < K, D.S t k < 2 ^ 32

/-- in every bin with events of process `k`, in order, the sampled parents add up to the observed count -/
def ParentsConsistent (K B : ℕ) (D : DParents ℝ) : Prop :=
  ∀ k < K, List.Forall₂ (fun t (z : Vec ℕ) => z 0 + ∑ k1 ∈ range K, ∑ b ∈ range B, z (1 + k1 * B + b) = D.S t k)
    ((List.range D.T).filter fun t => D.S t k ≠ 0) (D.getZ k)

/-- the sampled parameters of a model are valid: rates and weights positive, impulse weights probability vectors, edges 0 or 1, no forbidden self edge, and
connection probabilities are probabilities, in particular zero / one prior probabilities are respected -/
structure ParamsOk (s : HawkesState) : Prop where
  lam0 : ∀ k < s.base.K, 0 < s.base.lam0 k
  g : ∀ i < s.base.K, ∀ j < s.base.K, IsProb s.base.B (s.base.g i j)
  W : ∀ i < s.base.K, ∀ j < s.base.K, 0 < s.W i j
  A : ∀ i < s.base.K, ∀ j < s.base.K, s.A i j = 0 ∨ s.A i j = 1
  self : s.net.allowSelf = false → ∀ i < s.base.K, s.A i i = 0
  net : NetOk s.base.K s.net

/-- positive hyperparameters and a nonnegative basis -/
structure HyperOk (s : HawkesState) : Prop where
  alpha : 0 < s.alpha
  beta : 0 < s.beta
  gamma : ∀ b < s.base.B, 0 < s.gamma b
  dt : 0 < s.base.dt
  basis : ∀ l < s.base.L, ∀ b < s.base.B, 0 ≤ s.base.basis l b

/-- a call the theorems speak about: counts fit in 32 bits, precomputed filtered counts (if given) are nonnegative, generators meet their contracts -/
def OpOk (K B C : ℕ) : Op → Prop
  | .addData a => (∀ t < a.T, ∀ k < K, a.S t k < 2 ^ 32) ∧ ∀ T' K' B' F, a.F = some (T', K', B', F) → ∀ t < a.T, ∀ k < K, ∀ b < B, 0 ≤ F t k b
  | .resample d => DrawsOk K B C d

end PyHawkes.Spec
