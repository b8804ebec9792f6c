import Verif.Model.Variational
/-! # Specification: valid variational states and histories of mean-field steps -/
namespace PyHawkes.Spec
open Finset PyHawkes

/-- the hyperparameters and the starting point of a block model are legal: positive priors, positive starting values, membership rows are
probability vectors, and given probabilities and scales are legal -/
structure SBMGood (n : SBM) : Prop where
  C : 0 < n.C
  kappa : 0 < n.kappa
  tau : 0 < n.tau0 ∧ 0 < n.tau1
  ab : 0 < n.alpha ∧ 0 < n.beta
  pi : ∀ c < n.C, 0 < n.pi c
  mfTau : ∀ c < n.C, ∀ d < n.C, 0 < n.mfTau0 c d ∧ 0 < n.mfTau1 c d
  mfAB : ∀ c < n.C, ∀ d < n.C, 0 < n.mfAlpha c d ∧ 0 < n.mfBeta c d
  mfPi : ∀ c < n.C, 0 < n.mfPi c
  mfM : ∀ k < n.K, (∀ c < n.C, 0 ≤ n.mfM k c) ∧ ∑ c ∈ range n.C, n.mfM k c = 1
  P : ∀ i < n.K, ∀ j < n.K, 0 ≤ n.P i j ∧ n.P i j ≤ 1
  V : ∀ i < n.K, ∀ j < n.K, 0 < n.V i j

/-- the variational parameters of `n` are valid relative to the start `n0`: each at least the smaller of its starting value and its prior, and the
membership rows are probability vectors -/
structure SBMValid (n0 n : SBM) : Prop where
  tau0 : ∀ c < n0.C, ∀ d < n0.C, min (n0.mfTau0 c d) n0.tau0 ≤ n.mfTau0 c d
  tau1 : ∀ c < n0.C, ∀ d < n0.C, min (n0.mfTau1 c d) n0.tau1 ≤ n.mfTau1 c d
  alpha : ∀ c < n0.C, ∀ d < n0.C, min (n0.mfAlpha c d) n0.alpha ≤ n.mfAlpha c d
  beta : ∀ c < n0.C, ∀ d < n0.C, min (n0.mfBeta c d) n0.beta ≤ n.mfBeta c d
  pi : ∀ c < n0.C, min (n0.mfPi c) (n0.pi c) ≤ n.mfPi c
  m : ∀ k < n0.K, (∀ c < n0.C, 0 ≤ n.mfM k c) ∧ ∑ c ∈ range n0.C, n.mfM k c = 1

/-- legal network object for mean-field inference in a model with `K` processes. The Erdos-Renyi network must have been given a gamma prior: without it the
first update raises. -/
def NetGood (K : ℕ) : MFNet → Prop
  | .sbm n => n.K = K ∧ SBMGood n
  | .fixedSparsity n => n.K = K ∧ SBMGood n
  | .er n => n.K = K ∧ 0 < n.kappa ∧ (∀ i < K, ∀ j < K, 0 ≤ n.P i j ∧ n.P i j ≤ 1) ∧
      ∃ al be a b, n.alpha = some al ∧ n.beta = some be ∧ n.mf = some (a, b) ∧ 0 < al ∧ 0 < be ∧ 0 < a ∧ 0 < b

/-- the variational parameters of the network are valid relative to the start -/
def NetValid : MFNet → MFNet → Prop
  | .sbm n0, .sbm n => SBMValid n0 n
  | .fixedSparsity n0, .fixedSparsity n => SBMValid n0 n
  | .er n0, .er n => ∀ al be a0 b0, n0.alpha = some al → n0.beta = some be → n0.mf = some (a0, b0) →
      ∃ a b, n.mf = some (a, b) ∧ min a0 al ≤ a ∧ min b0 be ≤ b
  | _, _ => False

/-- legal hyperparameters and starting point of the whole model, with at least one data set of at least one bin and nonnegative filtered counts -/
structure MFGood (M : MFModel) : Prop where
  bias : 0 < M.bias.alpha ∧ 0 < M.bias.beta ∧ 0 ≤ M.bias.dt ∧ ∀ k < M.K, 0 < M.bias.mfAlpha k ∧ 0 < M.bias.mfBeta k
  imp : ∀ b < M.B, 0 < M.imp.gamma b ∧ ∀ i < M.K, ∀ j < M.K, 0 < M.imp.mfGamma i j b
  w : 0 < M.w.kappa0 ∧ 0 < M.w.nu0
  wmf : ∀ i < M.K, ∀ j < M.K, 0 < M.w.mfKappa0 i j ∧ 0 < M.w.mfV0 i j ∧ 0 < M.w.mfKappa1 i j ∧ 0 < M.w.mfV1 i j
  p : ∀ i < M.K, ∀ j < M.K, 1e-8 ≤ M.w.mfP i j ∧ M.w.mfP i j ≤ 1 - 1e-8
  net : NetGood M.K M.net
  data : M.data ≠ [] ∧ ∀ D ∈ M.data, 0 < D.T ∧ ∀ t k b, 0 ≤ D.F t k b

/-- valid variational state relative to the start `M0`: every shape, rate and concentration is at least the smaller of its starting value and its prior
(the rate of present edges, whose prior is itself random, is positive), edge probabilities lie in `[1e-8, 1-1e-8]` -/
structure MFValid (M0 M : MFModel) : Prop where
  bias : ∀ k < M0.K, min (M0.bias.mfAlpha k) M0.bias.alpha ≤ M.bias.mfAlpha k ∧ min (M0.bias.mfBeta k) M0.bias.beta ≤ M.bias.mfBeta k
  imp : ∀ i < M0.K, ∀ j < M0.K, ∀ b < M0.B, min (M0.imp.mfGamma i j b) (M0.imp.gamma b) ≤ M.imp.mfGamma i j b
  w0 : ∀ i < M0.K, ∀ j < M0.K, min (M0.w.mfKappa0 i j) M0.w.kappa0 ≤ M.w.mfKappa0 i j ∧ min (M0.w.mfV0 i j) M0.w.nu0 ≤ M.w.mfV0 i j
  w1 : ∀ i < M0.K, ∀ j < M0.K, min (M0.w.mfKappa1 i j) M0.net.kappa ≤ M.w.mfKappa1 i j ∧ 0 < M.w.mfV1 i j
  p : ∀ i < M0.K, ∀ j < M0.K, 1e-8 ≤ M.w.mfP i j ∧ M.w.mfP i j ≤ 1 - 1e-8
  net : NetValid M0.net M.net

/-- one call by the user -/
inductive MFAct where
  /-- `meanfield_coordinate_descent_step()` -/
  | coord
  /-- `sgd_step(minibatchsize, stepsize)` -/
  | sgd (mb : ℕ) (step : ℝ)

/-- what the call does -/
noncomputable def MFAct.run : MFAct → MFModel → Except PyErr MFModel
  | .coord, M => M.coordStep
  | .sgd mb step, M => M.sgdStep mb step

/-- a sequence of calls -/
noncomputable def runActs : List MFAct → MFModel → Except PyErr MFModel
  | [], M => .ok M
  | a :: as, M => match a.run M with
    | .error e => .error e
    | .ok M' => runActs as M'

/-- no edge has prior probability zero or one -/
def Interior (K : ℕ) : MFNet → Prop
  | .sbm n => n.allowSelf = true ∧ (n.fixed = true → ∀ i < K, ∀ j < K, 0 < n.P i j ∧ n.P i j < 1)
  | .fixedSparsity n => n.allowSelf = true ∧ ∀ i < K, ∀ j < K, 0 < n.P i j ∧ n.P i j < 1
  | .er n => ∀ i < K, ∀ j < K, 0 < n.P i j ∧ n.P i j < 1

/-- legal arguments: positive minibatch size, step size in `(0,1]`, or 0 if no edge probability is 0 or 1. Stochastic steps need exactly one data set. -/
def MFAct.Legal (M0 : MFModel) : MFAct → Prop
  | .coord => True
  | .sgd mb step => 0 < mb ∧ 0 ≤ step ∧ step ≤ 1 ∧ (step = 0 → Interior M0.K M0.net) ∧ M0.data.length = 1

end PyHawkes.Spec
