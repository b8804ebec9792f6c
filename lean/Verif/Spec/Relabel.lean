import Verif.Spec.Variational
import Verif.Model.CTParents
import Verif.Model.Rate
import Verif.Model.LogJoint

/-!
# Specification for C104: renumbering the processes and reordering the data sets

`σ` is a permutation of the process numbers: process `k` of the second model is process `σ k` of the first.
-/
namespace PyHawkes.Spec
open Finset

/-- `σ` permutes the processes `0, ..., K-1` -/
def PermutesProcesses (K : ℕ) (σ : Equiv.Perm ℕ) : Prop := ∀ k, σ k < K ↔ k < K

/-- rows of expected parents: column 0 is the background, column `1 + k*B + b` is basis function `b` of parent process `k` -/
def RelabelRow (σ : Equiv.Perm ℕ) (B : ℕ) (z z' : Vec ℝ) : Prop := z' 0 = z 0 ∧ ∀ k, ∀ b < B, z' (1 + k * B + b) = z (1 + σ k * B + b)

/-- the same data set with renumbered processes: counts, filtered counts and expected parents -/
structure RelabelData (σ : Equiv.Perm ℕ) (B : ℕ) (D D' : DParents ℝ) : Prop where
  T : D'.T = D.T
  S : ∀ t k, D'.S t k = D.S t (σ k)
  F : ∀ t k b, D'.F t k b = D.F t (σ k) b
  EZ : ∀ k, List.Forall₂ (RelabelRow σ B) (D.getEZ (σ k)) (D'.getEZ k)

/-- the same one-block network with renumbered nodes -/
structure RelabelBlock (σ : Equiv.Perm ℕ) (n n' : SBM) : Prop where
  K : n'.K = n.K
  one : n.C = 1 ∧ n'.C = 1
  hyper : n'.tau0 = n.tau0 ∧ n'.tau1 = n.tau1 ∧ n'.kappa = n.kappa ∧ n'.alpha = n.alpha ∧ n'.beta = n.beta ∧ n'.pi 0 = n.pi 0
  allowSelf : n'.allowSelf = n.allowSelf
  fixed : n'.fixed = n.fixed
  p : n'.p = n.p
  v : n'.v = n.v
  labels : ∀ i, n'.c i = n.c (σ i)
  mfPi : n'.mfPi 0 = n.mfPi 0
  mfTau : n'.mfTau0 0 0 = n.mfTau0 0 0 ∧ n'.mfTau1 0 0 = n.mfTau1 0 0
  mfAB : n'.mfAlpha 0 0 = n.mfAlpha 0 0 ∧ n'.mfBeta 0 0 = n.mfBeta 0 0
  mfM : ∀ i, n'.mfM i 0 = n.mfM (σ i) 0

/-- the same network with renumbered nodes; the settings of the Erdos-Renyi network do not mention single nodes -/
def RelabelNet (σ : Equiv.Perm ℕ) : MFNet → MFNet → Prop
  | .er n, .er n' => n' = n
  | .sbm n, .sbm n' => RelabelBlock σ n n'
  | .fixedSparsity n, .fixedSparsity n' => RelabelBlock σ n n'
  | _, _ => False

/-- number of nodes of the network object -/
def netK : MFNet → ℕ
  | .sbm n => n.K
  | .fixedSparsity n => n.K
  | .er n => n.K

/-- the same variational state with renumbered processes and reordered data sets -/
structure RelabelMF (σ : Equiv.Perm ℕ) (M M' : MFModel) : Prop where
  size : M'.K = M.K ∧ M'.B = M.B
  hyper : M'.bias.alpha = M.bias.alpha ∧ M'.bias.beta = M.bias.beta ∧ M'.bias.dt = M.bias.dt ∧ M'.imp.gamma = M.imp.gamma ∧ M'.w.kappa0 = M.w.kappa0 ∧ M'.w.nu0 = M.w.nu0
  bias : ∀ k, M'.bias.mfAlpha k = M.bias.mfAlpha (σ k) ∧ M'.bias.mfBeta k = M.bias.mfBeta (σ k)
  imp : ∀ i j, ∀ b < M.B, M'.imp.mfGamma i j b = M.imp.mfGamma (σ i) (σ j) b
  prob : ∀ i j, M'.w.mfP i j = M.w.mfP (σ i) (σ j)
  absent : ∀ i j, M'.w.mfKappa0 i j = M.w.mfKappa0 (σ i) (σ j) ∧ M'.w.mfV0 i j = M.w.mfV0 (σ i) (σ j)
  present : ∀ i j, M'.w.mfKappa1 i j = M.w.mfKappa1 (σ i) (σ j) ∧ M'.w.mfV1 i j = M.w.mfV1 (σ i) (σ j)
  net : RelabelNet σ M.net M'.net
  nodes : netK M.net = M.K
  data : ∃ l, M'.data.Perm l ∧ List.Forall₂ (RelabelData σ M.B) M.data l
  offset : M'.sgdOffset = M.sgdOffset

/-- the same model with the data sets in another order -/
def SameButOrder (M M' : MFModel) : Prop := M'.data.Perm M.data ∧ M' = { M with data := M'.data }

/-- two calls ended the same way: both returned, with related results, or both raised the same error -/
def SameOutcome {α : Type*} (R : α → α → Prop) : Except PyErr α → Except PyErr α → Prop
  | .ok a, .ok b => R a b
  | .error e, .error e' => e = e'
  | _, _ => False

/-- the same discrete-time model parameters with renumbered processes -/
structure RelabelParams (σ : Equiv.Perm ℕ) (P P' : NetParams ℝ) : Prop where
  size : P'.K = P.K ∧ P'.B = P.B ∧ P'.L = P.L ∧ P'.lenIsInt = P.lenIsInt
  dt : P'.dt = P.dt
  basis : P'.basis = P.basis
  lam0 : ∀ k, P'.lam0 k = P.lam0 (σ k)
  Weff : ∀ i j, P'.Weff i j = P.Weff (σ i) (σ j)
  g : ∀ i j b, P'.g i j b = P.g (σ i) (σ j) b

/-- the same counts and filtered counts with renumbered processes -/
structure RelabelCounts (σ : Equiv.Perm ℕ) (D D' : DParents ℝ) : Prop where
  T : D'.T = D.T
  S : ∀ t k, D'.S t k = D.S t (σ k)
  F : ∀ t k b, D'.F t k b = D.F t (σ k) b

/-- the same continuous-time parameters with renumbered processes -/
structure RelabelCTParams (σ : Equiv.Perm ℕ) (P P' : CTParams) : Prop where
  K : P'.K = P.K
  dtMax : P'.dtMax = P.dtMax
  lam0 : ∀ k, P'.lam0 k = P.lam0 (σ k)
  W : ∀ i j, P'.W i j = P.W (σ i) (σ j)
  A : ∀ i j, P'.A i j = P.A (σ i) (σ j)
  mu : ∀ i j, P'.mu i j = P.mu (σ i) (σ j)
  tau : ∀ i j, P'.tau i j = P.tau (σ i) (σ j)

/-- the same events, at the same times, with renumbered labels -/
structure RelabelEvents (σ : Equiv.Perm ℕ) (D D' : CTData) : Prop where
  N : D'.N = D.N
  T : D'.T = D.T
  S : D'.S = D.S
  C : ∀ n, σ (D'.C n) = D.C n

/-- the same sampler state with renumbered processes and reordered data sets: parameters, adjacency, weights, and what the network says about each pair of processes -/
structure RelabelState (σ : Equiv.Perm ℕ) (s s' : HawkesState) : Prop where
  base : RelabelParams σ s.base s'.base
  A : ∀ i j, s'.A i j = s.A (σ i) (σ j)
  W : ∀ i j, s'.W i j = s.W (σ i) (σ j)
  kappa : s'.net.kappa = s.net.kappa
  P : ∀ i j, s'.net.P i j = s.net.P (σ i) (σ j)
  V : ∀ i j, s'.net.V i j = s.net.V (σ i) (σ j)
  data : ∃ l, s'.data.Perm l ∧ List.Forall₂ (RelabelCounts σ) s.data l

/-- the same continuous-time sampler state with renumbered processes and reordered data sets -/
structure RelabelCTState (σ : Equiv.Perm ℕ) (s s' : CTState) : Prop where
  P : RelabelCTParams σ s.P s'.P
  hyper : s'.alpha = s.alpha ∧ s'.beta = s.beta
  data : ∃ l, s'.data.Perm l ∧ List.Forall₂ (RelabelEvents σ) s.data l

end PyHawkes.Spec
