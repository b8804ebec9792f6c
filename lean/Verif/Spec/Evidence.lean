import Verif.Spec.PosteriorMix
import Verif.Spec.PosteriorMixBlock
import Verif.Spec.Variational

/-!
# Specification for C103: the settings shared by the variational state and the Bayesian model
-/

namespace PyHawkes.Spec
open Finset

/-- the variational state `M` and the model `c` with Erdos-Renyi network `n` have the same sizes, hyperparameters and network settings, and the weight scale has a gamma prior and a gamma variational
distribution with positive parameters -/
structure SharedSettings (M : MFModel) (c : HawkesState) (n : ERFixed) : Prop where
  K : M.K = c.base.K
  B : M.B = c.base.B
  alpha : M.bias.alpha = c.alpha
  beta : M.bias.beta = c.beta
  gamma : M.imp.gamma = c.gamma
  net : ∃ m : ERFixed, M.net = .er m ∧ m.P = n.P ∧ m.kappa = n.kappa ∧ ∃ al be a b, n.alpha = some al ∧ n.beta = some be ∧ m.alpha = some al ∧ m.beta = some be ∧ m.mf = some (a, b) ∧
    0 < al ∧ 0 < be ∧ 0 < a ∧ 0 < b

/-- logarithm of the evidence: of the likelihood of the data averaged over the prior, i.e. of the normaliser of the posterior the Gibbs sampler targets -/
noncomputable def logEvidence (kappa0 nu0 : ℝ) (c : HawkesState) (n : ERFixed) : ℝ :=
  Real.log (∫⁻ θ, likelihoodMix c θ ∂priorMix kappa0 nu0 c n).toReal

/-- the variational state `M` and the model `c` with the learned one-block network `n` have the same sizes, hyperparameters and network settings -/
structure SharedSettingsB (M : MFModel) (c : HawkesState) (n : SBM) : Prop where
  K : M.K = c.base.K
  B : M.B = c.base.B
  alpha : M.bias.alpha = c.alpha
  beta : M.bias.beta = c.beta
  gamma : M.imp.gamma = c.gamma
  net : ∃ m : SBM, M.net = .sbm m ∧ m.C = 1 ∧ m.allowSelf = true ∧ m.fixed = false ∧ m.tau0 = n.tau0 ∧ m.tau1 = n.tau1 ∧ m.alpha = n.alpha ∧ m.beta = n.beta ∧ m.kappa = n.kappa

/-- logarithm of the evidence of the model with a learned one-block network: of the likelihood of the data averaged over the prior of all parameters, including the edge probability and the
weight scale -/
noncomputable def logEvidenceB (kappa0 nu0 : ℝ) (c : HawkesState) (n : SBM) : ℝ :=
  Real.log (∫⁻ θ, likelihoodMix c θ.2 ∂priorMixB kappa0 nu0 c n).toReal

/-- the same observations: length, counts and filtered counts (the sampled or expected parents may differ) -/
def SameObs (D D' : DParents ℝ) : Prop := D'.T = D.T ∧ D'.S = D.S ∧ D'.F = D.F

/-- allowance for the guards: `1e-32` times the sum, over all event bins and possible parents, of expected parents divided by filtered counts -/
noncomputable def guardSlack (K B : ℕ) (data : List (DParents ℝ)) : ℝ :=
  1e-32 * (data.map fun D => ∑ k ∈ range K, (((D.getEZ k).zip (D.Fs k)).map fun r => ∑ k1 ∈ range K, ∑ b ∈ range B, r.1 (1 + k1 * B + b) / r.2 k1 b).sum).sum

/-- every process has at least one event -/
def AllActive (K : ℕ) (data : List (DParents ℝ)) : Prop := ∀ k < K, ∃ D ∈ data, ∃ t < D.T, D.S t k ≠ 0

end PyHawkes.Spec
