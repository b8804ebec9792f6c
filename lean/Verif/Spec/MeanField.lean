import Mathlib.Probability.Distributions.Gamma
import Mathlib.Probability.Distributions.Beta
import Verif.Model.DParents
import Verif.Spec.Densities
import Verif.Spec.Bayes
import Verif.Model.Network
/-!
# Specification: natural-gradient steps of conjugate variational inference

The optimal factor of a mean-field family is proportional to `prior(x) * exp(E[log likelihood(x)])`, the expectation being over the other factors.
A stochastic step of size `s` on a fraction `frac` of the data replaces the factor `old` by something proportional to
`old(x)^(1-s) * (prior(x) * exp(E[log likelihood(x)] / frac))^s`. A coordinate step is `s = frac = 1`.
-/
namespace PyHawkes.Spec
open Finset MeasureTheory ProbabilityTheory

/-- `f` is a positive multiple of `g` on `s` -/
def Proportional {X : Type*} (s : Set X) (f g : X → ℝ) : Prop := ∃ c, 0 < c ∧ ∀ x ∈ s, f x = c * g x

/-- the unnormalised density after a stochastic step of size `s` on the fraction `frac` of the data -/
noncomputable def steppedDensity {X : Type*} (s frac : ℝ) (old prior logLik : X → ℝ) (x : X) : ℝ :=
  old x ^ (1 - s) * (prior x * Real.exp (logLik x / frac)) ^ s

/-- sum over data sets and event bins of process `k` of the expected number of events of parent column `c` -/
noncomputable def expCol (dl : List (DParents ℝ)) (k c : ℕ) : ℝ := (dl.map fun D => ((D.getEZ k).map fun z => z c).sum).sum

/-- expected log likelihood of the background-assigned counts of process `k` when its rate is `x`: independent Poisson counts with mean `x*dt` in every bin
(without the factorials, which do not depend on `x`) -/
noncomputable def bgLogLik (dl : List (DParents ℝ)) (dt : ℝ) (k : ℕ) (x : ℝ) : ℝ :=
  expCol dl k 0 * Real.log (x * dt) - (dl.map fun D => (D.T : ℝ) * (x * dt)).sum

/-- expected log probability of the choice of basis function of all events on `k2` caused by `k1`, when the impulse weights are `x` -/
noncomputable def impLogLik (B : ℕ) (dl : List (DParents ℝ)) (k1 k2 : ℕ) (x : ℕ → ℝ) : ℝ :=
  ∑ b ∈ range B, expCol dl k2 (1 + k1 * B + b) * Real.log (x b)

/-- expected log likelihood of the events on `k2` caused by `k1` when the weight is `x`: each of the `Ns[k1]` events has a Poisson number of children with
mean `x` -/
noncomputable def weightLogLik (B : ℕ) (dl : List (DParents ℝ)) (k1 k2 : ℕ) (x : ℝ) : ℝ :=
  (∑ b ∈ range B, expCol dl k2 (1 + k1 * B + b)) * Real.log x - (dl.map fun D => (D.Ns k1 : ℝ) * x).sum

/-- expectation under a gamma distribution (shape, rate) -/
noncomputable def expGamma (a b : ℝ) (f : ℝ → ℝ) : ℝ := ∫ x in Set.Ioi 0, gammaPDFReal a b x * f x

/-- expectation under a beta distribution -/
noncomputable def expBeta (a b : ℝ) (f : ℝ → ℝ) : ℝ := ∫ x in Set.Ioo (0:ℝ) 1, betaPDFReal a b x * f x

/-- expected log density of a weight `x` of a present edge, when the rate `v` of its gamma distribution with shape `kappa` is random with the given means of `v` and
`log v` -/
noncomputable def weightPriorLog (kappa eV eLnV x : ℝ) : ℝ := kappa * eLnV - Real.log (Real.Gamma kappa) + (kappa - 1) * Real.log x - eV * x

/-- marginal evidence for a present edge: exponentiated expected log prior probability times the integral of the exponentiated expected log joint of weight and events -/
noncomputable def evidencePresent (B : ℕ) (dl : List (DParents ℝ)) (frac kappa lnP eV eLnV : ℝ) (i j : ℕ) : ℝ :=
  Real.exp lnP * ∫ x in Set.Ioi 0, Real.exp (weightPriorLog kappa eV eLnV x) * Real.exp (weightLogLik B dl i j x / frac)

/-- marginal evidence for an absent edge, whose weight has the spike distribution `Gamma(kappa0, nu0)` -/
noncomputable def evidenceAbsent (B : ℕ) (dl : List (DParents ℝ)) (frac kappa0 nu0 lnNotP : ℝ) (i j : ℕ) : ℝ :=
  Real.exp lnNotP * ∫ x in Set.Ioi 0, gammaPDFReal kappa0 nu0 x * Real.exp (weightLogLik B dl i j x / frac)

/-- restrict a probability to `[1e-8, 1-1e-8]` -/
noncomputable def clipProb (p : ℝ) : ℝ := min (max p 1e-8) (1 - 1e-8)

/-- the pair `(i,j)` is a possible edge -/
def possible (n : SBM) (i j : ℕ) : Prop := n.allowSelf = true ∨ i ≠ j

open Classical in
/-- expected log probability of all edges, as a function of the probability `q` of edges from block `c1` to block `c2` -/
noncomputable def blockPLogLik (n : SBM) (EA : ℕ → ℕ → ℝ) (c1 c2 : ℕ) (q : ℝ) : ℝ :=
  ∑ i ∈ range n.K, ∑ j ∈ range n.K, if possible n i j then n.mfM i c1 * n.mfM j c2 * (EA i j * Real.log q + (1 - EA i j) * Real.log (1 - q)) else 0

open Classical in
/-- expected log density of the weights of present edges, as a function of the rate `v` of weights from block `c1` to block `c2` (the parts that involve `v`) -/
noncomputable def blockVLogLik (n : SBM) (EA EW : ℕ → ℕ → ℝ) (c1 c2 : ℕ) (v : ℝ) : ℝ :=
  ∑ i ∈ range n.K, ∑ j ∈ range n.K, if possible n i j then n.mfM i c1 * n.mfM j c2 * EA i j * (n.kappa * Real.log v - v * EW i j) else 0

/-- expected log probability of all labels, as a function of the block frequencies -/
noncomputable def blockMLogLik (n : SBM) (x : ℕ → ℝ) : ℝ := ∑ k ∈ range n.K, ∑ c ∈ range n.C, n.mfM k c * Real.log (x c)

/-- expected log density of edge and weight from node `i` to node `j`, were they in blocks `c1` and `c2` -/
noncomputable def pairExpLog (n : SBM) (EA EW ELW : ℕ → ℕ → ℝ) (c1 c2 i j : ℕ) : ℝ :=
  EA i j * expBeta (n.mfTau1 c1 c2) (n.mfTau0 c1 c2) Real.log + (1 - EA i j) * expBeta (n.mfTau1 c1 c2) (n.mfTau0 c1 c2) (fun q => Real.log (1 - q))
    + EA i j * expGamma (n.mfAlpha c1 c2) (n.mfBeta c1 c2) (fun v => n.kappa * Real.log v - Real.log (Real.Gamma n.kappa) + (n.kappa - 1) * ELW i j - v * EW i j)

/-- expected log joint density of "node `k` is in block `ck`" and all edges and weights at `k`, every pair of nodes once. The expected log block frequency is the mean of
`log` under the beta distribution that is the marginal of the Dirichlet. -/
noncomputable def labelExpLog (n : SBM) (EA EW ELW : ℕ → ℕ → ℝ) (k ck : ℕ) : ℝ :=
  expBeta (n.mfPi ck) (∑ c ∈ (range n.C).erase ck, n.mfPi c) Real.log
    + ∑ j ∈ (range n.K).erase k, ∑ c ∈ range n.C, n.mfM j c * (pairExpLog n EA EW ELW ck c k j + pairExpLog n EA EW ELW c ck j k)
    + if n.allowSelf then pairExpLog n EA EW ELW ck ck k k else 0

end PyHawkes.Spec
