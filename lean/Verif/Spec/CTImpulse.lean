import Verif.Spec.CT
import Verif.Spec.Bayes
import Verif.Model.CTModel
import Mathlib.Probability.Distributions.Gaussian.Real
/-! # Specification: continuous intensity, normal-gamma distribution -/
namespace PyHawkes.Spec
open Finset MeasureTheory

/-- intensity of process `k` at time `t`: background plus, for every event in the preceding window, effective weight times impulse response -/
noncomputable def ctIntensity (P : CTParams) (D : CTData) (k : ℕ) (t : ℝ) : ℝ :=
  P.lam0 k + ∑ n ∈ range D.N, P.A (D.C n) k * P.W (D.C n) k *
    (Set.Ioo (D.S n) (D.S n + P.dtMax)).indicator (fun t => pyImpulse (P.mu (D.C n) k) (P.tau (D.C n) k) P.dtMax (t - D.S n)) t

/-- density of `sample_nig`: `tau` gamma with shape `alpha` and rate `beta`, `mu` normal with mean `mu0` and variance `1/(lmbda tau)` -/
noncomputable def nigPdf (a : NigArgs) (mu tau : ℝ) : ℝ :=
  ProbabilityTheory.gammaPDFReal a.alpha a.beta tau * ProbabilityTheory.gaussianPDFReal a.mu (1 / (a.lmbda * tau)).toNNReal mu

/-- Bayes' rule for a pair (real mean, positive precision) -/
def IsPosterior2 (post prior lik : ℝ → ℝ → ℝ) : Prop :=
  0 < (∫ t in Set.Ioi 0, ∫ m, prior m t * lik m t) ∧
  ∀ m t, 0 < t → post m t = prior m t * lik m t / ∫ t in Set.Ioi 0, ∫ m, prior m t * lik m t

/-- valid parameters of a normal-gamma distribution -/
def NigOk (a : NigArgs) : Prop := 0 < a.lmbda ∧ 0 < a.alpha ∧ 0 < a.beta

/-- likelihood of the parent-child lags from `k1` to `k2` in all data sets, under mean `mu` and precision `tau` of the impulse response -/
noncomputable def lagLik (dtMax : ℝ) (dl : List CTData) (k1 k2 : ℕ) (mu tau : ℝ) : ℝ :=
  (dl.map fun D => ∏ n ∈ children D D.Z k1 k2, pyImpulse mu tau dtMax (D.S n - D.S (D.Z n).toNat)).prod

/-- all scaled lags from `k1` to `k2`, data set by data set -/
noncomputable def allLags (dtMax : ℝ) (dl : List CTData) (k1 k2 : ℕ) : List (List ℝ) :=
  dl.map fun D => (children D D.Z k1 k2).toList.map (childLag D dtMax D.Z)

/-- mean of a list (0 for the empty list) -/
noncomputable def mean (l : List ℝ) : ℝ := l.sum / l.length

/-- the textbook normal-gamma posterior given observations `l`: count, mean and sum of squared deviations of the pooled observations -/
noncomputable def nigPosterior (a : NigArgs) (l : List ℝ) : NigArgs :=
  { lmbda := a.lmbda + l.length,
    mu := (a.lmbda * a.mu + l.sum) / (a.lmbda + l.length),
    alpha := a.alpha + l.length / 2,
    beta := a.beta + (l.map fun x => (x - mean l) ^ 2).sum / 2 + a.lmbda * l.length * (mean l - a.mu) ^ 2 / (2 * (a.lmbda + l.length)) }

end PyHawkes.Spec
