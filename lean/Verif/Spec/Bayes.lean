import Mathlib.Probability.Distributions.Gamma
import Mathlib.Probability.Distributions.Beta
import Mathlib.MeasureTheory.Integral.Bochner.Set
import Mathlib.Analysis.SpecialFunctions.Gamma.Basic
/-! # Specification: Bayes' rule, the Poisson mass function and numpy's gamma parametrisation -/
namespace PyHawkes.Spec
open MeasureTheory Set

/-- density of `np.random.gamma(shape, scale)`: Mathlib's gamma density, whose second parameter is the rate -/
noncomputable def npGammaPdf (shape scale x : ℝ) : ℝ := ProbabilityTheory.gammaPDFReal shape (1 / scale) x

/-- probability of `n` events under a Poisson distribution with mean `m` -/
noncomputable def poissonPmf (m : ℝ) (n : ℕ) : ℝ := Real.exp (-m) * m ^ n / n.factorial

/-- Bayes' rule on the positive half line: `post` is prior times likelihood over its integral, which exists and is positive -/
def IsPosterior (post prior lik : ℝ → ℝ) : Prop :=
  IntegrableOn (fun x => prior x * lik x) (Ioi 0) ∧ 0 < ∫ x in Ioi 0, prior x * lik x ∧
  ∀ x, 0 < x → post x = prior x * lik x / ∫ y in Ioi 0, prior y * lik y

/-- Bayes' rule on a set of parameter values -/
def IsPosteriorOn (s : Set ℝ) (post prior lik : ℝ → ℝ) : Prop :=
  IntegrableOn (fun x => prior x * lik x) s ∧ 0 < ∫ x in s, prior x * lik x ∧
  ∀ x ∈ s, post x = prior x * lik x / ∫ y in s, prior y * lik y

/-- probability of outcome `i` among `0, ..., n-1` with unnormalised weights `w` -/
noncomputable def normalised (n : ℕ) (w : ℕ → ℝ) (i : ℕ) : ℝ := w i / ∑ j ∈ Finset.range n, w j

/-- Bernoulli conditional: probability of state 1 when state `i` has prior mass `pi` and likelihood `li` -/
noncomputable def bernPost (p l0 l1 : ℝ) : ℝ := p * l1 / (p * l1 + (1 - p) * l0)

end PyHawkes.Spec
