import Mathlib.Analysis.SpecialFunctions.Gamma.Basic
/-! # Specification: the Dirichlet density and the Bernoulli mass function -/
namespace PyHawkes.Spec
open Finset

/-- density of the Dirichlet distribution with concentrations `g 0, ..., g (n-1)` at the probability vector `x` -/
noncomputable def dirichletPdf (n : ℕ) (g x : ℕ → ℝ) : ℝ :=
  Real.Gamma (∑ i ∈ range n, g i) / (∏ i ∈ range n, Real.Gamma (g i)) * ∏ i ∈ range n, x i ^ (g i - 1)

/-- probability of the outcome `x` of a coin with success probability `p` -/
noncomputable def bernoulliPmf (p : ℝ) (x : Bool) : ℝ := if x then p else 1 - p

end PyHawkes.Spec
