import Mathlib.Probability.Distributions.Gamma
import Mathlib.Probability.Distributions.Beta
import Verif.Model.Distributions
/-! # Specification: Kullback-Leibler divergences -/
namespace PyHawkes.Spec
open Finset MeasureTheory ProbabilityTheory

/-- divergence of Gamma(a,b) from Gamma(α,β) (shape, rate) -/
noncomputable def klGamma (a b α β : ℝ) : ℝ :=
  ∫ x in Set.Ioi 0, gammaPDFReal a b x * (Real.log (gammaPDFReal a b x) - Real.log (gammaPDFReal α β x))

/-- divergence of Beta(a,b) from Beta(α,β) -/
noncomputable def klBeta (a b α β : ℝ) : ℝ :=
  ∫ x in Set.Ioo (0:ℝ) 1, betaPDFReal a b x * (Real.log (betaPDFReal a b x) - Real.log (betaPDFReal α β x))

/-- log normaliser of the Dirichlet distribution with concentrations `g` -/
noncomputable def lnDirNorm (n : ℕ) (g : ℕ → ℝ) : ℝ := ∑ i ∈ range n, Real.log (Real.Gamma (g i)) - Real.log (Real.Gamma (∑ i ∈ range n, g i))

/-- divergence of Dirichlet(q) from Dirichlet(p): the well-known closed form -/
noncomputable def klDirichlet (n : ℕ) (q p : ℕ → ℝ) : ℝ :=
  lnDirNorm n p - lnDirNorm n q + ∑ i ∈ range n, (q i - p i) * (psi (q i) - psi (∑ i ∈ range n, q i))

end PyHawkes.Spec
