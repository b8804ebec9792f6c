import Verif.Spec.Densities
import Mathlib.Probability.Distributions.Gamma
import Mathlib.Probability.Distributions.Beta
/-! # Specification: the prior densities of the parameters of a network Hawkes model -/
namespace PyHawkes.Spec
open Finset ProbabilityTheory

/-- background rates: independent gamma variables with shape `a` and rate `b` -/
noncomputable def biasDensity (K : ℕ) (a b : ℝ) (x : ℕ → ℝ) : ℝ := ∏ k ∈ range K, gammaPDFReal a b (x k)

/-- one edge of a spike-and-slab network: absent with probability `1 - p`, else present with a gamma weight (an absent edge has no weight) -/
noncomputable def slabDensity (p kappa v : ℝ) (a : Bool) (w : ℝ) : ℝ := if a then p * gammaPDFReal kappa v w else 1 - p

/-- one edge of a mixture network: present or absent, with a gamma weight from the corresponding component -/
noncomputable def mixDensity (p kappa0 nu0 kappa v : ℝ) (a : Bool) (w : ℝ) : ℝ :=
  if a then p * gammaPDFReal kappa v w else (1 - p) * gammaPDFReal kappa0 nu0 w

/-- all edges, independently -/
noncomputable def edgesDensity (K : ℕ) (d : ℕ → ℕ → ℝ) : ℝ := ∏ i ∈ range K, ∏ j ∈ range K, d i j

/-- impulse responses: an independent Dirichlet vector for every pair of processes -/
noncomputable def impulseDensity (K B : ℕ) (g : ℕ → ℝ) (x : ℕ → ℕ → ℕ → ℝ) : ℝ := ∏ i ∈ range K, ∏ j ∈ range K, dirichletPdf B g (x i j)

/-- a stochastic block model: Dirichlet block probabilities, beta link probabilities and gamma weight rates for every pair of blocks, independent labels -/
noncomputable def blockDensity (K C : ℕ) (pi : ℕ → ℝ) (tau1 tau0 alpha beta : ℝ) (m : ℕ → ℝ) (p v : ℕ → ℕ → ℝ) (c : ℕ → ℕ) : ℝ :=
  dirichletPdf C pi m * (∏ a ∈ range C, ∏ b ∈ range C, betaPDFReal tau1 tau0 (p a b)) * (∏ a ∈ range C, ∏ b ∈ range C, gammaPDFReal alpha beta (v a b)) *
    ∏ k ∈ range K, m (c k)

/-- the entries of a 0/1 matrix -/
def bit (a : Bool) : ℝ := if a then 1 else 0

end PyHawkes.Spec
