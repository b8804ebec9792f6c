import Mathlib.Probability.Distributions.Gamma
import Mathlib.MeasureTheory.Constructions.Pi
/-! # Specification: the Dirichlet distribution, as numpy samples it -/
namespace PyHawkes.Spec
open MeasureTheory ProbabilityTheory

/-- divide the entries `0, ..., B-1` by their sum -/
noncomputable def toSimplex (B : ℕ) (y : Fin B → ℝ) : ℕ → ℝ := fun b => if h : b < B then y ⟨b, h⟩ / ∑ c, y c else 0

/-- law of `np.random.dirichlet(v)` for `v` of length `B`: independent gamma variables with shapes `v[b]` and rate 1, divided by their sum -/
noncomputable def dirichletLaw (B : ℕ) (v : ℕ → ℝ) : Measure (ℕ → ℝ) := (Measure.pi fun b : Fin B => gammaMeasure (v b) 1).map (toSimplex B)

/-- Bayes' rule for distributions: the evidence `∫ lik d prior` is positive and finite, and `post` is `prior` reweighted by `lik` and divided by the evidence -/
def IsPosteriorLaw {X : Type*} [MeasurableSpace X] (post prior : Measure X) (lik : X → ℝ) : Prop :=
  (∫⁻ x, ENNReal.ofReal (lik x) ∂prior) ≠ 0 ∧ (∫⁻ x, ENNReal.ofReal (lik x) ∂prior) ≠ ⊤ ∧
    post = (∫⁻ x, ENNReal.ofReal (lik x) ∂prior)⁻¹ • prior.withDensity fun x => ENNReal.ofReal (lik x)

end PyHawkes.Spec
