import Verif.Prelude.Py
/-! # Contracts of the random number generators (part of the trusted base) -/
namespace PyHawkes.Spec
open Finset
variable {R : Type*} [Field R] [LinearOrder R]

/-- `p` is a probability vector of length `n` -/
def IsProb (n : ℕ) (p : Vec R) : Prop := (∀ c < n, 0 ≤ p c) ∧ ∑ c ∈ range n, p c = 1

/-- possible outcome of `np.random.multinomial(s, p)`: `s` items distributed over the `n` cells, none in a cell of probability 0 -/
def MultinomialOutcome (n s : ℕ) (p : Vec R) (out : Vec ℕ) : Prop :=
  ∑ c ∈ range n, out c = s ∧ ∀ c < n, p c = 0 → out c = 0

/-- a multinomial sampler: whenever it is given a probability vector it returns a possible outcome -/
def MultinomialSampler (n : ℕ) (mult : ℕ → Vec R → Vec ℕ) : Prop :=
  ∀ s p, IsProb n p → MultinomialOutcome n s p (mult s p)

end PyHawkes.Spec
