import Verif.Prelude.Py
/-! # Specification: causal filtering (independent of the model's definitions) -/
namespace PyHawkes.Spec
open Finset
variable {R : Type*} [Field R]

/-- Filtered count: over all lags `l < L` that do not reach before the recording, basis value at lag `l` times the
count `l` bins ago. -/
def filtered (L : ℕ) (basis S : Mat R) (t k b : ℕ) : R :=
  ∑ l ∈ range L, if l ≤ t then basis l b * S (t - l) k else 0

/-- `v` is the value at time `x` of the piecewise-linear function through the points `(dtMax * j / (L-1), f j)`, `j < L` -/
def IsLinearInterp [LinearOrder R] (L : ℕ) (dtMax : R) (f : Vec R) (x v : R) : Prop :=
  ∃ j, j + 1 < L ∧ ∃ θ : R, 0 ≤ θ ∧ θ ≤ 1 ∧ x = (1 - θ) * (dtMax * j / ((L : R) - 1)) + θ * (dtMax * ((j + 1 : ℕ) : R) / ((L : R) - 1)) ∧
    v = (1 - θ) * f j + θ * f (j + 1)

end PyHawkes.Spec
