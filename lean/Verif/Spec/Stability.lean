import Verif.Prelude.Py
import Mathlib.Analysis.Complex.Basic
import Mathlib.Analysis.Real.Sqrt
import Mathlib.Topology.Algebra.InfiniteSum.Basic

/-!
# Specification: stability of a Hawkes process

`W i j` is the expected number of events on process `j` that an event on process `i` causes directly.
-/

namespace PyHawkes.Spec
open Finset

/-- expected number of `n`-th generation descendants on process `j` of one event on process `i` -/
def descendants (K : ℕ) (W : Mat ℝ) : ℕ → Mat ℝ
  | 0 => fun i j => if i = j then 1 else 0
  | n + 1 => fun i j => ∑ k ∈ range K, descendants K W n i k * W k j

/-- every cascade is finite in expectation: the expected numbers of descendants of all generations have a finite sum -/
def FiniteCascades (K : ℕ) (W : Mat ℝ) : Prop := ∀ i < K, ∀ j < K, Summable fun n => descendants K W n i j

/-- `z` is an eigenvalue of the `K × K` matrix `W`: there is a nonzero complex vector `x` with `W x = z x` -/
def IsEigenvalue (K : ℕ) (W : Mat ℝ) (z : ℂ) : Prop :=
  ∃ x : Vec ℂ, (∃ i < K, x i ≠ 0) ∧ ∀ i < K, ∑ j ∈ range K, (W i j : ℂ) * x j = z * x i

end PyHawkes.Spec
