import Mathlib.Data.Real.Basic
import Mathlib.Data.List.Sort
import Mathlib.Data.List.Perm.Basic

/-!
# Specification: binning events
-/

namespace PyHawkes.Spec

/-- `x` lies in bin `t` of width `dt` of the window `[tMin, tMax]`: half-open bins, the last one (cut off at `tMax`) closed -/
def InBin (dt tMin tMax : ℝ) (t : ℕ) (x : ℝ) : Prop :=
  tMin + t * dt ≤ x ∧ x ≤ tMax ∧ (x < tMin + (t + 1) * dt ∨ (x = tMax ∧ tMax = tMin + (t + 1) * dt))

open Classical in
/-- number of events with label `k` in bin `t` -/
noncomputable def binCount (dt tMin tMax : ℝ) (S : List ℝ) (C : List ℤ) (t k : ℕ) : ℕ :=
  ((S.zip C).filter fun e => decide (InBin dt tMin tMax t e.1 ∧ e.2 = (k : ℤ))).length

/-- what `np.random.rand(n)` returns: `n` numbers in `[0, 1)` -/
def RandOk (rand : ℕ → List ℝ) : Prop := ∀ n, (rand n).length = n ∧ ∀ u ∈ rand n, 0 ≤ u ∧ u < 1

/-- what `np.argsort` returns: a permutation of the positions that puts the list in order (ties in any order) -/
def ArgsortOk (argsort : List ℝ → List ℕ) : Prop :=
  ∀ xs, (argsort xs).Perm (List.range xs.length) ∧ ((argsort xs).map fun i => xs.getD i 0).Pairwise (· ≤ ·)

end PyHawkes.Spec
