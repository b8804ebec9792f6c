import Verif.Model.DParents
import Mathlib.Data.Real.Basic

/-! Specification for C110: the size of the guards `1e-32` that the code adds inside logarithms, in terms of the data alone -/
namespace PyHawkes.Spec
open Finset

/-- `1e-32` times the sum over all events (of process `k` in bin `t`) of one plus the number of possible parents plus the inverse filtered counts of the possible parents with nonzero filtered counts -/
noncomputable def settleSlack (K B : ℕ) (data : List (DParents ℝ)) : ℝ :=
  1e-32 * (data.map fun D => ∑ k ∈ range K, ∑ t ∈ range D.T, (D.S t k : ℝ) * (1 + K * B + ∑ i ∈ range K, ∑ b ∈ range B, if D.F t i b = 0 then 0 else 1 / D.F t i b)).sum

end PyHawkes.Spec
