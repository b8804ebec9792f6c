import Verif.Model.StandardLog
import Verif.Spec.Standard

/-!
# Specification for C97
-/

namespace PyHawkes.Spec

/-- what the optimiser may return for process `k` started from its current weights: a point within the bounds; entries at which the gradient is switched off (disallowed self connections) stay where they started -/
def LogFeasible (M : StdModel) (k : ℕ) (x : Vec ℝ) : Prop :=
  InLogBox M x ∧ (M.allowSelf = false → ∀ c, IsSelf M.B k c → x c = Real.log (M.weights k c))

/-- an event of process `k` in a bin that nothing precedes (such as the first bin) -/
def HasFreshEvent (M : StdModel) (k : ℕ) : Prop :=
  ∃ D ∈ M.data, ∃ t < D.T, 0 < D.S t k ∧ ∀ c < 1 + M.K * M.B, 1 ≤ c → D.F t c = 0

end PyHawkes.Spec
