import Mathlib.Data.EReal.Operations
import Mathlib.Analysis.SpecialFunctions.Log.Basic
import Verif.Prelude.Py

/-!
# Log-space arithmetic with `-inf`

`np.log(0) = -inf` matters where the code samples from log probabilities. The model computes in `EReal`, where `⊥` is `-inf`.
The one IEEE case that `EReal` does not reproduce is `-inf - -inf = nan`; there `EReal` gives `⊥`, and both make the comparison
`log(u) < ...` false, which is the only use made of the result.
-/

namespace PyHawkes

/-- `np.log(x)` for `x ≥ 0` -/
noncomputable def npLog (x : ℝ) : EReal := if x = 0 then ⊥ else (Real.log x : EReal)

/-- `np.exp(x)` for `x = -inf` or `x` finite -/
noncomputable def npExp (x : EReal) : ℝ := if x = ⊥ then 0 else Real.exp x.toReal

/-- `scipy.special.logsumexp([a, b])` in exact arithmetic -/
noncomputable def logsumexp2 (a b : EReal) : EReal := npLog (npExp a + npExp b)

@[simp] theorem npExp_bot : npExp ⊥ = 0 := by simp [npExp]
@[simp] theorem npExp_coe (x : ℝ) : npExp (x : EReal) = Real.exp x := by simp [npExp]
@[simp] theorem npLog_zero : npLog 0 = ⊥ := by simp [npLog]
theorem npLog_of_ne {x : ℝ} (h : x ≠ 0) : npLog x = (Real.log x : EReal) := by simp [npLog, h]

end PyHawkes
