import Verif.Model.Standard

/-!
# Model of `fit_with_bfgs_logspace` (`pyhawkes/models.py:405-443`)
-/

namespace PyHawkes
open Finset

/-- `models.py:416-418` — the objective handed to the optimiser: `weights[k,:] = exp(x)`, return minus the log posterior of process `k`. `np.nan_to_num` is the identity on finite numbers. -/
noncomputable def bfgsLogObjective (M : StdModel) (k : ℕ) (x : Vec ℝ) : Except PyErr ℝ :=
  match stdLogPost (M.setRow k fun c => Real.exp (x c)) .none (.arr [k]) with
  | .error e => .error e
  | .ok v => .ok (-v)

/-- `models.py:421-425` — the gradient handed to the optimiser: `weights[k,:] = exp(x)`, `dll_dW = -compute_gradient(k)`, `dll_dW.dot(diag(weights[k,:]))` -/
noncomputable def bfgsLogGradient (M : StdModel) (k : ℕ) (x : Vec ℝ) : Except PyErr (Vec ℝ) :=
  let M' := M.setRow k fun c => Real.exp (x c)
  match stdGradient M' k .none with
  | .error e => .error e
  | .ok g => .ok fun c => ∑ d ∈ range M'.n, -g d * (if d = c then M'.weights k d else 0)

/-- `models.py:410-413` — the bounds handed to the optimiser: log weights at most `log W_max`; the bias is free -/
def InLogBox (M : StdModel) (x : Vec ℝ) : Prop := ∀ c < M.n, 1 ≤ c → ∀ m ∈ M.wMax, x c ≤ Real.log m

/-- `models.py:433-443` — one process: `x0 = log(weights[k,:])` (`-inf` or `nan` for a weight that is not positive), `res = minimize(..)`, `weights[k,:] = exp(res.x)` -/
noncomputable def fitBfgsLogBody (opt : ℕ → StdModel → Vec ℝ) (k : ℕ) (M : StdModel) : Except PyErr StdModel :=
  if ∃ c < M.n, M.weights k c ≤ 0 then .error .silentNan
  else .ok (M.setRow k fun c => Real.exp (opt k M c))

/-- `models.py:405-443` — `fit_with_bfgs_logspace()`. `opt k M` is what `scipy.optimize.minimize` returns (`res.x`) for process `k` when the model is `M`. The objective and gradient callbacks overwrite
row `k` only, and the final assignment overwrites it again. Simplification: a start of `-inf` or `nan` is reported as an error, nothing is said about the result. -/
noncomputable def fitBfgsLog (opt : ℕ → StdModel → Vec ℝ) (M : StdModel) : Except PyErr StdModel :=
  forListE (List.range M.K) (fitBfgsLogBody opt) M

end PyHawkes
