import Verif.Model.Rate
import Verif.Prelude.FX
import Mathlib.Analysis.Real.Sqrt

/-!
# Cross-correlation baseline (`baselines/xcorr.py`)

Arrays are `T × N` with observations in rows. Exact arithmetic with IEEE special values.
-/

namespace PyHawkes
open Finset

/-- `np.cumsum(a, axis=0)` -/
noncomputable def cumsumRows (a : Mat ℝ) : Mat ℝ := fun i j => ∑ t ∈ range (i + 1), a t j

/-- `xcorr.py:51-54` — `_moving_average(a, axis=0, window)` for a `T × N` array; returns the number of rows and the rows. `window = 0` makes the two slices differ in length (`ret[:-0]` is empty): `ValueError` (for `T = 0` both are empty, and
`ret / 0` of an empty array is returned). -/
noncomputable def movingAverage (T : ℕ) (a : Mat ℝ) (window : ℕ) : Except PyErr (ℕ × Mat ℝ) :=
  if window = 0 then (if T = 0 then .ok (0, fun _ _ => 0) else .error .value)
  else
    let ret := cumsumRows a
    -- `ret[window:] = ret[window:] - ret[:-window]`
    let ret2 : Mat ℝ := fun i j => if window ≤ i then ret i j - ret (i - window) j else ret i j
    -- `ret[window-1:] / window`
    .ok (T - (window - 1), fun i j => ret2 (window - 1 + i) j / window)

/-- mean of `m` numbers -/
noncomputable def meanOf (m : ℕ) (x : Vec ℝ) : ℝ := (∑ t ∈ range m, x t) / m

/-- `np.cov` of the rows of `X`, `m` observations (called by `np.corrcoef`): the factor `1/(m-1)` is infinite or negative for `m ≤ 1`, where all results are `nan` -/
noncomputable def covRows (m : ℕ) (X : Mat ℝ) (i j : ℕ) : FX :=
  if m ≤ 1 then .nan
  else .fin ((∑ t ∈ range m, (X i t - meanOf m (X i)) * (X j t - meanOf m (X j))) * (1 / ((m : ℝ) - 1)))

/-- square root of a nonnegative covariance -/
noncomputable def fxSqrt : FX → FX
  | .fin x => .fin (Real.sqrt x)
  | _ => .nan

/-- division of results -/
noncomputable def fxDiv : FX → FX → FX
  | .fin x, .fin y => FX.div x y
  | _, _ => .nan

/-- `np.clip(c, -1, 1)` -/
noncomputable def fxClip : FX → FX
  | .fin x => .fin (max (-1) (min x 1))
  | .pinf => .fin 1
  | .ninf => .fin (-1)
  | .nan => .nan

/-- `np.corrcoef`: `c / stddev[:,None] / stddev[None,:]`, clipped -/
noncomputable def corrRows (m : ℕ) (X : Mat ℝ) (i j : ℕ) : FX :=
  fxClip (fxDiv (fxDiv (covRows m X i j) (fxSqrt (covRows m X i i))) (fxSqrt (covRows m X j j)))

/-- rows stacked by `np.corrcoef(x, y)`: columns `n1..n1c` of `S[:T-dt]`, then columns `n2..` of `S[dt:]` -/
def stackRows (S : Mat ℝ) (dt n1 n1c n2 : ℕ) : Mat ℝ := fun r t => if r < n1c - n1 then S t (n1 + r) else S (dt + t) (n2 + (r - (n1c - n1)))

/-- `xcorr.py:33-40`, one block: the upper right quadrant of the correlation matrix is written into `H[n1:n1c, n2:n2c, dt]`. `S[:T-dt]` has `T - dt` rows if `dt ≤ T`, otherwise the negative stop counts from the end; different numbers of rows raise `ValueError`. -/
noncomputable def xcorrBlock (T N : ℕ) (S : Mat ℝ) (chunk dt : ℕ) (c1 c2 : ℕ) (H : Ten FX) : Except PyErr (Ten FX) :=
  let n1 := c1 * chunk
  let n2 := c2 * chunk
  let n1c := min (n1 + chunk) N
  let n2c := min (n2 + chunk) N
  let m1 := if dt ≤ T then T - dt else 2 * T - dt
  if m1 ≠ T - dt then .error .value
  else
    let X := stackRows S dt n1 n1c n2
    .ok fun i j d => if d = dt ∧ n1 ≤ i ∧ i < n1c ∧ n2 ≤ j ∧ j < n2c then corrRows m1 X (i - n1) ((n1c - n1) + (j - n2)) else H i j d

/-- `np.arange(N, step=chunk)` as block numbers -/
def blockNumbers (N chunk : ℕ) : List ℕ := List.range ((N + chunk - 1) / chunk)

/-- `xcorr.py:32-40`, inner loop -/
noncomputable def xcorrRow (T N : ℕ) (S : Mat ℝ) (chunk dt : ℕ) (c1 : ℕ) (H : Ten FX) : Except PyErr (Ten FX) :=
  forListE (blockNumbers N chunk) (xcorrBlock T N S chunk dt c1) H

/-- `xcorr.py:43-44` — `H[:,:,0] = H[:,:,0] - np.diag(np.diag(H[:,:,0]))` -/
noncomputable def clearDiagonal (H : Ten FX) : Ten FX := fun i j d => if d = 0 then H i j 0 - (if i = j then H i i 0 else .fin 0) else H i j d

/-- `xcorr.py:28-44`, one offset -/
noncomputable def xcorrOffset (T N : ℕ) (S : Mat ℝ) (chunk dt : ℕ) (H : Ten FX) : Except PyErr (Ten FX) :=
  match forListE (blockNumbers N chunk) (xcorrRow T N S chunk dt) H with
  | .error e => .error e
  | .ok H => .ok (if dt = 0 then clearDiagonal H else H)

/-- `xcorr.py:20-46` — `xcorr(S, dtmax)`; the code uses `chunk = 16` -/
noncomputable def xcorr (T N : ℕ) (S : Mat ℝ) (dtmax : ℕ) (chunk : ℕ := 16) : Except PyErr (Ten FX) :=
  forListE (List.range dtmax) (xcorrOffset T N S chunk) (fun _ _ _ => .fin 0)

end PyHawkes
