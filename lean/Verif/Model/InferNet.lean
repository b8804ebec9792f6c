import Verif.Model.XCorr

/-! # `infer_net_from_xcorr` (`baselines/xcorr.py:7-17`) -/

namespace PyHawkes
open Finset

/-- `np.abs` -/
noncomputable def fxAbs : FX → FX
  | .nan => .nan
  | .ninf => .pinf
  | .pinf => .pinf
  | .fin x => .fin |x|

/-- `np.sum(a, axis=2)` of one row of length `n` -/
noncomputable def fxRowSum (n : ℕ) (f : ℕ → FX) : FX := forRange n (fun d acc => acc + f d) (.fin 0)

/-- `xcorr.py:9-10` — the optional smoothing; returns the number of rows and the rows -/
noncomputable def smoothInput (T : ℕ) (S : Mat ℝ) : Option ℕ → Except PyErr (ℕ × Mat ℝ)
  | none => .ok (T, S)
  | some w => movingAverage T S w

/-- `xcorr.py:7-17` — `infer_net_from_xcorr(S, dtmax, smooth)` for a `T × N` array -/
noncomputable def inferNet (T N : ℕ) (S : Mat ℝ) (dtmax : ℕ) (smooth : Option ℕ) : Except PyErr (ℕ → ℕ → FX) :=
  match smoothInput T S smooth with
  | .error e => .error e
  | .ok (T', S') => match xcorr T' N S' dtmax with
    | .error e => .error e
    | .ok H => .ok fun i j => fxRowSum dtmax fun d => fxAbs (H i j d)

end PyHawkes
