import Verif.Model.CTModel
import Verif.Model.Convert

/-!
# Impulse response curves reported to the user, and the reference implementation of the weighted impulses
-/

namespace PyHawkes
open Finset

/-- `impulses.py:48-51`, `models.py:651-653` — `impulses[l, k1, k2]` of a discrete-time network model: `np.tensordot(basis, g, axes=[1,2])`, an `L × K × K` array -/
def impulsesDT {R : Type*} [Field R] (P : NetParams R) : Ten R := fun l k1 k2 => ∑ b ∈ range P.B, P.basis l b * P.g k1 k2 b

/-- `utils.py:67-68` — `logit(x)` with `lam_max = 1`, in extended arithmetic -/
noncomputable def logitFX (x : ℝ) : FX := FX.log (x / 1) - FX.log (1 - x / 1)

/-- `impulses.py:364-372` — `impulse(dt, k1, k2)` in extended arithmetic, for any lag -/
noncomputable def impulseFX (mu tau dtMax dt : ℝ) : FX :=
  let Z := dt * (dtMax - dt) / dtMax * Real.sqrt (2 * Real.pi / tau)
  let x := logitFX (dt / dtMax) - FX.fin mu
  FX.div 1 Z * FX.exp (FX.fin (-tau / 2) * (x * x))

/-- `impulses.py:353-361`, `models.py:1486-1488` — `impulses` of the continuous-time model: lags and values at 50 lags -/
noncomputable def impulsesCT (P : CTParams) : Vec ℝ × (ℕ → ℕ → ℕ → FX) :=
  let t : Vec ℝ := linspace 0 P.dtMax 50
  (t, fun i k1 k2 => impulseFX (P.mu k1 k2) (P.tau k1 k2) P.dtMax (t i))

/-- `models.py:1839-1845` — `compute_impulses(dt)`: values and lags, at the multiples of `dt` below `dt_max`, and at `dt_max` -/
noncomputable def computeImpulses (P : CTParams) (dt : ℝ) : Except PyErr ((ℕ → ℕ → List FX) × List ℝ) :=
  match npArange 0 P.dtMax dt with
  | .error e => .error e
  | .ok l =>
    let t := l ++ [P.dtMax]
    .ok (fun k1 k2 => t.map (impulseFX (P.mu k1 k2) (P.tau k1 k2) P.dtMax), t)

/-- `weights.py:547-558` — backward loop of `_compute_weighted_impulses_at_events_manual` for event `n`: column `n` of the `K × N` result. The lags that reach `impulse` lie strictly between 0 and `dt_max` when the events are sorted. -/
noncomputable def manualScan (P : CTParams) (D : CTData) (n : ℕ) : ℕ → Vec ℝ → Vec ℝ
  | 0, lam => lam
  | m + 1, lam =>
    let dt := D.S n - D.S m
    if dt = 0 then manualScan P D n m lam
    else if P.dtMax ≤ dt then lam
    else manualScan P D n m (Vec.set lam (D.C m) (lam (D.C m) + P.W (D.C m) (D.C n) * pyImpulse (P.mu (D.C m) (D.C n)) (P.tau (D.C m) (D.C n)) P.dtMax dt))

/-- `weights.py:533-560` — `_compute_weighted_impulses_at_events_manual(data)[k, n]` -/
noncomputable def weightedImpulsesManual (P : CTParams) (D : CTData) (k n : ℕ) : ℝ := manualScan P D n n (fun _ => 0) k

end PyHawkes
