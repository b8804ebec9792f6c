import Verif.Model.InitStd
import Verif.Model.CTModel
import Verif.Model.Nonlinear

/-!
# Starting a continuous-time model from a standard process: `initialize_with_standard_model` (`pyhawkes/models.py:1497-1553`)
-/

namespace PyHawkes
open Finset

/-- what `standard_model` is: one of the process classes of `standard_models.py`, and whether its class is `StandardHawkesProcess` (linear link, `standard_models.py:345`) -/
structure StdProc where
  isStd : Bool
  proc : NLProc

/-- `models.py:1521-1541` — the impulse parameters of every pair are fitted to the standard impulse response by `scipy.optimize.leastsq` started from the current values; the unconstrained solver is the
argument `lsq k1 k2 g (mu, tau)`, where `g` are the impulse weights of the pair -/
def fitImpulses (K : ℕ) (lsq : ℕ → ℕ → Vec ℝ → ℝ × ℝ → ℝ × ℝ) (G : Ten ℝ) (P : CTParams) : CTParams :=
  forRange K (fun k1 P => forRange K (fun k2 (P : CTParams) =>
    let r := lsq k1 k2 (G k1 k2) (P.mu k1 k2, P.tau k1 k2)
    { P with mu := fun i j => if i = k1 ∧ j = k2 then r.1 else P.mu i j
             tau := fun i j => if i = k1 ∧ j = k2 then r.2 else P.tau i j }) P) P

/-- `models.py:1497-1553`; `p` is `network.p` of a network with a single edge probability (a scalar or a `1 × 1` array). `K = 0` makes the percentile of an empty array (`IndexError`). -/
noncomputable def ctInitWithStandard (lsq : ℕ → ℕ → Vec ℝ → ℝ × ℝ → ℝ × ℝ) (p : ℝ) (M : StdProc) (s : CTState) : Except PyErr CTState :=
  if M.isStd = false then .error .assertion
  else if M.proc.K ≠ s.P.K then .error .assertion
  else
    let lam0 := M.proc.getBias
    let W : Mat ℝ := fun i j => max (1e-16) (M.proc.getW i j)
    match M.proc.getG with
    | .error e => .error e
    | .ok G =>
      let P := fitImpulses s.P.K lsq G s.P
      if s.P.K = 0 then .error .index
      else match npPercentile (flatK s.P.K W) ((1 - p) * 100) with
        | .error e => .error e
        | .ok thr => .ok { s with P := { P with lam0 := lam0, A := fun i j => if W i j > thr then 1 else 0, W := W } }

end PyHawkes
