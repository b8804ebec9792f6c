import Verif.Model.Variational

/-!
# The variational lower bound of the whole model

`parents.py:404-423`, `parent_updates.pyx:65-119`, `models.py:1325-1335`.
-/

namespace PyHawkes
open Finset

/-- `log(EZ / Sk + 1e-32)`; a zero count (possible only by wrap-around of `uint32`) makes the quotient `nan` or infinite, here `nan` -/
noncomputable def logRatio (z : ℝ) (s : ℕ) : FX := if s = 0 then .nan else FX.log (z / s + 1e-32)

/-- `parent_updates.pyx:94-113` — what the loop body adds to `vlbs[t]` for one event bin of process `k2`; `elnW` may hold `-inf` -/
noncomputable def mfVlbRow (K B k2 : ℕ) (elnL : Vec ℝ) (elnW : ℕ → ℕ → FX) (elng : Ten ℝ) (z : Vec ℝ) (s : ℕ) (f : Mat ℝ) : FX :=
  forRange K (fun k1 w => forRange B (fun b w =>
      w + .fin (z (1 + k1 * B + b)) * (FX.log (f k1 b + 1e-32) + elnW k1 k2 + .fin (elng k1 k2 b))
        + .fin (-z (1 + k1 * B + b)) * logRatio (z (1 + k1 * B + b)) s) w)
    (.fin 0 + .fin (z 0 * elnL k2) + .fin (-z 0) * logRatio (z 0) s)

/-- `parent_updates.pyx:65-119` — `mf_vlb` with IEEE special values. The parallel loop over `t` writes disjoint cells and the sum is serial. -/
noncomputable def mfVlbFX (K B k2 Ttot : ℕ) (elnL eL : Vec ℝ) (elnW : ℕ → ℕ → FX) (eW : Mat ℝ) (elng : Ten ℝ) (Ns : Vec ℕ)
    (rows : List (Vec ℝ × ℕ × Mat ℝ)) : FX :=
  let v : ℝ := 0 + -(Ttot : ℝ) * eL k2
  let v := forRange K (fun k1 v => v + -(Ns k1 : ℝ) * eW k1 k2) v
  .fin v + FX.sum (rows.map fun r => mfVlbRow K B k2 elnL elnW elng r.1 r.2.1 r.2.2)

/-- `parents.py:404-423` — `DiscreteTimeParents.get_vlb` -/
noncomputable def MFModel.parentsVlb (M : MFModel) (D : DParents ℝ) : FX :=
  FX.sum ((List.range M.K).map fun k => mfVlbFX M.K M.B k D.T M.bias.eLnLam M.bias.eLam (M.w.eLnW M.net.allowSelf) (M.w.eW M.net.allowSelf)
    (M.imp.eLnG M.B) D.Ns ((D.getEZ k).zip ((D.Ss k).zip (D.Fs k))))

/-- `models.py:1325-1335` — `get_vlb`. Python evaluates the weight model's bound (which may raise) before the network's. -/
noncomputable def MFModel.vlb (huge : ℝ) (M : MFModel) : Except PyErr FX :=
  let v := FX.sum (M.data.map M.parentsVlb)
  let v := v + .fin (M.bias.vlb M.K)
  let v := v + .fin (M.imp.vlb M.K M.B)
  match M.net.eV with
  | .error e => .error e
  | .ok eV => match M.net.eLnV with
    | .error e => .error e
    | .ok eLnV =>
      let v := v + M.w.vlb M.K M.net eV eLnV
      match M.net.vlb huge with
      | .error e => .error e
      | .ok x => .ok (v + .fin x)

/-- `bias.py:102-106` — `bias_model.meanfieldupdate(data)` alone, as a change of the model -/
noncomputable def MFModel.updateBias (M : MFModel) : MFModel := { M with bias := M.bias.update M.data 1 1 }

/-- `impulses.py:115-116` — `impulse_model.meanfieldupdate(data)` alone, as a change of the model -/
noncomputable def MFModel.updateImp (M : MFModel) : MFModel := { M with imp := M.imp.update M.B M.data 1 1 }

/-- `weights.py:363-365` — `weight_model.meanfieldupdate(data)` alone, as a change of the model -/
noncomputable def MFModel.updateWeights (M : MFModel) : Except PyErr MFModel :=
  match M.w.update M.K M.B M.net M.data 1 1 with
  | .error e => .error e
  | .ok w => .ok { M with w := w }

/-- the network replaced, everything else kept (used for `network.mf_update_p()` and its siblings, each called alone) -/
def MFModel.withNet (M : MFModel) (n : MFNet) : MFModel := { M with net := n }

end PyHawkes
