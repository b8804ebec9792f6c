import Verif.Model.GibbsModel
import Verif.Model.CTModel

/-!
# Copying network models and held-out evaluation of continuous-time models, with crash points
`pyhawkes/models.py:773-789`, `:1685-1701`, `:1809-1812`

Each function returns the state of the object after the call together with the outcome, so that what an interrupted call leaves behind is visible.
-/

namespace PyHawkes

/-- `models.py:773-789` — `copy_sample()` of the discrete-time network models. `crash = some 0` interrupts before the list is taken off the object, `some 1` during the deep copy (for example
`KeyboardInterrupt`, `MemoryError`), `some 2` after the list is back. Python values are immutable here, so a deep copy is the value itself. -/
def netCopySample (crash : Option ℕ) (s : HawkesState) : HawkesState × Except PyErr HawkesState :=
  if crash = some 0 then (s, .error .exception)
  else
    let dataList := s.data
    let s' := { s with data := [] }
    if crash = some 1 then (s', .error .exception)
    else ({ s' with data := dataList }, if crash = some 2 then .error .exception else .ok s')

/-- `models.py:1685-1701` — `copy_sample()` of the continuous-time model; crash points as above -/
def ctCopySample (crash : Option ℕ) (s : CTState) : CTState × Except PyErr CTState :=
  if crash = some 0 then (s, .error .exception)
  else
    let dataList := s.data
    let s' := { s with data := [] }
    if crash = some 1 then (s', .error .exception)
    else ({ s' with data := dataList }, if crash = some 2 then .error .exception else .ok s')

/-- `models.py:1809-1812` — `heldout_log_likelihood(S, C, T)` of the continuous-time model: add, pop at once, then evaluate. `crash = some 0` interrupts inside `add_data` before the append,
`some 1` while the likelihood is evaluated (after the pop). -/
noncomputable def ctHeldout (crash : Option ℕ) (a : CTArgs) (s : CTState) : CTState × Except PyErr ℝ :=
  if crash = some 0 then (s, .error .exception)
  else match ctAddData s.P.K a s.data with
    | .error e => (s, .error e)
    | .ok dl =>
      let s1 := { s with data := dl }
      match s1.data.getLast? with
      | none => (s1, .error .index)
      | some D =>
        let s2 := { s1 with data := s1.data.dropLast }
        if crash = some 1 then (s2, .error .exception) else (s2, .ok (ctLogLik s.P [D]))

end PyHawkes
