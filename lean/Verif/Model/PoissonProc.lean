import Verif.Model.Rate
import Mathlib.Data.Real.Basic
import Mathlib.Data.List.Sort

/-!
# `sampleInhomogeneousPoissonProc` (`pyhawkes/utils/poisson_process.py:9-57`)

`tt` and `lam` are arrays of length `N`. Exact arithmetic. The outcome of `np.random.uniform(0, intLam, size=N)` is an argument.
-/

namespace PyHawkes
open Finset

/-- `poisson_process.py:25` — `trapLam[i] = 0.5 * dt[i] * (2*lam[i+1] - dlam[i])` -/
noncomputable def trapLam (tt lam : Vec ℝ) (i : ℕ) : ℝ := 0.5 * (tt (i + 1) - tt i) * (2 * lam (i + 1) - (lam (i + 1) - lam i))

/-- `poisson_process.py:26-27` — `cumLam`: zero followed by the cumulative sums -/
noncomputable def cumLam (tt lam : Vec ℝ) (i : ℕ) : ℝ := ∑ j ∈ range i, trapLam tt lam j

/-- `poisson_process.py:30` — `cumLam[-1]`: `cumLam` has one entry more than `tt` has intervals -/
noncomputable def intLam (N : ℕ) (tt lam : Vec ℝ) : ℝ := cumLam tt lam (N - 1)

open Classical in
/-- `poisson_process.py:43-45` — `while q > cumLam[tt_off]: tt_off += 1; assert tt_off < N_t` -/
noncomputable def advanceTo (cum : Vec ℝ) (N : ℕ) (q : ℝ) (off : ℕ) : Except PyErr ℕ :=
  if q > cum off then
    if off + 1 < N then advanceTo cum N q (off + 1) else .error .assertion
  else .ok off
  termination_by N - off

/-- Python index `off - 1` into an array of length `N`: `-1` is the last element -/
def prevIdx (N off : ℕ) : ℕ := if off = 0 then N - 1 else off - 1

open Classical in
/-- `poisson_process.py:42-55`, body of the loop over the draws; the state is the offset and the list of times so far. A zero denominator gives `nan`, which fails the assertion. -/
noncomputable def invertStep (tt cum : Vec ℝ) (N : ℕ) (q : ℝ) (st : ℕ × List ℝ) : Except PyErr (ℕ × List ℝ) :=
  match advanceTo cum N q st.1 with
  | .error e => .error e
  | .ok off =>
    let qLb := cum (prevIdx N off)
    let qUb := cum off
    if qUb - qLb = 0 then .error .assertion
    else
      let frac := (q - qLb) / (qUb - qLb)
      if ¬ (0 ≤ frac ∧ frac ≤ 1) then .error .assertion
      else
        let ttLb := tt (prevIdx N off)
        let ttUb := tt off
        .ok (off, st.2 ++ [ttLb + frac * (ttUb - ttLb)])

open Classical in
/-- `poisson_process.py:9-57` — the whole function; `draws` are the uniform numbers, sorted at `:37` -/
noncomputable def sampleInhomPoisson (N : ℕ) (tt lam : Vec ℝ) (draws : List ℝ) : Except PyErr (List ℝ) :=
  match forListE (draws.mergeSort fun a b => decide (a ≤ b)) (invertStep tt (cumLam tt lam) N) (0, []) with
  | .error e => .error e
  | .ok st => .ok st.2

end PyHawkes
