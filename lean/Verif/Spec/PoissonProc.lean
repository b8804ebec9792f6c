import Verif.Prelude.Py
import Mathlib.Data.Real.Basic
import Mathlib.MeasureTheory.Integral.IntervalIntegral.Basic

/-!
# Specification: time rescaling
-/

namespace PyHawkes.Spec
open Finset MeasureTheory

open Classical in
/-- the step rate: on grid interval `(tt[i], tt[i+1]]` the mean of the two grid rates -/
noncomputable def stepRate (N : ℕ) (tt lam : Vec ℝ) (x : ℝ) : ℝ := ∑ i ∈ range (N - 1), if tt i < x ∧ x ≤ tt (i + 1) then (lam i + lam (i + 1)) / 2 else 0

/-- expected number of events before `x` under the step rate -/
noncomputable def stepCumulative (N : ℕ) (tt lam : Vec ℝ) (x : ℝ) : ℝ := ∫ y in (tt 0)..x, stepRate N tt lam y

/-- the piecewise linear rate through the grid values, on interval `i` -/
noncomputable def linearRate (tt lam : Vec ℝ) (i : ℕ) (x : ℝ) : ℝ := lam i + (x - tt i) / (tt (i + 1) - tt i) * (lam (i + 1) - lam i)

end PyHawkes.Spec
