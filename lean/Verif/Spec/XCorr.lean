import Verif.Prelude.Py
import Verif.Prelude.FX
import Mathlib.Analysis.Real.Sqrt

/-!
# Specification: Pearson correlation of shifted columns
-/

namespace PyHawkes.Spec
open Finset

/-- sample mean -/
noncomputable def avg (m : ℕ) (x : Vec ℝ) : ℝ := (∑ t ∈ range m, x t) / m

/-- Pearson's correlation coefficient of two samples of size `m` -/
noncomputable def pearson (m : ℕ) (x y : Vec ℝ) : ℝ :=
  (∑ t ∈ range m, (x t - avg m x) * (y t - avg m y)) / Real.sqrt ((∑ t ∈ range m, (x t - avg m x) ^ 2) * ∑ t ∈ range m, (y t - avg m y) ^ 2)

/-- the sample takes at least two different values -/
def Varies (m : ℕ) (x : Vec ℝ) : Prop := ∃ s < m, ∃ t < m, x s ≠ x t

open Classical in
/-- the correlation, `nan` if one of the samples is constant -/
noncomputable def correlation (m : ℕ) (x y : Vec ℝ) : FX := if Varies m x ∧ Varies m y then .fin (pearson m x y) else .nan

end PyHawkes.Spec
