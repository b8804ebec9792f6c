import Verif.Spec.XCorr

/-! # Specification: total absolute correlation over a range of lags -/

namespace PyHawkes.Spec
open Finset

/-- the recording the correlations are computed from: the raw one, or its moving averages -/
noncomputable def smoothedRows (T : ℕ) : Option ℕ → ℕ
  | none => T
  | some w => T + 1 - w
noncomputable def smoothedData (S : Mat ℝ) : Option ℕ → Mat ℝ
  | none => S
  | some w => fun t k => (∑ s ∈ range w, S (t + s) k) / w

/-- all the samples that are correlated for the pair `(i,j)` vary: the first `T-d` rows of column `i` and the last `T-d` rows of column `j`, for every lag `d < dtmax` -/
def AllVary (T : ℕ) (S : Mat ℝ) (dtmax i j : ℕ) : Prop := ∀ d < dtmax, Varies (T - d) (fun t => S t i) ∧ Varies (T - d) (fun t => S (d + t) j)

open Classical in
/-- sum over the lags `d < dtmax` of the absolute correlation of column `i` with column `j` shifted by `d`, leaving out lag 0 of a column with itself -/
noncomputable def lagScore (T : ℕ) (S : Mat ℝ) (dtmax i j : ℕ) : ℝ :=
  ∑ d ∈ range dtmax, if i = j ∧ d = 0 then 0 else |pearson (T - d) (fun t => S t i) (fun t => S (d + t) j)|

end PyHawkes.Spec
