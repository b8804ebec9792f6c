import Verif.Model.Basis
import Mathlib.Analysis.SpecialFunctions.Log.Basic
import Mathlib.Analysis.SpecialFunctions.Trigonometric.Basic

/-!
# Model of `CosineBasis` (`pyhawkes/utils/basis.py:85-148`)
-/

namespace PyHawkes
open Finset

/-- constructor arguments of `CosineBasis` used by `create_basis` (`basis.py:89-106`) -/
structure CosArgs where
  B : ℕ
  nEye : ℕ
  a : ℝ
  b : ℝ
  L : ℕ

/-- `basis.py:94-97` — default arguments -/
noncomputable def CosArgs.default (B : ℕ) : CosArgs := ⟨B, 0, 1 / 120, 1 / 2, 100⟩

/-- `basis.py:125-126` — `u_ir[t] = log(a*t+b)` -/
noncomputable def uIr (c : CosArgs) (t : ℕ) : ℝ := Real.log (c.a * t + c.b)

/-- `basis.py:109` — `n_cos = B - n_eye` (as an integer it may be negative; see `createCosine`) -/
def nCos (c : CosArgs) : ℕ := c.B - c.nEye

/-- `basis.py:127` — `floor(linspace(n_eye, n_pts/2.0, n_cos))[i]` -/
noncomputable def ctrIdx (c : CosArgs) (i : ℕ) : ℕ := ⌊linspace (c.nEye : ℝ) ((c.L : ℝ) / 2) (nCos c) i⌋₊

/-- `basis.py:127` — centre of the `i`-th raised cosine in log time -/
noncomputable def ctr (c : CosArgs) (i : ℕ) : ℝ := uIr c (ctrIdx c i)

/-- `basis.py:128-131` — width -/
noncomputable def cosWidth (c : CosArgs) : ℝ :=
  if nCos c = 1 then ctr c 0 / 2 else (ctr c (nCos c - 1) - ctr c 0) / ((nCos c : ℝ) - 1)

/-- `basis.py:134` — `(cos(max(-pi, min(pi, (u-c)*pi/w/2.0)))+1)/2.0` -/
noncomputable def basisFn (u c w : ℝ) : ℝ :=
  (Real.cos (max (-Real.pi) (min Real.pi ((u - c) * Real.pi / w / 2))) + 1) / 2

/-- `basis.py:114-136` — the `n_pts × B` array before orthogonalisation and normalisation -/
noncomputable def cosineRaw (c : CosArgs) : Mat ℝ := fun t j =>
  if j < c.nEye then (if t = j then 1 else 0) else basisFn (uIr c t) (ctr c (j - c.nEye)) (cosWidth c)

/-- `basis.py:107-148` — `CosineBasis.create_basis` with `orth=False`.
* line 111: assertion `n_cos >= 0`;
* line 117: assigning an `n_eye × n_eye` identity into fewer rows raises `ValueError`;
* line 127/131: with `n_cos = 0` the centres are empty and `ctrs[-1]` raises `IndexError`; an index outside `0..n_pts-1` raises;
* line 134: a zero width gives `0/0 = nan` (at the centre);
* lines 141-146: normalisation, refusing negative entries; dividing by a zero column sum gives `nan`.
Simplification: `orth=True` (scipy.linalg.orth) is not modelled. -/
noncomputable def createCosine (c : CosArgs) (norm : Bool) : Except PyErr (Mat ℝ) :=

  if c.B < c.nEye then .error .assertion
  else if c.L < c.nEye then .error .value
  else if nCos c = 0 then .error .index
  else if ∃ i < nCos c, c.L ≤ ctrIdx c i then .error .index
  else if cosWidth c = 0 then .error .silentNan
  else if norm then
    if ∃ t < c.L, ∃ j < c.B, cosineRaw c t j < 0 then .error .exception
    else if ∃ j < c.B, ∑ t ∈ range c.L, cosineRaw c t j = 0 then .error .silentNan
    else .ok fun t j => cosineRaw c t j / (∑ t ∈ range c.L, cosineRaw c t j) / (1 / (c.L : ℝ))
  else .ok (cosineRaw c)

end PyHawkes
