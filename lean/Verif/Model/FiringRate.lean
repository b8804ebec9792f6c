import Verif.Model.Convert
import Verif.Model.Basis
import Mathlib.Analysis.SpecialFunctions.Exp

/-!
# Model of `pyhawkes/utils/poisson_process.py:60-98` — `approximateFiringRate(S, (T_start, T_stop), N_bins)`
-/

namespace PyHawkes
open Finset

/-- `poisson_process.py:68-73` — counts per bin divided by the bin width. No bins: `ZeroDivisionError`. An empty window: the division by zero of numpy goes on with `nan`.
The argument `range` of `np.histogram` is ignored by numpy when the edges are given. -/
noncomputable def rawRate (S : List ℝ) (tStart tStop : ℝ) (nBins : ℕ) : Except PyErr (List ℝ) :=
  let edges := (List.range (nBins + 1)).map (linspace tStart tStop (nBins + 1))
  if nBins = 0 then .error .exception
  else
    let width := (tStop - tStart) / nBins
    match npHistogram S edges with
    | .error e => .error e
    | .ok h => if width = 0 then .error .silentNan else .ok (h.map fun (c : ℤ) => (c : ℝ) / width)

/-- `poisson_process.py:76-84` — the smoothing kernel: a standard normal density at 9 points spaced by the bin width, normalised -/
noncomputable def smoothKernel (width : ℝ) (j : ℕ) : ℝ :=
  let c : ℕ → ℝ := linspace (-((9 : ℝ) - 1) / 2 * width) (((9 : ℝ) - 1) / 2 * width) 9
  Real.exp (-0.5 * c j ^ 2) / ∑ j ∈ range 9, Real.exp (-0.5 * c j ^ 2)

/-- `poisson_process.py:88-90` — mean of the first (last) 9 entries, `hstack` of pad, rates, pad -/
noncomputable def padRate (fr : List ℝ) : Vec ℝ := fun i =>
  let l := (fr.take 9).sum / (fr.take 9).length
  let r := (fr.drop (fr.length - 9)).sum / (fr.drop (fr.length - 9)).length
  if i < 9 then l else if i < 9 + fr.length then fr.getD (i - 9) 0 else r

/-- `np.convolve(a, v, "same")[t]` for arrays of lengths `n ≥ m`: the full convolution without its first `(m-1)/2` entries -/
def convSame (n m : ℕ) (a v : Vec ℝ) (t : ℕ) : ℝ :=
  ∑ j ∈ range m, if j ≤ t + (m - 1) / 2 ∧ t + (m - 1) / 2 - j < n then v j * a (t + (m - 1) / 2 - j) else 0

/-- `poisson_process.py:60-98` — `approximateFiringRate` -/
noncomputable def approxFiringRate (S : List ℝ) (tStart tStop : ℝ) (nBins : ℕ) : Except PyErr (List ℝ) :=
  match rawRate S tStart tStop nBins with
  | .error e => .error e
  | .ok fr =>
    let ker := smoothKernel ((tStop - tStart) / nBins)
    let n := fr.length + 18
    let smooth := (List.range n).map (convSame n 9 (padRate fr) ker)
    let out := (smooth.take (n - 9)).drop 9
    if out.length ≠ nBins then .error .assertion else .ok out

end PyHawkes
