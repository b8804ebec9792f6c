import Verif.Prelude.Py
import Mathlib.Algebra.Order.Floor.Ring
import Mathlib.Algebra.Order.Archimedean.Real.Basic

/-!
# Conversions between binned counts and event lists (`pyhawkes/utils/utils.py:15-43`)

Arithmetic is exact. `np.random.rand` and `np.argsort` are arguments: the first gives the list of draws for a size, the second any permutation for a list.
-/

namespace PyHawkes
open Finset

/-- `pybasicbayes.util.general.ibincount(counts)` (used at `utils.py:19`): index `t` repeated `counts[t]` times, in order -/
def ibincount (T : ℕ) (counts : ℕ → ℕ) : List ℕ := (List.range T).flatMap fun t => List.replicate (counts t) t

/-- `utils.py:19` — bin indices of all events, process after process -/
def dcIndices (T K : ℕ) (S : Mat ℕ) : List ℕ := (List.range K).flatMap fun k => ibincount T fun t => S t k

/-- `utils.py:22` — labels of all events, process after process -/
def dcLabels (T K : ℕ) (S : Mat ℕ) : List ℕ := (List.range K).flatMap fun k => List.replicate (∑ t ∈ range T, S t k) k

/-- `x[perm]` for an index list -/
def takeIdx {α : Type*} (d : α) (xs : List α) (perm : List ℕ) : List α := perm.map fun i => xs.getD i d

open Classical in
/-- `utils.py:15-28` — `convert_discrete_to_continuous(S, dt)` for an integer `T × K` array; returns times, labels and the end of the window. `np.concatenate([])` raises `ValueError` when `K = 0`. -/
noncomputable def discreteToContinuous (rand : ℕ → List ℝ) (argsort : List ℝ → List ℕ) (T K : ℕ) (S : Mat ℕ) (dt : ℝ) : Except PyErr (List ℝ × List ℕ × ℝ) :=
  if K = 0 then .error .value
  else
    let tEnd : ℝ := T * dt
    let idx := dcIndices T K S
    let sCt := List.zipWith (fun (j : ℕ) (u : ℝ) => dt * (j : ℝ) + dt * u) idx (rand idx.length)
    if ∃ x ∈ sCt, ¬ x < tEnd then .error .assertion
    else
      let perm := argsort sCt
      .ok (takeIdx 0 sCt perm, takeIdx 0 (dcLabels T K S) perm, tEnd)

/-- `np.arange(start, stop, step)` (`utils.py:31`): `⌈(stop - start)/step⌉` values; a zero step raises -/
noncomputable def npArange (start stop step : ℝ) : Except PyErr (List ℝ) :=
  if step = 0 then .error .exception
  else .ok ((List.range (⌈(stop - start) / step⌉).toNat).map fun i : ℕ => start + i * step)

open Classical in
/-- numpy's histogram cumulative counts: entries `< edge` for all edges but the last, entries `≤ edge` for the last one -/
noncomputable def histCum (xs : List ℝ) : List ℝ → List ℤ
  | [] => []
  | [b] => [(xs.countP fun x => decide (x ≤ b) : ℕ)]
  | b :: b' :: bs => ((xs.countP fun x => decide (x < b) : ℕ) : ℤ) :: histCum xs (b' :: bs)

/-- `np.diff` -/
def npDiff (l : List ℤ) : List ℤ := List.zipWith (fun hi lo => hi - lo) l.tail l

/-- the edges increase (weakly) -/
def edgesOk : List ℝ → Prop
  | [] => True
  | [_] => True
  | b :: b' :: bs => b ≤ b' ∧ edgesOk (b' :: bs)

open Classical in
/-- `np.histogram(xs, bins)[0]` (`utils.py:39`): raises `ValueError` if the edges do not increase -/
noncomputable def npHistogram (xs : List ℝ) (bins : List ℝ) : Except PyErr (List ℤ) :=
  if edgesOk bins then .ok (npDiff (histCum xs bins)) else .error .value

/-- maximum of a nonempty list of labels (`C.max()`, `utils.py:36`); `ValueError` on an empty one -/
def labelMax : List ℤ → Except PyErr ℤ
  | [] => .error .value
  | c :: cs => .ok (cs.foldl max c)

/-- `S[C==k]` (`utils.py:39`): `IndexError` if the lengths differ -/
def selectLabel (S : List ℝ) (C : List ℤ) (k : ℕ) : Except PyErr (List ℝ) :=
  if S.length ≠ C.length then .error .index
  else .ok (((S.zip C).filter fun e => e.2 = (k : ℤ)).map Prod.fst)

/-- `utils.py:38-39`, body of the loop over `k` -/
noncomputable def binColumn (S : List ℝ) (C : List ℤ) (bins : List ℝ) (k : ℕ) (acc : Mat ℤ) : Except PyErr (Mat ℤ) :=
  match selectLabel S C k with
  | .error e => .error e
  | .ok xs => match npHistogram xs bins with
    | .error e => .error e
    | .ok h => .ok fun t j => if j = k then h.getD t 0 else acc t j

open Classical in
/-- `utils.py:30-43` — `convert_continuous_to_discrete(S, C, dt, T_min, T_max)`; returns the shape and the counts. `np.int` (`:43`) exists only in numpy < 1.24 (later versions raise `AttributeError` on every call); modelled for the versions that have it. -/
noncomputable def continuousToDiscrete (S : List ℝ) (C : List ℤ) (dt tMin tMax : ℝ) : Except PyErr (ℕ × ℕ × Mat ℤ) :=
  match npArange tMin tMax dt with
  | .error e => .error e
  | .ok bins0 =>
    match bins0.getLast? with
    | none => .error .index
    | some last =>
      let bins := if last ≠ tMax then bins0 ++ [tMax] else bins0
      let T := bins.length - 1
      match labelMax C with
      | .error e => .error e
      | .ok m =>
        if m + 1 < 0 then .error .value
        else
          let K := (m + 1).toNat
          match forListE (List.range K) (binColumn S C bins) (fun _ _ => 0) with
          | .error e => .error e
          | .ok D =>
            if ∑ t ∈ range T, ∑ k ∈ range K, D t k = (S.length : ℤ) then .ok (T, K, D)
            else .error .assertion

end PyHawkes
