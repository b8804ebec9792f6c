import Verif.Model.DParents
import Verif.Model.Standard

/-!
# Model of `compute_rate(index)` on stored recordings and of the plotting methods (`pyhawkes/models.py:900-956`, `:1021-1187`)
-/
namespace PyHawkes
open Finset

/-- `models.py:917-940` — `compute_rate(index=i)`: assert that the data set exists, then use its stored filtered counts. A negative index counts from the end; below `-len` the list access raises.
Returns the number of rows and the rates. -/
def rateStored {R : Type*} [Field R] (P : NetParams R) (dl : List (DParents R)) (i : ℤ) : Except PyErr (ℕ × Mat R) :=
  if ¬ (i < dl.length) then .error .assertion
  else match pyIdx dl.length i with
    | none => .error .index
    | some n => match dl[n]? with
      | none => .error .index
      | some D => .ok (D.T, rateAll P D.F)

/-- `models.py:917-921`, `:942-956` — `compute_rate(index=i, proc=p)` -/
def rateStoredProc {R : Type*} [Field R] (P : NetParams R) (dl : List (DParents R)) (i p : ℤ) : Except PyErr (ℕ × Vec R) :=
  if ¬ (i < dl.length) then .error .assertion
  else match pyIdx dl.length i with
    | none => .error .index
    | some n => match dl[n]? with
      | none => .error .index
      | some D =>
        if ¬ (p < P.K) then .error .assertion
        else match pyIdx P.K p with
          | none => .error .index
          | some k => .ok (D.T, rateProc P D.F k)

/-! ### The network picture -/

/-- an arrow of the picture. The node positions are fixed points on a circle, computed from the process numbers (`models.py:1080-1081`, `:1104-1106`); the model keeps the process numbers. -/
structure Arrow where
  src : ℕ
  dst : ℕ
  width : ℝ
  shown : Bool

open Classical in
/-- `models.py:1076-1118` — `plot_network()`: one arrow for each ordered pair of different processes, in row order -/
noncomputable def plotNetNew (K : ℕ) (A W : Mat ℝ) : List Arrow :=
  forRange K (fun k1 l => forRange K (fun k2 l =>
    if k1 = k2 then l else l ++ [{ src := k1, dst := k2, width := 3 * W k1 k2, shown := decide (A k1 k2 ≠ 0) }]) l) []

open Classical in
/-- `models.py:1120-1137` — the body of the loop of `plot_network(lns=lns)`: take the next arrow, set its width and visibility -/
noncomputable def plotNetStep (A W : Mat ℝ) (k1 k2 : ℕ) (st : ℕ × List Arrow) : Except PyErr (ℕ × List Arrow) :=
  if k1 = k2 then .ok st
  else match st.2[st.1]? with
    | none => .error .index
    | some a => .ok (st.1 + 1, st.2.set st.1
        (if A k1 k2 ≠ 0 then { a with width := 3 * W k1 k2, shown := true } else { a with width := 0, shown := false }))

/-- `models.py:1076-1139` — `plot_network(lns=lns)` -/
noncomputable def plotNetUpdate (K : ℕ) (A W : Mat ℝ) (lns : List Arrow) : Except PyErr (List Arrow) :=
  match forListE (List.range K) (fun k1 st => forListE (List.range K) (plotNetStep A W k1) st) (0, lns) with
  | .error e => .error e
  | .ok st => .ok st.2

/-! ### The rates -/

/-- what `plot_rates` puts on the axes of one process: the points of the rate line, and the stems of the events -/
structure RatePlot where
  line : List (ℝ × ℝ)
  stems : List (ℝ × ℝ)

/-- `models.py:1141-1187` — `plot_rates(axs=axs, data_index=i)` with the default `T_slice`; `axs` is `none` or the number of axes. Without axes `plt.subplots` returns a pair whose first
component is a figure, which has no `plot`. `np.max` of no counts raises `ValueError`. Not modelled: labels, limits, `draw_events=False`. -/
noncomputable def plotRatesNew (P : NetParams ℝ) (dl : List (DParents ℝ)) (axs : Option ℕ) (i : ℤ) : Except PyErr (List RatePlot) :=
  if ¬ (i < dl.length) then .error .assertion
  else match pyIdx dl.length i with
    | none => .error .index
    | some n => match dl[n]? with
      | none => .error .index
      | some D => match rateStored P dl i with
        | .error e => .error e
        | .ok r =>
          if D.T = 0 ∨ P.K = 0 then .error .value
          else match axs with
            | none => .error .attribute
            | some m => if m ≠ P.K then .error .assertion
              else .ok ((List.range P.K).map fun k =>
                { line := (List.range D.T).map fun t : ℕ => (P.dt * t, r.2 t k),
                  stems := (D.ts k).map fun t : ℕ => ((t : ℝ) + P.dt / 2, (D.S t k : ℝ)) })

/-- `models.py:1182-1187` — `plot_rates(lns=lns, data_index=i)`: replace the points of the lines `lns[0], .., lns[K-1]`; the stems stay -/
noncomputable def plotRatesUpdate (P : NetParams ℝ) (dl : List (DParents ℝ)) (lns : List RatePlot) (i : ℤ) : Except PyErr (List RatePlot) :=
  if ¬ (i < dl.length) then .error .assertion
  else match pyIdx dl.length i with
    | none => .error .index
    | some n => match dl[n]? with
      | none => .error .index
      | some D => match rateStored P dl i with
        | .error e => .error e
        | .ok r =>
          if D.T = 0 ∨ P.K = 0 then .error .value
          else forListE (List.range P.K) (fun k l => match l[k]? with
            | none => .error .index
            | some q => .ok (l.set k { q with line := (List.range D.T).map fun t : ℕ => (P.dt * t, r.2 t k) })) lns

end PyHawkes
