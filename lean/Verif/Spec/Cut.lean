import Verif.Spec.Relabel
import Verif.Spec.Variational

/-!
# Specification for C111: how a recording is cut into data sets

A data set is a sequence of time bins; in each bin there are the counts of the processes and the filtered counts (what the past contributes). Two lists of data sets are the same recording cut differently if,
laid end to end, they are the same sequence of bins.
-/
namespace PyHawkes.Spec
open Finset

/-- the bins of a data set, in order: counts and filtered counts -/
def bins (D : DParents ℝ) : List (Vec ℕ × Mat ℝ) := (List.range D.T).map fun t => (D.S t, D.F t)

/-- laid end to end, the same sequence of bins (and both lists empty or neither) -/
def SameBins (dl dl' : List (DParents ℝ)) : Prop := dl'.flatMap bins = dl.flatMap bins ∧ (dl' = [] ↔ dl = [])

/-- two states of a sampler that differ only in how their recordings are cut into data sets -/
def SameButCuts (s s' : HawkesState) : Prop := SameBins s.data s'.data ∧ s' = { s with data := s'.data }

/-- the current parents, laid end to end, agree: one row for every bin with events of process `k` -/
def SameParents (s s' : HawkesState) : Prop := ∀ k, s'.data.flatMap (fun D => D.getZ k) = s.data.flatMap fun D => D.getZ k

/-- the multinomial draws for process `k`, one for every bin with events of `k`, in the order of the bins; `mult i k j` is the draw of data set `i`, process `k`, `j`-th bin with events -/
def drawsOf : (ℕ → ℕ → ℕ → ℕ → Vec ℝ → Vec ℕ) → List (DParents ℝ) → ℕ → List (ℕ → Vec ℝ → Vec ℕ)
  | _, [], _ => []
  | mult, D :: dl, k => (List.range ((List.range D.T).filter fun t => D.S t k ≠ 0).length).map (mult 0 k) ++ drawsOf (fun i => mult (i + 1)) dl k

/-- the same random numbers: each bin uses the same multinomial draw, everything else is identical -/
def SameDraws (dl dl' : List (DParents ℝ)) (d d' : StepDraws) : Prop := d' = { d with mult := d'.mult } ∧ ∀ k, drawsOf d'.mult dl' k = drawsOf d.mult dl k

/-- the expected parents with the bins they belong to, laid end to end, agree -/
def SameExpected (dl dl' : List (DParents ℝ)) : Prop :=
  ∀ k, dl'.flatMap (fun D => (D.getEZ k).zip ((D.Ss k).zip (D.Fs k))) = dl.flatMap fun D => (D.getEZ k).zip ((D.Ss k).zip (D.Fs k))

/-- two variational states that differ only in how their recordings are cut into data sets -/
def SameButCutsMF (M M' : MFModel) : Prop := SameBins M.data M'.data ∧ SameExpected M.data M'.data ∧ M' = { M with data := M'.data }

/-- a recording of `T1` bins, then `gap` silent bins, then another recording -/
def join {α : Type*} [Zero α] (T1 gap : ℕ) (S1 S2 : Mat α) : Mat α := fun t k => if t < T1 then S1 t k else if t < T1 + gap then 0 else S2 (t - (T1 + gap)) k

/-- a recording of `T1` bins followed by silence -/
def pad {α : Type*} [Zero α] (T1 : ℕ) (S1 : Mat α) : Mat α := fun t k => if t < T1 then S1 t k else 0

end PyHawkes.Spec
