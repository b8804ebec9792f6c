import Verif.Model.Plot

/-!
# Specification for C105 and C106: rates of stored recordings, pictures
-/
namespace PyHawkes.Spec

/-- the arrows show the network `A` with weights `W`: exactly one arrow for each ordered pair of different processes, visible if and only if there is an edge, its width three times the weight -/
structure ShowsNetwork (K : ℕ) (A W : Mat ℝ) (l : List Arrow) : Prop where
  once : (l.map fun a => (a.src, a.dst)).Nodup
  pairs : ∀ i j, (i, j) ∈ l.map (fun a => (a.src, a.dst)) ↔ i < K ∧ j < K ∧ i ≠ j
  shown : ∀ a ∈ l, a.shown = true ↔ A a.src a.dst ≠ 0
  width : ∀ a ∈ l, a.shown = true → a.width = 3 * W a.src a.dst

end PyHawkes.Spec
