import Verif.Spec.CT
import Verif.Model.CTModel
/-! # Specification: simulated event lists -/
namespace PyHawkes.Spec

/-- numpy's uniform draws lie in [0,1); nothing is assumed about the other draws -/
def RngOk {σ : Type} (rng : Rng σ) : Prop := ∀ s, 0 ≤ (rng.rand s).1 ∧ (rng.rand s).1 < 1

/-- `np.argsort`: some permutation that puts the times in order -/
def SorterOk (sorter : List GenEvent → List GenEvent) : Prop :=
  ∀ l, (sorter l).Perm l ∧ (sorter l).Pairwise fun a b => a.time ≤ b.time

/-- every event lies in [0,T) on one of the `K` processes, and an event with a parent follows an event of the list by a lag in `(0, dt_max)` along an edge with nonzero adjacency and weight -/
def ValidCascade (P : CTParams) (T : ℝ) (evs : List GenEvent) : Prop :=
  ∀ e ∈ evs, 0 ≤ e.time ∧ e.time < T ∧ e.proc < P.K ∧
    ∀ s c, e.parent = some (s, c) → (∃ e' ∈ evs, e'.time = s ∧ e'.proc = c) ∧ 0 < e.time - s ∧ e.time - s < P.dtMax ∧ P.W c e.proc ≠ 0 ∧ P.A c e.proc ≠ 0

end PyHawkes.Spec
