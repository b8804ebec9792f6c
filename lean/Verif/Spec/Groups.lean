import Verif.Model.DParents
import Verif.Model.CTParents

/-!
# Specification for C113: groups of processes

A group of `n` of the `K` processes is given by their numbers `e 0, ..., e (n-1)`. It is closed if no process outside it has an effective weight onto a process inside. Restricting a model or a recording to the group
forgets all other processes.
-/
namespace PyHawkes.Spec
open Finset

/-- `e 0, ..., e (n-1)` are `n` different processes -/
structure IsGroup (K n : ℕ) (e : ℕ → ℕ) : Prop where
  lt : ∀ i < n, e i < K
  inj : ∀ i < n, ∀ j < n, e i = e j → i = j

/-- no process outside the group influences a process inside -/
def Closed (K n : ℕ) (e : ℕ → ℕ) (W : Mat ℝ) : Prop := ∀ k < K, (∀ i < n, e i ≠ k) → ∀ j < n, W k (e j) = 0

/-- two groups: every process is in exactly one of them -/
def Partition (K n1 n2 : ℕ) (e1 e2 : ℕ → ℕ) : Prop :=
  (∀ k < K, (∃ i < n1, e1 i = k) ∨ ∃ i < n2, e2 i = k) ∧ ∀ i < n1, ∀ j < n2, e1 i ≠ e2 j

/-- the model of the group alone -/
def groupParams (n : ℕ) (e : ℕ → ℕ) (P : NetParams ℝ) : NetParams ℝ :=
  { P with K := n, lam0 := fun i => P.lam0 (e i), Weff := fun i j => P.Weff (e i) (e j), g := fun i j b => P.g (e i) (e j) b }

/-- the events of the group alone -/
def groupCounts {α : Type*} (e : ℕ → ℕ) (S : Mat α) : Mat α := fun t i => S t (e i)

/-- the recording of the group alone: counts and filtered counts -/
def groupData (e : ℕ → ℕ) (D : DParents ℝ) : DParents ℝ := { T := D.T, S := groupCounts e D.S, F := fun t i b => D.F t (e i) b }

/-- the continuous-time model of the group alone -/
def groupCT (n : ℕ) (e : ℕ → ℕ) (P : CTParams) : CTParams :=
  { P with K := n, lam0 := fun i => P.lam0 (e i), W := fun i j => P.W (e i) (e j), A := fun i j => P.A (e i) (e j), mu := fun i j => P.mu (e i) (e j), tau := fun i j => P.tau (e i) (e j) }

/-- `D'` has exactly the events of `D` on the processes of the group, in the same order; event `i` of `D'` is event `f i` of `D` -/
structure GroupEvents (n : ℕ) (e : ℕ → ℕ) (D D' : CTData) (f : ℕ → ℕ) : Prop where
  T : D'.T = D.T
  lt : ∀ i < D'.N, f i < D.N
  mono : ∀ i j, i < j → j < D'.N → f i < f j
  S : ∀ i < D'.N, D'.S i = D.S (f i)
  C : ∀ i < D'.N, D'.C i < n ∧ D.C (f i) = e (D'.C i)
  all : ∀ m < D.N, (∃ k < n, D.C m = e k) → ∃ i < D'.N, f i = m

end PyHawkes.Spec
