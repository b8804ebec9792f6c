import Verif.Model.CTParents
/-! # Specification: continuous-time intensities and parent probabilities -/
namespace PyHawkes.Spec
open Finset

/-- event times never decrease -/
def SortedTimes (D : CTData) : Prop := ∀ i j, i ≤ j → j < D.N → D.S i ≤ D.S j

/-- logistic-normal impulse response at lag `s` (with the kernels' constant for the square root of `2π`) -/
noncomputable def impulse (mu tau dtMax s : ℝ) : ℝ :=
  Real.exp (-tau / 2 * (Real.log (s / dtMax / (1 - s / dtMax)) - mu) ^ 2) / (s * (dtMax - s) / dtMax * 2.5066282746310002 / Real.sqrt tau)

/-- the rate that event `m` contributes at the time of the later event `n`: effective weight times impulse response if the lag is at least `1e-8` and at most `dt_max - 1e-8` -/
noncomputable def contribution (P : CTParams) (D : CTData) (n m : ℕ) : ℝ :=
  let s := D.S n - D.S m
  if 1e-8 ≤ s ∧ s ≤ P.dtMax - 1e-8 then P.A (D.C m) (D.C n) * P.W (D.C m) (D.C n) * impulse (P.mu (D.C m) (D.C n)) (P.tau (D.C m) (D.C n)) P.dtMax s else 0

/-- total rate of the process of event `n` at that event: background plus the contributions of all earlier events -/
noncomputable def totalRate (P : CTParams) (D : CTData) (n : ℕ) : ℝ := P.lam0 (D.C n) + ∑ m ∈ range n, contribution P D n m

/-- positive background rates, nonnegative effective weights, positive precisions, a usable window -/
structure CTOk (P : CTParams) : Prop where
  dtMax : 0 < P.dtMax
  lam0 : ∀ k < P.K, 0 < P.lam0 k
  W : ∀ i < P.K, ∀ j < P.K, 0 ≤ P.A i j * P.W i j
  tau : ∀ i < P.K, ∀ j < P.K, 0 < P.tau i j

/-- labels are process numbers -/
def LabelsOk (K : ℕ) (D : CTData) : Prop := ∀ n < D.N, D.C n < K

/-- every one of the `N` iterations runs to its end: each is scheduled at least twice (its two steps), and nothing else is scheduled -/
def CompleteSchedule (N : ℕ) (sched : List ℕ) : Prop := (∀ n ∈ sched, n < N) ∧ ∀ n < N, 2 ≤ sched.count n

/-- a possible parent of event `n`: background, or an earlier event inside the window with positive effective weight -/
def ValidParent (P : CTParams) (D : CTData) (n : ℕ) (z : ℤ) : Prop :=
  z = -1 ∨ ∃ m : ℕ, z = m ∧ m < n ∧ 1e-8 ≤ D.S n - D.S m ∧ D.S n - D.S m ≤ P.dtMax - 1e-8 ∧ 0 < P.A (D.C m) (D.C n) * P.W (D.C m) (D.C n)

/-- number of background events of process `k` -/
def bkgdCount (D : CTData) (Z : ℕ → ℤ) (k : ℕ) : ℕ := ((range D.N).filter fun n => Z n = -1 ∧ D.C n = k).card

/-- the events of process `k2` whose parent is an event of process `k1` -/
def children (D : CTData) (Z : ℕ → ℤ) (k1 k2 : ℕ) : Finset ℕ := (range D.N).filter fun n => 0 ≤ Z n ∧ D.C (Z n).toNat = k1 ∧ D.C n = k2

/-- scaled lag between event `n` and its parent -/
noncomputable def childLag (D : CTData) (dtMax : ℝ) (Z : ℕ → ℤ) (n : ℕ) : ℝ :=
  Real.log (D.S n - D.S (Z n).toNat) - Real.log (dtMax - (D.S n - D.S (Z n).toNat))

end PyHawkes.Spec
