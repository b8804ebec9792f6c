import Verif.Props.CTParents
/-!
# C25, C28, C29 and the continuous-time parent update as a whole
-/
set_option linter.unusedSectionVars false

namespace PyHawkes
open Finset Spec

/-! ### C28 -/

/-- the statistics after the first `i` events, first pass -/
def Stats1Inv (D : CTData) (dtMax : ℝ) (Z : ℕ → ℤ) (i : ℕ) (s : CTStats) : Prop :=
  (∀ k, s.bkgd k = ∑ n ∈ range i, if Z n = -1 ∧ D.C n = k then 1 else 0) ∧
  (∀ k1 k2, s.weight k1 k2 = ∑ n ∈ range i, if 0 ≤ Z n ∧ D.C (Z n).toNat = k1 ∧ D.C n = k2 then 1 else 0) ∧
  (∀ k1 k2, s.imp0 k1 k2 = s.weight k1 k2) ∧
  (∀ k1 k2, s.imp1 k1 k2 = ∑ n ∈ range i, if 0 ≤ Z n ∧ D.C (Z n).toNat = k1 ∧ D.C n = k2 then childLag D dtMax Z n else 0) ∧
  (∀ k1 k2, s.imp2 k1 k2 = 0)

theorem stats1_step (D : CTData) (dtMax : ℝ) (Z : ℕ → ℤ) (i : ℕ) (s : CTStats) (hz : -1 ≤ Z i ∧ Z i < D.N) (h : Stats1Inv D dtMax Z i s) :
    ∃ s', stats1 D dtMax Z i s = .ok s' ∧ Stats1Inv D dtMax Z (i + 1) s' := by
  obtain ⟨h1, h2, h3, h4, h5⟩ := h
  unfold stats1
  split_ifs with a b
  · refine ⟨_, rfl, fun k => ?_, fun k1 k2 => ?_, h3, fun k1 k2 => ?_, h5⟩
    · simp only [Vec.set, sum_range_succ, ← h1, a, true_and]
      split_ifs with c d d
      · rw [c]
      · exact absurd c.symm d
      · exact absurd d.symm c
      · simp
    · simp only [sum_range_succ, ← h2]
      rw [if_neg (by rintro ⟨c, -⟩; omega), add_zero]
    · simp only [sum_range_succ, ← h4]
      rw [if_neg (by rintro ⟨c, -⟩; omega), add_zero]
  · omega
  · refine ⟨_, rfl, fun k => ?_, fun k1 k2 => ?_, fun k1 k2 => ?_, fun k1 k2 => ?_, h5⟩
    · simp only [sum_range_succ, ← h1]
      rw [if_neg (fun c => a c.1), add_zero]
    · simp only [Mat.set, sum_range_succ, ← h2]
      have hz0 : 0 ≤ Z i := by omega
      simp only [hz0, true_and]
      by_cases c : k1 = D.C (Z i).toNat ∧ k2 = D.C i
      · rw [if_pos c, if_pos ⟨c.1.symm, c.2.symm⟩, c.1, c.2]
      · rw [if_neg c, if_neg (fun d => c ⟨d.1.symm, d.2.symm⟩), add_zero]
    · simp only [Mat.set, h3]
    · simp only [Mat.set, sum_range_succ, ← h4]
      have hz0 : 0 ≤ Z i := by omega
      simp only [hz0, true_and]
      by_cases c : k1 = D.C (Z i).toNat ∧ k2 = D.C i
      · rw [if_pos c, if_pos ⟨c.1.symm, c.2.symm⟩, c.1, c.2]; rfl
      · rw [if_neg c, if_neg (fun d => c ⟨d.1.symm, d.2.symm⟩), add_zero]

theorem stats2_step (D : CTData) (dtMax : ℝ) (Z : ℕ → ℤ) (mu : Mat ℝ) (s0 : CTStats) (i : ℕ) (s : CTStats) (hz : -1 ≤ Z i ∧ Z i < D.N)
    (h : s = { s0 with imp2 := fun k1 k2 => ∑ n ∈ range i, if 0 ≤ Z n ∧ D.C (Z n).toNat = k1 ∧ D.C n = k2 then (childLag D dtMax Z n - mu k1 k2) ^ 2 else 0 }) :
    ∃ s', stats2 D dtMax Z mu i s = .ok s' ∧
      s' = { s0 with imp2 := fun k1 k2 => ∑ n ∈ range (i + 1), if 0 ≤ Z n ∧ D.C (Z n).toNat = k1 ∧ D.C n = k2 then (childLag D dtMax Z n - mu k1 k2) ^ 2 else 0 } := by
  unfold stats2
  split_ifs with a b
  · omega
  · refine ⟨_, rfl, ?_⟩
    rw [h]
    congr 1
    funext k1 k2
    simp only [Mat.set, sum_range_succ]
    have hz0 : 0 ≤ Z i := by omega
    simp only [hz0, true_and]
    by_cases c : k1 = D.C (Z i).toNat ∧ k2 = D.C i
    · rw [if_pos c, if_pos ⟨c.1.symm, c.2.symm⟩, c.1, c.2]; rfl
    · rw [if_neg c, if_neg (fun d => c ⟨d.1.symm, d.2.symm⟩), add_zero]
  · refine ⟨_, rfl, ?_⟩
    rw [h]
    congr 1
    funext k1 k2
    rw [sum_range_succ, if_neg (by rintro ⟨c, -⟩; omega), add_zero]

theorem sum_children (D : CTData) (Z : ℕ → ℤ) (k1 k2 : ℕ) (f : ℕ → ℝ) :
    (∑ n ∈ range D.N, if 0 ≤ Z n ∧ D.C (Z n).toNat = k1 ∧ D.C n = k2 then f n else 0) = ∑ n ∈ children D Z k1 k2, f n := by
  unfold children; rw [sum_filter]

/-- what the statistics are, and that nothing but the finiteness assertion can fail -/
theorem ctSuffStats_spec (D : CTData) (dtMax : ℝ) (Z : ℕ → ℤ) (hZ : ∀ n < D.N, -1 ≤ Z n ∧ Z n < D.N) :
    ∃ s : CTStats, (∀ k, s.bkgd k = bkgdCount D Z k) ∧ (∀ k1 k2, s.weight k1 k2 = (children D Z k1 k2).card) ∧
      (∀ k1 k2, s.imp0 k1 k2 = (children D Z k1 k2).card) ∧
      (∀ k1 k2, s.imp1 k1 k2 = ∑ n ∈ children D Z k1 k2, childLag D dtMax Z n) ∧
      (∀ k1 k2, s.imp2 k1 k2 = ∑ n ∈ children D Z k1 k2,
        (childLag D dtMax Z n - (∑ i ∈ children D Z k1 k2, childLag D dtMax Z i) / (children D Z k1 k2).card) ^ 2) ∧
      ctSuffStats D dtMax Z = if (∀ n < D.N, 0 ≤ Z n → 0 < D.S n - D.S (Z n).toNat ∧ D.S n - D.S (Z n).toNat < dtMax) then .ok s else .error .assertion := by
  obtain ⟨s1, e1, h1, h2, h3, h4, h5⟩ := forListE_inv (Stats1Inv D dtMax Z) D.N (stats1 D dtMax Z)
    ⟨fun _ => 0, fun _ _ => 0, fun _ _ => 0, fun _ _ => 0, fun _ _ => 0⟩ (by refine ⟨?_, ?_, ?_, ?_, ?_⟩ <;> intros <;> simp)
    (fun i hi s hs => stats1_step D dtMax Z i s (hZ i hi) hs)
  have hw : ∀ k1 k2, s1.weight k1 k2 = (children D Z k1 k2).card := by
    intro k1 k2; rw [h2, sum_children, sum_const, nsmul_eq_mul, mul_one]
  have hi1 : ∀ k1 k2, s1.imp1 k1 k2 = ∑ n ∈ children D Z k1 k2, childLag D dtMax Z n := by
    intro k1 k2; rw [h4, sum_children]
  have hz2 : s1 = { s1 with imp2 := fun k1 k2 => ∑ n ∈ range 0, if 0 ≤ Z n ∧ D.C (Z n).toNat = k1 ∧ D.C n = k2 then
      (childLag D dtMax Z n - (fun i j => s1.imp1 i j / s1.imp0 i j) k1 k2) ^ 2 else 0 } := by
    have : s1.imp2 = fun _ _ => 0 := by funext i j; exact h5 i j
    simp only [sum_range_zero]
    rw [← this]
  obtain ⟨s2, e2, h6⟩ := forListE_inv (fun i s => s = { s1 with imp2 := fun k1 k2 => ∑ n ∈ range i, if 0 ≤ Z n ∧ D.C (Z n).toNat = k1 ∧ D.C n = k2 then
      (childLag D dtMax Z n - (fun i j => s1.imp1 i j / s1.imp0 i j) k1 k2) ^ 2 else 0 }) D.N (stats2 D dtMax Z fun i j => s1.imp1 i j / s1.imp0 i j) s1 hz2
    (fun i hi s hs => stats2_step D dtMax Z _ s1 i s (hZ i hi) hs)
  refine ⟨s2, fun k => ?_, fun k1 k2 => ?_, fun k1 k2 => ?_, fun k1 k2 => ?_, fun k1 k2 => ?_, ?_⟩
  · rw [h6]; dsimp only; rw [h1]; unfold bkgdCount; rw [sum_boole]
  · rw [h6]; exact hw k1 k2
  · rw [h6]; dsimp only; rw [h3, hw]
  · rw [h6]; exact hi1 k1 k2
  · rw [h6]; dsimp only; rw [sum_children, hi1, h3, hw]
  · unfold ctSuffStats
    rw [e1]
    dsimp only
    rw [e2]
    dsimp only
    have : (∃ n < D.N, -1 < Z n ∧ ¬ (0 < D.S n - D.S (Z n).toNat ∧ D.S n - D.S (Z n).toNat < dtMax)) ↔
        ¬ ∀ n < D.N, 0 ≤ Z n → 0 < D.S n - D.S (Z n).toNat ∧ D.S n - D.S (Z n).toNat < dtMax := by
      constructor
      · rintro ⟨n, a, b, c⟩ h; exact c (h n a (by omega))
      · intro h; by_contra hc
        exact h fun n a b => by_contra fun c => hc ⟨n, a, by omega, c⟩
    by_cases hc : ∀ n < D.N, 0 ≤ Z n → 0 < D.S n - D.S (Z n).toNat ∧ D.S n - D.S (Z n).toNat < dtMax
    · rw [if_neg (fun h => this.1 h hc), if_pos hc]
    · rw [if_pos (this.2 hc), if_neg hc]

/-- every event is either a background event or the child of an event of exactly one process -/
theorem conservation (D : CTData) (K : ℕ) (hL : LabelsOk K D) (Z : ℕ → ℤ) (hZ : ∀ n < D.N, -1 ≤ Z n ∧ Z n < D.N) (k : ℕ) :
    bkgdCount D Z k + ∑ k1 ∈ range K, (children D Z k1 k).card = D.Ns k := by
  unfold bkgdCount children CTData.Ns
  have hN : ((List.range D.N).filter fun n => D.C n = k).length = ((range D.N).filter fun n => D.C n = k).card := by
    rw [Finset.card_def]; rfl
  rw [hN, card_filter, card_filter]
  simp only [card_filter]
  rw [sum_comm, ← sum_add_distrib]
  refine sum_congr rfl fun n hn => ?_
  have hn' := mem_range.1 hn
  have hz := hZ n hn'
  by_cases hk : D.C n = k
  · simp only [hk, and_true, if_true]
    by_cases h0 : Z n = -1
    · rw [if_pos h0, sum_eq_zero, add_zero]
      intro j _
      rw [if_neg (by rintro ⟨a, -⟩; omega)]
    · have h1 : 0 ≤ Z n := by omega
      rw [if_neg h0, zero_add]
      simp only [h1, true_and]
      rw [sum_ite_eq, if_pos (mem_range.2 (hL _ (by omega)))]
  · simp [hk]

/-- **C28.** For labels in range and every parent assignment in `{-1, .., N-1}` whose lags lie in `(0, dt_max)`, the statistics are computed without error and mean what they should:
background events per process, children per pair of processes (also as impulse count), sum of scaled lags, sum of squared deviations from the mean scaled lag; and background plus
children of process `k` is the number of events of process `k`. -/
theorem C28_statistics (D : CTData) (K : ℕ) (dtMax : ℝ) (Z : ℕ → ℤ) (hL : LabelsOk K D) (hZ : ∀ n < D.N, -1 ≤ Z n ∧ Z n < D.N)
    (hlag : ∀ n < D.N, 0 ≤ Z n → 0 < D.S n - D.S (Z n).toNat ∧ D.S n - D.S (Z n).toNat < dtMax) :
    ∃ s, ctSuffStats D dtMax Z = .ok s ∧ (∀ k, s.bkgd k + ∑ k1 ∈ range K, s.weight k1 k = D.Ns k) ∧
      (∀ k, s.bkgd k = bkgdCount D Z k) ∧ (∀ k1 k2, s.weight k1 k2 = (children D Z k1 k2).card) ∧ (∀ k1 k2, s.imp0 k1 k2 = s.weight k1 k2) ∧
      (∀ k1 k2, s.imp1 k1 k2 = ∑ n ∈ children D Z k1 k2, childLag D dtMax Z n) ∧
      (∀ k1 k2, s.imp2 k1 k2 = ∑ n ∈ children D Z k1 k2,
        (childLag D dtMax Z n - (∑ i ∈ children D Z k1 k2, childLag D dtMax Z i) / (children D Z k1 k2).card) ^ 2) := by
  obtain ⟨s, h1, h2, h3, h4, h5, h6⟩ := ctSuffStats_spec D dtMax Z hZ
  rw [if_pos hlag] at h6
  refine ⟨s, h6, fun k => ?_, h1, h2, fun k1 k2 => by rw [h3, h2], h4, h5⟩
  rw [h1]; simp only [h2]
  exact_mod_cast conservation D K hL Z hZ k

/-- **C28 (no stray reads).** The statistics read outside the arrays exactly when some parent is neither `-1` nor an event: never for assignments in `{-1, .., N-1}`, always when an event is left
unassigned (`-2`). -/
theorem C28_index_error_iff (D : CTData) (dtMax : ℝ) (Z : ℕ → ℤ) :
    ctSuffStats D dtMax Z = .error .index ↔ ∃ n < D.N, Z n < -1 ∨ (D.N : ℤ) ≤ Z n := by
  constructor
  · intro h
    by_contra hc
    push Not at hc
    obtain ⟨s, -, -, -, -, -, h6⟩ := ctSuffStats_spec D dtMax Z fun n hn => ⟨(hc n hn).1, (hc n hn).2⟩
    rw [h6] at h
    split_ifs at h
    cases h
  · rintro ⟨n, hn, hbad⟩
    have herr : forListE (List.range D.N) (stats1 D dtMax Z) ⟨fun _ => 0, fun _ _ => 0, fun _ _ => 0, fun _ _ => 0, fun _ _ => 0⟩ = .error .index := by
      have gen : ∀ (l : List ℕ) (s : CTStats), n ∈ l → forListE l (stats1 D dtMax Z) s = .error .index := by
        intro l
        induction l with
        | nil => intro s h; cases h
        | cons a l ih =>
          intro s h
          have hcase : ∀ a s, stats1 D dtMax Z a s = .error .index ∨ ∃ s', stats1 D dtMax Z a s = .ok s' := by
            intro a s
            unfold stats1
            split_ifs
            · right; exact ⟨_, rfl⟩
            · left; rfl
            · right; exact ⟨_, rfl⟩
          unfold forListE
          rcases hcase a s with h1 | ⟨s', h1⟩
          · rw [h1]
          · rw [h1]
            dsimp only
            rcases List.mem_cons.1 h with h2 | h2
            · exfalso
              subst h2
              unfold stats1 at h1
              rw [if_neg (by omega), if_pos (by omega)] at h1
              cases h1
            · exact ih s' h2
      exact gen _ _ (List.mem_range.2 hn)
    unfold ctSuffStats
    rw [herr]

/-! ### the whole parent update -/

/-- a data set as `add_data` leaves it and every sweep keeps it: sorted events with labels in range, and statistics that belong to a valid parent assignment -/
structure CTDataOk (K : ℕ) (dtMax : ℝ) (D : CTData) : Prop where
  sorted : SortedTimes D
  labels : LabelsOk K D
  parents : ∀ n < D.N, -1 ≤ D.Z n ∧ D.Z n < n ∧ (0 ≤ D.Z n → 1e-8 ≤ D.S n - D.S (D.Z n).toNat ∧ D.S n - D.S (D.Z n).toNat ≤ dtMax - 1e-8)
  bkgd : ∀ k, D.bkgd k = bkgdCount D D.Z k
  weight : ∀ k1 k2, D.weight k1 k2 = (children D D.Z k1 k2).card
  imp0 : ∀ k1 k2, D.imp0 k1 k2 = (children D D.Z k1 k2).card
  imp1 : ∀ k1 k2, D.imp1 k1 k2 = ∑ n ∈ children D D.Z k1 k2, childLag D dtMax D.Z n
  imp2 : ∀ k1 k2, D.imp2 k1 k2 = ∑ n ∈ children D D.Z k1 k2,
    (childLag D dtMax D.Z n - (∑ i ∈ children D D.Z k1 k2, childLag D dtMax D.Z i) / (children D D.Z k1 k2).card) ^ 2

/-- **C26 (the update as a whole).** On sorted data with labels in range, a model with positive background rates, draws in [0,1) and any complete schedule, `resample` raises none of its
assertions; it keeps events and duration, every new parent is possible (in particular no event is left unassigned), and the stored statistics are those of the new assignment. -/
theorem C26_resample_succeeds (P : CTParams) (D : CTData) (hP : CTOk P) (hL : LabelsOk P.K D) (hS : SortedTimes D) (u : Vec ℝ)
    (hu : ∀ n < D.N, 0 ≤ u n ∧ u n < 1) (sched : List ℕ) (hsched : CompleteSchedule D.N sched) :
    ∃ D', ctResample P u sched D = .ok D' ∧ D'.N = D.N ∧ D'.S = D.S ∧ D'.C = D.C ∧ D'.T = D.T ∧
      (∀ n < D.N, ValidParent P D n (D'.Z n)) ∧ CTDataOk P.K P.dtMax D' := by
  obtain ⟨Z, hZ, hsel, -⟩ := ctResamplePar_eq P D hP hL hS u (fun n hn => (hu n hn).2) sched hsched D.Z
  have hval : ∀ n < D.N, ValidParent P D n (Z n) := fun n hn => by
    rw [hsel n hn]; exact sel_valid P D hP hL hS n hn _ (hu n hn).2
  have hb : ∀ n < D.N, -1 ≤ Z n ∧ Z n < n := by
    intro n hn
    rcases hval n hn with h | ⟨m, h, hm, -⟩ <;> rw [h] <;> constructor <;> omega
  have hlag0 : ∀ n < D.N, 0 ≤ Z n → 1e-8 ≤ D.S n - D.S (Z n).toNat ∧ D.S n - D.S (Z n).toNat ≤ P.dtMax - 1e-8 := by
    intro n hn h0
    rcases hval n hn with h | ⟨m, h, hm, a, b, -⟩
    · omega
    · rw [h]; exact ⟨a, b⟩
  have hpos : (0:ℝ) < 1e-8 := by norm_num
  have hlag : ∀ n < D.N, 0 ≤ Z n → 0 < D.S n - D.S (Z n).toNat ∧ D.S n - D.S (Z n).toNat < P.dtMax := fun n hn h0 => by
    have := hlag0 n hn h0
    constructor <;> linarith [this.1, this.2]
  obtain ⟨s, e, hcons, h1, h2, h3, h4, h5⟩ := C28_statistics D P.K P.dtMax Z hL (fun n hn => ⟨(hb n hn).1, by have := (hb n hn).2; omega⟩) hlag
  refine ⟨{ D with Z := Z, bkgd := s.bkgd, weight := s.weight, imp0 := s.imp0, imp1 := s.imp1, imp2 := s.imp2 }, ?_, rfl, rfl, rfl, rfl, hval, ?_⟩
  · unfold ctResample
    rw [hZ]
    dsimp only
    rw [if_neg (not_not.2 fun n hn => by have := (hb n hn).1; omega), if_neg (not_not.2 fun n hn => (hb n hn).2), e]
    dsimp only
    rw [if_neg (not_not.2 fun k _ => hcons k)]
  · exact ⟨hS, hL, fun n hn => ⟨(hb n hn).1, (hb n hn).2, hlag0 n hn⟩, h1, h2, fun i j => (h3 i j).trans (h2 i j), h4, h5⟩

/-- non-vacuity: three sorted events of one self-exciting process, and an interleaved schedule -/
noncomputable def demoEvents : CTData := { N := 3, S := fun n => (n : ℝ) / 2, C := fun _ => 0, T := 10, bkgd := fun _ => 3 }

example : CTOk demoParams ∧ LabelsOk demoParams.K demoEvents ∧ SortedTimes demoEvents ∧ CompleteSchedule demoEvents.N [2, 0, 1, 1, 0, 2] ∧
    0 < contribution demoParams demoEvents 1 0 := by
  refine ⟨demoParams_ok, fun n _ => by norm_num [demoParams, demoEvents], ?_, ?_, ?_⟩
  · intro i j hij _
    have : (i : ℝ) ≤ j := by exact_mod_cast hij
    simp only [demoEvents]
    linarith
  · constructor
    · intro n hn; simp at hn; simp [demoEvents]; omega
    · intro n hn
      have hn' : n < 3 := hn
      interval_cases n <;> decide
  · unfold contribution
    dsimp only
    rw [if_pos (by constructor <;> norm_num [demoParams, demoEvents])]
    refine mul_pos (by norm_num [demoParams]) (impulse_pos _ _ _ _ ?_ ?_ ?_) <;> norm_num [demoParams, demoEvents]

/-! ### C25 -/

/-- what a user must pass to `add_data` -/
structure CTArgsOk (K : ℕ) (a : CTArgs) : Prop where
  tFloat : a.tIsFloat = true
  sArray : a.sIsArray = true
  cArray : a.cIsArray = true
  sFloat : 0 < a.nS → a.sIsFloat = true
  cInt : a.cIsInt = true
  length : a.nS = a.nC
  sorted : ∀ i j, i ≤ j → j < a.nS → a.S i ≤ a.S j
  window : ∀ n < a.nS, 0 ≤ a.S n ∧ a.S n < a.T
  labels : ∀ n < a.nC, 0 ≤ a.C n ∧ a.C n < K

theorem sorted_iff_diff (S : Vec ℝ) (N : ℕ) : (∀ n, n + 1 < N → 0 ≤ S (n + 1) - S n) ↔ ∀ i j, i ≤ j → j < N → S i ≤ S j := by
  constructor
  · intro h i j hij
    induction j, hij using Nat.le_induction with
    | base => intro _; exact le_rfl
    | succ j hij ih =>
      intro hj
      have := ih (by omega)
      have := h j hj
      linarith
  · intro h n hn
    have := h n (n + 1) (Nat.le_succ n) hn
    linarith

/-- **C25.** `add_data` succeeds exactly on valid arguments; then it appends exactly one data set with those events, a background-only parent assignment and matching statistics, and keeps
the earlier data sets. In every other case it raises (and, since the only update is the final append, the list is as before). -/
theorem C25_add_data (K : ℕ) (dtMax : ℝ) (a : CTArgs) (dl : List CTData) :
    ((∃ dl', ctAddData K a dl = .ok dl') ↔ CTArgsOk K a) ∧
    ∀ dl', ctAddData K a dl = .ok dl' → ∃ D, dl' = dl ++ [D] ∧ D.N = a.nS ∧ D.S = a.S ∧ (∀ n < D.N, (D.C n : ℤ) = a.C n) ∧ D.T = a.T ∧
      (∀ n < D.N, D.Z n = -1) ∧ CTDataOk K dtMax D := by
  have hiff : (∃ dl', ctAddData K a dl = .ok dl') ↔ CTArgsOk K a := by
    unfold ctAddData
    constructor
    · rintro ⟨dl', h⟩
      split_ifs at h with h1 h2 h3 h4 h5 h6 h7
      simp only [not_and, not_not] at h3 h6 h7
      have hlen := h6
      obtain ⟨hs, hc⟩ := not_or.1 (by tauto : ¬ (a.sIsArray = false ∨ a.cIsArray = false))
      have key2 : 0 < a.nS → (a.sIsArray = true ∧ (∀ n < a.nS, 0 ≤ a.S n) ∧ (∀ n < a.nS, a.S n < a.T) ∧ a.sIsFloat = true) := fun h0 =>
        not_not.1 fun h => h2 ⟨h0, h⟩
      refine ⟨by simpa using h1, by simpa using hs, by simpa using hc, fun h => (key2 h).2.2.2, h7.1, hlen, ?_, ?_, ?_⟩
      · rw [← sorted_iff_diff]
        intro n hn
        exact h3 (by omega) n hn
      · intro n hn
        have := key2 (by omega)
        exact ⟨this.2.1 n hn, this.2.2.1 n hn⟩
      · intro n hn
        rcases h7.2 with h | h
        · omega
        · exact ⟨h.1 n hn, h.2 n hn⟩
    · intro h
      refine ⟨dl ++ [newCTData a], ?_⟩
      rw [if_neg (by simp [h.tFloat]), if_neg, if_neg, if_neg, if_neg, if_neg, if_neg]
      · simp only [not_not]
        exact ⟨h.cInt, Or.inr ⟨fun n hn => (h.labels n hn).1, fun n hn => (h.labels n hn).2⟩⟩
      · simp [h.length]
      · simp [h.sArray, h.cArray]
      · rintro ⟨-, hc⟩
        exact hc ⟨h.cArray, h.length.symm, fun n hn => (h.labels n hn).1, fun n hn => (h.labels n hn).2, h.cInt⟩
      · rintro ⟨-, hc⟩
        exact hc ((sorted_iff_diff a.S a.nS).2 h.sorted)
      · rintro ⟨h0, hc⟩
        exact hc ⟨h.sArray, fun n hn => (h.window n hn).1, fun n hn => (h.window n hn).2, h.sFloat h0⟩
  refine ⟨hiff, fun dl' h => ?_⟩
  have hok := hiff.1 ⟨dl', h⟩
  have hd : dl' = dl ++ [newCTData a] := by
    unfold ctAddData at h
    split_ifs at h
    injection h with h; exact h.symm
  have hC : ∀ n < a.nS, ((newCTData a).C n : ℤ) = a.C n := fun n hn => Int.toNat_of_nonneg (hok.labels n (by rw [← hok.length]; exact hn)).1
  refine ⟨newCTData a, hd, rfl, rfl, hC, rfl, fun n _ => rfl, ?_⟩
  have hch : ∀ k1 k2, children (newCTData a) (newCTData a).Z k1 k2 = ∅ := by
    intro k1 k2
    unfold children
    refine filter_eq_empty_iff.2 fun n _ => ?_
    rintro ⟨h, -⟩
    exact absurd h (by simp [newCTData])
  refine ⟨hok.sorted, fun n hn => ?_, fun n _ => ⟨le_rfl, ?_, fun h => absurd h (by simp [newCTData])⟩, fun k => ?_, fun k1 k2 => ?_, fun k1 k2 => ?_,
    fun k1 k2 => ?_, fun k1 k2 => ?_⟩
  · have := (hok.labels n (by rw [← hok.length]; exact hn)).2
    have := hC n hn
    omega
  · show (-1 : ℤ) < n
    omega
  · show ((_ : ℕ) : ℝ) = _
    unfold bkgdCount
    simp only [newCTData]
    rw [Finset.card_def]
    simp
    rfl
  all_goals rw [hch]; simp [newCTData]

/-! ### C29 -/

theorem rateScan_eq (P : CTParams) (D : CTData) (hA : ∀ i < P.K, ∀ j < P.K, P.A i j = 0 ∨ P.A i j = 1) (hW : ∀ i < P.K, ∀ j < P.K, 0 ≤ P.W i j) (hL : LabelsOk P.K D) (n : ℕ) (hn : n < D.N) (m : ℕ) (hm : m ≤ n)
    (lam : ℝ) (v : Vec ℝ) :
    rateScan P D n m (lam + ∑ k ∈ range P.K, P.A k (D.C n) * v k) = lam + ∑ k ∈ range P.K, P.A k (D.C n) * irScan P D n m v k := by
  induction m generalizing v with
  | zero => rfl
  | succ m ih =>
    unfold rateScan irScan
    dsimp only
    have hmN : m < D.N := by omega
    split_ifs with h1 h2 h3
    · exact ih (by omega) v
    · rfl
    · rw [← ih (by omega)]
      congr 1
      have hk := hL m hmN
      have : ∀ k ∈ range P.K, P.A k (D.C n) * Vec.set v (D.C m) (v (D.C m) + P.W (D.C m) (D.C n) * lnImpulse (D.S n - D.S m) (P.mu (D.C m) (D.C n)) (P.tau (D.C m) (D.C n)) P.dtMax) k
          = P.A k (D.C n) * v k + if k = D.C m then parWeight P D n m else 0 := by
        intro k _
        unfold Vec.set
        split_ifs with e
        · subst e; unfold parWeight CTParams.Weff; ring
        · ring
      rw [sum_congr rfl this, sum_add_distrib, sum_ite_eq', if_pos (mem_range.2 hk)]
      ring
    · rw [← ih (by omega)]
      congr 1
      have hz : P.A (D.C m) (D.C n) * P.W (D.C m) (D.C n) = 0 := by
        have : 0 ≤ P.A (D.C m) (D.C n) := by rcases hA (D.C m) (hL m hmN) (D.C n) (hL n hn) with h | h <;> rw [h]; norm_num
        exact le_antisymm (not_lt.1 h3) (mul_nonneg this (hW _ (hL m hmN) _ (hL n hn)))
      congr 1
      refine sum_congr rfl fun k _ => ?_
      unfold Vec.set
      split_ifs with e
      · subst e
        rw [mul_add, ← mul_assoc, hz]; ring
      · rfl

/-- **C29.** For 0/1 adjacency and nonnegative weights, the rate at event `n` that enters the log likelihood is the background rate plus the adjacency-weighted sum of the impulse matrix that the
adjacency updates precompute. -/
theorem C29_rates_agree (P : CTParams) (D : CTData) (hA : ∀ i < P.K, ∀ j < P.K, P.A i j = 0 ∨ P.A i j = 1) (hW : ∀ i < P.K, ∀ j < P.K, 0 ≤ P.W i j) (hL : LabelsOk P.K D) (n : ℕ) (hn : n < D.N) :
    rateAtEvents P D n = P.lam0 (D.C n) + ∑ k ∈ range P.K, P.A k (D.C n) * weightedImpulses P D n k := by
  unfold rateAtEvents weightedImpulses
  rw [← rateScan_eq P D hA hW hL n hn n le_rfl]
  congr 1
  simp

end PyHawkes
