import Verif.Model.PoissonProc
import Verif.Spec.PoissonProc
import Mathlib.Analysis.SpecialFunctions.Integrals.Basic

/-!
# The time-rescaling sampler inverts the cumulative rate (C62)
-/

set_option linter.unusedSectionVars false
set_option linter.unusedVariables false

namespace PyHawkes
open Finset Spec MeasureTheory

/-- a proper grid: at least one point, strictly increasing -/
def Spec.GridOk (N : ℕ) (tt : Vec ℝ) : Prop := 0 < N ∧ ∀ i, i + 1 < N → tt i < tt (i + 1)

theorem grid_le {N : ℕ} {tt : Vec ℝ} (h : GridOk N tt) {i j : ℕ} (hij : i ≤ j) (hj : j < N) : tt i ≤ tt j := by
  induction j with
  | zero => rw [Nat.le_zero.1 hij]
  | succ j ih =>
    rcases Nat.lt_or_ge i (j + 1) with h1 | h1
    · exact (ih (by omega) (by omega)).trans (h.2 j hj).le
    · rw [le_antisymm hij h1]

theorem trapLam_eq (tt lam : Vec ℝ) (i : ℕ) : trapLam tt lam i = (tt (i + 1) - tt i) * ((lam i + lam (i + 1)) / 2) := by
  unfold trapLam; ring

theorem trapLam_nonneg {N : ℕ} {tt lam : Vec ℝ} (h : GridOk N tt) (hl : ∀ i < N, 0 ≤ lam i) {i : ℕ} (hi : i + 1 < N) : 0 ≤ trapLam tt lam i := by
  rw [trapLam_eq]
  have := h.2 i hi
  have := hl i (by omega)
  have := hl (i+1) hi
  apply mul_nonneg <;> linarith

theorem cumLam_succ (tt lam : Vec ℝ) (i : ℕ) : cumLam tt lam (i + 1) = cumLam tt lam i + trapLam tt lam i := by
  unfold cumLam; rw [Finset.sum_range_succ]

theorem cumLam_mono {N : ℕ} {tt lam : Vec ℝ} (h : GridOk N tt) (hl : ∀ i < N, 0 ≤ lam i) {i j : ℕ} (hij : i ≤ j) (hj : j < N) : cumLam tt lam i ≤ cumLam tt lam j := by
  induction j with
  | zero => rw [Nat.le_zero.1 hij]
  | succ j ih =>
    rcases Nat.lt_or_ge i (j + 1) with h1 | h1
    · have := ih (by omega) (by omega)
      have := trapLam_nonneg h hl hj
      rw [cumLam_succ]; linarith
    · rw [le_antisymm hij h1]

open Classical in
/-- the cumulative step rate on a grid interval -/
theorem stepCumulative_eq {N : ℕ} {tt lam : Vec ℝ} (h : GridOk N tt) {j : ℕ} (hj : j + 1 < N) {x : ℝ} (h1 : tt j ≤ x) (h2 : x ≤ tt (j + 1)) :
    stepCumulative N tt lam x = cumLam tt lam j + (x - tt j) * ((lam j + lam (j + 1)) / 2) := by
  have hx0 : tt 0 ≤ x := (grid_le h (Nat.zero_le j) (by omega)).trans h1
  have hterm : ∀ i, (fun y => if tt i < y ∧ y ≤ tt (i + 1) then (lam i + lam (i + 1)) / 2 else 0) = Set.indicator (Set.Ioc (tt i) (tt (i + 1))) fun _ => (lam i + lam (i + 1)) / 2 := by
    intro i
    funext y
    rw [Set.indicator_apply]
    rfl
  have hint : ∀ i ∈ range (N - 1), IntegrableOn (fun y => if tt i < y ∧ y ≤ tt (i + 1) then (lam i + lam (i + 1)) / 2 else 0) (Set.Ioc (tt 0) x) volume := by
    intro i _
    rw [hterm i]
    apply IntegrableOn.indicator _ measurableSet_Ioc
    exact integrableOn_const (by simp)
  have hval : ∀ i, ∫ y in Set.Ioc (tt 0) x, (if tt i < y ∧ y ≤ tt (i + 1) then (lam i + lam (i + 1)) / 2 else 0) = max (min x (tt (i + 1)) - max (tt 0) (tt i)) 0 * ((lam i + lam (i + 1)) / 2) := by
    intro i
    rw [hterm i, setIntegral_indicator measurableSet_Ioc, Set.Ioc_inter_Ioc, setIntegral_const, Real.volume_real_Ioc, smul_eq_mul]
  unfold stepCumulative stepRate
  rw [intervalIntegral.integral_of_le hx0, integral_finsetSum _ hint, Finset.sum_congr rfl fun i _ => hval i]
  obtain ⟨d, hd⟩ : ∃ d, N - 1 = j + 1 + d := ⟨N - 1 - (j + 1), by omega⟩
  rw [hd, Finset.sum_range_add, Finset.sum_range_succ, Finset.sum_eq_zero (s := range d), add_zero]
  · congr 1
    · unfold cumLam
      apply Finset.sum_congr rfl
      intro i hi
      have hi := Finset.mem_range.1 hi
      have a1 : tt (i + 1) ≤ x := (grid_le h (by omega) (by omega)).trans h1
      have a2 : tt 0 ≤ tt i := grid_le h (Nat.zero_le _) (by omega)
      have a3 := h.2 i (by omega)
      rw [trapLam_eq, min_eq_right a1, max_eq_right a2, max_eq_left (by linarith)]
    · rw [min_eq_left h2, max_eq_right (grid_le h (Nat.zero_le _) (by omega)), max_eq_left (by linarith)]
  · intro i hi
    have hi := Finset.mem_range.1 hi
    have a1 : x ≤ tt (j + 1 + i) := h2.trans (grid_le h (by omega) (by omega))
    have a2 : tt (j + 1 + i) ≤ tt (j + 1 + i + 1) := (h.2 _ (by omega)).le
    rw [min_eq_left (a1.trans a2), max_eq_right (grid_le h (Nat.zero_le _) (by omega)), max_eq_right (by linarith), zero_mul]

theorem advance_spec {cum : Vec ℝ} {N : ℕ} {q : ℝ} (hq : ∃ j < N, q ≤ cum j) : ∀ off, (off < N) → (∀ i < off, cum i < q) →
    ∃ o, advanceTo cum N q off = .ok o ∧ o < N ∧ off ≤ o ∧ q ≤ cum o ∧ ∀ i < o, cum i < q := by
  intro off
  generalize hd : N - off = d
  induction d using Nat.strong_induction_on generalizing off with
  | _ d ih =>
    intro ho hlt
    unfold advanceTo
    by_cases h : q > cum off
    · rw [if_pos h]
      obtain ⟨j, hj, hqj⟩ := hq
      have hoj : off < j := by
        by_contra hge
        push Not at hge
        rcases Nat.lt_or_ge j off with h' | h'
        · exact absurd (hlt j h') (not_lt.2 hqj)
        · have : j = off := le_antisymm hge h'
          rw [this] at hqj
          exact absurd h (not_lt.2 hqj)
      rw [if_pos (by omega)]
      obtain ⟨o, h1, h2, h3, h4, h5⟩ := ih (N - (off + 1)) (by omega) (off + 1) rfl (by omega) (fun i hi => by
        rcases Nat.lt_succ_iff_lt_or_eq.1 hi with h' | h'
        · exact hlt i h'
        · rw [h']; exact h)
      exact ⟨o, h1, h2, by omega, h4, h5⟩
    · rw [if_neg h]
      exact ⟨off, rfl, ho, le_rfl, not_lt.1 h, hlt⟩

/-- one draw is inverted -/
theorem invert_one {N : ℕ} {tt lam : Vec ℝ} (h : GridOk N tt) (hl : ∀ i < N, 0 ≤ lam i) {q : ℝ} (h0 : 0 ≤ q) (h1 : q ≤ intLam N tt lam) (hpos : 0 < intLam N tt lam) {off : ℕ} (ho : off < N) (hoff : ∀ i < off, cumLam tt lam i < q) (acc : List ℝ) :
    ∃ o x, invertStep tt (cumLam tt lam) N q (off, acc) = .ok (o, acc ++ [x]) ∧ o < N ∧ (∀ i < o, cumLam tt lam i < q) ∧ tt 0 ≤ x ∧ x ≤ tt (N - 1) ∧ stepCumulative N tt lam x = q ∧
      ((o = 0 ∧ x = tt 0) ∨ (0 < o ∧ tt (o - 1) < x ∧ x ≤ tt o)) := by
  have hN2 : 1 < N := by
    by_contra hle
    have : N - 1 = 0 := by omega
    unfold intLam at hpos
    rw [this] at hpos
    unfold cumLam at hpos
    simp at hpos
  obtain ⟨o, e1, e2, e3, e4, e5⟩ := advance_spec (cum := cumLam tt lam) (N := N) (q := q) ⟨N - 1, by omega, h1⟩ off ho hoff
  unfold invertStep
  rw [e1]
  dsimp only
  have hc0 : cumLam tt lam 0 = 0 := by unfold cumLam; simp
  by_cases hoz : o = 0
  · subst hoz
    have hq : q = 0 := by rw [hc0] at e4; linarith
    have hp : prevIdx N 0 = N - 1 := rfl
    rw [hp, hc0, hq]
    have hi : cumLam tt lam (N - 1) = intLam N tt lam := rfl
    rw [hi]
    have hfr : (0 - intLam N tt lam) / (0 - intLam N tt lam) = 1 := div_self (by linarith)
    rw [if_neg (by linarith), hfr, if_neg (by norm_num)]
    refine ⟨0, _, rfl, by omega, by simp, ?_, ?_, ?_, .inl ⟨rfl, by ring⟩⟩
    · linarith
    · have := grid_le h (Nat.zero_le (N-1)) (by omega)
      linarith
    · have hx : tt (N - 1) + 1 * (tt 0 - tt (N - 1)) = tt 0 := by ring
      rw [hx, stepCumulative_eq h (j := 0) (by omega) le_rfl (h.2 0 (by omega)).le, hc0]
      ring
  · have hp : prevIdx N o = o - 1 := by unfold prevIdx; rw [if_neg hoz]
    obtain ⟨k, rfl⟩ := Nat.exists_eq_succ_of_ne_zero hoz
    rw [hp, Nat.succ_sub_one, Nat.succ_eq_add_one] at *
    have hlo := e5 k (by omega)
    have hgap : 0 < cumLam tt lam (k + 1) - cumLam tt lam k := by linarith
    have htt := h.2 k e2
    have hf0 : 0 < (q - cumLam tt lam k) / (cumLam tt lam (k + 1) - cumLam tt lam k) := div_pos (by linarith) hgap
    have hf1 : (q - cumLam tt lam k) / (cumLam tt lam (k + 1) - cumLam tt lam k) ≤ 1 := by rw [div_le_one hgap]; linarith
    rw [if_neg hgap.ne', if_neg (by push Not; exact ⟨hf0.le, hf1⟩)]
    set fr := (q - cumLam tt lam k) / (cumLam tt lam (k + 1) - cumLam tt lam k) with hfr
    have hx1 : tt k < tt k + fr * (tt (k + 1) - tt k) := by nlinarith
    have hx2 : tt k + fr * (tt (k + 1) - tt k) ≤ tt (k + 1) := by nlinarith
    refine ⟨k + 1, _, rfl, e2, e5, ?_, ?_, ?_, .inr ⟨by omega, hx1, hx2⟩⟩
    · exact (grid_le h (Nat.zero_le k) (by omega)).trans hx1.le
    · exact hx2.trans (grid_le h (by omega) (by omega))
    · rw [stepCumulative_eq h e2 hx1.le hx2]
      have : cumLam tt lam (k + 1) - cumLam tt lam k = (tt (k + 1) - tt k) * ((lam k + lam (k + 1)) / 2) := by rw [cumLam_succ, trapLam_eq]; ring
      have h3 : fr * (cumLam tt lam (k + 1) - cumLam tt lam k) = q - cumLam tt lam k := by rw [hfr]; field_simp
      rw [this] at h3
      linear_combination h3

theorem stepCumulative_mono {N : ℕ} {tt lam : Vec ℝ} (h : GridOk N tt) (hl : ∀ i < N, 0 ≤ lam i) {x y : ℝ} (hxy : x ≤ y) (h0 : tt 0 ≤ x) (h1 : y ≤ tt (N - 1)) : stepCumulative N tt lam x ≤ stepCumulative N tt lam y := by
  by_cases hN : N = 1
  · subst hN
    have : x = y := by
      have : (1 : ℕ) - 1 = 0 := rfl
      rw [this] at h1
      linarith
    rw [this]
  -- locate both points on the grid
  have loc : ∀ z, tt 0 ≤ z → z ≤ tt (N - 1) → ∃ j, j + 1 < N ∧ tt j ≤ z ∧ z ≤ tt (j + 1) := by
    intro z hz0 hz1
    have : ∀ m, m < N → z ≤ tt m → 0 < m → ∃ j, j + 1 < N ∧ tt j ≤ z ∧ z ≤ tt (j + 1) := by
      intro m
      induction m with
      | zero => intro _ _ h; omega
      | succ m ih =>
        intro hm hz _
        rcases le_total (tt m) z with h' | h'
        · exact ⟨m, hm, h', hz⟩
        · rcases Nat.eq_zero_or_pos m with h'' | h''
          · subst h''
            exact ⟨0, hm, hz0, hz⟩
          · exact ih (by omega) h' h''
    have hN0 := h.1
    exact this (N - 1) (by omega) hz1 (by omega)
  obtain ⟨i, hi, hi1, hi2⟩ := loc x h0 (hxy.trans h1)
  obtain ⟨j, hj, hj1, hj2⟩ := loc y (h0.trans hxy) h1
  rw [stepCumulative_eq h hi hi1 hi2, stepCumulative_eq h hj hj1 hj2]
  have ci : 0 ≤ (lam i + lam (i + 1)) / 2 := by have := hl i (by omega); have := hl (i+1) hi; linarith
  have cj : 0 ≤ (lam j + lam (j + 1)) / 2 := by have := hl j (by omega); have := hl (j+1) hj; linarith
  rcases lt_trichotomy i j with hij | rfl | hij
  · have hm := cumLam_mono h hl (show i + 1 ≤ j by omega) (by omega)
    rw [cumLam_succ, trapLam_eq] at hm
    have a : (x - tt i) * ((lam i + lam (i + 1)) / 2) ≤ (tt (i + 1) - tt i) * ((lam i + lam (i + 1)) / 2) := mul_le_mul_of_nonneg_right (by linarith) ci
    have b : 0 ≤ (y - tt j) * ((lam j + lam (j + 1)) / 2) := mul_nonneg (by linarith) cj
    linarith
  · have := mul_le_mul_of_nonneg_right (show x - tt i ≤ y - tt i by linarith) ci
    linarith
  · -- then x = y at a grid point
    have hm := grid_le h (show j + 1 ≤ i by omega) (by omega)
    have hxe : x = tt i := by linarith
    have hye : y = tt (j + 1) := by linarith
    have heq : tt (j + 1) = tt i := by linarith
    have hji : j + 1 = i := by
      by_contra hne
      have := h.2 (j + 1) (by omega)
      have := grid_le h (show j + 1 + 1 ≤ i by omega) (by omega)
      linarith
    subst hji
    rw [hxe, hye, cumLam_succ, trapLam_eq]
    linarith

/-- **C62.** For a strictly increasing grid, nonnegative rates and any outcome of the draws (numbers in `[0, intLam]`, none if the total rate is 0), the sampler raises nothing and stays on the grid; it returns one time per draw, in increasing order, within
the grid, and the expected number of events before the `n`-th time is the `n`-th smallest draw, for the rate that is on each grid interval the mean of the two grid values. -/
theorem C62_inverts_cumulative_rate {N : ℕ} {tt lam : Vec ℝ} (h : GridOk N tt) (hl : ∀ i < N, 0 ≤ lam i) {draws : List ℝ} (hd : ∀ q ∈ draws, 0 ≤ q ∧ q ≤ intLam N tt lam) (h0 : draws ≠ [] → 0 < intLam N tt lam) :
    ∃ ts, sampleInhomPoisson N tt lam draws = .ok ts ∧ ts.Pairwise (· ≤ ·) ∧ (∀ x ∈ ts, tt 0 ≤ x ∧ x ≤ tt (N - 1)) ∧ (ts.map (stepCumulative N tt lam)).Perm draws ∧ (ts.map (stepCumulative N tt lam)).Pairwise (· ≤ ·) := by
  classical
  have hperm := List.mergeSort_perm draws fun a b => decide (a ≤ b)
  have hsorted : (draws.mergeSort fun a b => decide (a ≤ b)).Pairwise (· ≤ ·) := by
    have := List.pairwise_mergeSort (le := fun a b : ℝ => decide (a ≤ b)) (fun a b c h1 h2 => by
      simp only [decide_eq_true_eq] at *; linarith) (fun a b => by
      simp only [Bool.or_eq_true, decide_eq_true_eq]; exact le_total _ _) draws
    exact this.imp fun h => by simpa using h
  have main : ∀ (qs : List ℝ) (off : ℕ) (acc : List ℝ) (lo : ℝ), qs.Pairwise (· ≤ ·) → (∀ q ∈ qs, 0 ≤ q ∧ q ≤ intLam N tt lam) → (qs ≠ [] → 0 < intLam N tt lam) → off < N → (∀ q ∈ qs, ∀ i < off, cumLam tt lam i < q) →
      tt 0 ≤ lo → lo ≤ tt off → (0 < off → tt (off - 1) < lo) → (∀ q ∈ qs, stepCumulative N tt lam lo ≤ q) →
      ∃ o ts, forListE qs (invertStep tt (cumLam tt lam) N) (off, acc) = .ok (o, acc ++ ts) ∧ ts.Pairwise (· ≤ ·) ∧ (∀ x ∈ ts, lo ≤ x ∧ x ≤ tt (N - 1)) ∧ ts.map (stepCumulative N tt lam) = qs := by
    intro qs
    induction qs with
    | nil => intro off acc lo _ _ _ _ _ _ _ _ _; exact ⟨off, [], by simp [forListE], by simp, by simp, rfl⟩
    | cons q qs ih =>
      intro off acc lo hs hq hp ho hoff hlo0 hlo1 hlo2 hlo3
      have hpos := hp (by simp)
      obtain ⟨o, x, e1, e2, e3, e4, e5, e6, e7⟩ := invert_one h hl (hq q (by simp)).1 (hq q (by simp)).2 hpos ho (hoff q (by simp)) acc
      have hs' := List.pairwise_cons.1 hs
      have hox : x ≤ tt o := by
        rcases e7 with ⟨e8, e9⟩ | ⟨_, _, e9⟩
        · rw [e8, e9]
        · exact e9
      have hlox : lo ≤ x := by
        by_contra hlt
        push Not at hlt
        -- the rate between x and lo must vanish, but both are in the same interval
        have hmono := stepCumulative_mono h hl hlt.le e4 (hlo1.trans (grid_le h (by omega) (by omega)))
        have hle := hlo3 q (by simp)
        have heq : stepCumulative N tt lam lo = q := le_antisymm hle (by rw [← e6]; exact hmono)
        -- the step of o: cum (o-1) < q so o is the least index with q ≤ cum o
        rcases e7 with ⟨e8, e9⟩ | ⟨e8, e9, e10⟩
        · -- x = tt 0 and o = 0, so off = 0 and lo ≤ tt 0
          have hoff0 : off = 0 := by
            by_contra hne
            have := hoff q (by simp) 0 (by omega)
            have hq0 := (hq q (by simp)).1
            have h6 : q ≤ 0 := by
              have : stepCumulative N tt lam (tt 0) = 0 := by unfold stepCumulative; simp
              rw [e9, this] at e6
              exact e6.symm.le
            have hc0 : cumLam tt lam 0 = 0 := by unfold cumLam; simp
            linarith
          rw [hoff0] at hlo1
          linarith
        · -- cum (o-1) < q = stepCum x with rate positive on interval o-1
          obtain ⟨k, rfl⟩ := Nat.exists_eq_succ_of_ne_zero e8.ne'
          rw [Nat.succ_sub_one] at e9
          rw [Nat.succ_eq_add_one] at *
          have hck := e3 k (by omega)
          have hx := stepCumulative_eq (lam := lam) h (j := k) (by omega) e9.le e10
          rw [e6] at hx
          have hrate : 0 < (lam k + lam (k + 1)) / 2 := by
            by_contra hle0
            push Not at hle0
            have : (x - tt k) * ((lam k + lam (k + 1)) / 2) ≤ 0 := mul_nonpos_of_nonneg_of_nonpos (by linarith) hle0
            linarith
          set y := min lo (tt (k + 1)) with hy
          rcases eq_or_lt_of_le e10 with h11 | h11
          · -- x is the grid point k+1; q = cum (k+1), so off ≤ k+1 and lo ≤ tt off ≤ tt (k+1)
            have hoff1 : off ≤ k + 1 := by
              by_contra hgt
              have := hoff q (by simp) (k + 1) (by omega)
              have hq1 : q = cumLam tt lam (k + 1) := by
                rw [cumLam_succ, trapLam_eq, hx, h11]
              linarith
            have := grid_le h hoff1 (by omega)
            linarith
          · have hy1 : x < y := lt_min hlt h11
            have hy2 : y ≤ tt (k + 1) := min_le_right _ _
            have hyv := stepCumulative_eq (lam := lam) h (j := k) (by omega) (e9.le.trans hy1.le) hy2
            have hym : stepCumulative N tt lam y ≤ stepCumulative N tt lam lo := stepCumulative_mono h hl (min_le_left _ _) (e4.trans hy1.le) (hlo1.trans (grid_le h (by omega) (by omega)))
            have : (x - tt k) * ((lam k + lam (k + 1)) / 2) < (y - tt k) * ((lam k + lam (k + 1)) / 2) := mul_lt_mul_of_pos_right (by linarith) hrate
            linarith
      obtain ⟨o', ts, f1, f2, f3, f4⟩ := ih o (acc ++ [x]) x hs'.2 (fun q hq' => hq q (List.mem_cons_of_mem _ hq')) (fun _ => hpos) e2 (fun q' hq' i hi => lt_of_lt_of_le (e3 i hi) (hs'.1 q' hq')) e4 hox (fun ho' => by
        rcases e7 with ⟨e8, _⟩ | ⟨_, e9, _⟩
        · omega
        · exact e9) (fun q' hq' => by rw [e6]; exact hs'.1 q' hq')
      refine ⟨o', x :: ts, ?_, ?_, ?_, ?_⟩
      · unfold forListE
        rw [e1]
        dsimp only
        rw [f1]
        simp
      · rw [List.pairwise_cons]
        exact ⟨fun y hy => (f3 y hy).1, f2⟩
      · intro y hy
        rcases List.mem_cons.1 hy with rfl | hy
        · exact ⟨hlox, e5⟩
        · exact ⟨hlox.trans (f3 y hy).1, (f3 y hy).2⟩
      · rw [List.map_cons, e6, f4]
  have hz : stepCumulative N tt lam (tt 0) = 0 := by unfold stepCumulative; simp
  obtain ⟨o, ts, e1, e2, e3, e4⟩ := main (draws.mergeSort fun a b => decide (a ≤ b)) 0 [] (tt 0) hsorted (fun q hq => hd q (hperm.mem_iff.1 hq)) (fun hne => h0 fun he => hne (by rw [he]; simp)) h.1 (fun _ _ i hi => absurd hi (Nat.not_lt_zero i)) le_rfl le_rfl
    (fun h => absurd h (lt_irrefl 0)) (fun q hq => by rw [hz]; exact (hd q (hperm.mem_iff.1 hq)).1)
  refine ⟨ts, ?_, e2, e3, by rw [e4]; exact hperm, by rw [e4]; exact hsorted⟩
  unfold sampleInhomPoisson
  rw [e1]
  simp

/-- a grid with unequal spacing, rates `1, 2, 0` and three draws meet the hypotheses -/
example : ∃ (tt lam : Vec ℝ) (draws : List ℝ), GridOk 3 tt ∧ (∀ i < 3, 0 ≤ lam i) ∧ (∀ q ∈ draws, 0 ≤ q ∧ q ≤ intLam 3 tt lam) ∧ 0 < intLam 3 tt lam ∧ draws.length = 3 := by
  refine ⟨fun i => if i = 2 then 3 else i, fun i => if i = 0 then 1 else if i = 1 then 2 else 0, [2, 0, 0.5], ⟨by norm_num, fun i hi => ?_⟩, fun i hi => ?_, fun q hq => ?_, ?_, rfl⟩
  · have : i = 0 ∨ i = 1 := by omega
    rcases this with rfl | rfl <;> norm_num
  · dsimp only; split_ifs <;> norm_num
  · have hv : intLam 3 (fun i => if i = 2 then 3 else i) (fun i => if i = 0 then 1 else if i = 1 then 2 else 0) = 3.5 := by
      unfold intLam cumLam trapLam
      norm_num [Finset.sum_range_succ]
    rw [hv]
    simp only [List.mem_cons, List.not_mem_nil, or_false] at hq
    rcases hq with rfl | rfl | rfl <;> norm_num
  · unfold intLam cumLam trapLam
    norm_num [Finset.sum_range_succ]

/-- **C62 (violated for a sloping rate).** The docstring's cumulative rate is the integral of the rate through the grid values. On the grid `0, 1` with rates `0, 2`, every draw `0 < q < 1` is mapped to a time whose integrated (linear) rate is `q ^ 2`, not `q`:
within a grid interval the rate is treated as constant. -/
theorem C62_sloping_rate_violated {q : ℝ} (h0 : 0 < q) (h1 : q < 1) :
    ∃ x, sampleInhomPoisson 2 (fun i => i) (fun i => 2 * i) [q] = .ok [x] ∧ ∫ y in (0:ℝ)..x, linearRate (fun i => (i : ℝ)) (fun i => 2 * (i : ℝ)) 0 y = q ^ 2 ∧ q ^ 2 ≠ q := by
  have hg : GridOk 2 (fun i => (i : ℝ)) := ⟨by norm_num, fun i _ => by push_cast; linarith⟩
  have hI : intLam 2 (fun i => (i : ℝ)) (fun i => 2 * (i : ℝ)) = 1 := by
    unfold intLam cumLam trapLam
    norm_num
  obtain ⟨ts, e1, _, e3, e4, _⟩ := C62_inverts_cumulative_rate hg (lam := fun i => 2 * (i : ℝ)) (fun i _ => by positivity) (draws := [q]) (fun q' hq' => by
    rw [List.mem_singleton.1 hq', hI]; exact ⟨h0.le, h1.le⟩) (fun _ => by rw [hI]; norm_num)
  have e4 := List.perm_singleton.1 e4
  obtain ⟨x, rfl⟩ : ∃ x, ts = [x] := by
    cases ts with
    | nil => simp at e4
    | cons x ts =>
      cases ts with
      | nil => exact ⟨x, rfl⟩
      | cons y ts => simp at e4
  obtain ⟨b1, b2⟩ := e3 x (by simp)
  have hx : stepCumulative 2 (fun i => (i : ℝ)) (fun i => 2 * (i : ℝ)) x = q := by simpa using e4
  rw [stepCumulative_eq hg (j := 0) (by norm_num) b1 (by simpa using b2)] at hx
  have hxq : x = q := by
    unfold cumLam at hx
    norm_num at hx
    exact hx
  refine ⟨x, e1, ?_, by nlinarith⟩
  have hl : ∀ y, linearRate (fun i => (i : ℝ)) (fun i => 2 * (i : ℝ)) 0 y = 2 * y := by
    intro y
    unfold linearRate
    norm_num
    ring
  simp only [hl]
  rw [intervalIntegral.integral_const_mul, integral_id, hxq]
  ring

end PyHawkes
