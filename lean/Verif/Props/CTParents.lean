import Verif.Spec.CT
import Verif.Props.Adjacency
/-!
# C25 - C29: continuous-time parents, statistics, rates
-/
set_option linter.unusedSectionVars false

namespace PyHawkes
open Finset Spec

theorem forListE_append {α σ : Type*} (xs ys : List α) (f : α → σ → Except PyErr σ) (s : σ) :
    forListE (xs ++ ys) f s = match forListE xs f s with
      | .error e => .error e
      | .ok s => forListE ys f s := by
  induction xs generalizing s with
  | nil => rfl
  | cons x xs ih =>
    simp only [List.cons_append, forListE]
    cases f x s with
    | error e => rfl
    | ok s' => simp only [ih]

/-- loop rule for a loop that does not raise -/
theorem forListE_inv {σ : Type*} (Q : ℕ → σ → Prop) (n : ℕ) (f : ℕ → σ → Except PyErr σ) (s : σ) (h0 : Q 0 s)
    (hs : ∀ i < n, ∀ s, Q i s → ∃ s', f i s = .ok s' ∧ Q (i + 1) s') : ∃ s', forListE (List.range n) f s = .ok s' ∧ Q n s' := by
  induction n with
  | zero => exact ⟨s, rfl, h0⟩
  | succ n ih =>
    obtain ⟨s1, h1, h2⟩ := ih fun i hi => hs i (by omega)
    obtain ⟨s2, h3, h4⟩ := hs n (by omega) s1 h2
    refine ⟨s2, ?_, h4⟩
    rw [List.range_succ, forListE_append, h1]
    simp only [forListE, h3]

/-! ### the kernel's weights -/

theorem lnImpulse_eq (s mu tau dtMax : ℝ) (h1 : 1e-8 ≤ s) (h2 : s ≤ dtMax - 1e-8) : lnImpulse s mu tau dtMax = impulse mu tau dtMax s := by
  unfold lnImpulse impulse cyLogit sqrt2pi
  rw [if_neg (not_lt.2 h1), if_neg (by linarith)]

theorem impulse_pos (s mu tau dtMax : ℝ) (ht : 0 < tau) (h1 : 0 < s) (h2 : s < dtMax) : 0 < impulse mu tau dtMax s := by
  unfold impulse
  have : 0 < dtMax := h1.trans h2
  have h3 : 0 < dtMax - s := by linarith
  have := Real.sqrt_pos.2 ht
  have := Real.exp_pos (-tau / 2 * (Real.log (s / dtMax / (1 - s / dtMax)) - mu) ^ 2)
  positivity

theorem parWeight_eq (P : CTParams) (D : CTData) (n m : ℕ) (h1 : 1e-8 ≤ D.S n - D.S m) (h2 : D.S n - D.S m ≤ P.dtMax - 1e-8) :
    parWeight P D n m = contribution P D n m := by
  unfold parWeight contribution CTParams.Weff
  dsimp only
  rw [if_pos ⟨h1, h2⟩, lnImpulse_eq _ _ _ _ h1 h2]

theorem contribution_zero (P : CTParams) (D : CTData) (n m : ℕ) (h : D.S n - D.S m < 1e-8 ∨ P.dtMax - 1e-8 < D.S n - D.S m) :
    contribution P D n m = 0 := by
  unfold contribution
  dsimp only
  rw [if_neg]
  rintro ⟨a, b⟩
  rcases h with h | h <;> linarith

theorem contribution_nonneg (P : CTParams) (D : CTData) (hP : CTOk P) (hL : LabelsOk P.K D) (n m : ℕ) (hn : n < D.N) (hm : m < D.N) :
    0 ≤ contribution P D n m := by
  unfold contribution
  dsimp only
  split_ifs with h
  · have h1 : (0:ℝ) < 1e-8 := by norm_num
    exact mul_nonneg (hP.W _ (hL m hm) _ (hL n hn)) (impulse_pos _ _ _ _ (hP.tau _ (hL m hm) _ (hL n hn)) (by linarith) (by linarith)).le
  · exact le_rfl

theorem contribution_pos (P : CTParams) (D : CTData) (n m : ℕ) (h : 0 < contribution P D n m) (hP : CTOk P) (hL : LabelsOk P.K D)
    (hn : n < D.N) (hm : m < D.N) :
    1e-8 ≤ D.S n - D.S m ∧ D.S n - D.S m ≤ P.dtMax - 1e-8 ∧ 0 < P.A (D.C m) (D.C n) * P.W (D.C m) (D.C n) := by
  unfold contribution at h
  dsimp only at h
  split_ifs at h with hw
  · have h1 : (0:ℝ) < 1e-8 := by norm_num
    have := impulse_pos (D.S n - D.S m) (P.mu (D.C m) (D.C n)) _ P.dtMax (hP.tau _ (hL m hm) _ (hL n hn)) (by linarith) (by linarith)
    exact ⟨hw.1, hw.2, pos_of_mul_pos_left h this.le⟩
  · exact absurd h (lt_irrefl _)

theorem totalRate_pos (P : CTParams) (D : CTData) (hP : CTOk P) (hL : LabelsOk P.K D) (n : ℕ) (hn : n < D.N) : 0 < totalRate P D n := by
  unfold totalRate
  exact add_pos_of_pos_of_nonneg (hP.lam0 _ (hL n hn))
    (sum_nonneg fun m hm => contribution_nonneg P D hP hL n m hn ((mem_range.1 hm).trans hn))

/-! ### C27: the backward scan -/

theorem backScan_spec (P : CTParams) (D : CTData) (hS : SortedTimes D) (n : ℕ) (hn : n < D.N) (m : ℕ) (hm : m ≤ n) (d : ℝ) (q : ℕ) :
    (backScan P D n m d q).1 = d + ∑ j ∈ range m, contribution P D n j ∧
    (0 < m → (backScan P D n m d q).2 < m) ∧ (m = 0 → (backScan P D n m d q).2 = q) ∧
    (0 < m → ∀ j < (backScan P D n m d q).2, contribution P D n j = 0) := by
  induction m generalizing d q with
  | zero => simp [backScan]
  | succ m ih =>
    unfold backScan
    dsimp only
    have key : ∀ d, (backScan P D n m d m).2 ≤ m := fun d => by
      rcases Nat.eq_zero_or_pos m with h | h
      · exact ((ih (by omega) d m).2.2.1 h).le
      · exact ((ih (by omega) d m).2.1 h).le
    have key2 : ∀ d, ∀ j < (backScan P D n m d m).2, contribution P D n j = 0 := fun d j hj => by
      rcases Nat.eq_zero_or_pos m with h | h
      · rw [(ih (by omega) d m).2.2.1 h] at hj; omega
      · exact (ih (by omega) d m).2.2.2 h j hj
    split_ifs with h1 h2
    · refine ⟨?_, fun _ => Nat.lt_succ_of_le (key d), fun h => h.elim, fun _ => key2 d⟩
      rw [(ih (by omega) d m).1, sum_range_succ, contribution_zero P D n m (Or.inl h1), add_zero]
    · have hz : ∀ j ≤ m, contribution P D n j = 0 := fun j hj =>
        contribution_zero P D n j (Or.inr (by have := hS j m hj (by omega); linarith))
      refine ⟨?_, fun _ => Nat.lt_succ_self m, fun h => h.elim, fun _ j hj => hz j (le_of_lt hj)⟩
      dsimp only
      rw [sum_eq_zero fun j hj => hz j (by have := mem_range.1 hj; omega), add_zero]
    · have h3 := parWeight_eq P D n m (not_lt.1 h1) (not_lt.1 h2)
      refine ⟨?_, fun _ => Nat.lt_succ_of_le (key _), fun h => h.elim, fun _ => key2 _⟩
      rw [(ih (by omega) _ m).1, h3, sum_range_succ]
      ring

/-- **C27.** When event times are sorted, the backward scan that stops at the first event older than the window accumulates exactly the total rate: background plus
the contributions of *all* earlier events. -/
theorem C27_early_termination (P : CTParams) (D : CTData) (hS : SortedTimes D) (n : ℕ) (hn : n < D.N) :
    (backScan P D n n (P.lam0 (D.C n)) 0).1 = totalRate P D n := (backScan_spec P D hS n hn n le_rfl _ _).1

/-- three events out of order: times 2, 0, 2.5 -/
noncomputable def unsortedData : CTData := { N := 3, S := fun n => if n = 0 then 2 else if n = 1 then 0 else 5/2, C := fun _ => 0, T := 10, bkgd := fun _ => 0 }
/-- one self-exciting process with a window of length 1 -/
noncomputable def demoParams : CTParams := { K := 1, dtMax := 1, lam0 := fun _ => 1, W := fun _ _ => 1, A := fun _ _ => 1, mu := fun _ _ => 0, tau := fun _ _ => 1 }

theorem demoParams_ok : CTOk demoParams :=
  ⟨by norm_num [demoParams], by intros; norm_num [demoParams], by intros; norm_num [demoParams], by intros; norm_num [demoParams]⟩

/-- **C27 (sorting is needed).** For events out of order the scan misses contributions. -/
theorem C27_sorting_needed : (backScan demoParams unsortedData 2 2 (demoParams.lam0 (unsortedData.C 2)) 0).1 < totalRate demoParams unsortedData 2 := by
  have hb : (backScan demoParams unsortedData 2 2 (demoParams.lam0 (unsortedData.C 2)) 0).1 = 1 := by
    simp only [backScan]
    norm_num [demoParams, unsortedData]
  rw [hb]
  unfold totalRate
  rw [sum_range_succ, sum_range_one]
  have h1 : contribution demoParams unsortedData 2 1 = 0 := contribution_zero _ _ _ _ (Or.inr (by norm_num [demoParams, unsortedData]))
  have h0 : 0 < contribution demoParams unsortedData 2 0 := by
    unfold contribution
    dsimp only
    rw [if_pos (by constructor <;> norm_num [demoParams, unsortedData])]
    refine mul_pos (by norm_num [demoParams]) (impulse_pos _ _ _ _ ?_ ?_ ?_) <;> norm_num [demoParams, unsortedData]
  rw [h1]
  norm_num [demoParams] at h0 ⊢
  linarith

/-! ### C26: the forward scan -/

theorem fwdScan_cases (P : CTParams) (D : CTData) (n : ℕ) (u d : ℝ)
    (len a : ℕ) (ha : a + len ≤ n) (acc : ℝ) (hacc : acc ≤ u) :
    (∃ m : ℕ, a ≤ m ∧ m < a + len ∧ fwdScan P D n u d (List.range' a len) acc = m ∧ acc + (∑ j ∈ Ico a m, contribution P D n j) / d ≤ u ∧
      u < acc + (∑ j ∈ Ico a (m + 1), contribution P D n j) / d) ∨
    (fwdScan P D n u d (List.range' a len) acc = -2 ∧ acc + (∑ j ∈ Ico a (a + len), contribution P D n j) / d ≤ u) := by
  induction len generalizing a acc with
  | zero => right; simpa [fwdScan] using hacc
  | succ len ih =>
    rw [List.range'_succ]
    unfold fwdScan
    dsimp only
    have step : ∀ acc' : ℝ, acc' = acc + contribution P D n a / d → acc' ≤ u →
        (∃ m : ℕ, a ≤ m ∧ m < a + (len + 1) ∧ fwdScan P D n u d (List.range' (a + 1) len) acc' = m ∧ acc + (∑ j ∈ Ico a m, contribution P D n j) / d ≤ u ∧
          u < acc + (∑ j ∈ Ico a (m + 1), contribution P D n j) / d) ∨
        (fwdScan P D n u d (List.range' (a + 1) len) acc' = -2 ∧ acc + (∑ j ∈ Ico a (a + (len + 1)), contribution P D n j) / d ≤ u) := by
      intro acc' he hle
      have hsplit : ∀ b, a + 1 ≤ b → acc + (∑ j ∈ Ico a b, contribution P D n j) / d = acc' + (∑ j ∈ Ico (a + 1) b, contribution P D n j) / d := by
        intro b hb
        rw [sum_eq_sum_Ico_succ_bot (by omega), he]; ring
      rcases ih (a + 1) (by omega) acc' hle with ⟨m, h1, h2, h3, h4, h5⟩ | ⟨h1, h2⟩
      · left
        refine ⟨m, by omega, by omega, h3, ?_, ?_⟩
        · rw [hsplit m h1]; exact h4
        · rw [hsplit (m + 1) (by omega)]; exact h5
      · right
        refine ⟨h1, ?_⟩
        rw [hsplit _ (by omega)]
        have : a + (len + 1) = a + 1 + len := by omega
        rw [this]; exact h2
    split_ifs with h1 h2 h3
    · exact step acc (by rw [contribution_zero P D n a (Or.inl h1)]; simp) hacc
    · left
      refine ⟨a, le_rfl, by omega, rfl, by simpa using hacc, ?_⟩
      rw [parWeight_eq P D n a (not_lt.1 h1) h2] at h3
      simpa using h3
    · rw [parWeight_eq P D n a (not_lt.1 h1) h2] at h3 ⊢
      exact step _ rfl (not_lt.1 h3)
    · exact step acc (by rw [contribution_zero P D n a (Or.inr (not_le.1 h2))]; simp) hacc

/-- probability mass of background and of the first `m` events as parents of event `n` -/
noncomputable def cumProb (P : CTParams) (D : CTData) (n m : ℕ) : ℝ := (P.lam0 (D.C n) + ∑ j ∈ range m, contribution P D n j) / totalRate P D n

/-- which parent a uniform draw selects -/
theorem resampleOne_cases (P : CTParams) (D : CTData) (hP : CTOk P) (hL : LabelsOk P.K D) (hS : SortedTimes D) (n : ℕ) (hn : n < D.N)
    (u : Vec ℝ) (hu1 : u n < 1) :
    (resampleOne P D u n = .ok (-1) ∧ u n < cumProb P D n 0) ∨
    ∃ m < n, resampleOne P D u n = .ok (m : ℤ) ∧ cumProb P D n m ≤ u n ∧ u n < cumProb P D n (m + 1) := by
  have hpos := totalRate_pos P D hP hL n hn
  unfold resampleOne
  split_ifs with h0
  · left
    subst h0
    refine ⟨rfl, ?_⟩
    unfold cumProb
    have : totalRate P D 0 = P.lam0 (D.C 0) + ∑ j ∈ range 0, contribution P D 0 j := rfl
    rw [← this, div_self hpos.ne']
    exact hu1
  · dsimp only
    obtain ⟨b1, b2, -, b4⟩ := backScan_spec P D hS n hn n le_rfl (P.lam0 (D.C n)) 0
    have hden : (backScan P D n n (P.lam0 (D.C n)) 0).1 = totalRate P D n := b1
    rw [hden, if_neg hpos.ne']
    have hq := b2 (by omega)
    have hz := b4 (by omega)
    clear b1 b2 b4
    generalize (backScan P D n n (P.lam0 (D.C n)) 0).2 = q at hq hz
    have hsum : ∀ b, q ≤ b → ∑ j ∈ range b, contribution P D n j = ∑ j ∈ Ico q b, contribution P D n j := by
      intro b hb
      rw [range_eq_Ico, ← sum_Ico_consecutive _ (Nat.zero_le q) hb, sum_eq_zero (s := Ico 0 q) fun j hj => hz j (mem_Ico.1 hj).2, zero_add]
    split_ifs with h
    · left; exact ⟨rfl, by simpa [cumProb] using h⟩
    · right
      rcases fwdScan_cases P D n (u n) _ (n - q) q (by omega) _ (not_lt.1 h) with ⟨m, c1, c2, c3, c4, c5⟩ | ⟨c1, c2⟩
      · refine ⟨m, by omega, by rw [c3], ?_, ?_⟩
        · unfold cumProb; rw [hsum m c1, add_div]; exact c4
        · unfold cumProb; rw [hsum (m + 1) (by omega), add_div]; exact c5
      · exfalso
        have hqn : q + (n - q) = n := by omega
        rw [hqn, ← hsum n hq.le, ← add_div] at c2
        have : (P.lam0 (D.C n) + ∑ j ∈ range n, contribution P D n j) / totalRate P D n = 1 := div_self hpos.ne'
        linarith

theorem cumProb_mono (P : CTParams) (D : CTData) (hP : CTOk P) (hL : LabelsOk P.K D) (n : ℕ) (hn : n < D.N) {a b : ℕ} (hab : a ≤ b) (hb : b ≤ n) :
    cumProb P D n a ≤ cumProb P D n b := by
  unfold cumProb
  have hpos := totalRate_pos P D hP hL n hn
  refine div_le_div_of_nonneg_right ?_ hpos.le
  refine add_le_add_right (sum_le_sum_of_subset_of_nonneg (range_subset_range.2 hab) fun j hj _ => ?_) _
  exact contribution_nonneg P D hP hL n j hn (by have := mem_range.1 hj; omega)

theorem cumProb_top (P : CTParams) (D : CTData) (hP : CTOk P) (hL : LabelsOk P.K D) (n : ℕ) (hn : n < D.N) : cumProb P D n n = 1 :=
  div_self (totalRate_pos P D hP hL n hn).ne'

theorem cumProb_zero_nonneg (P : CTParams) (D : CTData) (hP : CTOk P) (hL : LabelsOk P.K D) (n : ℕ) (hn : n < D.N) : 0 ≤ cumProb P D n 0 := by
  unfold cumProb
  rw [sum_range_zero, add_zero]
  exact (div_pos (hP.lam0 _ (hL n hn)) (totalRate_pos P D hP hL n hn)).le

/-- the parent that draw `x` selects for event `n` -/
noncomputable def selParent (P : CTParams) (D : CTData) (n : ℕ) (x : ℝ) : ℤ :=
  match resampleOne P D (fun _ => x) n with
  | .ok z => z
  | .error _ => -2

theorem resampleOne_local (P : CTParams) (D : CTData) (u v : Vec ℝ) (n : ℕ) (h : u n = v n) : resampleOne P D u n = resampleOne P D v n := by
  unfold resampleOne; rw [h]

theorem resampleOne_sel (P : CTParams) (D : CTData) (hP : CTOk P) (hL : LabelsOk P.K D) (hS : SortedTimes D) (n : ℕ) (hn : n < D.N)
    (u : Vec ℝ) (hu1 : u n < 1) : resampleOne P D u n = .ok (selParent P D n (u n)) := by
  unfold selParent
  rw [resampleOne_local P D (fun _ => u n) u n rfl]
  rcases resampleOne_cases P D hP hL hS n hn u hu1 with ⟨h, -⟩ | ⟨m, -, h, -⟩ <;> rw [h]

theorem sel_bkgd_iff (P : CTParams) (D : CTData) (hP : CTOk P) (hL : LabelsOk P.K D) (hS : SortedTimes D) (n : ℕ) (hn : n < D.N) (x : ℝ) (hx : x < 1) :
    selParent P D n x = -1 ↔ x < cumProb P D n 0 := by
  unfold selParent
  rcases resampleOne_cases P D hP hL hS n hn (fun _ => x) hx with ⟨h, h1⟩ | ⟨m, hm, h, h1, h2⟩
  · rw [h]; simpa using h1
  · rw [h]
    have := cumProb_mono P D hP hL n hn (Nat.zero_le m) hm.le
    constructor
    · intro h; exfalso; dsimp only at h; omega
    · intro h; linarith

theorem sel_parent_iff (P : CTParams) (D : CTData) (hP : CTOk P) (hL : LabelsOk P.K D) (hS : SortedTimes D) (n : ℕ) (hn : n < D.N) (x : ℝ) (hx : x < 1)
    (m : ℕ) (hm : m < n) : selParent P D n x = (m : ℤ) ↔ cumProb P D n m ≤ x ∧ x < cumProb P D n (m + 1) := by
  unfold selParent
  rcases resampleOne_cases P D hP hL hS n hn (fun _ => x) hx with ⟨h, h1⟩ | ⟨i, hi, h, h1, h2⟩
  · rw [h]
    have := cumProb_mono P D hP hL n hn (Nat.zero_le m) hm.le
    constructor
    · intro h; exfalso; dsimp only at h; omega
    · rintro ⟨a, b⟩; linarith
  · rw [h]
    dsimp only
    constructor
    · intro h; have : i = m := by exact_mod_cast h
      subst this; exact ⟨h1, h2⟩
    · rintro ⟨a, b⟩
      rcases lt_trichotomy i m with h | h | h
      · have := cumProb_mono P D hP hL n hn (show i + 1 ≤ m by omega) hm.le; linarith
      · rw [h]
      · have := cumProb_mono P D hP hL n hn (show m + 1 ≤ i by omega) hi.le; linarith

theorem sel_valid (P : CTParams) (D : CTData) (hP : CTOk P) (hL : LabelsOk P.K D) (hS : SortedTimes D) (n : ℕ) (hn : n < D.N) (x : ℝ) (hx : x < 1) :
    ValidParent P D n (selParent P D n x) := by
  have hr := resampleOne_cases P D hP hL hS n hn (fun _ => x) hx
  rcases hr with ⟨h, h1⟩ | ⟨m, hm, h, h1, h2⟩
  · left; unfold selParent; rw [h]
  · right
    refine ⟨m, by unfold selParent; rw [h], hm, ?_⟩
    have hpos := totalRate_pos P D hP hL n hn
    refine contribution_pos P D n m ?_ hP hL hn (hm.trans hn)
    have h3 := h1.trans_lt h2
    unfold cumProb at h3
    rw [div_lt_div_iff_of_pos_right hpos, sum_range_succ] at h3
    linarith

open MeasureTheory in
theorem sel_prob (P : CTParams) (D : CTData) (hP : CTOk P) (hL : LabelsOk P.K D) (hS : SortedTimes D) (n : ℕ) (hn : n < D.N) (m : ℕ) (hm : m < n) :
    volume {x : ℝ | 0 ≤ x ∧ x < 1 ∧ selParent P D n x = (m : ℤ)} = ENNReal.ofReal (contribution P D n m / totalRate P D n) := by
  have : {x : ℝ | 0 ≤ x ∧ x < 1 ∧ selParent P D n x = (m : ℤ)} = Set.Ico (cumProb P D n m) (cumProb P D n (m + 1)) := by
    ext x
    simp only [Set.mem_ofPred_eq, Set.mem_Ico]
    constructor
    · rintro ⟨-, h1, h2⟩; exact (sel_parent_iff P D hP hL hS n hn x h1 m hm).1 h2
    · rintro ⟨h1, h2⟩
      have hx1 : x < 1 := h2.trans_le ((cumProb_mono P D hP hL n hn (show m + 1 ≤ n by omega) le_rfl).trans (cumProb_top P D hP hL n hn).le)
      exact ⟨(cumProb_zero_nonneg P D hP hL n hn).trans ((cumProb_mono P D hP hL n hn (Nat.zero_le m) hm.le).trans h1), hx1,
        (sel_parent_iff P D hP hL hS n hn x hx1 m hm).2 ⟨h1, h2⟩⟩
  rw [this, Real.volume_Ico]
  congr 1
  unfold cumProb
  rw [← sub_div, sum_range_succ]
  congr 1
  ring

open MeasureTheory in
theorem sel_prob_bkgd (P : CTParams) (D : CTData) (hP : CTOk P) (hL : LabelsOk P.K D) (hS : SortedTimes D) (n : ℕ) (hn : n < D.N) :
    volume {x : ℝ | 0 ≤ x ∧ x < 1 ∧ selParent P D n x = -1} = ENNReal.ofReal (P.lam0 (D.C n) / totalRate P D n) := by
  have h1 : cumProb P D n 0 ≤ 1 := (cumProb_mono P D hP hL n hn (Nat.zero_le n) le_rfl).trans (cumProb_top P D hP hL n hn).le
  have : {x : ℝ | 0 ≤ x ∧ x < 1 ∧ selParent P D n x = -1} = {x : ℝ | 0 ≤ x ∧ x < 1 ∧ x < cumProb P D n 0} := by
    ext x
    simp only [Set.mem_ofPred_eq]
    exact and_congr_right fun _ => and_congr_right fun hx => sel_bkgd_iff P D hP hL hS n hn x hx
  rw [this, volume_uniform _ h1]
  simp [cumProb]

/-! ### schedules of the parallel loop -/

theorem parSched_run (P : CTParams) (D : CTData) (u : Vec ℝ) (sel : ℕ → ℤ) (h : ∀ n < D.N, resampleOne P D u n = .ok (sel n)) (sched : List ℕ)
    (hin : ∀ n ∈ sched, n < D.N) (st : ParState) :
    ∃ st', forListE sched (parStep P D u) st = .ok st' ∧
      ∀ n, (∀ n, st.pc n ≤ 2) → (∀ n, st.pc n = 2 → st.Z n = sel n) →
        (st'.pc n = min 2 (st.pc n + sched.count n)) ∧ (st'.pc n = 2 → st'.Z n = sel n) ∧ (sched.count n = 0 → st'.Z n = st.Z n) := by
  induction sched generalizing st with
  | nil =>
    refine ⟨st, rfl, fun n h1 h2 => ⟨?_, h2 n, fun _ => rfl⟩⟩
    have := h1 n; simp; omega
  | cons a sched ih =>
    have ha := hin a (by simp)
    have hr := h a ha
    have hstep : ∃ st1, parStep P D u a st = .ok st1 ∧ ((∀ n, st.pc n ≤ 2) → (∀ n, st.pc n = 2 → st.Z n = sel n) →
        (∀ n, st1.pc n = if n = a then min 2 (st.pc n + 1) else st.pc n) ∧ (∀ n, st1.pc n = 2 → st1.Z n = sel n) ∧ ∀ n, n ≠ a → st1.Z n = st.Z n) := by
      unfold parStep
      split_ifs with h0 h1
      · refine ⟨_, rfl, fun _ k => ⟨fun n => ?_, fun n hn => ?_, fun n hn => by simp [Vec.set, hn]⟩⟩
        · simp only [Vec.set]; split_ifs with e
          · subst e; simp [h0]
          · rfl
        · simp only [Vec.set] at hn ⊢; split_ifs at hn ⊢ with e
          · omega
          · exact k n hn
      · rw [hr]
        refine ⟨_, rfl, fun _ k => ⟨fun n => ?_, fun n hn => ?_, fun n hn => by simp [Vec.set, hn]⟩⟩
        · simp only [Vec.set]; split_ifs with e
          · subst e; simp [h1]
          · rfl
        · simp only [Vec.set] at hn ⊢; split_ifs at hn ⊢ with e
          · rw [e]
          · exact k n hn
      · refine ⟨_, rfl, fun k k2 => ⟨fun n => ?_, k2, fun n _ => rfl⟩⟩
        have := k a
        split_ifs with e
        · subst e; omega
        · rfl
    obtain ⟨st1, e1, f1⟩ := hstep
    obtain ⟨st2, e2, f2⟩ := ih (fun n hn => hin n (by simp [hn])) st1
    refine ⟨st2, by simp only [forListE, e1, e2], fun n k1 k2 => ?_⟩
    obtain ⟨g1, g2, g3⟩ := f1 k1 k2
    have hk1 : ∀ n, st1.pc n ≤ 2 := fun n => by rw [g1 n]; split_ifs; exact min_le_left _ _; exact k1 n
    obtain ⟨m1, m2, m3⟩ := f2 n hk1 g2
    refine ⟨?_, m2, fun hc => ?_⟩
    · rw [m1, g1 n, List.count_cons]
      have := k1 n
      by_cases e : n = a
      · subst e; simp; omega
      · have e2 : (a == n) = false := by simp; exact fun h => e h.symm
        rw [if_neg e, e2]; simp
    · rw [List.count_cons] at hc
      have hne : n ≠ a := by
        intro e; subst e; simp at hc
      rw [m3 (by omega), g3 n hne]

/-- under any complete schedule the kernel stores the selected parents -/
theorem ctResamplePar_eq (P : CTParams) (D : CTData) (hP : CTOk P) (hL : LabelsOk P.K D) (hS : SortedTimes D) (u : Vec ℝ) (hu : ∀ n < D.N, u n < 1)
    (sched : List ℕ) (hsched : CompleteSchedule D.N sched) (Z0 : ℕ → ℤ) :
    ∃ Z, ctResamplePar P D u sched Z0 = .ok Z ∧ (∀ n < D.N, Z n = selParent P D n (u n)) ∧ ∀ n, D.N ≤ n → Z n = Z0 n := by
  obtain ⟨st, h1, h2⟩ := parSched_run P D u (fun n => selParent P D n (u n)) (fun n hn => resampleOne_sel P D hP hL hS n hn u (hu n hn)) sched hsched.1
    ⟨fun _ => 0, Z0⟩
  refine ⟨st.Z, by unfold ctResamplePar; rw [h1], fun n hn => ?_, fun n hn => ?_⟩
  · obtain ⟨a, b, -⟩ := h2 n (by intro; simp) (by simp)
    refine b ?_
    have := hsched.2 n hn
    simp only at a
    omega
  · obtain ⟨-, -, c⟩ := h2 n (by intro; simp) (by simp)
    exact c (List.count_eq_zero.2 fun hm => absurd (hsched.1 n hm) (by omega))

/-! ### the serial kernel -/

theorem backScanBuf_spec (P : CTParams) (D : CTData) (n : ℕ) (m : ℕ) (p : Vec ℝ) (d : ℝ) (q : ℕ) :
    (backScanBuf P D n m p d q).2 = backScan P D n m d q ∧
    ∀ j, (m ≤ j → (backScanBuf P D n m p d q).1 j = p j) ∧
      (j < m → (backScan P D n m d q).2 ≤ j → (backScanBuf P D n m p d q).1 j = contribution P D n j) := by
  induction m generalizing p d q with
  | zero => exact ⟨rfl, fun j => ⟨fun _ => rfl, by omega⟩⟩
  | succ m ih =>
    unfold backScanBuf backScan
    dsimp only
    split_ifs with h1 h2
    · obtain ⟨a, b⟩ := ih (Vec.set p m 0) d m
      refine ⟨a, fun j => ⟨fun hj => ?_, fun hj hq => ?_⟩⟩
      · rw [(b j).1 (by omega)]; simp [Vec.set]; omega
      · rcases Nat.lt_or_ge j m with h | h
        · exact (b j).2 h hq
        · have : j = m := by omega
          subst this
          rw [(b j).1 le_rfl, contribution_zero P D n j (Or.inl h1)]; simp [Vec.set]
    · refine ⟨rfl, fun j => ⟨fun hj => ?_, fun hj hq => ?_⟩⟩
      · simp [Vec.set]; omega
      · have : j = m := by dsimp only at hq; omega
        subst this
        rw [contribution_zero P D n j (Or.inr h2)]; simp [Vec.set]
    · obtain ⟨a, b⟩ := ih (Vec.set p m (parWeight P D n m)) (d + parWeight P D n m) m
      refine ⟨a, fun j => ⟨fun hj => ?_, fun hj hq => ?_⟩⟩
      · rw [(b j).1 (by omega)]; simp [Vec.set]; omega
      · rcases Nat.lt_or_ge j m with h | h
        · exact (b j).2 h hq
        · have : j = m := by omega
          subst this
          rw [(b j).1 le_rfl, ← parWeight_eq P D n j (not_lt.1 h1) (not_lt.1 h2)]; simp [Vec.set]

theorem fwdScanBuf_eq (P : CTParams) (D : CTData) (n : ℕ) (p : Vec ℝ) (u d : ℝ) (l : List ℕ) (acc : ℝ) (hacc : acc ≤ u)
    (h : ∀ j ∈ l, p j = contribution P D n j) : fwdScanBuf p u d l acc = fwdScan P D n u d l acc := by
  induction l generalizing acc with
  | nil => rfl
  | cons j l ih =>
    unfold fwdScanBuf fwdScan
    dsimp only
    rw [h j (by simp)]
    have hl : ∀ i ∈ l, p i = contribution P D n i := fun i hi => h i (by simp [hi])
    by_cases h1 : D.S n - D.S j < 1e-8
    · rw [if_pos h1, contribution_zero P D n j (Or.inl h1), zero_div, add_zero, if_neg (not_lt.2 hacc), ih acc hacc hl]
    · rw [if_neg h1]
      by_cases h2 : D.S n - D.S j ≤ P.dtMax - 1e-8
      · rw [if_pos h2, parWeight_eq P D n j (not_lt.1 h1) h2]
        split_ifs with h3
        · rfl
        · exact ih _ (not_lt.1 h3) hl
      · rw [if_neg h2, contribution_zero P D n j (Or.inr (not_le.1 h2)), zero_div, add_zero, if_neg (not_lt.2 hacc), ih acc hacc hl]

theorem serialStep_eq (P : CTParams) (D : CTData) (u : Vec ℝ) (n : ℕ) (st : Vec ℝ × (ℕ → ℤ)) (z : ℤ) (h : resampleOne P D u n = .ok z) :
    ∃ p, serialStep P D u n st = .ok (p, Vec.set st.2 n z) := by
  unfold resampleOne at h
  unfold serialStep
  split_ifs at h ⊢ with h0
  · cases h; exact ⟨_, rfl⟩
  · dsimp only at h ⊢
    obtain ⟨a, b⟩ := backScanBuf_spec P D n n st.1 (P.lam0 (D.C n)) 0
    rw [a]
    split_ifs at h ⊢ with h1 h2
    · cases h; exact ⟨_, rfl⟩
    · rw [fwdScanBuf_eq P D n _ _ _ _ _ (not_lt.1 h2) (fun j hj => ?_)]
      · cases h; exact ⟨_, rfl⟩
      · obtain ⟨i, hi, rfl⟩ := List.mem_range'.1 hj
        exact (b _).2 (by omega) (by omega)

theorem ctResampleSerial_eq (P : CTParams) (D : CTData) (hP : CTOk P) (hL : LabelsOk P.K D) (hS : SortedTimes D) (u : Vec ℝ) (hu : ∀ n < D.N, u n < 1)
    (Z0 : ℕ → ℤ) : ∃ Z, ctResampleSerial P D u Z0 = .ok Z ∧ ∀ n < D.N, Z n = selParent P D n (u n) := by
  obtain ⟨st, h1, h2⟩ := forListE_inv (fun i (st : Vec ℝ × (ℕ → ℤ)) => ∀ n < i, st.2 n = selParent P D n (u n)) D.N (serialStep P D u) (fun _ => 0, Z0)
    (by simp) (by
      intro i hi st hst
      obtain ⟨p, hp⟩ := serialStep_eq P D u i st _ (resampleOne_sel P D hP hL hS i hi u (hu i hi))
      refine ⟨_, hp, fun n hn => ?_⟩
      simp only [Vec.set]
      split_ifs with e
      · rw [e]
      · exact hst n (by omega))
  exact ⟨st.2, by unfold ctResampleSerial; rw [h1], h2⟩

/-- **C26.** For sorted events and a model with positive background rates there is one selection rule `sel` such that, for all uniform draws in [0,1), the parallel kernel under every
complete schedule and the serial kernel both store `sel n (u n)` as parent of every event `n`, whatever `Z` held before; `sel` only returns background or an earlier event whose lag is in
the window and whose edge has positive effective weight; and the set of draws that select a given parent has probability equal to that parent's rate over the total rate. -/
theorem C26_parents (P : CTParams) (D : CTData) (hP : CTOk P) (hL : LabelsOk P.K D) (hS : SortedTimes D) :
    ∃ sel : ℕ → ℝ → ℤ,
      (∀ u : Vec ℝ, (∀ n < D.N, 0 ≤ u n ∧ u n < 1) → ∀ Z0,
        (∀ sched, CompleteSchedule D.N sched → ∃ Z, ctResamplePar P D u sched Z0 = .ok Z ∧ ∀ n < D.N, Z n = sel n (u n)) ∧
        (∃ Z, ctResampleSerial P D u Z0 = .ok Z ∧ ∀ n < D.N, Z n = sel n (u n))) ∧
      (∀ n < D.N, ∀ x, 0 ≤ x → x < 1 → ValidParent P D n (sel n x)) ∧
      (∀ n < D.N, MeasureTheory.volume {x : ℝ | 0 ≤ x ∧ x < 1 ∧ sel n x = -1} = ENNReal.ofReal (P.lam0 (D.C n) / totalRate P D n)) ∧
      (∀ n < D.N, ∀ m < n, MeasureTheory.volume {x : ℝ | 0 ≤ x ∧ x < 1 ∧ sel n x = (m : ℤ)} = ENNReal.ofReal (contribution P D n m / totalRate P D n)) := by
  refine ⟨selParent P D, fun u hu Z0 => ⟨fun sched hs => ?_, ctResampleSerial_eq P D hP hL hS u (fun n hn => (hu n hn).2) Z0⟩,
    fun n hn x _ hx => sel_valid P D hP hL hS n hn x hx, fun n hn => sel_prob_bkgd P D hP hL hS n hn, fun n hn m hm => sel_prob P D hP hL hS n hn m hm⟩
  obtain ⟨Z, h1, h2, -⟩ := ctResamplePar_eq P D hP hL hS u (fun n hn => (hu n hn).2) sched hs Z0
  exact ⟨Z, h1, h2⟩

end PyHawkes
