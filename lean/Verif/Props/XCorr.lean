import Verif.Model.XCorr
import Verif.Spec.XCorr
import Verif.Props.CTParents
import Mathlib.Algebra.Order.BigOperators.Ring.Finset
import Mathlib.Algebra.BigOperators.Field

/-!
# Cross-correlation does not depend on chunking (C63), moving average (C64)
-/

set_option linter.unusedSectionVars false
set_option linter.unusedVariables false

namespace PyHawkes
open Finset Spec

/-! ### C64 -/

/-- **C64.** For a window of at least one row, the moving average of `T` rows has `T - window + 1` rows (none if the window is longer than the data), and row `i` is the mean of rows `i, …, i + window - 1`. -/
theorem C64_window_mean (T : ℕ) (a : Mat ℝ) {window : ℕ} (hw : 0 < window) :
    ∃ r, movingAverage T a window = .ok (T + 1 - window, r) ∧ ∀ i j, r i j = (∑ s ∈ range window, a (i + s) j) / window := by
  unfold movingAverage
  rw [if_neg hw.ne']
  refine ⟨_, by rw [show T - (window - 1) = T + 1 - window by omega], fun i j => ?_⟩
  dsimp only
  congr 1
  unfold cumsumRows
  by_cases hi : window ≤ window - 1 + i
  · rw [if_pos hi]
    have e1 : window - 1 + i + 1 = i + window := by omega
    have e2 : window - 1 + i - window + 1 = i := by omega
    rw [e1, e2, Finset.sum_range_add]
    ring
  · rw [if_neg hi]
    have : i = 0 := by omega
    subst this
    rw [show window - 1 + 0 + 1 = window by omega]
    simp

/-- a constant signal stays constant -/
example (T : ℕ) : ∃ r, movingAverage T (fun _ _ => 5) 3 = .ok (T + 1 - 3, r) ∧ r 0 0 = 5 := by
  obtain ⟨r, h1, h2⟩ := C64_window_mean T (fun _ _ => 5) (window := 3) (by norm_num)
  refine ⟨r, h1, ?_⟩
  rw [h2]
  norm_num

/-- **C64 (window 0).** A zero window is rejected for nonempty data. -/
theorem C64_zero_window_rejected {T : ℕ} (hT : 0 < T) (a : Mat ℝ) : movingAverage T a 0 = .error .value := by
  unfold movingAverage
  rw [if_pos rfl, if_neg hT.ne']

/-! ### C63 -/

theorem varies_iff {m : ℕ} {x : Vec ℝ} : Varies m x ↔ 0 < ∑ t ∈ range m, (x t - avg m x) ^ 2 := by
  have hnn : 0 ≤ ∑ t ∈ range m, (x t - avg m x) ^ 2 := Finset.sum_nonneg fun t _ => sq_nonneg _
  constructor
  · rintro ⟨s, hs, t, ht, hne⟩
    rcases hnn.lt_or_eq with h | h
    · exact h
    · exfalso
      have h := (Finset.sum_eq_zero_iff_of_nonneg fun t _ => sq_nonneg _).1 h.symm
      have h1 := pow_eq_zero_iff (two_ne_zero) |>.1 (h s (Finset.mem_range.2 hs))
      have h2 := pow_eq_zero_iff (two_ne_zero) |>.1 (h t (Finset.mem_range.2 ht))
      exact hne (by linarith)
  · intro h
    by_contra hno
    unfold Varies at hno
    push Not at hno
    have : ∑ t ∈ range m, (x t - avg m x) ^ 2 = 0 := by
      apply Finset.sum_eq_zero
      intro t ht
      have hm : (m : ℝ) ≠ 0 := by
        have := Finset.mem_range.1 ht
        exact_mod_cast (by omega : m ≠ 0)
      have : avg m x = x t := by
        unfold avg
        rw [Finset.sum_congr rfl fun s hs => hno s (Finset.mem_range.1 hs) t (Finset.mem_range.1 ht)]
        simp
        field_simp
      rw [this]; ring
    linarith

theorem pearson_abs_le (m : ℕ) (x y : Vec ℝ) : |pearson m x y| ≤ 1 := by
  unfold pearson
  set A := ∑ t ∈ range m, (x t - avg m x) ^ 2
  set B := ∑ t ∈ range m, (y t - avg m y) ^ 2
  have hcs := Finset.sum_mul_sq_le_sq_mul_sq (range m) (fun t => x t - avg m x) (fun t => y t - avg m y)
  rw [abs_div, abs_of_nonneg (Real.sqrt_nonneg _)]
  apply div_le_one_of_le₀ _ (Real.sqrt_nonneg _)
  rw [← Real.sqrt_sq_eq_abs]
  exact Real.sqrt_le_sqrt hcs

/-- two rows of the stacked matrix -/
theorem corrRows_eq (m : ℕ) (X : Mat ℝ) (i j : ℕ) : corrRows m X i j = correlation m (X i) (X j) := by
  unfold corrRows covRows correlation
  by_cases hm : m ≤ 1
  · rw [if_pos hm, if_pos hm, if_pos hm]
    have : ¬ (Varies m (X i) ∧ Varies m (X j)) := by
      rintro ⟨⟨s, hs, t, ht, hne⟩, _⟩
      have : s = t := by omega
      exact hne (by rw [this])
    rw [if_neg this]
    rfl
  · rw [if_neg hm, if_neg hm, if_neg hm]
    have hf : 0 < 1 / ((m : ℝ) - 1) := by
      have : (1:ℝ) < m := by exact_mod_cast (by omega : 1 < m)
      apply one_div_pos.2; linarith
    have hmean : ∀ x : Vec ℝ, meanOf m x = avg m x := fun _ => rfl
    simp only [hmean, fxSqrt]
    have hsq : ∀ x : Vec ℝ, ∑ t ∈ range m, (x t - avg m x) * (x t - avg m x) = ∑ t ∈ range m, (x t - avg m x) ^ 2 := fun x => Finset.sum_congr rfl fun t _ => by ring
    rw [hsq, hsq]
    set f := 1 / ((m : ℝ) - 1)
    set A := ∑ t ∈ range m, (X i t - avg m (X i)) ^ 2 with hA
    set B := ∑ t ∈ range m, (X j t - avg m (X j)) ^ 2 with hB
    set c := ∑ t ∈ range m, (X i t - avg m (X i)) * (X j t - avg m (X j)) with hc
    have hA0 : 0 ≤ A := Finset.sum_nonneg fun t _ => sq_nonneg _
    have hB0 : 0 ≤ B := Finset.sum_nonneg fun t _ => sq_nonneg _
    have hcs : c ^ 2 ≤ A * B := Finset.sum_mul_sq_le_sq_mul_sq (range m) (fun t => X i t - avg m (X i)) (fun t => X j t - avg m (X j))
    by_cases hi : Varies m (X i)
    · have hA1 : 0 < A := varies_iff.1 hi
      have hsA : Real.sqrt (A * f) ≠ 0 := (Real.sqrt_pos.2 (mul_pos hA1 hf)).ne'
      have e1 : fxDiv (.fin (c * f)) (.fin (Real.sqrt (A * f))) = .fin (c * f / Real.sqrt (A * f)) := by
        unfold fxDiv FX.div; dsimp only; rw [if_neg hsA]
      rw [e1]
      by_cases hj : Varies m (X j)
      · rw [if_pos ⟨hi, hj⟩]
        have hB1 : 0 < B := varies_iff.1 hj
        have hsB : Real.sqrt (B * f) ≠ 0 := (Real.sqrt_pos.2 (mul_pos hB1 hf)).ne'
        have e2 : fxDiv (.fin (c * f / Real.sqrt (A * f))) (.fin (Real.sqrt (B * f))) = .fin (pearson m (X i) (X j)) := by
          unfold fxDiv FX.div pearson
          dsimp only
          rw [if_neg hsB]
          congr 1
          rw [← hc, ← hA, ← hB, Real.sqrt_mul hA0, Real.sqrt_mul hA0, Real.sqrt_mul hB0]
          have h1 := Real.sqrt_pos.2 hA1
          have h2 := Real.sqrt_pos.2 hB1
          have h3 := Real.sqrt_pos.2 hf
          have h4 := Real.mul_self_sqrt hf.le
          rw [div_div, div_eq_div_iff (by positivity) (by positivity)]
          linear_combination (c * Real.sqrt A * Real.sqrt B) * (-h4)
        rw [e2]
        have hp := abs_le.1 (pearson_abs_le m (X i) (X j))
        unfold fxClip
        dsimp only
        rw [min_eq_left hp.2, max_eq_right hp.1]
      · rw [if_neg (fun h => hj h.2)]
        have hBz : B = 0 := le_antisymm (not_lt.1 fun h => hj (varies_iff.2 h)) hB0
        have hcz : c = 0 := by
          have : c ^ 2 ≤ 0 := by rw [hBz] at hcs; simpa using hcs
          exact pow_eq_zero_iff two_ne_zero |>.1 (le_antisymm this (sq_nonneg _))
        rw [hBz, hcz]
        simp [fxDiv, FX.div, fxClip]
    · rw [if_neg (fun h => hi h.1)]
      have hAz : A = 0 := le_antisymm (not_lt.1 fun h => hi (varies_iff.2 h)) hA0
      have hcz : c = 0 := by
        have : c ^ 2 ≤ 0 := by rw [hAz] at hcs; simpa using hcs
        exact pow_eq_zero_iff two_ne_zero |>.1 (le_antisymm this (sq_nonneg _))
      rw [hAz, hcz]
      simp [fxDiv, FX.div, fxClip]

/-- the correlation that belongs at `(i, j, dt)` -/
noncomputable def lagCorr (T : ℕ) (S : Mat ℝ) (i j d : ℕ) : FX := correlation (T - d) (fun t => S t i) (fun t => S (d + t) j)

theorem block_ok {T N : ℕ} {S : Mat ℝ} {chunk d : ℕ} (hd : d ≤ T) (c1 c2 : ℕ) (H : Ten FX) :
    xcorrBlock T N S chunk d c1 c2 H = .ok fun i j e => if e = d ∧ c1 * chunk ≤ i ∧ i < min (c1 * chunk + chunk) N ∧ c2 * chunk ≤ j ∧ j < min (c2 * chunk + chunk) N then lagCorr T S i j d else H i j e := by
  unfold xcorrBlock
  dsimp only
  rw [if_pos hd, if_neg (by simp)]
  congr 1
  funext i j e
  split
  · rename_i h
    rw [corrRows_eq]
    unfold lagCorr stackRows
    have hr1 : i - c1 * chunk < min (c1 * chunk + chunk) N - c1 * chunk := by omega
    have hr2 : ¬ (min (c1 * chunk + chunk) N - c1 * chunk + (j - c2 * chunk) < min (c1 * chunk + chunk) N - c1 * chunk) := by omega
    congr 1
    · funext t
      rw [if_pos hr1]
      congr 1
      omega
    · funext t
      rw [if_neg hr2]
      congr 1
      omega
  · rfl

theorem row_ok {T N : ℕ} {S : Mat ℝ} {chunk d : ℕ} (hch : 0 < chunk) (hd : d ≤ T) (c1 : ℕ) (H : Ten FX) :
    ∃ H', xcorrRow T N S chunk d c1 H = .ok H' ∧ ∀ i j e, j < N → H' i j e = if e = d ∧ c1 * chunk ≤ i ∧ i < min (c1 * chunk + chunk) N then lagCorr T S i j d else H i j e := by
  unfold xcorrRow blockNumbers
  have : ∀ n, ∃ H', forListE (List.range n) (xcorrBlock T N S chunk d c1) H = .ok H' ∧
      ∀ i j e, H' i j e = if e = d ∧ c1 * chunk ≤ i ∧ i < min (c1 * chunk + chunk) N ∧ j < min (n * chunk) N then lagCorr T S i j d else H i j e := by
    intro n
    induction n with
    | zero =>
      refine ⟨H, rfl, fun i j e => ?_⟩
      rw [if_neg (by simp)]
    | succ n ih =>
      obtain ⟨H', h1, h2⟩ := ih
      refine ⟨_, by rw [List.range_succ, forListE_append, h1]; dsimp only; unfold forListE; rw [block_ok hd]; rfl, fun i j e => ?_⟩
      rw [h2]
      have hmul : (n + 1) * chunk = n * chunk + chunk := by ring
      rw [hmul]
      by_cases hbase : e = d ∧ c1 * chunk ≤ i ∧ i < min (c1 * chunk + chunk) N
      · obtain ⟨b1, b2, b3⟩ := hbase
        by_cases hj : j < min (n * chunk + chunk) N
        · rw [if_pos (⟨b1, b2, b3, hj⟩ : e = d ∧ c1 * chunk ≤ i ∧ i < min (c1 * chunk + chunk) N ∧ j < min (n * chunk + chunk) N)]
          by_cases hj2 : n * chunk ≤ j
          · rw [if_pos ⟨b1, b2, b3, hj2, hj⟩]
          · rw [if_neg (fun h => hj2 h.2.2.2.1), if_pos ⟨b1, b2, b3, by omega⟩]
        · rw [if_neg (fun h => hj h.2.2.2.2), if_neg (fun h => hj (by have := h.2.2.2; omega)), if_neg (fun h => hj h.2.2.2)]
      · rw [if_neg (fun h => hbase ⟨h.1, h.2.1, h.2.2.1⟩), if_neg (fun h => hbase ⟨h.1, h.2.1, h.2.2.1⟩), if_neg (fun h => hbase ⟨h.1, h.2.1, h.2.2.1⟩)]
  obtain ⟨H', h1, h2⟩ := this ((N + chunk - 1) / chunk)
  refine ⟨H', h1, fun i j e hj => ?_⟩
  have hcover : N ≤ (N + chunk - 1) / chunk * chunk := by
    have := Nat.div_add_mod (N + chunk - 1) chunk
    have := Nat.mod_lt (N + chunk - 1) hch
    rw [mul_comm]
    omega
  rw [h2, min_eq_right hcover]
  by_cases hbase : e = d ∧ c1 * chunk ≤ i ∧ i < min (c1 * chunk + chunk) N
  · rw [if_pos hbase, if_pos ⟨hbase.1, hbase.2.1, hbase.2.2, hj⟩]
  · rw [if_neg hbase, if_neg (fun h => hbase ⟨h.1, h.2.1, h.2.2.1⟩)]

theorem offset_ok {T N : ℕ} {S : Mat ℝ} {chunk d : ℕ} (hch : 0 < chunk) (hd : d ≤ T) (H : Ten FX) :
    ∃ H', xcorrOffset T N S chunk d H = .ok H' ∧ ∀ i < N, ∀ j < N, H' i j d = (if d = 0 then lagCorr T S i j 0 - (if i = j then lagCorr T S i i 0 else .fin 0) else lagCorr T S i j d) ∧ ∀ e, e ≠ d → H' i j e = H i j e := by
  unfold xcorrOffset
  have : ∀ n, ∃ H', forListE (List.range n) (xcorrRow T N S chunk d) H = .ok H' ∧
      ∀ i j e, j < N → H' i j e = if e = d ∧ i < min (n * chunk) N then lagCorr T S i j d else H i j e := by
    intro n
    induction n with
    | zero =>
      refine ⟨H, rfl, fun i j e _ => ?_⟩
      rw [if_neg (by simp)]
    | succ n ih =>
      obtain ⟨H', h1, h2⟩ := ih
      obtain ⟨H'', h3, h4⟩ := row_ok (N := N) (S := S) hch hd n H'
      refine ⟨H'', by rw [List.range_succ, forListE_append, h1]; dsimp only; unfold forListE; rw [h3]; rfl, fun i j e hj => ?_⟩
      rw [h4 i j e hj, h2 i j e hj]
      have hmul : (n + 1) * chunk = n * chunk + chunk := by ring
      rw [hmul]
      by_cases he : e = d
      · by_cases hi : i < min (n * chunk + chunk) N
        · rw [if_pos (⟨he, hi⟩ : e = d ∧ i < min (n * chunk + chunk) N)]
          by_cases hi2 : n * chunk ≤ i
          · rw [if_pos ⟨he, hi2, hi⟩]
          · rw [if_neg (fun h => hi2 h.2.1), if_pos ⟨he, by omega⟩]
        · rw [if_neg (fun h => hi h.2.2), if_neg (fun h => hi (by have := h.2; omega)), if_neg (fun h => hi h.2)]
      · rw [if_neg (fun h => he h.1), if_neg (fun h => he h.1), if_neg (fun h => he h.1)]
  obtain ⟨H', h1, h2⟩ := this ((N + chunk - 1) / chunk)
  have hcover : N ≤ (N + chunk - 1) / chunk * chunk := by
    have := Nat.div_add_mod (N + chunk - 1) chunk
    have := Nat.mod_lt (N + chunk - 1) hch
    rw [mul_comm]
    omega
  rw [min_eq_right hcover] at h2
  have h1' : forListE (blockNumbers N chunk) (xcorrRow T N S chunk d) H = .ok H' := h1
  rw [h1']
  refine ⟨_, rfl, fun i hi j hj => ⟨?_, fun e he => ?_⟩⟩
  · by_cases hd0 : d = 0
    · rw [if_pos hd0, if_pos hd0]
      subst hd0
      unfold clearDiagonal
      rw [if_pos rfl, h2 i j 0 hj, if_pos ⟨rfl, hi⟩]
      by_cases hij : i = j
      · rw [if_pos hij, if_pos hij, h2 i i 0 hi, if_pos ⟨rfl, hi⟩]
      · rw [if_neg hij, if_neg hij]
    · rw [if_neg hd0, if_neg hd0, h2 i j d hj, if_pos ⟨rfl, hi⟩]
  · by_cases hd0 : d = 0
    · subst hd0
      rw [if_pos rfl]
      unfold clearDiagonal
      rw [if_neg he, h2 i j e hj, if_neg (fun h => he h.1)]
    · rw [if_neg hd0, h2 i j e hj, if_neg (fun h => he h.1)]

/-- the complete result -/
noncomputable def xcorrValue (T : ℕ) (S : Mat ℝ) (i j d : ℕ) : FX :=
  if d = 0 then lagCorr T S i j 0 - (if i = j then lagCorr T S i i 0 else .fin 0) else lagCorr T S i j d

theorem xcorr_ok {T N : ℕ} {S : Mat ℝ} {chunk dtmax : ℕ} (hch : 0 < chunk) (hd : dtmax ≤ T + 1) :
    ∃ H, xcorr T N S dtmax chunk = .ok H ∧ ∀ i < N, ∀ j < N, ∀ d < dtmax, H i j d = xcorrValue T S i j d := by
  unfold xcorr
  have : ∀ n, n ≤ dtmax → ∃ H, forListE (List.range n) (xcorrOffset T N S chunk) (fun _ _ _ => .fin 0) = .ok H ∧ ∀ i < N, ∀ j < N, ∀ d < n, H i j d = xcorrValue T S i j d := by
    intro n
    induction n with
    | zero => intro _; exact ⟨_, rfl, fun _ _ _ _ d hd => absurd hd (Nat.not_lt_zero d)⟩
    | succ n ih =>
      intro hn
      obtain ⟨H, h1, h2⟩ := ih (by omega)
      obtain ⟨H', h3, h4⟩ := offset_ok (T := T) (N := N) (S := S) (d := n) hch (by omega) H
      refine ⟨H', by rw [List.range_succ, forListE_append, h1]; dsimp only; unfold forListE; rw [h3]; rfl, fun i hi j hj d hdn => ?_⟩
      rcases Nat.lt_succ_iff_lt_or_eq.1 hdn with h | h
      · rw [(h4 i hi j hj).2 d (by omega), h2 i hi j hj d h]
      · subst h
        rw [(h4 i hi j hj).1]
        rfl
  exact this dtmax le_rfl

/-- **C63 (values).** If the number of offsets is at most `T + 1`, `xcorr` succeeds, and for all columns `i, j` and offsets `d`, except on the diagonal at offset 0, the result is the correlation coefficient of column `i` without its last `d` rows
and column `j` without its first `d` rows (`nan` if one of these is constant); it lies in `[-1, 1]`. On the diagonal at offset 0 the result is 0 if the column is not constant. -/
theorem C63_values (T N : ℕ) (S : Mat ℝ) {dtmax : ℕ} (hd : dtmax ≤ T + 1) :
    ∃ H, xcorr T N S dtmax = .ok H ∧ ∀ i < N, ∀ j < N, ∀ d < dtmax,
      ((i ≠ j ∨ d ≠ 0) → H i j d = correlation (T - d) (fun t => S t i) (fun t => S (d + t) j)) ∧ (i = j → d = 0 → Varies T (fun t => S t i) → H i j d = .fin 0) ∧ ∀ x, H i j d = .fin x → |x| ≤ 1 := by
  classical
  obtain ⟨H, h1, h2⟩ := xcorr_ok (T := T) (N := N) (S := S) (chunk := 16) (by norm_num) hd
  have hoff : ∀ i j d, (i ≠ j ∨ d ≠ 0) → xcorrValue T S i j d = lagCorr T S i j d := by
    intro i j d h
    unfold xcorrValue
    by_cases hd0 : d = 0
    · subst hd0
      rw [if_pos rfl, if_neg (by simpa using h)]
      unfold lagCorr correlation
      split
      · simp
      · rfl
    · rw [if_neg hd0]
  have hdiag : ∀ i, Varies T (fun t => S t i) → xcorrValue T S i i 0 = .fin 0 := by
    intro i hv
    unfold xcorrValue
    rw [if_pos rfl, if_pos rfl]
    unfold lagCorr correlation
    rw [if_pos]
    · simp
    · simp only [Nat.sub_zero, zero_add]
      exact ⟨hv, hv⟩
  refine ⟨H, h1, fun i hi j hj d hdd => ⟨fun h => ?_, fun e1 e2 hv => ?_, fun x hx => ?_⟩⟩
  · rw [h2 i hi j hj d hdd, hoff i j d h]
    rfl
  · subst e1; subst e2
    rw [h2 i hi i hj 0 hdd, hdiag i hv]
  · rw [h2 i hi j hj d hdd] at hx
    by_cases h : i ≠ j ∨ d ≠ 0
    · rw [hoff i j d h] at hx
      unfold lagCorr correlation at hx
      split at hx
      · cases hx
        exact pearson_abs_le _ _ _
      · cases hx
    · push Not at h
      obtain ⟨rfl, rfl⟩ := h
      by_cases hv : Varies T (fun t => S t i)
      · rw [hdiag i hv] at hx
        cases hx
        norm_num
      · exfalso
        unfold xcorrValue lagCorr correlation at hx
        simp only [Nat.sub_zero, zero_add] at hx
        rw [if_pos trivial, if_neg (fun h => hv h.1), if_pos trivial] at hx
        cases hx

/-- **C63 (chunking).** The result does not depend on the chunk size: any two positive chunk sizes give the same values. -/
theorem C63_chunk_independent (T N : ℕ) (S : Mat ℝ) {dtmax c c' : ℕ} (hd : dtmax ≤ T + 1) (hc : 0 < c) (hc' : 0 < c') :
    ∃ H H', xcorr T N S dtmax c = .ok H ∧ xcorr T N S dtmax c' = .ok H' ∧ ∀ i < N, ∀ j < N, ∀ d < dtmax, H i j d = H' i j d := by
  obtain ⟨H, h1, h2⟩ := xcorr_ok (T := T) (N := N) (S := S) hc hd
  obtain ⟨H', h3, h4⟩ := xcorr_ok (T := T) (N := N) (S := S) hc' hd
  exact ⟨H, H', h1, h3, fun i hi j hj d hdd => by rw [h2 i hi j hj d hdd, h4 i hi j hj d hdd]⟩

/-- **C63 (violated for constant columns).** At offset 0 the diagonal entry of a constant column is `nan`, not 0. -/
theorem C63_constant_column_violated {T N : ℕ} {S : Mat ℝ} {dtmax : ℕ} (hd : dtmax ≤ T + 1) (hd0 : 0 < dtmax) {i : ℕ} (hi : i < N) (hc : ∀ t < T, S t i = S 0 i) :
    ∃ H, xcorr T N S dtmax = .ok H ∧ H i i 0 = .nan := by
  classical
  obtain ⟨H, h1, h2⟩ := xcorr_ok (T := T) (N := N) (S := S) (chunk := 16) (by norm_num) hd
  refine ⟨H, h1, ?_⟩
  rw [h2 i hi i hi 0 hd0]
  have hv : ¬ Varies T (fun t => S t i) := by
    rintro ⟨s, hs, t, ht, hne⟩
    exact hne (by dsimp only; rw [hc s hs, hc t ht])
  unfold xcorrValue lagCorr correlation
  simp only [Nat.sub_zero, zero_add]
  rw [if_pos trivial, if_neg (fun h => hv h.1)]
  rfl

/-- two columns that vary, three rows, offsets 0, 1 and 2 -/
example : (3 : ℕ) ≤ 3 + 1 ∧ Varies 3 (fun t => (fun t j => ((t * (j + 1) : ℕ) : ℝ) : Mat ℝ) t 0) := ⟨by norm_num, 0, by norm_num, 1, by norm_num, by norm_num⟩

end PyHawkes
