import Verif.Model.FiringRate
import Verif.Props.Convert
import Mathlib.Data.List.GetD

/-!
# C88: the smoothed empirical firing rate
-/

set_option linter.unusedSectionVars false
set_option linter.unusedVariables false

namespace PyHawkes
open Finset Spec

namespace Spec

open Classical in
/-- number of events in bin `t` of `n` equal bins of `[a, b]`, divided by the bin width -/
noncomputable def empiricalRate (S : List ℝ) (a b : ℝ) (n t : ℕ) : ℝ :=
  (S.countP fun x => decide (InBin ((b - a) / n) a b t x) : ℕ) / ((b - a) / n)

/-- Gaussian weight of a lag of `j` bins of width `w`, among the lags -4..4 -/
noncomputable def lagWeight (w : ℝ) (j : ℤ) : ℝ := Real.exp (-(j * w) ^ 2 / 2) / ∑ i ∈ Finset.Icc (-4 : ℤ) 4, Real.exp (-(i * w) ^ 2 / 2)

end Spec

theorem frEdges_eq {a b : ℝ} {n : ℕ} (hn : 0 < n) : (List.range (n + 1)).map (linspace a b (n + 1)) = (List.range (n + 1)).map (edgeFn ((b - a) / n) a b n) := by
  apply List.map_congr_left
  intro i hi
  have hi := List.mem_range.1 hi
  have hn' : (n : ℝ) ≠ 0 := by positivity
  unfold linspace edgeFn
  rw [if_neg (by omega)]
  split
  · push_cast; rw [add_sub_cancel_right]; ring
  · have : i = n := by omega
    subst this
    push_cast
    rw [add_sub_cancel_right, mul_div_assoc, div_self hn']
    ring

theorem fr_ceil {a b : ℝ} {n : ℕ} (hn : 0 < n) (hab : a < b) : n = (⌈(b - a) / ((b - a) / n)⌉).toNat := by
  have : (b - a) / ((b - a) / n) = ((n : ℤ) : ℝ) := by
    have : b - a ≠ 0 := by linarith
    have hn' : (n : ℝ) ≠ 0 := by positivity
    push_cast
    field_simp
  rw [this, Int.ceil_intCast]
  simp

theorem npDiff_length (l : List ℤ) : (npDiff l).length = l.length - 1 := by
  unfold npDiff
  rw [List.length_zipWith, List.length_tail]
  omega

theorem rawRate_ok {S : List ℝ} {a b : ℝ} {n : ℕ} (hn : 0 < n) (hab : a < b) :
    rawRate S a b n = .ok ((List.range n).map (empiricalRate S a b n)) := by
  have hw : 0 < (b - a) / n := div_pos (by linarith) (by positivity)
  have hc := fr_ceil hn hab
  unfold rawRate
  dsimp only
  rw [if_neg (by omega), frEdges_eq hn]
  have he := edges_mono hw hab hc
  unfold npHistogram
  rw [if_pos he]
  dsimp only
  rw [if_neg hw.ne']
  congr 1
  apply List.ext_getElem
  · rw [List.length_map, npDiff_length, histCum_length]; simp
  · intro t h1 h2
    have ht : t < n := by simpa using h2
    have h := hist_entry hw hab hc S ht
    rw [List.getD_eq_getElem _ _ (by simpa using h1)] at h
    rw [List.getElem_map, h]
    simp only [List.getElem_map, List.getElem_range]
    unfold empiricalRate
    push_cast
    rfl

theorem kernel_eq (w : ℝ) {j : ℕ} (hj : j < 9) : smoothKernel w j = lagWeight w ((j : ℤ) - 4) := by
  have key : ∀ j : ℕ, -0.5 * (linspace (-((9 : ℝ) - 1) / 2 * w) (((9 : ℝ) - 1) / 2 * w) 9 j) ^ 2 = -((((j : ℤ) - 4 : ℤ) : ℝ) * w) ^ 2 / 2 := by
    intro j
    unfold linspace
    rw [if_neg (by norm_num)]
    push_cast
    ring
  have hs : ∑ j ∈ range 9, Real.exp (-0.5 * (linspace (-((9 : ℝ) - 1) / 2 * w) (((9 : ℝ) - 1) / 2 * w) 9 j) ^ 2) = ∑ i ∈ Finset.Icc (-4 : ℤ) 4, Real.exp (-((i : ℝ) * w) ^ 2 / 2) := by
    simp only [key]
    rw [show Finset.Icc (-4 : ℤ) 4 = (range 9).image (fun j : ℕ => (j : ℤ) - 4) from by decide, sum_image (fun x _ y _ h => by simpa using h)]
  unfold smoothKernel lagWeight
  dsimp only
  rw [hs, key]

theorem lag_sum_pos (w : ℝ) : 0 < ∑ i ∈ Finset.Icc (-4 : ℤ) 4, Real.exp (-((i : ℝ) * w) ^ 2 / 2) := sum_pos (fun i _ => Real.exp_pos _) ⟨0, by simp⟩

theorem kernel_pos (w : ℝ) {j : ℕ} (hj : j < 9) : 0 < smoothKernel w j := by
  rw [kernel_eq w hj]
  exact div_pos (Real.exp_pos _) (lag_sum_pos w)

theorem kernel_sum (w : ℝ) : ∑ j ∈ range 9, smoothKernel w j = 1 := by
  unfold smoothKernel
  dsimp only
  rw [← sum_div]
  exact div_self (sum_pos (fun i _ => Real.exp_pos _) ⟨0, by simp⟩).ne'

theorem conv_interior {n : ℕ} (a v : Vec ℝ) {t : ℕ} (h1 : 9 ≤ t) (h2 : t + 9 < n + 1) : convSame n 9 a v t = ∑ j ∈ range 9, v j * a (t + 4 - j) := by
  unfold convSame
  apply sum_congr rfl
  intro j hj
  have := mem_range.1 hj
  norm_num
  intro h
  omega

theorem approx_ok {S : List ℝ} {a b : ℝ} {n : ℕ} (hn : 0 < n) (hab : a < b) :
    approxFiringRate S a b n = .ok ((List.range n).map fun i => ∑ j ∈ range 9, smoothKernel ((b - a) / n) j * padRate ((List.range n).map (empiricalRate S a b n)) (i + 13 - j)) := by
  unfold approxFiringRate
  rw [rawRate_ok hn hab]
  dsimp only
  rw [if_neg (by simp)]
  congr 1
  apply List.ext_getElem
  · simp
  · intro i h1 h2
    have hi : i < n := by simpa using h2
    simp only [List.getElem_drop, List.getElem_take, List.getElem_map, List.getElem_range]
    rw [conv_interior _ _ (by omega) (by simp; omega)]
    apply sum_congr rfl
    intro j hj
    rw [show 9 + i + 4 - j = i + 13 - j by omega]

theorem mean_bounds {l : List ℝ} {lo hi : ℝ} (h0 : l ≠ []) (h : ∀ x ∈ l, lo ≤ x ∧ x ≤ hi) : lo ≤ l.sum / l.length ∧ l.sum / l.length ≤ hi := by
  have hl : 0 < (l.length : ℝ) := by exact_mod_cast List.length_pos_iff.2 h0
  rw [le_div_iff₀ hl, div_le_iff₀ hl]
  constructor
  · have := List.card_nsmul_le_sum l lo (fun x hx => (h x hx).1)
    rw [nsmul_eq_mul] at this
    linarith
  · have := List.sum_le_card_nsmul l hi (fun x hx => (h x hx).2)
    rw [nsmul_eq_mul] at this
    linarith

theorem padRate_bounds {fr : List ℝ} {lo hi : ℝ} (h0 : fr ≠ []) (h : ∀ x ∈ fr, lo ≤ x ∧ x ≤ hi) (i : ℕ) : lo ≤ padRate fr i ∧ padRate fr i ≤ hi := by
  have hl := List.length_pos_iff.2 h0
  unfold padRate
  dsimp only
  split
  · exact mean_bounds (by simpa using h0) fun x hx => h x (List.mem_of_mem_take hx)
  split
  · rw [List.getD_eq_getElem _ _ (by omega)]
    exact h _ (List.getElem_mem _)
  · refine mean_bounds ?_ fun x hx => h x (List.mem_of_mem_drop hx)
    intro h
    have := congrArg List.length h
    simp at this
    omega

/-- **C88 (range).** For a nonempty window and at least one bin, `approximateFiringRate` returns one value per bin, and every value lies between the smallest and the largest of the per-bin empirical
rates (events in the bin divided by its width). In particular the values are nonnegative and a constant rate is returned unchanged. -/
theorem C88_range (S : List ℝ) {a b : ℝ} {n : ℕ} (hn : 0 < n) (hab : a < b) :
    ∃ r, approxFiringRate S a b n = .ok r ∧ r.length = n ∧
      (∀ lo hi : ℝ, (∀ t < n, lo ≤ empiricalRate S a b n t ∧ empiricalRate S a b n t ≤ hi) → ∀ x ∈ r, lo ≤ x ∧ x ≤ hi) ∧ ∀ x ∈ r, 0 ≤ x := by
  refine ⟨_, approx_ok hn hab, by simp, ?_⟩
  have key : ∀ lo hi : ℝ, (∀ t < n, lo ≤ empiricalRate S a b n t ∧ empiricalRate S a b n t ≤ hi) →
      ∀ x ∈ ((List.range n).map fun i => ∑ j ∈ range 9, smoothKernel ((b - a) / n) j * padRate ((List.range n).map (empiricalRate S a b n)) (i + 13 - j)), lo ≤ x ∧ x ≤ hi := by
    intro lo hi h x hx
    obtain ⟨i, hi', rfl⟩ := List.mem_map.1 hx
    have hb := padRate_bounds (fr := (List.range n).map (empiricalRate S a b n)) (lo := lo) (hi := hi) (by simp; omega) (by
      intro x hx
      obtain ⟨t, ht, rfl⟩ := List.mem_map.1 hx
      exact h t (List.mem_range.1 ht))
    have hs := kernel_sum ((b - a) / n)
    constructor
    · calc lo = ∑ j ∈ range 9, smoothKernel ((b - a) / n) j * lo := by rw [← sum_mul, hs, one_mul]
        _ ≤ _ := sum_le_sum fun j hj => mul_le_mul_of_nonneg_left (hb _).1 (kernel_pos _ (mem_range.1 hj)).le
    · calc _ ≤ ∑ j ∈ range 9, smoothKernel ((b - a) / n) j * hi := sum_le_sum fun j hj => mul_le_mul_of_nonneg_left (hb _).2 (kernel_pos _ (mem_range.1 hj)).le
        _ = hi := by rw [← sum_mul, hs, one_mul]
  refine ⟨key, fun x hx => ?_⟩
  have hw : 0 < (b - a) / n := div_pos (by linarith) (by positivity)
  refine (key 0 (∑ t ∈ range n, empiricalRate S a b n t) (fun t ht => ?_) x hx).1
  have h0 : ∀ t, 0 ≤ empiricalRate S a b n t := fun t => div_nonneg (Nat.cast_nonneg _) hw.le
  exact ⟨h0 t, single_le_sum (f := fun t => empiricalRate S a b n t) (fun t _ => h0 t) (mem_range.2 ht)⟩

/-- **C88 (interior).** At least 4 bins away from both ends the value is the Gaussian-weighted average of the empirical rates of the nine surrounding bins; the weights depend on the lag in units of time. -/
theorem C88_interior (S : List ℝ) {a b : ℝ} {n : ℕ} (hab : a < b) {i : ℕ} (h1 : 4 ≤ i) (h2 : i + 4 < n) :
    ∃ r, approxFiringRate S a b n = .ok r ∧
      r.getD i 0 = ∑ j ∈ range 9, lagWeight ((b - a) / n) ((j : ℤ) - 4) * empiricalRate S a b n (i + 4 - j) := by
  refine ⟨_, approx_ok (by omega) hab, ?_⟩
  rw [List.getD_eq_getElem _ _ (by simp; omega), List.getElem_map, List.getElem_range]
  apply sum_congr rfl
  intro j hj
  have := mem_range.1 hj
  rw [kernel_eq _ this]
  congr 1
  unfold padRate
  dsimp only
  rw [if_neg (by omega), if_pos (by simp; omega), List.getD_eq_getElem _ _ (by simp; omega), List.getElem_map, List.getElem_range]
  congr 1
  omega

/-- **C88 (every event counts once).** The empirical rates that are smoothed account for every event of the window exactly once, and for no other event. -/
theorem C88_events (S : List ℝ) {a b : ℝ} {n : ℕ} (hn : 0 < n) (hab : a < b) :
    ∑ t ∈ range n, empiricalRate S a b n t * ((b - a) / n) = ((S.filter fun x => decide (a ≤ x ∧ x ≤ b)).length : ℝ) := by
  classical
  have hn' : (0 : ℝ) < n := by positivity
  have hw : 0 < (b - a) / n := div_pos (by linarith) hn'
  have hend : a + (n : ℝ) * ((b - a) / n) = b := by field_simp; ring
  have h1 : ∀ t ∈ range n, empiricalRate S a b n t * ((b - a) / n) = ((S.countP fun x => decide (InBin ((b - a) / n) a b t x) : ℕ) : ℝ) := by
    intro t _
    unfold empiricalRate
    exact div_mul_cancel₀ _ hw.ne'
  rw [sum_congr rfl h1]
  have hin : ∀ x, a ≤ x ∧ x ≤ b → ∃! t, t < n ∧ InBin ((b - a) / n) a b t x := by
    rintro x ⟨hx1, hx2⟩
    set w := (b - a) / n with hwdef
    rcases lt_or_eq_of_le hx2 with hx | hx
    · refine ⟨⌊(x - a) / w⌋₊, ⟨?_, ?_⟩, ?_⟩
      · rw [Nat.floor_lt (div_nonneg (by linarith) hw.le), div_lt_iff₀ hw]; linarith
      · refine ⟨?_, hx2, Or.inl ?_⟩
        · have := Nat.floor_le (div_nonneg (by linarith : 0 ≤ x - a) hw.le)
          rw [le_div_iff₀ hw] at this; linarith
        · have := Nat.lt_floor_add_one ((x - a) / w)
          rw [div_lt_iff₀ hw] at this; linarith
      · rintro t ⟨ht, h1, -, h3⟩
        have h3 : x < a + (t + 1) * w := by
          rcases h3 with h3 | ⟨h3, -⟩
          · exact h3
          · linarith
        symm
        rw [Nat.floor_eq_iff (div_nonneg (by linarith) hw.le), le_div_iff₀ hw, div_lt_iff₀ hw]
        constructor <;> linarith
    · refine ⟨n - 1, ⟨by omega, ?_⟩, ?_⟩
      · have hc : ((n - 1 : ℕ) : ℝ) = n - 1 := by rw [Nat.cast_sub (by omega)]; simp
        refine ⟨?_, hx2, Or.inr ⟨hx, ?_⟩⟩
        · rw [hc, hx, ← hend]; nlinarith
        · rw [hc, ← hend]; ring
      · rintro t ⟨ht, h1, -, h3⟩
        rcases h3 with h3 | ⟨-, h3⟩
        · rw [hx, ← hend] at h3
          have : (n : ℝ) < t + 1 := by
            by_contra hcon
            push Not at hcon
            nlinarith
          have : n < t + 1 := by exact_mod_cast this
          omega
        · rw [← hend] at h3
          have h4 : ((n : ℝ) - (t + 1)) * w = 0 := by linarith
          rcases mul_eq_zero.1 h4 with h4 | h4
          · have : (n : ℝ) = ((t + 1 : ℕ) : ℝ) := by push_cast; linarith
            have : n = t + 1 := by exact_mod_cast this
            omega
          · exact absurd h4 hw.ne'
  rw [← Nat.cast_sum]
  congr 1
  induction S with
  | nil => simp
  | cons x S ih =>
    simp only [List.countP_cons, sum_add_distrib, ih (by
      intro t _
      unfold empiricalRate
      exact div_mul_cancel₀ _ hw.ne')]
    by_cases hx : a ≤ x ∧ x ≤ b
    · obtain ⟨t, ⟨ht, hb⟩, hu⟩ := hin x hx
      rw [List.filter_cons_of_pos (by simpa using hx), List.length_cons]
      congr 1
      rw [sum_eq_single_of_mem t (mem_range.2 ht)]
      · simp [hb]
      · intro s hs hne
        rw [if_neg]
        simp only [decide_eq_true_eq]
        intro h
        exact hne (hu s ⟨mem_range.1 hs, h⟩)
    · rw [List.filter_cons_of_neg (by simpa using hx)]
      rw [sum_eq_zero, add_zero]
      intro s hs
      rw [if_neg]
      simp only [decide_eq_true_eq]
      rintro ⟨h1, h2, -⟩
      exact hx ⟨le_trans (by nlinarith [(Nat.cast_nonneg s : (0:ℝ) ≤ s)]) h1, h2⟩

/-- **C88 (bad windows).** No bins, or a window that is empty or reversed, never yields a rate. -/
theorem C88_bad_windows (S : List ℝ) {a b : ℝ} {n : ℕ} (h : n = 0 ∨ b ≤ a) : ∃ e, approxFiringRate S a b n = .error e := by
  have hr : ∃ e, rawRate S a b n = .error e := by
    unfold rawRate
    dsimp only
    by_cases hn : n = 0
    · rw [if_pos hn]; exact ⟨_, rfl⟩
    · rw [if_neg hn]
      have hb : b ≤ a := by tauto
      rcases hH : npHistogram S ((List.range (n + 1)).map (linspace a b (n + 1))) with e | h
      · exact ⟨e, rfl⟩
      · dsimp only
        rcases lt_or_eq_of_le hb with hlt | heq
        · exfalso
          unfold npHistogram at hH
          split at hH
          · rename_i he
            rw [edgesOk_iff, List.isChain_iff_getElem] at he
            have := he 0 (by simp; omega)
            simp only [List.getElem_map, List.getElem_range] at this
            unfold linspace at this
            rw [if_neg (by omega), if_neg (by omega)] at this
            push_cast at this
            have hn' : (0 : ℝ) < n := by positivity
            have : 0 ≤ (b - a) / n := by
              rw [add_sub_cancel_right, mul_zero, zero_div, mul_one] at this
              linarith
            rw [div_nonneg_iff] at this
            rcases this with h | h <;> linarith
          · exact absurd hH (by simp)
        · rw [heq, sub_self, zero_div, if_pos rfl]; exact ⟨_, rfl⟩
  obtain ⟨e, he⟩ := hr
  exact ⟨e, by unfold approxFiringRate; rw [he]⟩

/-- **C88 (area).** The documented aim of the normalisation, leaving the area under the rate unchanged, is not met: one event at 0.5 in three bins of the window [0, 3] gives a rate whose integral is less than 1. -/
theorem C88_area_violated : ∃ r, approxFiringRate [0.5] 0 3 3 = .ok r ∧ r.sum * ((3 - 0) / 3) < 1 := by
  classical
  refine ⟨_, approx_ok (by norm_num) (by norm_num), ?_⟩
  have e0 : empiricalRate [0.5] 0 3 3 0 = 1 := by norm_num [empiricalRate, InBin]
  have e1 : empiricalRate [0.5] 0 3 3 1 = 0 := by norm_num [empiricalRate, InBin]
  have e2 : empiricalRate [0.5] 0 3 3 2 = 0 := by norm_num [empiricalRate, InBin]
  have hr : (List.range 3).map (empiricalRate [0.5] 0 3 3) = [1, 0, 0] := by
    simp [List.range_succ, e0, e1, e2]
  rw [hr]
  set k := smoothKernel ((3 - 0) / ((3 : ℕ) : ℝ)) with hk
  have hs : ∑ j ∈ range 9, k j = 1 := kernel_sum _
  have sym : ∀ j < 9, k j = lagWeight ((3 - 0) / ((3 : ℕ) : ℝ)) ((j : ℤ) - 4) := fun j hj => kernel_eq _ hj
  have flip : ∀ i : ℤ, lagWeight ((3 - 0) / ((3 : ℕ) : ℝ)) (-i) = lagWeight ((3 - 0) / ((3 : ℕ) : ℝ)) i := by
    intro i
    unfold lagWeight
    congr 2
    push_cast
    ring
  have s0 : k 0 = k 8 := by rw [sym 0 (by norm_num), sym 8 (by norm_num), ← flip]; norm_num
  have s1 : k 1 = k 7 := by rw [sym 1 (by norm_num), sym 7 (by norm_num), ← flip]; norm_num
  have s2 : k 2 = k 6 := by rw [sym 2 (by norm_num), sym 6 (by norm_num), ← flip]; norm_num
  have s3 : k 3 = k 5 := by rw [sym 3 (by norm_num), sym 5 (by norm_num), ← flip]; norm_num
  have lt : k 6 < k 5 := by
    rw [sym 6 (by norm_num), sym 5 (by norm_num)]
    unfold lagWeight
    apply div_lt_div_of_pos_right _ (lag_sum_pos _)
    apply Real.exp_lt_exp.2
    norm_num
  have hp : ∀ i, padRate [1, 0, 0] i = if i < 9 then 1 / 3 else if i = 9 then 1 else if i < 12 then 0 else 1 / 3 := by
    intro i
    unfold padRate
    simp
    by_cases h1 : i < 9
    · simp [h1]
    · by_cases h2 : i < 12
      · have : i = 9 ∨ i = 10 ∨ i = 11 := by omega
        rcases this with rfl | rfl | rfl <;> simp
      · simp [h1, h2, show i ≠ 9 by omega]
  simp only [hp]
  simp only [List.range_succ, List.range_zero, List.nil_append, List.cons_append, List.map_cons, List.map_nil, List.sum_cons, List.sum_nil, sum_range_succ, sum_range_zero] at hs ⊢
  norm_num
  linarith

example : ∃ r, approxFiringRate [0.5] 0 3 3 = .ok r ∧ r.length = 3 := by
  obtain ⟨r, h1, h2, -⟩ := C88_range [0.5] (a := 0) (b := 3) (n := 3) (by norm_num) (by norm_num)
  exact ⟨r, h1, h2⟩

end PyHawkes
