import Verif.Spec.Plot
import Verif.Props.Rate
import Verif.Props.LogLik

/-!
# C105: `compute_rate(index)` gives the rates of the stored recording
-/
set_option linter.unusedSectionVars false

namespace PyHawkes
open Finset Spec

variable {R : Type*} [Field R] [LinearOrder R] [IsStrictOrderedRing R]

/-- **C105 (which indices).** `compute_rate(index=i)` succeeds exactly for `-n ≤ i < n`, where `n` is the number of stored data sets; a larger index fails the assertion. -/
theorem C105_index (P : NetParams R) (dl : List (DParents R)) (i : ℤ) :
    ((∃ x, rateStored P dl i = .ok x) ↔ -(dl.length : ℤ) ≤ i ∧ i < dl.length) ∧ ((dl.length : ℤ) ≤ i → rateStored P dl i = .error .assertion) := by
  refine ⟨?_, fun h => by unfold rateStored; rw [if_pos (by omega)]⟩
  unfold rateStored pyIdx
  by_cases h : i < dl.length
  · rw [if_neg (by omega)]
    by_cases h0 : 0 ≤ i
    · rw [if_pos ⟨h0, h⟩]
      dsimp only
      rw [List.getElem?_eq_getElem (show i.toNat < dl.length by omega)]
      exact ⟨fun _ => ⟨by omega, h⟩, fun _ => ⟨_, rfl⟩⟩
    · rw [if_neg (by omega)]
      by_cases h1 : -(dl.length : ℤ) ≤ i
      · rw [if_pos ⟨by omega, h1⟩]
        dsimp only
        rw [List.getElem?_eq_getElem (show (i + dl.length).toNat < dl.length by omega)]
        exact ⟨fun _ => ⟨h1, h⟩, fun _ => ⟨_, rfl⟩⟩
      · rw [if_neg (by omega)]
        exact ⟨fun hx => (by obtain ⟨x, e⟩ := hx; cases e), fun hh => absurd hh.1 h1⟩
  · rw [if_pos h]
    exact ⟨fun hx => (by obtain ⟨x, e⟩ := hx; cases e), fun hh => absurd hh.2 h⟩

theorem rateStored_nat (P : NetParams R) (dl : List (DParents R)) {n : ℕ} (h : n < dl.length) : rateStored P dl (n : ℤ) = .ok (dl[n].T, rateAll P dl[n].F) := by
  unfold rateStored pyIdx
  rw [if_neg (by omega), if_pos (by omega)]
  dsimp only
  rw [Int.toNat_natCast, List.getElem?_eq_getElem h]

theorem rateStored_neg (P : NetParams R) (dl : List (DParents R)) {n : ℕ} (h : n < dl.length) : rateStored P dl ((n : ℤ) - dl.length) = rateStored P dl (n : ℤ) := by
  rw [rateStored_nat P dl h]
  unfold rateStored pyIdx
  rw [if_neg (by omega), if_neg (by omega), if_pos (by omega)]
  dsimp only
  rw [show ((n : ℤ) - dl.length + dl.length).toNat = n by omega, List.getElem?_eq_getElem h]

/-- **C105 (negative indices).** `compute_rate(index=i-n)` is `compute_rate(index=i)`. -/
theorem C105_negative (P : NetParams R) (dl : List (DParents R)) (n : ℕ) (h : n < dl.length) : rateStored P dl ((n : ℤ) - dl.length) = rateStored P dl n := rateStored_neg P dl h

/-- **C105 (one process).** `compute_rate(index=i, proc=p)` returns column `p` of `compute_rate(index=i)`, also for a negative `p`. -/
theorem C105_proc (P : NetParams R) (dl : List (DParents R)) (i : ℤ) {T : ℕ} {r : Mat R} (h : rateStored P dl i = .ok (T, r)) (k : ℕ) (hk : k < P.K) :
    rateStoredProc P dl i k = .ok (T, fun t => r t k) ∧ rateStoredProc P dl i ((k : ℤ) - P.K) = .ok (T, fun t => r t k) := by
  unfold rateStored at h
  split at h
  · cases h
  rename_i h1
  split at h
  · cases h
  rename_i n h2
  split at h
  · cases h
  rename_i D h3
  cases h
  have e : rateProc P D.F k = fun t => rateAll P D.F t k := by
    funext t
    rw [rateAll_eq P D.F t k hk]
    unfold rateProc Spec.rate
    congr 1
    exact sum_congr rfl fun k1 _ => sum_congr rfl fun b _ => by ring
  constructor
  · unfold rateStoredProc
    rw [if_neg h1, h2]
    dsimp only
    rw [h3]
    dsimp only
    rw [if_neg (by omega)]
    have : pyIdx P.K (k : ℤ) = some k := by unfold pyIdx; rw [if_pos (by omega)]; rfl
    rw [this]
    dsimp only
    rw [e]
  · unfold rateStoredProc
    rw [if_neg h1, h2]
    dsimp only
    rw [h3]
    dsimp only
    rw [if_neg (by omega)]
    have : pyIdx P.K ((k : ℤ) - P.K) = some k := by
      unfold pyIdx; rw [if_neg (by omega), if_pos (by omega)]; exact congrArg some (by omega)
    rw [this]
    dsimp only
    rw [e]

/-- **C105 (whole recordings).** After `add_data(S)`, `compute_rate(index)` of the new data set (also as `index=-1`) returns exactly what `compute_rate(S=S)` returns. -/
theorem C105_whole (P : NetParams R) (a : AddArgs R) (dl dl' : List (DParents R)) (hF : a.F = none) (hm : a.minibatch = none) (h : addData P a dl = .ok dl') :
    ∃ r, computeRate P a.T a.KS (fun t k => (a.S t k : R)) = .ok r ∧ rateStored P dl' dl.length = .ok (a.T, r) ∧ rateStored P dl' (-1) = .ok (a.T, r) := by
  unfold addData at h
  rw [hF, hm] at h
  dsimp only at h
  split at h
  · cases h
  rename_i hK
  rw [ne_eq, not_not] at hK
  split at h
  · cases h
  split at h
  · cases h
  split at h
  · cases h
  rename_i F e
  cases h
  have hl : (dl ++ [({ T := a.T, S := fun t k => (a.S t k).toNat, F := F } : DParents R)]).length = dl.length + 1 := by simp
  have e1 : rateStored P (dl ++ [({ T := a.T, S := fun t k => (a.S t k).toNat, F := F } : DParents R)]) dl.length = .ok (a.T, rateAll P F) := by
    rw [rateStored_nat P _ (by rw [hl]; omega), List.getElem_append_right le_rfl]
    simp
  refine ⟨rateAll P F, ?_, e1, ?_⟩
  · unfold computeRate
    rw [hK, e]
    dsimp only
    rw [if_neg (by simp)]
  · rw [← e1, ← rateStored_neg P _ (by rw [hl]; omega), hl]
    congr 1
    push_cast
    ring

/-- **C105 (user-supplied filtered counts).** After `add_data(S, F=F)` the rates are computed from the given `F`. -/
theorem C105_given_filter (P : NetParams R) (a : AddArgs R) (dl dl' : List (DParents R)) (T K B : ℕ) (F : Ten R) (hF : a.F = some (T, K, B, F)) (hm : a.minibatch = none) (h : addData P a dl = .ok dl') :
    ∃ r, rateStored P dl' dl.length = .ok (a.T, r) ∧ ∀ t < a.T, ∀ k2 < P.K, r t k2 = P.lam0 k2 + ∑ k1 ∈ range P.K, ∑ b ∈ range P.B, P.Weff k1 k2 * P.g k1 k2 b * F t k1 b := by
  unfold addData at h
  rw [hF, hm] at h
  dsimp only at h
  split at h
  · cases h
  split at h
  · cases h
  split at h
  · cases h
  split at h
  · cases h
  rename_i F' e
  cases h
  split at e
  · cases e
    refine ⟨rateAll P F, ?_, fun t _ k hk => ?_⟩
    · rw [rateStored_nat P _ (by simp), List.getElem_append_right le_rfl]
      simp
    · rw [rateAll_eq P F t k hk]; rfl
  · cases e

/-- **C105 (earlier recordings).** Adding data never changes the rates reported for the recordings already stored. -/
theorem C105_stable (P : NetParams R) (a : AddArgs R) (dl dl' : List (DParents R)) (h : addData P a dl = .ok dl') (n : ℕ) (hn : n < dl.length) : rateStored P dl' n = rateStored P dl n := by
  have : ∃ l, dl' = dl ++ l := by
    unfold addData at h
    split at h
    · cases h
    split at h
    · cases h
    split at h
    · cases h
    dsimp only at h
    split at h
    · cases h
    split at h
    · cases h; exact ⟨_, rfl⟩
    · split at h
      · cases h
      · split at h
        · cases h; exact ⟨[], by simp⟩
        · cases h; exact ⟨_, rfl⟩
  obtain ⟨l, rfl⟩ := this
  rw [rateStored_nat P dl hn, rateStored_nat P _ (by rw [List.length_append]; omega), List.getElem_append_left hn]

/-- **C105 (minibatches).** If the recording was cut into minibatches of `m` bins, bin `t` of the recording is bin `t % m` of minibatch `t / m`, and `compute_rate(index)` reports there the rate of the whole
recording at bin `t`: the history before the minibatch is not lost. -/
theorem C105_minibatch (P : NetParams R) (a : AddArgs R) (dl whole mb : List (DParents R)) (m : ℕ) (hm : 0 < m) (hw : addData P { a with minibatch := none } dl = .ok whole)
    (hb : addData P { a with minibatch := some (m : ℤ) } dl = .ok mb) (t : ℕ) (ht : t < a.T) :
    ∃ (r : Mat R) (T' : ℕ) (r' : Mat R), rateStored P whole dl.length = .ok (a.T, r) ∧ rateStored P mb ((dl.length + t / m : ℕ) : ℤ) = .ok (T', r') ∧ t % m < T' ∧ ∀ k < P.K, r' (t % m) k = r t k := by
  obtain ⟨D, blocks, rfl, hT, e, -, -, -, hbl⟩ := C10_add_data_blocks P a dl whole m hm hw
  rw [hb] at e
  cases e
  have hlt : t / m < (a.T + m - 1) / m := by
    rw [Nat.div_lt_iff_lt_mul hm]
    have := ceil_mul_ge a.T m hm
    omega
  have hlen : blocks.length = (a.T + m - 1) / m := by rw [hbl]; simp [mbBounds]
  have hget : blocks[t / m]'(by omega) = sliceData D.S D.F (t / m * m) (min (t / m * m + m) a.T) := by
    simp only [hbl, mbBounds, List.getElem_map, List.getElem_range]
  have hdiv := Nat.div_add_mod t m
  have hmod := Nat.mod_lt t hm
  have hcomm : t / m * m = m * (t / m) := Nat.mul_comm _ _
  refine ⟨rateAll P D.F, _, _, ?_, rateStored_nat P _ (by rw [List.length_append]; omega), ?_, fun k hk => ?_⟩
  · rw [rateStored_nat P _ (by simp), List.getElem_append_right le_rfl]
    simp [hT]
  · have : (dl ++ blocks)[dl.length + t / m]'(by rw [List.length_append]; omega) = blocks[t / m]'(by omega) := by
      rw [List.getElem_append_right (Nat.le_add_right _ _)]; congr 1; exact Nat.add_sub_cancel_left _ _
    rw [this, hget]
    show t % m < min (t / m * m + m) a.T - t / m * m
    omega
  · have : (dl ++ blocks)[dl.length + t / m]'(by rw [List.length_append]; omega) = blocks[t / m]'(by omega) := by
      rw [List.getElem_append_right (Nat.le_add_right _ _)]; congr 1; exact Nat.add_sub_cancel_left _ _
    rw [this, hget, rateAll_eq P _ _ k hk, rateAll_eq P _ _ k hk]
    show Spec.rate P.K P.B P.lam0 P.Weff P.g (fun s => D.F (t / m * m + s)) (t % m) k = _
    unfold Spec.rate
    dsimp only
    rw [show t / m * m + t % m = t by omega]

/-- the hypotheses of `C105_minibatch` are met: a recording of 5 bins cut into minibatches of 2; its last bin is the only bin of the third minibatch -/
example : ∃ whole mb, addData demoNet { T := 5, KS := 2, isInt := true, S := fun t k => t + k, F := none, minibatch := none } [] = .ok whole ∧
    addData demoNet { T := 5, KS := 2, isInt := true, S := fun t k => t + k, F := none, minibatch := some 2 } [] = .ok mb ∧ ∃ r, rateStored demoNet mb 2 = .ok (1, r) := by
  obtain ⟨whole, h⟩ : ∃ whole, addData demoNet { T := 5, KS := 2, isInt := true, S := fun t k => t + k, F := none, minibatch := none } [] = .ok whole := by
    obtain ⟨F, hF, -⟩ := C02_convolve_eq_filtered 5 2 2 1 demoNet.basis (fun t k => (((fun t k => (t : ℤ) + k) : Mat ℤ) t k : ℚ)) (by omega) (by omega) (by omega) (by omega)
    unfold addData
    dsimp only
    rw [if_neg (by simp [demoNet]), if_neg (by omega), if_neg (by push Not; exact ⟨fun t _ k _ => by omega, rfl⟩)]
    rw [show demoNet.K = 2 from rfl, show demoNet.L = 2 from rfl, show demoNet.B = 1 from rfl, hF]
    exact ⟨_, rfl⟩
  obtain ⟨D, blocks, rfl, -, hb, -, -, -, hbl⟩ := C10_add_data_blocks demoNet { T := 5, KS := 2, isInt := true, S := fun t k => t + k, F := none, minibatch := none } [] whole 2 Nat.two_pos h
  refine ⟨_, _, h, hb, ?_⟩
  rw [hbl]
  exact ⟨_, rateStored_nat demoNet _ (n := 2) (by simp [mbBounds])⟩

end PyHawkes
