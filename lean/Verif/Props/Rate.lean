import Verif.Model.Rate
import Verif.Spec.Rate
import Verif.Props.Basis

/-!
# C05, C06: rates and simulation; first half of C07
-/
set_option linter.unusedSectionVars false

namespace PyHawkes
open Finset

variable {R : Type*} [Field R] [LinearOrder R] [IsStrictOrderedRing R]

theorem convolve_ok_pos {T K L B : ℕ} {basis S : Mat R} {F : Ten R} (h : convolve T K L B basis S = .ok F) :
    0 < T ∧ 0 < K ∧ 0 < L ∧ 0 < B := by
  have : ¬ ∃ e, convolve T K L B basis S = .error e := by rintro ⟨e, he⟩; rw [he] at h; cases h
  rw [C02_convolve_error_iff] at this; omega

theorem convolve_ok_eq {T K L B : ℕ} {basis S : Mat R} {F : Ten R} (h : convolve T K L B basis S = .ok F) :
    ∀ t < T, ∀ k < K, ∀ b < B, F t k b = Spec.filtered L basis S t k b := by
  obtain ⟨h1, h2, h3, h4⟩ := convolve_ok_pos h
  obtain ⟨F', hF', e⟩ := C02_convolve_eq_filtered T K L B basis S h1 h2 h3 h4
  rw [h] at hF'; cases hF'; exact e

/-- the rate loop computes the closed form, given any filtered data -/
theorem rateAll_eq (P : NetParams R) (F : Ten R) (t k : ℕ) (hk : k < P.K) :
    rateAll P F t k = Spec.rate P.K P.B P.lam0 P.Weff P.g F t k := by
  unfold rateAll
  dsimp only
  have inv : ∀ n, forRange n (fun k2 (r : Mat R) => fun t k =>
      if k = k2 then r t k + ∑ b ∈ range P.B, ∑ k1 ∈ range P.K, F t k1 b * (P.Weff k1 k2 * P.g k1 k2 b) else r t k)
      (fun _ k => P.lam0 k) t k
      = if k < n then Spec.rate P.K P.B P.lam0 P.Weff P.g F t k else P.lam0 k := by
    intro n
    induction n with
    | zero => simp
    | succ n ih =>
      rw [forRange_succ]
      rw [ih]
      by_cases h : k = n
      · subst h
        rw [if_pos rfl, if_neg (lt_irrefl k), if_pos (Nat.lt_succ_self k)]
        unfold Spec.rate
        rw [sum_comm]
        congr 1
        exact sum_congr rfl fun k1 _ => sum_congr rfl fun b _ => by ring
      · rw [if_neg h]
        by_cases h' : k < n
        · rw [if_pos h', if_pos (by omega)]
        · rw [if_neg h', if_neg (by omega)]
  rw [inv P.K, if_pos hk]

/-- **C05.** `compute_rate(S)` returns, for all counts `S`, the background rate plus the weighted filtered history. -/
theorem C05_compute_rate_eq (P : NetParams R) (T KS : ℕ) (S : Mat R) (r : Mat R)
    (h : computeRate P T KS S = .ok r) :
    KS = P.K ∧ ∀ t < T, ∀ k2 < P.K,
      r t k2 = P.lam0 k2 + ∑ k1 ∈ range P.K, ∑ b ∈ range P.B,
        P.Weff k1 k2 * P.g k1 k2 b * Spec.filtered P.L P.basis S t k1 b := by
  unfold computeRate at h
  split at h
  · cases h
  · rename_i F hF
    split at h
    · cases h
    · rename_i hK
      simp only [ne_eq, not_not] at hK
      cases h
      refine ⟨hK, fun t ht k2 hk2 => ?_⟩
      rw [rateAll_eq P F t k2 hk2]
      unfold Spec.rate
      congr 1
      refine sum_congr rfl fun k1 h1 => sum_congr rfl fun b hb => ?_
      rw [convolve_ok_eq hF t ht k1 (by rw [hK]; exact mem_range.1 h1) b (mem_range.1 hb)]

/-- **C05 (success).** `compute_rate(S)` succeeds exactly on nonempty arrays with the right number of columns
(for a nonempty basis). -/
theorem C05_compute_rate_ok_iff (P : NetParams R) (T KS : ℕ) (S : Mat R) (hL : 0 < P.L) (hB : 0 < P.B) :
    (∃ r, computeRate P T KS S = .ok r) ↔ (0 < T ∧ 0 < KS ∧ KS = P.K) := by
  unfold computeRate
  constructor
  · rintro ⟨r, h⟩
    split at h
    · cases h
    · rename_i F hF
      split at h
      · cases h
      · have := convolve_ok_pos hF; omega
  · rintro ⟨h1, h2, h3⟩
    obtain ⟨F, hF, -⟩ := C02_convolve_eq_filtered T KS P.L P.B P.basis S h1 h2 hL hB
    rw [hF]; simp [h3]

/-- **C05 (one process).** Asking for one process (also by negative index) gives exactly that column. -/
theorem C05_proc_is_column (P : NetParams R) (T KS : ℕ) (S : Mat R) (r : Mat R)
    (h : computeRate P T KS S = .ok r) (k : ℕ) (hk : k < P.K) :
    (∃ v, computeRateProc P T KS S (k : ℤ) = .ok v ∧ ∀ t < T, v t = r t k) ∧
    (∃ v, computeRateProc P T KS S ((k : ℤ) - P.K) = .ok v ∧ ∀ t < T, v t = r t k) := by
  have hr := C05_compute_rate_eq P T KS S r h
  unfold computeRate at h
  split at h
  · cases h
  · rename_i F hF
    have hcol : ∀ t < T, rateProc P F k t = r t k := by
      intro t ht
      rw [hr.2 t ht k hk]
      unfold rateProc
      congr 1
      refine sum_congr rfl fun k1 h1 => sum_congr rfl fun b hb => ?_
      rw [convolve_ok_eq hF t ht k1 (by rw [hr.1]; exact mem_range.1 h1) b (mem_range.1 hb)]
      ring
    unfold computeRateProc
    rw [hF]
    dsimp only
    constructor
    · rw [if_neg (by omega), if_neg (by omega), if_neg (by simp [hr.1])]
      refine ⟨_, rfl, ?_⟩
      rw [if_neg (by omega)]
      simpa using hcol
    · rw [if_neg (by omega), if_neg (by omega), if_neg (by simp [hr.1])]
      refine ⟨_, rfl, ?_⟩
      rw [if_pos (by omega)]
      simpa using hcol

/-- **C05 (one process, rejection).** An index outside `-K..K-1` is rejected. -/
theorem C05_proc_out_of_range (P : NetParams R) (T KS : ℕ) (S : Mat R) (p : ℤ)
    (hp : p < -(P.K : ℤ) ∨ (P.K : ℤ) ≤ p) : ∃ e, computeRateProc P T KS S p = .error e := by
  unfold computeRateProc
  split
  · exact ⟨_, rfl⟩
  · rcases hp with hp | hp
    · rw [if_neg (by omega), if_pos hp]; exact ⟨_, rfl⟩
    · rw [if_pos (by omega)]; exact ⟨_, rfl⟩

/-- **C05 (lower bound).** With nonnegative weights, impulse weights, basis and counts the rate is never below background. -/
theorem C05_rate_ge_background (P : NetParams R) (T KS : ℕ) (S : Mat R) (r : Mat R)
    (hW : ∀ k1 < P.K, ∀ k2 < P.K, 0 ≤ P.Weff k1 k2)
    (hg : ∀ k1 < P.K, ∀ k2 < P.K, ∀ b < P.B, 0 ≤ P.g k1 k2 b)
    (hb : ∀ l < P.L, ∀ b < P.B, 0 ≤ P.basis l b) (hS : ∀ t < T, ∀ k < P.K, 0 ≤ S t k)
    (h : computeRate P T KS S = .ok r) :
    ∀ t < T, ∀ k < P.K, P.lam0 k ≤ r t k := by
  intro t ht k hk
  rw [(C05_compute_rate_eq P T KS S r h).2 t ht k hk]
  have : 0 ≤ ∑ k1 ∈ range P.K, ∑ b ∈ range P.B,
      P.Weff k1 k * P.g k1 k b * Spec.filtered P.L P.basis S t k1 b := by
    refine sum_nonneg fun k1 h1 => sum_nonneg fun b hb' => ?_
    have h1 := mem_range.1 h1
    have hb' := mem_range.1 hb'
    exact mul_nonneg (mul_nonneg (hW k1 h1 k hk) (hg k1 h1 k hk b hb'))
      (filtered_nonneg (fun l hl => hb l hl b hb') (fun s hs => hS s (by omega) k1 h1))
  linarith

/-! ### Simulation -/

/-- The buffer after the bins before `n` have been simulated: background plus all impulse responses so far. -/
def genBuf (P : NetParams R) (S : Mat ℕ) (n : ℕ) : Mat R := fun s k =>
  P.lam0 k + ∑ t ∈ range n, if t ≤ s ∧ s < t + P.L then ∑ k1 ∈ range P.K, genH P (s - t) k k1 * (S t k1 : R) else 0

theorem forListE_range_succ {σ : Type*} (n : ℕ) (f : ℕ → σ → Except PyErr σ) (s : σ) :
    forListE (List.range (n + 1)) f s = match forListE (List.range n) f s with
      | .error e => .error e
      | .ok s' => f n s' := by
  have happ : ∀ (l : List ℕ) (a : ℕ) (s : σ), forListE (l ++ [a]) f s = match forListE l f s with
      | .error e => .error e
      | .ok s' => f a s' := by
    intro l a
    induction l with
    | nil => intro s; simp only [List.nil_append, forListE]; cases f a s <;> rfl
    | cons x l ih =>
      intro s
      simp only [List.cons_append, forListE]
      cases f x s with
      | error e => rfl
      | ok s' => exact ih s'
  rw [List.range_succ, happ]

theorem gen_invariant (P : NetParams R) (draw : ℕ → ℕ → R → ℕ) (n : ℕ) (S : Mat ℕ) (r : Mat R)
    (h : forListE (List.range n) (genStep P draw) (fun _ _ => 0, fun _ k => P.lam0 k) = .ok (S, r)) :
    (∀ s k, r s k = genBuf P S n s k) ∧
    (∀ t < n, ∀ k, S t k = draw t k (genBuf P S t t k * P.dt)) ∧
    (∀ t < n, ∀ k < P.K, 0 ≤ genBuf P S t t k * P.dt) := by
  induction n generalizing S r with
  | zero =>
    simp only [List.range_zero, forListE, Except.ok.injEq, Prod.mk.injEq] at h
    obtain ⟨rfl, rfl⟩ := h
    exact ⟨fun s k => by simp [genBuf], fun t ht => absurd ht (by omega), fun t ht => absurd ht (by omega)⟩
  | succ n ih =>
    rw [forListE_range_succ] at h
    split at h
    · cases h
    · rename_i st hst
      obtain ⟨S0, r0⟩ := st
      obtain ⟨i1, i2, i3⟩ := ih S0 r0 hst
      unfold genStep at h
      dsimp only at h
      split at h
      · cases h
      · rename_i hneg
        push Not at hneg
        simp only [Except.ok.injEq, Prod.mk.injEq] at h
        obtain ⟨hS, hr⟩ := h
        have hbuf : ∀ m ≤ n, ∀ s k, genBuf P S m s k = genBuf P S0 m s k := by
          intro m hm s k
          unfold genBuf
          congr 1
          refine sum_congr rfl fun t ht => ?_
          have : t ≠ n := by have := mem_range.1 ht; omega
          have e : ∀ k1, S t k1 = S0 t k1 := fun k1 => by rw [← hS]; simp [this]
          simp only [e]
        have hrow : ∀ k, S n k = draw n k (genBuf P S n n k * P.dt) := by
          intro k
          rw [hbuf n le_rfl, ← i1, ← hS]; simp
        refine ⟨fun s k => ?_, fun t ht k => ?_, fun t ht k hk => ?_⟩
        · have hstep : genBuf P S (n + 1) s k = genBuf P S n s k +
              (if n ≤ s ∧ s < n + P.L then ∑ k1 ∈ range P.K, genH P (s - n) k k1 * (S n k1 : R) else 0) := by
            unfold genBuf; rw [sum_range_succ, add_assoc]
          rw [hstep, hbuf n le_rfl, ← hr]
          have e : ∀ k1, S n k1 = draw n k1 (r0 n k1 * P.dt) := fun k1 => by rw [← hS]; simp
          dsimp only
          split
          · rw [i1]; simp only [e]
          · rw [i1, add_zero]
        · rcases Nat.lt_succ_iff_lt_or_eq.1 ht with ht | rfl
          · rw [hbuf t (by omega), ← i2 t ht k, ← hS]
            have : t ≠ n := by omega
            simp [this]
          · exact hrow k
        · rcases Nat.lt_succ_iff_lt_or_eq.1 ht with ht | rfl
          · rw [hbuf t (by omega)]; exact i3 t ht k hk
          · rw [hbuf t le_rfl, ← i1]; exact hneg k hk

/-- the final rate buffer is the rate of the final counts -/
theorem genBuf_eq_rate (P : NetParams R) (S : Mat ℕ) (T t : ℕ) (k : ℕ) (ht : t < T) :
    genBuf P S T t k = P.lam0 k + ∑ k1 ∈ range P.K, ∑ b ∈ range P.B,
      P.Weff k1 k * P.g k1 k b * Spec.filtered P.L P.basis (fun s j => (S s j : R)) t k1 b := by
  unfold genBuf
  congr 1
  have h1 : ∀ s ∈ range T, (if s ≤ t ∧ t < s + P.L then ∑ k1 ∈ range P.K, genH P (t - s) k k1 * (S s k1 : R) else 0)
      = ∑ k1 ∈ range P.K, ∑ b ∈ range P.B, P.Weff k1 k * P.g k1 k b *
          ∑ l ∈ range P.L, (if s + l = t then (S s k1 : R) * P.basis l b else 0) := by
    intro s _
    by_cases hc : s ≤ t ∧ t < s + P.L
    · rw [if_pos hc]
      refine sum_congr rfl fun k1 _ => ?_
      unfold genH
      rw [mul_sum, sum_mul]
      refine sum_congr rfl fun b _ => ?_
      rw [sum_eq_single (t - s)]
      · rw [if_pos (by omega)]; ring
      · intro l _ hl; rw [if_neg (by omega)]
      · intro hn; exact absurd (mem_range.2 (by omega)) hn
    · rw [if_neg hc]
      symm
      refine sum_eq_zero fun k1 _ => sum_eq_zero fun b _ => ?_
      rw [sum_eq_zero, mul_zero]
      intro l hl
      have := mem_range.1 hl
      rw [if_neg (by omega)]
  rw [sum_congr rfl h1, sum_comm]
  refine sum_congr rfl fun k1 _ => ?_
  rw [sum_comm]
  refine sum_congr rfl fun b _ => ?_
  rw [← mul_sum]
  congr 1
  exact convRaw_eq T P.L P.basis (fun s j => (S s j : R)) t k1 b ht

/-- **C06.** For every outcome of the Poisson draws the rate matrix returned by `generate` is what `compute_rate`
returns for the generated counts. -/
theorem C06_generate_rate (P : NetParams R) (draw : ℕ → ℕ → R → ℕ) (T : ℕ) (S : Mat ℕ) (r : Mat R)
    (hT : 0 < T) (hK : 0 < P.K) (hL : 0 < P.L) (hB : 0 < P.B)
    (h : generate P draw T = .ok (S, r)) :
    ∃ r', computeRate P T P.K (fun t k => (S t k : R)) = .ok r' ∧ ∀ t < T, ∀ k < P.K, r t k = r' t k := by
  unfold generate at h
  split at h
  · cases h
  · obtain ⟨i1, -, -⟩ := gen_invariant P draw T S r h
    obtain ⟨r', hr'⟩ := (C05_compute_rate_ok_iff P T P.K (fun t k => (S t k : R)) hL hB).2 ⟨hT, hK, rfl⟩
    refine ⟨r', hr', fun t ht k hk => ?_⟩
    rw [(C05_compute_rate_eq P T P.K _ r' hr').2 t ht k hk, i1, genBuf_eq_rate P S T t k ht]

/-- **C06 (draws).** For a strictly causal basis the counts of every bin were drawn with exactly the mean `rate*dt`
that is returned for that bin (later iterations do not touch it any more). -/
theorem C06_draws_use_returned_rate (P : NetParams R) (draw : ℕ → ℕ → R → ℕ) (T : ℕ) (S : Mat ℕ) (r : Mat R)
    (hrow : ∀ b < P.B, P.basis 0 b = 0) (h : generate P draw T = .ok (S, r)) :
    ∀ t < T, ∀ k < P.K, S t k = draw t k (r t k * P.dt) := by
  unfold generate at h
  split at h
  · cases h
  · obtain ⟨i1, i2, -⟩ := gen_invariant P draw T S r h
    have hH : ∀ k k1, genH P 0 k k1 = 0 := by
      intro k k1
      unfold genH
      rw [sum_eq_zero, mul_zero]
      intro b hb; rw [hrow b (mem_range.1 hb), zero_mul]
    intro t ht k _
    rw [i2 t ht k, i1]
    congr 2
    unfold genBuf
    congr 1
    obtain ⟨d, rfl⟩ := Nat.exists_eq_add_of_lt ht
    rw [show t + d + 1 = t + (d + 1) by ring, sum_range_add]
    rw [left_eq_add]
    refine sum_eq_zero fun j _ => ?_
    by_cases hj : t + j ≤ t ∧ t < t + j + P.L
    · rw [if_pos hj]
      have : t - (t + j) = 0 := by omega
      rw [this]; exact sum_eq_zero fun k1 _ => by rw [hH, zero_mul]
    · rw [if_neg hj]

/-- **C06 (success).** With nonnegative parameters and an integer basis length, `generate` never raises, whatever the draws. -/
theorem C06_generate_total (P : NetParams R) (draw : ℕ → ℕ → R → ℕ) (T : ℕ) (hint : P.lenIsInt = true)
    (hdt : 0 ≤ P.dt) (h0 : ∀ k < P.K, 0 ≤ P.lam0 k)
    (hW : ∀ k1 < P.K, ∀ k2 < P.K, 0 ≤ P.Weff k1 k2)
    (hg : ∀ k1 < P.K, ∀ k2 < P.K, ∀ b < P.B, 0 ≤ P.g k1 k2 b)
    (hb : ∀ l < P.L, ∀ b < P.B, 0 ≤ P.basis l b) :
    ∃ S r, generate P draw T = .ok (S, r) := by
  have hH : ∀ l < P.L, ∀ k < P.K, ∀ k1 < P.K, 0 ≤ genH P l k k1 := fun l hl k hk k1 hk1 =>
    mul_nonneg (hW k1 hk1 k hk) (sum_nonneg fun b hb' =>
      mul_nonneg (hb l hl b (mem_range.1 hb')) (hg k1 hk1 k hk b (mem_range.1 hb')))
  unfold generate
  rw [if_neg (by simp [hint])]
  induction T with
  | zero => exact ⟨_, _, rfl⟩
  | succ n ih =>
    obtain ⟨S, r, h⟩ := ih
    rw [forListE_range_succ, h]
    obtain ⟨i1, -, -⟩ := gen_invariant P draw n S r h
    unfold genStep
    dsimp only
    rw [if_neg]
    · exact ⟨_, _, rfl⟩
    · rintro ⟨k, hk, hneg⟩
      refine absurd (mul_nonneg ?_ hdt) (not_le.2 hneg)
      rw [i1]
      unfold genBuf
      refine add_nonneg (h0 k hk) (sum_nonneg fun t _ => ?_)
      split
      · exact sum_nonneg fun k1 hk1 => mul_nonneg (hH _ (by omega) k hk k1 (mem_range.1 hk1)) (Nat.cast_nonneg _)
      · exact le_rfl

/-- **C06 (finding).** With an identity basis whose length is a float, `generate` always raises `TypeError`. -/
theorem C06_float_length_raises (P : NetParams R) (draw : ℕ → ℕ → R → ℕ) (T : ℕ) (h : P.lenIsInt = false) :
    generate P draw T = .error .type := by
  unfold generate; rw [if_pos h]

/-- a concrete two-process model used for non-vacuity -/
def demoNet : NetParams ℚ where
  K := 2
  B := 1
  dt := 1
  lam0 := fun _ => 1
  Weff := fun k1 k2 => if k1 = 0 ∧ k2 = 1 then 1/2 else 0
  g := fun _ _ _ => 1
  L := 2
  basis := fun l _ => if l = 0 then 0 else 1

example : ∃ S r, generate demoNet (fun t k m => t + k + (if m > 1 then 1 else 0)) 5 = .ok (S, r) := by
  apply C06_generate_total
  · rfl
  all_goals simp [demoNet]
  · intro k1 h1 k2 h2; split <;> norm_num
  · intro l hl; split <;> norm_num

example : ∃ r, computeRate demoNet 4 2 (fun t _ => (t : ℚ)) = .ok r :=
  (C05_compute_rate_ok_iff demoNet 4 2 _ (by decide) (by decide)).2 ⟨by omega, by omega, rfl⟩

/-- **C07 (first half).** If the effective weight `k1 → k2` is zero, changing the events of `k1` does not change the rate of `k2`. -/
theorem C07_no_edge_no_influence (P : NetParams R) (T : ℕ) (S S' : Mat R) (r r' : Mat R) (k1 k2 : ℕ)
    (hk2 : k2 < P.K) (hW : P.Weff k1 k2 = 0)
    (hS : ∀ t < T, ∀ k < P.K, k ≠ k1 → S t k = S' t k)
    (h : computeRate P T P.K S = .ok r) (h' : computeRate P T P.K S' = .ok r') :
    ∀ t < T, r t k2 = r' t k2 := by
  intro t ht
  rw [(C05_compute_rate_eq P T P.K S r h).2 t ht k2 hk2, (C05_compute_rate_eq P T P.K S' r' h').2 t ht k2 hk2]
  congr 1
  refine sum_congr rfl fun k hk => sum_congr rfl fun b _ => ?_
  by_cases hkk : k = k1
  · subst hkk; rw [hW]; ring
  · congr 1
    refine sum_congr rfl fun l _ => ?_
    split
    · rw [hS _ (by omega) k (mem_range.1 hk) hkk]
    · rfl

end PyHawkes
