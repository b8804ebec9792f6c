import Verif.Model.DParents
import Verif.Props.Rate

/-!
# C08, C09, C10: log likelihoods and minibatches of the discrete-time network model
-/
set_option linter.unusedSectionVars false

namespace PyHawkes
open Finset

section
variable {R : Type*} [Field R] [LinearOrder R] [IsStrictOrderedRing R]

theorem sum_filter_range {M : Type*} [AddCommMonoid M] (T : ℕ) (p : ℕ → Prop) [DecidablePred p] (f : ℕ → M) :
    (((List.range T).filter fun t => p t).map f).sum = ∑ t ∈ range T, if p t then f t else 0 := by
  induction T with
  | zero => simp
  | succ n ih =>
    rw [List.range_succ, List.filter_append, List.map_append, List.sum_append, ih, sum_range_succ]
    congr 1
    by_cases h : p n <;> simp [h]

theorem sum_ts {M : Type*} [AddCommMonoid M] (D : DParents R) (k : ℕ) (f : ℕ → M) :
    ((D.ts k).map f).sum = ∑ t ∈ range D.T, if D.S t k ≠ 0 then f t else 0 := by
  unfold DParents.ts
  exact sum_filter_range D.T (fun t => D.S t k ≠ 0) f

/-- the number of events of a process, as a plain sum over all bins -/
theorem Ns_eq (D : DParents R) (k : ℕ) : D.Ns k = ∑ t ∈ range D.T, D.S t k := by
  unfold DParents.Ns
  rw [sum_ts]
  exact sum_congr rfl fun t _ => by
    by_cases h : D.S t k = 0 <;> simp [h]

theorem zip_Ss_Fs (D : DParents R) (k : ℕ) :
    (D.Ss k).zip (D.Fs k) = (D.ts k).map fun t => (toU32 (D.S t k), D.F t) := by
  unfold DParents.Ss DParents.Fs
  generalize D.ts k = l
  induction l with
  | nil => rfl
  | cons a l ih => simp [ih]

theorem toU32_of_lt {n : ℕ} (h : n < 2 ^ 32) : toU32 n = n := Nat.mod_eq_of_lt h

theorem toU32_zero : toU32 0 = 0 := rfl
end

/-- contribution of one bin with counts `s` and filtered counts `f` to the log likelihood of process `k2` -/
noncomputable def llBin (P : NetParams ℝ) (s : Vec ℕ) (f : Mat ℝ) (k2 : ℕ) : ℝ :=
  (toU32 (s k2) : ℝ) * Real.log (P.lam0 k2 + ∑ k1 ∈ range P.K, ∑ b ∈ range P.B, P.Weff k1 k2 * P.g k1 k2 b * f k1 b)
    - P.lam0 k2 * P.dt - ∑ k1 ∈ range P.K, P.Weff k1 k2 * (s k1 : ℝ)

theorem llSingle_eq_sum (P : NetParams ℝ) (D : DParents ℝ) (k2 : ℕ) :
    llSingle P D k2 = ∑ t ∈ range D.T, llBin P (D.S t) (D.F t) k2 := by
  unfold llSingle llBin
  dsimp only
  rw [sum_sub_distrib, sum_sub_distrib, zip_Ss_Fs, List.map_map, sum_ts]
  have h1 : ∑ t ∈ range D.T, ∑ k1 ∈ range P.K, P.Weff k1 k2 * (D.S t k1 : ℝ)
      = ∑ k1 ∈ range P.K, P.Weff k1 k2 * (D.Ns k1 : ℝ) := by
    rw [sum_comm]
    refine sum_congr rfl fun k1 _ => ?_
    rw [Ns_eq, Nat.cast_sum, mul_sum]
  rw [h1]
  have h2 : ∑ t ∈ range D.T, P.lam0 k2 * P.dt = P.lam0 k2 * D.T * P.dt := by
    rw [sum_const, card_range, nsmul_eq_mul]; ring
  rw [h2]
  have h3 : ∀ t ∈ range D.T, (if D.S t k2 ≠ 0 then
      ((fun p : ℕ × Mat ℝ => (p.1 : ℝ) * Real.log (P.lam0 k2 + ∑ k1 ∈ range P.K, ∑ b ∈ range P.B,
        P.Weff k1 k2 * P.g k1 k2 b * p.2 k1 b)) ∘ fun t => (toU32 (D.S t k2), D.F t)) t else 0)
      = (toU32 (D.S t k2) : ℝ) * Real.log (P.lam0 k2 + ∑ k1 ∈ range P.K, ∑ b ∈ range P.B,
        P.Weff k1 k2 * P.g k1 k2 b * D.F t k1 b) := by
    intro t _
    by_cases h : D.S t k2 = 0
    · simp [h, toU32_zero]
    · simp [h]
  rw [sum_congr rfl h3]
  ring

theorem llData_eq_sum (P : NetParams ℝ) (D : DParents ℝ) :
    llData P D = ∑ t ∈ range D.T, ∑ k2 ∈ range P.K, llBin P (D.S t) (D.F t) k2 := by
  unfold llData
  rw [forRange_add, zero_add, sum_comm]
  exact sum_congr rfl fun k _ => llSingle_eq_sum P D k

/-- **C08.** For counts that fit in 32 bits, the sparse `log_likelihood()` of a data set (which visits only bins with events) equals the dense
sum over all bins of `S*log(rate)`, minus `lambda0*T*dt` and minus, for every source process, weight times its total event count.
`rate` is the model rate for the stored filtered data. The positivity hypothesis is what makes the dense expression meaningful
(`0*log 0` is `nan` in floating point). -/
theorem C08_sparse_eq_dense (P : NetParams ℝ) (D : DParents ℝ)
    (h32 : ∀ t < D.T, ∀ k < P.K, D.S t k < 2 ^ 32)
    (_hpos : ∀ t < D.T, ∀ k < P.K, 0 < Spec.rate P.K P.B P.lam0 P.Weff P.g D.F t k) :
    llData P D = ∑ k2 ∈ range P.K,
      ((∑ t ∈ range D.T, (D.S t k2 : ℝ) * Real.log (Spec.rate P.K P.B P.lam0 P.Weff P.g D.F t k2))
        - P.lam0 k2 * (D.T * P.dt)
        - ∑ k1 ∈ range P.K, P.Weff k1 k2 * ∑ t ∈ range D.T, (D.S t k1 : ℝ)) := by
  rw [llData_eq_sum, sum_comm]
  refine sum_congr rfl fun k2 hk2 => ?_
  unfold llBin
  rw [sum_sub_distrib, sum_sub_distrib]
  congr 1
  · congr 1
    · refine sum_congr rfl fun t ht => ?_
      rw [toU32_of_lt (h32 t (mem_range.1 ht) k2 (mem_range.1 hk2))]; rfl
    · rw [sum_const, card_range, nsmul_eq_mul]; ring
  · rw [sum_comm]; exact sum_congr rfl fun k1 _ => by rw [mul_sum]

/-- **C08 (model).** The model log likelihood is the sum over data sets. -/
theorem C08_model_sum (P : NetParams ℝ) (dl : List (DParents ℝ)) : llModel P dl = (dl.map (llData P)).sum := by
  unfold llModel
  have : ∀ (a : ℝ), dl.foldl (fun ll D => ll + llData P D) a = a + (dl.map (llData P)).sum := by
    induction dl with
    | nil => simp
    | cons D l ih => intro a; simp [ih, add_assoc]
  rw [this, zero_add]

/-- **C08 (finding).** The 32-bit bound is needed: a bin with `2^32` events is silently dropped from the sparse log-rate term,
so here the sparse value differs from the dense one. -/
theorem C08_u32_wrap_violated :
    ∃ (P : NetParams ℝ) (D : DParents ℝ), 0 < D.T ∧ P.K = 1 ∧
      (∀ t < D.T, ∀ k < P.K, 0 < Spec.rate P.K P.B P.lam0 P.Weff P.g D.F t k) ∧
      llData P D ≠ ∑ k2 ∈ range P.K,
      ((∑ t ∈ range D.T, (D.S t k2 : ℝ) * Real.log (Spec.rate P.K P.B P.lam0 P.Weff P.g D.F t k2))
        - P.lam0 k2 * (D.T * P.dt)
        - ∑ k1 ∈ range P.K, P.Weff k1 k2 * ∑ t ∈ range D.T, (D.S t k1 : ℝ)) := by
  refine ⟨⟨1, 0, 1, fun _ => 2, fun _ _ => 0, fun _ _ _ => 0, 1, fun _ _ => 0, true⟩,
    { T := 1, S := fun _ _ => 2 ^ 32, F := fun _ _ _ => 0 }, by norm_num, rfl, ?_, ?_⟩
  · intro t _ k _; simp [Spec.rate]
  · rw [llData_eq_sum]
    have h2 := Real.log_pos (show (1:ℝ) < 2 by norm_num)
    simp [llBin, Spec.rate, toU32]
    intro h; linarith

example : ∃ (P : NetParams ℝ) (D : DParents ℝ), 0 < D.T ∧ (∀ t < D.T, ∀ k < P.K, D.S t k < 2 ^ 32) ∧
    ∀ t < D.T, ∀ k < P.K, 0 < Spec.rate P.K P.B P.lam0 P.Weff P.g D.F t k :=
  ⟨⟨2, 1, 1, fun _ => 1, fun _ _ => 1, fun _ _ _ => 1, 1, fun _ _ => 1, true⟩,
    { T := 5, S := fun t k => t + k, F := fun _ _ _ => 1 }, by norm_num,
    fun t ht k hk => by dsimp at *; omega, fun t _ k _ => by simp [Spec.rate]; norm_num⟩

/-! ### C09 -/

/-- total filtered count over a recording: each event contributes the part of its impulse response that falls inside -/
theorem sum_filtered (T L : ℕ) (basis S : Mat ℝ) (k b : ℕ) :
    ∑ t ∈ range T, Spec.filtered L basis S t k b = ∑ s ∈ range T, S s k * ∑ l ∈ range L, if s + l < T then basis l b else 0 := by
  have h1 : ∀ t ∈ range T, Spec.filtered L basis S t k b
      = ∑ s ∈ range T, ∑ l ∈ range L, if s + l = t then S s k * basis l b else 0 :=
    fun t ht => (convRaw_eq T L basis S t k b (mem_range.1 ht)).symm
  rw [sum_congr rfl h1, sum_comm]
  refine sum_congr rfl fun s _ => ?_
  rw [sum_comm, mul_sum]
  refine sum_congr rfl fun l _ => ?_
  by_cases h : s + l < T
  · rw [if_pos h, sum_ite_eq, if_pos (mem_range.2 h)]
  · rw [if_neg h, mul_zero]
    exact sum_eq_zero fun t ht => if_neg (by have := mem_range.1 ht; omega)

/-- **C09.** For a nonnegative basis of unit area, impulse weights summing to one and nonnegative weights, the training log likelihood of a data
set is at most the held-out log likelihood of the same counts; they are equal when every event is at least `L` bins before the end. -/
theorem C09_training_le_heldout (P : NetParams ℝ) (T : ℕ) (S : Mat ℕ) (F : Ten ℝ) (h : ℝ)
    (hdt : 0 < P.dt)
    (hF : convolve T P.K P.L P.B P.basis (fun t k => (S t k : ℝ)) = .ok F)
    (h32 : ∀ t < T, ∀ k < P.K, S t k < 2 ^ 32)
    (hb0 : ∀ l < P.L, ∀ b < P.B, 0 ≤ P.basis l b)
    (hb1 : ∀ b < P.B, P.dt * ∑ l ∈ range P.L, P.basis l b = 1)
    (hW : ∀ k1 < P.K, ∀ k2 < P.K, 0 ≤ P.Weff k1 k2)
    (hg0 : ∀ k1 < P.K, ∀ k2 < P.K, ∀ b < P.B, 0 ≤ P.g k1 k2 b)
    (hg1 : ∀ k1 < P.K, ∀ k2 < P.K, ∑ b ∈ range P.B, P.g k1 k2 b = 1)
    (_hlam : ∀ k < P.K, 0 < P.lam0 k)
    (hh : heldoutLL P T S = .ok h) :
    llData P { T := T, S := S, F := F } ≤ h ∧
    ((∀ t < T, ∀ k < P.K, T < t + P.L → S t k = 0) → llData P { T := T, S := S, F := F } = h) := by
  unfold heldoutLL at hh
  have hF' := convolve_ok_eq hF
  split at hh
  · cases hh
  · rename_i r hr
    simp only [Except.ok.injEq] at hh
    have hr' := (C05_compute_rate_eq P T P.K _ r hr).2
    -- difference of the two integrals, per (k1,k2,b)
    have hterm : ∀ k1 < P.K, ∀ b < P.B,
        P.dt * ∑ t ∈ range T, Spec.filtered P.L P.basis (fun t k => (S t k : ℝ)) t k1 b ≤ ∑ t ∈ range T, (S t k1 : ℝ) := by
      intro k1 hk1 b hb
      rw [sum_filtered, mul_sum]
      refine sum_le_sum fun s _ => ?_
      have : P.dt * ∑ l ∈ range P.L, (if s + l < T then P.basis l b else 0) ≤ 1 := by
        rw [← hb1 b hb]
        refine mul_le_mul_of_nonneg_left (sum_le_sum fun l hl => ?_) hdt.le
        split
        · exact le_rfl
        · exact hb0 l (mem_range.1 hl) b hb
      calc P.dt * ((S s k1 : ℝ) * ∑ l ∈ range P.L, (if s + l < T then P.basis l b else 0))
          = (S s k1 : ℝ) * (P.dt * ∑ l ∈ range P.L, (if s + l < T then P.basis l b else 0)) := by ring
        _ ≤ (S s k1 : ℝ) * 1 := mul_le_mul_of_nonneg_left this (Nat.cast_nonneg _)
        _ = _ := mul_one _
    have htermEq : (∀ t < T, ∀ k < P.K, T < t + P.L → S t k = 0) → ∀ k1 < P.K, ∀ b < P.B,
        P.dt * ∑ t ∈ range T, Spec.filtered P.L P.basis (fun t k => (S t k : ℝ)) t k1 b = ∑ t ∈ range T, (S t k1 : ℝ) := by
      intro hend k1 hk1 b hb
      rw [sum_filtered, mul_sum]
      refine sum_congr rfl fun s hs => ?_
      by_cases hz : T < s + P.L
      · rw [hend s (mem_range.1 hs) k1 hk1 hz]; simp
      · have : ∑ l ∈ range P.L, (if s + l < T then P.basis l b else 0) = ∑ l ∈ range P.L, P.basis l b :=
          sum_congr rfl fun l hl => by have := mem_range.1 hl; rw [if_pos (by omega)]
        rw [this]
        calc P.dt * ((S s k1 : ℝ) * ∑ l ∈ range P.L, P.basis l b)
            = (S s k1 : ℝ) * (P.dt * ∑ l ∈ range P.L, P.basis l b) := by ring
          _ = _ := by rw [hb1 b hb, mul_one]
    -- both log likelihoods as log-term minus integral
    have hll : llData P { T := T, S := S, F := F } = ∑ k2 ∈ range P.K, ((∑ t ∈ range T, (S t k2 : ℝ) * Real.log (r t k2))
        - P.lam0 k2 * (T * P.dt) - ∑ k1 ∈ range P.K, P.Weff k1 k2 * ∑ t ∈ range T, (S t k1 : ℝ)) := by
      rw [llData_eq_sum, sum_comm]
      refine sum_congr rfl fun k2 hk2 => ?_
      unfold llBin
      dsimp only
      rw [sum_sub_distrib, sum_sub_distrib]
      congr 1
      · congr 1
        · refine sum_congr rfl fun t ht => ?_
          rw [toU32_of_lt (h32 t (mem_range.1 ht) k2 (mem_range.1 hk2)), hr' t (mem_range.1 ht) k2 (mem_range.1 hk2)]
          congr 3
          refine sum_congr rfl fun k1 hk1 => sum_congr rfl fun b hb => ?_
          rw [hF' t (mem_range.1 ht) k1 (mem_range.1 hk1) b (mem_range.1 hb)]
        · rw [sum_const, card_range, nsmul_eq_mul]; ring
      · rw [sum_comm]; exact sum_congr rfl fun k1 _ => by rw [mul_sum]
    have hho : h = ∑ k2 ∈ range P.K, ((∑ t ∈ range T, (S t k2 : ℝ) * Real.log (r t k2))
        - P.lam0 k2 * (T * P.dt) - ∑ k1 ∈ range P.K, P.Weff k1 k2 * ∑ b ∈ range P.B, P.g k1 k2 b *
          (P.dt * ∑ t ∈ range T, Spec.filtered P.L P.basis (fun t k => (S t k : ℝ)) t k1 b)) := by
      rw [← hh]
      unfold poissonLL
      rw [sum_comm]
      refine sum_congr rfl fun k2 hk2 => ?_
      rw [sum_sub_distrib, sub_sub]
      congr 1
      have : ∀ t ∈ range T, r t k2 * P.dt = P.lam0 k2 * P.dt + ∑ k1 ∈ range P.K, P.Weff k1 k2 * ∑ b ∈ range P.B,
          P.g k1 k2 b * (P.dt * Spec.filtered P.L P.basis (fun t k => (S t k : ℝ)) t k1 b) := by
        intro t ht
        rw [hr' t (mem_range.1 ht) k2 (mem_range.1 hk2), add_mul, sum_mul]
        congr 1
        refine sum_congr rfl fun k1 _ => ?_
        rw [sum_mul, mul_sum]
        exact sum_congr rfl fun b _ => by ring
      rw [sum_congr rfl this, sum_add_distrib, sum_const, card_range, nsmul_eq_mul]
      congr 1
      · ring
      · rw [sum_comm]
        refine sum_congr rfl fun k1 _ => ?_
        rw [← mul_sum, sum_comm]
        congr 1
        refine sum_congr rfl fun b _ => ?_
        rw [← mul_sum, ← mul_sum]
    rw [hll, hho]
    constructor
    · refine sum_le_sum fun k2 hk2 => sub_le_sub_left (sum_le_sum fun k1 hk1 => ?_) _
      have h1 := mem_range.1 hk1
      have h2 := mem_range.1 hk2
      refine mul_le_mul_of_nonneg_left ?_ (hW k1 h1 k2 h2)
      calc _ ≤ ∑ b ∈ range P.B, P.g k1 k2 b * ∑ t ∈ range T, (S t k1 : ℝ) :=
            sum_le_sum fun b hb => mul_le_mul_of_nonneg_left (hterm k1 h1 b (mem_range.1 hb)) (hg0 k1 h1 k2 h2 b (mem_range.1 hb))
        _ = _ := by rw [← sum_mul, hg1 k1 h1 k2 h2, one_mul]
    · intro hend
      refine sum_congr rfl fun k2 hk2 => ?_
      congr 1
      refine sum_congr rfl fun k1 hk1 => ?_
      have h1 := mem_range.1 hk1
      have h2 := mem_range.1 hk2
      congr 1
      have : ∑ b ∈ range P.B, P.g k1 k2 b * (P.dt * ∑ t ∈ range T, Spec.filtered P.L P.basis (fun t k => (S t k : ℝ)) t k1 b)
          = ∑ b ∈ range P.B, P.g k1 k2 b * ∑ t ∈ range T, (S t k1 : ℝ) :=
        sum_congr rfl fun b hb => by rw [htermEq hend k1 h1 b (mem_range.1 hb)]
      rw [this, ← sum_mul, hg1 k1 h1 k2 h2, one_mul]

/-- a concrete model for C09: one process, unit basis delayed by one bin -/
noncomputable def demoReal : NetParams ℝ :=
  ⟨1, 1, 1, fun _ => 1, fun _ _ => 1/2, fun _ _ _ => 1, 2, fun l _ => if l = 0 then 0 else 1, true⟩

example : ∃ F h, convolve 3 demoReal.K demoReal.L demoReal.B demoReal.basis (fun t k => (((fun t _ => t) : Mat ℕ) t k : ℝ)) = .ok F ∧
    heldoutLL demoReal 3 (fun t _ => t) = .ok h ∧
    (∀ b < demoReal.B, demoReal.dt * ∑ l ∈ range demoReal.L, demoReal.basis l b = 1) := by
  obtain ⟨F, hF, -⟩ := C02_convolve_eq_filtered 3 1 2 1 demoReal.basis (fun t k => (((fun t _ => t) : Mat ℕ) t k : ℝ))
    (by omega) (by omega) (by omega) (by omega)
  obtain ⟨r, hr⟩ := (C05_compute_rate_ok_iff demoReal 3 1 (fun t k => (((fun t _ => t) : Mat ℕ) t k : ℝ))
    (by norm_num [demoReal]) (by norm_num [demoReal])).2 ⟨by omega, by omega, rfl⟩
  refine ⟨F, poissonLL 1 3 1 (fun t _ => t) r, hF, ?_, ?_⟩
  · unfold heldoutLL
    rw [show demoReal.K = 1 from rfl, hr]; rfl
  · intro b _; simp [demoReal, sum_range_succ]

/-! ### C10 -/

theorem mb_prefix (T m n : ℕ) :
    ((List.range n).map fun i => (i * m, min (i * m + m) T)).flatMap
      (fun b => (List.range (b.2 - b.1)).map (b.1 + ·)) = List.range (min (n * m) T) := by
  induction n with
  | zero => simp
  | succ n ih =>
    rw [List.range_succ, List.map_append, List.flatMap_append, ih]
    simp only [List.map_cons, List.map_nil, List.flatMap_cons, List.flatMap_nil, List.append_nil]
    by_cases h : n * m ≤ T
    · rw [min_eq_left h]
      have : min ((n + 1) * m) T = n * m + (min (n * m + m) T - n * m) := by
        rw [Nat.add_mul, one_mul]; omega
      rw [this, List.range_add]
    · have h1 : min (n * m) T = T := by omega
      have h2 : min ((n + 1) * m) T = T := by rw [Nat.add_mul, one_mul]; omega
      have h3 : min (n * m + m) T - n * m = 0 := by omega
      rw [h1, h2, h3]; simp

theorem ceil_mul_ge (T m : ℕ) (hm : 0 < m) : T ≤ (T + m - 1) / m * m := by
  have h1 := Nat.div_add_mod (T + m - 1) m
  have h2 := Nat.mod_lt (T + m - 1) hm
  rw [mul_comm] at h1
  omega

/-- **C10 (partition).** The minibatch boundaries cut `0..T-1` into consecutive blocks that concatenate to the whole range. -/
theorem C10_blocks_concat (T m : ℕ) (hm : 0 < m) :
    (mbBounds T m).flatMap (fun b => (List.range (b.2 - b.1)).map (b.1 + ·)) = List.range T := by
  unfold mbBounds
  rw [mb_prefix, min_eq_right (ceil_mul_ge T m hm)]

/-- **C10 (block sizes).** Every block is nonempty and has at most `m` bins. -/
theorem C10_block_size (T m : ℕ) (hm : 0 < m) : ∀ b ∈ mbBounds T m, b.1 < b.2 ∧ b.2 ≤ b.1 + m ∧ b.2 ≤ T := by
  intro b hb
  unfold mbBounds at hb
  obtain ⟨i, hi, rfl⟩ := List.mem_map.1 hb
  have hi := List.mem_range.1 hi
  have : (i + 1) * m ≤ T + m - 1 := by
    have h1 : i + 1 ≤ (T + m - 1) / m := hi
    calc (i + 1) * m ≤ (T + m - 1) / m * m := Nat.mul_le_mul_right m h1
      _ ≤ _ := Nat.div_mul_le_self _ _
  rw [Nat.add_mul, one_mul] at this
  refine ⟨?_, ?_, ?_⟩ <;> dsimp only <;> omega

theorem list_sum_flatMap {M : Type*} [AddCommMonoid M] {α β : Type*} (l : List α) (g : α → List β) (f : β → M) :
    ((l.flatMap g).map f).sum = (l.map fun a => ((g a).map f).sum).sum := by
  induction l with
  | nil => simp
  | cons a l ih => simp [ih]

theorem list_range_sum {M : Type*} [AddCommMonoid M] (n : ℕ) (f : ℕ → M) :
    ((List.range n).map f).sum = ∑ i ∈ range n, f i := by
  induction n with
  | zero => simp
  | succ n ih => rw [List.range_succ, List.map_append, List.sum_append, ih, sum_range_succ]; simp

/-- any per-bin total can be computed block by block -/
theorem sum_blocks {M : Type*} [AddCommMonoid M] (T m : ℕ) (hm : 0 < m) (f : ℕ → M) :
    ((mbBounds T m).map fun b => ∑ t ∈ range (b.2 - b.1), f (b.1 + t)).sum = ∑ t ∈ range T, f t := by
  rw [← list_range_sum T f, ← C10_blocks_concat T m hm, list_sum_flatMap]
  congr 1
  refine List.map_congr_left fun b _ => ?_
  rw [List.map_map, ← list_range_sum]
  rfl

/-- **C10 (add_data).** With a positive minibatch size, `add_data` appends blocks whose rows are exactly the rows of the counts and
of the filtered counts of the *whole* recording (so history is not cut at block boundaries), in order. -/
theorem C10_add_data_blocks {R : Type*} [Field R] [LinearOrder R] [IsStrictOrderedRing R]
    (P : NetParams R) (a : AddArgs R) (dl whole : List (DParents R)) (m : ℕ) (hm : 0 < m)
    (hw : addData P { a with minibatch := none } dl = .ok whole) :
    ∃ (D : DParents R) (blocks : List (DParents R)), whole = dl ++ [D] ∧ D.T = a.T ∧
      addData P { a with minibatch := some (m : ℤ) } dl = .ok (dl ++ blocks) ∧
      (∀ E ∈ blocks, 0 < E.T ∧ E.T ≤ m) ∧
      blocks.flatMap (fun E => (List.range E.T).map E.S) = (List.range D.T).map D.S ∧
      blocks.flatMap (fun E => (List.range E.T).map E.F) = (List.range D.T).map D.F ∧
      blocks = (mbBounds a.T m).map (fun b => sliceData D.S D.F b.1 b.2) := by
  unfold addData at hw ⊢
  dsimp only at hw ⊢
  split at hw
  · cases hw
  · rename_i h1
    rw [if_neg h1]
    split at hw
    · cases hw
    · rename_i h2
      rw [if_neg h2]
      split at hw
      · cases hw
      · rename_i h3
        rw [if_neg h3]
        split at hw
        · cases hw
        · rename_i F hF
          simp only [Except.ok.injEq] at hw
          refine ⟨{ T := a.T, S := fun t k => (a.S t k).toNat, F := F },
            (mbBounds a.T m).map fun b => sliceData (fun t k => (a.S t k).toNat) F b.1 b.2, hw.symm, rfl, ?_, ?_, ?_, ?_, rfl⟩
          · rw [hF]
            dsimp only
            rw [if_neg (by omega), if_neg (by omega)]
            simp
          · intro E hE
            obtain ⟨b, hb, rfl⟩ := List.mem_map.1 hE
            have := C10_block_size a.T m hm b hb
            simp only [sliceData]; omega
          · rw [← C10_blocks_concat a.T m hm, List.flatMap_map, List.map_flatMap]
            simp only [sliceData, List.map_map]
            rfl
          · rw [← C10_blocks_concat a.T m hm, List.flatMap_map, List.map_flatMap]
            simp only [sliceData, List.map_map]
            rfl

/-- **C10 (log likelihood).** The total log likelihood does not depend on whether the data was added whole or in minibatches. -/
theorem C10_log_likelihood (P : NetParams ℝ) (a : AddArgs ℝ) (dl whole mb : List (DParents ℝ)) (m : ℕ) (hm : 0 < m)
    (hw : addData P { a with minibatch := none } dl = .ok whole)
    (hmb : addData P { a with minibatch := some (m : ℤ) } dl = .ok mb) : llModel P mb = llModel P whole := by
  obtain ⟨D, blocks, rfl, hT, hb, -, -, -, hbl⟩ := C10_add_data_blocks P a dl whole m hm hw
  rw [hb] at hmb
  cases hmb
  rw [C08_model_sum, C08_model_sum, List.map_append, List.map_append, List.sum_append, List.sum_append]
  congr 1
  simp only [List.map_cons, List.map_nil, List.sum_cons, List.sum_nil, add_zero]
  rw [hbl, List.map_map, llData_eq_sum, hT,
    ← sum_blocks a.T m hm (fun t => ∑ k2 ∈ range P.K, llBin P (D.S t) (D.F t) k2)]
  congr 1
  refine List.map_congr_left fun b _ => ?_
  simp only [Function.comp_apply]
  rw [llData_eq_sum]
  rfl

section
variable {R : Type*} [Field R] [LinearOrder R] [IsStrictOrderedRing R]

/-- parents of a data set read off a table `z t k` of parent counts per absolute bin; `off` is the first bin of the data set -/
def withParents (z : ℕ → ℕ → Vec ℕ) (off : ℕ) (D : DParents R) : DParents R :=
  { D with Z := some fun k => (D.ts k).map fun t => z (off + t) k }

theorem sum_getZ_withParents (z : ℕ → ℕ → Vec ℕ) (off : ℕ) (D : DParents R) (k c : ℕ) :
    (((withParents z off D).getZ k).map fun r => r c).sum
      = ∑ t ∈ range D.T, if D.S t k ≠ 0 then z (off + t) k c else 0 := by
  unfold withParents DParents.getZ
  dsimp only
  rw [List.map_map]
  exact sum_ts D k (fun t => z (off + t) k c)

/-- **C10 (sufficient statistics).** For the same parent assignment of every event, the sufficient statistics summed over
minibatches equal those of the whole data set: background counts, exposure time, children per pair, children per basis function and event counts. -/
theorem C10_suff_stats (S : Mat ℕ) (F : Ten R) (z : ℕ → ℕ → Vec ℕ) (dt : R) (T m B : ℕ) (hm : 0 < m) :
    let whole := withParents z 0 (sliceData S F 0 T)
    let blocks := (mbBounds T m).map fun b => withParents z b.1 (sliceData S F b.1 b.2)
    (∀ k, (blocks.map fun D => bkgdSS0 D k).sum = bkgdSS0 whole k) ∧
    (∀ k, (blocks.map fun D => bkgdSS1 D dt k).sum = bkgdSS1 whole dt k) ∧
    (∀ k1 k2, (blocks.map fun D => weightSS0 D B k1 k2).sum = weightSS0 whole B k1 k2) ∧
    (∀ k1 k2, (blocks.map fun D => weightSS1 D k1 k2).sum = weightSS1 whole k1 k2) ∧
    (∀ k1 k2 b, (blocks.map fun D => irSS D B k1 k2 b).sum = irSS whole B k1 k2 b) := by
  intro whole blocks
  have key : ∀ k c, (blocks.map fun D => ((D.getZ k).map fun r => r c).sum).sum = ((whole.getZ k).map fun r => r c).sum := by
    intro k c
    simp only [blocks, whole, List.map_map]
    rw [sum_getZ_withParents]
    simp only [sliceData, Nat.sub_zero, Nat.zero_add]
    rw [← sum_blocks T m hm (fun t => if S t k ≠ 0 then z t k c else 0)]
    congr 1
    refine List.map_congr_left fun b _ => ?_
    simp only [Function.comp_apply]
    rw [sum_getZ_withParents]
  have hsum : ∀ (f : ℕ → DParents R → ℕ), (blocks.map fun D => ∑ b ∈ range B, f b D).sum = ∑ b ∈ range B, (blocks.map fun D => f b D).sum := by
    intro f
    generalize blocks = l
    induction l with
    | nil => simp
    | cons D l ih => simp only [List.map_cons, List.sum_cons, ih, sum_add_distrib]
  refine ⟨fun k => key k 0, fun k => ?_, fun k1 k2 => ?_, fun k1 k2 => ?_, fun k1 k2 b => key k2 _⟩
  · simp only [blocks, whole, List.map_map, bkgdSS1, withParents, sliceData, Nat.sub_zero]
    have := sum_blocks T m hm (fun _ => dt)
    simp only [sum_const, card_range, nsmul_eq_mul] at this
    exact this
  · unfold weightSS0
    rw [hsum]
    exact sum_congr rfl fun b _ => key k2 _
  · simp only [blocks, whole, List.map_map, weightSS1]
    rw [show (withParents z 0 (sliceData S F 0 T)).Ns k1 = (sliceData S F 0 T).Ns k1 from rfl, Ns_eq]
    simp only [sliceData, Nat.sub_zero, Nat.zero_add]
    rw [← sum_blocks T m hm (fun t => S t k1)]
    congr 1
    refine List.map_congr_left fun b _ => ?_
    exact Ns_eq (sliceData S F b.1 b.2) k1

/-- **C10 (boundary).** A negative minibatch size silently adds nothing; size zero raises. -/
theorem C10_bad_minibatch (P : NetParams R) (a : AddArgs R) (dl whole : List (DParents R))
    (hw : addData P { a with minibatch := none } dl = .ok whole) (m : ℤ) :
    (m < 0 → addData P { a with minibatch := some m } dl = .ok dl) ∧
    (m = 0 → addData P { a with minibatch := some m } dl = .error .exception) := by
  unfold addData at hw ⊢
  dsimp only at hw ⊢
  split at hw
  · cases hw
  · rename_i h1
    split at hw
    · cases hw
    · rename_i h2
      split at hw
      · cases hw
      · rename_i h3
        split at hw
        · cases hw
        · rename_i F hF
          rw [if_neg h1, if_neg h2, if_neg h3, hF]
          dsimp only
          constructor
          · intro hm; rw [if_neg (by omega), if_pos hm]
          · intro hm; rw [if_pos hm]

example : ∃ whole, addData demoNet { T := 5, KS := 2, isInt := true, S := fun t k => t + k, F := none, minibatch := none } [] = .ok whole := by
  obtain ⟨F, hF, -⟩ := C02_convolve_eq_filtered 5 2 2 1 demoNet.basis (fun t k => (((fun t k => (t : ℤ) + k) : Mat ℤ) t k : ℚ))
    (by omega) (by omega) (by omega) (by omega)
  unfold addData
  dsimp only
  rw [if_neg (by simp [demoNet]), if_neg (by omega), if_neg (by
    push Not; exact ⟨fun t _ k _ => by omega, rfl⟩)]
  rw [show demoNet.K = 2 from rfl, show demoNet.L = 2 from rfl, show demoNet.B = 1 from rfl, hF]
  exact ⟨_, rfl⟩

end
end PyHawkes
