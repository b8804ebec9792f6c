import Verif.Props.LogLik
import Verif.Model.ExpectedLL

/-! # C98: the exact and the approximate weight statistics -/
set_option linter.unusedSectionVars false

namespace PyHawkes
open Finset

section
variable {R : Type*} [Field R] [LinearOrder R] [IsStrictOrderedRing R]

theorem exactFill_eq (K B T : ℕ) (A : Mat R) (g F : Ten R) (s1 : Mat R) (i j : ℕ) :
    exactFill K B T A g F s1 i j = if i < K ∧ j < K then A i j * ∑ t ∈ range T, ∑ b ∈ range B, F t i b * g i j b else s1 i j := by
  have row : ∀ (n k1 : ℕ) (m : Mat R) (i j : ℕ), forRange n (fun k2 m => Mat.set m k1 k2 (A k1 k2 * ∑ t ∈ range T, ∑ b ∈ range B, F t k1 b * g k1 k2 b)) m i j
      = if i = k1 ∧ j < n then A i j * ∑ t ∈ range T, ∑ b ∈ range B, F t i b * g i j b else m i j := by
    intro n k1 m
    induction n with
    | zero => intro i j; simp
    | succ n ih =>
      intro i j
      rw [forRange_succ]
      by_cases h : i = k1 ∧ j = n
      · obtain ⟨rfl, rfl⟩ := h
        simp [Mat.set]
      · have e : (i = k1 ∧ j < n + 1) ↔ (i = k1 ∧ j < n) := by
          constructor
          · rintro ⟨h1, h2⟩
            have h3 : j ≠ n := fun h3 => h ⟨h1, h3⟩
            exact ⟨h1, by omega⟩
          · rintro ⟨h1, h2⟩; exact ⟨h1, by omega⟩
        simp only [Mat.set, if_neg h, ih, e]
  have all : ∀ (n : ℕ), ∀ i j, forRange n (fun k1 m => forRange K (fun k2 m => Mat.set m k1 k2 (A k1 k2 * ∑ t ∈ range T, ∑ b ∈ range B, F t k1 b * g k1 k2 b)) m) s1 i j
      = if i < n ∧ j < K then A i j * ∑ t ∈ range T, ∑ b ∈ range B, F t i b * g i j b else s1 i j := by
    intro n
    induction n with
    | zero => intro i j; simp
    | succ n ih =>
      intro i j
      rw [forRange_succ, row, ih]
      by_cases h : i = n
      · subst h; by_cases hj : j < K <;> simp [hj]
      · have e : (i < n + 1) ↔ (i < n) := by omega
        simp [h, e]
  exact all K i j

/-- what the two statistics are, entry by entry -/
theorem approxWeightSS_eq (K B : ℕ) (D : DParents R) {i j : ℕ} (hj : j < K) :
    (approxWeightSS K B D).s0 i j = (weightSS0 D B i j : R) ∧ (approxWeightSS K B D).s1 i j = (D.Ns i : R) := by
  have : ∀ n, ∀ j < n, (forRange n (fun k2 (ss : WeightSS R) =>
      { s0 := fun i j => if j = k2 then (∑ b ∈ range B, ((D.getZ k2).map fun z => z (1 + i * B + b)).sum : ℕ) else ss.s0 i j
        s1 := fun i j => if j = k2 then (D.Ns i : R) else ss.s1 i j }) ⟨fun _ _ => 0, fun _ _ => 0⟩).s0 i j = (weightSS0 D B i j : R) ∧
      (forRange n (fun k2 (ss : WeightSS R) =>
      { s0 := fun i j => if j = k2 then (∑ b ∈ range B, ((D.getZ k2).map fun z => z (1 + i * B + b)).sum : ℕ) else ss.s0 i j
        s1 := fun i j => if j = k2 then (D.Ns i : R) else ss.s1 i j }) ⟨fun _ _ => 0, fun _ _ => 0⟩).s1 i j = (D.Ns i : R) := by
    intro n
    induction n with
    | zero => intro j hj; omega
    | succ n ih =>
      intro j hj
      rw [forRange_succ]
      by_cases h : j = n
      · subst h; simp [weightSS0]
      · simpa [h] using ih j (by omega)
  exact this K j hj

theorem exactWeightSS_eq (K B : ℕ) (A : Mat R) (g : Ten R) (D : DParents R) {i j : ℕ} (hi : i < K) (hj : j < K) :
    (exactWeightSS K B A g D).s0 i j = (weightSS0 D B i j : R) ∧
    (exactWeightSS K B A g D).s1 i j = A i j * ∑ t ∈ range D.T, ∑ b ∈ range B, D.F t i b * g i j b := by
  have h0 : ∀ n, ∀ j < n, (forRange n (fun k2 (ss : WeightSS R) =>
      { s0 := fun i j => if j = k2 then (∑ b ∈ range B, ((D.getZ k2).map fun z => z (1 + i * B + b)).sum : ℕ) else ss.s0 i j
        s1 := exactFill K B D.T A g D.F ss.s1 }) ⟨fun _ _ => 0, fun _ _ => 0⟩).s0 i j = (weightSS0 D B i j : R) := by
    intro n
    induction n with
    | zero => intro j hj; omega
    | succ n ih =>
      intro j hj
      rw [forRange_succ]
      by_cases h : j = n
      · subst h; simp [weightSS0]
      · simpa [h] using ih j (by omega)
  refine ⟨h0 K j hj, ?_⟩
  unfold exactWeightSS
  obtain ⟨n, rfl⟩ : ∃ n, K = n + 1 := ⟨K - 1, by omega⟩
  rw [forRange_succ]
  dsimp only
  rw [exactFill_eq, if_pos ⟨hi, hj⟩]

/-- **C98 (parent counts).** Both methods report, for every ordered pair of processes, the number of events of the target attributed to the source. -/
theorem C98_same_counts (K B : ℕ) (A : Mat R) (g : Ten R) (D : DParents R) {i j : ℕ} (hi : i < K) (hj : j < K) :
    (exactWeightSS K B A g D).s0 i j = (weightSS K B D).s0 i j ∧
    (weightSS K B D).s0 i j = ∑ b ∈ range B, ((D.getZ j).map fun z => (z (1 + i * B + b) : R)).sum := by
  rw [weightSS, (approxWeightSS_eq K B D hj).1, (exactWeightSS_eq K B A g D hi hj).1]
  refine ⟨rfl, ?_⟩
  rw [weightSS0, Nat.cast_sum]
  exact sum_congr rfl fun b _ => by rw [Nat.cast_list_sum, List.map_map]; rfl

/-- **C98 (what the exact statistic is).** With effective weights `A*W`, the expected number of events of each process over the recording is its background part plus the
weights times `dt` times the exact statistic: the exact statistic, times the bin width, is what multiplies the weight in the likelihood. -/
theorem C98_exact_is_integrated_response (P : NetParams R) (A W : Mat R) (hW : ∀ i < P.K, ∀ j < P.K, P.Weff i j = A i j * W i j) (D : DParents R) {j : ℕ} (hj : j < P.K) :
    ∑ t ∈ range D.T, P.dt * Spec.rate P.K P.B P.lam0 P.Weff P.g D.F t j =
      P.lam0 j * (D.T * P.dt) + ∑ i ∈ range P.K, W i j * (P.dt * (exactWeightSS P.K P.B A P.g D).s1 i j) := by
  have e : ∀ i ∈ range P.K, W i j * (P.dt * (exactWeightSS P.K P.B A P.g D).s1 i j)
      = ∑ t ∈ range D.T, P.dt * ∑ b ∈ range P.B, P.Weff i j * P.g i j b * D.F t i b := by
    intro i hi
    rw [(exactWeightSS_eq P.K P.B A P.g D (mem_range.1 hi) hj).2, hW i (mem_range.1 hi) j hj, mul_sum, mul_sum, mul_sum]
    refine sum_congr rfl fun t _ => ?_
    rw [mul_sum, mul_sum, mul_sum, mul_sum]
    exact sum_congr rfl fun b _ => by ring
  rw [sum_congr rfl e, sum_comm]
  have c : P.lam0 j * (D.T * P.dt) = ∑ _t ∈ range D.T, P.dt * P.lam0 j := by rw [sum_const, card_range, nsmul_eq_mul]; ring
  rw [c, ← sum_add_distrib]
  refine sum_congr rfl fun t _ => ?_
  rw [Spec.rate, mul_add, mul_sum]

/-- **C98 (minibatches).** Splitting a recording at any bin splits both statistics: the sums over the two parts are the statistics of the whole. -/
theorem C98_additive (K B : ℕ) (A : Mat R) (g F : Ten R) (S : Mat ℕ) {i j : ℕ} (hi : i < K) (hj : j < K) (a b : ℕ) :
    (exactWeightSS K B A g (sliceData S F 0 a)).s1 i j + (exactWeightSS K B A g (sliceData S F a (a + b))).s1 i j
      = (exactWeightSS K B A g (sliceData S F 0 (a + b))).s1 i j ∧
    (weightSS K B (sliceData S F 0 a)).s1 i j + (weightSS K B (sliceData S F a (a + b))).s1 i j = (weightSS K B (sliceData S F 0 (a + b))).s1 i j := by
  simp only [weightSS, (approxWeightSS_eq K B _ hj).2, (exactWeightSS_eq K B A g _ hi hj).2, Ns_eq, sliceData, Nat.sub_zero, zero_add, Nat.add_sub_cancel_left]
  refine ⟨?_, ?_⟩
  · rw [← mul_add, sum_range_add]
  · rw [← Nat.cast_add, sum_range_add]
end

/-- **C98 (exact against approximate).** For counts filtered by the model's own basis, if the basis is nonnegative with unit area and the impulse weights are
nonnegative and sum to one, then `dt` times the exact statistic is at most the approximate one times `A`, and equal to it if the source has no events in the
last `L` bins. -/
theorem C98_exact_le_approx (P : NetParams ℝ) (A : Mat ℝ) (T : ℕ) (S : Mat ℕ) (F : Ten ℝ) (hdt : 0 < P.dt)
    (hF : convolve T P.K P.L P.B P.basis (fun t k => (S t k : ℝ)) = .ok F)
    (hb0 : ∀ l < P.L, ∀ b < P.B, 0 ≤ P.basis l b) (hb1 : ∀ b < P.B, P.dt * ∑ l ∈ range P.L, P.basis l b = 1)
    {i j : ℕ} (hi : i < P.K) (hj : j < P.K) (hA : 0 ≤ A i j)
    (hg0 : ∀ b < P.B, 0 ≤ P.g i j b) (hg1 : ∑ b ∈ range P.B, P.g i j b = 1) (Z : Option (ℕ → List (Vec ℕ))) (EZ : Option (ℕ → List (Vec ℝ))) :
    P.dt * (exactWeightSS P.K P.B A P.g { T := T, S := S, F := F, Z := Z, EZ := EZ }).s1 i j
      ≤ A i j * (weightSS P.K P.B { T := T, S := S, F := F, Z := Z, EZ := EZ }).s1 i j ∧
    ((∀ t < T, T < t + P.L → S t i = 0) →
      P.dt * (exactWeightSS P.K P.B A P.g { T := T, S := S, F := F, Z := Z, EZ := EZ }).s1 i j
        = A i j * (weightSS P.K P.B { T := T, S := S, F := F, Z := Z, EZ := EZ }).s1 i j) := by
  have hF' := convolve_ok_eq hF
  have hterm : ∀ b < P.B, P.dt * ∑ t ∈ range T, F t i b ≤ ∑ t ∈ range T, (S t i : ℝ) := by
    intro b hb
    rw [sum_congr rfl fun t ht => hF' t (mem_range.1 ht) i hi b hb, sum_filtered, mul_sum]
    refine sum_le_sum fun s _ => ?_
    have : P.dt * ∑ l ∈ range P.L, (if s + l < T then P.basis l b else 0) ≤ 1 := by
      rw [← hb1 b hb]
      refine mul_le_mul_of_nonneg_left (sum_le_sum fun l hl => ?_) hdt.le
      split
      · exact le_rfl
      · exact hb0 l (mem_range.1 hl) b hb
    calc P.dt * ((S s i : ℝ) * ∑ l ∈ range P.L, (if s + l < T then P.basis l b else 0))
        = (S s i : ℝ) * (P.dt * ∑ l ∈ range P.L, (if s + l < T then P.basis l b else 0)) := by ring
      _ ≤ (S s i : ℝ) * 1 := mul_le_mul_of_nonneg_left this (Nat.cast_nonneg _)
      _ = _ := mul_one _
  have htermEq : (∀ t < T, T < t + P.L → S t i = 0) → ∀ b < P.B, P.dt * ∑ t ∈ range T, F t i b = ∑ t ∈ range T, (S t i : ℝ) := by
    intro hend b hb
    rw [sum_congr rfl fun t ht => hF' t (mem_range.1 ht) i hi b hb, sum_filtered, mul_sum]
    refine sum_congr rfl fun s hs => ?_
    by_cases hz : T < s + P.L
    · rw [hend s (mem_range.1 hs) hz]; simp
    · have : ∑ l ∈ range P.L, (if s + l < T then P.basis l b else 0) = ∑ l ∈ range P.L, P.basis l b :=
        sum_congr rfl fun l hl => by have := mem_range.1 hl; rw [if_pos (by omega)]
      rw [this]
      calc P.dt * ((S s i : ℝ) * ∑ l ∈ range P.L, P.basis l b)
          = (S s i : ℝ) * (P.dt * ∑ l ∈ range P.L, P.basis l b) := by ring
        _ = _ := by rw [hb1 b hb, mul_one]
  rw [weightSS, (approxWeightSS_eq P.K P.B _ hj).2, (exactWeightSS_eq P.K P.B A P.g _ hi hj).2, Ns_eq]
  have e : P.dt * (A i j * ∑ t ∈ range T, ∑ b ∈ range P.B, F t i b * P.g i j b) = A i j * ∑ b ∈ range P.B, P.g i j b * (P.dt * ∑ t ∈ range T, F t i b) := by
    rw [sum_comm, mul_left_comm, mul_sum]
    congr 1
    refine sum_congr rfl fun b _ => ?_
    rw [← sum_mul]; ring
  have n : ((∑ t ∈ range T, S t i : ℕ) : ℝ) = ∑ b ∈ range P.B, P.g i j b * ∑ t ∈ range T, (S t i : ℝ) := by
    rw [← sum_mul, hg1, one_mul, Nat.cast_sum]
  show P.dt * (A i j * ∑ t ∈ range T, ∑ b ∈ range P.B, F t i b * P.g i j b) ≤ A i j * ((∑ t ∈ range T, S t i : ℕ) : ℝ) ∧ (_ →
    P.dt * (A i j * ∑ t ∈ range T, ∑ b ∈ range P.B, F t i b * P.g i j b) = A i j * ((∑ t ∈ range T, S t i : ℕ) : ℝ))
  rw [e, n]
  refine ⟨mul_le_mul_of_nonneg_left (sum_le_sum fun b hb => mul_le_mul_of_nonneg_left (hterm b (mem_range.1 hb)) (hg0 b (mem_range.1 hb))) hA, fun hend => ?_⟩
  congr 1
  exact sum_congr rfl fun b hb => by rw [htermEq hend b (mem_range.1 hb)]

/-- a model with two processes and bins of width one half, whose single basis function is constant over two bins -/
noncomputable def wsDemo : NetParams ℝ :=
  { K := 2, B := 1, dt := 1 / 2, lam0 := fun _ => 1, Weff := fun _ _ => 1, g := fun _ _ _ => 1, L := 2, basis := fun _ _ => 1 }

/-- five bins, with events of both processes in the first two -/
def wsCounts : Mat ℕ := fun t k => if t < 2 then t + k + 1 else 0

/-- the hypotheses are met by a model with bins of width one half, and events early enough for equality -/
theorem wsDemo_ok : (∀ l < wsDemo.L, ∀ b < wsDemo.B, 0 ≤ wsDemo.basis l b) ∧ (∀ b < wsDemo.B, wsDemo.dt * ∑ l ∈ range wsDemo.L, wsDemo.basis l b = 1) ∧
    (∑ b ∈ range wsDemo.B, wsDemo.g 0 1 b = 1) ∧ (∀ t < 5, 5 < t + wsDemo.L → wsCounts t 0 = 0) ∧
    ∃ F, convolve 5 wsDemo.K wsDemo.L wsDemo.B wsDemo.basis (fun t k => (wsCounts t k : ℝ)) = .ok F := by
  refine ⟨fun l _ b _ => by norm_num [wsDemo], fun b _ => by norm_num [wsDemo], by norm_num [wsDemo], fun t ht h => ?_, ?_⟩
  · dsimp [wsDemo] at h; rw [wsCounts, if_neg (by omega)]
  · obtain ⟨F, h, _⟩ := C02_convolve_eq_filtered 5 2 2 1 wsDemo.basis (fun t k => (wsCounts t k : ℝ)) (by norm_num) (by norm_num) (by norm_num) (by norm_num)
    exact ⟨F, h⟩

/-- **C98 (finding).** `compute_exact_weight_ss`, "for comparison" with the approximate statistic, omits the bin width: with bins of width one half and all events early, so that
the approximation is exact, it returns twice the value. -/
theorem C98_bin_width_violated (F : Ten ℝ) (hF : convolve 5 wsDemo.K wsDemo.L wsDemo.B wsDemo.basis (fun t k => (wsCounts t k : ℝ)) = .ok F) :
    (exactWeightSS 2 1 (fun _ _ => 1) wsDemo.g { T := 5, S := wsCounts, F := F }).s1 0 1 = 6 ∧ (weightSS 2 1 ({ T := 5, S := wsCounts, F := F } : DParents ℝ)).s1 0 1 = 3 := by
  obtain ⟨h1, h2, h3, h4, _⟩ := wsDemo_ok
  have h := (C98_exact_le_approx wsDemo (fun _ _ => 1) 5 wsCounts F (by norm_num [wsDemo]) hF h1 h2 (i := 0) (j := 1) (by norm_num [wsDemo]) (by norm_num [wsDemo]) zero_le_one
    (fun b _ => by norm_num [wsDemo]) h3 none none).2 h4
  have n : (weightSS 2 1 ({ T := 5, S := wsCounts, F := F } : DParents ℝ)).s1 0 1 = 3 := by
    rw [weightSS, (approxWeightSS_eq 2 1 _ (by norm_num)).2, Ns_eq]
    norm_num [wsCounts, sum_range_succ]
  refine ⟨?_, n⟩
  have h' : (1 / 2 : ℝ) * (exactWeightSS 2 1 (fun _ _ => 1) wsDemo.g { T := 5, S := wsCounts, F := F }).s1 0 1 = 1 * (weightSS 2 1 ({ T := 5, S := wsCounts, F := F } : DParents ℝ)).s1 0 1 := h
  rw [n] at h'
  linarith

end PyHawkes
