import Verif.Model.CosineBasis
import Verif.Spec.Basis
import Mathlib.Algebra.BigOperators.Field

/-!
# C01–C04: filtering and bases
-/

set_option linter.unusedSectionVars false

namespace PyHawkes
open Finset

section
variable {R : Type*} [Field R] [LinearOrder R] [IsStrictOrderedRing R]

theorem convRaw_eq (T L : ℕ) (basis S : Mat R) (t k b : ℕ) (ht : t < T) :
    convRaw T L basis S t k b = Spec.filtered L basis S t k b := by
  unfold convRaw Spec.filtered
  rw [sum_comm]
  refine sum_congr rfl fun l _ => ?_
  by_cases hl : l ≤ t
  · rw [if_pos hl, sum_eq_single (t - l)]
    · rw [if_pos (by omega), mul_comm]
    · intro i _ hi; rw [if_neg (by omega)]
    · intro h; exact absurd (mem_range.2 (by omega)) h
  · rw [if_neg hl]; exact sum_eq_zero fun i _ => if_neg (by omega)

theorem filtered_nonneg {L : ℕ} {basis S : Mat R} {t k b : ℕ}
    (hb : ∀ l < L, 0 ≤ basis l b) (hS : ∀ s ≤ t, 0 ≤ S s k) : 0 ≤ Spec.filtered L basis S t k b := by
  refine sum_nonneg fun l hl => ?_
  split
  · exact mul_nonneg (hb l (mem_range.1 hl)) (hS _ (by omega))
  · exact le_rfl

/-- **C02 (main).** Whenever no extent is empty, filtering succeeds and returns exactly the causal convolution,
for signed or nonnegative bases and counts alike (so the final clip never changes anything and its assertion never fires). -/
theorem C02_convolve_eq_filtered (T K L B : ℕ) (basis S : Mat R)
    (hT : 0 < T) (hK : 0 < K) (hL : 0 < L) (hB : 0 < B) :
    ∃ F, convolve T K L B basis S = .ok F ∧
      ∀ t < T, ∀ k < K, ∀ b < B, F t k b = Spec.filtered L basis S t k b := by
  unfold convolve
  rw [if_neg hB.ne', if_neg (by omega)]
  dsimp only
  by_cases h : (∀ l < L, ∀ b < B, 0 ≤ basis l b) ∧ (∀ t < T, ∀ k < K, 0 ≤ S t k)
  · rw [if_pos h, if_pos (show ∀ t < T, ∀ k < K, ∀ b < B, 0 ≤ clipLow (convRaw T L basis S) t k b from
      fun t _ k _ b _ => le_max_left _ _)]
    refine ⟨_, rfl, fun t ht k hk b hb => ?_⟩
    unfold clipLow
    rw [convRaw_eq _ _ _ _ _ _ _ ht]
    exact max_eq_right (filtered_nonneg (fun l hl => h.1 l hl b hb) (fun s hs => h.2 s (by omega) k hk))
  · rw [if_neg h]
    exact ⟨_, rfl, fun t ht k hk b hb => convRaw_eq _ _ _ _ _ _ _ ht⟩

/-- **C02 (errors).** Filtering raises exactly when some extent is empty. -/
theorem C02_convolve_error_iff (T K L B : ℕ) (basis S : Mat R) :
    (∃ e, convolve T K L B basis S = .error e) ↔ (T = 0 ∨ K = 0 ∨ L = 0 ∨ B = 0) := by
  constructor
  · rintro ⟨e, he⟩
    by_contra hne
    obtain ⟨F, hF, -⟩ := C02_convolve_eq_filtered T K L B basis S (by omega) (by omega) (by omega) (by omega)
    rw [hF] at he; cases he
  · intro h
    unfold convolve
    by_cases hB : B = 0
    · exact ⟨_, if_pos hB⟩
    · rw [if_neg hB, if_pos (by omega)]; exact ⟨_, rfl⟩

/-- **C01.** If two recordings (possibly of different length) agree on all bins that basis support allows
(strictly earlier bins when the first basis row is zero, bins up to `t` otherwise), the filtered
counts of bin `t` agree. `inst = false` is `allow_instantaneous=False`. -/
theorem C01_causal (T T' K L B : ℕ) (basis S S' : Mat R) (F F' : Ten R) (inst : Bool)
    (hrow : inst = false → ∀ b < B, basis 0 b = 0)
    (hF : convolve T K L B basis S = .ok F) (hF' : convolve T' K L B basis S' = .ok F')
    (t : ℕ) (ht : t < T) (ht' : t < T')
    (hagree : ∀ s, (if inst then s ≤ t else s < t) → ∀ k < K, S s k = S' s k) :
    ∀ k < K, ∀ b < B, F t k b = F' t k b := by
  have hne : ∀ (T : ℕ) (S : Mat R) (F : Ten R), convolve T K L B basis S = .ok F →
      0 < K ∧ 0 < L ∧ 0 < B := by
    intro T S F h
    have : ¬ ∃ e, convolve T K L B basis S = .error e := by rintro ⟨e, he⟩; rw [he] at h; cases h
    rw [C02_convolve_error_iff] at this; omega
  obtain ⟨hK, hL, hB⟩ := hne T S F hF
  intro k hk b hb
  obtain ⟨G, hG, hGs⟩ := C02_convolve_eq_filtered T K L B basis S (by omega) hK hL hB
  obtain ⟨G', hG', hGs'⟩ := C02_convolve_eq_filtered T' K L B basis S' (by omega) hK hL hB
  rw [hF] at hG; cases hG
  rw [hF'] at hG'; cases hG'
  rw [hGs t ht k hk b hb, hGs' t ht' k hk b hb]
  refine sum_congr rfl fun l _ => ?_
  by_cases hl : l ≤ t
  · rw [if_pos hl, if_pos hl]
    cases inst with
    | false =>
      by_cases h0 : l = 0
      · subst h0; rw [hrow rfl b hb]; ring
      · rw [hagree (t - l) (by simp; omega) k hk]
    | true => rw [hagree (t - l) (by simp) k hk]
  · rw [if_neg hl, if_neg hl]

/-- **C02 (linearity).** -/
theorem C02_linear (T K L B : ℕ) (basis S S' : Mat R) (c d : R) (F F' G : Ten R)
    (hF : convolve T K L B basis S = .ok F) (hF' : convolve T K L B basis S' = .ok F')
    (hG : convolve T K L B basis (fun t k => c * S t k + d * S' t k) = .ok G) :
    ∀ t < T, ∀ k < K, ∀ b < B, G t k b = c * F t k b + d * F' t k b := by
  intro t ht k hk b hb
  have hne : ¬ ∃ e, convolve T K L B basis S = .error e := by rintro ⟨e, he⟩; rw [he] at hF; cases hF
  rw [C02_convolve_error_iff] at hne
  have key := fun S => C02_convolve_eq_filtered T K L B basis S (by omega) hk.pos (by omega) hb.pos
  obtain ⟨F1, h1, e1⟩ := key S; rw [hF] at h1; cases h1
  obtain ⟨F2, h2, e2⟩ := key S'; rw [hF'] at h2; cases h2
  obtain ⟨F3, h3, e3⟩ := key (fun t k => c * S t k + d * S' t k); rw [hG] at h3; cases h3
  rw [e1 t ht k hk b hb, e2 t ht k hk b hb, e3 t ht k hk b hb]
  unfold Spec.filtered
  rw [mul_sum, mul_sum, ← sum_add_distrib]
  refine sum_congr rfl fun l _ => ?_
  split <;> ring

/-- **C02 (processes are filtered separately).** -/
theorem C02_separate (T K K' L B : ℕ) (basis S S' : Mat R) (F F' : Ten R)
    (hF : convolve T K L B basis S = .ok F) (hF' : convolve T K' L B basis S' = .ok F')
    (k : ℕ) (hk : k < K) (k' : ℕ) (hk' : k' < K') (hcol : ∀ t < T, S t k = S' t k') :
    ∀ t < T, ∀ b < B, F t k b = F' t k' b := by
  intro t ht b hb
  have hne : ¬ ∃ e, convolve T K L B basis S = .error e := by rintro ⟨e, he⟩; rw [he] at hF; cases hF
  rw [C02_convolve_error_iff] at hne
  obtain ⟨F1, h1, e1⟩ := C02_convolve_eq_filtered T K L B basis S (by omega) hk.pos (by omega) hb.pos
  rw [hF] at h1; cases h1
  obtain ⟨F2, h2, e2⟩ := C02_convolve_eq_filtered T K' L B basis S' (by omega) hk'.pos (by omega) hb.pos
  rw [hF'] at h2; cases h2
  rw [e1 t ht k hk b hb, e2 t ht k' hk' b hb]
  refine sum_congr rfl fun l _ => ?_
  split
  · rw [hcol _ (by omega)]
  · rfl

/-- **C02 (nonnegativity).** -/
theorem C02_nonneg (T K L B : ℕ) (basis S : Mat R) (F : Ten R)
    (hb : ∀ l < L, ∀ b < B, 0 ≤ basis l b) (hS : ∀ t < T, ∀ k < K, 0 ≤ S t k)
    (hF : convolve T K L B basis S = .ok F) :
    ∀ t < T, ∀ k < K, ∀ b < B, 0 ≤ F t k b := by
  intro t ht k hk b hb'
  have hne : ¬ ∃ e, convolve T K L B basis S = .error e := by rintro ⟨e, he⟩; rw [he] at hF; cases hF
  rw [C02_convolve_error_iff] at hne
  obtain ⟨F1, h1, e1⟩ := C02_convolve_eq_filtered T K L B basis S (by omega) hk.pos (by omega) hb'.pos
  rw [hF] at h1; cases h1
  rw [e1 t ht k hk b hb']
  exact filtered_nonneg (fun l hl => hb l hl b hb') (fun s hs => hS s (by omega) k hk)

/-- **C02 (prefixes).** Filtering the first `T'` bins gives the first `T'` bins of the filtered data. -/
theorem C02_prefix (T T' K L B : ℕ) (basis S : Mat R) (F : Ten R) (hT' : 0 < T') (hTT : T' ≤ T)
    (hF : convolve T K L B basis S = .ok F) :
    ∃ F', convolve T' K L B basis S = .ok F' ∧ ∀ t < T', ∀ k < K, ∀ b < B, F' t k b = F t k b := by
  have hne : ¬ ∃ e, convolve T K L B basis S = .error e := by rintro ⟨e, he⟩; rw [he] at hF; cases hF
  rw [C02_convolve_error_iff] at hne
  obtain ⟨F1, h1, e1⟩ := C02_convolve_eq_filtered T K L B basis S (by omega) (by omega) (by omega) (by omega)
  rw [hF] at h1; cases h1
  obtain ⟨F2, h2, e2⟩ := C02_convolve_eq_filtered T' K L B basis S (by omega) (by omega) (by omega) (by omega)
  exact ⟨F2, h2, fun t ht k hk b hb => by rw [e1 t (by omega) k hk b hb, e2 t ht k hk b hb]⟩

end

section
variable {R : Type*} [Field R] [LinearOrder R] [IsStrictOrderedRing R] [FloorSemiring R]

/-- **C01 (basis side).** Every interpolated basis built with `allow_instantaneous=False` starts with a zero row, so
`C01_causal` applies to it with `inst = false`. -/
theorem C01_interpolated_first_row (L B : ℕ) (basis : Mat R) (dt dtMax : R) (norm : Bool) (out : BasisArr R)
    (h : interpolateBasis L B basis dt dtMax norm false = .ok out) : ∀ b, out.val 0 b = 0 := by
  unfold interpolateBasis at h
  dsimp only at h
  split at h
  · cases h
  · simp only [Bool.false_eq_true, if_false] at h
    cases h; intro b; rfl

/-- **C01 (basis side, identity basis).** -/
theorem C01_identity_first_row (dt dtMax : R) (norm : Bool) (out : BasisArr R)
    (h : identityBasis dt dtMax norm false = .ok out) : ∀ b < out.cols, out.val 0 b = 0 := by
  unfold identityBasis at h
  simp only [Bool.false_eq_true, if_false, ne_eq, not_true_eq_false] at h
  cases norm with
  | false => simp at h; subst h; intro b _; rfl
  | true =>
    simp only [if_true] at h
    unfold normCols at h
    split at h
    · cases h
    · rename_i m' h'
      split at h'
      · cases h'
      · cases h'; cases h; intro b _; simp [prependZero]

theorem normCols_colsum {n B : ℕ} {dt : R} {m m' : Mat R} (h : normCols n B dt m = .ok m') :
    ∀ b < B, dt * ∑ i ∈ range n, m' i b = 1 := by
  unfold normCols at h
  split at h
  · cases h
  · rename_i hne
    push Not at hne
    cases h
    intro b hb
    have := hne b hb
    rw [← sum_div, ← mul_div_assoc, div_self this]

theorem sum_prependZero (n : ℕ) (m : Mat R) (b : ℕ) :
    ∑ i ∈ range (n + 1), prependZero m i b = ∑ i ∈ range n, m i b := by
  rw [sum_range_succ']; simp [prependZero]

/-- **C03 (unit area, shape, zero row).** A normalised interpolated basis that was built without a zero division has
`ceil(dt_max/dt)` rows (one more if non-instantaneous), starts with a zero row if non-instantaneous and every
column has unit area. -/
theorem C03_interpolate_unit_area (L B : ℕ) (basis : Mat R) (dt dtMax : R) (inst : Bool) (out : BasisArr R)
    (h : interpolateBasis L B basis dt dtMax true inst = .ok out) :
    out.cols = B ∧ out.rows = ⌈dtMax / dt⌉₊ + (if inst then 0 else 1) ∧
    (inst = false → ∀ b, out.val 0 b = 0) ∧
    ∀ b < B, dt * ∑ i ∈ range out.rows, out.val i b = 1 := by
  unfold interpolateBasis at h
  dsimp only at h
  split at h
  · cases h
  · rename_i m hm
    simp only [if_true] at hm
    have hs := normCols_colsum hm
    cases inst with
    | true => simp at h; cases h; exact ⟨rfl, rfl, by simp, hs⟩
    | false =>
      simp at h; cases h
      refine ⟨rfl, rfl, fun _ b => rfl, fun b hb => ?_⟩
      dsimp only [arangeLen]
      rw [sum_prependZero]; exact hs b hb

/-- **C03 (success).** Interpolation with `norm=True` goes through exactly when no column sums to zero on the
sampled grid (for `dt ≠ 0`); for a nonnegative column that is: some sample is nonzero. -/
theorem C03_interpolate_ok_iff (L B : ℕ) (basis : Mat R) (dt dtMax : R) (inst : Bool) (hdt : 0 < dt) :
    (∃ out, interpolateBasis L B basis dt dtMax true inst = .ok out) ↔
      ∀ b < B, ∑ i ∈ range ⌈dtMax / dt⌉₊, interpRaw L basis dt dtMax i b ≠ 0 := by
  unfold interpolateBasis normCols arangeLen
  dsimp only
  by_cases hz : ∃ b < B, dt * ∑ i ∈ range ⌈dtMax / dt⌉₊, interpRaw L basis dt dtMax i b = 0
  · simp only [if_true, if_pos hz]
    constructor
    · rintro ⟨out, h⟩; cases h
    · intro h
      obtain ⟨b, hb, e⟩ := hz
      exact absurd ((mul_eq_zero.1 e).resolve_left hdt.ne') (h b hb)
  · simp only [if_true, if_neg hz]
    push Not at hz
    constructor
    · intro _ b hb e; exact hz b hb (by rw [e, mul_zero])
    · intro _; cases inst <;> exact ⟨_, rfl⟩

theorem eye_colsum (n b : ℕ) (hb : b < n) :
    ∑ i ∈ range n, (if i = b then (1 : R) else 0) = 1 := by
  rw [sum_ite_eq' (range n) b]; simp [hb]

/-- **C03 (identity basis).** For positive `dt` the identity basis is always built; its rows and columns are as
documented and each column has unit area when normalised. -/
theorem C03_identity_unit_area (dt dtMax : R) (hdt : 0 < dt) (inst : Bool) :
    ∃ out, identityBasis dt dtMax true inst = .ok out ∧
      out.rows = ⌊dtMax / dt⌋₊ + 1 ∧ out.cols = ⌊dtMax / dt⌋₊ + (if inst then 1 else 0) ∧
      (inst = false → ∀ b < out.cols, out.val 0 b = 0) ∧
      ∀ b < out.cols, dt * ∑ i ∈ range out.rows, out.val i b = 1 := by
  have hok : ∀ (n B : ℕ) (m : Mat R), (∀ b < B, ∑ i ∈ range n, m i b = 1) →
      ∃ m', normCols n B dt m = .ok m' ∧ ∀ i b, m' i b = m i b / (dt * ∑ i ∈ range n, m i b) := by
    intro n B m hm
    unfold normCols
    rw [if_neg]
    · exact ⟨_, rfl, fun _ _ => rfl⟩
    · rintro ⟨b, hb, e⟩; rw [hm b hb, mul_one] at e; exact hdt.ne' e
  unfold identityBasis
  dsimp only
  cases inst with
  | true =>
    simp only [if_true, ne_eq, not_true_eq_false, if_false]
    obtain ⟨m', h1, h2⟩ := hok (⌊dtMax / dt⌋₊ + 1) (⌊dtMax / dt⌋₊ + 1) (fun i j => if i = j then 1 else 0)
      (fun b hb => eye_colsum _ b hb)
    rw [h1]
    exact ⟨_, rfl, rfl, rfl, by simp, normCols_colsum h1⟩
  | false =>
    simp only [Bool.false_eq_true, if_false, ne_eq, not_true_eq_false, if_true]
    obtain ⟨m', h1, h2⟩ := hok (⌊dtMax / dt⌋₊ + 1) (⌊dtMax / dt⌋₊) (prependZero fun i j => if i = j then 1 else 0)
      (fun b hb => by rw [sum_prependZero]; exact eye_colsum _ b hb)
    rw [h1]
    exact ⟨_, rfl, rfl, rfl, fun _ b _ => by simp [h2, prependZero], normCols_colsum h1⟩

end

/-! ### Non-vacuity for C01–C03 (tests on literals) -/

/-- the hypotheses of `C01_causal` are met by two different recordings -/
example : ∃ F F' : Ten ℚ, convolve 3 1 2 1 (fun l _ => if l = 0 then 0 else 1) (fun _ _ => 1) = .ok F ∧
    convolve 3 1 2 1 (fun l _ => if l = 0 then 0 else 1) (fun t _ => if t = 2 then 5 else 1) = .ok F' := by
  obtain ⟨F, h, -⟩ := C02_convolve_eq_filtered (R := ℚ) 3 1 2 1 (fun l _ => if l = 0 then 0 else 1) (fun _ _ => 1)
    (by omega) (by omega) (by omega) (by omega)
  obtain ⟨F', h', -⟩ := C02_convolve_eq_filtered (R := ℚ) 3 1 2 1 (fun l _ => if l = 0 then 0 else 1)
    (fun t _ => if t = 2 then 5 else 1) (by omega) (by omega) (by omega) (by omega)
  exact ⟨F, F', h, h'⟩

/-- with an instantaneous basis the strict form of causality is false: the hypothesis on the first row matters -/
theorem C01_strict_needs_zero_row :
    ∃ (F F' : Ten ℚ), convolve 1 1 1 1 (fun _ _ => (1 : ℚ)) (fun _ _ => 0) = .ok F ∧
      convolve 1 1 1 1 (fun _ _ => (1 : ℚ)) (fun _ _ => 1) = .ok F' ∧ F 0 0 0 ≠ F' 0 0 0 := by
  obtain ⟨F, h, e⟩ := C02_convolve_eq_filtered (R := ℚ) 1 1 1 1 (fun _ _ => 1) (fun _ _ => 0)
    (by omega) (by omega) (by omega) (by omega)
  obtain ⟨F', h', e'⟩ := C02_convolve_eq_filtered (R := ℚ) 1 1 1 1 (fun _ _ => 1) (fun _ _ => 1)
    (by omega) (by omega) (by omega) (by omega)
  refine ⟨F, F', h, h', ?_⟩
  rw [e 0 (by omega) 0 (by omega) 0 (by omega), e' 0 (by omega) 0 (by omega) 0 (by omega)]
  simp [Spec.filtered]

/-- a normalised non-instantaneous basis exists (so C03 is not vacuous) -/
example : ∃ out, interpolateBasis (R := ℚ) 3 1 (fun i _ => if i = 1 then 1 else 0) (1/2) 1 true false = .ok out := by
  rw [C03_interpolate_ok_iff _ _ _ _ _ _ (by norm_num)]
  intro b hb
  have : ⌈(1 : ℚ) / (1 / 2)⌉₊ = 2 := by norm_num
  rw [this]
  simp [sum_range_succ, interpRaw, interp, linspace, lastLE]
  norm_num

/-! ### C04 -/

theorem basisFn_mem (u c w : ℝ) : 0 ≤ basisFn u c w ∧ basisFn u c w ≤ 1 := by
  unfold basisFn
  constructor
  · linarith [Real.neg_one_le_cos (max (-Real.pi) (min Real.pi ((u - c) * Real.pi / w / 2)))]
  · linarith [Real.cos_le_one (max (-Real.pi) (min Real.pi ((u - c) * Real.pi / w / 2)))]

theorem basisFn_self (c w : ℝ) : basisFn c c w = 1 := by
  unfold basisFn
  have : max (-Real.pi) (min Real.pi ((c - c) * Real.pi / w / 2)) = 0 := by
    simp [Real.pi_pos.le]
  rw [this]; simp

/-- every entry of the raw basis lies in `[0,1]` -/
theorem cosineRaw_mem (c : CosArgs) (t j : ℕ) : 0 ≤ cosineRaw c t j ∧ cosineRaw c t j ≤ 1 := by
  unfold cosineRaw
  split
  · split <;> simp
  · exact basisFn_mem _ _ _

/-- every column of the raw basis contains the value 1 -/
theorem cosineRaw_has_one (c : CosArgs) (hE : c.nEye ≤ c.L) (hidx : ∀ i < nCos c, ctrIdx c i < c.L)
    (j : ℕ) (hj : j < c.B) : ∃ t < c.L, cosineRaw c t j = 1 := by
  by_cases h : j < c.nEye
  · exact ⟨j, by omega, by simp [cosineRaw, h]⟩
  · refine ⟨ctrIdx c (j - c.nEye), hidx _ (by unfold nCos; omega), ?_⟩
    unfold cosineRaw
    rw [if_neg h]
    exact basisFn_self _ _

theorem linspace_le {lo hi : ℝ} (h : lo ≤ hi) {n i : ℕ} (hi' : i < n) : linspace lo hi n i ≤ hi := by
  unfold linspace
  split
  · exact h
  · have hn : 2 ≤ n := by omega
    have h1 : (0 : ℝ) < (n : ℝ) - 1 := by
      have : (2 : ℝ) ≤ n := by exact_mod_cast hn
      linarith
    have h2 : (i : ℝ) ≤ (n : ℝ) - 1 := by
      have : (i : ℝ) + 1 ≤ n := by exact_mod_cast hi'
      linarith
    have h3 : (hi - lo) * i / ((n : ℝ) - 1) ≤ hi - lo := by
      rw [div_le_iff₀ h1]; exact mul_le_mul_of_nonneg_left h2 (by linarith)
    linarith

/-- the general criterion under which `create_basis` succeeds -/
theorem createCosine_ok (c : CosArgs) (hn : 0 < nCos c) (hE : c.nEye ≤ c.L)
    (hidx : ∀ i < nCos c, ctrIdx c i < c.L) (hw : cosWidth c ≠ 0) (norm : Bool) :
    createCosine c norm = .ok (if norm then
      fun t j => cosineRaw c t j / (∑ t ∈ range c.L, cosineRaw c t j) / (1 / (c.L : ℝ)) else cosineRaw c) := by
  have hsum : ∀ j < c.B, 0 < ∑ t ∈ range c.L, cosineRaw c t j := by
    intro j hj
    obtain ⟨t, ht, h1⟩ := cosineRaw_has_one c hE hidx j hj
    exact sum_pos' (fun i _ => (cosineRaw_mem c i j).1) ⟨t, mem_range.2 ht, by rw [h1]; norm_num⟩
  unfold createCosine
  rw [if_neg (by unfold nCos at hn; omega), if_neg (by omega), if_neg hn.ne',
    if_neg (by rintro ⟨i, hi, h⟩; have := hidx i hi; omega), if_neg hw]
  cases norm with
  | false => simp
  | true =>
    rw [if_pos rfl, if_neg, if_neg, if_pos rfl]
    · rintro ⟨j, hj, h⟩; exact (hsum j hj).ne' h
    · rintro ⟨t, _, j, _, h⟩; exact absurd (cosineRaw_mem c t j).1 (not_le.2 h)

/-- criterion in terms of the constructor arguments: positive `a`, `b`; either at least two cosines and an upper centre that
differs from the first, or a single cosine whose centre is not at log-time zero. -/
theorem cosine_args_ok (c : CosArgs) (ha : 0 < c.a) (hb : 0 < c.b) (hn : 0 < nCos c)
    (hL : 2 * c.nEye + 2 ≤ c.L) (h1 : nCos c = 1 → c.a * c.nEye + c.b ≠ 1) :
    (∀ i < nCos c, ctrIdx c i < c.L) ∧ cosWidth c ≠ 0 := by
  have hLr : (c.nEye : ℝ) + 1 ≤ (c.L : ℝ) / 2 := by
    have : (2 : ℝ) * c.nEye + 2 ≤ c.L := by exact_mod_cast hL
    linarith
  have hinj : ∀ m n : ℕ, m < n → uIr c m < uIr c n := by
    intro m n hmn
    unfold uIr
    apply Real.log_lt_log
    · positivity
    · have : (m : ℝ) < n := by exact_mod_cast hmn
      nlinarith
  refine ⟨fun i hi => ?_, ?_⟩
  · have h2 := linspace_le (lo := (c.nEye : ℝ)) (hi := (c.L : ℝ) / 2) (by linarith) hi
    have hLpos : (0 : ℝ) < c.L := by
      have : 0 < c.L := by omega
      exact_mod_cast this
    have : ctrIdx c i ≤ ⌊(c.L : ℝ) / 2⌋₊ := Nat.floor_mono h2
    refine lt_of_le_of_lt this ?_
    rw [Nat.floor_lt (by positivity)]
    linarith
  · unfold cosWidth
    have hc0 : ctrIdx c 0 = c.nEye := by
      unfold ctrIdx linspace; split <;> simp
    split
    · rename_i hone
      unfold ctr; rw [hc0]; unfold uIr
      have hpos : 0 < c.a * c.nEye + c.b := by positivity
      have := h1 hone
      intro h
      have h0 : Real.log (c.a * c.nEye + c.b) = 0 := by linarith
      rcases Real.log_eq_zero.1 h0 with h | h | h <;> first | linarith | exact this h
    · rename_i hne
      have h2 : 2 ≤ nCos c := by omega
      have hcast : ((nCos c - 1 : ℕ) : ℝ) = (nCos c : ℝ) - 1 := by
        push_cast [Nat.cast_sub hn]; ring
      have hpos : (0 : ℝ) < (nCos c : ℝ) - 1 := by
        have : (2 : ℝ) ≤ nCos c := by exact_mod_cast h2
        linarith
      have hlast : c.nEye + 1 ≤ ctrIdx c (nCos c - 1) := by
        unfold ctrIdx linspace
        rw [if_neg hne, hcast, mul_div_assoc, div_self hpos.ne', mul_one]
        apply Nat.le_floor
        push_cast; linarith
      have : uIr c c.nEye < uIr c (ctrIdx c (nCos c - 1)) := hinj _ _ (by omega)
      unfold ctr
      rw [hc0]
      exact (div_pos (by linarith) hpos).ne'

/-- **C04.** For every number `B ≥ 1` of cosines, the cosine basis with default arguments is created without an
exception and without dividing by zero; before normalisation its entries lie in `[0,1]` and every column contains a 1;
after normalisation entries are nonnegative and each column has mean 1. -/
theorem C04_default_cosine (B : ℕ) (hB : 1 ≤ B) :
    (∃ m, createCosine (CosArgs.default B) false = .ok m ∧
      (∀ t j, 0 ≤ m t j ∧ m t j ≤ 1) ∧ ∀ j < B, ∃ t < 100, m t j = 1) ∧
    (∃ m, createCosine (CosArgs.default B) true = .ok m ∧
      (∀ t j, 0 ≤ m t j) ∧ ∀ j < B, ∑ t ∈ range 100, m t j = 100) := by
  have hc := cosine_args_ok (CosArgs.default B) (by norm_num [CosArgs.default]) (by norm_num [CosArgs.default])
    (by simp [nCos, CosArgs.default]; omega) (by simp [CosArgs.default]) (by norm_num [CosArgs.default])
  have hL : (CosArgs.default B).L = 100 := rfl
  have hE : (CosArgs.default B).nEye ≤ (CosArgs.default B).L := by simp [CosArgs.default]
  have hn : 0 < nCos (CosArgs.default B) := by simp [nCos, CosArgs.default]; omega
  refine ⟨⟨_, createCosine_ok _ hn hE hc.1 hc.2 false, ?_, ?_⟩, ⟨_, createCosine_ok _ hn hE hc.1 hc.2 true, ?_, ?_⟩⟩
  · intro t j; simpa using cosineRaw_mem _ t j
  · intro j hj; simpa using (hL ▸ cosineRaw_has_one (CosArgs.default B) hE hc.1 j hj)
  · intro t j
    simp only [if_true]
    have := (cosineRaw_mem (CosArgs.default B) t j).1
    have h2 : 0 ≤ ∑ t ∈ range (CosArgs.default B).L, cosineRaw (CosArgs.default B) t j :=
      sum_nonneg fun i _ => (cosineRaw_mem _ i j).1
    exact div_nonneg (div_nonneg this h2) (by rw [hL]; norm_num)
  · intro j hj
    obtain ⟨t, ht, h1⟩ := cosineRaw_has_one (CosArgs.default B) hE hc.1 j hj
    have hpos : 0 < ∑ t ∈ range (CosArgs.default B).L, cosineRaw (CosArgs.default B) t j :=
      sum_pos' (fun i _ => (cosineRaw_mem _ i j).1) ⟨t, mem_range.2 ht, by rw [h1]; norm_num⟩
    simp only [if_true]
    rw [← sum_div, ← sum_div]
    rw [hL] at hpos ⊢
    rw [div_self hpos.ne']
    norm_num

/-- **C04 (general arguments).** The same holds for every `n_eye`, positive `a`, `b` and `L ≥ 2 n_eye + 2`, except when there is a single cosine
whose centre is at log-time zero. -/
theorem C04_general_cosine (c : CosArgs) (ha : 0 < c.a) (hb : 0 < c.b) (hn : c.nEye < c.B)
    (hL : 2 * c.nEye + 2 ≤ c.L) (h1 : c.B = c.nEye + 1 → c.a * c.nEye + c.b ≠ 1) :
    ∃ m, createCosine c false = .ok m ∧ (∀ t j, 0 ≤ m t j ∧ m t j ≤ 1) ∧ (∀ j < c.B, ∃ t < c.L, m t j = 1) ∧
      ∃ m', createCosine c true = .ok m' := by
  have hn' : 0 < nCos c := by unfold nCos; omega
  have hc := cosine_args_ok c ha hb hn' hL (fun h => h1 (by unfold nCos at h; omega))
  refine ⟨_, createCosine_ok c hn' (by omega) hc.1 hc.2 false, ?_, ?_, _, createCosine_ok c hn' (by omega) hc.1 hc.2 true⟩
  · intro t j; simpa using cosineRaw_mem c t j
  · intro j hj; simpa using cosineRaw_has_one c (by omega) hc.1 j hj

/-- **C04 (boundary).** With no cosine at all (`B = n_eye`) creation raises `IndexError`. -/
theorem C04_no_cosine_raises (c : CosArgs) (h : c.B = c.nEye) (hL : c.nEye ≤ c.L) (norm : Bool) :
    createCosine c norm = .error .index := by
  unfold createCosine
  rw [if_neg (by omega), if_neg (by omega), if_pos (by unfold nCos; omega)]

end PyHawkes
