import Verif.Props.Basis

/-!
# C72: the values of an interpolated basis
-/

set_option linter.unusedSectionVars false

namespace PyHawkes
open Finset

variable {R : Type*} [Field R] [LinearOrder R] [IsStrictOrderedRing R]

theorem lastLE_spec (xp : Vec R) (n : ℕ) (x : R) (h0 : xp 0 ≤ x) (hn : 0 < n) : lastLE xp n x < n ∧ xp (lastLE xp n x) ≤ x ∧ ∀ i, lastLE xp n x < i → i < n → x < xp i := by
  induction n with
  | zero => omega
  | succ n ih =>
    unfold lastLE
    by_cases h : xp n ≤ x
    · rw [if_pos h]; exact ⟨by omega, h, fun i h1 h2 => by omega⟩
    · rw [if_neg h]
      by_cases hn' : 0 < n
      · obtain ⟨h1, h2, h3⟩ := ih hn'
        refine ⟨by omega, h2, fun i hi hi' => ?_⟩
        rcases Nat.lt_succ_iff_lt_or_eq.1 hi' with h' | h'
        · exact h3 i hi h'
        · rw [h']; exact not_le.1 h
      · obtain rfl : n = 0 := by omega
        exact absurd h0 h

theorem grid_eq (dtMax : R) {L : ℕ} (hL : 2 ≤ L) (j : ℕ) : linspace 0 dtMax L j = dtMax * j / ((L : R) - 1) := by
  unfold linspace
  rw [if_neg (by omega), zero_add, sub_zero]

theorem natSub_pos {L : ℕ} (hL : 2 ≤ L) : (0 : R) < (L : R) - 1 := by
  have : (2 : R) ≤ L := by exact_mod_cast hL
  linarith

theorem interp_isLinear {L : ℕ} (hL : 2 ≤ L) {dtMax : R} (hM : 0 < dtMax) (f : Vec R) {x : R} (h0 : 0 ≤ x) (h1 : x < dtMax) :
    Spec.IsLinearInterp L dtMax f x (interp L (fun j => linspace 0 dtMax L j) f x) := by
  have hp := natSub_pos (R := R) hL
  unfold interp
  dsimp only
  simp only [grid_eq dtMax hL]
  have hlast : dtMax * ((L - 1 : ℕ) : R) / ((L : R) - 1) = dtMax := by
    rw [Nat.cast_sub (by omega), Nat.cast_one]; field_simp
  by_cases hx : x ≤ dtMax * ((0 : ℕ) : R) / ((L : R) - 1)
  · rw [if_pos hx]
    have : x = 0 := le_antisymm (by simpa using hx) h0
    refine ⟨0, by omega, 0, le_rfl, zero_le_one, ?_, ?_⟩
    · rw [this]; simp
    · simp
  · rw [if_neg hx, if_neg (by rw [hlast]; exact not_le.2 h1)]
    set xp : Vec R := fun j => dtMax * (j : R) / ((L : R) - 1) with hxp
    have hj := lastLE_spec xp L x (by simp [hxp]; exact h0) (by omega)
    set j := lastLE xp L x
    obtain ⟨j1, j2, j3⟩ := hj
    have hjL : j + 1 < L := by
      by_contra hcon
      have hje : j = L - 1 := by omega
      rw [hje] at j2
      have : xp (L - 1) = dtMax := hlast
      rw [this] at j2
      exact absurd h1 (not_lt.2 j2)
    have hxj := j3 (j + 1) (by omega) hjL
    have hstep : 0 < xp (j + 1) - xp j := by
      have : xp (j + 1) - xp j = dtMax / ((L : R) - 1) := by
        simp only [hxp]; push_cast; field_simp; ring
      rw [this]; positivity
    refine ⟨j, hjL, (x - xp j) / (xp (j + 1) - xp j), ?_, ?_, ?_, ?_⟩
    · exact div_nonneg (by linarith) hstep.le
    · rw [div_le_one hstep]; linarith
    · show x = (1 - (x - xp j) / (xp (j + 1) - xp j)) * xp j + (x - xp j) / (xp (j + 1) - xp j) * xp (j + 1)
      have hne := hstep.ne'
      have : x = xp j + (x - xp j) / (xp (j + 1) - xp j) * (xp (j + 1) - xp j) := by field_simp; ring
      linear_combination this
    · have hne := hstep.ne'
      show f j + (f (j + 1) - f j) / (xp (j + 1) - xp j) * (x - xp j) = (1 - (x - xp j) / (xp (j + 1) - xp j)) * f j + (x - xp j) / (xp (j + 1) - xp j) * f (j + 1)
      clear_value xp
      field_simp
      ring

section
variable [FloorSemiring R]

theorem grid_lt {dt dtMax : R} (hdt : 0 < dt) {i : ℕ} (hi : i < ⌈dtMax / dt⌉₊) : dt * (i : R) < dtMax := by
  have := Nat.lt_ceil.1 hi
  rw [lt_div_iff₀ hdt] at this
  linarith

/-- **C72 (values).** Interpolating a basis given by `L ≥ 2` samples over `[0, dt_max]` to bin width `dt` without normalisation always succeeds, has `ceil(dt_max/dt)` rows (one more, all zero and in front, if
not instantaneous), and the value in the row of time `i*dt` is that of the piecewise-linear function through the samples. -/
theorem C72_interpolated_values {L B : ℕ} (hL : 2 ≤ L) (basis : Mat R) {dt dtMax : R} (hdt : 0 < dt) (hM : 0 < dtMax) (inst : Bool) :
    ∃ out, interpolateBasis L B basis dt dtMax false inst = .ok out ∧ out.cols = B ∧ out.rows = ⌈dtMax / dt⌉₊ + (if inst then 0 else 1) ∧ (inst = false → ∀ b, out.val 0 b = 0) ∧
      ∀ i < ⌈dtMax / dt⌉₊, ∀ b < B, Spec.IsLinearInterp L dtMax (fun j => basis j b) (dt * i) (out.val (i + if inst then 0 else 1) b) := by
  have key : ∀ i < ⌈dtMax / dt⌉₊, ∀ b, Spec.IsLinearInterp L dtMax (fun j => basis j b) (dt * i) (interpRaw L basis dt dtMax i b) :=
    fun i hi b => interp_isLinear hL hM _ (by positivity) (grid_lt hdt hi)
  unfold interpolateBasis
  cases inst with
  | true => exact ⟨_, rfl, rfl, rfl, (fun h => by cases h), fun i hi b _ => key i hi b⟩
  | false => exact ⟨_, rfl, rfl, rfl, fun _ b => rfl, fun i hi b _ => key i hi b⟩

/-- **C72 (normalised).** With normalisation the columns are those values divided by their area: one positive or negative factor per column. -/
theorem C72_normalised_values {L B : ℕ} (hL : 2 ≤ L) (basis : Mat R) {dt dtMax : R} (hdt : 0 < dt) (hM : 0 < dtMax) (inst : Bool) {out : BasisArr R}
    (h : interpolateBasis L B basis dt dtMax true inst = .ok out) :
    ∃ v : Mat R, (∀ i < ⌈dtMax / dt⌉₊, ∀ b < B, Spec.IsLinearInterp L dtMax (fun j => basis j b) (dt * i) (v i b)) ∧
      ∀ i < ⌈dtMax / dt⌉₊, ∀ b < B, out.val (i + if inst then 0 else 1) b = v i b / (dt * ∑ i ∈ range ⌈dtMax / dt⌉₊, v i b) := by
  refine ⟨interpRaw L basis dt dtMax, fun i hi b _ => interp_isLinear hL hM _ (by positivity) (grid_lt hdt hi), ?_⟩
  unfold interpolateBasis at h
  dsimp only at h
  split at h
  · cases h
  · rename_i m hm
    simp only [if_true] at hm
    unfold normCols at hm
    split at hm
    · cases hm
    · cases hm
      cases inst with
      | true => simp at h; cases h; intro i _ b _; rfl
      | false => simp at h; cases h; intro i _ b _; rfl

/-- **C72 (range).** Interpolated values stay between bounds on the samples; in particular a nonnegative basis stays nonnegative. -/
theorem C72_between_bounds {L : ℕ} {dtMax : R} {f : Vec R} {x v lo hi : R} (h : Spec.IsLinearInterp L dtMax f x v) (hlo : ∀ j < L, lo ≤ f j) (hhi : ∀ j < L, f j ≤ hi) : lo ≤ v ∧ v ≤ hi := by
  obtain ⟨j, hj, θ, h0, h1, -, rfl⟩ := h
  have a1 := hlo j (by omega)
  have a2 := hlo (j + 1) hj
  have b1 := hhi j (by omega)
  have b2 := hhi (j + 1) hj
  constructor <;> nlinarith

/-- **C72 (exact at samples).** Interpolation is unique and returns the sample itself at a sample time. -/
theorem C72_exact_at_samples {L : ℕ} (hL : 2 ≤ L) {dtMax : R} (hM : 0 < dtMax) {f : Vec R} {j : ℕ} (hj : j < L) {v : R}
    (h : Spec.IsLinearInterp L dtMax f (dtMax * j / ((L : R) - 1)) v) : v = f j := by
  obtain ⟨i, hi, θ, h0, h1, hx, rfl⟩ := h
  have hp := natSub_pos (R := R) hL
  have e : (j : R) = i + θ := by
    push_cast at hx
    field_simp at hx
    linear_combination hx
  -- θ is 0 or 1
  have hle : i ≤ j := by
    by_contra hcon
    have : (j : R) + 1 ≤ i := by exact_mod_cast not_le.1 hcon
    linarith
  have hge : j ≤ i + 1 := by
    by_contra hcon
    have : (i : R) + 1 + 1 ≤ j := by exact_mod_cast not_le.1 hcon
    linarith
  rcases (show j = i ∨ j = i + 1 by omega) with rfl | rfl
  · have : θ = 0 := by linarith
    rw [this]; ring
  · have : θ = 1 := by push_cast at e; linarith
    rw [this]; ring

/-- a triangular basis sampled at times 0, 1, 2 and interpolated to bins of width 1/2: the value at time 1/2 is 1/2 -/
example : ∃ out, interpolateBasis (R := ℚ) 3 1 (fun i _ => if i = 1 then 1 else 0) (1/2) 2 false false = .ok out ∧ out.val 2 0 = 1/2 := by
  refine ⟨_, rfl, ?_⟩
  simp [prependZero, interpRaw, interp, linspace, lastLE]
  norm_num

end
end PyHawkes
