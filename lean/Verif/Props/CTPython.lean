import Verif.Model.CTPython
import Verif.Props.CTStats
import Verif.Props.Curves
import Verif.Props.NLNode
import Mathlib.MeasureTheory.Measure.Lebesgue.Basic

/-!
# The pure-Python parent sampler of the continuous-time model (C102)
-/

set_option linter.unusedVariables false
set_option linter.unusedSectionVars false

namespace PyHawkes
open Finset Spec

namespace Spec

/-- logistic-normal density on `(0, d)` at lag `s` -/
noncomputable def lnDensity (mu tau d s : ℝ) : ℝ :=
  Real.exp (-tau / 2 * (Real.log (s / d) - Real.log (1 - s / d) - mu) ^ 2) / (s * (d - s) / d * Real.sqrt (2 * Real.pi / tau))

/-- the rate that event `m` would contribute at the later event `n` if every edge were present: weight times density if the lag is below `dt_max` -/
noncomputable def fullContribution (P : CTParams) (D : CTData) (n m : ℕ) : ℝ :=
  let s := D.S n - D.S m
  if s < P.dtMax then P.W (D.C m) (D.C n) * lnDensity (P.mu (D.C m) (D.C n)) (P.tau (D.C m) (D.C n)) P.dtMax s else 0

/-- background plus all of these -/
noncomputable def fullRate (P : CTParams) (D : CTData) (n : ℕ) : ℝ := P.lam0 (D.C n) + ∑ m ∈ range n, fullContribution P D n m

/-- no two events at the same time, none exactly `dt_max` apart -/
def NoTies (P : CTParams) (D : CTData) : Prop := ∀ n < D.N, ∀ m < n, 0 < D.S n - D.S m ∧ D.S n - D.S m ≠ P.dtMax

/-- positive background rates and precisions, a positive window, weights that are not negative -/
structure CTPos (P : CTParams) : Prop where
  dtMax : 0 < P.dtMax
  lam0 : ∀ k < P.K, 0 < P.lam0 k
  W : ∀ i < P.K, ∀ j < P.K, 0 ≤ P.W i j
  tau : ∀ i < P.K, ∀ j < P.K, 0 < P.tau i j

end Spec

theorem pyImpulse_lnDensity (mu tau d s : ℝ) : pyImpulse mu tau d s = lnDensity mu tau d s := by
  unfold pyImpulse lnDensity pyLogit
  dsimp only
  rw [div_one, one_div, mul_comm, ← div_eq_mul_inv]

section
variable {P : CTParams} {D : CTData} (hP : CTPos P) (hL : LabelsOk P.K D) (hS : SortedTimes D)
include hP hL hS

theorem fullContribution_nonneg (hT : NoTies P D) {n m : ℕ} (hn : n < D.N) (hm : m < n) : 0 ≤ fullContribution P D n m := by
  unfold fullContribution
  dsimp only
  split
  · next h =>
    refine mul_nonneg (hP.W _ (hL m (hm.trans hn)) _ (hL n hn)) ?_
    rw [← pyImpulse_lnDensity]
    exact (impulseFX_inside (hP.tau _ (hL m (hm.trans hn)) _ (hL n hn)) (hT n hn m hm).1 h).2.le
  · exact le_rfl

/-- what the backward loop leaves behind -/
theorem pyScan_spec (hT : NoTies P D) {n : ℕ} (hn : n < D.N) : ∀ m, m ≤ n → 0 < m → ∀ (p : ℕ → FX) (q : ℕ),
    (pyScan P D n m p q).2 < m ∧ (∀ i, (pyScan P D n m p q).2 ≤ i → i < m → (pyScan P D n m p q).1 i = .fin (fullContribution P D n i)) ∧ (∀ i, m ≤ i → (pyScan P D n m p q).1 i = p i) ∧
      ∀ i < (pyScan P D n m p q).2, fullContribution P D n i = 0
  | 0, _, h, _, _ => absurd h (lt_irrefl 0)
  | m + 1, hmn, _, p, q => by
    have hm : m < n := by omega
    unfold pyScan
    dsimp only
    split
    · next hlt =>
      refine ⟨Nat.lt_succ_self m, fun i h1 h2 => ?_, fun i hi => ?_, fun i hi => ?_⟩
      · have : i = m := by dsimp only at h1; omega
        subst this
        dsimp only [Vec.set]
        rw [if_pos rfl]
        unfold fullContribution
        dsimp only
        rw [if_neg (by linarith)]
      · dsimp only [Vec.set]
        rw [if_neg (by omega)]
      · unfold fullContribution
        dsimp only at hi ⊢
        have := hS i m hi.le (hm.trans hn)
        rw [if_neg (by linarith)]
    · next hlt =>
      have hin : D.S n - D.S m < P.dtMax := lt_of_le_of_ne (not_lt.1 hlt) (hT n hn m hm).2
      have hv : FX.fin (P.W (D.C m) (D.C n)) * impulseFX (P.mu (D.C m) (D.C n)) (P.tau (D.C m) (D.C n)) P.dtMax (D.S n - D.S m) = .fin (fullContribution P D n m) := by
        rw [(impulseFX_inside (hP.tau _ (hL m (hm.trans hn)) _ (hL n hn)) (hT n hn m hm).1 hin).1, FX.fin_mul, pyImpulse_lnDensity]
        unfold fullContribution
        dsimp only
        rw [if_pos hin]
      rw [hv]
      rcases Nat.eq_zero_or_pos m with rfl | h0
      · unfold pyScan
        refine ⟨by simp, fun i _ h2 => ?_, fun i hi => ?_, fun i hi => by simp at hi⟩
        · have : i = 0 := by omega
          subst this
          simp [Vec.set]
        · dsimp only [Vec.set]
          rw [if_neg (by omega)]
      · obtain ⟨h1, h2, h3, h4⟩ := pyScan_spec hT hn m hm.le h0 (Vec.set p m (.fin (fullContribution P D n m))) m
        refine ⟨by omega, fun i hi1 hi2 => ?_, fun i hi => ?_, h4⟩
        · rcases Nat.lt_succ_iff_lt_or_eq.1 hi2 with h | rfl
          · exact h2 i hi1 h
          · rw [h3 i le_rfl]
            simp [Vec.set]
        · rw [h3 i (by omega)]
          dsimp only [Vec.set]
          rw [if_neg (by omega)]

end

/-- how many values of an increasing sequence lie below a level -/
theorem filter_below {F : ℕ → ℝ} (hF : Monotone F) (x : ℝ) (len : ℕ) : (range len).filter (fun i => F i < x) = range ((range len).filter fun i => F i < x).card := by
  induction len with
  | zero => simp
  | succ len ih =>
    by_cases h : F len < x
    · have : (range (len + 1)).filter (fun i => F i < x) = range (len + 1) := by
        refine Finset.filter_true_of_mem fun j hj => lt_of_le_of_lt (hF (by have := Finset.mem_range.1 hj; omega)) h
      rw [this, card_range]
    · have : (range (len + 1)).filter (fun i => F i < x) = (range len).filter (fun i => F i < x) := by
        rw [Finset.range_add_one, Finset.filter_insert, if_neg h]
      rw [this]
      exact ih

theorem count_below {F : ℕ → ℝ} (hF : Monotone F) (x : ℝ) {len i : ℕ} (hi : i < len) : i < ((range len).filter fun i => F i < x).card ↔ F i < x := by
  rw [← Finset.mem_range, ← filter_below hF, Finset.mem_filter, Finset.mem_range]
  exact ⟨fun h => h.2, fun h => ⟨hi, h⟩⟩

/-- `sample_discrete` on nonnegative finite weights, the first of them positive: for a uniform number below 1 it returns the entry whose cumulative interval contains `u` times the total -/
theorem sampleDiscrete_spec {q : Vec ℝ} {len : ℕ} (hlen : 0 < len) (hq : ∀ i, 0 ≤ q i) (h0 : 0 < q 0) {p : ℕ → FX} (hp : ∀ i < len, p i = .fin (q i)) {u : ℝ} (hu : u < 1) :
    ∃ i < len, sampleDiscrete u len p = .ok i ∧ (i = 0 ∨ ∑ j ∈ range i, q j < u * ∑ j ∈ range len, q j) ∧ u * ∑ j ∈ range len, q j ≤ ∑ j ∈ range (i + 1), q j := by
  have hw : ∀ i < len, (p i).weight? = some (q i) := fun i hi => by rw [hp i hi]; unfold FX.weight?; dsimp only; rw [if_pos (hq i)]
  have htot : 0 < ∑ j ∈ range len, q j := lt_of_lt_of_le h0 (Finset.single_le_sum (fun i _ => hq i) (Finset.mem_range.2 hlen))
  have hmono : Monotone fun i => ∑ j ∈ range (i + 1), q j := fun a b hab => Finset.sum_le_sum_of_subset_of_nonneg (Finset.range_mono (by omega)) fun i _ _ => hq i
  set x := u * ∑ j ∈ range len, q j with hx
  have hxt : x < ∑ j ∈ range len, q j := by rw [hx]; nlinarith
  set i := ((range len).filter fun i => ∑ j ∈ range (i + 1), q j < x).card with hi
  have hiff : ∀ j < len, (j < i ↔ ∑ k ∈ range (j + 1), q k < x) := fun j hj => count_below hmono x hj
  have hil : i < len := by
    by_contra hc
    have h := (hiff (len - 1) (by omega)).1 (by omega)
    rw [Nat.sub_add_cancel hlen] at h
    linarith
  refine ⟨i, hil, ?_, ?_, ?_⟩
  · unfold sampleDiscrete
    rw [if_neg (by rintro ⟨j, hj, h⟩; rw [hw j hj] at h; cases h)]
    dsimp only
    rw [if_neg (by intro h; have := h 0 hlen; rw [hw 0 hlen] at this; simp only [Option.getD_some] at this; linarith)]
    have e : ∀ m ≤ len, ∑ j ∈ range m, (p j).weight?.getD 0 = ∑ j ∈ range m, q j := fun m hm => Finset.sum_congr rfl fun j hj => by
      rw [hw j (by have := Finset.mem_range.1 hj; omega)]; rfl
    rw [hi]
    congr 2
    refine Finset.filter_congr fun j hj => ?_
    rw [e _ le_rfl, e (j + 1) (by have := Finset.mem_range.1 hj; omega)]
  · rcases Nat.eq_zero_or_pos i with h | h
    · exact .inl h
    · right
      have := (hiff (i - 1) (by omega)).1 (by omega)
      rwa [Nat.sub_add_cancel h] at this
  · exact not_lt.1 fun h => lt_irrefl i ((hiff i hil).2 h)

/-- background rate plus the contributions of the first `m` events -/
noncomputable def cumPy (P : CTParams) (D : CTData) (n m : ℕ) : ℝ := P.lam0 (D.C n) + ∑ i ∈ range m, fullContribution P D n i

section
variable {P : CTParams} {D : CTData} (hP : CTPos P) (hL : LabelsOk P.K D) (hS : SortedTimes D) (hT : NoTies P D)
include hP hL hS hT

theorem pyParent_cases {n : ℕ} (hn : n < D.N) {x : ℝ} (hx0 : 0 ≤ x) (hx : x < 1) :
    (pyParent P D x n = .ok (-1) ∧ x * fullRate P D n ≤ cumPy P D n 0) ∨ ∃ m < n, pyParent P D x n = .ok (m : ℤ) ∧ cumPy P D n m < x * fullRate P D n ∧ x * fullRate P D n ≤ cumPy P D n (m + 1) := by
  have hlam := hP.lam0 _ (hL n hn)
  rcases Nat.eq_zero_or_pos n with rfl | h0
  · left
    refine ⟨by unfold pyParent; rw [if_pos rfl], ?_⟩
    unfold fullRate cumPy
    rw [Finset.sum_range_zero, add_zero]
    nlinarith
  · obtain ⟨s1, s2, _, s4⟩ := pyScan_spec hP hL hS hT hn n le_rfl h0 (fun _ => .fin 0) 0
    set r := pyScan P D n n (fun _ => .fin 0) 0 with hr
    set q : Vec ℝ := fun i => if i = 0 then P.lam0 (D.C n) else if r.2 + (i - 1) < n then fullContribution P D n (r.2 + (i - 1)) else 0 with hq
    have hq0 : ∀ i, 0 ≤ q i := by
      intro i
      rw [hq]
      dsimp only
      split
      · exact hlam.le
      · split
        · next h => exact fullContribution_nonneg hP hL hS hT hn h
        · exact le_rfl
    have hsum : ∀ i ≤ n - r.2, ∑ j ∈ range (i + 1), q j = cumPy P D n (r.2 + i) := by
      intro i hi
      have e0 : cumPy P D n r.2 = P.lam0 (D.C n) := by
        unfold cumPy
        rw [Finset.sum_eq_zero fun j hj => s4 j (Finset.mem_range.1 hj), add_zero]
      induction i with
      | zero =>
        rw [Finset.sum_range_one, add_zero, e0]
        rfl
      | succ i ih =>
        rw [Finset.sum_range_succ, ih (by omega)]
        unfold cumPy
        rw [← add_assoc r.2 i 1, Finset.sum_range_succ, ← add_assoc]
        congr 1
        rw [hq]
        dsimp only
        rw [if_neg (by omega), Nat.add_sub_cancel, if_pos (by omega)]
    have htot : ∑ j ∈ range (1 + (n - r.2)), q j = fullRate P D n := by
      rw [add_comm 1, hsum _ le_rfl, Nat.add_sub_cancel' s1.le]
      rfl
    obtain ⟨i, hi, he, hlo, hhi⟩ := sampleDiscrete_spec (q := q) (len := 1 + (n - r.2)) (by omega) hq0 (by rw [hq]; exact hlam)
      (p := fun i => if i = 0 then .fin (P.lam0 (D.C n)) else r.1 (r.2 + (i - 1))) (fun i hi => by
        rw [hq]
        dsimp only
        split
        · rfl
        · rw [s2 _ (by omega) (by omega), if_pos (by omega)]) hx
    rw [htot] at hlo hhi
    have hpp : pyParent P D x n = (match (.ok i : Except PyErr ℕ) with | .error e => .error e | .ok 0 => .ok (-1) | .ok (i + 1) => .ok ((i : ℤ) + r.2)) := by
      unfold pyParent
      rw [if_neg h0.ne']
      dsimp only
      rw [← hr, he]
      cases i <;> rfl
    rcases Nat.eq_zero_or_pos i with rfl | hip
    · left
      refine ⟨hpp, hhi.trans ?_⟩
      rw [Finset.sum_range_one]
      unfold cumPy
      rw [Finset.sum_range_zero, add_zero]
      exact le_of_eq rfl
    · obtain ⟨j, rfl⟩ : ∃ j, i = j + 1 := ⟨i - 1, by omega⟩
      right
      refine ⟨r.2 + j, by omega, ?_, ?_, ?_⟩
      · rw [hpp]
        dsimp only
        congr 1
        push_cast
        ring
      · rcases hlo with h | h
        · omega
        · rwa [hsum j (by omega)] at h
      · rw [hsum (j + 1) (by omega)] at hhi
        exact hhi

end

open MeasureTheory in
theorem volume_between {A : Set ℝ} {a b : ℝ} (h1 : Set.Ioo a b ⊆ A) (h2 : A ⊆ Set.Icc a b) : volume A = ENNReal.ofReal (b - a) := by
  refine le_antisymm ?_ ?_
  · rw [← Real.volume_Icc]; exact measure_mono h2
  · rw [← Real.volume_Ioo]; exact measure_mono h1

/-- the parent drawn for event `n` with the uniform number `x` -/
noncomputable def selPy (P : CTParams) (D : CTData) (n : ℕ) (x : ℝ) : ℤ :=
  match pyParent P D x n with
  | .ok z => z
  | .error _ => -2

theorem pyStats_run (P : CTParams) (D : CTData) (u : Vec ℝ) (Z : ℕ → ℤ) (hZ : ∀ n < D.N, pyParent P D (u n) n = .ok (Z n) ∧ -1 ≤ Z n ∧ Z n < D.N) :
    ∃ s, forListE (List.range D.N) (pyStep P D u) ⟨D.Z, fun _ => 0, fun _ _ => 0, fun _ _ => 0⟩ = .ok s ∧ (∀ n < D.N, s.Z n = Z n) ∧ (∀ k, s.bkgd k = bkgdCount D Z k) ∧
      (∀ k1 k2, s.weight k1 k2 = (children D Z k1 k2).card) ∧ ∀ k1 k2, s.imp k1 k2 = ∑ n ∈ children D Z k1 k2, childLag D P.dtMax Z n := by
  obtain ⟨s, hs, h1, t, ht, e1, e2, e3⟩ := forListE_inv
    (fun i (s : PyStats) => (∀ n < i, s.Z n = Z n) ∧ ∃ t : CTStats, Stats1Inv D P.dtMax Z i t ∧ t.bkgd = s.bkgd ∧ t.weight = s.weight ∧ t.imp1 = s.imp) D.N (pyStep P D u)
    ⟨D.Z, fun _ => 0, fun _ _ => 0, fun _ _ => 0⟩
    ⟨fun n hn => absurd hn (Nat.not_lt_zero n), ⟨fun _ => 0, fun _ _ => 0, fun _ _ => 0, fun _ _ => 0, fun _ _ => 0⟩, ⟨fun _ => by simp, fun _ _ => by simp, fun _ _ => rfl, fun _ _ => by simp, fun _ _ => rfl⟩, rfl, rfl, rfl⟩
    (by
      rintro i hi s ⟨h1, t, ht, e1, e2, e3⟩
      obtain ⟨hz, hz1, hz2⟩ := hZ i hi
      obtain ⟨t', ht', hinv⟩ := stats1_step D P.dtMax Z i t ⟨hz1, hz2⟩ ht
      have hset : ∀ n < i + 1, Vec.set s.Z i (Z i) n = Z n := by
        intro n hn
        unfold Vec.set
        split
        · next h => rw [h]
        · exact h1 n (by omega)
      unfold pyStep
      rw [hz]
      dsimp only
      unfold stats1 at ht'
      by_cases hm : Z i = -1
      · rw [if_pos hm] at ht' ⊢
        refine ⟨_, rfl, ?_, t', hinv, ?_, ?_, ?_⟩
        · dsimp only; exact hset
        · rw [← Except.ok.inj ht', ← e1]
        · rw [← Except.ok.inj ht', ← e2]
        · rw [← Except.ok.inj ht', ← e3]
      · rw [if_neg hm, if_neg (by omega)] at ht'
        rw [if_neg hm]
        refine ⟨_, rfl, hset, t', hinv, ?_, ?_, ?_⟩
        · rw [← Except.ok.inj ht', ← e1]
        · rw [← Except.ok.inj ht', ← e2]
        · rw [← Except.ok.inj ht', ← e3])
  refine ⟨s, hs, h1, fun k => ?_, fun k1 k2 => ?_, fun k1 k2 => ?_⟩
  · rw [← e1, ht.1 k]
    unfold bkgdCount
    rw [card_filter]
    push_cast
    rfl
  · rw [← e2, ht.2.1 k1 k2]
    unfold children
    rw [card_filter]
    push_cast
    rfl
  · rw [← e3, ht.2.2.2.1 k1 k2, sum_children]

section
variable {P : CTParams} {D : CTData} (hP : CTPos P) (hL : LabelsOk P.K D) (hS : SortedTimes D) (hT : NoTies P D)
include hP hL hS hT

theorem cumPy_mono {n : ℕ} (hn : n < D.N) {a b : ℕ} (hab : a ≤ b) (hb : b ≤ n) : cumPy P D n a ≤ cumPy P D n b := by
  unfold cumPy
  have := Finset.sum_le_sum_of_subset_of_nonneg (Finset.range_mono hab) (f := fun i => fullContribution P D n i) fun i hi _ => fullContribution_nonneg hP hL hS hT hn (by have := Finset.mem_range.1 hi; omega)
  linarith

theorem fullRate_pos {n : ℕ} (hn : n < D.N) : 0 < fullRate P D n := by
  have h := cumPy_mono hP hL hS hT hn (Nat.zero_le n) le_rfl
  have h2 := hP.lam0 _ (hL n hn)
  unfold cumPy at h
  unfold fullRate
  rw [Finset.sum_range_zero, add_zero] at h
  linarith

theorem selPy_bkgd {n : ℕ} (hn : n < D.N) {x : ℝ} (hx0 : 0 ≤ x) (hx : x < 1) : selPy P D n x = -1 ↔ x * fullRate P D n ≤ cumPy P D n 0 := by
  unfold selPy
  rcases pyParent_cases hP hL hS hT hn hx0 hx with ⟨h, h1⟩ | ⟨m, hm, h, h1, _⟩
  · rw [h]; exact ⟨fun _ => h1, fun _ => rfl⟩
  · rw [h]
    dsimp only
    have := cumPy_mono hP hL hS hT hn (Nat.zero_le m) hm.le
    constructor
    · intro h; omega
    · intro h; linarith

theorem selPy_parent {n : ℕ} (hn : n < D.N) {x : ℝ} (hx0 : 0 ≤ x) (hx : x < 1) {m : ℕ} (hm : m < n) :
    selPy P D n x = (m : ℤ) ↔ cumPy P D n m < x * fullRate P D n ∧ x * fullRate P D n ≤ cumPy P D n (m + 1) := by
  unfold selPy
  rcases pyParent_cases hP hL hS hT hn hx0 hx with ⟨h, h1⟩ | ⟨i, hi, h, h1, h2⟩
  · rw [h]
    dsimp only
    have := cumPy_mono hP hL hS hT hn (Nat.zero_le m) hm.le
    constructor
    · intro h; omega
    · rintro ⟨h, _⟩; linarith
  · rw [h]
    dsimp only
    constructor
    · intro h
      have : i = m := by exact_mod_cast h
      subst this
      exact ⟨h1, h2⟩
    · rintro ⟨a, b⟩
      rcases lt_trichotomy i m with h | h | h
      · have := cumPy_mono hP hL hS hT hn (show i + 1 ≤ m by omega) hm.le; linarith
      · rw [h]
      · have := cumPy_mono hP hL hS hT hn (show m + 1 ≤ i by omega) hi.le; linarith

theorem selPy_range {n : ℕ} (hn : n < D.N) {x : ℝ} (hx0 : 0 ≤ x) (hx : x < 1) : pyParent P D x n = .ok (selPy P D n x) ∧ -1 ≤ selPy P D n x ∧ selPy P D n x < n := by
  unfold selPy
  rcases pyParent_cases hP hL hS hT hn hx0 hx with ⟨h, _⟩ | ⟨i, hi, h, _⟩
  · rw [h]; exact ⟨rfl, le_rfl, by dsimp only; omega⟩
  · rw [h]; exact ⟨rfl, by dsimp only; omega, by dsimp only; omega⟩

/-- **C102.** With sorted events, no two of them at the same time or exactly `dt_max` apart, positive background rates and precisions and nonnegative weights, `resample_Z_python` succeeds; each event's parent is a function of
that event's uniform number alone and is background or event `m` with probability proportional to the background rate and to `W` times the impulse response at the lag (zero at lags beyond `dt_max`), as if every edge were present;
the counts it stores are the numbers of background events and of children per pair and the sums of scaled lags. -/
theorem C102_python_parents_partial :
    ∃ sel : ℕ → ℝ → ℤ,
      (∀ u : Vec ℝ, (∀ n < D.N, 0 ≤ u n ∧ u n < 1) → ∃ D', ctResamplePython P u D = .ok D' ∧ (∀ n < D.N, D'.Z n = sel n (u n)) ∧ D'.N = D.N ∧ D'.S = D.S ∧ D'.C = D.C ∧ D'.T = D.T ∧
        (∀ k, D'.bkgd k = bkgdCount D D'.Z k) ∧ (∀ k1 k2, D'.weight k1 k2 = (children D D'.Z k1 k2).card) ∧ (∀ k1 k2, D'.imp1 k1 k2 = ∑ n ∈ children D D'.Z k1 k2, childLag D P.dtMax D'.Z n) ∧
        ∀ k, D'.bkgd k + ∑ k1 ∈ range P.K, D'.weight k1 k = D.Ns k) ∧
      (∀ n < D.N, ∀ x, 0 ≤ x → x < 1 → sel n x = -1 ∨ ∃ m < n, sel n x = (m : ℤ) ∧ D.S n - D.S m < P.dtMax) ∧
      (∀ n < D.N, MeasureTheory.volume {x : ℝ | 0 ≤ x ∧ x < 1 ∧ sel n x = -1} = ENNReal.ofReal (P.lam0 (D.C n) / fullRate P D n)) ∧
      (∀ n < D.N, ∀ m < n, MeasureTheory.volume {x : ℝ | 0 ≤ x ∧ x < 1 ∧ sel n x = (m : ℤ)} = ENNReal.ofReal (fullContribution P D n m / fullRate P D n)) := by
  refine ⟨selPy P D, fun u hu => ?_, fun n hn x hx0 hx => ?_, fun n hn => ?_, fun n hn m hm => ?_⟩
  · obtain ⟨s, hs, h1, h2, h3, h4⟩ := pyStats_run P D u (fun n => selPy P D n (u n)) fun n hn => by
      obtain ⟨a, b, c⟩ := selPy_range hP hL hS hT hn (hu n hn).1 (hu n hn).2
      exact ⟨a, b, c.trans (by exact_mod_cast hn)⟩
    have hb : ∀ k, bkgdCount D s.Z k = bkgdCount D (fun n => selPy P D n (u n)) k := fun k => by
      unfold bkgdCount
      congr 1
      exact Finset.filter_congr fun n hn => by rw [h1 n (Finset.mem_range.1 hn)]
    have hc : ∀ k1 k2, children D s.Z k1 k2 = children D (fun n => selPy P D n (u n)) k1 k2 := fun k1 k2 => by
      unfold children
      exact Finset.filter_congr fun n hn => by rw [h1 n (Finset.mem_range.1 hn)]
    refine ⟨{ D with Z := s.Z, bkgd := s.bkgd, weight := s.weight, imp0 := s.imp, imp1 := s.imp, imp2 := s.imp }, ?_, h1, rfl, rfl, rfl, rfl, fun k => ?_, fun k1 k2 => ?_, fun k1 k2 => ?_, fun k => ?_⟩
    · unfold ctResamplePython
      rw [hs]
    · dsimp only; rw [h2, hb]
    · dsimp only; rw [h3, hc]
    · dsimp only
      rw [h4, hc]
      refine Finset.sum_congr rfl fun n hn => ?_
      unfold childLag
      have hn' := (Finset.mem_filter.1 hn).1
      rw [h1 n (Finset.mem_range.1 hn')]
    · dsimp only
      rw [h2]
      simp only [h3]
      exact_mod_cast conservation D P.K hL (fun n => selPy P D n (u n)) (fun n hn => by
        obtain ⟨_, b, c⟩ := selPy_range hP hL hS hT hn (hu n hn).1 (hu n hn).2
        exact ⟨b, c.trans (by exact_mod_cast hn)⟩) k
  · rcases pyParent_cases hP hL hS hT hn hx0 hx with ⟨h, _⟩ | ⟨m, hm, h, h1, h2⟩
    · left; unfold selPy; rw [h]
    · right
      refine ⟨m, hm, by unfold selPy; rw [h], ?_⟩
      by_contra hge
      have h3 := h1.trans_le h2
      unfold cumPy at h3
      rw [Finset.sum_range_succ] at h3
      have : fullContribution P D n m = 0 := by unfold fullContribution; exact if_neg hge
      linarith
  · have hr := fullRate_pos hP hL hS hT hn
    have hc0 : cumPy P D n 0 = P.lam0 (D.C n) := by unfold cumPy; simp
    rw [← sub_zero (P.lam0 (D.C n) / fullRate P D n)]
    refine volume_between (fun x hx => ?_) fun x hx => ?_
    · have hx2 := hx.2
      rw [lt_div_iff₀ hr] at hx2
      have hle := cumPy_mono hP hL hS hT hn (Nat.zero_le n) le_rfl
      have hx1 : x < 1 := by
        have : cumPy P D n n = fullRate P D n := rfl
        by_contra h
        nlinarith [not_lt.1 h]
      exact ⟨hx.1.le, hx1, (selPy_bkgd hP hL hS hT hn hx.1.le hx1).2 (by rw [hc0]; exact hx2.le)⟩
    · obtain ⟨a, b, c⟩ := hx
      have := (selPy_bkgd hP hL hS hT hn a b).1 c
      rw [hc0] at this
      exact ⟨a, by rw [le_div_iff₀ hr]; exact this⟩
  · have hr := fullRate_pos hP hL hS hT hn
    have e : fullContribution P D n m / fullRate P D n = cumPy P D n (m + 1) / fullRate P D n - cumPy P D n m / fullRate P D n := by
      rw [← sub_div]
      unfold cumPy
      rw [Finset.sum_range_succ]
      congr 1
      ring
    rw [e]
    have hlo : 0 ≤ cumPy P D n m := by
      have := cumPy_mono hP hL hS hT hn (Nat.zero_le m) hm.le
      have h2 := hP.lam0 _ (hL n hn)
      unfold cumPy at this ⊢
      rw [Finset.sum_range_zero, add_zero] at this
      linarith
    have hhi : cumPy P D n (m + 1) ≤ fullRate P D n := cumPy_mono hP hL hS hT hn (show m + 1 ≤ n by omega) le_rfl
    refine volume_between (fun x hx => ?_) fun x hx => ?_
    · obtain ⟨h1, h2⟩ := hx
      have hx0 : 0 ≤ x := (div_nonneg hlo hr.le).trans h1.le
      have hx1 : x < 1 := h2.trans_le ((div_le_one hr).2 hhi)
      rw [div_lt_iff₀ hr] at h1
      rw [lt_div_iff₀ hr] at h2
      exact ⟨hx0, hx1, (selPy_parent hP hL hS hT hn hx0 hx1 hm).2 ⟨h1, h2.le⟩⟩
    · obtain ⟨a, b, c⟩ := hx
      obtain ⟨h1, h2⟩ := (selPy_parent hP hL hS hT hn a b hm).1 c
      exact ⟨by rw [div_le_iff₀ hr]; exact h1.le, by rw [le_div_iff₀ hr]; exact h2⟩

end

theorem fullContribution_pos {P : CTParams} {D : CTData} (hP : CTPos P) (hL : LabelsOk P.K D) (hT : NoTies P D) {n m : ℕ} (hn : n < D.N) (hm : m < n) (hW : 0 < P.W (D.C m) (D.C n)) (hlag : D.S n - D.S m < P.dtMax) :
    0 < fullContribution P D n m := by
  unfold fullContribution
  dsimp only
  rw [if_pos hlag, ← pyImpulse_lnDensity]
  exact mul_pos hW (impulseFX_inside (hP.tau _ (hL m (hm.trans hn)) _ (hL n hn)) (hT n hn m hm).1 hlag).2

/-- **C102 (agreement with the compiled sampler).** At lags between `1e-8` and `dt_max - 1e-8` over a present edge, the weights used here and those of `resample` (C26) differ only by the constant that the compiled kernel uses for the square root of `2π`. -/
theorem C102_same_weights_as_kernel {P : CTParams} {D : CTData} {n m : ℕ} (hA : P.A (D.C m) (D.C n) = 1) (ht : 0 < P.tau (D.C m) (D.C n)) (h1 : 1e-8 ≤ D.S n - D.S m) (h2 : D.S n - D.S m ≤ P.dtMax - 1e-8) :
    contribution P D n m * 2.5066282746310002 = fullContribution P D n m * Real.sqrt (2 * Real.pi) := by
  unfold contribution fullContribution
  dsimp only
  have hs0 : 0 < D.S n - D.S m := lt_of_lt_of_le (by norm_num) h1
  have hs1 : D.S n - D.S m < P.dtMax := lt_of_le_of_lt h2 (by norm_num)
  rw [if_pos ⟨h1, h2⟩, if_pos hs1, hA, one_mul]
  have hd : 0 < P.dtMax := hs0.trans hs1
  have hp : 0 < (D.S n - D.S m) / P.dtMax := div_pos hs0 hd
  have hq : 0 < 1 - (D.S n - D.S m) / P.dtMax := by rw [sub_pos, div_lt_one hd]; exact hs1
  unfold impulse lnDensity
  rw [Real.log_div hp.ne' hq.ne', Real.sqrt_div (by positivity)]
  have hz : 0 < P.dtMax - (D.S n - D.S m) := by linarith
  have ht' := Real.sqrt_pos.2 ht
  have hpi := Real.sqrt_pos.2 (by positivity : 0 < 2 * Real.pi)
  generalize Real.exp _ = E
  generalize hsp : Real.sqrt (2 * Real.pi) = a at *
  generalize hst : Real.sqrt (P.tau (D.C m) (D.C n)) = b at *
  field_simp

/-- **C102 (violated when edges are absent).** The method reads `W` where `resample` reads `W_effective`. An event within `dt_max` after an event of a process without an edge to it, but with a positive weight, has that event drawn as
its parent with positive probability, and the edge's weight count becomes positive, although it is no possible parent under the model. -/
theorem C102_absent_edge_violated {P : CTParams} {D : CTData} (hP : CTPos P) (hL : LabelsOk P.K D) (hS : SortedTimes D) (hT : NoTies P D) {n m : ℕ} (hn : n < D.N) (hm : m < n)
    (hA : P.A (D.C m) (D.C n) = 0) (hW : 0 < P.W (D.C m) (D.C n)) (hlag : D.S n - D.S m < P.dtMax) :
    0 < MeasureTheory.volume {x : ℝ | 0 ≤ x ∧ x < 1 ∧ ∀ u : Vec ℝ, (∀ i < D.N, 0 ≤ u i ∧ u i < 1) → u n = x →
      ∃ D', ctResamplePython P u D = .ok D' ∧ D'.Z n = m ∧ ¬ ValidParent P D n (D'.Z n) ∧ 1 ≤ D'.weight (D.C m) (D.C n)} := by
  obtain ⟨sel, h1, _, _, h4⟩ := C102_python_parents_partial hP hL hS hT
  have hpos : 0 < MeasureTheory.volume {x : ℝ | 0 ≤ x ∧ x < 1 ∧ sel n x = (m : ℤ)} := by
    rw [h4 n hn m hm, ENNReal.ofReal_pos]
    exact div_pos (fullContribution_pos hP hL hT hn hm hW hlag) (fullRate_pos hP hL hS hT hn)
  refine hpos.trans_le (MeasureTheory.measure_mono fun x hx => ?_)
  obtain ⟨hx0, hx1, hsel⟩ := hx
  refine ⟨hx0, hx1, fun u hu hux => ?_⟩
  obtain ⟨D', hD', hZ, _, _, _, _, _, hwt, _, _⟩ := h1 u hu
  have hz : D'.Z n = (m : ℤ) := by rw [hZ n hn, hux, hsel]
  refine ⟨D', hD', hz, ?_, ?_⟩
  · rw [hz]
    rintro (h | ⟨j, hj, _, _, _, hAW⟩)
    · omega
    · have : j = m := by exact_mod_cast hj.symm
      subst this
      rw [hA, zero_mul] at hAW
      exact lt_irrefl _ hAW
  · rw [hwt]
    have hmem : n ∈ children D D'.Z (D.C m) (D.C n) := by
      unfold children
      rw [Finset.mem_filter]
      refine ⟨Finset.mem_range.2 hn, by rw [hz]; omega, by rw [hz]; rfl, rfl⟩
    exact_mod_cast Finset.card_pos.2 ⟨n, hmem⟩

theorem fx_mul_nan (x : FX) : x * FX.nan = FX.nan := by cases x <;> rfl

/-- in the backward loop, an entry for a lag of exactly zero or `dt_max` is `nan` -/
theorem pyScan_keeps (P : CTParams) (D : CTData) (n : ℕ) : ∀ (m : ℕ) (p : ℕ → FX) (q : ℕ) (i : ℕ), m ≤ i → (pyScan P D n m p q).1 i = p i
  | 0, _, _, _, _ => rfl
  | m + 1, p, q, i, hi => by
    unfold pyScan
    dsimp only
    split
    · dsimp only [Vec.set]; rw [if_neg (by omega)]
    · rw [pyScan_keeps P D n m _ _ i (by omega)]
      dsimp only [Vec.set]
      rw [if_neg (by omega)]

theorem pyScan_le (P : CTParams) (D : CTData) (n : ℕ) : ∀ (m : ℕ) (p : ℕ → FX) (q : ℕ), q ≤ m → (pyScan P D n m p q).2 ≤ m
  | 0, _, _, h => h
  | m + 1, p, q, _ => by
    unfold pyScan
    dsimp only
    split
    · omega
    · exact (pyScan_le P D n m _ _ le_rfl).trans (Nat.le_succ m)

/-- **C102 (violated by simultaneous events).** If two successive events have the same time stamp, the impulse response at lag zero is `nan` and the call fails on the assertion inside `sample_discrete`. (`resample` handles such events: C26.) -/
theorem C102_simultaneous_violated {P : CTParams} {D : CTData} (hP : CTPos P) (hL : LabelsOk P.K D) {n : ℕ} (hn : n + 1 < D.N) (htie : D.S (n + 1) = D.S n) (u : Vec ℝ) :
    ctResamplePython P u D = .error .assertion := by
  have hpar : pyParent P D (u (n + 1)) (n + 1) = .error .assertion := by
    unfold pyParent
    rw [if_neg (by omega)]
    dsimp only
    have hscan : pyScan P D (n + 1) (n + 1) (fun _ => .fin 0) 0 = pyScan P D (n + 1) n (Vec.set (fun _ => .fin 0) n .nan) n := by
      rw [pyScan]
      rw [htie, sub_self, if_neg (not_lt.2 hP.dtMax.le), impulseFX_zero (hP.tau _ (hL n (by omega)) _ (hL _ hn)) hP.dtMax, fx_mul_nan]
    rw [hscan]
    set r := pyScan P D (n + 1) n (Vec.set (fun _ => .fin 0) n .nan) n with hr
    have h1 : r.2 ≤ n := pyScan_le P D (n + 1) n _ _ le_rfl
    have h2 : r.1 n = .nan := by
      rw [hr, pyScan_keeps P D (n + 1) n _ _ n le_rfl]
      simp [Vec.set]
    have h3 : sampleDiscrete (u (n + 1)) (1 + (n + 1 - r.2)) (fun i => if i = 0 then .fin (P.lam0 (D.C (n + 1))) else r.1 (r.2 + (i - 1))) = .error .assertion := by
      unfold sampleDiscrete
      have hex : ∃ i < 1 + (n + 1 - r.2), ((fun i => if i = 0 then FX.fin (P.lam0 (D.C (n + 1))) else r.1 (r.2 + (i - 1))) i).weight? = none := by
        refine ⟨n - r.2 + 1, by omega, ?_⟩
        dsimp only
        rw [if_neg (by omega), Nat.add_sub_cancel, Nat.add_sub_cancel' h1, h2]
        rfl
      exact if_pos hex
    rw [h3]
  have herr : ∀ x i e, pyParent P D x i = .error e → e = .assertion := by
    intro x i e h
    unfold pyParent at h
    split at h
    · cases h
    · dsimp only at h
      split at h
      · next e' he =>
        cases h
        unfold sampleDiscrete at he
        split at he
        · cases he; rfl
        · dsimp only at he
          split at he <;> cases he
      · cases h
      · cases h
  unfold ctResamplePython
  rw [forListE_error (e := .assertion)]
  · intro i _ s
    unfold pyStep
    cases h : pyParent P D (u i) i with
    | error e => rw [herr _ _ _ h]; exact .inr rfl
    | ok z => dsimp only; split <;> exact .inl ⟨_, rfl⟩
  · refine ⟨n + 1, List.mem_range.2 hn, fun s => ?_⟩
    unfold pyStep
    rw [hpar]

/-- two events, half a window apart, of one self-exciting process -/
noncomputable def pyDemo : CTData := { N := 2, S := fun n => if n = 0 then 0 else 1/2, C := fun _ => 0, T := 1, bkgd := fun _ => 0 }

theorem pyDemo_ok : CTPos demoParams ∧ LabelsOk demoParams.K pyDemo ∧ SortedTimes pyDemo ∧ NoTies demoParams pyDemo := by
  refine ⟨⟨one_pos, fun _ _ => one_pos, fun _ _ _ _ => zero_le_one, fun _ _ _ _ => one_pos⟩, fun _ _ => Nat.one_pos, ?_, ?_⟩
  · intro i j hij hj
    unfold pyDemo
    dsimp only
    split <;> split <;> first | omega | norm_num
  · intro n hn m hm
    have hn : n < 2 := hn
    have h1 : n = 1 := by omega
    have h0 : m = 0 := by omega
    subst h1 h0
    unfold pyDemo demoParams
    norm_num

/-- the hypotheses of `C102_absent_edge_violated` are met by these two events when the edge is switched off -/
example : CTPos { demoParams with A := fun _ _ => 0 } ∧ LabelsOk 1 pyDemo ∧ SortedTimes pyDemo ∧ NoTies { demoParams with A := fun _ _ => 0 } pyDemo ∧ pyDemo.S 1 - pyDemo.S 0 < demoParams.dtMax := by
  obtain ⟨h1, h2, h3, h4⟩ := pyDemo_ok
  refine ⟨⟨h1.1, h1.2, h1.3, h1.4⟩, h2, h3, h4, ?_⟩
  unfold pyDemo demoParams
  norm_num

/-- **C102 (impulse statistics violated).** The method stores only the sums of scaled lags, in an array of the wrong shape, and the impulse update then takes the same numbers for the counts, the sums and the squared deviations: whatever the
data, all three are the sum of scaled lags. There are runs in which an edge has a child but its count is read as zero. -/
theorem C102_impulse_statistics_violated :
    (∀ (P : CTParams) (D D' : CTData) (u : Vec ℝ), ctResamplePython P u D = .ok D' → D'.imp0 = D'.imp1 ∧ D'.imp2 = D'.imp1) ∧
    ∃ (P : CTParams) (D D' : CTData) (u : Vec ℝ), CTPos P ∧ LabelsOk P.K D ∧ SortedTimes D ∧ NoTies P D ∧ (∀ n < D.N, 0 ≤ u n ∧ u n < 1) ∧ ctResamplePython P u D = .ok D' ∧ 0 < (children D D'.Z 0 0).card ∧ D'.imp0 0 0 = 0 := by
  have hall : ∀ (P : CTParams) (D D' : CTData) (u : Vec ℝ), ctResamplePython P u D = .ok D' → D'.imp0 = D'.imp1 ∧ D'.imp2 = D'.imp1 := by
    intro P D D' u h
    unfold ctResamplePython at h
    split at h
    · cases h
    · rw [← Except.ok.inj h]
      exact ⟨rfl, rfl⟩
  refine ⟨hall, ?_⟩
  obtain ⟨hP, hL, hS, hT⟩ := pyDemo_ok
  obtain ⟨sel, h1, h2, _, h4⟩ := C102_python_parents_partial hP hL hS hT
  have hN1 : 1 < pyDemo.N := by unfold pyDemo; norm_num
  have hlag : pyDemo.S 1 - pyDemo.S 0 < demoParams.dtMax := by unfold pyDemo demoParams; norm_num
  have hpos : 0 < MeasureTheory.volume {x : ℝ | 0 ≤ x ∧ x < 1 ∧ sel 1 x = ((0 : ℕ) : ℤ)} := by
    rw [h4 1 hN1 0 one_pos, ENNReal.ofReal_pos]
    exact div_pos (fullContribution_pos hP hL hT hN1 one_pos one_pos hlag) (fullRate_pos hP hL hS hT hN1)
  obtain ⟨x, hx0, hx1, hsel⟩ : Set.Nonempty {x : ℝ | 0 ≤ x ∧ x < 1 ∧ sel 1 x = ((0 : ℕ) : ℤ)} := by
    by_contra hne
    rw [Set.not_nonempty_iff_eq_empty.1 hne, MeasureTheory.measure_empty] at hpos
    exact lt_irrefl _ hpos
  obtain ⟨D', hD', hZ, _, _, _, _, _, hwt, himp, _⟩ := h1 (fun _ => x) fun _ _ => ⟨hx0, hx1⟩
  have hz1 : D'.Z 1 = 0 := by rw [hZ 1 hN1, hsel]; rfl
  have hz0 : D'.Z 0 = -1 := by
    rw [hZ 0 (by unfold pyDemo; norm_num)]
    rcases h2 0 (by unfold pyDemo; norm_num) x hx0 hx1 with h | ⟨m, hm, _⟩
    · exact h
    · omega
  have hch : children pyDemo D'.Z 0 0 = {1} := by
    unfold children
    ext n
    rw [Finset.mem_filter, Finset.mem_singleton]
    constructor
    · rintro ⟨hn, h0, _⟩
      have hn : n < 2 := Finset.mem_range.1 hn
      by_contra hne
      have : n = 0 := by omega
      subst this
      rw [hz0] at h0
      omega
    · rintro rfl
      exact ⟨Finset.mem_range.2 hN1, by rw [hz1], rfl, rfl⟩
  refine ⟨demoParams, pyDemo, D', fun _ => x, hP, hL, hS, hT, fun _ _ => ⟨hx0, hx1⟩, hD', by rw [hch]; simp, ?_⟩
  rw [(hall _ _ _ _ hD').1, himp, hch, Finset.sum_singleton]
  unfold childLag
  rw [hz1]
  unfold pyDemo demoParams
  norm_num

/-- **C102 (violated: an event nothing can explain).** When the background rate of an event's process is zero and its predecessor is already outside the window, every entry given to `sample_discrete` is zero, which then picks
uniformly: with probability 1/2 (`u ≥ 1/2`) the event is attributed to an event more than `dt_max` before it. -/
theorem C102_zero_background_violated {P : CTParams} {D : CTData} {n : ℕ} (h0 : P.lam0 (D.C (n + 1)) = 0) (hlag : P.dtMax < D.S (n + 1) - D.S n) (u : ℝ) (hu : 0 ≤ u ∧ u < 1) :
    pyParent P D u (n + 1) = .ok (if u < 1 / 2 then -1 else (n : ℤ)) := by
  have hs : pyScan P D (n + 1) (n + 1) (fun _ => .fin 0) 0 = (Vec.set (fun _ => .fin 0) n (.fin 0), n) := by
    rw [pyScan]
    exact if_pos hlag
  have hz : (Vec.set (fun _ => FX.fin 0) n (FX.fin 0)) = fun _ => FX.fin 0 := by
    funext i
    unfold Vec.set
    split_ifs <;> rfl
  unfold pyParent
  rw [if_neg (Nat.succ_ne_zero n)]
  dsimp only
  rw [hs, hz]
  dsimp only
  rw [h0]
  have hp : (fun i => if i = 0 then FX.fin 0 else FX.fin 0 : ℕ → FX) = fun _ => FX.fin 0 := by
    funext i
    split_ifs <;> rfl
  rw [hp, show 1 + (n + 1 - n) = 2 by omega]
  have hw : (FX.fin 0).weight? = some 0 := if_pos le_rfl
  have hsd : sampleDiscrete u 2 (fun _ => FX.fin 0) = .ok ⌊u * (2 : ℕ)⌋.toNat := by
    unfold sampleDiscrete
    rw [if_neg (by rintro ⟨i, _, h⟩; rw [hw] at h; cases h)]
    exact if_pos fun i _ => by simp only [hw]; rfl
  rw [hsd]
  by_cases h : u < 1 / 2
  · have : ⌊u * (2 : ℕ)⌋ = 0 := by
      rw [Int.floor_eq_zero_iff]
      push_cast
      exact ⟨by linarith, by linarith⟩
    rw [if_pos h, this]
    rfl
  · have : ⌊u * (2 : ℕ)⌋ = 1 := by
      rw [Int.floor_eq_iff]
      push_cast
      exact ⟨by linarith, by linarith⟩
    rw [if_neg h, this]
    simp

/-- non-vacuity: two events ten seconds apart in a window of one second, with background rate 0 -/
example : pyParent { demoParams with lam0 := fun _ => 0 } { pyDemo with S := fun n => 10 * n } (3 / 4) 1 = .ok 0 := by
  refine (C102_zero_background_violated (n := 0) rfl (by norm_num [demoParams]) _ (by norm_num)).trans ?_
  rw [if_neg (by norm_num)]
  rfl

end PyHawkes
