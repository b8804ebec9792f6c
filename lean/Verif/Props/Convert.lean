import Verif.Model.Convert
import Verif.Spec.Convert
import Verif.Props.CTParents

/-!
# Binning conserves events (C60), discrete → continuous → discrete (C59)
-/

set_option linter.unusedSectionVars false
set_option linter.unusedVariables false

namespace PyHawkes
open Finset Spec

theorem countP_diff {α : Type*} (l : List α) (p q r : α → Bool) (h : ∀ x, q x = true ↔ (p x = true ∨ r x = true)) (hd : ∀ x, ¬ (p x = true ∧ r x = true)) :
    ((l.countP q : ℕ) : ℤ) - ((l.countP p : ℕ) : ℤ) = ((l.countP r : ℕ) : ℤ) := by
  induction l with
  | nil => simp
  | cons x l ih =>
    simp only [List.countP_cons]
    have h1 := h x
    have h2 := hd x
    cases hp : p x <;> cases hq : q x <;> cases hr : r x <;> (simp_all; try omega)

open Classical in
theorem histCum_length (xs : List ℝ) (bs : List ℝ) : (histCum xs bs).length = bs.length := by
  induction bs with
  | nil => rfl
  | cons b bs ih =>
    cases bs with
    | nil => rfl
    | cons b' bs => simp only [histCum, List.length_cons] at ih ⊢; omega

open Classical in
theorem histCum_getElem (xs : List ℝ) (bs : List ℝ) (i : ℕ) (h : i < bs.length) :
    (histCum xs bs)[i]'(by rw [histCum_length]; exact h) = if i + 1 < bs.length then ((xs.countP fun x => decide (x < bs[i]) : ℕ) : ℤ) else ((xs.countP fun x => decide (x ≤ bs[i]) : ℕ) : ℤ) := by
  induction bs generalizing i with
  | nil => simp at h
  | cons b bs ih =>
    cases bs with
    | nil =>
      have : i = 0 := by simpa using h
      subst this
      simp [histCum]
    | cons b' bs =>
      cases i with
      | zero => simp [histCum]
      | succ i =>
        have := ih i (by simpa using h)
        simp only [histCum, List.getElem_cons_succ]
        rw [this]
        simp only [List.length_cons]
        congr 1
        simp

theorem npDiff_getElem (l : List ℤ) (t : ℕ) (h : t + 1 < l.length) : (npDiff l).getD t 0 = l[t+1] - l[t] := by
  unfold npDiff
  rw [List.getD_eq_getElem?_getD, List.getElem?_zipWith]
  simp [h, show t < l.length by omega]

/-- the edges used by the code: `n` left edges and the end of the window -/
noncomputable def edgeFn (dt tMin tMax : ℝ) (n i : ℕ) : ℝ := if i < n then tMin + i * dt else tMax

theorem edgesOk_iff (bs : List ℝ) : edgesOk bs ↔ bs.IsChain (· ≤ ·) := by
  induction bs with
  | nil => simp [edgesOk]
  | cons b bs ih =>
    cases bs with
    | nil => simp [edgesOk]
    | cons b' bs => simp only [edgesOk, List.isChain_cons_cons, ih]

theorem ceil_pos_facts {dt tMin tMax : ℝ} (hdt : 0 < dt) (hw : tMin < tMax) :
    0 < (⌈(tMax - tMin) / dt⌉).toNat ∧ (∀ i < (⌈(tMax - tMin) / dt⌉).toNat, tMin + i * dt < tMax) ∧ tMax ≤ tMin + ((⌈(tMax - tMin) / dt⌉).toNat : ℝ) * dt := by
  have h0 : 0 < (tMax - tMin) / dt := div_pos (by linarith) hdt
  have hc : 0 < ⌈(tMax - tMin) / dt⌉ := Int.ceil_pos.2 h0
  refine ⟨by omega, fun i hi => ?_, ?_⟩
  · have : (i : ℤ) < ⌈(tMax - tMin) / dt⌉ := by omega
    have := Int.lt_ceil.1 this
    rw [lt_div_iff₀ hdt] at this
    push_cast at this
    linarith
  · have h1 := Int.le_ceil ((tMax - tMin) / dt)
    have h2 : (((⌈(tMax - tMin) / dt⌉).toNat : ℕ) : ℝ) = ((⌈(tMax - tMin) / dt⌉ : ℤ) : ℝ) := by
      rw [← Int.cast_natCast, Int.toNat_of_nonneg hc.le]
    rw [h2]
    rw [div_le_iff₀ hdt] at h1
    linarith

/-- all edges as one list -/
theorem bins_eq {dt tMin tMax : ℝ} (n : ℕ) : ((List.range n).map fun i : ℕ => tMin + i * dt) ++ [tMax] = (List.range (n + 1)).map (edgeFn dt tMin tMax n) := by
  rw [List.range_succ, List.map_append]
  congr 1
  · apply List.map_congr_left
    intro i hi
    unfold edgeFn
    rw [if_pos (List.mem_range.1 hi)]
  · simp [edgeFn]

theorem edges_mono {dt tMin tMax : ℝ} (hdt : 0 < dt) (hw : tMin < tMax) {n : ℕ} (hn : n = (⌈(tMax - tMin) / dt⌉).toNat) : edgesOk ((List.range (n + 1)).map (edgeFn dt tMin tMax n)) := by
  obtain ⟨h1, h2, h3⟩ := ceil_pos_facts hdt hw
  rw [← hn] at h1 h2 h3
  rw [edgesOk_iff, List.isChain_iff_getElem]
  intro i hi
  simp only [List.length_map, List.length_range] at hi
  simp only [List.getElem_map, List.getElem_range]
  unfold edgeFn
  rw [if_pos (by omega)]
  split
  · push_cast; nlinarith
  · exact (h2 i (by omega)).le

open Classical in
theorem hist_entry {dt tMin tMax : ℝ} (hdt : 0 < dt) (hw : tMin < tMax) {n : ℕ} (hn : n = (⌈(tMax - tMin) / dt⌉).toNat) (xs : List ℝ) {t : ℕ} (ht : t < n) :
    (npDiff (histCum xs ((List.range (n + 1)).map (edgeFn dt tMin tMax n)))).getD t 0 = ((xs.countP fun x => decide (InBin dt tMin tMax t x) : ℕ) : ℤ) := by
  obtain ⟨h1, h2, h3⟩ := ceil_pos_facts hdt hw
  rw [← hn] at h1 h2 h3
  rw [npDiff_getElem _ _ (by rw [histCum_length]; simp; omega), histCum_getElem _ _ _ (by simp; omega), histCum_getElem _ _ _ (by simp; omega)]
  simp only [List.length_map, List.length_range, List.getElem_map, List.getElem_range]
  rw [if_pos (show t + 1 < n + 1 by omega)]
  have ht2 := h2 t ht
  split
  · have h4 := h2 (t+1) (by omega)
    push_cast at h4
    apply countP_diff
    · intro x
      simp only [decide_eq_true_eq]; simp only [edgeFn, if_pos ht, if_pos (show t + 1 < n by omega), InBin]
      push_cast
      constructor
      · intro h
        rcases lt_or_ge x (tMin + t * dt) with h' | h'
        · exact .inl h'
        · exact .inr ⟨h', by linarith, .inl h⟩
      · rintro (h | ⟨_, _, h | ⟨h, h'⟩⟩) <;> nlinarith
    · intro x
      simp only [decide_eq_true_eq]; simp only [edgeFn, if_pos ht, InBin]
      rintro ⟨h, h', _⟩
      linarith
  · have : n = t + 1 := by omega
    subst this
    push_cast at h3
    apply countP_diff
    · intro x
      simp only [decide_eq_true_eq]; simp only [edgeFn, if_pos ht, if_neg (lt_irrefl (t+1)), InBin]
      constructor
      · intro h
        rcases lt_or_ge x (tMin + t * dt) with h' | h'
        · exact .inl h'
        · refine .inr ⟨h', h, ?_⟩
          rcases lt_or_ge x (tMin + (t + 1) * dt) with h5 | h5
          · exact .inl h5
          · exact .inr ⟨by linarith, by linarith⟩
      · rintro (h | ⟨_, h, _⟩) <;> linarith
    · intro x
      simp only [decide_eq_true_eq]; simp only [edgeFn, if_pos ht, InBin]
      rintro ⟨h, h', _⟩
      linarith

/-- `x` in the window lies in exactly one bin -/
theorem inBin_exists {dt tMin tMax : ℝ} (hdt : 0 < dt) (hw : tMin < tMax) {x : ℝ} (h1 : tMin ≤ x) (h2 : x ≤ tMax) : ∃ t < (⌈(tMax - tMin) / dt⌉).toNat, InBin dt tMin tMax t x := by
  obtain ⟨q1, q2, q3⟩ := ceil_pos_facts hdt hw
  set n := (⌈(tMax - tMin) / dt⌉).toNat
  by_contra hno
  push Not at hno
  have : ∀ t ≤ n, tMin + t * dt ≤ x ∧ (t = n → x ≠ tMax) := by
    intro t
    induction t with
    | zero => intro _; exact ⟨by push_cast; linarith, fun h => by omega⟩
    | succ t ih =>
      intro ht
      obtain ⟨i1, -⟩ := ih (by omega)
      have hn := hno t (by omega)
      unfold InBin at hn
      push Not at hn
      obtain ⟨a, b⟩ := hn i1 h2
      refine ⟨by push_cast; exact a, fun he hx => ?_⟩
      have h3 := b hx
      rw [← he] at q3
      push_cast at q3
      rw [hx] at a
      exact h3 (le_antisymm q3 a)
  obtain ⟨a, b⟩ := this n le_rfl
  exact b rfl (le_antisymm h2 (q3.trans a))

theorem inBin_unique {dt tMin tMax : ℝ} (hdt : 0 < dt) (hw : tMin < tMax) {x : ℝ} {t s : ℕ} (ht : t < (⌈(tMax - tMin) / dt⌉).toNat) (hs : s < (⌈(tMax - tMin) / dt⌉).toNat)
    (h1 : InBin dt tMin tMax t x) (h2 : InBin dt tMin tMax s x) : t = s := by
  obtain ⟨q1, q2, q3⟩ := ceil_pos_facts hdt hw
  have key : ∀ t s : ℕ, s < (⌈(tMax - tMin) / dt⌉).toNat → InBin dt tMin tMax t x → InBin dt tMin tMax s x → ¬ t < s := by
    intro t s hs h1 h2 hlt
    obtain ⟨a1, a2, a3⟩ := h1
    obtain ⟨b1, b2, b3⟩ := h2
    have hc : (t : ℝ) + 1 ≤ s := by exact_mod_cast hlt
    have h5 : tMin + (t + 1) * dt ≤ tMin + s * dt := by nlinarith
    have h6 := q2 s hs
    rcases a3 with h | ⟨h, h'⟩
    · linarith
    · linarith
  exact le_antisymm (not_lt.1 (key s t ht h2 h1)) (not_lt.1 (key t s hs h1 h2))

open Classical in
theorem binColumn_ok {dt tMin tMax : ℝ} (hdt : 0 < dt) (hw : tMin < tMax) {n : ℕ} (hn : n = (⌈(tMax - tMin) / dt⌉).toNat) {S : List ℝ} {C : List ℤ} (hlen : S.length = C.length) (k : ℕ) (acc : Mat ℤ) :
    ∃ D, binColumn S C ((List.range (n + 1)).map (edgeFn dt tMin tMax n)) k acc = .ok D ∧ (∀ t < n, D t k = (binCount dt tMin tMax S C t k : ℤ)) ∧ ∀ t j, j ≠ k → D t j = acc t j := by
  unfold binColumn selectLabel npHistogram
  rw [if_neg (not_not.2 hlen)]
  simp only [if_pos (edges_mono hdt hw hn)]
  refine ⟨_, rfl, fun t ht => ?_, fun t j hj => if_neg hj⟩
  rw [if_pos rfl, hist_entry hdt hw hn _ ht, List.countP_map, List.countP_filter]
  unfold binCount
  rw [List.countP_eq_length_filter]
  congr 2
  apply List.filter_congr
  intro e _
  simp [Bool.decide_and]

open Classical in
theorem columns_ok {dt tMin tMax : ℝ} (hdt : 0 < dt) (hw : tMin < tMax) {n : ℕ} (hn : n = (⌈(tMax - tMin) / dt⌉).toNat) {S : List ℝ} {C : List ℤ} (hlen : S.length = C.length) (K : ℕ) (acc : Mat ℤ) :
    ∃ D, forListE (List.range K) (binColumn S C ((List.range (n + 1)).map (edgeFn dt tMin tMax n))) acc = .ok D ∧ ∀ t < n, ∀ k < K, D t k = (binCount dt tMin tMax S C t k : ℤ) := by
  induction K with
  | zero => exact ⟨acc, rfl, fun _ _ _ h => absurd h (Nat.not_lt_zero _)⟩
  | succ K ih =>
    obtain ⟨D, hD, hv⟩ := ih
    obtain ⟨D', hD', hv', hk⟩ := binColumn_ok hdt hw hn hlen K D
    refine ⟨D', ?_, fun t ht k hk' => ?_⟩
    · rw [List.range_succ, forListE_append, hD]
      dsimp only
      unfold forListE
      rw [hD']
      rfl
    · rcases Nat.lt_succ_iff_lt_or_eq.1 hk' with h | rfl
      · rw [hk t k (by omega), hv t ht k h]
      · exact hv' t ht

theorem labelMax_spec {C : List ℤ} (hC : C ≠ []) : ∃ m, labelMax C = .ok m ∧ m ∈ C ∧ ∀ c ∈ C, c ≤ m := by
  cases C with
  | nil => exact absurd rfl hC
  | cons c cs =>
    refine ⟨_, rfl, ?_⟩
    clear hC
    induction cs generalizing c with
    | nil => simp
    | cons d ds ih =>
      obtain ⟨h1, h2⟩ := ih (max c d)
      rw [List.foldl_cons]
      refine ⟨?_, ?_⟩
      · rcases List.mem_cons.1 h1 with h | h
        · rw [h]
          rcases max_choice c d with h | h <;> rw [h] <;> simp
        · exact List.mem_cons_of_mem _ (List.mem_cons_of_mem _ h)
      · intro x hx
        have hm := h2 (max c d) (by simp)
        rcases List.mem_cons.1 hx with rfl | hx
        · exact (le_max_left _ _).trans hm
        · rcases List.mem_cons.1 hx with rfl | hx
          · exact (le_max_right _ _).trans hm
          · exact h2 x (List.mem_cons_of_mem _ hx)

/-- counting by cells counts exactly the elements that belong to some cell, when cells are disjoint -/
theorem sum_cells {α : Type*} (l : List α) (n K : ℕ) (b : ℕ → α → Prop) (c : ℕ → α → Prop) (bc : ℕ → ℕ → α → Bool) (d : α → Bool)
    (hbc : ∀ t k e, bc t k e = true ↔ b t e ∧ c k e) (hd : ∀ e, d e = true ↔ (∃ t < n, b t e) ∧ ∃ k < K, c k e)
    (hb : ∀ e ∈ l, ∀ t < n, ∀ s < n, b t e → b s e → t = s) (hc : ∀ e ∈ l, ∀ t < K, ∀ s < K, c t e → c s e → t = s) :
    ∑ t ∈ range n, ∑ k ∈ range K, (l.filter (bc t k)).length = (l.filter d).length := by
  induction l with
  | nil => simp
  | cons e l ih =>
    have ih := ih (fun e he => hb e (List.mem_cons_of_mem _ he)) (fun e he => hc e (List.mem_cons_of_mem _ he))
    have hcons : ∀ (p : α → Bool), ((e :: l).filter p).length = (if p e = true then 1 else 0) + (l.filter p).length := by
      intro p
      rw [List.filter_cons]
      by_cases h : p e = true
      · simp [h, add_comm]
      · simp [h]
    simp only [hcons, Finset.sum_add_distrib, ih]
    congr 1
    split
    · rename_i h
      obtain ⟨⟨t, ht, hbt⟩, k, hk, hck⟩ := (hd e).1 h
      rw [Finset.sum_eq_single t, Finset.sum_eq_single k, if_pos ((hbc _ _ _).2 ⟨hbt, hck⟩)]
      · intro k' hk' hne
        rw [if_neg]
        intro h
        exact hne (hc e (by simp) k' (Finset.mem_range.1 hk') k hk ((hbc _ _ _).1 h).2 hck)
      · intro h; exact absurd (Finset.mem_range.2 hk) h
      · intro t' ht' hne
        apply Finset.sum_eq_zero
        intro k' _
        rw [if_neg]
        intro h
        exact hne (hb e (by simp) t' (Finset.mem_range.1 ht') t ht ((hbc _ _ _).1 h).1 hbt)
      · intro h; exact absurd (Finset.mem_range.2 ht) h
    · rename_i h
      apply Finset.sum_eq_zero
      intro t ht
      apply Finset.sum_eq_zero
      intro k hk
      rw [if_neg]
      intro h1
      obtain ⟨h1, h2⟩ := (hbc _ _ _).1 h1
      exact h ((hd e).2 ⟨⟨t, Finset.mem_range.1 ht, h1⟩, k, Finset.mem_range.1 hk, h2⟩)

theorem getLast_arange {tMin dt : ℝ} {n : ℕ} (hn : 0 < n) : ((List.range n).map fun i : ℕ => tMin + i * dt).getLast? = some (tMin + ((n - 1 : ℕ) : ℝ) * dt) := by
  obtain ⟨m, rfl⟩ := Nat.exists_eq_succ_of_ne_zero hn.ne'
  rw [List.range_succ, List.map_append]
  simp

open Classical in
/-- the whole conversion for a proper window -/
theorem convert_eval {dt tMin tMax : ℝ} (hdt : 0 < dt) (hw : tMin < tMax) {S : List ℝ} {C : List ℤ} (hlen : S.length = C.length) {m : ℤ} (hm : labelMax C = .ok m) :
    (m + 1 < 0 → continuousToDiscrete S C dt tMin tMax = .error .value) ∧ (0 ≤ m + 1 → ∃ D : Mat ℤ, (∀ t < (⌈(tMax - tMin) / dt⌉).toNat, ∀ k < (m + 1).toNat, D t k = (binCount dt tMin tMax S C t k : ℤ)) ∧
      continuousToDiscrete S C dt tMin tMax = if ((S.zip C).filter fun e => decide ((tMin ≤ e.1 ∧ e.1 ≤ tMax) ∧ 0 ≤ e.2 ∧ e.2 < m + 1)).length = S.length then .ok ((⌈(tMax - tMin) / dt⌉).toNat, (m + 1).toNat, D) else .error .assertion) := by
  obtain ⟨q1, q2, q3⟩ := ceil_pos_facts hdt hw
  have hbins : continuousToDiscrete S C dt tMin tMax = (if m + 1 < 0 then .error .value else
      match forListE (List.range (m + 1).toNat) (binColumn S C ((List.range ((⌈(tMax - tMin) / dt⌉).toNat + 1)).map (edgeFn dt tMin tMax (⌈(tMax - tMin) / dt⌉).toNat))) (fun _ _ => 0) with
          | .error e => .error e
          | .ok D => if ∑ t ∈ range (⌈(tMax - tMin) / dt⌉).toNat, ∑ k ∈ range (m + 1).toNat, D t k = (S.length : ℤ) then .ok ((⌈(tMax - tMin) / dt⌉).toNat, (m + 1).toNat, D)
            else .error .assertion) := by
    unfold continuousToDiscrete npArange
    rw [if_neg hdt.ne']
    dsimp only
    rw [getLast_arange q1]
    dsimp only
    rw [if_pos (q2 _ (by omega)).ne, hm, bins_eq]
    dsimp only
    simp only [List.length_map, List.length_range, Nat.add_sub_cancel]
    rfl
  rw [hbins]
  refine ⟨fun h => if_pos h, fun h => ?_⟩
  rw [if_neg (not_lt.2 h)]
  obtain ⟨D, hD, hv⟩ := columns_ok hdt hw rfl hlen (m + 1).toNat (fun _ _ => 0)
  refine ⟨D, hv, ?_⟩
  rw [hD]
  dsimp only
  have hsum : ∑ t ∈ range (⌈(tMax - tMin) / dt⌉).toNat, ∑ k ∈ range (m + 1).toNat, D t k =
      ((((S.zip C).filter fun e => decide ((tMin ≤ e.1 ∧ e.1 ≤ tMax) ∧ 0 ≤ e.2 ∧ e.2 < m + 1)).length : ℕ) : ℤ) := by
    rw [Finset.sum_congr rfl fun t ht => Finset.sum_congr rfl fun k hk => hv t (Finset.mem_range.1 ht) k (Finset.mem_range.1 hk)]
    unfold binCount
    rw [← sum_cells (S.zip C) (⌈(tMax - tMin) / dt⌉).toNat (m + 1).toNat (fun t e => InBin dt tMin tMax t e.1) (fun k e => e.2 = (k : ℤ)) (fun t k e => decide (InBin dt tMin tMax t e.1 ∧ e.2 = (k : ℤ))) _
      (fun t k e => decide_eq_true_iff) (fun e => ?_) (fun e _ t ht s hs h1 h2 => inBin_unique hdt hw ht hs h1 h2) (fun e _ t _ s _ h1 h2 => by omega)]
    · push_cast
      rfl
    · rw [decide_eq_true_iff]
      apply and_congr
      · constructor
        · rintro ⟨h1, h2⟩
          exact inBin_exists hdt hw h1 h2
        · rintro ⟨t, _, h1, h2, _⟩
          refine ⟨?_, h2⟩
          have : 0 ≤ (t : ℝ) * dt := by positivity
          linarith
      · constructor
        · rintro ⟨h1, h2⟩
          exact ⟨e.2.toNat, by omega, by omega⟩
        · rintro ⟨k, h1, h2⟩
          omega
  rw [hsum]
  simp only [Nat.cast_inj]

/-! ### C60 -/

theorem mem_zip_label {S : List ℝ} {C : List ℤ} (hlen : S.length = C.length) {P : ℤ → Prop} (h : ∀ c ∈ C, P c) : ∀ e ∈ S.zip C, P e.2 := by
  intro e he
  exact h _ (List.of_mem_zip (a := e.1) (b := e.2) he).2

/-- **C60 (which inputs are accepted).** For as many labels as events, `convert_continuous_to_discrete` succeeds exactly if there is at least one event, the bin width is positive, the window is nonempty,
no label is negative and every event lies in `[T_min, T_max]`. -/
theorem C60_accepts_iff {S : List ℝ} {C : List ℤ} (hlen : S.length = C.length) (dt tMin tMax : ℝ) :
    (∃ r, continuousToDiscrete S C dt tMin tMax = .ok r) ↔ S ≠ [] ∧ 0 < dt ∧ tMin < tMax ∧ ∀ e ∈ S.zip C, 0 ≤ e.2 ∧ tMin ≤ e.1 ∧ e.1 ≤ tMax := by
  classical
  by_cases hC : C = []
  · subst hC
    have hS : S = [] := List.eq_nil_of_length_eq_zero hlen
    constructor
    · rintro ⟨r, h⟩
      unfold continuousToDiscrete at h
      split at h
      · cases h
      · split at h
        · cases h
        · simp only [labelMax] at h
          cases h
    · rintro ⟨h, _⟩
      exact absurd hS h
  have hS : S ≠ [] := by
    intro h
    subst h
    exact hC (List.eq_nil_of_length_eq_zero hlen.symm)
  obtain ⟨m, hm, hmem, hmax⟩ := labelMax_spec hC
  by_cases hgood : 0 < dt ∧ tMin < tMax
  · obtain ⟨hdt, hw⟩ := hgood
    obtain ⟨e1, e2⟩ := convert_eval hdt hw hlen hm
    have hfl : (((S.zip C).filter fun e => decide ((tMin ≤ e.1 ∧ e.1 ≤ tMax) ∧ 0 ≤ e.2 ∧ e.2 < m + 1)).length = S.length) ↔ ∀ e ∈ S.zip C, 0 ≤ e.2 ∧ tMin ≤ e.1 ∧ e.1 ≤ tMax := by
      have hzl : S.length = (S.zip C).length := by rw [List.length_zip, hlen, Nat.min_self]
      rw [hzl, List.length_filter_eq_length_iff]
      apply forall_congr'
      intro e
      apply imp_congr_right
      intro he
      have := mem_zip_label hlen hmax e he
      rw [decide_eq_true_iff]
      constructor
      · rintro ⟨⟨a, b⟩, c, d⟩
        exact ⟨c, a, b⟩
      · rintro ⟨c, a, b⟩
        exact ⟨⟨a, b⟩, c, by omega⟩
    constructor
    · rintro ⟨r, hr⟩
      refine ⟨hS, hdt, hw, ?_⟩
      rcases lt_or_ge (m + 1) 0 with h | h
      · rw [e1 h] at hr
        cases hr
      · obtain ⟨D, _, hD⟩ := e2 h
        rw [hD] at hr
        split at hr
        · rename_i hc
          exact hfl.1 hc
        · cases hr
    · rintro ⟨_, _, _, h⟩
      have h0 : 0 ≤ m + 1 := by
        obtain ⟨i, hi, rfl⟩ := List.getElem_of_mem hmem
        have := (h (S[i], C[i]) (by
          have hz : (S.zip C)[i]'(by rw [List.length_zip]; omega) = (S[i], C[i]) := List.getElem_zip
          rw [← hz]
          exact List.getElem_mem _)).1
        dsimp only at this
        omega
      obtain ⟨D, _, hD⟩ := e2 h0
      rw [hD, if_pos (hfl.2 h)]
      exact ⟨_, rfl⟩
  · constructor
    · rintro ⟨r, hr⟩
      exfalso
      unfold continuousToDiscrete npArange at hr
      by_cases h0 : dt = 0
      · rw [if_pos h0] at hr
        cases hr
      · rw [if_neg h0] at hr
        dsimp only at hr
        by_cases hn : (⌈(tMax - tMin) / dt⌉).toNat = 0
        · rw [hn] at hr
          cases hr
        · have hpos : 0 < (tMax - tMin) / dt := by
            rw [← Int.ceil_pos]; omega
          rcases lt_or_gt_of_ne h0 with hneg | hp
          · have hw : tMax < tMin := by
              by_contra hge
              push Not at hge
              have := div_nonpos_of_nonneg_of_nonpos (sub_nonneg.2 hge) hneg.le
              linarith
            rw [getLast_arange (Nat.pos_of_ne_zero hn)] at hr
            dsimp only at hr
            have hlast : tMin + (((⌈(tMax - tMin) / dt⌉).toNat - 1 : ℕ) : ℝ) * dt ≠ tMax := by
              have : (((⌈(tMax - tMin) / dt⌉).toNat - 1 : ℕ) : ℤ) < ⌈(tMax - tMin) / dt⌉ := by omega
              have := Int.lt_ceil.1 this
              rw [lt_div_iff_of_neg hneg] at this
              push_cast at this
              intro he
              linarith
            rw [if_pos hlast, hm] at hr
            dsimp only at hr
            split at hr
            · cases hr
            · have hedges : ¬ edgesOk ((List.map (fun i : ℕ => tMin + i * dt) (List.range (⌈(tMax - tMin) / dt⌉).toNat)) ++ [tMax]) := by
                rw [edgesOk_iff, List.isChain_iff_pairwise]
                intro hch
                have h1 := (List.pairwise_append.1 hch).2.2 (tMin + ((0 : ℕ) : ℝ) * dt) (List.mem_map.2 ⟨0, List.mem_range.2 (Nat.pos_of_ne_zero hn), rfl⟩) tMax (by simp)
                push_cast at h1
                linarith
              rcases Nat.eq_zero_or_pos (m + 1).toNat with hK | hK
              · rw [hK] at hr
                simp only [List.range_zero, forListE, Finset.range_zero, Finset.sum_const_zero] at hr
                rw [if_neg] at hr
                · cases hr
                · intro h
                  have : S.length = 0 := by exact_mod_cast h.symm
                  exact hS (List.eq_nil_of_length_eq_zero this)
              · obtain ⟨K', hK'⟩ := Nat.exists_eq_succ_of_ne_zero hK.ne'
                rw [hK', List.range_succ_eq_map] at hr
                unfold forListE binColumn npHistogram selectLabel at hr
                rw [if_neg (not_not.2 hlen)] at hr
                dsimp only at hr
                rw [if_neg hedges] at hr
                cases hr
          · refine hgood ⟨hp, ?_⟩
            by_contra hge
            push Not at hge
            have := div_nonpos_of_nonpos_of_nonneg (sub_nonpos.2 hge) hp.le
            linarith
    · rintro ⟨_, h1, h2, _⟩
      exact absurd ⟨h1, h2⟩ hgood

/-- **C60 (the counts).** A successful conversion returns `⌈(T_max - T_min)/dt⌉` bins, one column per label up to the largest one present, and in every cell the number of events with that label in that bin; all cells together hold every event. -/
theorem C60_counts {S : List ℝ} {C : List ℤ} (hlen : S.length = C.length) {dt tMin tMax : ℝ} {T K : ℕ} {D : Mat ℤ} (h : continuousToDiscrete S C dt tMin tMax = .ok (T, K, D)) :
    (T : ℤ) = ⌈(tMax - tMin) / dt⌉ ∧ ((K : ℤ) - 1 ∈ C ∧ ∀ c ∈ C, c < K) ∧ (∀ t < T, ∀ k < K, D t k = binCount dt tMin tMax S C t k) ∧ ∑ t ∈ range T, ∑ k ∈ range K, D t k = (S.length : ℤ) := by
  classical
  obtain ⟨hS, hdt, hw, hall⟩ := (C60_accepts_iff hlen dt tMin tMax).1 ⟨_, h⟩
  have hC : C ≠ [] := by
    intro hC
    rw [hC] at hlen
    exact hS (List.eq_nil_of_length_eq_zero hlen)
  obtain ⟨m, hm, hmem, hmax⟩ := labelMax_spec hC
  obtain ⟨e1, e2⟩ := convert_eval hdt hw hlen hm
  rcases lt_or_ge (m + 1) 0 with h0 | h0
  · rw [e1 h0] at h
    cases h
  · obtain ⟨D', hv, hD⟩ := e2 h0
    have h' := h
    rw [hD] at h
    split at h
    · cases h
      refine ⟨?_, ⟨?_, ?_⟩, hv, ?_⟩
      · have : 0 < ⌈(tMax - tMin) / dt⌉ := Int.ceil_pos.2 (div_pos (by linarith) hdt)
        omega
      · have : (((m + 1).toNat : ℕ) : ℤ) - 1 = m := by omega
        rw [this]; exact hmem
      · intro c hc
        have := hmax c hc
        omega
      · rw [Finset.sum_congr rfl fun t ht => Finset.sum_congr rfl fun k hk => hv t (Finset.mem_range.1 ht) k (Finset.mem_range.1 hk)]
        rename_i hc
        unfold binCount
        rw [← hc, ← sum_cells (S.zip C) (⌈(tMax - tMin) / dt⌉).toNat (m + 1).toNat (fun t e => InBin dt tMin tMax t e.1) (fun k e => e.2 = (k : ℤ)) (fun t k e => decide (InBin dt tMin tMax t e.1 ∧ e.2 = (k : ℤ))) _
          (fun t k e => decide_eq_true_iff) (fun e => ?_) (fun e _ t ht s hs h1 h2 => inBin_unique hdt hw ht hs h1 h2) (fun e _ t _ s _ h1 h2 => by omega)]
        · push_cast
          rfl
        · rw [decide_eq_true_iff]
          apply and_congr
          · constructor
            · rintro ⟨h1, h2⟩
              exact inBin_exists hdt hw h1 h2
            · rintro ⟨t, _, h1, h2, _⟩
              refine ⟨?_, h2⟩
              have : 0 ≤ (t : ℝ) * dt := by positivity
              linarith
          · constructor
            · rintro ⟨h1, h2⟩
              exact ⟨e.2.toNat, by omega, by omega⟩
            · rintro ⟨k, h1, h2⟩
              omega
    · cases h

/-- **C60 (bins partition the window).** Every point of the window lies in exactly one bin. -/
theorem C60_bins_partition {dt tMin tMax : ℝ} (hdt : 0 < dt) (hw : tMin < tMax) {x : ℝ} (h1 : tMin ≤ x) (h2 : x ≤ tMax) : ∃! t : ℕ, (t : ℤ) < ⌈(tMax - tMin) / dt⌉ ∧ InBin dt tMin tMax t x := by
  obtain ⟨t, ht, hb⟩ := inBin_exists hdt hw h1 h2
  refine ⟨t, ⟨by omega, hb⟩, ?_⟩
  rintro s ⟨hs, hb'⟩
  exact inBin_unique hdt hw (by omega) ht hb' hb

/-- three events on two processes in a window that is not a multiple of the bin width are accepted -/
example : ∃ r, continuousToDiscrete [0.5, 1, 2.5] [0, 1, 0] 1 0 2.5 = .ok r := by
  rw [C60_accepts_iff rfl]
  refine ⟨by simp, by norm_num, by norm_num, ?_⟩
  intro e he
  fin_cases he <;> norm_num

end PyHawkes
