import Verif.Props.Convert

/-!
# Discrete → continuous → discrete is the identity (C59)
-/

set_option linter.unusedSectionVars false
set_option linter.unusedVariables false

namespace PyHawkes
open Finset Spec

theorem sum_ibincount (T : ℕ) (c : ℕ → ℕ) : (ibincount T c).length = ∑ t ∈ range T, c t := by
  unfold ibincount
  induction T with
  | zero => simp
  | succ T ih => rw [List.range_succ, List.flatMap_append, List.length_append, ih, Finset.sum_range_succ]; simp

theorem lengths_eq (T K : ℕ) (S : Mat ℕ) : (dcIndices T K S).length = (dcLabels T K S).length := by
  unfold dcIndices dcLabels
  induction K with
  | zero => rfl
  | succ K ih => rw [List.range_succ, List.flatMap_append, List.flatMap_append, List.length_append, List.length_append, ih]; simp [sum_ibincount]

theorem count_ibincount (T : ℕ) (c : ℕ → ℕ) (t : ℕ) : (ibincount T c).countP (fun j => decide (j = t)) = if t < T then c t else 0 := by
  unfold ibincount
  induction T with
  | zero => simp
  | succ T ih =>
    rw [List.range_succ, List.flatMap_append, List.countP_append, ih]
    simp only [List.flatMap_cons, List.flatMap_nil, List.append_nil, List.countP_replicate, decide_eq_true_eq]
    rcases lt_trichotomy t T with h | h | h
    · rw [if_pos h, if_neg (by omega), if_pos (by omega), add_zero]
    · subst h; simp
    · rw [if_neg (by omega), if_neg (by omega), if_neg (by omega)]

theorem zip_replicate {α β : Type*} (l : List α) (b : β) : l.zip (List.replicate l.length b) = l.map fun a => (a, b) := by
  induction l with
  | nil => rfl
  | cons a l ih => simp [List.replicate_succ, ih]

theorem zip_indices (T K : ℕ) (S : Mat ℕ) : (dcIndices T K S).zip (dcLabels T K S) = (List.range K).flatMap fun k => (ibincount T fun t => S t k).map fun j => (j, k) := by
  induction K with
  | zero => rfl
  | succ K ih =>
    have hl := lengths_eq T K S
    unfold dcIndices dcLabels at ih hl ⊢
    rw [List.range_succ, List.flatMap_append, List.flatMap_append, List.flatMap_append, List.zip_append hl, ih]
    congr 1
    simp only [List.flatMap_cons, List.flatMap_nil, List.append_nil]
    rw [← sum_ibincount, zip_replicate]

/-- before sorting, index `t` with label `k` occurs `S t k` times -/
theorem count_pairs (T K : ℕ) (S : Mat ℕ) {t k : ℕ} (ht : t < T) (hk : k < K) : ((dcIndices T K S).zip (dcLabels T K S)).countP (fun e => decide (e.1 = t ∧ e.2 = k)) = S t k := by
  rw [zip_indices]
  have : ∀ K, ((List.range K).flatMap fun k => (ibincount T fun t => S t k).map fun j => (j, k)).countP (fun e => decide (e.1 = t ∧ e.2 = k)) = if k < K then S t k else 0 := by
    intro K
    induction K with
    | zero => simp
    | succ K ih =>
      rw [List.range_succ, List.flatMap_append, List.countP_append, ih]
      simp only [List.flatMap_cons, List.flatMap_nil, List.append_nil, List.countP_map, Function.comp_def]
      rcases lt_trichotomy k K with h | h | h
      · rw [if_pos h, if_pos (by omega), List.countP_eq_zero.2, add_zero]
        intro j _
        simp; omega
      · subst h
        simp only [and_true, count_ibincount, if_pos ht, lt_irrefl, if_false, zero_add]
        rw [if_pos (by omega)]
      · rw [if_neg (by omega), if_neg (by omega), List.countP_eq_zero.2]
        intro j _
        simp; omega
  rw [this K, if_pos hk]

theorem mem_indices {T K : ℕ} {S : Mat ℕ} {e : ℕ × ℕ} (he : e ∈ (dcIndices T K S).zip (dcLabels T K S)) : e.1 < T ∧ e.2 < K ∧ S e.1 e.2 ≠ 0 := by
  rw [zip_indices] at he
  obtain ⟨k, hk, he⟩ := List.mem_flatMap.1 he
  obtain ⟨j, hj, rfl⟩ := List.mem_map.1 he
  unfold ibincount at hj
  obtain ⟨t, ht, hj⟩ := List.mem_flatMap.1 hj
  obtain ⟨h0, rfl⟩ := List.mem_replicate.1 hj
  exact ⟨List.mem_range.1 ht, List.mem_range.1 hk, h0⟩

/-- jittering does not move events between bins -/
theorem inBin_jitter {T : ℕ} {dt : ℝ} (hdt : 0 < dt) {j t : ℕ} {u : ℝ} (hu : 0 ≤ u ∧ u < 1) (hj : j < T) : InBin dt 0 (T * dt) t (dt * j + dt * u) ↔ j = t := by
  have hjT : ((j : ℝ) + 1) ≤ T := by exact_mod_cast hj
  have hlt : dt * j + dt * u < T * dt := by nlinarith
  unfold InBin
  constructor
  · rintro ⟨h1, h2, h3⟩
    have h4 : (t : ℝ) < j + 1 := by
      by_contra h
      push Not at h
      nlinarith
    have h5 : (j : ℝ) < t + 1 := by
      rcases h3 with h3 | ⟨h3, _⟩
      · by_contra h
        push Not at h
        nlinarith
      · linarith
    have h4' : t < j + 1 := by exact_mod_cast h4
    have h5' : j < t + 1 := by exact_mod_cast h5
    omega
  · rintro rfl
    refine ⟨by nlinarith, hlt.le, .inl (by nlinarith)⟩

open Classical in
theorem count_jitter {T : ℕ} {dt : ℝ} (hdt : 0 < dt) (t k : ℕ) : ∀ (js : List ℕ) (cs : List ℕ) (us : List ℝ), js.length = us.length → (∀ u ∈ us, 0 ≤ u ∧ u < 1) → (∀ e ∈ js.zip cs, e.1 < T) →
    ((List.zipWith (fun (j : ℕ) (u : ℝ) => dt * (j : ℝ) + dt * u) js us).zip cs).countP (fun e => decide (InBin dt 0 (T * dt) t e.1 ∧ e.2 = k)) = (js.zip cs).countP (fun e => decide (e.1 = t ∧ e.2 = k)) := by
  intro js
  induction js with
  | nil => intro cs us _ _ _; simp
  | cons j js ih =>
    intro cs us hl hu hlt
    cases us with
    | nil => simp at hl
    | cons u us =>
      cases cs with
      | nil => simp
      | cons c cs =>
        rw [List.zipWith_cons_cons, List.zip_cons_cons, List.zip_cons_cons, List.countP_cons, List.countP_cons,
          ih cs us (by simpa using hl) (fun u hu' => hu u (List.mem_cons_of_mem _ hu')) (fun e he => hlt e (by rw [List.zip_cons_cons]; exact List.mem_cons_of_mem _ he))]
        have hb := inBin_jitter (T := T) hdt (t := t) (hu u (by simp)) (hlt (j, c) (by simp))
        simp only [decide_eq_true_eq, hb]

theorem map_getD_range {α : Type*} (xs : List α) (d : α) : (List.range xs.length).map (fun i => xs.getD i d) = xs := by
  apply List.ext_getElem
  · simp
  · intro i h1 h2
    simp [List.getD_eq_getElem?_getD, h2]

theorem takeIdx_zip {α β : Type*} (xs : List α) (ys : List β) (d : α) (d' : β) (p : List ℕ) (hl : xs.length = ys.length) (hp : p.Perm (List.range xs.length)) :
    ((takeIdx d xs p).zip (takeIdx d' ys p)).Perm (xs.zip ys) := by
  unfold takeIdx
  rw [List.zip_map']
  have h1 := hp.map fun i => (xs.getD i d, ys.getD i d')
  refine h1.trans ?_
  have h2 : ((List.range xs.length).map fun i => (xs.getD i d, ys.getD i d')) = xs.zip ys := by
    rw [← List.zip_map', map_getD_range, hl, map_getD_range]
  rw [h2]

theorem takeIdx_perm {α : Type*} (xs : List α) (d : α) (p : List ℕ) (hp : p.Perm (List.range xs.length)) : (takeIdx d xs p).Perm xs := by
  unfold takeIdx
  have := hp.map fun i => xs.getD i d
  rwa [map_getD_range] at this

open Classical in
/-- **C59 (to continuous time).** For counts of at least one process and positive `dt`, every outcome of the uniform draws and every way of breaking ties in the sort, the conversion succeeds; the times are sorted and lie in `[0, T)`,
there is one label per event, and bin `t` holds exactly `S[t,k]` events with label `k`. -/
theorem C59_to_continuous {rand : ℕ → List ℝ} {argsort : List ℝ → List ℕ} (hr : RandOk rand) (ha : ArgsortOk argsort) {T K : ℕ} (hK : 0 < K) (S : Mat ℕ) {dt : ℝ} (hdt : 0 < dt) :
    ∃ times labels, discreteToContinuous rand argsort T K S dt = .ok (times, labels, T * dt) ∧ times.Pairwise (· ≤ ·) ∧ (∀ x ∈ times, 0 ≤ x ∧ x < T * dt) ∧ times.length = labels.length ∧
      times.length = ∑ t ∈ range T, ∑ k ∈ range K, S t k ∧ (∀ k ∈ labels, k < K) ∧
      ∀ t < T, ∀ k < K, binCount dt 0 (T * dt) times (labels.map (Nat.cast : ℕ → ℤ)) t k = S t k := by
  unfold discreteToContinuous
  rw [if_neg (by omega)]
  obtain ⟨hrl, hru⟩ := hr (dcIndices T K S).length
  set idx := dcIndices T K S with hidx
  set us := rand idx.length with hus
  set xs := List.zipWith (fun (j : ℕ) (u : ℝ) => dt * (j : ℝ) + dt * u) idx us with hxs
  have hxl : xs.length = idx.length := by rw [hxs, List.length_zipWith, hrl, Nat.min_self]
  have hll : idx.length = (dcLabels T K S).length := lengths_eq T K S
  have hmem : ∀ x ∈ xs, 0 ≤ x ∧ x < T * dt := by
    intro x hx
    obtain ⟨i0, hi0, rfl⟩ := List.getElem_of_mem hx
    have hi1 : i0 < idx.length := by omega
    have hi2 : i0 < us.length := by omega
    have hxi : xs[i0] = dt * (idx[i0] : ℝ) + dt * us[i0] := by simp only [hxs, List.getElem_zipWith]
    rw [hxi]
    have hj := List.getElem_mem hi1
    have hu := List.getElem_mem hi2
    generalize idx[i0] = j at hj
    generalize us[i0] = u at hu
    obtain ⟨u0, u1⟩ := hru u hu
    have hjT : j < T := by
      obtain ⟨i, hi, he⟩ := List.getElem_of_mem hj
      have := mem_indices (T := T) (K := K) (S := S) (e := (idx[i], (dcLabels T K S)[i])) (by
        have hz : (idx.zip (dcLabels T K S))[i]'(by rw [List.length_zip]; omega) = (idx[i], (dcLabels T K S)[i]) := List.getElem_zip
        rw [← hz]
        exact List.getElem_mem _)
      rw [← he]; exact this.1
    have hjT' : (j : ℝ) + 1 ≤ T := by exact_mod_cast hjT
    have hj0 : (0:ℝ) ≤ j := by positivity
    refine ⟨?_, ?_⟩
    · have : 0 ≤ dt * u := mul_nonneg hdt.le u0
      have : 0 ≤ dt * j := mul_nonneg hdt.le hj0
      show 0 ≤ dt * j + dt * u
      linarith
    · show dt * j + dt * u < T * dt
      nlinarith
  dsimp only
  rw [if_neg (by push Not; exact fun x hx => (hmem x hx).2)]
  obtain ⟨hp, hsort⟩ := ha xs
  have hperm := takeIdx_perm xs 0 _ hp
  have hlperm := takeIdx_perm (dcLabels T K S) 0 (argsort xs) (by rw [← hll, ← hxl]; exact hp)
  refine ⟨_, _, rfl, hsort, fun x hx => hmem x (hperm.mem_iff.1 hx), by simp [takeIdx], ?_, fun k hk => ?_, fun t ht k hk => ?_⟩
  · rw [hperm.length_eq, hxl, hidx]
    unfold dcIndices
    rw [Finset.sum_comm]
    clear * -
    induction K with
    | zero => simp
    | succ K ih => rw [List.range_succ, List.flatMap_append, List.length_append, ih, Finset.sum_range_succ]; simp [sum_ibincount]
  · have hk := hlperm.mem_iff.1 hk
    unfold dcLabels at hk
    obtain ⟨j, hj, hk⟩ := List.mem_flatMap.1 hk
    rw [(List.mem_replicate.1 hk).2]
    exact List.mem_range.1 hj
  · unfold binCount
    rw [← List.countP_eq_length_filter, List.zip_map_right, List.countP_map]
    have e1 : ((fun e : ℝ × ℤ => decide (InBin dt 0 (T * dt) t e.1 ∧ e.2 = (k : ℤ))) ∘ Prod.map id (Nat.cast : ℕ → ℤ)) = fun e : ℝ × ℕ => decide (InBin dt 0 (T * dt) t e.1 ∧ e.2 = k) := by
      funext e
      simp [Prod.map]
    rw [e1, (takeIdx_zip xs (dcLabels T K S) 0 0 _ (by rw [hxl, hll]) hp).countP_eq, count_jitter hdt t k idx (dcLabels T K S) us hrl.symm hru (fun e he => (mem_indices he).1), count_pairs T K S ht hk]

/-- **C59 (round trip).** If at least one event is present, binning the continuous events again with the same `dt` over the same window succeeds with the same number of bins, and returns the original counts in all columns up to the last process that
has an event; the columns after that are dropped (they are empty). -/
theorem C59_round_trip {rand : ℕ → List ℝ} {argsort : List ℝ → List ℕ} (hr : RandOk rand) (ha : ArgsortOk argsort) {T K : ℕ} {S : Mat ℕ} {dt : ℝ} (hdt : 0 < dt) (hev : ∃ t < T, ∃ k < K, S t k ≠ 0) :
    ∃ times labels D K', discreteToContinuous rand argsort T K S dt = .ok (times, labels, T * dt) ∧
      continuousToDiscrete times (labels.map (Nat.cast : ℕ → ℤ)) dt 0 (T * dt) = .ok (T, K', D) ∧
      (∀ t < T, ∀ k < K', D t k = S t k) ∧ K' ≤ K ∧ (∃ t < T, S t (K' - 1) ≠ 0) ∧ 0 < K' ∧ ∀ t < T, ∀ k < K, K' ≤ k → S t k = 0 := by
  classical
  obtain ⟨t0, ht0, k0, hk0, hne⟩ := hev
  obtain ⟨times, labels, hok, _, hmem, hlen, hsum, hlab, hcount⟩ := C59_to_continuous hr ha (by omega : 0 < K) S (T := T) hdt
  have hlen' : times.length = (labels.map (Nat.cast : ℕ → ℤ)).length := by rw [List.length_map, hlen]
  have hT : (0:ℝ) < T * dt := by
    have : (0:ℝ) < T := by exact_mod_cast (by omega : 0 < T)
    positivity
  have hne' : times ≠ [] := by
    intro h
    rw [h, List.length_nil] at hsum
    have h1 := Finset.sum_eq_zero_iff.1 hsum.symm t0 (Finset.mem_range.2 ht0)
    exact hne (Finset.sum_eq_zero_iff.1 h1 k0 (Finset.mem_range.2 hk0))
  obtain ⟨⟨T', K', D⟩, hD⟩ := (C60_accepts_iff hlen' dt 0 (T * dt)).2 ⟨hne', hdt, hT, fun e he => by
    obtain ⟨h1, h2⟩ := List.of_mem_zip (a := e.1) (b := e.2) he
    obtain ⟨c, _, hc⟩ := List.mem_map.1 h2
    obtain ⟨h3, h4⟩ := hmem _ h1
    exact ⟨by rw [← hc]; positivity, h3, h4.le⟩⟩
  obtain ⟨hT', ⟨hK1, hK2⟩, hv, hDs⟩ := C60_counts hlen' hD
  have hTT : T' = T := by
    rw [sub_zero, mul_div_assoc, div_self hdt.ne', mul_one] at hT'
    have : ⌈(T : ℝ)⌉ = (T : ℤ) := Int.ceil_natCast T
    omega
  subst hTT
  obtain ⟨c, hc, hcK⟩ := List.mem_map.1 hK1
  have hcK' : c < K := hlab c hc
  have hKK : K' ≤ K := by omega
  have hbc : ∀ t < T', ∀ k < K, binCount dt 0 (T' * dt) times (labels.map (Nat.cast : ℕ → ℤ)) t k ≠ 0 → k < K' := by
    intro t ht k hk h0
    unfold binCount at h0
    obtain ⟨e, he⟩ := List.exists_mem_of_length_pos (Nat.pos_of_ne_zero h0)
    obtain ⟨he1, he2⟩ := List.mem_filter.1 he
    have h2 := (List.of_mem_zip (a := e.1) (b := e.2) he1).2
    have := hK2 _ h2
    rw [(of_decide_eq_true he2).2] at this
    exact_mod_cast this
  refine ⟨times, labels, D, K', hok, hD, fun t ht k hk => ?_, hKK, ?_, by omega, fun t ht k hk hkK => ?_⟩
  · rw [hv t ht k hk, hcount t ht k (by omega)]
  · -- the largest label has an event, which lies in some bin
    obtain ⟨i, hi, hie⟩ := List.getElem_of_mem hc
    have hx := List.getElem_mem (l := times) (n := i) (by omega)
    obtain ⟨t, ht, hb⟩ := inBin_exists hdt hT (hmem _ hx).1 (hmem _ hx).2.le
    have ht : t < T' := by
      have : (((⌈((T':ℝ) * dt - 0) / dt⌉).toNat : ℕ) : ℤ) = T' := by omega
      omega
    refine ⟨t, ht, ?_⟩
    have hck : K' - 1 = c := by omega
    rw [hck, ← hcount t ht c hcK']
    unfold binCount
    have hmem' : (times[i]'(by omega), ((c : ℕ) : ℤ)) ∈ (times.zip (labels.map (Nat.cast : ℕ → ℤ))) := by
      have hz : (times.zip (labels.map (Nat.cast : ℕ → ℤ)))[i]'(by rw [List.length_zip, List.length_map]; omega) = (times[i]'(by omega), ((c : ℕ) : ℤ)) := by
        rw [List.getElem_zip, List.getElem_map, hie]
      rw [← hz]
      exact List.getElem_mem _
    exact (List.length_pos_of_mem (List.mem_filter.2 ⟨hmem', decide_eq_true ⟨hb, rfl⟩⟩)).ne'
  · by_contra h0
    rw [← hcount t ht k hk] at h0
    have := hbc t ht k hk h0
    omega

/-- **C59.** If the last process has an event, the round trip returns exactly the original array, shape included. -/
theorem C59_identity {rand : ℕ → List ℝ} {argsort : List ℝ → List ℕ} (hr : RandOk rand) (ha : ArgsortOk argsort) {T K : ℕ} (hK : 0 < K) {S : Mat ℕ} {dt : ℝ} (hdt : 0 < dt) (hev : ∃ t < T, S t (K - 1) ≠ 0) :
    ∃ times labels D, discreteToContinuous rand argsort T K S dt = .ok (times, labels, T * dt) ∧
      continuousToDiscrete times (labels.map (Nat.cast : ℕ → ℤ)) dt 0 (T * dt) = .ok (T, K, D) ∧ ∀ t < T, ∀ k < K, D t k = S t k := by
  obtain ⟨t, ht, h0⟩ := hev
  obtain ⟨times, labels, D, K', h1, h2, h3, h4, h5, h6, h7⟩ := C59_round_trip (T := T) (K := K) (S := S) hr ha hdt ⟨t, ht, K - 1, by omega, h0⟩
  have : K' = K := by
    by_contra hne
    exact h0 (h7 t ht (K - 1) (by omega) (by omega))
  subst this
  exact ⟨times, labels, D, h1, h2, h3⟩

/-- **C59 (violated in general).** When the last process has no event, the round trip never returns an array of the original shape: trailing processes without events are lost, or an exception is raised. -/
theorem C59_trailing_process_violated {rand : ℕ → List ℝ} {argsort : List ℝ → List ℕ} (hr : RandOk rand) (ha : ArgsortOk argsort) {T K : ℕ} (hK : 0 < K) {S : Mat ℕ} {dt : ℝ} (hdt : 0 < dt) (hev : ∀ t < T, S t (K - 1) = 0) :
    ∃ times labels, discreteToContinuous rand argsort T K S dt = .ok (times, labels, T * dt) ∧
      ∀ D, continuousToDiscrete times (labels.map (Nat.cast : ℕ → ℤ)) dt 0 (T * dt) ≠ .ok (T, K, D) := by
  classical
  obtain ⟨times, labels, hok, _, hmem, hlen, hsum, hlab, hcount⟩ := C59_to_continuous hr ha hK S (T := T) hdt
  refine ⟨times, labels, hok, fun D hD => ?_⟩
  by_cases h : ∃ t < T, ∃ k < K, S t k ≠ 0
  · obtain ⟨times', labels', D', K', h1, h2, h3, h4, ⟨t, ht, h5⟩, h6, h7⟩ := C59_round_trip hr ha hdt h
    rw [hok] at h1
    cases h1
    rw [hD] at h2
    cases h2
    exact h5 (hev t ht)
  · push Not at h
    have h0 : times = [] := by
      apply List.eq_nil_of_length_eq_zero
      rw [hsum]
      exact Finset.sum_eq_zero fun t ht => Finset.sum_eq_zero fun k hk => h t (Finset.mem_range.1 ht) k (Finset.mem_range.1 hk)
    have := (C60_accepts_iff (by rw [List.length_map, hlen]) dt 0 (T * dt)).1 ⟨_, hD⟩
    exact this.1 h0

/-- the contracts are satisfiable: draws all zero, insertion sort of the positions -/
example : ∃ rand argsort, RandOk rand ∧ ArgsortOk argsort := by
  classical
  refine ⟨fun n => List.replicate n 0, fun xs => (List.range xs.length).mergeSort (fun i j => decide (xs.getD i 0 ≤ xs.getD j 0)), fun n => ⟨by simp, fun u hu => by rw [(List.mem_replicate.1 hu).2]; norm_num⟩, fun xs => ⟨List.mergeSort_perm _ _, ?_⟩⟩
  rw [List.pairwise_map]
  have := List.pairwise_mergeSort (le := fun i j : ℕ => decide (xs.getD i 0 ≤ xs.getD j 0)) (fun a b c h1 h2 => by
    simp only [decide_eq_true_eq] at *; linarith) (fun a b => by
    simp only [Bool.or_eq_true, decide_eq_true_eq]; exact le_total _ _) (List.range xs.length)
  exact this.imp fun h => by simpa using h

/-- counts of two processes over three bins whose second process has events: the hypotheses of `C59_identity` are met -/
example : ∃ t < 3, (fun t k => if k = 1 then t else 2 : Mat ℕ) t (2 - 1) ≠ 0 := ⟨1, by norm_num, by norm_num⟩

end PyHawkes
