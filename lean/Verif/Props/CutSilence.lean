import Verif.Props.CutMF
import Verif.Props.Rate

/-!
# C111: recordings cut at silences, and cut into minibatches
-/

set_option linter.unusedVariables false
set_option linter.unusedSectionVars false

namespace PyHawkes
open Finset Spec

/-! ### matching random numbers exist -/

theorem draws_exist (dl : List (DParents ℝ)) (X : ℕ → List (ℕ → Vec ℝ → Vec ℕ)) (hX : ∀ k, (X k).length = (dl.flatMap fun D => (D.Ss k).zip (D.Fs k)).length) :
    ∃ mult, ∀ k, drawsOf mult dl k = X k := by
  induction dl generalizing X with
  | nil =>
    refine ⟨fun _ _ _ _ _ _ => 0, fun k => ?_⟩
    have := hX k
    exact (List.eq_nil_of_length_eq_zero this).symm
  | cons D l ih =>
    have hlen : ∀ k, (X k).length = (D.ts k).length + (l.flatMap fun D => (D.Ss k).zip (D.Fs k)).length := fun k => by
      rw [hX k, List.flatMap_cons, List.length_append, Ss_zip_length]
    obtain ⟨mult, hm⟩ := ih (fun k => (X k).drop (D.ts k).length) fun k => by rw [List.length_drop, hlen k]; omega
    refine ⟨fun i k j => match i with | 0 => (X k).getD j fun _ _ _ => 0 | i + 1 => mult i k j, fun k => ?_⟩
    rw [drawsOf]
    show (List.range (D.ts k).length).map (fun j => (X k).getD j fun _ _ _ => 0) ++ drawsOf mult l k = X k
    have e : (List.range (D.ts k).length).map (fun j => (X k).getD j fun _ _ _ => 0) = (X k).take (D.ts k).length := by
      refine List.ext_getElem ?_ fun j h1 h2 => ?_
      · rw [List.length_map, List.length_range, List.length_take, hlen k]; omega
      · rw [List.getElem_map, List.getElem_range, List.getElem_take, List.getD_eq_getElem]
    rw [hm, e, List.take_append_drop]

/-- **C111 (the same random numbers).** Whatever the random numbers of a call on one way of cutting, there are matching ones for the other. -/
theorem C111_draws_exist {dl dl' : List (DParents ℝ)} (h : SameBins dl dl') (d : StepDraws) : ∃ d', SameDraws dl dl' d d' := by
  obtain ⟨mult, hm⟩ := draws_exist dl' (fun k => drawsOf d.mult dl k) fun k => by rw [drawsOf_length, rows_flat, rows_flat, h.1]
  exact ⟨{ d with mult := mult }, rfl, hm⟩

/-! ### filtering and silence -/

theorem filtered_join_left {T1 gap : ℕ} (L : ℕ) (basis S1 S2 : Mat ℝ) {t : ℕ} (ht : t < T1 + gap) (k b : ℕ) :
    filtered L basis (join T1 gap S1 S2) t k b = filtered L basis (pad T1 S1) t k b := by
  unfold filtered
  refine sum_congr rfl fun l _ => ?_
  by_cases h : l ≤ t
  · rw [if_pos h, if_pos h]
    congr 1
    unfold join pad
    rw [if_pos (show t - l < T1 + gap by omega)]
  · rw [if_neg h, if_neg h]

theorem filtered_join_right {T1 gap : ℕ} {L : ℕ} (hL : L ≤ gap + 1) (basis S1 S2 : Mat ℝ) (t k b : ℕ) :
    filtered L basis (join T1 gap S1 S2) (T1 + gap + t) k b = filtered L basis S2 t k b := by
  unfold filtered
  refine sum_congr rfl fun l hl => ?_
  have hl := mem_range.1 hl
  rw [if_pos (show l ≤ T1 + gap + t by omega)]
  unfold join
  rw [if_neg (by omega)]
  by_cases h : l ≤ t
  · rw [if_pos h, if_neg (by omega)]
    congr 2
    omega
  · rw [if_neg h, if_pos (by omega), mul_zero]

theorem convolve_val {T K L B : ℕ} {basis S : Mat ℝ} {F : Ten ℝ} (hS : ∀ t < T, ∀ k < K, 0 ≤ S t k) (h : convolve T K L B basis S = .ok F) {t : ℕ} (ht : t < T) (k b : ℕ) :
    F t k b = (open Classical in if ∀ l < L, ∀ b < B, 0 ≤ basis l b then max 0 (filtered L basis S t k b) else filtered L basis S t k b) := by
  classical
  unfold convolve at h
  dsimp only at h
  split_ifs at h with h1 h2 h3 h4
  · cases h
    rw [if_pos h3.1, ← convRaw_eq T L basis S t k b ht]
    rfl
  · cases h
    rw [if_neg fun x => h3 ⟨x, hS⟩, convRaw_eq T L basis S t k b ht]

theorem cast_join {α β : Type*} [Zero α] [Zero β] (c : α → β) (h0 : c 0 = 0) (T1 gap : ℕ) (S1 S2 : Mat α) :
    (fun t k => c (join T1 gap S1 S2 t k)) = join T1 gap (fun t k => c (S1 t k)) fun t k => c (S2 t k) := by
  funext t k
  unfold join
  split_ifs <;> simp [h0]

theorem cast_pad {α β : Type*} [Zero α] [Zero β] (c : α → β) (h0 : c 0 = 0) (T1 : ℕ) (S1 : Mat α) : (fun t k => c (pad T1 S1 t k)) = pad T1 fun t k => c (S1 t k) := by
  funext t k
  unfold pad
  split_ifs <;> simp [h0]

/-! ### add_data -/

/-- what a successful `add_data(S)` (no `F`, no minibatches) means -/
theorem addData_plain {P : NetParams ℝ} {a : AddArgs ℝ} {dl r : List (DParents ℝ)} (hF : a.F = none) (hm : a.minibatch = none) (h : addData P a dl = .ok r) :
    a.KS = P.K ∧ 0 < a.T ∧ 0 < a.KS ∧ (∀ t < a.T, ∀ k < a.KS, 0 ≤ a.S t k) ∧ a.isInt = true ∧
    ∃ F, convolve a.T P.K P.L P.B P.basis (fun t k => (a.S t k : ℝ)) = .ok F ∧ r = dl ++ [{ T := a.T, S := fun t k => (a.S t k).toNat, F := F }] := by
  unfold addData at h
  split_ifs at h with h1 h2 h3
  rw [hF, hm] at h
  dsimp only at h
  cases hc : convolve a.T P.K P.L P.B P.basis (fun t k => (a.S t k : ℝ)) with
  | error e => rw [hc] at h; cases h
  | ok F =>
    rw [hc] at h
    cases h
    exact ⟨not_not.1 h1, by omega, by omega, h3.1, h3.2, F, rfl, rfl⟩

theorem addData_plain_ok (P : NetParams ℝ) (a : AddArgs ℝ) (dl : List (DParents ℝ)) (hF : a.F = none) (hm : a.minibatch = none) (hK : a.KS = P.K) (hT : 0 < a.T) (h0 : 0 < P.K) (hL : 0 < P.L) (hB : 0 < P.B)
    (hS : ∀ t < a.T, ∀ k < a.KS, 0 ≤ a.S t k) (hi : a.isInt = true) : ∃ r, addData P a dl = .ok r := by
  obtain ⟨F, hc, -⟩ := C02_convolve_eq_filtered a.T P.K P.L P.B P.basis (fun t k => (a.S t k : ℝ)) hT h0 hL hB
  refine ⟨dl ++ [{ T := a.T, S := fun t k => (a.S t k).toNat, F := F }], ?_⟩
  unfold addData
  rw [if_neg (by omega), if_neg (by omega), if_neg (not_not.2 ⟨hS, hi⟩), hF, hm]
  dsimp only
  rw [hc]

/-- **C111 (cutting at a silence).** Two recordings separated by a silence of at least `L - 1` bins, `L` the length of the basis: adding them as one recording or as two (the silence kept with the first) gives
the same bins. So everything else in C111 applies to the two models. -/
theorem C111_silence (P : NetParams ℝ) (a1 a2 : AddArgs ℝ) (gap : ℕ) (hgap : P.L ≤ gap + 1) (hF1 : a1.F = none) (hF2 : a2.F = none) (hm1 : a1.minibatch = none) (hm2 : a2.minibatch = none)
    (dl dl1 dl2 : List (DParents ℝ)) (h1 : addData P { a1 with T := a1.T + gap, S := pad a1.T a1.S } dl = .ok dl1) (h2 : addData P a2 dl1 = .ok dl2) :
    ∃ dl3, addData P { a1 with T := a1.T + gap + a2.T, S := join a1.T gap a1.S a2.S } dl = .ok dl3 ∧ SameBins dl2 dl3 := by
  obtain ⟨k1, t1, p1, n1, i1, F1, c1, rfl⟩ := addData_plain (a := { a1 with T := a1.T + gap, S := pad a1.T a1.S }) hF1 hm1 h1
  obtain ⟨k2, t2, p2, n2, i2, F2, c2, rfl⟩ := addData_plain hF2 hm2 h2
  dsimp only at k1 t1 p1 n1 i1 c1
  have hne := C02_convolve_error_iff a2.T P.K P.L P.B P.basis fun t k => (a2.S t k : ℝ)
  have hLB : 0 < P.L ∧ 0 < P.B := by
    by_contra hx
    obtain ⟨e, he⟩ := hne.2 (by omega)
    rw [c2] at he; cases he
  have hnn : ∀ t < a1.T + gap + a2.T, ∀ k < a1.KS, 0 ≤ join a1.T gap a1.S a2.S t k := by
    intro t ht k hk
    unfold join
    split_ifs with x y
    · have := n1 t (by omega) k hk
      rwa [pad, if_pos x] at this
    · exact le_rfl
    · exact n2 _ (by omega) k (by omega)
  obtain ⟨r, hr⟩ := addData_plain_ok P { a1 with T := a1.T + gap + a2.T, S := join a1.T gap a1.S a2.S } dl hF1 hm1 k1 (show 0 < a1.T + gap + a2.T by omega) (by omega) hLB.1 hLB.2 hnn i1
  obtain ⟨-, -, -, -, -, F3, c3, rfl⟩ := addData_plain (a := { a1 with T := a1.T + gap + a2.T, S := join a1.T gap a1.S a2.S }) hF1 hm1 hr
  dsimp only at c3
  refine ⟨_, hr, ?_, by simp⟩
  rw [cast_join (fun x : ℤ => (x : ℝ)) Int.cast_zero] at c3
  rw [cast_pad (fun x : ℤ => (x : ℝ)) Int.cast_zero] at c1
  have v3 := fun t ht k b => convolve_val (t := t) (by
    intro t ht k hk
    rw [← cast_join (fun x : ℤ => (x : ℝ)) Int.cast_zero]
    exact Int.cast_nonneg (hnn t ht k (by omega))) c3 ht k b
  have v1 := fun t ht k b => convolve_val (t := t) (by
    intro t ht k hk
    rw [← cast_pad (fun x : ℤ => (x : ℝ)) Int.cast_zero]
    exact Int.cast_nonneg (n1 t ht k (by omega))) c1 ht k b
  have v2 := fun t ht k b => convolve_val (t := t) (fun t ht k hk => Int.cast_nonneg (n2 t ht k (by omega))) c2 ht k b
  rw [List.append_assoc, List.flatMap_append, List.flatMap_append]
  congr 1
  simp only [List.flatMap_cons, List.flatMap_nil, List.append_nil, List.singleton_append, bins]
  rw [List.range_add, List.map_append, List.map_map]
  congr 1
  · refine List.map_congr_left fun t ht => ?_
    have ht := List.mem_range.1 ht
    refine Prod.ext ?_ ?_
    · funext k
      show (join a1.T gap a1.S a2.S t k).toNat = (pad a1.T a1.S t k).toNat
      unfold join pad
      rw [if_pos (show t < a1.T + gap from ht)]
    · funext k b
      show F3 t k b = F1 t k b
      rw [v3 t (by omega) k b, v1 t ht k b, filtered_join_left _ _ _ _ ht]
  · refine List.map_congr_left fun t ht => ?_
    have ht := List.mem_range.1 ht
    refine Prod.ext ?_ ?_
    · funext k
      show (join a1.T gap a1.S a2.S (a1.T + gap + t) k).toNat = (a2.S t k).toNat
      unfold join
      rw [if_neg (by omega), if_neg (by omega)]
      congr 2
      omega
    · funext k b
      show F3 (a1.T + gap + t) k b = F2 t k b
      rw [v3 _ (by omega) k b, v2 t ht k b, filtered_join_right hgap]

theorem bins_zip (dl : List (DParents ℝ)) :
    dl.flatMap bins = (dl.flatMap fun E => (List.range E.T).map E.S).zip (dl.flatMap fun E => (List.range E.T).map E.F) := by
  induction dl with
  | nil => rfl
  | cons D l ih =>
    rw [List.flatMap_cons, List.flatMap_cons, List.flatMap_cons, List.zip_append (by simp), ih]
    congr 1
    unfold bins
    rw [List.zip_map']

/-- **C111 (minibatches).** `add_data(S, minibatchsize=m)` with `m ≥ 1` and `add_data(S)` give the same bins, so everything in C111 applies to them as well. -/
theorem C111_minibatches (P : NetParams ℝ) (a : AddArgs ℝ) (m : ℕ) (hm : 0 < m) (hT : 0 < a.T) (dl whole : List (DParents ℝ)) (hw : addData P { a with minibatch := none } dl = .ok whole) :
    ∃ mb, addData P { a with minibatch := some (m : ℤ) } dl = .ok mb ∧ SameBins whole mb := by
  obtain ⟨D, blocks, rfl, hDT, hb, -, hS, hF, -⟩ := C10_add_data_blocks P a dl whole m hm hw
  refine ⟨_, hb, ?_, ?_⟩
  · rw [List.flatMap_append, List.flatMap_append, bins_zip blocks, hS, hF, bins_zip [D]]
    simp
  · have : blocks ≠ [] := by
      rintro rfl
      rw [hDT] at hS
      have := congrArg List.length hS
      simp at this
      omega
    simp [this]

/-! ### held-out log likelihood -/

/-- **C111 (held-out log likelihood).** The held-out log likelihood of two recordings separated by a silence of at least `L - 1` bins is the sum of theirs (the silence counted with the first). -/
theorem C111_heldout (P : NetParams ℝ) {T1 T2 gap : ℕ} (S1 S2 : Mat ℕ) (hgap : P.L ≤ gap + 1) {x1 x2 : ℝ} (h1 : heldoutLL P (T1 + gap) (pad T1 S1) = .ok x1) (h2 : heldoutLL P T2 S2 = .ok x2) :
    heldoutLL P (T1 + gap + T2) (join T1 gap S1 S2) = .ok (x1 + x2) := by
  unfold heldoutLL at h1 h2 ⊢
  cases e1 : computeRate P (T1 + gap) P.K (fun t k => ((pad T1 S1 t k : ℕ) : ℝ)) with
  | error e => rw [e1] at h1; cases h1
  | ok r1 =>
  cases e2 : computeRate P T2 P.K (fun t k => (S2 t k : ℝ)) with
  | error e => rw [e2] at h2; cases h2
  | ok r2 =>
  rw [e1] at h1; rw [e2] at h2
  cases h1; cases h2
  have hLB : 0 < P.L ∧ 0 < P.B ∧ 0 < P.K ∧ 0 < T2 := by
    by_contra hx
    obtain ⟨e, he⟩ := (C02_convolve_error_iff T2 P.K P.L P.B P.basis fun t k => (S2 t k : ℝ)).2 (by omega)
    unfold computeRate at e2
    rw [he] at e2; cases e2
  obtain ⟨r, hr⟩ := (C05_compute_rate_ok_iff P (T1 + gap + T2) P.K (fun t k => ((join T1 gap S1 S2 t k : ℕ) : ℝ)) hLB.1 hLB.2.1).2 ⟨by omega, hLB.2.2.1, rfl⟩
  rw [hr]
  dsimp only
  congr 1
  have q := (C05_compute_rate_eq _ _ _ _ _ hr).2
  have q1 := (C05_compute_rate_eq _ _ _ _ _ e1).2
  have q2 := (C05_compute_rate_eq _ _ _ _ _ e2).2
  rw [cast_join (fun x : ℕ => (x : ℝ)) Nat.cast_zero] at q
  rw [cast_pad (fun x : ℕ => (x : ℝ)) Nat.cast_zero] at q1
  unfold poissonLL
  rw [sum_range_add]
  refine congrArg₂ _ (sum_congr rfl fun t ht => sum_congr rfl fun k hk => ?_) (sum_congr rfl fun t ht => sum_congr rfl fun k hk => ?_)
  · have ht := mem_range.1 ht
    have hk := mem_range.1 hk
    have e : r t k = r1 t k := by
      rw [q t (by omega) k hk, q1 t ht k hk]
      simp only [filtered_join_left _ _ _ _ ht]
    have e' : join T1 gap S1 S2 t k = pad T1 S1 t k := by
      unfold join pad
      rw [if_pos ht]
    rw [e, e']
  · have ht := mem_range.1 ht
    have hk := mem_range.1 hk
    have e : r (T1 + gap + t) k = r2 t k := by
      rw [q _ (by omega) k hk, q2 t ht k hk]
      simp only [filtered_join_right hgap]
    have e' : join T1 gap S1 S2 (T1 + gap + t) k = S2 t k := by
      unfold join
      rw [if_neg (by omega), if_neg (by omega)]
      congr 1
      omega
    rw [e, e']

/-- **C111 (silence).** A silent recording costs the expected number of background events: its held-out log likelihood is minus duration times total background rate. With `C111_heldout` (and `T1 = 0`) this is
also the only effect of silence before a recording. -/
theorem C111_silent_recording (P : NetParams ℝ) (T : ℕ) (hT : 0 < T) (hK : 0 < P.K) (hL : 0 < P.L) (hB : 0 < P.B) (S : Mat ℕ) (hS : ∀ t k, S t k = 0) :
    heldoutLL P T S = .ok (-(T * P.dt) * ∑ k ∈ range P.K, P.lam0 k) := by
  obtain ⟨r, hr⟩ := (C05_compute_rate_ok_iff P T P.K (fun t k => (S t k : ℝ)) hL hB).2 ⟨hT, hK, rfl⟩
  have q := (C05_compute_rate_eq _ _ _ _ _ hr).2
  unfold heldoutLL
  rw [hr]
  dsimp only
  congr 1
  unfold poissonLL
  have : ∀ t ∈ range T, ∑ k ∈ range P.K, ((S t k : ℝ) * Real.log (r t k) - r t k * P.dt) = -P.dt * ∑ k ∈ range P.K, P.lam0 k := by
    intro t ht
    rw [mul_sum]
    refine sum_congr rfl fun k hk => ?_
    rw [q t (mem_range.1 ht) k (mem_range.1 hk), hS]
    have : ∀ k1 b, filtered P.L P.basis (fun t k => (S t k : ℝ)) t k1 b = 0 := fun k1 b => by
      unfold filtered
      refine sum_eq_zero fun l _ => ?_
      simp [hS]
    simp only [this, mul_zero, sum_const_zero, add_zero, Nat.cast_zero, zero_mul]
    ring
  rw [sum_congr rfl this, sum_const, card_range, nsmul_eq_mul]
  ring

/-! ### concrete cases -/

/-- one process exciting itself in the next bin -/
noncomputable def cutDemo : NetParams ℝ := { K := 1, B := 1, dt := 1, lam0 := fun _ => 1, Weff := fun _ _ => 1, g := fun _ _ _ => 1, L := 2, basis := fun l _ => if l = 0 then 0 else 1 }

/-- one bin with one event -/
def cutArgs : AddArgs ℝ := { T := 1, KS := 1, isInt := true, S := fun _ _ => 1, F := none, minibatch := none }

/-- a recording of one event, a silent bin and another event: cut after the silence, the bins are the same -/
theorem C111_demo : ∃ dl2 dl3, dl2.length = 2 ∧ dl3.length = 1 ∧ addData cutDemo { cutArgs with T := 3, S := join 1 1 (fun _ _ => 1) fun _ _ => 1 } [] = .ok dl3 ∧ SameBins dl2 dl3 ∧
    ∀ P, llModel P dl3 = llModel P dl2 := by
  obtain ⟨dl1, h1⟩ := addData_plain_ok cutDemo { cutArgs with T := 1 + 1, S := pad 1 fun _ _ => 1 } [] rfl rfl rfl (by norm_num) (by norm_num [cutDemo]) (by norm_num [cutDemo]) (by norm_num [cutDemo])
    (fun t _ k _ => by show 0 ≤ pad 1 (fun _ _ => (1 : ℤ)) t k; unfold pad; split_ifs <;> norm_num) rfl
  obtain ⟨dl2, h2⟩ := addData_plain_ok cutDemo cutArgs dl1 rfl rfl rfl (by norm_num [cutArgs]) (by norm_num [cutDemo]) (by norm_num [cutDemo]) (by norm_num [cutDemo]) (fun _ _ _ _ => by norm_num [cutArgs]) rfl
  obtain ⟨dl3, h3, hb⟩ := C111_silence cutDemo cutArgs cutArgs 1 (by norm_num [cutDemo]) rfl rfl rfl rfl [] dl1 dl2 h1 h2
  obtain ⟨-, -, -, -, -, F1, -, e1⟩ := addData_plain rfl rfl h1
  obtain ⟨-, -, -, -, -, F2, -, e2⟩ := addData_plain rfl rfl h2
  obtain ⟨-, -, -, -, -, F3, -, e3⟩ := addData_plain (a := { cutArgs with T := cutArgs.T + 1 + cutArgs.T, S := join cutArgs.T 1 cutArgs.S cutArgs.S }) rfl rfl h3
  refine ⟨dl2, dl3, by rw [e2, e1]; rfl, by rw [e3]; rfl, h3, hb, fun P => C111_log_likelihood hb P⟩

/-- **C111 (the silence is needed).** Without it the second part would lose the excitation from the first: the same two events, cut between them with no silent bin. -/
theorem C111_needs_silence : ∃ x x1 x2, heldoutLL cutDemo 2 (join 1 0 (fun _ _ => 1) fun _ _ => 1) = .ok x ∧ heldoutLL cutDemo 1 (pad 1 fun _ _ => 1) = .ok x1 ∧ heldoutLL cutDemo 1 (fun _ _ => 1) = .ok x2 ∧
    x ≠ x1 + x2 := by
  have key : ∀ (T : ℕ) (S : Mat ℕ), 0 < T → ∃ r, computeRate cutDemo T 1 (fun t k => (S t k : ℝ)) = .ok r ∧ (∀ t < T, r t 0 = 1 + if 1 ≤ t then (S (t - 1) 0 : ℝ) else 0) ∧
      heldoutLL cutDemo T S = .ok (∑ t ∈ range T, ((S t 0 : ℝ) * Real.log (r t 0) - r t 0)) := by
    intro T S hT
    obtain ⟨r, hr⟩ := (C05_compute_rate_ok_iff cutDemo T 1 (fun t k => (S t k : ℝ)) (by norm_num [cutDemo]) (by norm_num [cutDemo])).2 ⟨hT, by norm_num, rfl⟩
    refine ⟨r, hr, fun t ht => ?_, ?_⟩
    · rw [(C05_compute_rate_eq _ _ _ _ _ hr).2 t ht 0 (by norm_num [cutDemo])]
      simp [cutDemo, filtered, sum_range_succ]
    · unfold heldoutLL
      rw [show cutDemo.K = 1 from rfl, hr]
      simp [poissonLL, cutDemo]
  obtain ⟨r, -, hr, e⟩ := key 2 (join 1 0 (fun _ _ => 1) fun _ _ => 1) (by norm_num)
  obtain ⟨r1, -, hr1, e1⟩ := key 1 (pad 1 fun _ _ => 1) (by norm_num)
  obtain ⟨r2, -, hr2, e2⟩ := key 1 (fun _ _ => 1) (by norm_num)
  refine ⟨_, _, _, e, e1, e2, ?_⟩
  have h0 := hr 0 (by norm_num)
  have h1 := hr 1 (by norm_num)
  have h2 := hr1 0 (by norm_num)
  have h3 := hr2 0 (by norm_num)
  simp [join] at h0 h1 h2 h3
  simp only [sum_range_succ, range_zero, sum_empty, h0, h1, h2, h3]
  simp [join, pad]
  intro hx
  have h4 := Real.log_two_lt_d9
  norm_num at hx
  linarith

end PyHawkes
