import Verif.Props.StoredRate

/-!
# C106: the pictures agree with the model
-/
set_option linter.unusedSectionVars false

namespace PyHawkes
open Finset Spec

/-- ordered pairs of different processes, in row order -/
def arrowPairs (K : ℕ) : List (ℕ × ℕ) := (List.range K).flatMap fun i => ((List.range K).filter fun j => decide (i ≠ j)).map fun j => (i, j)

theorem mem_arrowPairs {K i j : ℕ} : (i, j) ∈ arrowPairs K ↔ i < K ∧ j < K ∧ i ≠ j := by
  simp only [arrowPairs, List.mem_flatMap, List.mem_range, List.mem_map, List.mem_filter, decide_eq_true_eq, Prod.mk.injEq]
  constructor
  · rintro ⟨a, ha, b, ⟨hb, hne⟩, rfl, rfl⟩; exact ⟨ha, hb, hne⟩
  · rintro ⟨hi, hj, hne⟩; exact ⟨i, hi, j, ⟨hj, hne⟩, rfl, rfl⟩

theorem nodup_arrowPairs (K : ℕ) : (arrowPairs K).Nodup := by
  unfold arrowPairs
  refine List.nodup_flatMap.2 ⟨fun i _ => ?_, ?_⟩
  · exact (List.nodup_range.filter _).map fun a b h => (Prod.mk.injEq .. ▸ h).2
  · refine List.Nodup.pairwise_of_forall_ne List.nodup_range fun a _ b _ hab => ?_
    intro x hx hy
    obtain ⟨_, _, rfl⟩ := List.mem_map.1 hx
    obtain ⟨_, _, e⟩ := List.mem_map.1 hy
    exact hab (Prod.mk.injEq .. ▸ e).1.symm

open Classical in
theorem plotNetNew_eq (K : ℕ) (A W : Mat ℝ) :
    plotNetNew K A W = (arrowPairs K).map fun p => { src := p.1, dst := p.2, width := 3 * W p.1 p.2, shown := decide (A p.1 p.2 ≠ 0) } := by
  have inner : ∀ (i n : ℕ) (l : List Arrow), forRange n (fun k2 l => if i = k2 then l else l ++ [({ src := i, dst := k2, width := 3 * W i k2, shown := decide (A i k2 ≠ 0) } : Arrow)]) l
      = l ++ (((List.range n).filter fun j => decide (i ≠ j)).map fun j => (i, j)).map fun p => { src := p.1, dst := p.2, width := 3 * W p.1 p.2, shown := decide (A p.1 p.2 ≠ 0) } := by
    intro i n l
    induction n with
    | zero => simp
    | succ n ih =>
      rw [forRange_succ, ih, List.range_succ, List.filter_append, List.map_append, List.map_append]
      by_cases h : i = n
      · subst h; simp
      · rw [if_neg h, List.append_assoc]; simp [h]
  unfold plotNetNew arrowPairs
  have outer : ∀ n, forRange n (fun k1 l => forRange K (fun k2 l => if k1 = k2 then l else l ++ [({ src := k1, dst := k2, width := 3 * W k1 k2, shown := decide (A k1 k2 ≠ 0) } : Arrow)]) l) []
      = ((List.range n).flatMap fun i => ((List.range K).filter fun j => decide (i ≠ j)).map fun j => (i, j)).map fun p => { src := p.1, dst := p.2, width := 3 * W p.1 p.2, shown := decide (A p.1 p.2 ≠ 0) } := by
    intro n
    induction n with
    | zero => simp
    | succ n ih => rw [forRange_succ, ih, inner, List.range_succ, List.flatMap_append, List.map_append]; simp
  exact outer K

/-- **C106 (new picture).** `plot_network()` draws the current network: one arrow for each pair of different processes, visible exactly where there is an edge, its width proportional to the weight. -/
theorem C106_plot_network (K : ℕ) (A W : Mat ℝ) : ShowsNetwork K A W (plotNetNew K A W) := by
  classical
  have e : (plotNetNew K A W).map (fun a => (a.src, a.dst)) = arrowPairs K := by rw [plotNetNew_eq, List.map_map]; simp [Function.comp_def]
  refine ⟨e ▸ nodup_arrowPairs K, fun i j => by rw [e]; exact mem_arrowPairs, fun a ha => ?_, fun a ha _ => ?_⟩ <;> rw [plotNetNew_eq] at ha <;> obtain ⟨p, -, rfl⟩ := List.mem_map.1 ha
  · simp
  · rfl

/-! ### updating the picture -/

open Classical in
/-- what the loop does to one arrow -/
noncomputable def setArrow (A W : Mat ℝ) (a : Arrow) : Arrow :=
  if A a.src a.dst ≠ 0 then { a with width := 3 * W a.src a.dst, shown := true } else { a with width := 0, shown := false }

theorem plotLoop_append {α σ : Type*} (l m : List α) (f : α → σ → Except PyErr σ) (s : σ) :
    forListE (l ++ m) f s = match forListE l f s with | .error e => .error e | .ok s' => forListE m f s' := by
  induction l generalizing s with
  | nil => rfl
  | cons x l ih =>
    simp only [List.cons_append, forListE]
    cases f x s with
    | error e => rfl
    | ok s' => exact ih s'

/-- the two nested loops are one loop over the pairs -/
theorem plotNet_loop (K : ℕ) (A W : Mat ℝ) (st : ℕ × List Arrow) :
    forListE (List.range K) (fun k1 st => forListE (List.range K) (plotNetStep A W k1) st) st = forListE (arrowPairs K) (fun p st => plotNetStep A W p.1 p.2 st) st := by
  have inner : ∀ (i : ℕ) (l : List ℕ) (st : ℕ × List Arrow), forListE l (plotNetStep A W i) st = forListE ((l.filter fun j => decide (i ≠ j)).map fun j => (i, j)) (fun p st => plotNetStep A W p.1 p.2 st) st := by
    intro i l
    induction l with
    | nil => intro st; rfl
    | cons j l ih =>
      intro st
      by_cases h : i = j
      · have : plotNetStep A W i j st = .ok st := by unfold plotNetStep; rw [if_pos h]
        rw [List.filter_cons_of_neg (by simp [h])]
        simp only [forListE, this]
        exact ih st
      · rw [List.filter_cons_of_pos (by simp [h]), List.map_cons]
        simp only [forListE]
        cases plotNetStep A W i j st with
        | error e => rfl
        | ok s => exact ih s
  unfold arrowPairs
  generalize List.range K = R1
  have : ∀ (l : List ℕ) (st : ℕ × List Arrow), forListE l (fun k1 st => forListE R1 (plotNetStep A W k1) st) st
      = forListE (l.flatMap fun i => (R1.filter fun j => decide (i ≠ j)).map fun j => (i, j)) (fun p st => plotNetStep A W p.1 p.2 st) st := by
    intro l
    induction l with
    | nil => intro st; rfl
    | cons i l ih =>
      intro st
      rw [List.flatMap_cons, plotLoop_append]
      simp only [forListE]
      rw [inner]
      cases forListE ((R1.filter fun j => decide (i ≠ j)).map fun j => (i, j)) (fun p st => plotNetStep A W p.1 p.2 st) st with
      | error e => rfl
      | ok s => exact ih s
  exact this R1 st

theorem plotNet_pass (A W : Mat ℝ) : ∀ (rest pre : List Arrow), (∀ a ∈ rest, a.src ≠ a.dst) →
    forListE (rest.map fun a => (a.src, a.dst)) (fun p st => plotNetStep A W p.1 p.2 st) (pre.length, pre ++ rest) = .ok (pre.length + rest.length, pre ++ rest.map (setArrow A W)) := by
  intro rest
  induction rest with
  | nil => intro pre _; simp [forListE]
  | cons a rest ih =>
    intro pre h
    have e : plotNetStep A W a.src a.dst (pre.length, pre ++ a :: rest) = .ok ((pre ++ [setArrow A W a]).length, (pre ++ [setArrow A W a]) ++ rest) := by
      unfold plotNetStep
      rw [if_neg (h a List.mem_cons_self)]
      dsimp only
      rw [List.getElem?_append_right le_rfl, Nat.sub_self]
      dsimp only [List.getElem?_cons_zero]
      rw [List.set_append_right _ _ le_rfl, Nat.sub_self, List.set_cons_zero]
      simp [setArrow]
    simp only [List.map_cons, forListE, e]
    rw [ih _ fun b hb => h b (List.mem_cons_of_mem _ hb)]
    simp [add_comm, add_left_comm]

/-- the handles belong to a picture of `K` processes -/
theorem plotNetUpdate_eq {K : ℕ} (A W : Mat ℝ) {l : List Arrow} (h : l.map (fun a => (a.src, a.dst)) = arrowPairs K) : plotNetUpdate K A W l = .ok (l.map (setArrow A W)) := by
  have hne : ∀ a ∈ l, a.src ≠ a.dst := fun a ha => (mem_arrowPairs.1 (h ▸ List.mem_map_of_mem (f := fun a : Arrow => (a.src, a.dst)) ha)).2.2
  unfold plotNetUpdate
  rw [plotNet_loop, ← h, show ((0, l) : ℕ × List Arrow) = (([] : List Arrow).length, [] ++ l) from rfl, plotNet_pass A W l [] hne]
  simp

/-- `plot_network()` followed by `plot_network(lns)` with the networks `hist`, one after the other -/
noncomputable def replot (K : ℕ) : List (Mat ℝ × Mat ℝ) → List Arrow → Except PyErr (List Arrow)
  | [], l => .ok l
  | n :: ns, l => match plotNetUpdate K n.1 n.2 l with
    | .error e => .error e
    | .ok l' => replot K ns l'

/-- **C106 (updated picture).** Draw a network once, then update the picture any number of times for other networks on the same processes: no call raises, and the picture then shows the last network. -/
theorem C106_replot (K : ℕ) (n0 : Mat ℝ × Mat ℝ) (hist : List (Mat ℝ × Mat ℝ)) :
    ∃ l, replot K hist (plotNetNew K n0.1 n0.2) = .ok l ∧ ShowsNetwork K ((hist.getLastD n0).1) ((hist.getLastD n0).2) l := by
  have e0 : (plotNetNew K n0.1 n0.2).map (fun a => (a.src, a.dst)) = arrowPairs K := by classical rw [plotNetNew_eq, List.map_map]; simp [Function.comp_def]
  have h0 := C106_plot_network K n0.1 n0.2
  generalize plotNetNew K n0.1 n0.2 = l at e0 h0
  induction hist generalizing n0 l with
  | nil => exact ⟨l, rfl, h0⟩
  | cons n ns ih =>
    have hs : ∀ a, (setArrow n.1 n.2 a).src = a.src ∧ (setArrow n.1 n.2 a).dst = a.dst := fun a => by unfold setArrow; split_ifs <;> exact ⟨rfl, rfl⟩
    have e1 : (l.map (setArrow n.1 n.2)).map (fun a => (a.src, a.dst)) = arrowPairs K := by
      rw [← e0, List.map_map]
      exact List.map_congr_left fun a _ => by simp only [Function.comp_apply, hs]
    have h1 : ShowsNetwork K n.1 n.2 (l.map (setArrow n.1 n.2)) := by
      refine ⟨e1 ▸ nodup_arrowPairs K, fun i j => by rw [e1]; exact mem_arrowPairs, fun a ha => ?_, fun a ha hsh => ?_⟩ <;> obtain ⟨b, -, rfl⟩ := List.mem_map.1 ha
      · rw [(hs b).1, (hs b).2]
        unfold setArrow
        split_ifs with hA
        · simp [hA]
        · simp [hA]
      · rw [(hs b).1, (hs b).2]
        unfold setArrow at hsh ⊢
        split_ifs at hsh ⊢ with hA
        rfl
    simp only [replot, plotNetUpdate_eq n.1 n.2 e0]
    have := ih n _ e1 h1
    rw [List.getLastD_cons]
    exact this

/-! ### the rates -/

/-- **C106 (rates).** `plot_rates(axs, data_index=i)` with one set of axes per process: line `k` runs through the points `(t*dt, rate)` with the rates reported by `compute_rate(i)`, and there is one stem for
each bin with events, its height the number of events. If `dt = 1` each stem stands in the middle of its bin. Without the restriction on `dt` the last statement is false (`C106_event_position_violated`). -/
theorem C106_rates_partial (P : NetParams ℝ) (dl : List (DParents ℝ)) (n : ℕ) (hn : n < dl.length) (hK : 0 < P.K) (hT : 0 < dl[n].T) :
    ∃ q r, plotRatesNew P dl (some P.K) n = .ok q ∧ rateStored P dl n = .ok (dl[n].T, r) ∧ q.length = P.K ∧
      ∀ (k : ℕ) (hk : k < q.length), q[k].line = (List.range dl[n].T).map (fun t : ℕ => (P.dt * t, r t k)) ∧
        (∀ x y, (x, y) ∈ q[k].stems ↔ ∃ t < dl[n].T, dl[n].S t k ≠ 0 ∧ x = t + P.dt / 2 ∧ y = dl[n].S t k) ∧
        (P.dt = 1 → ∀ x y, (x, y) ∈ q[k].stems ↔ ∃ t < dl[n].T, dl[n].S t k ≠ 0 ∧ x = (t + 1 / 2) * P.dt ∧ y = dl[n].S t k) := by
  have e := rateStored_nat P dl hn
  have hi : pyIdx dl.length (n : ℤ) = some n := by unfold pyIdx; rw [if_pos (by omega)]; rfl
  refine ⟨(List.range P.K).map fun k =>
      { line := (List.range dl[n].T).map fun t : ℕ => (P.dt * t, rateAll P dl[n].F t k), stems := (dl[n].ts k).map fun t : ℕ => ((t : ℝ) + P.dt / 2, (dl[n].S t k : ℝ)) }, _, ?_, e, ?_, ?_⟩
  · unfold plotRatesNew
    rw [if_neg (by omega), hi]
    dsimp only
    rw [List.getElem?_eq_getElem hn]
    dsimp only
    rw [e]
    dsimp only
    rw [if_neg (by omega), if_neg (by simp)]
  · simp
  · intro k hk
    have st : ∀ x y, (x, y) ∈ (dl[n].ts k).map (fun t : ℕ => ((t : ℝ) + P.dt / 2, (dl[n].S t k : ℝ))) ↔ ∃ t < dl[n].T, dl[n].S t k ≠ 0 ∧ x = t + P.dt / 2 ∧ y = dl[n].S t k := by
      intro x y
      simp only [List.mem_map, DParents.ts, List.mem_filter, List.mem_range, decide_eq_true_eq, Prod.mk.injEq]
      constructor
      · rintro ⟨t, ⟨h1, h2⟩, rfl, rfl⟩; exact ⟨t, h1, h2, rfl, rfl⟩
      · rintro ⟨t, h1, h2, rfl, rfl⟩; exact ⟨t, ⟨h1, h2⟩, rfl, rfl⟩
    simp only [List.getElem_map, List.getElem_range]
    refine ⟨trivial, st, fun hd x y => ?_⟩
    rw [st, hd]
    simp

/-- The code draws the event of bin `t` at `t + dt/2`, but the line uses `t*dt`: unless `dt = 1`, every event after the first bin is drawn outside the middle of its bin. -/
theorem C106_event_position_violated (P : NetParams ℝ) (dl : List (DParents ℝ)) (n : ℕ) (hn : n < dl.length) (hdt : P.dt ≠ 1) (t k : ℕ) (ht : 0 < t) (htT : t < dl[n].T) (hk : k < P.K) (hS : dl[n].S t k ≠ 0)
    (q : List RatePlot) (hq : plotRatesNew P dl (some P.K) n = .ok q) : ∃ hk' : k < q.length, ((t : ℝ) + P.dt / 2, (dl[n].S t k : ℝ)) ∈ q[k].stems ∧ (t : ℝ) + P.dt / 2 ≠ (t + 1 / 2) * P.dt := by
  obtain ⟨q', r, e, -, hl, h⟩ := C106_rates_partial P dl n hn (by omega) (by omega)
  rw [hq] at e
  cases e
  refine ⟨by omega, ((h k (by omega)).2.1 _ _).2 ⟨t, htT, hS, rfl, rfl⟩, fun e => hdt ?_⟩
  have : (t : ℝ) * (P.dt - 1) = 0 := by linarith
  rcases mul_eq_zero.1 this with h0 | h0
  · have : t = 0 := by exact_mod_cast h0
    omega
  · linarith

/-- Without axes `plot_rates()` always raises: it takes the pair returned by `plt.subplots` for the list of axes. -/
theorem C106_no_axes_violated (P : NetParams ℝ) (dl : List (DParents ℝ)) (i : ℤ) : ∃ e, plotRatesNew P dl none i = .error e := by
  unfold plotRatesNew
  split
  · exact ⟨_, rfl⟩
  split
  · exact ⟨_, rfl⟩
  split
  · exact ⟨_, rfl⟩
  split
  · exact ⟨_, rfl⟩
  split
  · exact ⟨_, rfl⟩
  · exact ⟨_, rfl⟩

/-- **C106 (updated rates).** `plot_rates(lns, data_index=i)` on the handles of an earlier picture with as many processes: each line is replaced by the line a new picture would show; the stems stay. -/
theorem C106_update_rates (P : NetParams ℝ) (dl : List (DParents ℝ)) (n : ℕ) (hn : n < dl.length) (hK : 0 < P.K) (hT : 0 < dl[n].T) (lns : List RatePlot) (hl : lns.length = P.K) :
    ∃ q q', plotRatesNew P dl (some P.K) n = .ok q ∧ plotRatesUpdate P dl lns n = .ok q' ∧ q'.map RatePlot.line = q.map RatePlot.line ∧ q'.map RatePlot.stems = lns.map RatePlot.stems := by
  obtain ⟨q, r, e, hr, hq, h⟩ := C106_rates_partial P dl n hn hK hT
  have hi : pyIdx dl.length (n : ℤ) = some n := by unfold pyIdx; rw [if_pos (by omega)]; rfl
  have loop : ∀ m ≤ P.K, ∃ l, forListE (List.range m) (fun k l => match l[k]? with
      | none => .error .index
      | some q => .ok (l.set k { q with line := (List.range dl[n].T).map fun t : ℕ => (P.dt * t, r t k) })) lns = .ok l ∧ l.length = P.K ∧ l.map RatePlot.stems = lns.map RatePlot.stems ∧
        ∀ (k : ℕ) (hk : k < l.length), k < m → l[k].line = (List.range dl[n].T).map fun t : ℕ => (P.dt * t, r t k) := by
    intro m
    induction m with
    | zero => intro _; exact ⟨lns, rfl, hl, rfl, fun k _ hk => absurd hk (Nat.not_lt_zero k)⟩
    | succ m ih =>
      intro hm
      obtain ⟨l, e1, e2, e3, e4⟩ := ih (by omega)
      have hml : m < l.length := by omega
      refine ⟨l.set m { l[m] with line := (List.range dl[n].T).map fun t : ℕ => (P.dt * t, r t m) }, ?_, by simpa using e2, ?_, ?_⟩
      · rw [List.range_succ, plotLoop_append, e1]
        simp only [forListE, List.getElem?_eq_getElem hml]
      · rw [List.map_set]
        dsimp only
        rw [← e3]
        refine List.ext_getElem (by simp) fun j h1 h2 => ?_
        rw [List.getElem_set]
        split_ifs with hj
        · subst hj; simp
        · rfl
      · intro k hk hkm
        rw [List.getElem_set]
        split_ifs with hj
        · subst hj; rfl
        · exact e4 k (by simpa using hk) (by omega)
  obtain ⟨l, e1, e2, e3, e4⟩ := loop P.K le_rfl
  refine ⟨q, l, e, ?_, ?_, e3⟩
  · unfold plotRatesUpdate
    rw [if_neg (by omega), hi]
    dsimp only
    rw [List.getElem?_eq_getElem hn]
    dsimp only
    rw [hr]
    dsimp only
    rw [if_neg (by omega)]
    exact e1
  · refine List.ext_getElem (by simp [e2, hq]) fun j h1 h2 => ?_
    rw [List.getElem_map, List.getElem_map, e4 j _ (by simpa [e2] using h1), (h j _).1]

/-! ### concrete cases -/

/-- three processes, drawn once and updated twice: all arrows point as they should, and the last network is shown -/
example : ∃ l, replot 3 [(fun i j => if i < j then 1 else 0, fun _ _ => 2), (fun i j => if j < i then 1 else 0, fun i _ => i)] (plotNetNew 3 (fun _ _ => 1) fun _ _ => 1) = .ok l ∧
    ShowsNetwork 3 (fun i j => if j < i then 1 else 0) (fun i _ => i) l := C106_replot 3 (fun _ _ => 1, fun _ _ => 1) _

/-- a recording with an event in its second bin -/
example : ∃ (P : NetParams ℝ) (dl : List (DParents ℝ)) (hn : 0 < dl.length), P.dt ≠ 1 ∧ 1 < dl[0].T ∧ 0 < P.K ∧ dl[0].S 1 0 ≠ 0 ∧ ∃ q, plotRatesNew P dl (some P.K) 0 = .ok q := by
  refine ⟨{ K := 1, B := 1, dt := 1 / 2, lam0 := fun _ => 1, Weff := fun _ _ => 1, g := fun _ _ _ => 1, L := 1, basis := fun _ _ => 1 }, [{ T := 2, S := fun t _ => t, F := fun _ _ _ => 0 }], Nat.one_pos,
    by norm_num, by simp, Nat.one_pos, by simp, ?_⟩
  obtain ⟨q, -, e, -⟩ := C106_rates_partial { K := 1, B := 1, dt := 1 / 2, lam0 := fun _ => 1, Weff := fun _ _ => 1, g := fun _ _ _ => 1, L := 1, basis := fun _ _ => 1 }
    [{ T := 2, S := fun t _ => t, F := fun _ _ _ => 0 }] 0 Nat.one_pos Nat.one_pos Nat.two_pos
  exact ⟨q, e⟩

end PyHawkes
