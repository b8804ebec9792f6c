import Verif.Props.Standard
import Verif.Props.LogLik

/-!
# The standard model: decomposition of the objective, histories of gradient steps, read-only properties, held-out evaluation, initialisation
(C37, C38, C39, C40, C41, C45, C71)
-/

set_option linter.unusedSectionVars false

namespace PyHawkes
open Finset Spec

/-! ### C40: decomposition -/

theorem llInc_sum {M : StdModel} {ks : List ℕ} (hne : ks ≠ []) {i : ℤ} {v : ℕ → ℝ} (h : ∀ k ∈ ks, stdLLInc M (.arr [k]) i = .ok (v k)) :
    stdLLInc M (.arr ks) i = .ok (ks.map v).sum := by
  -- read off the data set from the first process
  obtain ⟨k0, rest, rfl⟩ := List.exists_cons_of_ne_nil hne
  have hall : ∀ k ∈ k0 :: rest, k < M.K ∧ ∃ j D, pyIdx M.data.length i = some j ∧ M.data[j]? = some D ∧ D.cols = M.n ∧ D.rows = D.T ∧
      (∀ t < D.T, 0 < M.rate D k t) ∧ v k = M.llTerm D k := by
    intro k hk
    have := h k hk
    unfold stdLLInc stdComputeRate at this
    simp only [Option.getD_some] at this
    cases hj : pyIdx M.data.length i with
    | none => simp [hj] at this
    | some j =>
      cases hD : M.data[j]? with
      | none => simp [hj, hD] at this
      | some D =>
        by_cases hk : k < M.K
        · have hc := cols_arr (K := M.K) (l := [k]) (by simp) (by simpa using hk)
          simp only [hj, hD, hc] at this
          by_cases hcol : D.cols = M.n
          · simp only [hcol, ne_eq, not_true_eq_false, if_false] at this
            by_cases hr : D.rows = D.T
            · simp only [hr, not_true_eq_false, if_false] at this
              split at this
              · cases this
              · next hneg =>
                refine ⟨hk, j, D, rfl, hD, hcol, hr, ?_, ?_⟩
                · intro t ht
                  by_contra hle
                  exact hneg ⟨k, by simp, t, ht, not_lt.1 hle⟩
                · have := Except.ok.inj this
                  simpa using this.symm
            · simp [hr] at this
          · simp [hcol] at this
        · have hc : (KsArg.arr [k]).cols M.K = .error .index := by
            unfold KsArg.cols; dsimp only; rw [if_neg (by simp), if_neg (by simpa using hk)]
          simp [hj, hD, hc] at this
  obtain ⟨-, j, D, hj, hD, hcol, hr, -, -⟩ := hall k0 (by simp)
  have hc := cols_arr (K := M.K) (l := k0 :: rest) (by simp) (fun k hk => (hall k hk).1)
  unfold stdLLInc stdComputeRate
  simp only [Option.getD_some, hj, hD, hc, hcol, hr, ne_eq, not_true_eq_false, if_false]
  have hsame : ∀ k ∈ k0 :: rest, (∀ t < D.T, 0 < M.rate D k t) ∧ v k = M.llTerm D k := by
    intro k hk
    obtain ⟨-, j', D', hj', hD', -, -, h1, h2⟩ := hall k hk
    rw [hj] at hj'; cases hj'
    rw [hD] at hD'; cases hD'
    exact ⟨h1, h2⟩
  rw [if_neg]
  · congr 2
    exact List.map_congr_left fun k hk => (hsame k hk).2.symm
  · push Not
    intro k hk t ht
    exact (hsame k hk).1 t ht

/-- the loop of `log_likelihood` succeeds iff every data set does, and adds up -/
theorem loglik_loop {M : StdModel} {ks : KsArg} (l : List ℤ) (s v : ℝ) :
    forListE l (stdLLStep M ks) s = .ok v ↔
      ∃ x : ℤ → ℝ, (∀ i ∈ l, stdLLInc M ks i = .ok (x i)) ∧ v = s + (l.map x).sum := by
  induction l generalizing s with
  | nil => simp [forListE, eq_comm]
  | cons i l ih =>
    have hunf : forListE (i :: l) (stdLLStep M ks) s = (match stdLLStep M ks i s with | .error e => .error e | .ok s' => forListE l (stdLLStep M ks) s') := by
      cases h : stdLLStep M ks i s <;> simp [forListE, h]
    rw [hunf]
    cases hi : stdLLInc M ks i with
    | error e =>
      have : stdLLStep M ks i s = .error e := by unfold stdLLStep; rw [hi]
      rw [this]
      simp only [List.mem_cons, forall_eq_or_imp]
      constructor
      · intro h; cases h
      · rintro ⟨x, ⟨h, _⟩, _⟩; rw [hi] at h; cases h
    | ok y =>
      have : stdLLStep M ks i s = .ok (s + y) := by unfold stdLLStep; rw [hi]
      rw [this]
      dsimp only
      rw [ih]
      constructor
      · rintro ⟨x, hx, rfl⟩
        refine ⟨fun j => if j = i then y else x j, ?_, ?_⟩
        · intro j hj
          by_cases h : j = i
          · show _ = Except.ok (if j = i then y else x j)
            rw [if_pos h, h, hi]
          · show _ = Except.ok (if j = i then y else x j)
            rw [if_neg h]
            rcases List.mem_cons.1 hj with h' | h'
            · exact absurd h' h
            · exact hx j h'
        · have : l.map (fun j => if j = i then y else x j) = l.map x := by
            apply List.map_congr_left
            intro j hj
            by_cases h : j = i
            · rw [if_pos h]
              have := hx j hj
              rw [h, hi] at this
              rw [h]; exact Except.ok.inj this
            · rw [if_neg h]
          simp [this, add_assoc]
      · rintro ⟨x, hx, rfl⟩
        refine ⟨x, fun j hj => hx j (List.mem_cons_of_mem _ hj), ?_⟩
        have := hx i (by simp)
        rw [hi] at this
        simp [Except.ok.inj this, add_assoc]

theorem stdLogLik_ok_iff {M : StdModel} {idx : IdxArg} {ks : KsArg} {v : ℝ} :
    stdLogLik M idx ks = .ok v ↔ ∃ x : ℤ → ℝ, (∀ i ∈ idx.list' M.data.length, stdLLInc M ks i = .ok (x i)) ∧ v = ((idx.list' M.data.length).map x).sum := by
  unfold stdLogLik
  rw [loglik_loop]
  simp

/-- **C40 (processes).** If `log_likelihood(indices, ks=[k])` returns `v k` for every `k` in a nonempty list of processes, then evaluating them all at once returns the sum. -/
theorem C40_sum_over_processes {M : StdModel} {idx : IdxArg} {ks : List ℕ} (hne : ks ≠ []) {v : ℕ → ℝ} (h : ∀ k ∈ ks, stdLogLik M idx (.arr [k]) = .ok (v k)) :
    stdLogLik M idx (.arr ks) = .ok (ks.map v).sum := by
  rw [stdLogLik_ok_iff]
  have h' : ∀ k, ∃ x : ℤ → ℝ, k ∈ ks → (∀ i ∈ idx.list' M.data.length, stdLLInc M (.arr [k]) i = .ok (x i)) ∧ v k = ((idx.list' M.data.length).map x).sum := by
    intro k
    by_cases hk : k ∈ ks
    · obtain ⟨x, hx⟩ := stdLogLik_ok_iff.1 (h k hk)
      exact ⟨x, fun _ => hx⟩
    · exact ⟨fun _ => 0, fun h => absurd h hk⟩
  choose x hx using h'
  refine ⟨fun i => (ks.map fun k => x k i).sum, fun i hi => llInc_sum hne fun k hk => (hx k hk).1 i hi, ?_⟩
  have : ∀ l : List ℤ, (l.map fun i => (ks.map fun k => x k i).sum).sum = (ks.map fun k => (l.map fun i => x k i).sum).sum := by
    intro l
    induction l with
    | nil => simp
    | cons i l ih => simp [ih, List.sum_map_add]
  rw [this]
  congr 1
  exact List.map_congr_left fun k hk => (hx k hk).2

/-- **C40 (all processes).** In particular `log_likelihood(indices)` is the sum over all `K ≥ 1` processes of the per-process values. -/
theorem C40_all_processes {M : StdModel} (hK : 0 < M.K) {idx : IdxArg} {v : ℕ → ℝ} (h : ∀ k < M.K, stdLogLik M idx (.arr [k]) = .ok (v k)) :
    stdLogLik M idx .none = .ok (∑ k ∈ range M.K, v k) := by
  have h1 := C40_sum_over_processes (M := M) (idx := idx) (ks := List.range M.K) (by simp; omega) (v := v) (fun k hk => h k (List.mem_range.1 hk))
  have hc1 : (KsArg.none).cols M.K = .ok (List.range M.K) := by unfold KsArg.cols; dsimp only; rw [if_neg (by omega)]
  have hc2 := cols_arr (K := M.K) (l := List.range M.K) (by simp; omega) (by simp)
  have : ∀ i, stdLLInc M .none i = stdLLInc M (.arr (List.range M.K)) i := by
    intro i
    unfold stdLLInc stdComputeRate
    simp only [hc1, hc2]
  have e : stdLogLik M idx .none = stdLogLik M idx (.arr (List.range M.K)) := by
    have h2 : stdLLStep M .none = stdLLStep M (.arr (List.range M.K)) := by funext i s; unfold stdLLStep; rw [this]
    unfold stdLogLik
    rw [h2]
  rw [e, h1]
  congr 1

/-- **C40 (data sets).** `log_likelihood(indices=l, ks)` succeeds iff every `log_likelihood(i, ks)` does, and then it is their sum; with `indices=None` the list is `0 .. len(data_list)-1`. -/
theorem C40_sum_over_data_sets {M : StdModel} {l : List ℤ} {ks : KsArg} {v : ℤ → ℝ} (h : ∀ i ∈ l, stdLogLik M (.int i) ks = .ok (v i)) :
    stdLogLik M (.list l) ks = .ok (l.map v).sum := by
  rw [stdLogLik_ok_iff]
  refine ⟨v, fun i hi => ?_, rfl⟩
  obtain ⟨x, hx, hv⟩ := stdLogLik_ok_iff.1 (h i hi)
  have := hx i (by simp [IdxArg.list'])
  rw [this]
  simp [IdxArg.list'] at hv
  rw [hv]

/-- **C40 (all data sets).** With `indices=None` every data set is counted exactly once. -/
theorem C40_all_data_sets {M : StdModel} {ks : KsArg} {v : ℕ → ℝ} (h : ∀ i < M.data.length, stdLogLik M (.int (i : ℤ)) ks = .ok (v i)) :
    stdLogLik M .none ks = .ok (∑ i ∈ range M.data.length, v i) := by
  have h1 := C40_sum_over_data_sets (M := M) (ks := ks) (l := (List.range M.data.length).map fun (i : ℕ) => (i : ℤ)) (v := fun i => v i.toNat) (by
    intro i hi
    obtain ⟨j, hj, rfl⟩ := List.mem_map.1 hi
    simpa using h j (List.mem_range.1 hj))
  rw [stdLogLik_none_eq, h1, List.map_map]
  congr 1

/-- **C40 (posterior).** `log_posterior()` over all processes is the sum of the objectives `log_posterior(ks=[k])` that the optimiser treats one by one. -/
theorem C40_posterior_sum {M : StdModel} (hK : 0 < M.K) {idx : IdxArg} {v : ℕ → ℝ} (h : ∀ k < M.K, stdLogPost M idx (.arr [k]) = .ok (v k)) :
    stdLogPost M idx .none = .ok (∑ k ∈ range M.K, v k) := by
  have hsplit : ∀ k, ∃ a b : ℝ, k < M.K → stdLogLik M idx (.arr [k]) = .ok a ∧ stdLogPrior M (.arr [k]) = .ok b ∧ v k = a + b := by
    intro k
    by_cases hk : k < M.K
    · have := h k hk
      unfold stdLogPost at this
      dsimp only at this
      cases h1 : stdLogLik M idx (.arr [k]) with
      | error e => rw [h1] at this; cases this
      | ok a =>
        cases h2 : stdLogPrior M (.arr [k]) with
        | error e => rw [h1, h2] at this; cases this
        | ok b => rw [h1, h2] at this; exact ⟨a, b, fun _ => ⟨rfl, rfl, (Except.ok.inj this).symm⟩⟩
    · exact ⟨0, 0, fun h => absurd h hk⟩
  choose a b hab using hsplit
  have hll := C40_sum_over_processes (M := M) (idx := idx) (ks := List.range M.K) (by simp; omega) (v := a) (fun k hk => (hab k (List.mem_range.1 hk)).1)
  have hlp : stdLogPrior M (.arr (List.range M.K)) = .ok ((List.range M.K).map b).sum := by
    have step : ∀ k < M.K, ∀ s : ℝ, stdPriorStep M k s = .ok (s + b k) := by
      intro k hk s
      have h2 := (hab k hk).2.1
      unfold stdLogPrior at h2
      dsimp only at h2
      rw [if_neg (by simpa using hk)] at h2
      have h3 : stdPriorStep M k 0 = .ok (b k) := by
        cases h : stdPriorStep M k 0 with
        | error e => simp [forListE, h] at h2
        | ok x => simp [forListE, h] at h2; rw [h2]
      unfold stdPriorStep at h3 ⊢
      by_cases hneg : M.alpha > 1 ∧ ∃ c < M.n, 1 ≤ c ∧ M.weights k c ≤ 0
      · rw [if_pos hneg] at h3; cases h3
      · rw [if_neg hneg] at h3 ⊢
        have h2 := Except.ok.inj h3
        rw [← h2]
        by_cases ha : M.alpha > 1
        · simp only [if_pos ha]; rw [zero_add, add_assoc]
        · simp only [if_neg ha]; rw [zero_add]
    unfold stdLogPrior
    dsimp only
    rw [if_neg (by simp)]
    rw [forListE_ok_list _ _ (fun k s => s + b k) _ (fun k hk s => step k (List.mem_range.1 hk) s), foldl_add_list, zero_add]
  unfold stdLogPost
  dsimp only
  rw [hll, hlp]
  dsimp only
  congr 1
  have : ∑ k ∈ range M.K, v k = ∑ k ∈ range M.K, (a k + b k) := Finset.sum_congr rfl fun k hk => (hab k (Finset.mem_range.1 hk)).2.2
  rw [this, Finset.sum_add_distrib]
  congr 1

theorem slice_ok {K B : ℕ} {D : StdData} (hD : StdDataOk K B D) {off fin : ℕ} (h : off ≤ fin) (hf : fin ≤ D.T) : StdDataOk K B (D.slice off fin) where
  rows := by show min fin D.rows - off = fin - off; rw [hD.rows, min_eq_left hf]
  cols := hD.cols
  one t ht := hD.one _ (by have : t < fin - off := ht; omega)
  nonneg t ht := hD.nonneg _ (by have : t < fin - off := ht; omega)

/-- **C40 (minibatches).** Adding the same valid data in minibatches of any size `m ≥ 1` gives the same log likelihood, for every choice of processes, as adding it whole. -/
theorem C40_minibatches {M M1 M2 : StdModel} {a : StdAddArgs} {m : ℤ} (hm : 0 < m)
    (h1 : stdAddData { a with minibatch := none } M = .ok M1) (h2 : stdAddData { a with minibatch := some m } M = .ok M2)
    (hok : StdOk M1) {ks : KsArg} {cs : List ℕ} (hks : ks.cols M.K = .ok cs) (hw : ∀ k ∈ cs, PosRow (1 + M.K * M.B) (M.weights k)) :
    ∃ v, stdLogLik M1 .none ks = .ok v ∧ stdLogLik M2 .none ks = .ok v := by
  unfold stdAddData at h1 h2
  dsimp only at h1 h2
  by_cases c1 : a.KS ≠ M.K
  · rw [if_pos c1] at h1; cases h1
  rw [if_neg c1] at h1 h2
  by_cases c2 : a.T = 0 ∨ a.KS = 0
  · rw [if_pos c2] at h1; cases h1
  rw [if_neg c2] at h1 h2
  by_cases c3 : ¬ ((∀ t < a.T, ∀ k < a.KS, 0 ≤ a.S t k) ∧ a.isInt = true)
  · rw [if_pos c3] at h1; cases h1
  rw [if_neg c3] at h1 h2
  revert h1 h2
  have e1 : ∀ mb, stdMakeData { a with minibatch := mb } M = stdMakeData a M := fun _ => rfl
  rw [e1 none, e1 (some m)]
  generalize hDe : stdMakeData a M = De
  have hDT : ∀ D, De = .ok D → D.T = a.T := by
    intro D hD
    rw [← hDe] at hD
    unfold stdMakeData at hD
    split at hD
    · cases hD; rfl
    · split at hD
      · cases hD
      · cases hD; rfl
  cases De with
  | error e => intro h1; cases h1
  | ok D =>
    dsimp only
    intro h1 h2
    rw [if_neg (by omega), if_neg (by omega)] at h2
    cases h1
    cases h2
    have hT := hDT D rfl
    have hDok : StdDataOk M.K M.B D := hok D (by simp)
    have hok2 : StdOk { M with data := M.data ++ (mbBounds a.T m.toNat).map fun b => D.slice b.1 b.2 } := by
      intro D' hD'
      rcases List.mem_append.1 hD' with h | h
      · exact hok D' (List.mem_append_left _ h)
      · obtain ⟨b, hb, rfl⟩ := List.mem_map.1 h
        have := C10_block_size a.T m.toNat (by omega) b hb
        exact slice_ok hDok this.1.le (by rw [hT]; exact this.2.2)
    rw [stdLogLik_none hok hks hw, stdLogLik_none hok2 hks hw]
    refine ⟨_, rfl, ?_⟩
    congr 1
    simp only [List.map_append, List.sum_append, List.map_map, List.map_cons, List.map_nil, List.sum_cons, List.sum_nil, add_zero]
    congr 1
    -- the blocks of the last data set add up
    have hb : ∀ cs : List ℕ, ((mbBounds a.T m.toNat).map fun b => (cs.map fun k => M.llTerm (D.slice b.1 b.2) k).sum).sum = (cs.map fun k => M.llTerm D k).sum := by
      intro cs
      induction cs with
      | nil => simp
      | cons k cs ih =>
        simp only [List.map_cons, List.sum_cons, List.sum_map_add, ih]
        congr 1
        have := sum_blocks a.T m.toNat (by omega) fun t => (D.S t k : ℝ) * Real.log (M.rate D k t) - M.rate D k t * M.dt
        unfold StdModel.llTerm
        rw [hT, ← this]
        rfl
    exact hb cs

end PyHawkes
