import Verif.Props.StandardMisc

/-!
# The standard model: background rate (C41), initialisation from a network model (C45), BFGS (C71)
-/

set_option linter.unusedSectionVars false

namespace PyHawkes
open Finset Spec

/-! ### C41 -/

/-- the log likelihood when all rates are positive -/
theorem stdLogLik_rates {M : StdModel} {ks : KsArg} {cs : List ℕ} (hks : ks.cols M.K = .ok cs) (hsh : ∀ D ∈ M.data, D.rows = D.T ∧ D.cols = M.n)
    (hr : ∀ D ∈ M.data, ∀ k ∈ cs, ∀ t < D.T, 0 < M.rate D k t) :
    stdLogLik M .none ks = .ok ((M.data.map fun D => (cs.map fun k => M.llTerm D k).sum).sum) := by
  rw [stdLogLik_ok_iff]
  set d : StdData := ⟨0, fun _ _ => 0, 0, 0, fun _ _ => 0⟩
  refine ⟨fun i => (cs.map fun k => M.llTerm (M.data.getD i.toNat d) k).sum, ?_, ?_⟩
  · intro i hi
    simp only [IdxArg.list'] at hi
    obtain ⟨j, hj, rfl⟩ := List.mem_map.1 hi
    have hlt := List.mem_range.1 hj
    have hmem := List.getElem_mem hlt
    have hD := hsh _ hmem
    unfold stdLLInc stdComputeRate
    simp only [Option.getD_some, pyIdx_nat hlt, List.getElem?_eq_getElem hlt, hks]
    rw [if_neg (by rw [hD.2]; simp)]
    dsimp only
    rw [if_neg (by rw [hD.1]; simp), if_neg]
    · simp [List.getD, hlt]
    · push Not
      exact fun k hk t ht => hr _ hmem k hk t ht
  · simp only [IdxArg.list']
    rw [List.map_map]
    have := map_range_getElem M.data d fun D => (cs.map fun k => M.llTerm D k).sum
    rw [← this]
    rfl

/-- a model with the same data and hyperparameters but constant rates `r` -/
def constRate (M : StdModel) (r : Vec ℝ) : StdModel := { M with weights := fun k c => if c = 0 then r k else 0 }

/-- number of events of process `k` over all data sets -/
def totalEvents (M : StdModel) (k : ℕ) : ℕ := (M.data.map fun D => ∑ t ∈ range D.T, D.S t k).sum

/-- total observed time -/
noncomputable def totalTime (M : StdModel) : ℝ := (M.data.map fun D => (D.T : ℝ) * M.dt).sum

theorem constRate_rate {M : StdModel} (hM : StdOk M) (r : Vec ℝ) {D : StdData} (hD : D ∈ M.data) (k : ℕ) {t : ℕ} (ht : t < D.T) : (constRate M r).rate D k t = r k := by
  unfold StdModel.rate constRate
  dsimp only
  rw [Finset.sum_eq_single 0]
  · rw [if_pos rfl, (hM D hD).one t ht, one_mul]
  · intro c _ hc; rw [if_neg hc, mul_zero]
  · intro h; exact absurd (Finset.mem_range.2 (by unfold StdModel.n; omega)) h

theorem constRate_loglik {M : StdModel} (hK : 0 < M.K) (hM : StdOk M) {r : Vec ℝ} (hr : ∀ k < M.K, 0 < r k) :
    stdLogLik (constRate M r) .none .none = .ok (∑ k ∈ range M.K, ((totalEvents M k : ℝ) * Real.log (r k) - r k * totalTime M)) := by
  have hc : (KsArg.none).cols M.K = .ok (List.range M.K) := by unfold KsArg.cols; dsimp only; rw [if_neg hK.ne']
  rw [stdLogLik_rates (M := constRate M r) (cs := List.range M.K) hc (fun D hD => ⟨(hM D hD).rows, (hM D hD).cols⟩)
    (fun D hD k hk t ht => by rw [constRate_rate hM r hD k ht]; exact hr k (List.mem_range.1 hk))]
  congr 1
  have hterm : ∀ D ∈ M.data, ∀ k, (constRate M r).llTerm D k = ((∑ t ∈ range D.T, D.S t k : ℕ) : ℝ) * Real.log (r k) - r k * ((D.T : ℝ) * M.dt) := by
    intro D hD k
    unfold StdModel.llTerm
    rw [Finset.sum_congr rfl fun t ht => by rw [constRate_rate hM r hD k (Finset.mem_range.1 ht)], Finset.sum_sub_distrib, ← Finset.sum_mul]
    push_cast
    have : (constRate M r).dt = M.dt := rfl
    rw [this, Finset.sum_const, Finset.card_range, nsmul_eq_mul]
    ring
  have hd : (constRate M r).data = M.data := rfl
  rw [hd]
  rw [List.map_congr_left (g := fun D => ∑ k ∈ range M.K, (((∑ t ∈ range D.T, D.S t k : ℕ) : ℝ) * Real.log (r k) - r k * ((D.T : ℝ) * M.dt)))]
  · unfold totalEvents totalTime
    generalize M.data = l
    induction l with
    | nil => simp
    | cons D l ih =>
      rw [List.map_cons, List.sum_cons, ih, ← Finset.sum_add_distrib]
      apply Finset.sum_congr rfl
      intro k _
      simp only [List.map_cons, List.sum_cons]
      push_cast
      ring
  · intro D hD
    have : ∀ k ∈ List.range M.K, (constRate M r).llTerm D k = ((∑ t ∈ range D.T, D.S t k : ℕ) : ℝ) * Real.log (r k) - r k * ((D.T : ℝ) * M.dt) := fun k _ => hterm D hD k
    rw [List.map_congr_left this]
    rfl

/-- `N log r - r T` is largest at `r = N/T`, and only there -/
theorem poisson_opt {N T r : ℝ} (hN : 0 < N) (hT : 0 < T) (hr : 0 < r) :
    N * Real.log r - r * T ≤ N * Real.log (N / T) - N / T * T ∧ (N * Real.log r - r * T = N * Real.log (N / T) - N / T * T → r = N / T) := by
  have hx : 0 < r * T / N := by positivity
  have e : r = (r * T / N) * (N / T) := by field_simp
  have hlog : Real.log r = Real.log (r * T / N) + Real.log (N / T) := by
    conv_lhs => rw [e]
    rw [Real.log_mul hx.ne' (by positivity)]
  have hNT : N / T * T = N := by field_simp
  have hrT : r * T = N * (r * T / N) := by field_simp
  constructor
  · have h := Real.log_le_sub_one_of_pos hx
    rw [hlog, hNT]
    nlinarith
  · intro h
    by_contra hne
    have hx1 : r * T / N ≠ 1 := by
      intro h1
      apply hne
      rw [h1, one_mul] at e
      exact e
    have h' := Real.log_lt_sub_one_of_pos hx hx1
    rw [hlog, hNT] at h
    nlinarith

theorem initBackground_eq {M : StdModel} (hd : M.data ≠ []) (hT : totalTime M ≠ 0) :
    initBackground M = .ok { M with weights := fun i c => if c = 0 then (totalEvents M i : ℝ) / totalTime M else M.weights i c } := by
  have h1 : ∀ i, M.data.foldl (fun acc D => acc + ∑ t ∈ range D.T, (D.S t i : ℝ)) 0 = (totalEvents M i : ℝ) := by
    intro i
    rw [foldl_add_list, zero_add]
    unfold totalEvents
    rw [Nat.cast_list_sum, List.map_map]
    congr 1
    apply List.map_congr_left
    intro D _
    simp
  have h2 : M.data.foldl (fun acc D => acc + (D.T : ℝ) * M.dt) 0 = totalTime M := by
    rw [foldl_add_list, zero_add]; rfl
  unfold initBackground
  rw [if_pos (List.length_pos_iff.2 hd)]
  dsimp only
  rw [h2, if_neg hT]
  simp only [h1]

/-- **C41.** With well-formed data of positive total time and at least one event of every process, `initialize_to_background_rate()` succeeds, changes nothing but the biases, sets each bias to the number of events divided by
the observed time, and among all models with constant positive rates `r` the one with these biases has the largest log likelihood, uniquely. -/
theorem C41_background_rate_optimal {M : StdModel} (hK : 0 < M.K) (hM : StdOk M) (hdt : 0 < M.dt) (hN : ∀ k < M.K, ∃ D ∈ M.data, ∃ t < D.T, 0 < D.S t k) :
    ∃ M', initBackground M = .ok M' ∧ M'.data = M.data ∧ (∀ k c, 1 ≤ c → M'.weights k c = M.weights k c) ∧ 0 < totalTime M ∧
      (∀ k < M.K, M'.getBias k = (totalEvents M k : ℝ) / totalTime M) ∧
      ∃ v', stdLogLik (constRate M M'.getBias) .none .none = .ok v' ∧
        ∀ r : Vec ℝ, (∀ k < M.K, 0 < r k) → ∃ v, stdLogLik (constRate M r) .none .none = .ok v ∧ v ≤ v' ∧ (v = v' → ∀ k < M.K, r k = M'.getBias k) := by
  have hE : ∀ k < M.K, 0 < (totalEvents M k : ℝ) := by
    intro k hk
    obtain ⟨D, hD, t, ht, hS⟩ := hN k hk
    have h1 : D.S t k ≤ ∑ t ∈ range D.T, D.S t k := Finset.single_le_sum (f := fun t => D.S t k) (fun _ _ => Nat.zero_le _) (Finset.mem_range.2 ht)
    have h2 : ∑ t ∈ range D.T, D.S t k ≤ totalEvents M k := List.single_le_sum (by simp) _ (List.mem_map.2 ⟨D, hD, rfl⟩)
    exact_mod_cast lt_of_lt_of_le hS (h1.trans h2)
  have hT : 0 < totalTime M := by
    obtain ⟨D, hD, t, ht, -⟩ := hN 0 hK
    have h1 : 0 < (D.T : ℝ) * M.dt := mul_pos (by exact_mod_cast (by omega)) hdt
    have h2 : (D.T : ℝ) * M.dt ≤ totalTime M := List.single_le_sum (by
      intro x hx
      obtain ⟨D', _, rfl⟩ := List.mem_map.1 hx
      positivity) _ (List.mem_map.2 ⟨D, hD, rfl⟩)
    linarith
  have hd : M.data ≠ [] := by
    obtain ⟨D, hD, -⟩ := hN 0 hK
    exact List.ne_nil_of_mem hD
  rw [initBackground_eq hd hT.ne']
  refine ⟨_, rfl, rfl, fun k c hc => if_neg (by omega), hT, fun k _ => by simp [StdModel.getBias], ?_⟩
  rw [constRate_loglik hK hM (r := StdModel.getBias _) fun k hk => by
    simp only [StdModel.getBias, if_true]; exact div_pos (hE k hk) hT]
  refine ⟨_, rfl, fun r hr => ?_⟩
  rw [constRate_loglik hK hM hr]
  have hb : ∀ k, StdModel.getBias { M with weights := fun i c => if c = 0 then (totalEvents M i : ℝ) / totalTime M else M.weights i c } k = (totalEvents M k : ℝ) / totalTime M := fun k => by simp [StdModel.getBias]
  simp only [hb]
  have hle : ∀ k ∈ range M.K, (totalEvents M k : ℝ) * Real.log (r k) - r k * totalTime M
      ≤ (totalEvents M k : ℝ) * Real.log ((totalEvents M k : ℝ) / totalTime M) - (totalEvents M k : ℝ) / totalTime M * totalTime M :=
    fun k hk => (poisson_opt (hE k (Finset.mem_range.1 hk)) hT (hr k (Finset.mem_range.1 hk))).1
  refine ⟨_, rfl, Finset.sum_le_sum hle, fun heq k hk => ?_⟩
  have := (Finset.sum_eq_sum_iff_of_le hle).1 heq k (Finset.mem_range.2 hk)
  exact (poisson_opt (hE k hk) hT (hr k hk)).2 this

/-- **C41 (violated without events).** If some process has no event, its bias becomes 0; in any bin in which its regressors are zero (with a non-instantaneous basis, the first bin of every recording) its rate is then 0 and the
log likelihood of the initialised model is not a number. -/
theorem C41_event_less_process_violated {M M' : StdModel} (hM : StdOk M) (h : initBackground M = .ok M') {k : ℕ} (hk : k < M.K) (hN : ∀ D ∈ M.data, ∀ t < D.T, D.S t k = 0)
    {D : StdData} (hD : D ∈ M.data) {t : ℕ} (ht : t < D.T) (hF : ∀ c, 1 ≤ c → c < 1 + M.K * M.B → D.F t c = 0) :
    M'.getBias k = 0 ∧ ¬ ∃ v, stdLogLik M' .none .none = .ok v := by
  have hd := List.ne_nil_of_mem hD
  have hT : totalTime M ≠ 0 := by
    intro h0
    unfold initBackground at h
    rw [if_pos (List.length_pos_iff.2 hd)] at h
    dsimp only at h
    have h2 : M.data.foldl (fun acc D => acc + (D.T : ℝ) * M.dt) 0 = totalTime M := by
      rw [foldl_add_list, zero_add]; rfl
    rw [h2, if_pos h0] at h
    cases h
  rw [initBackground_eq hd hT] at h
  cases h
  have hE : totalEvents M k = 0 := by
    unfold totalEvents
    apply List.sum_eq_zero
    intro x hx
    obtain ⟨D', hD', rfl⟩ := List.mem_map.1 hx
    exact Finset.sum_eq_zero fun t ht => hN D' hD' t (Finset.mem_range.1 ht)
  refine ⟨by simp [StdModel.getBias, hE], ?_⟩
  rintro ⟨v, hv⟩
  obtain ⟨x, hx, -⟩ := stdLogLik_ok_iff.1 hv
  obtain ⟨i, hi, hDi⟩ := List.getElem_of_mem hD
  have := hx i (List.mem_map.2 ⟨i, List.mem_range.2 hi, rfl⟩)
  unfold stdLLInc stdComputeRate at this
  have hK : 0 < M.K := by omega
  have hc : (KsArg.none).cols M.K = .ok (List.range M.K) := by unfold KsArg.cols; dsimp only; rw [if_neg hK.ne']
  simp only [Option.getD_some, pyIdx_nat hi, List.getElem?_eq_getElem hi, hDi, hc] at this
  rw [if_neg (by rw [(hM D hD).cols]; simp)] at this
  dsimp only at this
  rw [if_neg (by rw [(hM D hD).rows]; simp), if_pos] at this
  · cases this
  · refine ⟨k, List.mem_range.2 hk, t, ht, ?_⟩
    unfold StdModel.rate
    apply le_of_eq
    apply Finset.sum_eq_zero
    intro c hc
    by_cases h0 : c = 0
    · dsimp only
      rw [if_pos h0, hE]; simp
    · rw [hF c (by omega) (Finset.mem_range.1 hc), zero_mul]

/-- one process, two bins with one event: a data set that meets the hypotheses of both theorems (the second with the process of index 1, which has no event) -/
def demoStdData : StdData := ⟨2, fun t k => if t = 0 ∧ k = 0 then 1 else 0, 2, 3, fun t c => if c = 0 then 1 else if t = 1 ∧ c = 1 then 1 else 0⟩

example : StdDataOk 2 1 demoStdData ∧ 0 < demoStdData.S 0 0 ∧ (∀ t < demoStdData.T, demoStdData.S t 1 = 0) ∧ ∀ c, 1 ≤ c → c < 1 + 2 * 1 → demoStdData.F 0 c = 0 := by
  refine ⟨⟨rfl, rfl, ?_, ?_⟩, by decide, by decide, ?_⟩
  · intro t _; rfl
  · intro t _ c _
    unfold demoStdData
    dsimp only
    split
    · norm_num
    · split <;> norm_num
  · intro c hc _
    unfold demoStdData
    dsimp only
    rw [if_neg (by omega), if_neg (by omega)]

/-! ### C45 -/

/-- **C45 (violated).** For every network model with two or more processes of matching size, `initialize_with_gibbs_model` raises `ValueError`. -/
theorem C45_two_processes_violated (g : GibbsView) (M : StdModel) (hn : g.isNetworkModel = true) (hK : g.P.K = M.K) (hB : g.P.B = M.B) (h2 : 2 ≤ M.K) : initWithGibbs g M = .error .value := by
  unfold initWithGibbs
  rw [if_neg (by simp [hn]), if_neg (by simp [hK]), if_neg (by simp [hB]), if_pos (by omega)]

theorem computeRate_single {M : StdModel} {D : StdData} (hK : M.K = 1) (hd : M.data = [D]) (hc : D.cols = M.n) : stdComputeRate M none .none = .ok [fun t => M.rate D 0 t] := by
  unfold stdComputeRate
  have hcol : (KsArg.none).cols M.K = .ok [0] := by rw [hK]; rfl
  rw [hd, hcol]
  simp [pyIdx, hc]

/-- **C45 (one process).** With a single process and self connections allowed it succeeds, and for every count array the rate predicted by the standard model equals the rate computed by the network model (with the same basis). -/
theorem C45_single_process_partial (g : GibbsView) (M : StdModel) (hn : g.isNetworkModel = true) (hK : g.P.K = M.K) (hB : g.P.B = M.B) (h1 : M.K = 1) (hs : M.allowSelf = true)
    (hL : g.P.L = M.L) (hbasis : g.P.basis = M.basis) {T : ℕ} {S : Mat ℤ} {M1 : StdModel} {R : Mat ℝ}
    (hadd : stdAddData { T := T, KS := 1, isInt := true, S := S, F := none, minibatch := none } { M with data := [] } = .ok M1)
    (hrate : computeRate g.P T 1 (fun t k => (S t k : ℝ)) = .ok R) :
    ∃ M', initWithGibbs g M1 = .ok M' ∧ ∃ cols, stdComputeRate M' none .none = .ok cols ∧ ∃ r, cols = [r] ∧ ∀ t < T, r t = R t 0 := by
  -- the data set
  unfold stdAddData at hadd
  dsimp only at hadd
  rw [if_neg (by simp [h1])] at hadd
  by_cases c2 : T = 0 ∨ (1 : ℕ) = 0
  · rw [if_pos c2] at hadd; cases hadd
  rw [if_neg c2] at hadd
  split at hadd
  · cases hadd
  cases hmk : stdMakeData { T := T, KS := 1, isInt := true, S := S, F := none, minibatch := none } { M with data := [] } with
  | error e => rw [hmk] at hadd; cases hadd
  | ok D =>
    rw [hmk] at hadd
    cases hadd
    unfold stdMakeData at hmk
    dsimp only at hmk
    unfold computeRate at hrate
    rw [hL, hB, hbasis] at hrate
    rw [h1] at hmk
    cases hc : convolve T 1 M.L M.B M.basis (fun t k => (S t k : ℝ)) with
    | error e => rw [hc] at hmk; cases hmk
    | ok F =>
      rw [hc] at hmk hrate
      cases hmk
      dsimp only at hrate
      rw [if_neg (by rw [hK, h1]; simp)] at hrate
      cases hrate
      unfold initWithGibbs
      dsimp only
      rw [if_neg (by simp [hn]), if_neg (by simp [hK]), if_neg (by simp [hB]), if_neg (by omega)]
      refine ⟨_, rfl, ?_⟩
      simp only [hs, Bool.not_true, Bool.false_eq_true, if_false, h1]
      refine ⟨_, computeRate_single rfl (by rfl) (by rfl), _, rfl, ?_⟩
      intro t ht
      obtain ⟨_, _, _, hBpos⟩ := convolve_ok_pos hc
      rw [rateAll_eq g.P F t 0 (by rw [hK, h1]; omega)]
      unfold Spec.rate StdModel.rate StdModel.n
      dsimp only
      rw [hK, h1, hB, add_comm 1 (1 * M.B), Finset.sum_range_succ']
      simp only [forRange_succ, forRange_zero, one_mul, Finset.sum_range_one]
      have e0 : consVec (1 : ℝ) (ravel M.B (F t)) 0 = 1 := rfl
      rw [e0, one_mul, if_pos ⟨trivial, trivial⟩, add_comm]
      congr 1
      apply Finset.sum_congr rfl
      intro b hb
      have hb := Finset.mem_range.1 hb
      rw [if_neg (by omega), if_pos ⟨trivial, by omega⟩]
      simp only [consVec, ravel, Nat.add_sub_cancel, Nat.div_eq_of_lt hb, Nat.mod_eq_of_lt hb]
      ring

/-! ### C71 -/

theorem posRow_of_box {M : StdModel} {x : Vec ℝ} (h : InBfgsBox M x) : PosRow (1 + M.K * M.B) x := fun c hc => lt_of_lt_of_le (by norm_num) (h c hc).1

/-- the total log posterior is the sum over the rows -/
theorem logPost_total {M : StdModel} (hK : 0 < M.K) (hM : StdOk M) (h1 : 1 ≤ M.alpha) (hw : ∀ k < M.K, PosRow (1 + M.K * M.B) (M.weights k)) :
    stdLogPost M .none .none = .ok (∑ k ∈ range M.K, stdLP M k (M.weights k)) :=
  C40_posterior_sum hK fun k hk => C35_log_posterior_value hM h1 hk (hw k hk)

/-- **C71.** `fit_with_bfgs` with an optimiser that solves each process's problem (for every model with these data and hyperparameters, `opt k` returns a point of the box the code passes to it at which the objective the code passes
to it is minimal over the box) ends with weights that maximise the joint log posterior over all weight matrices in the box: fitting the processes one after the other loses nothing, in whatever state the earlier rows are. -/
theorem C71_bfgs_joint_maximum {M : StdModel} (hK : 0 < M.K) (hM : StdOk M) (h1 : 1 ≤ M.alpha) (opt : ℕ → StdModel → Vec ℝ)
    (hopt : ∀ k < M.K, ∀ w : Mat ℝ, InBfgsBox M (opt k { M with weights := w }) ∧
      ∀ y, InBfgsBox M y → ∃ a b, bfgsObjective { M with weights := w } k (opt k { M with weights := w }) = .ok a ∧ bfgsObjective { M with weights := w } k y = .ok b ∧ a ≤ b) :
    (fitBfgs opt M).data = M.data ∧ (∀ k < M.K, InBfgsBox M ((fitBfgs opt M).weights k)) ∧
      ∃ v', stdLogPost (fitBfgs opt M) .none .none = .ok v' ∧
        ∀ w : Mat ℝ, (∀ k < M.K, InBfgsBox M (w k)) → ∃ v, stdLogPost { M with weights := w } .none .none = .ok v ∧ v ≤ v' := by
  -- the loop only changes the weights, and each row ends up optimal
  have loop : ∀ n ≤ M.K, ∃ w : Mat ℝ, forRange n (fun k M => M.setRow k (opt k M)) M = { M with weights := w } ∧
      ∀ k < n, InBfgsBox M (w k) ∧ ∀ y, InBfgsBox M y → stdLP M k y ≤ stdLP M k (w k) := by
    intro n hn
    induction n with
    | zero => exact ⟨M.weights, rfl, by intro k hk; omega⟩
    | succ n ih =>
      obtain ⟨w, h2, h3⟩ := ih (by omega)
      rw [forRange_succ, h2]
      refine ⟨fun i => if i = n then opt n { M with weights := w } else w i, rfl, ?_⟩
      intro k hk
      by_cases e : k = n
      · subst e
        dsimp only
        rw [if_pos rfl]
        obtain ⟨hb, hy⟩ := hopt k (by omega) w
        refine ⟨hb, fun y hyb => ?_⟩
        obtain ⟨a, b, ha, hb', hab⟩ := hy y hyb
        have ok' : StdOk { M with weights := w } := hM
        unfold bfgsObjective at ha hb'
        rw [logPost_setRow ok' h1 (by show k < M.K; omega) (posRow_of_box hb)] at ha
        rw [logPost_setRow ok' h1 (by show k < M.K; omega) (posRow_of_box hyb)] at hb'
        cases ha
        cases hb'
        have e1 : ∀ z, stdLP { M with weights := w } k z = stdLP M k z := fun _ => rfl
        rw [e1, e1] at hab
        linarith
      · dsimp only
        rw [if_neg e]
        exact h3 k (by omega)
  obtain ⟨w, h2, h3⟩ := loop M.K le_rfl
  have hfit : fitBfgs opt M = { M with weights := w } := h2
  rw [hfit]
  have e1 : ∀ (u : Mat ℝ) k z, stdLP { M with weights := u } k z = stdLP M k z := fun _ _ _ => rfl
  have tot : ∀ u : Mat ℝ, (∀ k < M.K, InBfgsBox M (u k)) → stdLogPost { M with weights := u } .none .none = .ok (∑ k ∈ range M.K, stdLP M k (u k)) := by
    intro u hu
    rw [logPost_total (M := { M with weights := u }) hK hM h1 fun k hk => posRow_of_box (hu k hk)]
    rfl
  refine ⟨rfl, fun k hk => (h3 k hk).1, _, tot w fun k hk => (h3 k hk).1, fun u hu => ⟨_, tot u hu, ?_⟩⟩
  exact Finset.sum_le_sum fun k hk => (h3 k (Finset.mem_range.1 hk)).2 _ (hu k (Finset.mem_range.1 hk))

/-- an optimiser as assumed in `C71_bfgs_joint_maximum` exists for a one-process model without data: the objective is `beta` times the coupling weights, minimal at the lower bound -/
example : ∃ (M : StdModel) (opt : ℕ → StdModel → Vec ℝ), 0 < M.K ∧ StdOk M ∧ 1 ≤ M.alpha ∧
    ∀ k < M.K, ∀ w : Mat ℝ, InBfgsBox M (opt k { M with weights := w }) ∧
      ∀ y, InBfgsBox M y → ∃ a b, bfgsObjective { M with weights := w } k (opt k { M with weights := w }) = .ok a ∧ bfgsObjective { M with weights := w } k y = .ok b ∧ a ≤ b := by
  have hM : StdOk twoModel := by intro D hD; simp [twoModel] at hD
  have hbox : InBfgsBox twoModel fun _ => 1e-16 := by
    intro c _
    exact ⟨le_rfl, fun _ m hm => by simp [twoModel] at hm⟩
  refine ⟨twoModel, fun _ _ _ => 1e-16, by decide, hM, by simp [twoModel], ?_⟩
  intro k hk w
  refine ⟨hbox, fun y hy => ?_⟩
  have ok' : StdOk { twoModel with weights := w } := hM
  unfold bfgsObjective
  rw [logPost_setRow ok' (by simp [twoModel]) hk (posRow_of_box hbox), logPost_setRow ok' (by simp [twoModel]) hk (posRow_of_box hy)]
  refine ⟨_, _, rfl, rfl, ?_⟩
  have := (hy 1 (by simp [StdModel.n, twoModel])).1
  simp [stdLP, stdPrior, twoModel]
  exact this

end PyHawkes
