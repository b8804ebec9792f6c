import Verif.Spec.StandardLog
import Verif.Props.StandardExists

/-!
# C97: `fit_with_bfgs_logspace`
-/

set_option linter.unusedVariables false
set_option linter.unusedSectionVars false

namespace PyHawkes
open Finset Spec

theorem stdLP_congr {M : StdModel} {k : ℕ} {w w' : Vec ℝ} (h : ∀ c < 1 + M.K * M.B, w c = w' c) : stdLP M k w = stdLP M k w' := by
  have hlin : ∀ F t, lin (1 + M.K * M.B) F w t = lin (1 + M.K * M.B) F w' t := fun F t => by
    unfold lin
    exact Finset.sum_congr rfl fun c hc => by rw [h c (Finset.mem_range.1 hc)]
  have hpr : stdPrior M.alpha M.beta (1 + M.K * M.B) w = stdPrior M.alpha M.beta (1 + M.K * M.B) w' := by
    unfold stdPrior
    exact Finset.sum_congr rfl fun c hc => by rw [h c (Finset.mem_Ico.1 hc).2]
  unfold stdLP stdLL
  simp only [hlin, hpr]

theorem expRow_pos (n : ℕ) (x : Vec ℝ) : PosRow n fun c => Real.exp (x c) := fun _ _ => Real.exp_pos _

theorem logObjective_eq {M : StdModel} (hM : StdOk M) (h1 : 1 ≤ M.alpha) {k : ℕ} (hk : k < M.K) (x : Vec ℝ) :
    bfgsLogObjective M k x = .ok (-stdLP M k fun c => Real.exp (x c)) := by
  unfold bfgsLogObjective
  rw [logPost_setRow hM h1 hk (expRow_pos _ x)]

/-- **C97 (objective and gradient agree).** At every point `x` (with self entries at most `log 1e-8` if self connections are disallowed, as the code's assertion demands) the objective and the gradient handed to the
optimiser can be evaluated, and in every direction `v` (leaving disallowed self entries alone) the derivative of the objective is the inner product of `v` with the gradient. The gradient is zero at disallowed self entries. -/
theorem C97_gradient {M : StdModel} (hM : StdOk M) (h1 : 1 ≤ M.alpha) {k : ℕ} (hk : k < M.K) (x : Vec ℝ)
    (hs : M.allowSelf = false → ∀ c, IsSelf M.B k c → Real.exp (x c) ≤ 1e-8) :
    (∃ y, bfgsLogObjective M k x = .ok y) ∧ ∃ g : Vec ℝ, bfgsLogGradient M k x = .ok g ∧ (M.allowSelf = false → ∀ c, IsSelf M.B k c → g c = 0) ∧
      ∀ v : Vec ℝ, (M.allowSelf = false → ∀ c, IsSelf M.B k c → v c = 0) →
        HasDerivAt (fun s => okD 0 (bfgsLogObjective M k fun c => x c + s * v c)) (∑ c ∈ range (1 + M.K * M.B), g c * v c) 0 := by
  refine ⟨⟨_, logObjective_eq hM h1 hk x⟩, ?_⟩
  set M' : StdModel := M.setRow k fun c => Real.exp (x c) with hM'
  have hw' : M'.weights k = fun c => Real.exp (x c) := setRow_weights M k _
  obtain ⟨g, hg, hg0, hd⟩ := C35_log_space (M := M') hM h1 hk (by rw [hw']; exact expRow_pos _ x) (fun h c hc => by
    rw [hw', abs_of_pos (Real.exp_pos _)]; exact hs h c hc)
  refine ⟨fun c => -g c, ?_, fun h c hc => by show -g c = 0; rw [hg0 h c hc, neg_zero], fun v hv => ?_⟩
  · unfold stdLogGradient at hg
    unfold bfgsLogGradient
    dsimp only
    rw [← hM']
    cases h : stdGradient M' k .none with
    | error e => rw [h] at hg; cases hg
    | ok g' =>
      rw [h] at hg
      dsimp only at hg ⊢
      rw [← Except.ok.inj hg]
      congr 1
      funext c
      rw [← Finset.sum_neg_distrib]
      exact Finset.sum_congr rfl fun d _ => by ring
  · have h2 := (hd v hv).neg
    have e1 : -∑ c ∈ range (1 + M'.K * M'.B), g c * v c = ∑ c ∈ range (1 + M.K * M.B), -g c * v c := by
      rw [← Finset.sum_neg_distrib]
      exact Finset.sum_congr rfl fun d _ => by ring
    rw [e1] at h2
    refine h2.congr_of_eventuallyEq (Filter.Eventually.of_forall fun s => ?_)
    have e2 : (M'.setRow k fun c => Real.exp (Real.log (M'.weights k c) + s * v c)) = M.setRow k fun c => Real.exp (x c + s * v c) := by
      have : ∀ c, Real.log (M'.weights k c) = x c := fun c => by rw [hw', Real.log_exp]
      simp only [this]
      rw [hM']
      unfold StdModel.setRow
      dsimp only
      congr 1
      funext i
      split <;> rfl
    show okD 0 (bfgsLogObjective M k fun c => x c + s * v c) = -okD 0 (stdLogPost (M'.setRow k fun c => Real.exp (Real.log (M'.weights k c) + s * v c)) .none (.arr [k]))
    rw [e2, logObjective_eq hM h1 hk, logPost_setRow hM h1 hk (expRow_pos _ _)]
    rfl

/-- the loop writes, row by row, the exponential of what the optimiser returned for a model that differs from the first one in its (positive) weights only -/
theorem fitBfgsLog_loop {M : StdModel} (hw : ∀ k < M.K, PosRow (1 + M.K * M.B) (M.weights k)) (opt : ℕ → StdModel → Vec ℝ) :
    ∀ n ≤ M.K, ∃ w : Mat ℝ, forListE (List.range n) (fitBfgsLogBody opt) M = .ok { M with weights := w } ∧ (∀ k, n ≤ k → w k = M.weights k) ∧
      ∀ k < n, ∃ u : Mat ℝ, (∀ i < M.K, PosRow (1 + M.K * M.B) (u i)) ∧ u k = M.weights k ∧ w k = fun c => Real.exp (opt k { M with weights := u } c) := by
  intro n hn
  induction n with
  | zero => exact ⟨M.weights, rfl, fun _ _ => rfl, by intro k hk; omega⟩
  | succ n ih =>
    obtain ⟨w, h2, h3, h4⟩ := ih (by omega)
    have hpos : ∀ i < M.K, PosRow (1 + M.K * M.B) (w i) := by
      intro i hi
      by_cases hin : i < n
      · obtain ⟨u, -, -, e⟩ := h4 i hin
        rw [e]; exact expRow_pos _ _
      · rw [h3 i (by omega)]; exact hw i hi
    refine ⟨fun i => if i = n then fun c => Real.exp (opt n { M with weights := w } c) else w i, ?_, ?_, ?_⟩
    · rw [forListE_range_succ, h2]
      show fitBfgsLogBody opt n { M with weights := w } = _
      unfold fitBfgsLogBody
      rw [if_neg]
      · rfl
      · rintro ⟨c, hc, hle⟩
        exact absurd (hpos n (by omega) c hc) (not_lt.2 hle)
    · intro k hk
      dsimp only
      rw [if_neg (by omega), h3 k (by omega)]
    · intro k hk
      dsimp only
      by_cases e : k = n
      · subst e
        exact ⟨w, hpos, h3 k le_rfl, if_pos rfl⟩
      · obtain ⟨u, hu⟩ := h4 k (by omega)
        exact ⟨u, hu.1, hu.2.1, by rw [if_neg e]; exact hu.2.2⟩

/-- **C97 (positive weights within the bound).** Started with positive weights, `fit_with_bfgs_logspace` ends, whatever points within the bounds the optimiser returns, with positive weights that
do not exceed `W_max` (apart from the biases, which are not bounded); nothing but the weights changes. -/
theorem C97_positive_in_bounds {M : StdModel} (hw : ∀ k < M.K, PosRow (1 + M.K * M.B) (M.weights k)) (hmax : ∀ m ∈ M.wMax, 0 < m) (opt : ℕ → StdModel → Vec ℝ)
    (hopt : ∀ k < M.K, ∀ u : Mat ℝ, InLogBox M (opt k { M with weights := u })) :
    ∃ w : Mat ℝ, fitBfgsLog opt M = .ok { M with weights := w } ∧ ∀ k < M.K, PosRow (1 + M.K * M.B) (w k) ∧ ∀ c < 1 + M.K * M.B, 1 ≤ c → ∀ m ∈ M.wMax, w k c ≤ m := by
  obtain ⟨w, h2, -, h4⟩ := fitBfgsLog_loop hw opt M.K le_rfl
  refine ⟨w, h2, fun k hk => ?_⟩
  obtain ⟨u, -, -, e⟩ := h4 k hk
  rw [e]
  refine ⟨expRow_pos _ _, fun c hc hc1 m hm => ?_⟩
  have := hopt k hk u c hc hc1 m hm
  rw [← Real.exp_log (hmax m hm)]
  exact Real.exp_le_exp.2 this

/-- **C97 (joint maximum).** If each optimisation returns a minimiser of the objective it was handed among the points it can reach, `fit_with_bfgs_logspace` ends with weights that maximise the joint log
posterior over all positive weight matrices with weights at most `W_max` (and the same self weights, if self connections are disallowed). -/
theorem C97_joint_maximum {M : StdModel} (hK : 0 < M.K) (hM : StdOk M) (h1 : 1 ≤ M.alpha) (hw : ∀ k < M.K, PosRow (1 + M.K * M.B) (M.weights k)) (hmax : ∀ m ∈ M.wMax, 0 < m)
    (opt : ℕ → StdModel → Vec ℝ)
    (hopt : ∀ k < M.K, ∀ u : Mat ℝ, (∀ i < M.K, PosRow (1 + M.K * M.B) (u i)) → u k = M.weights k → LogFeasible M k (opt k { M with weights := u }) ∧
      ∀ y, LogFeasible M k y → ∃ a b, bfgsLogObjective { M with weights := u } k (opt k { M with weights := u }) = .ok a ∧ bfgsLogObjective { M with weights := u } k y = .ok b ∧ a ≤ b) :
    ∃ M' v', fitBfgsLog opt M = .ok M' ∧ stdLogPost M' .none .none = .ok v' ∧
      ∀ w : Mat ℝ, (∀ k < M.K, ∀ c < 1 + M.K * M.B, 0 < w k c ∧ (1 ≤ c → ∀ m ∈ M.wMax, w k c ≤ m) ∧ (M.allowSelf = false → IsSelf M.B k c → w k c = M.weights k c)) →
        ∃ v, stdLogPost { M with weights := w } .none .none = .ok v ∧ v ≤ v' := by
  obtain ⟨w', h2, -, h4⟩ := fitBfgsLog_loop hw opt M.K le_rfl
  have tot : ∀ u : Mat ℝ, (∀ k < M.K, PosRow (1 + M.K * M.B) (u k)) → stdLogPost { M with weights := u } .none .none = .ok (∑ k ∈ range M.K, stdLP M k (u k)) := by
    intro u hu
    rw [logPost_total (M := { M with weights := u }) hK hM h1 fun k hk => hu k hk]
    rfl
  refine ⟨_, _, h2, tot w' fun k hk => ?_, fun w hwb => ⟨_, tot w fun k hk c hc => (hwb k hk c hc).1, Finset.sum_le_sum fun k hk => ?_⟩⟩
  · obtain ⟨u, -, -, e⟩ := h4 k hk
    rw [e]; exact expRow_pos _ _
  · have hk := Finset.mem_range.1 hk
    obtain ⟨u, hu, huk, e⟩ := h4 k hk
    obtain ⟨hf, hy⟩ := hopt k hk u hu huk
    have hself : ∀ c, IsSelf M.B k c → c < 1 + M.K * M.B := by
      intro c hc
      have : (k + 1) * M.B ≤ M.K * M.B := Nat.mul_le_mul_right _ hk
      have := hc.2
      omega
    obtain ⟨a, b, ha, hb, hab⟩ := hy (fun c => Real.log (w k c)) ⟨fun c hc hc1 m hm => Real.log_le_log (hwb k hk c hc).1 ((hwb k hk c hc).2.1 hc1 m hm),
      fun hs c hc => by show Real.log (w k c) = _; rw [(hwb k hk c (hself c hc)).2.2 hs hc]⟩
    rw [logObjective_eq (M := { M with weights := u }) hM h1 hk] at ha hb
    have ea := Except.ok.inj ha
    have eb := Except.ok.inj hb
    have e1 : stdLP M k (fun c => Real.exp (Real.log (w k c))) = stdLP M k (w k) := stdLP_congr fun c hc => Real.exp_log (hwb k hk c hc).1
    have e2 : ∀ z, stdLP { M with weights := u } k z = stdLP M k z := fun _ => rfl
    rw [e2] at ea eb
    rw [e1] at eb
    rw [e]
    linarith

/-! ### Does a solution exist? -/

theorem stdLL_le_log {K B : ℕ} {D : StdData} (hD : StdDataOk K B D) {dt : ℝ} (hdt : 0 < dt) (k : ℕ) (hfr : ∃ t < D.T, 0 < D.S t k ∧ ∀ c < 1 + K * B, 1 ≤ c → D.F t c = 0) :
    ∃ C, ∀ w, PosRow (1 + K * B) w → w 0 < 1 → stdLL dt (1 + K * B) k D w ≤ C + Real.log (w 0) := by
  obtain ⟨t0, ht0, hS, hF⟩ := hfr
  have h : ∀ t, ∃ C, ∀ x, 0 < x → (D.S t k : ℝ) * Real.log x - x * dt ≤ C := fun t => by
    obtain ⟨C, hC⟩ := log_le_slope (D.S t k) dt (Nat.cast_nonneg _) hdt
    refine ⟨C, fun x hx => ?_⟩
    have := hC x hx
    have h2 : 0 < dt / 2 * x := by positivity
    rw [mul_comm x dt]; linarith
  choose C hC using h
  refine ⟨∑ t ∈ (range D.T).erase t0, C t, fun w hw hw1 => ?_⟩
  have hw0 : 0 < w 0 := hw 0 (by omega)
  have hlin0 : lin (1 + K * B) D.F w t0 = w 0 := by
    unfold lin
    rw [Finset.sum_eq_single_of_mem 0 (by simp) fun c hc h0 => by rw [hF c (Finset.mem_range.1 hc) (by omega), zero_mul], hD.one t0 ht0, one_mul]
  unfold stdLL
  rw [← Finset.add_sum_erase _ _ (Finset.mem_range.2 ht0), hlin0]
  have h1 : (D.S t0 k : ℝ) * Real.log (w 0) ≤ Real.log (w 0) := by
    have hS1 : (1 : ℝ) ≤ D.S t0 k := by exact_mod_cast hS
    have := Real.log_neg hw0 hw1
    nlinarith
  have h2 : 0 < w 0 * dt := by positivity
  have h3 : ∑ t ∈ (range D.T).erase t0, ((D.S t k : ℝ) * Real.log (lin (1 + K * B) D.F w t) - lin (1 + K * B) D.F w t * dt) ≤ ∑ t ∈ (range D.T).erase t0, C t :=
    Finset.sum_le_sum fun t ht => by
      have ht := Finset.mem_range.1 (Finset.mem_erase.1 ht).2
      exact hC t _ (lt_of_lt_of_le hw0 (lin_ge_bias hD hw ht))
  linarith

theorem stdLL_sum_le_log {K B : ℕ} (l : List StdData) (hl : ∀ D ∈ l, StdDataOk K B D) {dt : ℝ} (hdt : 0 < dt) (k : ℕ)
    (hfr : ∃ D ∈ l, ∃ t < D.T, 0 < D.S t k ∧ ∀ c < 1 + K * B, 1 ≤ c → D.F t c = 0) :
    ∃ C, ∀ w, PosRow (1 + K * B) w → w 0 < 1 → (l.map fun D => stdLL dt (1 + K * B) k D w).sum ≤ C + Real.log (w 0) := by
  obtain ⟨D, hD, hfr⟩ := hfr
  obtain ⟨l1, l2, rfl⟩ := List.append_of_mem hD
  obtain ⟨C1, h1⟩ := stdLL_sum_le l1 (fun D hD => hl D (by simp [hD])) hdt k
  obtain ⟨C2, h2⟩ := stdLL_sum_le l2 (fun D hD => hl D (by simp [hD])) hdt k
  obtain ⟨C, h⟩ := stdLL_le_log (hl D hD) hdt k hfr
  refine ⟨C1 + C + C2, fun w hw hw1 => ?_⟩
  have e1 := h1 w hw
  have e2 := h2 w hw
  have e := h w hw hw1
  have hpos : 0 < dt / 2 * w 0 := by have := hw 0 (by omega); positivity
  rw [List.map_append, List.sum_append, List.map_cons, List.sum_cons]
  split at e1 <;> split at e2 <;> linarith

/-- the log posterior falls at least like a logarithm when a weight tends to zero -/
theorem stdLP_le_log {M : StdModel} (hM : StdOk M) (h1 : 1 < M.alpha) (hb : 0 < M.beta) (hdt : 0 < M.dt) (k : ℕ) (hfr : HasFreshEvent M k) :
    ∃ C, ∃ κ > 0, ∀ w, PosRow (1 + M.K * M.B) w → ∀ c < 1 + M.K * M.B, w c < 1 → stdLP M k w ≤ C + κ * Real.log (w c) := by
  obtain ⟨C1, e1⟩ := stdLL_sum_le M.data hM hdt k
  obtain ⟨C2, e2⟩ := stdLL_sum_le_log M.data hM hdt k hfr
  obtain ⟨C3, e3⟩ := log_le_slope (M.alpha - 1) M.beta (by linarith) hb
  have hpr : ∀ w, PosRow (1 + M.K * M.B) w → ∀ s ⊆ Ico 1 (1 + M.K * M.B), ∑ c ∈ s, ((M.alpha - 1) * Real.log (w c) - M.beta * w c) ≤ (M.K * M.B : ℕ) * |C3| := by
    intro w hw s hs
    have hle : ∑ c ∈ s, ((M.alpha - 1) * Real.log (w c) - M.beta * w c) ≤ ∑ c ∈ s, |C3| := Finset.sum_le_sum fun c hc => by
      have hwc := hw c (Finset.mem_Ico.1 (hs hc)).2
      have := e3 (w c) hwc
      have h2 : 0 < M.beta / 2 * w c := by positivity
      linarith [le_abs_self C3]
    rw [Finset.sum_const, nsmul_eq_mul] at hle
    refine hle.trans (mul_le_mul_of_nonneg_right ?_ (abs_nonneg _))
    have := Finset.card_le_card hs
    rw [Nat.card_Ico] at this
    exact_mod_cast this.trans (by omega)
  set N : ℝ := (M.K * M.B : ℕ) * |C3| with hN
  refine ⟨|C1| + |C2| + N, min 1 (M.alpha - 1), lt_min one_pos (by linarith), fun w hw c hc hw1 => ?_⟩
  have hwc := hw c hc
  have hlog : Real.log (w c) < 0 := Real.log_neg hwc hw1
  have hpos : 0 < M.dt / 2 * w 0 := by have := hw 0 (by omega); positivity
  have f1 := e1 w hw
  have a1 := le_abs_self C1
  have a2 := le_abs_self C2
  have b1 := abs_nonneg C1
  have b2 := abs_nonneg C2
  unfold stdLP
  by_cases h0 : c = 0
  · subst h0
    have f2 := e2 w hw hw1
    have f3 : stdPrior M.alpha M.beta (1 + M.K * M.B) w ≤ N := hpr w hw _ (Finset.Subset.refl _)
    have f4 : Real.log (w 0) ≤ min 1 (M.alpha - 1) * Real.log (w 0) := by
      nlinarith [min_le_left 1 (M.alpha - 1)]
    linarith
  · have hmem : c ∈ Ico 1 (1 + M.K * M.B) := Finset.mem_Ico.2 ⟨by omega, hc⟩
    have f3 : stdPrior M.alpha M.beta (1 + M.K * M.B) w ≤ (M.alpha - 1) * Real.log (w c) + N := by
      unfold stdPrior
      rw [← Finset.add_sum_erase _ _ hmem]
      have := hpr w hw _ (Finset.erase_subset c _)
      have h2 : 0 < M.beta * w c := by positivity
      linarith
    have f4 : (M.alpha - 1) * Real.log (w c) ≤ min 1 (M.alpha - 1) * Real.log (w c) := by
      nlinarith [min_le_right 1 (M.alpha - 1)]
    split at f1 <;> linarith

/-- **C97 (a solution exists).** With a Gamma prior of shape `alpha > 1` and rate `beta > 0`, a positive bin width and, for every process, an event in a bin that nothing precedes (an event in the first bin of a data set, say),
every problem that `fit_with_bfgs_logspace` passes to the optimiser has a solution. -/
theorem C97_optimum_exists {M : StdModel} (hM : StdOk M) (h1 : 1 < M.alpha) (hb : 0 < M.beta) (hdt : 0 < M.dt) (hfr : ∀ k < M.K, HasFreshEvent M k)
    (hself : M.allowSelf = false → ∀ k < M.K, ∀ c, IsSelf M.B k c → ∀ m ∈ M.wMax, 0 < M.weights k c ∧ M.weights k c ≤ m) :
    ∃ opt : ℕ → StdModel → Vec ℝ, ∀ k < M.K, ∀ u : Mat ℝ, LogFeasible M k (opt k { M with weights := u }) ∧
      ∀ y, LogFeasible M k y → ∃ a b, bfgsLogObjective { M with weights := u } k (opt k { M with weights := u }) = .ok a ∧ bfgsLogObjective { M with weights := u } k y = .ok b ∧ a ≤ b := by
  have key : ∀ k, ∃ x, k < M.K → LogFeasible M k x ∧ ∀ y, LogFeasible M k y → stdLP M k (fun c => Real.exp (y c)) ≤ stdLP M k fun c => Real.exp (x c) := by
    intro k
    by_cases hk : k < M.K
    swap
    · exact ⟨fun _ => 0, fun h => absurd h hk⟩
    have hT : ∃ D ∈ M.data, 0 < D.T := by
      obtain ⟨D, hD, t, ht, -⟩ := hfr k hk
      exact ⟨D, hD, by omega⟩
    obtain ⟨C1, κ1, hκ1, hup⟩ := stdLP_le hM h1.le hb hdt hT k
    obtain ⟨C2, κ2, hκ2, hlow⟩ := stdLP_le_log hM h1 hb hdt k (hfr k hk)
    set pinned : ℕ → Prop := fun c => M.allowSelf = false ∧ IsSelf M.B k c with hpin
    haveI : DecidablePred pinned := fun c => Classical.propDecidable _
    set cap : ℕ → Option ℝ := fun c => if 1 ≤ c then M.wMax.map Real.log else none with hcap
    set a : ℝ := match M.wMax with | none => 0 | some m => min 0 (Real.log m) with ha
    have ha_cap : ∀ c, ∀ m ∈ cap c, a ≤ m := by
      intro c m hm
      rw [hcap] at hm
      dsimp only at hm
      split at hm
      · cases h : M.wMax with
        | none => rw [h] at hm; cases hm
        | some m' =>
          rw [h] at hm
          rw [ha, h]
          have : Real.log m' = m := by simpa using hm
          rw [← this]
          exact min_le_right _ _
      · cases hm
    set x0 : Vec ℝ := fun c => if pinned c then Real.log (M.weights k c) else a with hx0
    set L0 := stdLP M k (fun c => Real.exp (x0 c)) with hL0
    set lo : ℝ := min (min a 0) ((L0 - C2) / κ2) with hlo
    set R : ℝ := max a ((C1 - L0) / κ1) with hR
    set hi : ℕ → ℝ := fun c => match cap c with | none => R | some m => min m R with hhi
    have hahi : ∀ c, a ≤ hi c := by
      intro c
      rw [hhi]
      dsimp only
      cases h : cap c with
      | none => exact le_max_left _ _
      | some m => exact le_min (ha_cap c m h) (le_max_left _ _)
    have hloa : lo ≤ a := (min_le_left _ _).trans (min_le_left _ _)
    set I : ℕ → Set ℝ := fun c => if pinned c then Set.Icc (Real.log (M.weights k c)) (Real.log (M.weights k c)) else Set.Icc lo (hi c) with hI
    have hcomp : IsCompact (Set.univ.pi I) := isCompact_univ_pi fun c => by
      rw [hI]; dsimp only; split <;> exact isCompact_Icc
    have hx0I : x0 ∈ Set.univ.pi I := fun c _ => by
      rw [hI, hx0]; dsimp only; split
      · exact ⟨le_rfl, le_rfl⟩
      · exact ⟨hloa, hahi c⟩
    have hbox : ∀ x ∈ Set.univ.pi I, LogFeasible M k x := by
      intro x hx
      constructor
      · intro c hc hc1 m hm
        have h := hx c (Set.mem_univ c)
        rw [hI] at h
        dsimp only at h
        split at h
        · next hp =>
          rw [Set.Icc_self] at h
          rw [show x c = _ from h]
          obtain ⟨p1, p2⟩ := hself hp.1 k hk c hp.2 m hm
          exact Real.log_le_log p1 p2
        · refine h.2.trans ?_
          rw [hhi]
          dsimp only
          have : cap c = some (Real.log m) := by
            rw [hcap]; dsimp only; rw [if_pos hc1, show M.wMax = some m from hm]; rfl
          rw [this]
          exact min_le_left _ _
      · intro hs c hc
        have h := hx c (Set.mem_univ c)
        rw [hI] at h
        dsimp only at h
        rw [if_pos ⟨hs, hc⟩, Set.Icc_self] at h
        exact h
    have hcont : Continuous fun x : ℕ → ℝ => stdLP M k fun c => Real.exp (x c) := by
      have h2 : Continuous fun x : ℕ → ℝ => (fun c => Real.exp (x c) : ℕ → ℝ) := continuous_pi fun c => Real.continuous_exp.comp (continuous_apply c)
      exact (stdLP_cont hM k).comp_continuous h2 fun x => expRow_pos _ x
    obtain ⟨x, hx, hmaxx⟩ := hcomp.exists_isMaxOn ⟨x0, hx0I⟩ hcont.continuousOn
    refine ⟨x, fun _ => ⟨hbox x hx, fun y hy => ?_⟩⟩
    have hx0x : L0 ≤ stdLP M k fun c => Real.exp (x c) := hmaxx hx0I
    by_cases hbig : ∃ c < 1 + M.K * M.B, R < y c
    · obtain ⟨c, hc, hyc⟩ := hbig
      have h2 := hup _ (expRow_pos _ y) c hc
      have h3 : (C1 - L0) / κ1 < Real.exp (y c) := lt_of_le_of_lt (le_max_right a _) (hyc.trans (by linarith [Real.add_one_le_exp (y c)]))
      rw [div_lt_iff₀ hκ1] at h3
      linarith
    by_cases hsmall : ∃ c < 1 + M.K * M.B, y c < lo
    · obtain ⟨c, hc, hyc⟩ := hsmall
      have hneg : y c < 0 := lt_of_lt_of_le hyc ((min_le_left _ _).trans (min_le_right _ _))
      have h2 := hlow _ (expRow_pos _ y) c hc (by rw [← Real.exp_zero]; exact Real.exp_lt_exp.2 hneg)
      rw [Real.log_exp] at h2
      have h3 : y c < (L0 - C2) / κ2 := lt_of_lt_of_le hyc (min_le_right _ _)
      rw [lt_div_iff₀ hκ2] at h3
      linarith
    push Not at hbig hsmall
    set y' : Vec ℝ := fun c => if c < 1 + M.K * M.B then y c else x0 c with hy'
    have hsame : stdLP M k (fun c => Real.exp (y' c)) = stdLP M k fun c => Real.exp (y c) := stdLP_congr fun c hc => by rw [hy']; dsimp only; rw [if_pos hc]
    rw [← hsame]
    refine hmaxx fun c _ => ?_
    rw [hy']
    dsimp only
    by_cases hc : c < 1 + M.K * M.B
    · rw [if_pos hc, hI]
      dsimp only
      split
      · next hp =>
        rw [hy.2 hp.1 c hp.2]; exact ⟨le_rfl, le_rfl⟩
      · refine ⟨hsmall c hc, ?_⟩
        rw [hhi]
        dsimp only
        cases h : cap c with
        | none => exact hbig c hc
        | some m =>
          refine le_min ?_ (hbig c hc)
          rw [hcap] at h
          dsimp only at h
          split at h
          · next hc1 =>
            cases hm : M.wMax with
            | none => rw [hm] at h; cases h
            | some m' =>
              rw [hm] at h
              have : Real.log m' = m := by simpa using h
              rw [← this]
              exact hy.1 c hc hc1 m' hm
          · cases h
    · rw [if_neg hc]
      exact hx0I c (Set.mem_univ c)
  choose x hx using key
  refine ⟨fun k _ => x k, fun k hk u => ⟨(hx k hk).1, fun y hy => ?_⟩⟩
  rw [logObjective_eq (M := { M with weights := u }) hM h1.le hk, logObjective_eq (M := { M with weights := u }) hM h1.le hk]
  exact ⟨_, _, rfl, rfl, neg_le_neg ((hx k hk).2 y hy)⟩

/-- **C97 (no solution without events).** For a process without events the problem has no solution at all: from every point a smaller bias gives a smaller objective. -/
theorem C97_no_events_no_solution {M : StdModel} (hM : StdOk M) (h1 : 1 ≤ M.alpha) (hdt : 0 < M.dt) {k : ℕ} (hk : k < M.K) (hT : ∃ D ∈ M.data, 0 < D.T) (hS : ∀ D ∈ M.data, ∀ t < D.T, D.S t k = 0)
    (x : Vec ℝ) (hx : LogFeasible M k x) : ∃ y, LogFeasible M k y ∧ ∃ a b, bfgsLogObjective M k y = .ok a ∧ bfgsLogObjective M k x = .ok b ∧ a < b := by
  set y : Vec ℝ := fun c => if c = 0 then x 0 - 1 else x c with hy
  have hyc : ∀ c, 1 ≤ c → y c = x c := fun c hc => by rw [hy]; dsimp only; rw [if_neg (by omega)]
  have hy0 : y 0 < x 0 := by rw [hy]; dsimp only; rw [if_pos rfl]; linarith
  refine ⟨y, ⟨fun c hc hc1 m hm => by rw [hyc c hc1]; exact hx.1 c hc hc1 m hm, fun hs c hc => by rw [hyc c (by have := hc.1; omega)]; exact hx.2 hs c hc⟩, _, _,
    logObjective_eq hM h1 hk y, logObjective_eq hM h1 hk x, neg_lt_neg ?_⟩
  have hpr : stdPrior M.alpha M.beta (1 + M.K * M.B) (fun c => Real.exp (y c)) = stdPrior M.alpha M.beta (1 + M.K * M.B) (fun c => Real.exp (x c)) := by
    unfold stdPrior
    exact Finset.sum_congr rfl fun c hc => by dsimp only; rw [hyc c (Finset.mem_Ico.1 hc).1]
  have hLL : ∀ D ∈ M.data, stdLL M.dt (1 + M.K * M.B) k D (fun c => Real.exp (x c)) + D.T * ((Real.exp (x 0) - Real.exp (y 0)) * M.dt) =
      stdLL M.dt (1 + M.K * M.B) k D (fun c => Real.exp (y c)) := by
    intro D hD
    unfold stdLL
    have e : (D.T : ℝ) * ((Real.exp (x 0) - Real.exp (y 0)) * M.dt) = ∑ t ∈ range D.T, (Real.exp (x 0) - Real.exp (y 0)) * M.dt := by
      rw [Finset.sum_const, card_range, nsmul_eq_mul]
    rw [e, ← Finset.sum_add_distrib]
    refine Finset.sum_congr rfl fun t ht => ?_
    have ht := Finset.mem_range.1 ht
    rw [hS D hD t ht]
    have hlin : lin (1 + M.K * M.B) D.F (fun c => Real.exp (x c)) t = lin (1 + M.K * M.B) D.F (fun c => Real.exp (y c)) t + (Real.exp (x 0) - Real.exp (y 0)) := by
      unfold lin
      rw [← Finset.add_sum_erase _ (fun c => D.F t c * Real.exp (x c)) (Finset.mem_range.2 (by omega : 0 < 1 + M.K * M.B)),
        ← Finset.add_sum_erase _ (fun c => D.F t c * Real.exp (y c)) (Finset.mem_range.2 (by omega : 0 < 1 + M.K * M.B)), (hM D hD).one t ht]
      have : ∑ c ∈ (range (1 + M.K * M.B)).erase 0, D.F t c * Real.exp (x c) = ∑ c ∈ (range (1 + M.K * M.B)).erase 0, D.F t c * Real.exp (y c) :=
        Finset.sum_congr rfl fun c hc => by rw [hyc c (by have := (Finset.mem_erase.1 hc).1; omega)]
      rw [this]
      ring
    rw [hlin]
    push_cast
    ring
  have hδ : 0 < (Real.exp (x 0) - Real.exp (y 0)) * M.dt := mul_pos (sub_pos.2 (Real.exp_lt_exp.2 hy0)) hdt
  unfold stdLP
  rw [hpr]
  refine add_lt_add_of_lt_of_le ?_ le_rfl
  refine List.sum_lt_sum _ _ (fun D hD => ?_) ?_
  · rw [← hLL D hD]
    have : (0:ℝ) ≤ D.T * ((Real.exp (x 0) - Real.exp (y 0)) * M.dt) := mul_nonneg (Nat.cast_nonneg _) hδ.le
    linarith
  · obtain ⟨D, hD, hpos⟩ := hT
    refine ⟨D, hD, ?_⟩
    rw [← hLL D hD]
    have : (0:ℝ) < D.T * ((Real.exp (x 0) - Real.exp (y 0)) * M.dt) := mul_pos (by exact_mod_cast hpos) hδ
    linarith

/-- a model with two processes, self connections disallowed, an upper bound on the weights and events in the first bin -/
noncomputable def logDemo : StdModel :=
  { K := 2, B := 1, L := 1, dt := 1, alpha := 2, beta := 3, allowSelf := false, wMax := some 5, basis := fun _ _ => 1, weights := fun i c => if c = 1 + i then 1e-32 else 1,
    data := [⟨2, fun t _ => 1 - t, 2, 3, fun t c => if c = 0 then 1 else t⟩] }

theorem logDemo_ok : StdOk logDemo ∧ (∀ k < 2, HasFreshEvent logDemo k) ∧ (∀ k < 2, PosRow 3 (logDemo.weights k)) := by
  refine ⟨?_, fun k _ => ?_, fun k _ c _ => ?_⟩
  · intro D hD
    rw [List.mem_singleton.1 hD]
    refine ⟨rfl, rfl, fun t _ => rfl, fun t _ c _ => ?_⟩
    dsimp only
    split
    · norm_num
    · exact Nat.cast_nonneg _
  · refine ⟨_, List.mem_singleton.2 rfl, 0, Nat.two_pos, Nat.one_pos, fun c _ hc => ?_⟩
    dsimp only
    rw [if_neg (by omega), Nat.cast_zero]
  · unfold logDemo
    dsimp only
    split <;> norm_num

/-- **Non-vacuity**: for the demo model there are optimisers as assumed, and the fit they give maximises the joint log posterior. -/
theorem C97_demo : ∃ opt M' v', fitBfgsLog opt logDemo = .ok M' ∧ stdLogPost M' .none .none = .ok v' ∧
    ∀ w : Mat ℝ, (∀ k < 2, ∀ c < 3, 0 < w k c ∧ (1 ≤ c → w k c ≤ 5) ∧ (c = 1 + k → w k c = 1e-32)) → ∃ v, stdLogPost { logDemo with weights := w } .none .none = .ok v ∧ v ≤ v' := by
  obtain ⟨hM, hfr, hw⟩ := logDemo_ok
  have hselfc : ∀ k c, IsSelf logDemo.B k c → c = 1 + k := fun k c hc => by
    have h1 : 1 + k * 1 ≤ c := hc.1
    have h2 : c < 1 + (k + 1) * 1 := hc.2
    omega
  obtain ⟨opt, hopt⟩ := C97_optimum_exists hM (by norm_num [logDemo]) (by norm_num [logDemo]) (by norm_num [logDemo]) hfr (by
    intro _ k hk c hc m hm
    rw [← Option.some.inj (Option.mem_def.1 hm)]
    have := hselfc k c hc
    norm_num [logDemo, this])
  obtain ⟨M', v', h2, h3, h4⟩ := C97_joint_maximum (M := logDemo) Nat.two_pos hM (by norm_num [logDemo]) hw (by
    intro m hm
    rw [← Option.some.inj (Option.mem_def.1 hm)]; norm_num) opt fun k hk u _ _ => hopt k hk u
  refine ⟨opt, M', v', h2, h3, fun w hwb => h4 w fun k hk c hc => ?_⟩
  obtain ⟨p1, p2, p3⟩ := hwb k hk c hc
  refine ⟨p1, fun hc1 m hm => ?_, fun _ hc' => ?_⟩
  · rw [← Option.some.inj (Option.mem_def.1 hm)]; exact p2 hc1
  · have := hselfc k c hc'
    rw [p3 this]
    norm_num [logDemo, this]

end PyHawkes
