import Verif.Props.SimulateMean
import Verif.Props.SimulateDemo
import Verif.Props.Stability

/-!
# C93: `check_stability` decides whether simulated data stay bounded in expectation
-/
set_option linter.unusedSectionVars false
set_option linter.unusedVariables false

namespace PyHawkes
open Finset Spec MeasureTheory ProbabilityTheory Filter Topology

section
variable {P : NetParams ℝ}

/-- total effect of basis functions of pair `(i, k)` at lag `l`, per event -/
noncomputable def lagKernel (P : NetParams ℝ) (i k l : ℕ) : ℝ := ∑ b ∈ range P.B, P.g i k b * (P.dt * P.basis l b)

theorem lagKernel_nonneg (h : UnitSim P) (hp : RateOk P) {i k l : ℕ} (hi : i < P.K) (hk : k < P.K) (hl : l < P.L) : 0 ≤ lagKernel P i k l :=
  sum_nonneg fun b hb => mul_nonneg ((hp.g i hi k hk).1 b (mem_range.1 hb)) (mul_nonneg h.dt.le (h.basis l hl b (mem_range.1 hb)))

theorem lagKernel_zero (h : UnitSim P) (i k : ℕ) : lagKernel P i k 0 = 0 :=
  sum_eq_zero fun b hb => by rw [h.causal b (mem_range.1 hb), mul_zero, mul_zero]

theorem lagKernel_sum (h : UnitSim P) (hp : RateOk P) {i k : ℕ} (hi : i < P.K) (hk : k < P.K) : ∑ l ∈ range P.L, lagKernel P i k l = 1 := by
  unfold lagKernel
  rw [sum_comm, ← (hp.g i hi k hk).2]
  refine sum_congr rfl fun b hb => ?_
  rw [← mul_sum, ← mul_sum, h.area b (mem_range.1 hb), mul_one]

/-- a solution of the mean equations, per unit of time -/
structure MeanSol (P : NetParams ℝ) (y : Mat ℝ) : Prop where
  eq : ∀ t, ∀ k < P.K, y t k = P.lam0 k + ∑ i ∈ range P.K, P.Weff i k * ∑ l ∈ range P.L, if l ≤ t then lagKernel P i k l * y (t - l) i else 0

theorem meanSol_of (h : UnitSim P) {m : Mat ℝ} (hm : ∀ t, ∀ k < P.K, m t k = rate P.K P.B P.lam0 P.Weff P.g (filtered P.L P.basis m) t k * P.dt) : MeanSol P fun t k => m t k / P.dt := by
  have hd := h.dt.ne'
  refine ⟨fun t k hk => ?_⟩
  rw [hm t k hk, mul_div_cancel_right₀ _ hd]
  unfold rate filtered lagKernel
  congr 1
  refine sum_congr rfl fun i _ => ?_
  rw [mul_sum]
  simp only [mul_sum]
  rw [sum_comm]
  refine sum_congr rfl fun l _ => ?_
  split_ifs
  · rw [sum_mul, mul_sum]
    refine sum_congr rfl fun b _ => ?_
    field_simp
  · simp

variable {y : Mat ℝ}

theorem MeanSol.nonneg (h : UnitSim P) (hp : RateOk P) (hy : MeanSol P y) (t : ℕ) : ∀ k < P.K, 0 ≤ y t k := by
  induction t using Nat.strong_induction_on with
  | _ t ih =>
    intro k hk
    rw [hy.eq t k hk]
    refine add_nonneg (hp.lam k hk).le (sum_nonneg fun i hi => mul_nonneg (hp.W i (mem_range.1 hi) k hk) (sum_nonneg fun l hl => ?_))
    split_ifs with hlt
    · rcases Nat.eq_zero_or_pos l with rfl | hl0
      · rw [lagKernel_zero h, zero_mul]
      · exact mul_nonneg (lagKernel_nonneg h hp (mem_range.1 hi) hk (mem_range.1 hl)) (ih _ (by omega) i (mem_range.1 hi))
    · exact le_rfl

theorem MeanSol.mono (h : UnitSim P) (hp : RateOk P) (hy : MeanSol P y) (t : ℕ) : ∀ k < P.K, y t k ≤ y (t + 1) k := by
  induction t using Nat.strong_induction_on with
  | _ t ih =>
    intro k hk
    rw [hy.eq t k hk, hy.eq (t + 1) k hk]
    refine add_le_add le_rfl (sum_le_sum fun i hi => mul_le_mul_of_nonneg_left (sum_le_sum fun l hl => ?_) (hp.W i (mem_range.1 hi) k hk))
    have hk0 := lagKernel_nonneg h hp (mem_range.1 hi) hk (mem_range.1 hl)
    by_cases hlt : l ≤ t
    · rw [if_pos hlt, if_pos (by omega)]
      rcases Nat.eq_zero_or_pos l with rfl | hl0
      · rw [lagKernel_zero h, zero_mul, zero_mul]
      · have := ih (t - l) (by omega) i (mem_range.1 hi)
        rw [show t - l + 1 = t + 1 - l by omega] at this
        exact mul_le_mul_of_nonneg_left this hk0
    · rw [if_neg hlt]
      split_ifs
      · exact mul_nonneg hk0 (hy.nonneg h hp _ i (mem_range.1 hi))
      · exact le_rfl

theorem MeanSol.le_fix (h : UnitSim P) (hp : RateOk P) (hy : MeanSol P y) {Y : Vec ℝ} (h0 : ∀ k < P.K, 0 ≤ Y k) (hY : ∀ k < P.K, Y k = P.lam0 k + ∑ i ∈ range P.K, Y i * P.Weff i k) (t : ℕ) : ∀ k < P.K, y t k ≤ Y k := by
  induction t using Nat.strong_induction_on with
  | _ t ih =>
    intro k hk
    rw [hy.eq t k hk, hY k hk]
    refine add_le_add le_rfl (sum_le_sum fun i hi => ?_)
    rw [mul_comm (Y i)]
    refine mul_le_mul_of_nonneg_left ?_ (hp.W i (mem_range.1 hi) k hk)
    rw [← one_mul (Y i), ← lagKernel_sum h hp (mem_range.1 hi) hk, sum_mul]
    refine sum_le_sum fun l hl => ?_
    have hk0 := lagKernel_nonneg h hp (mem_range.1 hi) hk (mem_range.1 hl)
    split_ifs with hlt
    · rcases Nat.eq_zero_or_pos l with rfl | hl0
      · rw [lagKernel_zero h, zero_mul, zero_mul]
      · exact mul_le_mul_of_nonneg_left (ih _ (by omega) i (mem_range.1 hi)) hk0
    · exact mul_nonneg hk0 (h0 i (mem_range.1 hi))

/-- a bounded solution converges to a stationary rate -/
theorem MeanSol.tendsto_fix (h : UnitSim P) (hp : RateOk P) (hy : MeanSol P y) {Y : Vec ℝ} (hlim : ∀ k < P.K, Tendsto (fun t => y t k) atTop (𝓝 (Y k))) : ∀ k < P.K, Y k = P.lam0 k + ∑ i ∈ range P.K, Y i * P.Weff i k := by
  intro k hk
  refine tendsto_nhds_unique (hlim k hk) ?_
  have e : (fun t => y t k) = fun t => P.lam0 k + ∑ i ∈ range P.K, P.Weff i k * ∑ l ∈ range P.L, if l ≤ t then lagKernel P i k l * y (t - l) i else 0 := funext fun t => hy.eq t k hk
  rw [e]
  refine tendsto_const_nhds.add (tendsto_finsetSum _ fun i hi => ?_)
  rw [mul_comm (Y i)]
  refine Tendsto.const_mul _ ?_
  have e2 : Y i = ∑ l ∈ range P.L, lagKernel P i k l * Y i := by rw [← sum_mul, lagKernel_sum h hp (mem_range.1 hi) hk, one_mul]
  rw [e2]
  refine tendsto_finsetSum _ fun l hl => ?_
  have h1 : Tendsto (fun t => lagKernel P i k l * y (t - l) i) atTop (𝓝 (lagKernel P i k l * Y i)) := ((hlim i (mem_range.1 hi)).comp (tendsto_sub_atTop_nat l)).const_mul _
  refine h1.congr' ?_
  filter_upwards [eventually_ge_atTop l] with t ht
  rw [if_pos ht]

theorem descendants_nonneg {K : ℕ} {W : Mat ℝ} (hW : ∀ i < K, ∀ j < K, 0 ≤ W i j) (n : ℕ) : ∀ i < K, ∀ j < K, 0 ≤ descendants K W n i j := by
  induction n with
  | zero => intro i _ j _; simp only [descendants]; split <;> norm_num
  | succ n ih =>
    intro i hi j hj
    simp only [descendants]
    exact sum_nonneg fun k hk => mul_nonneg (ih i hi k (mem_range.1 hk)) (hW k (mem_range.1 hk) j hj)

/-- a nonnegative stationary rate dominates the background events and their descendants of the first generations -/
theorem fix_ge (hp : RateOk P) {Y : Vec ℝ} (h0 : ∀ k < P.K, 0 ≤ Y k) (hY : ∀ k < P.K, Y k = P.lam0 k + ∑ i ∈ range P.K, Y i * P.Weff i k) (N : ℕ) : ∀ j < P.K, ∑ i ∈ range P.K, P.lam0 i * ∑ n ∈ range N, descendants P.K P.Weff n i j ≤ Y j := by
  induction N with
  | zero => intro j hj; simp only [range_zero, sum_empty, mul_zero, sum_const_zero]; exact h0 j hj
  | succ N ih =>
    intro j hj
    have e : ∑ i ∈ range P.K, P.lam0 i * ∑ n ∈ range (N + 1), descendants P.K P.Weff n i j = P.lam0 j + ∑ k ∈ range P.K, (∑ i ∈ range P.K, P.lam0 i * ∑ n ∈ range N, descendants P.K P.Weff n i k) * P.Weff k j := by
      have e0 : ∑ i ∈ range P.K, P.lam0 i * (if i = j then (1 : ℝ) else 0) = P.lam0 j := by
        simp only [mul_ite, mul_one, mul_zero]
        rw [sum_ite_eq' (range P.K) j, if_pos (mem_range.2 hj)]
      have e1 : ∀ i, ∑ n ∈ range (N + 1), descendants P.K P.Weff n i j = (if i = j then 1 else 0) + ∑ k ∈ range P.K, (∑ n ∈ range N, descendants P.K P.Weff n i k) * P.Weff k j := by
        intro i
        rw [sum_range_succ', add_comm]
        simp only [descendants]
        rw [sum_comm]
        simp only [sum_mul]
      simp only [e1, mul_add, sum_add_distrib, e0]
      congr 1
      simp only [sum_mul, mul_sum]
      rw [sum_comm]
      refine sum_congr rfl fun k _ => sum_congr rfl fun i _ => sum_congr rfl fun n _ => by ring
    rw [e, hY j hj]
    exact add_le_add le_rfl (sum_le_sum fun k hk => mul_le_mul_of_nonneg_right (ih k (mem_range.1 hk)) (hp.W k (mem_range.1 hk) j hj))

theorem finite_of_fix (hp : RateOk P) {Y : Vec ℝ} (h0 : ∀ k < P.K, 0 ≤ Y k) (hY : ∀ k < P.K, Y k = P.lam0 k + ∑ i ∈ range P.K, Y i * P.Weff i k) : FiniteCascades P.K P.Weff := by
  intro i hi j hj
  refine summable_of_sum_range_le (c := Y j / P.lam0 i) (fun n => descendants_nonneg hp.W n i hi j hj) fun N => ?_
  rw [le_div_iff₀ (hp.lam i hi), mul_comm]
  refine le_trans ?_ (fix_ge hp h0 hY N j hj)
  exact single_le_sum (f := fun i => P.lam0 i * ∑ n ∈ range N, descendants P.K P.Weff n i j) (fun i' hi' => mul_nonneg (hp.lam i' (mem_range.1 hi')).le (sum_nonneg fun n _ => descendants_nonneg hp.W n i' (mem_range.1 hi') j hj)) (mem_range.2 hi)

/-- bounded solutions converge -/
theorem MeanSol.limit (h : UnitSim P) (hp : RateOk P) (hy : MeanSol P y) {C : ℝ} (hC : ∀ t, ∀ k < P.K, y t k ≤ C) :
    ∃ Y : Vec ℝ, (∀ k < P.K, Tendsto (fun t => y t k) atTop (𝓝 (Y k))) ∧ (∀ k < P.K, 0 ≤ Y k) ∧ ∀ k < P.K, Y k = P.lam0 k + ∑ i ∈ range P.K, Y i * P.Weff i k := by
  have hl : ∀ k < P.K, Tendsto (fun t => y t k) atTop (𝓝 (⨆ t, y t k)) := fun k hk => tendsto_atTop_ciSup (monotone_nat_of_le_succ fun t => hy.mono h hp t k hk) ⟨C, by rintro _ ⟨t, rfl⟩; exact hC t k hk⟩
  exact ⟨fun k => ⨆ t, y t k, hl, fun k hk => ge_of_tendsto' (hl k hk) fun t => hy.nonneg h hp t k hk, hy.tendsto_fix h hp hl⟩

/-- the stationary rate in terms of cascade sizes -/
theorem stationary_fix (hp : RateOk P) {X : Mat ℝ} (hX : ∀ i < P.K, ∀ j < P.K, X i j = (if i = j then 1 else 0) + ∑ k ∈ range P.K, X i k * P.Weff k j) : ∀ k < P.K, ∑ i ∈ range P.K, P.lam0 i * X i k = P.lam0 k + ∑ j ∈ range P.K, (∑ i ∈ range P.K, P.lam0 i * X i j) * P.Weff j k := by
  intro k hk
  have e0 : ∑ i ∈ range P.K, P.lam0 i * (if i = k then (1 : ℝ) else 0) = P.lam0 k := by
    simp only [mul_ite, mul_one, mul_zero]
    rw [sum_ite_eq' (range P.K) k, if_pos (mem_range.2 hk)]
  have e1 : ∑ i ∈ range P.K, P.lam0 i * X i k = ∑ i ∈ range P.K, (P.lam0 i * (if i = k then (1 : ℝ) else 0) + P.lam0 i * ∑ j ∈ range P.K, X i j * P.Weff j k) :=
    sum_congr rfl fun i hi => by rw [hX i (mem_range.1 hi) k hk, mul_add]
  rw [e1, sum_add_distrib, e0]
  congr 1
  simp only [sum_mul, mul_sum]
  rw [sum_comm]
  exact sum_congr rfl fun j _ => sum_congr rfl fun i _ => by ring

end

section
variable {U Ω : Type*} [MeasurableSpace U] [MeasurableSpace Ω] {μ : Measure U} {Pr : Measure Ω} (Ps : PoissonSampler μ) {P : NetParams ℝ}

theorem mean_sol [IsProbabilityMeasure Pr] (h : UnitSim P) (hp : RateOk P) {x : Ω → ℕ × ℕ × ℕ → U} (hi : iIndepFun (fun σ ω => x ω σ) Pr) (hl : ∀ σ, HasLaw (fun ω => x ω σ) μ Pr) (i : ℕ)
    {S : ℕ → Ω → Mat ℕ} (hS : ∀ T, 0 < T → ∀ ω, Simulates P (Ps.draws (x ω) i) T (S T ω)) :
    MeanSol P (fun t k => (∫ ω, (S (t + 1) ω t k : ℝ) ∂Pr) / P.dt) ∧ ∀ T t, t < T → ∀ k < P.K, ∫ ω, (S T ω t k : ℝ) ∂Pr = ∫ ω, (S (t + 1) ω t k : ℝ) ∂Pr := by
  have e : ∀ T t, t < T → ∀ k < P.K, ∫ ω, (S T ω t k : ℝ) ∂Pr = ∫ ω, (S (t + 1) ω t k : ℝ) ∂Pr := fun T t ht k hk => integral_congr_ae (Eventually.of_forall fun ω => by
    dsimp only
    rw [simulates_hist Ps h.toSimOk hp (by omega) (hS T (by omega) ω) ht hk, simulates_hist Ps h.toSimOk hp (by omega) (hS (t + 1) (by omega) ω) (by omega) hk])
  refine ⟨meanSol_of h (m := fun t k => ∫ ω, (S (t + 1) ω t k : ℝ) ∂Pr) fun t k hk => ?_, e⟩
  rw [(C93_expected_counts Ps h.toSimOk hp hi hl i (hS (t + 1) (by omega)) (by omega) hk).2,
    rate_causal (P := P) h.causal (S := fun t' k => ∫ ω, (S (t + 1) ω t' k : ℝ) ∂Pr) (s := fun t k => ∫ ω, (S (t + 1) ω t k : ℝ) ∂Pr) (t := t) (fun t' ht' k' hk' => e (t + 1) t' (by omega) k' hk') k]

/-- **C93 (stationary rate).** If `check_stability()` returns `True`, the expected rate of every process in simulated data increases from bin to bin and converges to the stationary rate: the background rates times the expected sizes of the cascades they start, which solve `X = 1 + X W`. -/
theorem C93_stationary_rate [IsProbabilityMeasure Pr] (h : UnitSim P) (hp : RateOk P) (h100 : P.K < 100) {x : Ω → ℕ × ℕ × ℕ → U} (hi : iIndepFun (fun σ ω => x ω σ) Pr) (hl : ∀ σ, HasLaw (fun ω => x ω σ) μ Pr) (i : ℕ)
    {S : ℕ → Ω → Mat ℕ} (hS : ∀ T, 0 < T → ∀ ω, Simulates P (Ps.draws (x ω) i) T (S T ω)) (sp : ℕ → Mat ℝ → ℂ) (hst : checkStability sp P.K P.Weff = .ok true) :
    ∃ X : Mat ℝ, (∀ i < P.K, ∀ j < P.K, HasSum (fun n => descendants P.K P.Weff n i j) (X i j)) ∧
      (∀ i < P.K, ∀ j < P.K, X i j = (if i = j then 1 else 0) + ∑ k ∈ range P.K, X i k * P.Weff k j) ∧
      ∀ k < P.K, (Monotone fun t => ∫ ω, (S (t + 1) ω t k : ℝ) ∂Pr) ∧
        Tendsto (fun t => (∫ ω, (S (t + 1) ω t k : ℝ) ∂Pr) / P.dt) atTop (𝓝 (∑ j ∈ range P.K, P.lam0 j * X j k)) ∧
        ∀ T t, t < T → ∫ ω, (S T ω t k : ℝ) ∂Pr ≤ (∑ j ∈ range P.K, P.lam0 j * X j k) * P.dt := by
  obtain ⟨hy, he⟩ := mean_sol Ps h hp hi hl i hS
  obtain ⟨X, hX, hX0, hXe⟩ := C75_cascade_size h.K h100 sp hp.W hst
  have hY0 : ∀ k < P.K, 0 ≤ ∑ j ∈ range P.K, P.lam0 j * X j k := fun k hk => sum_nonneg fun j hj => mul_nonneg (hp.lam j (mem_range.1 hj)).le (hX0 j (mem_range.1 hj) k hk)
  have hle := hy.le_fix h hp (Y := fun k => ∑ j ∈ range P.K, P.lam0 j * X j k) hY0 (stationary_fix hp hXe)
  refine ⟨X, hX, hXe, fun k hk => ⟨?_, ?_, ?_⟩⟩
  · refine monotone_nat_of_le_succ fun t => ?_
    exact (div_le_div_iff_of_pos_right h.dt).1 (hy.mono h hp t k hk)
  · obtain ⟨Y, hlim, hY0', hYe⟩ := hy.limit h hp (C := ∑ k ∈ range P.K, ∑ j ∈ range P.K, P.lam0 j * X j k) fun t k hk => (hle t k hk).trans (single_le_sum (f := fun k => ∑ j ∈ range P.K, P.lam0 j * X j k) (fun k' hk' => hY0 k' (mem_range.1 hk')) (mem_range.2 hk))
    have h1 : Y k ≤ ∑ j ∈ range P.K, P.lam0 j * X j k := le_of_tendsto' (hlim k hk) fun t => hle t k hk
    have h2 : ∑ j ∈ range P.K, P.lam0 j * X j k ≤ Y k := by
      have hlim2 : Tendsto (fun N => ∑ j ∈ range P.K, P.lam0 j * ∑ n ∈ range N, descendants P.K P.Weff n j k) atTop (𝓝 (∑ j ∈ range P.K, P.lam0 j * X j k)) :=
        tendsto_finsetSum _ fun j hj => (hX j (mem_range.1 hj) k hk).tendsto_sum_nat.const_mul _
      exact le_of_tendsto' hlim2 fun N => fix_ge hp hY0' hYe N k hk
    rw [le_antisymm h2 h1]
    exact hlim k hk
  · intro T t ht
    rw [he T t ht k hk]
    exact (div_le_iff₀ h.dt).1 (hle t k hk)

/-- **C93.** `check_stability()` returns `True` exactly if the expected counts of simulated data stay bounded however long the simulation. -/
theorem C93_stable_iff_bounded [IsProbabilityMeasure Pr] (h : UnitSim P) (hp : RateOk P) (h100 : P.K < 100) {x : Ω → ℕ × ℕ × ℕ → U} (hi : iIndepFun (fun σ ω => x ω σ) Pr) (hl : ∀ σ, HasLaw (fun ω => x ω σ) μ Pr) (i : ℕ)
    {S : ℕ → Ω → Mat ℕ} (hS : ∀ T, 0 < T → ∀ ω, Simulates P (Ps.draws (x ω) i) T (S T ω)) (sp : ℕ → Mat ℝ → ℂ) :
    checkStability sp P.K P.Weff = .ok true ↔ ∃ C : ℝ, ∀ T, ∀ t < T, ∀ k < P.K, ∫ ω, (S T ω t k : ℝ) ∂Pr ≤ C := by
  obtain ⟨hy, he⟩ := mean_sol Ps h hp hi hl i hS
  constructor
  · intro hst
    obtain ⟨X, hX, -, hk⟩ := C93_stationary_rate Ps h hp h100 hi hl i hS sp hst
    have h0 : ∀ k ∈ range P.K, 0 ≤ (∑ j ∈ range P.K, P.lam0 j * X j k) * P.dt := fun k hk => mul_nonneg (sum_nonneg fun j hj => mul_nonneg (hp.lam j (mem_range.1 hj)).le ((hX j (mem_range.1 hj) k (mem_range.1 hk)).nonneg fun n => descendants_nonneg hp.W n j (mem_range.1 hj) k (mem_range.1 hk))) h.dt.le
    exact ⟨∑ k ∈ range P.K, (∑ j ∈ range P.K, P.lam0 j * X j k) * P.dt, fun T t ht k hk' => ((hk k hk').2.2 T t ht).trans (single_le_sum (f := fun k => (∑ j ∈ range P.K, P.lam0 j * X j k) * P.dt) h0 (mem_range.2 hk'))⟩
  · rintro ⟨C, hC⟩
    obtain ⟨Y, -, hY0, hYe⟩ := hy.limit h hp (C := C / P.dt) fun t k hk => (div_le_div_iff_of_pos_right h.dt).2 (hC (t + 1) t (by omega) k hk)
    exact (C75_stable_iff_finite_cascades h.K h100 sp hp.W).2 (finite_of_fix hp hY0 hYe)

/-- **C93 (explosion).** If `check_stability()` returns `False`, the expected counts of some process grow without bound. -/
theorem C93_unstable_explodes [IsProbabilityMeasure Pr] (h : UnitSim P) (hp : RateOk P) (h100 : P.K < 100) {x : Ω → ℕ × ℕ × ℕ → U} (hi : iIndepFun (fun σ ω => x ω σ) Pr) (hl : ∀ σ, HasLaw (fun ω => x ω σ) μ Pr) (i : ℕ)
    {S : ℕ → Ω → Mat ℕ} (hS : ∀ T, 0 < T → ∀ ω, Simulates P (Ps.draws (x ω) i) T (S T ω)) (sp : ℕ → Mat ℝ → ℂ) (hst : checkStability sp P.K P.Weff = .ok false) :
    ∃ k < P.K, Tendsto (fun t => ∫ ω, (S (t + 1) ω t k : ℝ) ∂Pr) atTop atTop := by
  obtain ⟨hy, he⟩ := mean_sol Ps h hp hi hl i hS
  by_contra hno
  push Not at hno
  have hm : ∀ k < P.K, Monotone fun t => ∫ ω, (S (t + 1) ω t k : ℝ) ∂Pr := fun k hk => monotone_nat_of_le_succ fun t => (div_le_div_iff_of_pos_right h.dt).1 (hy.mono h hp t k hk)
  have hb : ∀ k, ∃ C, k < P.K → ∀ t, ∫ ω, (S (t + 1) ω t k : ℝ) ∂Pr ≤ C := by
    intro k
    by_cases hk : k < P.K
    · have h1 : ¬ ∀ b : ℝ, ∃ t : ℕ, b ≤ ∫ ω, (S (t + 1) ω t k : ℝ) ∂Pr := fun hh => hno k hk (tendsto_atTop_atTop_of_monotone (hm k hk) hh)
      push Not at h1
      obtain ⟨C, hC⟩ := h1
      exact ⟨C, fun _ t => (hC t).le⟩
    · exact ⟨0, fun hk' => absurd hk' hk⟩
  choose C hC using hb
  have : checkStability sp P.K P.Weff = .ok true := by
    rw [C93_stable_iff_bounded Ps h hp h100 hi hl i hS sp]
    refine ⟨∑ k ∈ range P.K, C k, fun T t ht k hk => ?_⟩
    rw [he T t ht k hk]
    have hC0 : ∀ k' ∈ range P.K, 0 ≤ C k' := fun k' hk' => (integral_nonneg fun ω => Nat.cast_nonneg _).trans (hC k' (mem_range.1 hk') 0)
    exact (hC k hk t).trans (single_le_sum hC0 (mem_range.2 hk))
  rw [this] at hst
  exact Bool.noConfusion (Except.ok.inj hst)

end

/-- **Hypotheses of C93 are met**: for every usable model there are a probability space, a Poisson sampler and independent seeds, and `generate(T)` succeeds for every `T > 0`. -/
theorem C93_hypotheses_met {P : NetParams ℝ} (h : UnitSim P) (hp : RateOk P) :
    ∃ (Ω : Type) (_ : MeasurableSpace Ω) (Pr : Measure Ω) (_ : IsProbabilityMeasure Pr) (Ps : PoissonSampler (volume : Measure unitInterval)) (x : Ω → ℕ × ℕ × ℕ → unitInterval) (S : ℕ → Ω → Mat ℕ),
      iIndepFun (fun σ ω => x ω σ) Pr ∧ (∀ σ, HasLaw (fun ω => x ω σ) volume Pr) ∧ ∀ T, 0 < T → ∀ ω, Simulates P (Ps.draws (x ω) 0) T (S T ω) := by
  obtain ⟨Ω, i1, Pr, i2, Ps, θ, x, h1, h2⟩ := C91_hypotheses_met (simCfg (T := 3) (by decide))
  refine ⟨Ω, i1, Pr, i2, Ps, x, fun T ω => simHist Ps P (fun σ => x ω (0, σ)) T, h2.indep, h2.law, fun T hT ω => ?_⟩
  rw [simulates_iff h.toSimOk hp _ hT]
  intro t ht k hk
  dsimp only
  rw [simHist_stable Ps _ ht]
  simp only [simHist, if_true, if_pos hk]
  unfold PoissonSampler.draws
  rw [rate_causal (P := P) h.causal (S := fun t k => (simHist Ps P (fun σ => x ω (0, σ)) T t k : ℝ)) (s := fun t' k => (simHist Ps P (fun σ => x ω (0, σ)) t t' k : ℝ)) (t := t) (fun t' ht' k' hk' => by
    rw [simHist_stable Ps _ (by omega : t' < T), simHist_stable Ps _ ht']) k]

/-- a stable model: all weights 1/4, so that the expected rates converge to 2 -/
example : ∃ (Ω : Type) (_ : MeasurableSpace Ω) (Pr : Measure Ω) (_ : IsProbabilityMeasure Pr) (Ps : PoissonSampler (volume : Measure unitInterval)) (x : Ω → ℕ × ℕ × ℕ → unitInterval) (S : ℕ → Ω → Mat ℕ),
    (∀ T, 0 < T → ∀ ω, Simulates { simBase with Weff := fun _ _ => 1 / 4 } (Ps.draws (x ω) 0) T (S T ω)) ∧ ∀ k < 2, Tendsto (fun t => (∫ ω, (S (t + 1) ω t k : ℝ) ∂Pr)) atTop (𝓝 2) := by
  have h : UnitSim { simBase with Weff := fun _ _ => 1 / 4 } := ⟨⟨simBase_ok.1.K, simBase_ok.1.B, simBase_ok.1.L, rfl, simBase_ok.1.dt, simBase_ok.1.basis, simBase_ok.1.causal⟩, simBase_ok.1.area⟩
  have hp : RateOk { simBase with Weff := fun _ _ => 1 / 4 } := ⟨simBase_ok.2.lam, fun _ _ _ _ => by norm_num, simBase_ok.2.g⟩
  obtain ⟨Ω, i1, Pr, i2, Ps, x, S, a, b, d⟩ := C93_hypotheses_met h hp
  refine ⟨Ω, i1, Pr, i2, Ps, x, S, d, ?_⟩
  have hst : checkStability (fun _ _ => 0) 2 (fun _ _ => 1 / 4) = .ok true := by
    have hW : ∀ i < 2, ∀ j < 2, (0:ℝ) ≤ (fun _ _ => 1/4 : Mat ℝ) i j := fun i _ j _ => by norm_num
    rw [C75_stable_iff_finite_cascades (by norm_num) (by norm_num) _ hW, finite_iff hW]
    intro z hz
    have := eigen_le_rowsum (c := 1/2) hW (fun i hi => by rw [Finset.sum_range_succ, Finset.sum_range_one]; norm_num) hz
    have := Complex.re_le_norm z
    linarith
  obtain ⟨X, -, hX, hk⟩ := C93_stationary_rate Ps h hp (by change 2 < 100; norm_num) a b 0 d (fun _ _ => 0) hst
  have hf := stationary_fix hp hX
  have e0 := hf 0 (by change 0 < 2; norm_num)
  have e1 := hf 1 (by change 1 < 2; norm_num)
  intro k hk2
  have ht := (hk k hk2).2.1
  simp only [simBase, sum_range_succ, range_zero, sum_empty, zero_add, one_mul, div_one] at e0 e1 ht
  have e2 : X 0 k + X 1 k = 2 := by interval_cases k <;> linarith
  rw [e2] at ht
  exact ht

/-- at the edge of stability (all weights 1/2, largest eigenvalue 1) the check returns `False`, and simulated data explode -/
example : ∃ (Ω : Type) (_ : MeasurableSpace Ω) (Pr : Measure Ω) (_ : IsProbabilityMeasure Pr) (Ps : PoissonSampler (volume : Measure unitInterval)) (x : Ω → ℕ × ℕ × ℕ → unitInterval) (S : ℕ → Ω → Mat ℕ),
    (∀ T, 0 < T → ∀ ω, Simulates simBase (Ps.draws (x ω) 0) T (S T ω)) ∧ ∃ k < 2, Tendsto (fun t => (∫ ω, (S (t + 1) ω t k : ℝ) ∂Pr)) atTop atTop := by
  obtain ⟨Ω, i1, Pr, i2, Ps, x, S, a, b, d⟩ := C93_hypotheses_met simBase_ok.1 simBase_ok.2
  refine ⟨Ω, i1, Pr, i2, Ps, x, S, d, ?_⟩
  refine C93_unstable_explodes Ps simBase_ok.1 simBase_ok.2 (by change 2 < 100; norm_num) a b 0 d (fun _ _ => 0) ?_
  change checkStability _ 2 (fun _ _ => 1 / 2) = .ok false
  obtain ⟨b, hb, hiff⟩ := C47_true_iff (K := 2) (by norm_num) (by norm_num) (fun _ _ => 0) (fun _ _ => 1 / 2)
  rw [hb]
  cases b with
  | false => rfl
  | true =>
    have := hiff.1 rfl 1 ⟨fun _ => 1, ⟨0, by norm_num, one_ne_zero⟩, fun i hi => by rw [Finset.sum_range_succ, Finset.sum_range_one]; norm_num⟩
    norm_num at this

end PyHawkes
