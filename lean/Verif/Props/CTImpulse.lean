import Verif.Spec.CTImpulse
import Verif.Props.CTStats
import Mathlib.MeasureTheory.Function.JacobianOneDim
import Mathlib.MeasureTheory.Integral.IntervalIntegral.Basic
import Mathlib.Analysis.SpecialFunctions.Log.Deriv
/-!
# C31, C34, C58: impulse responses, integrated rates, `logit`
-/
set_option linter.unusedSectionVars false

namespace PyHawkes
open Finset Spec MeasureTheory ProbabilityTheory

/-! ### C58 -/

/-- **C58 (left inverse).** -/
theorem C58_logit_logistic (m : ℝ) (hm : 0 < m) (x : ℝ) : pyLogit (pyLogistic x m) m = x := by
  unfold pyLogit pyLogistic
  have h1 : 0 < 1 + Real.exp (-x) := by positivity
  have e1 : m * 1 / (1 + Real.exp (-x)) / m = 1 / (1 + Real.exp (-x)) := by field_simp
  have e2 : 1 - 1 / (1 + Real.exp (-x)) = Real.exp (-x) / (1 + Real.exp (-x)) := by field_simp; ring
  rw [e1, e2, Real.log_div one_ne_zero h1.ne', Real.log_div (Real.exp_pos _).ne' h1.ne', Real.log_exp, Real.log_one]
  ring

/-- **C58 (right inverse).** -/
theorem C58_logistic_logit (m : ℝ) (hm : 0 < m) (y : ℝ) (h0 : 0 < y) (h1 : y < m) : pyLogistic (pyLogit y m) m = y := by
  unfold pyLogit pyLogistic
  have hp : 0 < y / m := div_pos h0 hm
  have hq : 0 < 1 - y / m := by rw [sub_pos, div_lt_one hm]; exact h1
  rw [neg_sub, Real.exp_sub, Real.exp_log hp, Real.exp_log hq]
  have hmy : 0 < m - y := by linarith
  field_simp
  ring

/-- **C58 (range).** -/
theorem C58_logistic_range (m : ℝ) (hm : 0 < m) (x : ℝ) : 0 < pyLogistic x m ∧ pyLogistic x m < m := by
  unfold pyLogistic
  have := Real.exp_pos (-x)
  constructor
  · positivity
  · rw [div_lt_iff₀ (by positivity)]
    nlinarith

/-- **C58 (monotone).** -/
theorem C58_logistic_increasing (m : ℝ) (hm : 0 < m) : StrictMono fun x => pyLogistic x m := by
  intro x y hxy
  unfold pyLogistic
  have h1 := Real.exp_pos (-y)
  have h2 : Real.exp (-y) < Real.exp (-x) := Real.exp_lt_exp.2 (by linarith)
  simp only [mul_one]
  exact div_lt_div_of_pos_left hm (by positivity) (by linarith)

/-! ### C31 -/

theorem logit_hasDeriv (d s : ℝ) (h0 : 0 < s) (h1 : s < d) : HasDerivAt (fun s => pyLogit (s / d) 1) (d / (s * (d - s))) s := by
  have hd : 0 < d := h0.trans h1
  have hp : s / d / 1 ≠ 0 := by rw [div_one]; exact (div_pos h0 hd).ne'
  have hq : 1 - s / d / 1 ≠ 0 := by
    rw [div_one]; have : s / d < 1 := (div_lt_one hd).2 h1
    linarith
  unfold pyLogit
  have e1 : HasDerivAt (fun s : ℝ => s / d / 1) (1 / d / 1) s := ((hasDerivAt_id s).div_const d).div_const 1
  have e2 := e1.log hp
  have e3 := (e1.const_sub 1).log hq
  have h2 : d - s ≠ 0 := by linarith
  have h3 : s ≠ 0 := h0.ne'
  have h4 : d ≠ 0 := hd.ne'
  have e : 1 - s / d / 1 = (d - s) / d := by rw [div_one, sub_div, div_self h4]
  have key : d / (s * (d - s)) = 1 / d / 1 / (s / d / 1) - -(1 / d / 1) / (1 - s / d / 1) := by
    rw [e]
    field_simp
    ring
  rw [key]
  exact e2.sub e3

theorem logit_injOn (d : ℝ) : Set.InjOn (fun s => pyLogit (s / d) 1) (Set.Ioo 0 d) := by
  intro a ha b hb hab
  have hd : 0 < d := ha.1.trans ha.2
  dsimp only at hab
  have h1 := C58_logistic_logit 1 one_pos (a / d) (div_pos ha.1 hd) ((div_lt_one hd).2 ha.2)
  have h2 := C58_logistic_logit 1 one_pos (b / d) (div_pos hb.1 hd) ((div_lt_one hd).2 hb.2)
  rw [hab, h2] at h1
  exact ((div_left_inj' hd.ne').1 h1).symm

theorem logit_image (d : ℝ) (hd : 0 < d) : (fun s => pyLogit (s / d) 1) '' Set.Ioo 0 d = Set.univ := by
  rw [Set.eq_univ_iff_forall]
  intro x
  have h := C58_logistic_range 1 one_pos x
  refine ⟨d * pyLogistic x 1, ⟨mul_pos hd h.1, ?_⟩, ?_⟩
  · nlinarith [h.2]
  · dsimp only
    rw [mul_div_cancel_left₀ _ hd.ne', C58_logit_logistic 1 one_pos]

/-- the impulse response is the density of a logistic-transformed normal variable -/
theorem pyImpulse_eq (mu tau d s : ℝ) (ht : 0 < tau) (h0 : 0 < s) (h1 : s < d) :
    pyImpulse mu tau d s = |d / (s * (d - s))| * gaussianPDFReal mu (1 / tau).toNNReal (pyLogit (s / d) 1) := by
  have hd : 0 < d := h0.trans h1
  have hds : 0 < d - s := by linarith
  unfold pyImpulse gaussianPDFReal
  dsimp only
  rw [abs_of_pos (by positivity), Real.coe_toNNReal _ (by positivity)]
  have e : 2 * Real.pi * (1 / tau) = 2 * Real.pi / tau := by ring
  rw [e]
  have e2 : -(pyLogit (s / d) 1 - mu) ^ 2 / (2 * (1 / tau)) = -tau / 2 * (pyLogit (s / d) 1 - mu) ^ 2 := by field_simp
  rw [e2]
  have : 0 < Real.sqrt (2 * Real.pi / tau) := Real.sqrt_pos.2 (by positivity)
  field_simp

/-- **C31 (unit area).** For every mean, positive precision and window, the impulse response integrates to one over `(0, dt_max)`. -/
theorem C31_unit_area (mu tau d : ℝ) (ht : 0 < tau) (hd : 0 < d) : ∫ s in Set.Ioo 0 d, pyImpulse mu tau d s = 1 := by
  have h := integral_image_eq_integral_abs_deriv_smul (s := Set.Ioo 0 d) (f := fun s => pyLogit (s / d) 1) (f' := fun s => d / (s * (d - s)))
    measurableSet_Ioo (fun s hs => (logit_hasDeriv d s hs.1 hs.2).hasDerivWithinAt) (logit_injOn d) (gaussianPDFReal mu (1 / tau).toNNReal)
  rw [logit_image d hd, setIntegral_univ, integral_gaussianPDFReal_eq_one _ (by simpa using ht)] at h
  rw [h]
  refine setIntegral_congr_fun measurableSet_Ioo fun s hs => ?_
  rw [pyImpulse_eq mu tau d s ht hs.1 hs.2, smul_eq_mul]

theorem pyImpulse_integrable (mu tau d : ℝ) (ht : 0 < tau) (hd : 0 < d) : IntegrableOn (pyImpulse mu tau d) (Set.Ioo 0 d) volume := by
  by_contra h
  have := C31_unit_area mu tau d ht hd
  rw [integral_undef h] at this
  exact zero_ne_one this

theorem pyImpulse_nonneg (mu tau d s : ℝ) (ht : 0 < tau) (h0 : 0 < s) (h1 : s < d) : 0 ≤ pyImpulse mu tau d s := by
  rw [pyImpulse_eq mu tau d s ht h0 h1]
  exact mul_nonneg (abs_nonneg _) (gaussianPDFReal_nonneg _ _ _)

/-- the impulse response started by an event at `s0`, as a function on the whole line -/
noncomputable def shifted (mu tau d s0 : ℝ) : ℝ → ℝ := (Set.Ioo s0 (s0 + d)).indicator fun t => pyImpulse mu tau d (t - s0)

theorem shifted_eq (mu tau d s0 t : ℝ) : shifted mu tau d s0 t = (Set.Ioo 0 d).indicator (pyImpulse mu tau d) (t - s0) := by
  unfold shifted Set.indicator
  have : t ∈ Set.Ioo s0 (s0 + d) ↔ t - s0 ∈ Set.Ioo 0 d := by
    simp only [Set.mem_Ioo]; constructor <;> rintro ⟨a, b⟩ <;> constructor <;> linarith
  by_cases h : t ∈ Set.Ioo s0 (s0 + d)
  · rw [if_pos h, if_pos (this.1 h)]
  · rw [if_neg h, if_neg (fun hc => h (this.2 hc))]

theorem shifted_integrable (mu tau d s0 : ℝ) (ht : 0 < tau) (hd : 0 < d) : Integrable (shifted mu tau d s0) volume := by
  have h := (pyImpulse_integrable mu tau d ht hd).integrable_indicator measurableSet_Ioo
  have := h.comp_sub_right s0
  refine this.congr (Filter.Eventually.of_forall fun t => (shifted_eq mu tau d s0 t).symm)

theorem shifted_integral (mu tau d s0 : ℝ) (ht : 0 < tau) (hd : 0 < d) : ∫ t, shifted mu tau d s0 t = 1 := by
  simp only [shifted_eq]
  rw [integral_sub_right_eq_self (fun t => (Set.Ioo 0 d).indicator (pyImpulse mu tau d) t) s0, integral_indicator measurableSet_Ioo, C31_unit_area mu tau d ht hd]

theorem shifted_nonneg (mu tau d s0 t : ℝ) (ht : 0 < tau) : 0 ≤ shifted mu tau d s0 t := by
  unfold shifted
  refine Set.indicator_nonneg (fun t ht' => ?_) t
  exact pyImpulse_nonneg _ _ _ _ ht (by have := ht'.1; linarith) (by have := ht'.2; linarith)

/-- area inside the observation window -/
theorem shifted_window (mu tau d s0 T : ℝ) (ht : 0 < tau) (hd : 0 < d) (h0 : 0 ≤ s0) :
    ∫ t in Set.Ioc 0 T, shifted mu tau d s0 t ≤ 1 ∧ (s0 + d ≤ T → ∫ t in Set.Ioc 0 T, shifted mu tau d s0 t = 1) := by
  have hi := shifted_integrable mu tau d s0 ht hd
  constructor
  · rw [← shifted_integral mu tau d s0 ht hd]
    exact setIntegral_le_integral hi (Filter.Eventually.of_forall fun t => shifted_nonneg mu tau d s0 t ht)
  · intro h
    rw [setIntegral_eq_integral_of_forall_compl_eq_zero, shifted_integral mu tau d s0 ht hd]
    intro t hnt
    unfold shifted
    refine Set.indicator_of_notMem (fun hc => hnt ⟨?_, ?_⟩) _
    · exact h0.trans_lt hc.1
    · exact hc.2.le.trans h

theorem Ns_sum (D : CTData) (K : ℕ) (hL : LabelsOk K D) (w : ℕ → ℝ) : ∑ n ∈ range D.N, w (D.C n) = ∑ k1 ∈ range K, w k1 * (D.Ns k1 : ℝ) := by
  have hN : ∀ k, (D.Ns k : ℝ) = ∑ n ∈ range D.N, if D.C n = k then 1 else 0 := by
    intro k
    unfold CTData.Ns
    have : ((List.range D.N).filter fun n => D.C n = k).length = ((range D.N).filter fun n => D.C n = k).card := by
      rw [Finset.card_def]; rfl
    rw [this, sum_boole]
  simp only [hN, mul_sum]
  rw [sum_comm]
  refine sum_congr rfl fun n hn => ?_
  simp only [mul_ite, mul_one, mul_zero]
  rw [sum_ite_eq, if_pos (mem_range.2 (hL n (mem_range.1 hn)))]

/-- integral of the intensity, event by event -/
theorem intensity_integral (P : CTParams) (D : CTData) (hP : CTOk P) (hL : LabelsOk P.K D) (k : ℕ) (hk : k < P.K) (hT : 0 ≤ D.T) :
    ∫ t in Set.Ioc 0 D.T, ctIntensity P D k t = P.lam0 k * D.T + ∑ n ∈ range D.N, P.A (D.C n) k * P.W (D.C n) k *
      ∫ t in Set.Ioc 0 D.T, shifted (P.mu (D.C n) k) (P.tau (D.C n) k) P.dtMax (D.S n) t := by
  have hi : ∀ n ∈ range D.N, Integrable (fun t => P.A (D.C n) k * P.W (D.C n) k * shifted (P.mu (D.C n) k) (P.tau (D.C n) k) P.dtMax (D.S n) t)
      (volume.restrict (Set.Ioc 0 D.T)) := fun n hn =>
    ((shifted_integrable _ _ _ _ (hP.tau _ (hL n (mem_range.1 hn)) _ hk) hP.dtMax).const_mul _).integrableOn
  have : ∀ t, ctIntensity P D k t = P.lam0 k + ∑ n ∈ range D.N, P.A (D.C n) k * P.W (D.C n) k * shifted (P.mu (D.C n) k) (P.tau (D.C n) k) P.dtMax (D.S n) t :=
    fun t => rfl
  simp only [this]
  rw [integral_add (by simp) (integrable_finsetSum _ hi), integral_finsetSum _ hi]
  congr 1
  · simp [hT, mul_comm]
  · exact sum_congr rfl fun n _ => integral_const_mul _ _

/-- **C31 (integrated rate).** `compute_integrated_rate` is the integral of the intensity over the observation window if every event lies at least `dt_max` before the end, and never less than
that integral otherwise. -/
theorem C31_integrated_rate (P : CTParams) (D : CTData) (hP : CTOk P) (hL : LabelsOk P.K D) (k : ℕ) (hk : k < P.K) (hT : 0 ≤ D.T) (h0 : ∀ n < D.N, 0 ≤ D.S n) :
    (∫ t in Set.Ioc 0 D.T, ctIntensity P D k t) ≤ integratedRate P D k ∧
    ((∀ n < D.N, D.S n + P.dtMax ≤ D.T) → (∫ t in Set.Ioc 0 D.T, ctIntensity P D k t) = integratedRate P D k) := by
  have hI : integratedRate P D k = P.lam0 k * D.T + ∑ n ∈ range D.N, P.A (D.C n) k * P.W (D.C n) k := by
    unfold integratedRate CTParams.Weff
    rw [Ns_sum D P.K hL fun k1 => P.A k1 k * P.W k1 k]
  rw [intensity_integral P D hP hL k hk hT, hI]
  constructor
  · refine add_le_add_right (sum_le_sum fun n hn => ?_) _
    have hn' := mem_range.1 hn
    have hw := hP.W _ (hL n hn') _ hk
    have := (shifted_window (P.mu (D.C n) k) (P.tau (D.C n) k) P.dtMax (D.S n) D.T (hP.tau _ (hL n hn') _ hk) hP.dtMax (h0 n hn')).1
    nlinarith
  · intro h
    congr 1
    refine sum_congr rfl fun n hn => ?_
    have hn' := mem_range.1 hn
    rw [(shifted_window (P.mu (D.C n) k) (P.tau (D.C n) k) P.dtMax (D.S n) D.T (hP.tau _ (hL n hn') _ hk) hP.dtMax (h0 n hn')).2 (h n hn'), mul_one]

/-- **C31 (kernels).** The compiled kernels' impulse response is the same function up to the rounded constant they use for the square root of `2π`, within `1e-15`. -/
theorem C31_kernel_constant (mu tau d s : ℝ) (ht : 0 < tau) (h1 : 1e-8 ≤ s) (h2 : s ≤ d - 1e-8) :
    lnImpulse s mu tau d = Real.sqrt (2 * Real.pi) / 2.5066282746310002 * pyImpulse mu tau d s ∧
    |Real.sqrt (2 * Real.pi) / 2.5066282746310002 - 1| < 1e-15 := by
  have h8 : (0:ℝ) < 1e-8 := by norm_num
  have h0 : 0 < s := by linarith
  have hd : 0 < d := by linarith
  have hds : 0 < d - s := by linarith
  constructor
  · rw [lnImpulse_eq _ _ _ _ h1 h2]
    unfold impulse pyImpulse pyLogit
    dsimp only
    have hp : 0 < s / d := div_pos h0 hd
    have hq : 0 < 1 - s / d := by rw [sub_pos, div_lt_one hd]; linarith
    rw [div_one, Real.log_div hp.ne' hq.ne', Real.sqrt_div (by positivity) tau]
    have a : 0 < Real.sqrt tau := Real.sqrt_pos.2 ht
    have b : 0 < Real.sqrt (2 * Real.pi) := Real.sqrt_pos.2 (by positivity)
    field_simp
  · have a1 : (2.5066282746310002 : ℝ) * (1 - 9e-16) < Real.sqrt (2 * Real.pi) := by
      rw [Real.lt_sqrt (by norm_num)]
      have := Real.pi_gt_d20
      norm_num at this ⊢
      linarith
    have a2 : Real.sqrt (2 * Real.pi) < (2.5066282746310002 : ℝ) * (1 + 9e-16) := by
      rw [Real.sqrt_lt' (by norm_num)]
      have := Real.pi_lt_d20
      norm_num at this ⊢
      linarith
    rw [abs_lt]
    constructor
    · rw [lt_sub_iff_add_lt, lt_div_iff₀ (by norm_num)]; norm_num at a1 ⊢; linarith
    · rw [sub_lt_iff_lt_add, div_lt_iff₀ (by norm_num)]; norm_num at a2 ⊢; linarith

/-- non-vacuity: a data set whose events all lie a window before the end -/
example : CTOk demoParams ∧ LabelsOk demoParams.K demoEvents ∧ (0:ℝ) ≤ demoEvents.T ∧ ∀ n < demoEvents.N, demoEvents.S n + demoParams.dtMax ≤ demoEvents.T := by
  refine ⟨demoParams_ok, fun n _ => by norm_num [demoParams, demoEvents], by norm_num [demoEvents], fun n hn => ?_⟩
  have h3 : n < 3 := hn
  have : (n : ℝ) ≤ 2 := by exact_mod_cast (by omega : n ≤ 2)
  simp only [demoEvents, demoParams]
  linarith

/-! ### C34 -/

/-- **C34 (what holds).** At a grid point with no event in the preceding window `compute_rate` reports the intensity; with exactly one event in the window it does if that event's effective
weight is 1. -/
theorem C34_compute_rate_partial (P : CTParams) (D : CTData) (t : ℝ) (k : ℕ) :
    ((∀ n < D.N, ¬ (0 < t - D.S n ∧ t - D.S n < P.dtMax)) → ctComputeRate P D t k = ctIntensity P D k t) ∧
    (∀ n < D.N, 0 < t - D.S n ∧ t - D.S n < P.dtMax → (∀ m < D.N, 0 < t - D.S m ∧ t - D.S m < P.dtMax → m = n) → P.A (D.C n) k * P.W (D.C n) k = 1 →
      ctComputeRate P D t k = ctIntensity P D k t) := by
  classical
  have hmem : ∀ n, t ∈ Set.Ioo (D.S n) (D.S n + P.dtMax) ↔ 0 < t - D.S n ∧ t - D.S n < P.dtMax := by
    intro n; simp only [Set.mem_Ioo]; constructor <;> rintro ⟨a, b⟩ <;> constructor <;> linarith
  constructor
  · intro h
    unfold ctComputeRate ctIntensity
    have e : (List.range D.N).filter (fun n => decide (0 < t - D.S n ∧ t - D.S n < P.dtMax)) = [] := by
      rw [List.filter_eq_nil_iff]
      intro n hn
      simpa using h n (List.mem_range.1 hn)
    dsimp only
    rw [e, List.foldl_nil, sum_eq_zero, add_zero]
    intro n hn
    rw [Set.indicator_of_notMem (fun hc => h n (mem_range.1 hn) ((hmem n).1 hc)), mul_zero]
  · intro n hn hw huniq hone
    unfold ctComputeRate ctIntensity
    dsimp only
    have e : (List.range D.N).filter (fun m => decide (0 < t - D.S m ∧ t - D.S m < P.dtMax)) = [n] := by
      have h1 : ∀ m ∈ List.range D.N, decide (0 < t - D.S m ∧ t - D.S m < P.dtMax) = decide (m = n) := by
        intro m hm
        rw [decide_eq_decide]
        exact ⟨huniq m (List.mem_range.1 hm), fun h => by rw [h]; exact hw⟩
      rw [List.filter_congr h1]
      have h2 : (List.range D.N).filter (fun m => decide (m = n)) = (List.range D.N).filter (· == n) := by
        congr 1
      rw [h2, List.filter_beq, List.count_eq_one_of_mem List.nodup_range (List.mem_range.2 hn)]
      rfl
    rw [e, List.foldl_cons, List.foldl_nil, sum_eq_single n]
    · rw [Set.indicator_of_mem ((hmem n).2 hw), hone, one_mul]
    · intro m hm hne
      rw [Set.indicator_of_notMem (fun hc => hne (huniq m (mem_range.1 hm) ((hmem m).1 hc))), mul_zero]
    · intro h; exact absurd (mem_range.2 hn) h

/-- two events of one process, at 0 and 1/4 -/
noncomputable def twoEvents : CTData := { N := 2, S := fun n => (n : ℝ) / 4, C := fun _ => 0, T := 10, bkgd := fun _ => 2 }

/-- **C34 (violated).** With two events in the window (weights all 1) the reported rate misses the first one; with one event and weight 2 it misses half of the excitation. -/
theorem C34_compute_rate_violated :
    (∃ t, ctComputeRate demoParams twoEvents t 0 < ctIntensity demoParams twoEvents 0 t) ∧
    ∃ t, ctComputeRate { demoParams with W := fun _ _ => 2 } { twoEvents with N := 1 } t 0 < ctIntensity { demoParams with W := fun _ _ => 2 } { twoEvents with N := 1 } 0 t := by
  have pos : ∀ s : ℝ, 0 < s → s < 1 → 0 < pyImpulse 0 1 1 s := by
    intro s h0 h1
    unfold pyImpulse
    dsimp only
    have : 0 < 1 - s := by linarith
    have : 0 < Real.sqrt (2 * Real.pi / 1) := Real.sqrt_pos.2 (by positivity)
    have := Real.exp_pos (-1 / 2 * (pyLogit (s / 1) 1 - 0) ^ 2)
    positivity
  constructor
  · refine ⟨1/2, ?_⟩
    have e1 : ctComputeRate demoParams twoEvents (1/2) 0 = 1 + pyImpulse 0 1 1 (1/4) := by
      unfold ctComputeRate
      have : (List.range twoEvents.N).filter (fun n => decide (0 < 1/2 - twoEvents.S n ∧ 1/2 - twoEvents.S n < demoParams.dtMax)) = [0, 1] := by
        simp only [twoEvents, demoParams, List.range_succ, List.range_zero, List.nil_append, List.cons_append]
        norm_num [List.filter]
      dsimp only
      rw [this]
      norm_num [twoEvents, demoParams]
    have e2 : ctIntensity demoParams twoEvents 0 (1/2) = 1 + (pyImpulse 0 1 1 (1/2) + pyImpulse 0 1 1 (1/4)) := by
      unfold ctIntensity
      have : twoEvents.N = 2 := rfl
      rw [this, sum_range_succ, sum_range_one]
      rw [Set.indicator_of_mem (by norm_num [twoEvents, demoParams]), Set.indicator_of_mem (by norm_num [twoEvents, demoParams])]
      norm_num [twoEvents, demoParams]
    rw [e1, e2]
    have := pos (1/2) (by norm_num) (by norm_num)
    linarith
  · refine ⟨1/2, ?_⟩
    have e1 : ctComputeRate { demoParams with W := fun _ _ => 2 } { twoEvents with N := 1 } (1/2) 0 = 1 + pyImpulse 0 1 1 (1/2) := by
      unfold ctComputeRate
      have : (List.range 1).filter (fun n => decide (0 < 1/2 - twoEvents.S n ∧ 1/2 - twoEvents.S n < demoParams.dtMax)) = [0] := by
        simp only [twoEvents, demoParams, List.range_succ, List.range_zero, List.nil_append]
        norm_num [List.filter]
      dsimp only
      rw [this]
      norm_num [twoEvents, demoParams]
    have e2 : ctIntensity { demoParams with W := fun _ _ => 2 } { twoEvents with N := 1 } 0 (1/2) = 1 + 2 * pyImpulse 0 1 1 (1/2) := by
      unfold ctIntensity
      rw [sum_range_one]
      rw [Set.indicator_of_mem (by norm_num [twoEvents, demoParams])]
      norm_num [twoEvents, demoParams]
    rw [e1, e2]
    have := pos (1/2) (by norm_num) (by norm_num)
    linarith

end PyHawkes
