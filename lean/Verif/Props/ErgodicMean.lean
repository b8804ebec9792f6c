import Verif.Props.ErgodicAverage

/-!
# Averages along a chain that converges from every start, continued (used for C95)
-/
set_option linter.unusedSectionVars false
set_option linter.unusedVariables false

namespace PyHawkes
open Spec MeasureTheory ProbabilityTheory Filter Topology

/-- two laws that agree on all events up to `ε` agree on integrals of functions with values in `[0, M]` up to `M ε` -/
theorem integral_le_of_tv {E : Type*} [MeasurableSpace E] {m π : Measure E} [IsProbabilityMeasure m] [IsProbabilityMeasure π] {ε M : ℝ} (hM : 0 ≤ M)
    (h : ∀ s, m.real s ≤ π.real s + ε) {g : E → ℝ} (mg : Measurable g) (g0 : ∀ x, 0 ≤ g x) (gM : ∀ x, g x ≤ M) : ∫ x, g x ∂m ≤ ∫ x, g x ∂π + M * ε := by
  have key : ∀ (ρ : Measure E) [IsProbabilityMeasure ρ], ∫ x, g x ∂ρ = ∫ t in Set.Ioc 0 M, ρ.real {a | t ≤ g a} := fun ρ _ =>
    (bounded_integrable mg.aestronglyMeasurable (C := M) fun a => by rw [abs_of_nonneg (g0 a)]; exact gM a).integral_eq_integral_Ioc_meas_le (Eventually.of_forall g0) (Eventually.of_forall gM)
  have hint : ∀ (ρ : Measure E) [IsProbabilityMeasure ρ], IntegrableOn (fun t => ρ.real {a | t ≤ g a}) (Set.Ioc 0 M) volume := fun ρ _ => by
    refine Integrable.of_bound (Antitone.measurable fun s t hst => measureReal_mono fun a (ha : t ≤ g a) => hst.trans ha).aestronglyMeasurable 1 (Eventually.of_forall fun t => ?_)
    rw [Real.norm_of_nonneg measureReal_nonneg]; exact measureReal_le_one
  rw [key m, key π]
  have : ∫ t in Set.Ioc 0 M, m.real {a | t ≤ g a} ≤ ∫ t in Set.Ioc 0 M, (π.real {a | t ≤ g a} + ε) :=
    setIntegral_mono (hint m) ((hint π).add (integrable_const ε)) fun t => h _
  refine this.trans (le_of_eq ?_)
  rw [integral_add (hint π) (integrable_const ε)]
  simp [hM]

/-- convergence in total variation gives convergence of the integrals of bounded functions -/
theorem integral_tendsto_of_tv {E : Type*} [MeasurableSpace E] {m : ℕ → Measure E} {π : Measure E} (hm : ∀ t, IsProbabilityMeasure (m t)) [IsProbabilityMeasure π]
    (h : ∀ ε : ENNReal, ε ≠ 0 → ∃ N, ∀ n, N ≤ n → ∀ s, m n s ≤ π s + ε ∧ π s ≤ m n s + ε) {g : E → ℝ} (mg : Measurable g) {C : ℝ} (hC : ∀ x, |g x| ≤ C) :
    Tendsto (fun n => ∫ x, g x ∂m n) atTop (𝓝 (∫ x, g x ∂π)) := by
  have hC0 : 0 ≤ C := by
    obtain ⟨x⟩ := nonempty_of_isProbabilityMeasure π
    exact (abs_nonneg _).trans (hC x)
  rw [Metric.tendsto_atTop]
  intro ε hε
  set δ : ℝ := ε / (2 * (C + C) + 1) with hδ
  have hδ0 : 0 < δ := by positivity
  obtain ⟨N, hN⟩ := h (ENNReal.ofReal δ) (by rw [ne_eq, ENNReal.ofReal_eq_zero]; exact not_le.2 hδ0)
  refine ⟨N, fun n hn => ?_⟩
  have i := hm n
  have conv : ∀ {ν ρ : Measure E} [IsProbabilityMeasure ν] [IsProbabilityMeasure ρ], (∀ B, ν B ≤ ρ B + ENNReal.ofReal δ) → ∀ B, ν.real B ≤ ρ.real B + δ := by
    intro ν ρ _ _ hle B
    have := ENNReal.toReal_mono (ENNReal.add_ne_top.2 ⟨measure_ne_top ρ B, ENNReal.ofReal_ne_top⟩) (hle B)
    rwa [ENNReal.toReal_add (measure_ne_top ρ B) ENNReal.ofReal_ne_top, ENNReal.toReal_ofReal hδ0.le] at this
  have g0 : ∀ x, 0 ≤ g x + C := fun x => by linarith [(abs_le.1 (hC x)).1]
  have gM : ∀ x, g x + C ≤ C + C := fun x => by linarith [(abs_le.1 (hC x)).2]
  have int : ∀ (ρ : Measure E) [IsProbabilityMeasure ρ], ∫ x, (g x + C) ∂ρ = ∫ x, g x ∂ρ + C := fun ρ _ => by
    rw [integral_add (bounded_integrable mg.aestronglyMeasurable hC) (integrable_const C)]; simp
  have a := integral_le_of_tv (m := m n) (π := π) (by positivity) (conv fun B => (hN n hn B).1) (mg.add_const C) g0 gM
  have b := integral_le_of_tv (m := π) (π := m n) (by positivity) (conv fun B => (hN n hn B).2) (mg.add_const C) g0 gM
  rw [int, int] at a b
  have : (C + C) * δ < ε := by
    rw [hδ, mul_div_assoc', div_lt_iff₀ (by positivity)]
    nlinarith
  rw [Real.dist_eq, abs_lt]
  constructor <;> linarith

section
variable {Θ Sd : Type*} [MeasurableSpace Θ] [MeasurableSpace Sd] [MeasurableSpace.CountablyGenerated Θ]
  {post : Measure Θ} [IsProbabilityMeasure post] {sl : Measure Sd} [IsProbabilityMeasure sl] {sweep : Θ → Sd → Θ} (ms : Measurable fun y : Θ × Sd => sweep y.1 y.2)
  (hmap : (post.prod sl).map (fun y => sweep y.1 y.2) = post)
  {D : Set Θ} (hD : MeasurableSet D) (hpD : ∀ᵐ θ ∂post, θ ∈ D) (hle : ∀ θ ∈ D, sl.map (sweep θ) ≪ post) (hge : ∀ θ ∈ D, post ≪ sl.map (sweep θ))

include ms hmap hD hpD hle hge in
/-- expectations of bounded functions after `n` steps converge, from every start -/
theorem tOp_tendsto {G : Θ → ℝ} (mG : Measurable G) {C : ℝ} (hC : ∀ θ, |G θ| ≤ C) {θ : Θ} (hθ : θ ∈ D) : Tendsto (fun n => (tOp sl sweep)^[n] G θ) atTop (𝓝 (∫ θ, G θ ∂post)) := by
  obtain ⟨X, y, hc, h0⟩ := exists_chain (sl := sl) (sweep := sweep) (Measure.dirac θ)
  set Pr := (Measure.dirac θ).prod (Measure.infinitePi fun _ : ℕ => sl) with hPr
  have hm0 : Pr.map (X 0) = Measure.dirac θ := by rw [h0, Measure.map_fst_prod]; simp
  have hpr : ∀ t, IsProbabilityMeasure (Pr.map (X t)) := fun t => Measure.isProbabilityMeasure_map (hc.aemeas ms t)
  have conv := ergodic_chain (f := fun y : Θ × Sd => sweep y.1 y.2) ms hD hmap hpD hle hge (m := fun t => Pr.map (X t)) (by rw [hm0]; exact (ae_dirac_iff (p := fun x => x ∈ D) hD).2 hθ) fun t => hc.map_succ ms t
  have := integral_tendsto_of_tv hpr conv mG hC
  refine this.congr fun n => ?_
  have e := hc.int_iter ms (F := fun _ => 1) (G := G) measurable_const mG (C := max 1 C) (fun _ => by simp) (fun θ => (hC θ).trans (le_max_right _ _)) n
  simp only [one_mul] at e
  rw [integral_map (hc.aemeas ms n) mG.aestronglyMeasurable, e]
  have mi := tOp_iter_meas (sl := sl) ms mG n
  rw [← integral_map hc.meas mi.aestronglyMeasurable, hm0, integral_dirac' _ _ mi.stronglyMeasurable]

include ms hmap in
/-- the law stays the same along a chain started from the invariant law -/
theorem IsChain.stationary {Ω : Type*} [MeasurableSpace Ω] {Pr : Measure Ω} [IsProbabilityMeasure Pr] {X : ℕ → Ω → Θ} {y : ℕ → Ω → Sd} (hc : IsChain Pr sl sweep X y) (h0 : Pr.map (X 0) = post) (t : ℕ) :
    Pr.map (X t) = post := by
  induction t with
  | zero => exact h0
  | succ t ih => rw [hc.map_succ ms, ih]; exact hmap

include ms hmap hD hpD hle hge in
/-- mean square of the average of a bounded centred function along a stationary chain -/
theorem stationary_bounded {Ω : Type*} [MeasurableSpace Ω] {Pr : Measure Ω} [IsProbabilityMeasure Pr] {X : ℕ → Ω → Θ} {y : ℕ → Ω → Sd} (hc : IsChain Pr sl sweep X y) (h0 : Pr.map (X 0) = post)
    {f : Θ → ℝ} (mf : Measurable f) {C : ℝ} (hC : ∀ θ, |f θ| ≤ C) (hf : ∫ θ, f θ ∂post = 0) :
    Tendsto (fun n : ℕ => ∫ ω, ((∑ t ∈ Finset.range n, f (X t ω)) / n) ^ 2 ∂Pr) atTop (𝓝 0) := by
  have hC0 : 0 ≤ C := by
    obtain ⟨x⟩ := nonempty_of_isProbabilityMeasure post
    exact (abs_nonneg _).trans (hC x)
  set c : ℕ → ℝ := fun j => ∫ θ, f θ * (tOp sl sweep)^[j] f θ ∂post with hcdef
  have mit : ∀ j, Measurable ((tOp sl sweep)^[j] f) := fun j => tOp_iter_meas ms mf j
  have bit : ∀ j θ, |(tOp sl sweep)^[j] f θ| ≤ C := fun j θ => tOp_iter_bound hC j θ
  have c0 : Tendsto c atTop (𝓝 0) := by
    have : Tendsto c atTop (𝓝 (∫ θ, (0 : ℝ) ∂post)) := by
      refine tendsto_integral_of_dominated_convergence (fun _ => C * C) (fun n => (mf.mul (mit n)).aestronglyMeasurable) (integrable_const _) (fun n => Eventually.of_forall fun θ => ?_) ?_
      · rw [Real.norm_eq_abs, abs_mul]; exact mul_le_mul (hC θ) (bit n θ) (abs_nonneg _) hC0
      · filter_upwards [hpD] with θ hθ
        have := (tOp_tendsto ms hmap hD hpD hle hge mf hC hθ).const_mul (f θ)
        rwa [hf, mul_zero] at this
    simpa using this
  have cov : ∀ i j, ∫ ω, f (X i ω) * f (X (i + j) ω) ∂Pr = c j := fun i j => by
    have e := (hc.shift ms i).int_iter ms mf mf hC hC j
    simp only [add_zero] at e
    rw [e, hcdef]
    dsimp only
    rw [← hc.stationary ms hmap h0 i]
    exact (integral_map (hc.aemeas ms i) (mf.mul (mit j)).aestronglyMeasurable).symm
  have aem : ∀ t, AEMeasurable (fun ω => f (X t ω)) Pr := fun t => mf.comp_aemeasurable (hc.aemeas ms t)
  have int2 : ∀ i j, Integrable (fun ω => f (X i ω) * f (X j ω)) Pr := fun i j =>
    bounded_integrable ((aem i).mul (aem j)).aestronglyMeasurable (C := C * C) fun ω => by rw [abs_mul]; exact mul_le_mul (hC _) (hC _) (abs_nonneg _) hC0
  set d : ℕ → ℝ := fun n => ∑ j ∈ Finset.range n, |c (j + 1)| with hd
  have aeS : ∀ n, AEMeasurable (fun ω => ∑ t ∈ Finset.range n, f (X t ω)) Pr := fun n => Finset.aemeasurable_fun_sum _ fun t _ => aem t
  have bS : ∀ n ω, |∑ t ∈ Finset.range n, f (X t ω)| ≤ n * C := fun n ω => (Finset.abs_sum_le_sum_abs _ _).trans (by
    refine (Finset.sum_le_sum fun t _ => hC (X t ω)).trans ?_
    simp)
  have intS : ∀ n, Integrable (fun ω => (∑ t ∈ Finset.range n, f (X t ω)) ^ 2) Pr := fun n =>
    bounded_integrable ((aeS n).pow_const 2).aestronglyMeasurable (C := (n * C) ^ 2) fun ω => by rw [abs_pow]; exact pow_le_pow_left₀ (abs_nonneg _) (bS n ω) 2
  have bound : ∀ n : ℕ, ∫ ω, (∑ t ∈ Finset.range n, f (X t ω)) ^ 2 ∂Pr ≤ n * (2 * d n + C ^ 2) := by
    intro n
    induction n with
    | zero => simp
    | succ n ih =>
      have e : ∀ ω, (∑ t ∈ Finset.range (n + 1), f (X t ω)) ^ 2 = (∑ t ∈ Finset.range n, f (X t ω)) ^ 2 + 2 * ∑ t ∈ Finset.range n, f (X t ω) * f (X n ω) + f (X n ω) * f (X n ω) := fun ω => by
        rw [Finset.sum_range_succ, ← Finset.sum_mul]; ring
      have iS : Integrable (fun ω => ∑ t ∈ Finset.range n, f (X t ω) * f (X n ω)) Pr := integrable_finsetSum _ fun t _ => int2 t n
      have h1 : ∫ ω, f (X n ω) * f (X n ω) ∂Pr ≤ C ^ 2 := by
        have : ∫ ω, f (X n ω) * f (X n ω) ∂Pr ≤ ∫ ω, C ^ 2 ∂Pr := integral_mono (int2 n n) (integrable_const _) fun ω => by
          dsimp only; rw [← sq, ← sq_abs]; exact pow_le_pow_left₀ (abs_nonneg _) (hC _) 2
        simpa using this
      have h2 : ∫ ω, ∑ t ∈ Finset.range n, f (X t ω) * f (X n ω) ∂Pr ≤ d n := by
        rw [integral_finsetSum _ fun t _ => int2 t n, hd]
        dsimp only
        rw [← Finset.sum_range_reflect]
        refine Finset.sum_le_sum fun t ht => ?_
        have ht' := Finset.mem_range.1 ht
        have := cov (n - 1 - t) (t + 1)
        rw [show n - 1 - t + (t + 1) = n by omega] at this
        rw [this]
        exact le_abs_self _
      have h3 : d n ≤ d (n + 1) := by rw [hd]; dsimp only; rw [Finset.sum_range_succ]; linarith [abs_nonneg (c (n + 1))]
      calc ∫ ω, (∑ t ∈ Finset.range (n + 1), f (X t ω)) ^ 2 ∂Pr
          = ∫ ω, (∑ t ∈ Finset.range n, f (X t ω)) ^ 2 ∂Pr + 2 * ∫ ω, ∑ t ∈ Finset.range n, f (X t ω) * f (X n ω) ∂Pr + ∫ ω, f (X n ω) * f (X n ω) ∂Pr := by
            simp only [e]
            have i1 : Integrable (fun ω => (∑ t ∈ Finset.range n, f (X t ω)) ^ 2 + 2 * ∑ t ∈ Finset.range n, f (X t ω) * f (X n ω)) Pr := (intS n).add (iS.const_mul 2)
            rw [integral_add i1 (int2 n n), integral_add (intS n) (iS.const_mul 2), integral_const_mul]
        _ ≤ n * (2 * d n + C ^ 2) + 2 * d n + C ^ 2 := by linarith
        _ = ((n + 1 : ℕ) : ℝ) * (2 * d n + C ^ 2) := by push_cast; ring
        _ ≤ _ := by gcongr
  have lim : Tendsto (fun n : ℕ => 2 * ((n : ℝ)⁻¹ * d n) + C ^ 2 * (n : ℝ)⁻¹) atTop (𝓝 0) := by
    have h1 : Tendsto (fun j => |c (j + 1)|) atTop (𝓝 0) := by
      have := (c0.comp (tendsto_add_atTop_nat 1)).abs
      simpa using this
    have h2 := (h1.cesaro.const_mul 2).add ((tendsto_inv_atTop_nhds_zero_nat (𝕜 := ℝ)).const_mul (C ^ 2))
    simpa using h2
  refine squeeze_zero' (Eventually.of_forall fun n => integral_nonneg fun ω => sq_nonneg _) ?_ lim
  filter_upwards [eventually_gt_atTop 0] with n hn
  have hn' : (0 : ℝ) < n := by exact_mod_cast hn
  simp only [div_pow]
  rw [integral_div, div_le_iff₀ (by positivity)]
  refine (bound n).trans (le_of_eq ?_)
  field_simp

include ms hmap hD hpD hle hge in
/-- averages of an integrable function along a stationary chain converge in mean -/
theorem stationary_mean {Ω : Type*} [MeasurableSpace Ω] {Pr : Measure Ω} [IsProbabilityMeasure Pr] {X : ℕ → Ω → Θ} {y : ℕ → Ω → Sd} (hc : IsChain Pr sl sweep X y) (h0 : Pr.map (X 0) = post)
    {f : Θ → ℝ} (mf : Measurable f) (hf : Integrable f post) :
    Tendsto (fun n : ℕ => ∫ ω, |(∑ t ∈ Finset.range n, f (X t ω)) / n - ∫ θ, f θ ∂post| ∂Pr) atTop (𝓝 0) := by
  have st := hc.stationary ms hmap h0
  have aem : ∀ {g : Θ → ℝ} (_ : Measurable g) t, AEMeasurable (fun ω => g (X t ω)) Pr := fun mg t => mg.comp_aemeasurable (hc.aemeas ms t)
  have intX : ∀ {g : Θ → ℝ} (_ : Measurable g) (_ : Integrable g post) t, Integrable (fun ω => g (X t ω)) Pr := fun {g} mg ig t => by
    have := (integrable_map_measure (f := X t) (μ := Pr) (g := g) mg.aestronglyMeasurable (hc.aemeas ms t)).1 (by rw [st t]; exact ig)
    exact this
  have meanX : ∀ {g : Θ → ℝ} (_ : Measurable g) t, ∫ ω, g (X t ω) ∂Pr = ∫ θ, g θ ∂post := fun {g} mg t => by
    rw [← st t]; exact (integral_map (hc.aemeas ms t) mg.aestronglyMeasurable).symm
  -- truncation
  set tr : ℕ → Θ → ℝ := fun M θ => if |f θ| ≤ M then f θ else 0 with htr
  have mtr : ∀ M, Measurable (tr M) := fun M => Measurable.ite (measurableSet_le mf.abs measurable_const) mf measurable_const
  have btr : ∀ M θ, |tr M θ| ≤ M := fun M θ => by
    rw [htr]; dsimp only
    split_ifs with h
    · exact h
    · simp
  have ltr : ∀ M θ, |f θ - tr M θ| ≤ |f θ| := fun M θ => by
    rw [htr]; dsimp only
    split_ifs with h <;> simp
  have itr : ∀ M, Integrable (tr M) post := fun M => bounded_integrable (mtr M).aestronglyMeasurable (btr M)
  set η : ℕ → ℝ := fun M => ∫ θ, |f θ - tr M θ| ∂post with hη
  have η0 : Tendsto η atTop (𝓝 0) := by
    have : Tendsto η atTop (𝓝 (∫ θ, (0 : ℝ) ∂post)) := by
      refine tendsto_integral_of_dominated_convergence (fun θ => |f θ|) (fun M => (mf.sub (mtr M)).abs.aestronglyMeasurable) hf.abs (fun M => Eventually.of_forall fun θ => ?_) (Eventually.of_forall fun θ => ?_)
      · rw [Real.norm_eq_abs, abs_abs]; exact ltr M θ
      · obtain ⟨N, hN⟩ := exists_nat_ge |f θ|
        refine tendsto_const_nhds.congr' ?_
        filter_upwards [eventually_ge_atTop N] with M hM
        have : |f θ| ≤ (M : ℝ) := hN.trans (by exact_mod_cast hM)
        rw [htr]; dsimp only
        rw [if_pos this]; simp
    simpa using this
  rw [Metric.tendsto_atTop]
  intro ε hε
  obtain ⟨M, hM⟩ := (Metric.tendsto_atTop.1 η0 (ε / 8) (by positivity))
  replace hM := hM M le_rfl
  have ηn : 0 ≤ η M := integral_nonneg fun θ => abs_nonneg _
  rw [Real.dist_eq, sub_zero, abs_of_nonneg ηn] at hM
  set cM : ℝ := ∫ θ, tr M θ ∂post with hcM
  have hcf : |∫ θ, f θ ∂post - cM| ≤ η M := by
    rw [hcM, ← integral_sub hf (itr M)]; exact abs_integral_le_integral_abs
  have bc : |cM| ≤ M := by
    have := norm_integral_le_of_norm_le_const (μ := post) (C := (M : ℝ)) (f := tr M) (Eventually.of_forall fun θ => btr M θ)
    simpa using this
  have cen : ∫ θ, (tr M θ - cM) ∂post = 0 := by
    rw [integral_sub (itr M) (integrable_const _)]; simp [hcM]
  have sq0 := stationary_bounded ms hmap hD hpD hle hge hc h0 (f := fun θ => tr M θ - cM) ((mtr M).sub_const cM) (C := M + M) (fun θ => (abs_sub _ _).trans (add_le_add (btr M θ) bc)) cen
  obtain ⟨N, hN⟩ := Metric.tendsto_atTop.1 sq0 (ε * ε / 4) (by positivity)
  refine ⟨max N 1, fun n hn => ?_⟩
  have hn1 : (0 : ℝ) < n := by
    have : 1 ≤ n := (le_max_right _ _).trans hn
    exact_mod_cast this
  have hsq := hN n ((le_max_left _ _).trans hn)
  rw [Real.dist_eq, sub_zero, abs_of_nonneg (integral_nonneg fun ω => sq_nonneg _)] at hsq
  rw [Real.dist_eq, sub_zero, abs_of_nonneg (integral_nonneg fun ω => abs_nonneg _)]
  set a : Ω → ℝ := fun ω => (∑ t ∈ Finset.range n, (tr M (X t ω) - cM)) / n with ha
  set r : Ω → ℝ := fun ω => (∑ t ∈ Finset.range n, |f (X t ω) - tr M (X t ω)|) / n with hr
  have ma : AEMeasurable a Pr := (Finset.aemeasurable_fun_sum _ fun t _ => aem ((mtr M).sub_const cM) t).div_const _
  have ba : ∀ ω, |a ω| ≤ M + M := fun ω => by
    rw [ha]; dsimp only
    rw [abs_div, abs_of_pos hn1, div_le_iff₀ hn1]
    refine (Finset.abs_sum_le_sum_abs _ _).trans ((Finset.sum_le_sum fun t _ => (abs_sub _ _).trans (add_le_add (btr M (X t ω)) bc)).trans (le_of_eq ?_))
    rw [Finset.sum_const, Finset.card_range, nsmul_eq_mul, mul_comm]
  have ia2 : Integrable (fun ω => a ω ^ 2) Pr := bounded_integrable (ma.pow_const 2).aestronglyMeasurable (C := (M + M) ^ 2) fun ω => by rw [abs_pow]; exact pow_le_pow_left₀ (abs_nonneg _) (ba ω) 2
  have irt : ∀ t ∈ Finset.range n, Integrable (fun ω => |f (X t ω) - tr M (X t ω)|) Pr := fun t _ => intX (g := fun θ => |f θ - tr M θ|) (mf.sub (mtr M)).abs ((hf.sub (itr M)).abs) t
  have ir : Integrable r Pr := (integrable_finsetSum _ irt).div_const _
  have er : ∫ ω, r ω ∂Pr = η M := by
    rw [hr]; dsimp only
    rw [integral_div, integral_finsetSum _ irt]
    have : ∀ t ∈ Finset.range n, ∫ ω, |f (X t ω) - tr M (X t ω)| ∂Pr = η M := fun t _ => meanX (g := fun θ => |f θ - tr M θ|) (mf.sub (mtr M)).abs t
    rw [Finset.sum_congr rfl this]
    simp only [Finset.sum_const, Finset.card_range, nsmul_eq_mul]
    field_simp
  have pt : ∀ ω, |(∑ t ∈ Finset.range n, f (X t ω)) / n - ∫ θ, f θ ∂post| ≤ a ω ^ 2 / ε + ε / 4 + r ω + η M := fun ω => by
    have e : (∑ t ∈ Finset.range n, f (X t ω)) / n - ∫ θ, f θ ∂post = a ω + (∑ t ∈ Finset.range n, (f (X t ω) - tr M (X t ω))) / n - (∫ θ, f θ ∂post - cM) := by
      rw [ha]; dsimp only
      rw [Finset.sum_sub_distrib, Finset.sum_sub_distrib]
      simp only [Finset.sum_const, Finset.card_range, nsmul_eq_mul]
      field_simp
      ring
    have h1 : |(∑ t ∈ Finset.range n, (f (X t ω) - tr M (X t ω))) / n| ≤ r ω := by
      rw [abs_div, abs_of_pos hn1]
      exact div_le_div_of_nonneg_right (Finset.abs_sum_le_sum_abs _ _) hn1.le
    have h2 : |a ω| ≤ a ω ^ 2 / ε + ε / 4 := by
      rw [← sub_nonneg, ← sq_abs]
      have : |a ω| ^ 2 / ε + ε / 4 - |a ω| = (|a ω| - ε / 2) ^ 2 / ε := by field_simp; ring
      rw [this]; positivity
    rw [e]
    refine (abs_sub _ _).trans ?_
    have := abs_add_le (a ω) ((∑ t ∈ Finset.range n, (f (X t ω) - tr M (X t ω))) / n)
    linarith
  have ibd : Integrable (fun ω => a ω ^ 2 / ε + ε / 4 + r ω + η M) Pr := (((ia2.div_const ε).add (integrable_const _)).add ir).add (integrable_const _)
  have il : Integrable (fun ω => |(∑ t ∈ Finset.range n, f (X t ω)) / n - ∫ θ, f θ ∂post|) Pr :=
    (((integrable_finsetSum _ fun t _ => intX mf hf t).div_const _).sub (integrable_const _)).abs
  have fin := integral_mono il ibd pt
  have j1 : Integrable (fun ω => a ω ^ 2 / ε + ε / 4) Pr := (ia2.div_const ε).add (integrable_const _)
  have j2 : Integrable (fun ω => a ω ^ 2 / ε + ε / 4 + r ω) Pr := j1.add ir
  rw [integral_add j2 (integrable_const _), integral_add j1 ir,
    integral_add (ia2.div_const ε) (integrable_const _), er, integral_div] at fin
  simp only [integral_const, probReal_univ, smul_eq_mul, one_mul] at fin
  have : (∫ ω, a ω ^ 2 ∂Pr) / ε < ε / 4 := by rw [div_lt_iff₀ hε]; linarith
  linarith

end

end PyHawkes
