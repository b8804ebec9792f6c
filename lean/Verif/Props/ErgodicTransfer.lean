import Verif.Props.ErgodicMean

/-!
# Averages along a chain that converges from every start: the theorem (used for C95)
-/
set_option linter.unusedSectionVars false
set_option linter.unusedVariables false

namespace PyHawkes
open Spec MeasureTheory ProbabilityTheory Filter Topology

/-- probabilities that vanish under a law vanish under every absolutely continuous one -/
theorem transfer {E : Type*} [MeasurableSpace E] {π lam : Measure E} [IsProbabilityMeasure π] [IsProbabilityMeasure lam] (h : lam ≪ π) {b : ℕ → E → ℝ} (mb : ∀ n, Measurable (b n)) (b0 : ∀ n x, 0 ≤ b n x)
    (b1 : ∀ n x, b n x ≤ 1) (hlim : Tendsto (fun n => ∫ x, b n x ∂π) atTop (𝓝 0)) : Tendsto (fun n => ∫ x, b n x ∂lam) atTop (𝓝 0) := by
  rw [Metric.tendsto_atTop]
  intro ε hε
  have hfin : ∫⁻ x, lam.rnDeriv π x ∂π ≠ ⊤ := (Measure.lintegral_rnDeriv_lt_top lam π).ne
  obtain ⟨δ, hδ, hδ'⟩ := exists_pos_setLIntegral_lt_of_measure_lt hfin (ε := ENNReal.ofReal (ε / 2)) (by rw [ne_eq, ENNReal.ofReal_eq_zero]; exact not_le.2 (by positivity))
  have bi : ∀ (ρ : Measure E) [IsProbabilityMeasure ρ] n, Integrable (b n) ρ := fun ρ _ n => bounded_integrable (mb n).aestronglyMeasurable (C := 1) fun x => by rw [abs_of_nonneg (b0 n x)]; exact b1 n x
  set δ' : ℝ := (min δ 1).toReal with hdd
  have hm : min δ 1 ≠ ⊤ := ne_of_lt (lt_of_le_of_lt (min_le_right _ _) ENNReal.one_lt_top)
  have hd0 : 0 < δ' := ENNReal.toReal_pos (by simpa using hδ.ne') hm
  obtain ⟨N, hN⟩ := Metric.tendsto_atTop.1 hlim (δ' * (ε / 4)) (by positivity)
  refine ⟨N, fun n hn => ?_⟩
  have h1 := hN n hn
  rw [Real.dist_eq, sub_zero, abs_of_nonneg (integral_nonneg (b0 n))] at h1 ⊢
  set s := {x | ε / 4 ≤ b n x} with hs
  have hsm : MeasurableSet s := measurableSet_le measurable_const (mb n)
  have h2 : π.real s < δ' := by
    have := mul_meas_ge_le_integral_of_nonneg (μ := π) (Eventually.of_forall (b0 n)) (bi π n) (ε / 4)
    have h3 : ε / 4 * π.real s < ε / 4 * δ' := lt_of_le_of_lt this (by linarith)
    exact lt_of_mul_lt_mul_left h3 (by positivity)
  have h3 : π s < δ := by
    have : π s < min δ 1 := by
      rw [← ENNReal.toReal_lt_toReal (measure_ne_top π s) hm]; exact h2
    exact this.trans_le (min_le_left _ _)
  have h4 : lam.real s < ε / 2 := by
    have e : ∫⁻ x in s, lam.rnDeriv π x ∂π = lam s := by
      rw [← withDensity_apply _ hsm, Measure.withDensity_rnDeriv_eq _ _ h]
    have := hδ' s h3
    rw [e] at this
    have h5 := (ENNReal.toReal_lt_toReal (measure_ne_top lam s) ENNReal.ofReal_ne_top).2 this
    rwa [ENNReal.toReal_ofReal (by positivity)] at h5
  have h5 : ∫ x, b n x ∂lam ≤ ∫ x, (ε / 4 + s.indicator (fun _ => (1 : ℝ)) x) ∂lam := by
    refine integral_mono (bi lam n) ((integrable_const _).add ((integrable_const _).indicator hsm)) fun x => ?_
    dsimp only
    by_cases hx : x ∈ s
    · rw [Set.indicator_of_mem hx]; linarith [b1 n x]
    · rw [Set.indicator_of_notMem hx]
      have : b n x < ε / 4 := not_le.1 hx
      linarith
  rw [integral_add (integrable_const _) ((integrable_const _).indicator hsm), integral_indicator hsm] at h5
  simp only [integral_const, probReal_univ, smul_eq_mul, one_mul, mul_one, measureReal_restrict_apply MeasurableSet.univ, Set.univ_inter] at h5
  linarith

section
variable {Θ Sd : Type*} [MeasurableSpace Θ] [MeasurableSpace Sd] [MeasurableSpace.CountablyGenerated Θ]
  {post : Measure Θ} [IsProbabilityMeasure post] {sl : Measure Sd} [IsProbabilityMeasure sl] {sweep : Θ → Sd → Θ} (ms : Measurable fun y : Θ × Sd => sweep y.1 y.2)
  (hmap : (post.prod sl).map (fun y => sweep y.1 y.2) = post)
  {D : Set Θ} (hD : MeasurableSet D) (hpD : ∀ᵐ θ ∂post, θ ∈ D) (hle : ∀ θ ∈ D, sl.map (sweep θ) ≪ post) (hge : ∀ θ ∈ D, post ≪ sl.map (sweep θ))

/-- the step of the pair (state, sum so far) -/
def sumStep (f : Θ → ℝ) (sweep : Θ → Sd → Θ) (p : Θ × ℝ) (v : Sd) : Θ × ℝ := (sweep p.1 v, p.2 + f p.1)

include ms in
theorem sumStep_meas {f : Θ → ℝ} (mf : Measurable f) : Measurable fun z : (Θ × ℝ) × Sd => sumStep f sweep z.1 z.2 := by
  refine Measurable.prodMk (ms.comp (f := fun z : (Θ × ℝ) × Sd => (z.1.1, z.2)) (by fun_prop)) ?_
  exact (measurable_snd.comp measurable_fst).add (mf.comp (measurable_fst.comp measurable_fst))

open Classical in
/-- the probability, as a function of the starting state, that the average of `n` states is off by `ε` or more -/
noncomputable def badProb (f : Θ → ℝ) (sl : Measure Sd) (sweep : Θ → Sd → Θ) (c ε : ℝ) (n : ℕ) (θ : Θ) : ℝ :=
  (tOp sl (sumStep f sweep))^[n] (fun p => if ε ≤ |p.2 / n - c| then 1 else 0) (θ, 0)

theorem bad_meas {c ε : ℝ} {n : ℕ} : MeasurableSet {p : Θ × ℝ | ε ≤ |p.2 / n - c|} := measurableSet_le measurable_const ((measurable_snd.div_const _).sub_const _).abs

include ms in
theorem bad_eq {Ω : Type*} [MeasurableSpace Ω] {Pr : Measure Ω} [IsProbabilityMeasure Pr] {X : ℕ → Ω → Θ} {y : ℕ → Ω → Sd} (hc : IsChain Pr sl sweep X y) {f : Θ → ℝ} (mf : Measurable f) (c ε : ℝ) (n : ℕ) :
    Pr.real {ω | ε ≤ |(∑ t ∈ Finset.range n, f (X t ω)) / n - c|} = ∫ θ, badProb f sl sweep c ε n θ ∂(Pr.map (X 0)) := by
  classical
  have ms' := sumStep_meas ms mf
  have hc' : IsChain Pr sl (sumStep f sweep) (fun t ω => (X t ω, ∑ i ∈ Finset.range t, f (X i ω))) y :=
    hc.augment (u := fun θ => (θ, 0)) (by fun_prop) (fun ω => by simp) (fun t ω => by unfold sumStep; rw [Finset.sum_range_succ]; exact Prod.ext (hc.succ t ω) rfl)
  have mG : Measurable fun p : Θ × ℝ => if ε ≤ |p.2 / n - c| then (1 : ℝ) else 0 := Measurable.ite bad_meas measurable_const measurable_const
  have bG : ∀ p : Θ × ℝ, |if ε ≤ |p.2 / n - c| then (1 : ℝ) else 0| ≤ 1 := fun p => by split_ifs <;> simp
  have e := hc'.int_iter ms' (F := fun _ => 1) measurable_const mG (C := 1) (fun _ => by simp) bG n
  simp only [one_mul] at e
  have mi := tOp_iter_meas (sl := sl) ms' mG n
  have l : ∫ ω, (if ε ≤ |(∑ t ∈ Finset.range n, f (X t ω)) / n - c| then (1 : ℝ) else 0) ∂Pr = Pr.real {ω | ε ≤ |(∑ t ∈ Finset.range n, f (X t ω)) / n - c|} := by
    have hn : NullMeasurableSet {ω | ε ≤ |(∑ t ∈ Finset.range n, f (X t ω)) / n - c|} Pr :=
      nullMeasurableSet_le aemeasurable_const (((Finset.aemeasurable_fun_sum _ fun t _ => mf.comp_aemeasurable (hc.aemeas ms t)).div_const _).sub_const _).abs
    have : ∀ ω, (if ε ≤ |(∑ t ∈ Finset.range n, f (X t ω)) / n - c| then (1 : ℝ) else 0) = {ω | ε ≤ |(∑ t ∈ Finset.range n, f (X t ω)) / n - c|}.indicator (fun _ => (1 : ℝ)) ω := fun ω => rfl
    simp only [this]
    rw [integral_indicator₀ hn]
    simp
  rw [← l, e]
  have m0 : Measurable fun θ : Θ => badProb f sl sweep c ε n θ := mi.comp (f := fun θ : Θ => (θ, (0 : ℝ))) (by fun_prop)
  rw [integral_map hc.meas m0.aestronglyMeasurable]
  simp only [Finset.range_zero, Finset.sum_empty]
  rfl

include ms hmap hD hpD hle hge in
theorem bad_tendsto {f : Θ → ℝ} (mf : Measurable f) (hf : Integrable f post) {lam : Measure Θ} [IsProbabilityMeasure lam] (hl : lam ≪ post) {ε : ℝ} (hε : 0 < ε) :
    Tendsto (fun n => ∫ θ, badProb f sl sweep (∫ θ, f θ ∂post) ε n θ ∂lam) atTop (𝓝 0) := by
  classical
  have ms' := sumStep_meas ms mf
  have mG : ∀ n : ℕ, Measurable fun p : Θ × ℝ => if ε ≤ |p.2 / n - ∫ θ, f θ ∂post| then (1 : ℝ) else 0 := fun n => Measurable.ite bad_meas measurable_const measurable_const
  have bG : ∀ (n : ℕ) (p : Θ × ℝ), |if ε ≤ |p.2 / n - ∫ θ, f θ ∂post| then (1 : ℝ) else 0| ≤ 1 := fun n p => by split_ifs <;> simp
  refine transfer hl (fun n => ?_) (fun n θ => tOp_nonneg (fun p => by split_ifs <;> simp) n _) (fun n θ => (le_abs_self _).trans (tOp_iter_bound (bG n) n _)) ?_
  · exact (tOp_iter_meas (sl := sl) ms' (mG n) n).comp (f := fun θ : Θ => (θ, (0 : ℝ))) (by fun_prop)
  obtain ⟨X, y, hc, h0⟩ := exists_chain (sl := sl) (sweep := sweep) post
  set Pr := post.prod (Measure.infinitePi fun _ : ℕ => sl) with hPr
  have hm0 : Pr.map (X 0) = post := by rw [h0, Measure.map_fst_prod]; simp
  have hmean := stationary_mean ms hmap hD hpD hle hge hc hm0 mf hf
  have st := hc.stationary ms hmap hm0
  have key : ∀ n : ℕ, ∫ θ, badProb f sl sweep (∫ θ, f θ ∂post) ε n θ ∂post ≤ (∫ ω, |(∑ t ∈ Finset.range n, f (X t ω)) / n - ∫ θ, f θ ∂post| ∂Pr) / ε := fun n => by
    have e := bad_eq ms hc mf (∫ θ, f θ ∂post) ε n
    rw [hm0] at e
    rw [← e, le_div_iff₀ hε, mul_comm]
    have il : Integrable (fun ω => |(∑ t ∈ Finset.range n, f (X t ω)) / n - ∫ θ, f θ ∂post|) Pr := by
      refine (((integrable_finsetSum _ fun t _ => ?_).div_const _).sub (integrable_const _)).abs
      exact (integrable_map_measure (f := X t) (μ := Pr) (g := f) mf.aestronglyMeasurable (hc.aemeas ms t)).1 (by rw [st t]; exact hf)
    exact mul_meas_ge_le_integral_of_nonneg (Eventually.of_forall fun ω => abs_nonneg _) il ε
  refine squeeze_zero (fun n => integral_nonneg fun θ => tOp_nonneg (fun p => by split_ifs <;> simp) n _) key ?_
  simpa using hmean.div_const ε

include ms hmap hD hpD hle hge in
/-- averages along the chain converge in probability, from every start -/
theorem IsChain.averages {Ω : Type*} [MeasurableSpace Ω] {Pr : Measure Ω} [IsProbabilityMeasure Pr] {X : ℕ → Ω → Θ} {y : ℕ → Ω → Sd} (hc : IsChain Pr sl sweep X y)
    (h0 : ∀ᵐ ω ∂Pr, X 0 ω ∈ D) : AveragesConverge Pr X post := by
  have inD : ∀ t, (∀ᵐ θ ∂Pr.map (X t), θ ∈ D) ∧ Pr.map (X (t + 1)) ≪ post := by
    intro t
    have hac : ∀ t, (∀ᵐ θ ∂Pr.map (X t), θ ∈ D) → Pr.map (X (t + 1)) ≪ post := fun t h => by
      have i := Measure.isProbabilityMeasure_map (hc.aemeas ms t)
      rw [hc.map_succ ms]
      refine Measure.AbsolutelyContinuous.mk fun s hs h0 => ?_
      rw [Measure.map_apply ms hs, Measure.prod_apply (ms hs), lintegral_eq_zero_iff (measurable_measure_prodMk_left (ms hs))]
      filter_upwards [h] with θ hθ
      have := hle θ hθ h0
      rwa [Measure.map_apply (show Measurable fun v => sweep θ v from ms.comp measurable_prodMk_left) hs] at this
    induction t with
    | zero => exact ⟨(ae_map_iff hc.meas hD).2 h0, hac 0 ((ae_map_iff hc.meas hD).2 h0)⟩
    | succ t ih => exact ⟨ih.2.ae_le hpD, hac (t + 1) (ih.2.ae_le hpD)⟩
  intro f mf hf b ε hε
  have main : ∀ (b : ℕ) {ε : ℝ}, 0 < ε → Tendsto (fun n : ℕ => Pr.real {ω | ε ≤ |(∑ t ∈ Finset.range n, f (X (b + 1 + t) ω)) / n - ∫ θ, f θ ∂post|}) atTop (𝓝 0) := fun b ε hε => by
    have i := Measure.isProbabilityMeasure_map (hc.aemeas ms (b + 1))
    have := bad_tendsto ms hmap hD hpD hle hge mf hf (inD b).2 hε
    refine this.congr fun n => ?_
    exact (bad_eq ms (hc.shift ms (b + 1)) mf _ ε n).symm
  have evt : ∀ {u : ℕ → ℝ} {δ : ℝ}, 0 < δ → Tendsto u atTop (𝓝 0) → ∃ N, ∀ n, N ≤ n → u n ≤ δ := fun {u δ} hδ hu => by
    obtain ⟨N, hN⟩ := eventually_atTop.1 (hu.eventually (eventually_le_nhds hδ))
    exact ⟨N, hN⟩
  rcases b with _ | b
  · set c := ∫ θ, f θ ∂post with hcd
    obtain ⟨N1, hN1⟩ := evt (δ := ε / 2) (by positivity) (main 0 (ε := ε / 2) (by positivity))
    have m0 : AEMeasurable (fun ω => f (X 0 ω) - c) Pr := (mf.comp_aemeasurable hc.meas).sub_const _
    have tm : TendstoInMeasure Pr (fun (n : ℕ) ω => (f (X 0 ω) - c) / (n + 1)) atTop (fun _ => 0) := by
      refine tendstoInMeasure_of_tendsto_ae (fun n => (m0.div_const _).aestronglyMeasurable) (Eventually.of_forall fun ω => ?_)
      have := (tendsto_one_div_add_atTop_nhds_zero_nat (𝕜 := ℝ)).const_mul (f (X 0 ω) - c)
      simpa [div_eq_mul_inv] using this
    rw [tendstoInMeasure_iff_measureReal_norm] at tm
    obtain ⟨N2, hN2⟩ := evt (δ := ε / 2) (by positivity) (tm (ε / 2) (by positivity))
    refine ⟨max N1 N2 + 1, fun n hn => ?_⟩
    obtain ⟨n, rfl⟩ : ∃ m, n = m + 1 := ⟨n - 1, by omega⟩
    have a := hN1 n (by omega)
    have b := hN2 n (by omega)
    have sub : {ω | ε ≤ |(∑ t ∈ Finset.range (n + 1), f (X (0 + t) ω)) / ((n + 1 : ℕ) : ℝ) - c|} ⊆
        {ω | ε / 2 ≤ |(∑ t ∈ Finset.range n, f (X (0 + 1 + t) ω)) / n - c|} ∪ {ω | ε / 2 ≤ ‖(f (X 0 ω) - c) / (n + 1) - 0‖} := by
      intro ω hω
      by_contra hcon
      rw [Set.mem_union, not_or] at hcon
      obtain ⟨q1, q2⟩ := hcon
      simp only [Set.mem_ofPred_eq, not_le] at q1 q2
      rw [sub_zero, Real.norm_eq_abs] at q2
      have hω' : ε ≤ |(∑ t ∈ Finset.range (n + 1), f (X (0 + t) ω)) / ((n + 1 : ℕ) : ℝ) - c| := hω
      have n1 : (0 : ℝ) < n + 1 := by positivity
      have e : (∑ t ∈ Finset.range (n + 1), f (X (0 + t) ω)) / ((n + 1 : ℕ) : ℝ) - c = (∑ t ∈ Finset.range n, f (X (0 + 1 + t) ω) - n * c) / (n + 1) + (f (X 0 ω) - c) / (n + 1) := by
        rw [Finset.sum_range_succ']
        have e3 : ∑ t ∈ Finset.range n, f (X (0 + (t + 1)) ω) = ∑ t ∈ Finset.range n, f (X (0 + 1 + t) ω) := Finset.sum_congr rfl fun t _ => by rw [show 0 + (t + 1) = 0 + 1 + t by omega]
        rw [e3, show 0 + 0 = 0 from rfl]
        push_cast
        field_simp
        ring
      have h1 : |(∑ t ∈ Finset.range n, f (X (0 + 1 + t) ω) - n * c) / (n + 1)| ≤ |(∑ t ∈ Finset.range n, f (X (0 + 1 + t) ω)) / n - c| := by
        rcases Nat.eq_zero_or_pos n with h0 | h0
        · subst h0; simp
        · have n0 : (0 : ℝ) < n := by exact_mod_cast h0
          have e2 : (∑ t ∈ Finset.range n, f (X (0 + 1 + t) ω)) / n - c = (∑ t ∈ Finset.range n, f (X (0 + 1 + t) ω) - n * c) / n := by field_simp
          rw [e2, abs_div, abs_div, abs_of_pos n0, abs_of_pos n1]
          exact div_le_div_of_nonneg_left (abs_nonneg _) n0 (by linarith)
      rw [e] at hω'
      have := abs_add_le ((∑ t ∈ Finset.range n, f (X (0 + 1 + t) ω) - n * c) / (n + 1)) ((f (X 0 ω) - c) / (n + 1))
      linarith
    refine (measureReal_mono sub).trans ((measureReal_union_le _ _).trans ?_)
    linarith
  · exact evt hε (main b hε)

end

section
variable {Ω Θ Sd S U St : Type*} [MeasurableSpace Ω] [MeasurableSpace Θ] [MeasurableSpace Sd] [MeasurableSpace U] {Pr : Measure Ω} [IsProbabilityMeasure Pr] {μ : Measure U}
  {post : Measure Θ} [IsProbabilityMeasure post] {sl : Measure Sd} [IsProbabilityMeasure sl] {sweep : Θ → Sd → Θ} (ms : Measurable fun y : Θ × Sd => sweep y.1 y.2)
  (hmap : (post.prod sl).map (fun y => sweep y.1 y.2) = post)
  {D : Set Θ} (hD : MeasurableSet D) (hpD : ∀ᵐ θ ∂post, θ ∈ D) (hle : ∀ θ ∈ D, sl.map (sweep θ) ≪ post) (hge : ∀ θ ∈ D, post ≪ sl.map (sweep θ))
  {seeds : (S → U) → Sd} (mseeds : Measurable seeds)
  (hseeds : ∀ x : Ω → S → U, iIndepFun (fun σ ω => x ω σ) Pr → (∀ σ, HasLaw (fun ω => x ω σ) μ Pr) → HasLaw (fun ω => seeds (x ω)) sl Pr)
  {par : St → Θ} {valid : St → Prop} [MeasurableSpace.CountablyGenerated Θ]

include ms hmap hD hpD hle hge mseeds hseeds in
/-- averages over successive calls started in any valid state -/
theorem chain_average {run : ℕ → Ω → (S → U) → St → Except PyErr St} (step : ∀ t ω s, valid s → ∀ x, ∃ s', run t ω x s = .ok s' ∧ valid s' ∧ par s' = sweep (par s) (seeds x))
    {s : ℕ → Ω → St} (hs : ∀ ω, valid (s 0 ω)) (hs0 : ∀ ω, par (s 0 ω) ∈ D) (hm0 : AEMeasurable (fun ω => par (s 0 ω)) Pr)
    {x : ℕ → Ω → S → U} (hrun : ∀ t ω s', run t ω (x t ω) (s t ω) = .ok s' → s (t + 1) ω = s')
    (hi : ∀ t, iIndepFun (fun σ ω => x t ω σ) Pr) (hl : ∀ t σ, HasLaw (fun ω => x t ω σ) μ Pr) (hf : ∀ t, IndepFun (fun ω => (par (s 0 ω), fun i : Fin t => x i ω)) (x t) Pr) :
    AveragesConverge Pr (fun t ω => par (s t ω)) post := by
  have hv : ∀ t ω, valid (s t ω) := by
    intro t
    induction t with
    | zero => exact hs
    | succ t ih =>
      intro ω
      obtain ⟨s', h1, h2, -⟩ := step t ω (s t ω) (ih ω) (x t ω)
      rw [hrun t ω _ h1]; exact h2
  have hc : IsChain Pr sl sweep (fun t ω => par (s t ω)) (fun t ω => seeds (x t ω)) := by
    refine ⟨fun t ω => ?_, hm0, fun t => hseeds (x t) (hi t) (hl t), fun t => ?_⟩
    · obtain ⟨s', h1, -, h3⟩ := step t ω (s t ω) (hv t ω) (x t ω)
      rw [hrun t ω _ h1]; exact h3
    · exact (hf t).comp (φ := fun z : Θ × (Fin t → S → U) => (z.1, fun i => seeds (z.2 i)))
        (measurable_fst.prodMk (measurable_pi_lambda _ fun i => mseeds.comp ((measurable_pi_apply i).comp measurable_snd))) mseeds
  exact hc.averages ms hmap hD hpD hle hge (Eventually.of_forall hs0)

end

end PyHawkes
