import Verif.Props.MixInvariant
import Verif.Props.GibbsProper

/-!
# C85: the gamma-mixture model's `resample_model` and the posterior distribution
-/
set_option linter.unusedSectionVars false
set_option linter.unusedVariables false

namespace PyHawkes
open Finset Spec MeasureTheory ProbabilityTheory

section
variable {U Ω : Type*} [MeasurableSpace U] [MeasurableSpace Ω] {μ : Measure U} {Pr : Measure Ω} (G : Generator μ) {κ0 ν0 : ℝ} {c : HawkesState} {n : ERFixed}

/-- some weight is below `1e-32` -/
def Tiny (c : HawkesState) (θ : Theta c.base.K) : Prop := ∃ e, θ.2.2.1 e < 1e-32

theorem measurableSet_tiny : MeasurableSet {θ : Theta c.base.K | Tiny c θ} := by
  have e : {θ : Theta c.base.K | Tiny c θ} = ⋃ e, {θ : Theta c.base.K | θ.2.2.1 e < 1e-32} := by ext θ; simp [Tiny]
  rw [e]
  exact MeasurableSet.iUnion fun e => measurableSet_lt (by fun_prop) measurable_const

theorem mixSweep_clip (b : Bool) (θ : Theta c.base.K) (x : Seeds c U) (h : ¬ Tiny c (mixSweep G κ0 ν0 c n id b θ x)) :
    mixSweep G κ0 ν0 c n (fun w => max w 1e-32) b θ x = mixSweep G κ0 ν0 c n id b θ x := by
  have hW : ∀ e, (1e-32 : ℝ) ≤ (mixAW G κ0 ν0 c n θ x).2 e := by
    intro e
    by_contra hlt
    exact h ⟨e, not_le.1 hlt⟩
  have hb : mixBody G κ0 ν0 c n (fun w => max w 1e-32) θ x = mixBody G κ0 ν0 c n id θ x := by
    unfold mixBody
    have : (fun e => max ((mixAW G κ0 ν0 c n θ x).2 e) 1e-32) = fun e => id ((mixAW G κ0 ν0 c n θ x).2 e) := funext fun e => max_eq_left (hW e)
    rw [this]
  unfold mixSweep
  rw [hb]

/-- the law of the parameters after one call, had the weights not been clipped -/
theorem mix_ideal_law [IsProbabilityMeasure Pr] (hκ0 : 0 < κ0) (hν0 : 0 < ν0) (h : CfgOk c n) (b : Bool) {θ : Ω → Theta c.base.K} {x : Ω → Site → U}
    (hi : iIndepFun (fun σ ω => x ω σ) Pr) (hl : ∀ σ, HasLaw (fun ω => x ω σ) μ Pr) (hf : IndepFun θ x Pr)
    (hθ : HasLaw θ (posteriorMix κ0 ν0 c n) Pr) : HasLaw (fun ω => mixSweep G κ0 ν0 c n id b (θ ω) (seedsOf c (x ω))) (posteriorMix κ0 ν0 c n) Pr := by
  have hμ := gen_prob G
  have hs := seeds_law (c := c) hi hl
  exact hasLaw_step (measurable_mixSweep G κ0 ν0 measurable_id b) (posteriorMix_map G κ0 ν0 hκ0 hν0 h b) hθ hs (hf.comp measurable_id measurable_seedsOf)

/-- **C85** (one call). If the parameters have the posterior distribution, the call succeeds, and there is an exact posterior draw `θ*` such that the new components, background rates and impulse
weights are those of `θ*`, the new weights are those of `θ*` with every value below `1e-32` replaced by `1e-32`, and the new scale is that of `θ*` unless some weight was replaced.
Missing for the full claim: the case where a weight is replaced (`C85_violated`). -/
theorem C85_posterior_partial [IsProbabilityMeasure Pr] (h : CfgOk c n) (hκ0 : 0 < κ0) (hν0 : 0 < ν0) (huge : ℝ) (b : Bool) (d : Ω → StepDraws) (hd : ∀ ω, DrawsOk c.base.K c.base.B 1 (d ω))
    (s : Ω → HawkesState) (hs : ∀ ω, SameModel c n (s ω) ∧ HyperOk (s ω) ∧ ParamsOk (s ω)) (x : Ω → Site → U)
    (hx : FreshSeeds μ Pr (fun ω => theta c.base.K (s ω)) x) (hlaw : HasLaw (fun ω => theta c.base.K (s ω)) (posteriorMix κ0 ν0 c n) Pr) :
    ∃ (s' : Ω → HawkesState) (θstar : Ω → Theta c.base.K),
      (∀ ω, resampleModelMix huge κ0 ν0 b (G.draws c.base.K c.base.B (d ω) (x ω)) (s ω) = .ok (s' ω) ∧ SameModel c n (s' ω) ∧ HyperOk (s' ω) ∧ ParamsOk (s' ω)) ∧
      HasLaw θstar (posteriorMix κ0 ν0 c n) Pr ∧
      (∀ ω, (theta c.base.K (s' ω)).1 = (θstar ω).1 ∧ (∀ e, (theta c.base.K (s' ω)).2.2.1 e = max ((θstar ω).2.2.1 e) 1e-32) ∧ (theta c.base.K (s' ω)).2.2.2 = (θstar ω).2.2.2) ∧
      (∀ ω, (∀ e, 1e-32 ≤ (θstar ω).2.2.1 e) → theta c.base.K (s' ω) = θstar ω) ∧
      (b = false → ∀ ω, (theta c.base.K (s' ω)).2.1 = (θstar ω).2.1) := by
  choose s' h1 h2 h3 h4 h5 using fun ω => mix_sweep_eq G κ0 ν0 c n huge b (d ω) (hd ω) h.B (s ω) (hs ω).1 (hs ω).2.1 (hs ω).2.2 h.data (x ω)
  refine ⟨s', fun ω => mixSweep G κ0 ν0 c n id b (theta c.base.K (s ω)) (seedsOf c (x ω)), fun ω => ⟨h1 ω, h2 ω, h3 ω, h4 ω⟩, mix_ideal_law G hκ0 hν0 h b hx.indep hx.law hx.fresh hlaw, ?_, ?_, ?_⟩
  · intro ω
    rw [h5 ω]
    exact ⟨rfl, fun e => rfl, rfl⟩
  · intro ω hω
    rw [h5 ω]
    exact mixSweep_clip G b _ _ (by rintro ⟨e, he⟩; exact absurd (hω e) (not_le.2 he))
  · rintro rfl ω
    rw [h5 ω]
    rfl

theorem close_of_agree [IsProbabilityMeasure Pr] {E : Type*} [MeasurableSpace E] {ν : Measure E} {X Y : Ω → E} (hY : HasLaw Y ν Pr) (bad : Set Ω) (h : ∀ ω, ω ∉ bad → X ω = Y ω) {B : Set E} (hB : MeasurableSet B) :
    Pr {ω | X ω ∈ B} ≤ ν B + Pr bad ∧ ν B ≤ Pr {ω | X ω ∈ B} + Pr bad := by
  have e : Pr {ω | Y ω ∈ B} = ν B := by
    rw [← hY.map_eq, Measure.map_apply_of_aemeasurable hY.aemeasurable hB]; rfl
  rw [← e]
  constructor
  · refine le_trans (measure_mono ?_) (measure_union_le _ _)
    intro ω hω
    by_cases hb : ω ∈ bad
    · exact .inr hb
    · left; change Y ω ∈ B; rw [← h ω hb]; exact hω
  · refine le_trans (measure_mono ?_) (measure_union_le _ _)
    intro ω hω
    by_cases hb : ω ∈ bad
    · exact .inr hb
    · left; change X ω ∈ B; rw [h ω hb]; exact hω

/-- **C85** (whole runs): `t` successive calls (each with or without the network update), the seeds of each call fresh. For every event the probability under the law of the parameters differs from the
posterior probability by at most `t` times the posterior probability that some weight is below `1e-32`. Missing for the full claim: that this error is zero (`C85_violated`). -/
theorem C85_chain_partial [IsProbabilityMeasure Pr] (h : CfgOk c n) (hκ0 : 0 < κ0) (hν0 : 0 < ν0) (huge : ℝ) (b : ℕ → Bool) (d : ℕ → Ω → StepDraws) (hd : ∀ t ω, DrawsOk c.base.K c.base.B 1 (d t ω))
    (s : ℕ → Ω → HawkesState) (hs : ∀ ω, SameModel c n (s 0 ω) ∧ HyperOk (s 0 ω) ∧ ParamsOk (s 0 ω)) (x : ℕ → Ω → Site → U)
    (hrun : ∀ t ω s', resampleModelMix huge κ0 ν0 (b t) (G.draws c.base.K c.base.B (d t ω) (x t ω)) (s t ω) = .ok s' → s (t + 1) ω = s')
    (hx : ∀ t, FreshSeeds μ Pr (fun ω => (theta c.base.K (s 0 ω), fun i : Fin t => x i ω)) (x t))
    (hlaw : HasLaw (fun ω => theta c.base.K (s 0 ω)) (posteriorMix κ0 ν0 c n) Pr) (t : ℕ) :
    (∀ ω, resampleModelMix huge κ0 ν0 (b t) (G.draws c.base.K c.base.B (d t ω) (x t ω)) (s t ω) = .ok (s (t + 1) ω)) ∧
      ∀ B : Set (Theta c.base.K), MeasurableSet B →
        Pr {ω | theta c.base.K (s t ω) ∈ B} ≤ posteriorMix κ0 ν0 c n B + t * posteriorMix κ0 ν0 c n {θ | ∃ e, θ.2.2.1 e < 1e-32} ∧
        posteriorMix κ0 ν0 c n B ≤ Pr {ω | theta c.base.K (s t ω) ∈ B} + t * posteriorMix κ0 ν0 c n {θ | ∃ e, θ.2.2.1 e < 1e-32} := by
  set ε := posteriorMix κ0 ν0 c n {θ | Tiny c θ} with hε
  have key : ∀ t, (∀ ω, SameModel c n (s t ω) ∧ HyperOk (s t ω) ∧ ParamsOk (s t ω)) ∧
      ∃ (Φ : Theta c.base.K × (Fin t → Site → U) → Theta c.base.K) (bad : Set Ω), Measurable Φ ∧ HasLaw (fun ω => Φ (theta c.base.K (s 0 ω), fun i : Fin t => x i ω)) (posteriorMix κ0 ν0 c n) Pr ∧
        (∀ ω, ω ∉ bad → theta c.base.K (s t ω) = Φ (theta c.base.K (s 0 ω), fun i : Fin t => x i ω)) ∧ Pr bad ≤ t * ε := by
    intro t
    induction t with
    | zero => exact ⟨hs, Prod.fst, ∅, measurable_fst, hlaw, fun ω _ => rfl, by simp⟩
    | succ t ih =>
      obtain ⟨ih1, Φ, bad, hΦ, hΦl, hΦe, hbad⟩ := ih
      choose s' h1 h2 h3 h4 h5 using fun ω => mix_sweep_eq G κ0 ν0 c n huge (b t) (d t ω) (hd t ω) h.B (s t ω) (ih1 ω).1 (ih1 ω).2.1 (ih1 ω).2.2 h.data (x t ω)
      have es : ∀ ω, s (t + 1) ω = s' ω := fun ω => hrun t ω _ (h1 ω)
      have e : ∀ ω, theta c.base.K (s (t + 1) ω) = mixSweep G κ0 ν0 c n (fun w => max w 1e-32) (b t) (theta c.base.K (s t ω)) (seedsOf c (x t ω)) := fun ω => by rw [es]; exact h5 ω
      have hfr : IndepFun (fun ω => Φ (theta c.base.K (s 0 ω), fun i : Fin t => x i ω)) (x t) Pr := (hx t).fresh.comp hΦ measurable_id
      have hl1 := mix_ideal_law G hκ0 hν0 h (b t) (hx t).indep (hx t).law hfr hΦl
      refine ⟨fun ω => by rw [es]; exact ⟨h2 ω, h3 ω, h4 ω⟩, fun y => mixSweep G κ0 ν0 c n id (b t) (Φ (y.1, fun i => y.2 i.castSucc)) (seedsOf c (y.2 (Fin.last t))),
        bad ∪ {ω | Tiny c (mixSweep G κ0 ν0 c n id (b t) (Φ (theta c.base.K (s 0 ω), fun i : Fin t => x i ω)) (seedsOf c (x t ω)))}, ?_, hl1, ?_, ?_⟩
      · refine (measurable_mixSweep G κ0 ν0 measurable_id (b t)).comp (f := fun y : Theta c.base.K × (Fin (t + 1) → Site → U) => (Φ (y.1, fun i => y.2 i.castSucc), seedsOf c (y.2 (Fin.last t)))) ?_
        refine (hΦ.comp (f := fun y : Theta c.base.K × (Fin (t + 1) → Site → U) => (y.1, fun i : Fin t => y.2 i.castSucc)) (by fun_prop)).prodMk ?_
        exact measurable_seedsOf.comp (f := fun y : Theta c.base.K × (Fin (t + 1) → Site → U) => y.2 (Fin.last t)) (by fun_prop)
      · intro ω hω
        rw [Set.mem_union, not_or] at hω
        rw [e, hΦe ω hω.1]
        exact mixSweep_clip G (b t) _ _ hω.2
      · refine le_trans (measure_union_le _ _) ?_
        have : Pr {ω | Tiny c (mixSweep G κ0 ν0 c n id (b t) (Φ (theta c.base.K (s 0 ω), fun i : Fin t => x i ω)) (seedsOf c (x t ω)))} = ε := by
          rw [hε, ← hl1.map_eq, Measure.map_apply_of_aemeasurable hl1.aemeasurable measurableSet_tiny]; rfl
        rw [this, Nat.cast_succ, add_mul, one_mul]
        exact add_le_add hbad le_rfl
  refine ⟨fun ω => ?_, fun B hB => ?_⟩
  · obtain ⟨h1, -⟩ := key t
    obtain ⟨s', hr, -⟩ := mix_sweep_eq G κ0 ν0 c n huge (b t) (d t ω) (hd t ω) h.B (s t ω) (h1 ω).1 (h1 ω).2.1 (h1 ω).2.2 h.data (x t ω)
    rw [hrun t ω _ hr]; exact hr
  · obtain ⟨-, Φ, bad, -, hΦl, hΦe, hbad⟩ := key t
    obtain ⟨a1, a2⟩ := close_of_agree hΦl bad hΦe hB
    exact ⟨a1.trans (add_le_add le_rfl hbad), a2.trans (add_le_add le_rfl hbad)⟩

/-! ### the clipped weights have an atom -/

theorem lintegral_pos_of_ae {E : Type*} [MeasurableSpace E] (ν : Measure E) (h0 : ν ≠ 0) {f : E → ENNReal} (hf : Measurable f) (h : ∀ᵐ x ∂ν, 0 < f x) : 0 < ∫⁻ x, f x ∂ν := by
  rw [pos_iff_ne_zero, Ne, lintegral_eq_zero_iff hf]
  intro hz
  have : ∀ᵐ x ∂ν, False := by
    filter_upwards [hz, h] with x h1 h2
    rw [h1] at h2
    exact lt_irrefl _ h2
  rw [Filter.eventually_false_iff_eq_bot, ae_eq_bot] at this
  exact h0 this

theorem gammaPDF_small {k v ε : ℝ} (hk : 0 < k) (hv : 0 < v) (hε : 0 < ε) : 0 < ∫⁻ w, gammaPDF k v w * (Set.Iio ε).indicator 1 w := by
  have hm : Measurable (gammaPDF k v) := (measurable_gammaPDFReal k v).ennreal_ofReal
  have mI : Measurable ((Set.Iio ε).indicator (1 : ℝ → ENNReal)) := measurable_one.indicator measurableSet_Iio
  have mm : Measurable fun w => gammaPDF k v w * (Set.Iio ε).indicator 1 w := hm.mul mI
  refine lt_of_lt_of_le ?_ (setLIntegral_le_lintegral (Set.Ioo 0 ε) _)
  refine lintegral_pos_of_ae _ ?_ mm ?_
  · rw [Ne, Measure.restrict_eq_zero, Real.volume_Ioo, sub_zero, ENNReal.ofReal_eq_zero, not_le]; exact hε
  · refine (ae_restrict_iff' measurableSet_Ioo).2 (Filter.Eventually.of_forall fun w hw => ?_)
    rw [Set.indicator_of_mem (Set.mem_Iio.2 hw.2), Pi.one_apply, mul_one]
    exact ENNReal.ofReal_pos.2 (gammaPDFReal_pos hk hv hw.1)

theorem mixPdf_mass {κ v a : ℝ} (hκ0 : 0 < κ0) (hν0 : 0 < ν0) (hκ : 0 < κ) (hv : 0 < v) : ∫⁻ w, mixWeightPdf κ0 ν0 κ v a w = 1 := by
  unfold mixWeightPdf
  split_ifs
  · exact lintegral_gammaPDF_eq_one hκ hv
  · exact lintegral_gammaPDF_eq_one hκ0 hν0

theorem mixPdf_small {κ v a ε : ℝ} (hκ0 : 0 < κ0) (hν0 : 0 < ν0) (hκ : 0 < κ) (hv : 0 < v) (hε : 0 < ε) : 0 < ∫⁻ w, mixWeightPdf κ0 ν0 κ v a w * (Set.Iio ε).indicator 1 w := by
  unfold mixWeightPdf
  split_ifs
  · exact gammaPDF_small hκ hv hε
  · exact gammaPDF_small hκ0 hν0 hε

theorem priorMix_small (hκ0 : 0 < κ0) (hν0 : 0 < ν0) (h : CfgOk c n) (e : Pair c.base.K) {ε : ℝ} (hε : 0 < ε) : 0 < priorMix κ0 ν0 c n {θ | θ.2.2.1 e < ε} := by
  obtain ⟨G⟩ := C83_generator_exists
  have hS := scale_prob G h
  have hΦ := phi_prob h
  have hB := mixBase_sfinite h
  have hP : ∀ e : Pair c.base.K, IsProbabilityMeasure (coinLaw (n.P e.1 e.2)) := fun e => coinLaw_prob (P_mem h e).1 (P_mem h e).2
  have hms : MeasurableSet {θ : Theta c.base.K | θ.2.2.1 e < ε} := measurableSet_lt (by fun_prop) measurable_const
  have mI : Measurable ((Set.Iio ε).indicator (1 : ℝ → ENNReal)) := measurable_one.indicator measurableSet_Iio
  have mF : Measurable fun y : ℝ × ((Pair c.base.K → ℝ) × (Pair c.base.K → ℝ)) × (Fin c.base.K → ℝ) × (Pair c.base.K → Vec ℝ) =>
      mixDens κ0 ν0 n y.1 y.2.1.1 y.2.1.2 * (Set.Iio ε).indicator 1 (y.2.1.2 e) :=
    ((measurable_mixDens (n := n) (c := c) κ0 ν0).comp
      (f := fun y : ℝ × ((Pair c.base.K → ℝ) × (Pair c.base.K → ℝ)) × (Fin c.base.K → ℝ) × (Pair c.base.K → Vec ℝ) => (y.1, y.2.1.1, y.2.1.2)) (by fun_prop)).mul
      (mI.comp (f := fun y : ℝ × ((Pair c.base.K → ℝ) × (Pair c.base.K → ℝ)) × (Fin c.base.K → ℝ) × (Pair c.base.K → Vec ℝ) => y.2.1.2 e) (by fun_prop))
  rw [← lintegral_indicator_one hms, priorMix_lintegral G κ0 ν0 h (measurable_one.indicator hms)]
  change 0 < ∫⁻ y : ℝ × ((Pair c.base.K → ℝ) × (Pair c.base.K → ℝ)) × (Fin c.base.K → ℝ) × (Pair c.base.K → Vec ℝ), mixDens κ0 ν0 n y.1 y.2.1.1 y.2.1.2 * (Set.Iio ε).indicator 1 (y.2.1.2 e) ∂_
  rw [lintegral_prod _ mF.aemeasurable]
  refine lintegral_pos_of_ae _ (IsProbabilityMeasure.ne_zero _) mF.lintegral_prod_right' ?_
  filter_upwards [scale_pos G h] with η hη
  have m1 : Measurable fun y : ((Pair c.base.K → ℝ) × (Pair c.base.K → ℝ)) × (Fin c.base.K → ℝ) × (Pair c.base.K → Vec ℝ) => mixDens κ0 ν0 n η y.1.1 y.1.2 * (Set.Iio ε).indicator 1 (y.1.2 e) :=
    mF.comp (f := fun y => (η, y)) (by fun_prop)
  have m2 : Measurable fun X : (Pair c.base.K → ℝ) × (Pair c.base.K → ℝ) => mixDens (c := c) κ0 ν0 n η X.1 X.2 * (Set.Iio ε).indicator 1 (X.2 e) :=
    ((measurable_mixDens (n := n) (c := c) κ0 ν0).comp (f := fun X : (Pair c.base.K → ℝ) × (Pair c.base.K → ℝ) => (η, X)) (by fun_prop)).mul
      (mI.comp (f := fun X : (Pair c.base.K → ℝ) × (Pair c.base.K → ℝ) => X.2 e) (by fun_prop))
  rw [lintegral_prod _ m1.aemeasurable]
  simp only [lintegral_const, measure_univ, mul_one]
  unfold mixBase
  rw [lintegral_prod _ m2.aemeasurable]
  refine lintegral_pos_of_ae _ (IsProbabilityMeasure.ne_zero _) m2.lintegral_prod_right' (Filter.Eventually.of_forall fun A => ?_)
  have e1 : ∀ W : Pair c.base.K → ℝ, mixDens (c := c) κ0 ν0 n η A W * (Set.Iio ε).indicator 1 (W e)
      = ∏ e', mixWeightPdf κ0 ν0 n.kappa η (A e') (W e') * (if e' = e then (Set.Iio ε).indicator 1 (W e') else 1) := by
    intro W
    unfold mixDens
    rw [prod_mul_distrib, prod_ite_eq' univ e, if_pos (mem_univ e)]
  simp only [e1]
  rw [lintegral_prod_pi (fun _ : Pair c.base.K => (volume : Measure ℝ)) (fun (e' : Pair c.base.K) w => mixWeightPdf κ0 ν0 n.kappa η (A e') w * (if e' = e then (Set.Iio ε).indicator 1 w else 1))
    (fun e' => by
      refine Measurable.mul ((measurable_mixWeightPdf κ0 ν0 n.kappa).comp (f := fun w => (η, A e', w)) (by fun_prop)) ?_
      split_ifs
      · exact mI
      · exact measurable_const)]
  rw [pos_iff_ne_zero, prod_ne_zero_iff]
  intro e' _
  rw [← pos_iff_ne_zero]
  split_ifs
  · exact mixPdf_small hκ0 hν0 h.net.kappa hη hε
  · simp only [mul_one]
    rw [mixPdf_mass hκ0 hν0 h.net.kappa hη]; exact one_pos

theorem posteriorMix_small (hκ0 : 0 < κ0) (hν0 : 0 < ν0) (h : CfgOk c n) (hp : IsProbabilityMeasure (posteriorMix κ0 ν0 c n)) (e : Pair c.base.K) {ε : ℝ} (hε : 0 < ε) :
    0 < posteriorMix κ0 ν0 c n {θ | θ.2.2.1 e < ε} := by
  have hms : MeasurableSet {θ : Theta c.base.K | θ.2.2.1 e < ε} := measurableSet_lt (by fun_prop) measurable_const
  have hk : (∫⁻ θ, likelihoodMix c θ ∂priorMix κ0 ν0 c n)⁻¹ ≠ 0 := by
    intro hz
    have := hp.measure_univ
    unfold posteriorMix at this
    rw [hz, zero_smul] at this
    simp at this
  have hne : (priorMix κ0 ν0 c n).restrict {θ : Theta c.base.K | θ.2.2.1 e < ε} ≠ 0 := by
    rw [Ne, Measure.restrict_eq_zero]; exact (priorMix_small hκ0 hν0 h e hε).ne'
  unfold posteriorMix
  rw [Measure.smul_apply, withDensity_apply _ hms, smul_eq_mul]
  refine ENNReal.mul_pos hk (lintegral_pos_of_ae _ hne (measurable_likelihoodMix h.data) (Filter.Eventually.of_forall fun θ => ?_)).ne'
  exact ENNReal.ofReal_pos.2 (Real.exp_pos _)

theorem posteriorMix_no_atom (h : CfgOk c n) (e : Pair c.base.K) (w : ℝ) : posteriorMix κ0 ν0 c n {θ | θ.2.2.1 e = w} = 0 := by
  obtain ⟨G⟩ := C83_generator_exists
  have hS := scale_prob G h
  have hΦ := phi_prob h
  have hP : ∀ e : Pair c.base.K, IsProbabilityMeasure (coinLaw (n.P e.1 e.2)) := fun e => coinLaw_prob (P_mem h e).1 (P_mem h e).2
  have hW : ∀ᵐ W ∂Measure.pi (fun _ : Pair c.base.K => (volume : Measure ℝ)), W e ≠ w := (Measure.quasiMeasurePreserving_eval (fun _ : Pair c.base.K => (volume : Measure ℝ)) e).ae (Measure.ae_ne volume w)
  have a1 : ∀ᵐ y ∂(Measure.pi fun _ : Pair c.base.K => (volume : Measure ℝ)).prod (phiPrior c), y.1 e ≠ w := Measure.quasiMeasurePreserving_fst.ae hW
  have a2 : ∀ᵐ y ∂(scalePrior n).prod ((Measure.pi fun _ : Pair c.base.K => (volume : Measure ℝ)).prod (phiPrior c)), y.2.1 e ≠ w := Measure.quasiMeasurePreserving_snd.ae a1
  have a3 : ∀ᵐ y ∂(Measure.pi fun e : Pair c.base.K => coinLaw (n.P e.1 e.2)).prod ((scalePrior n).prod ((Measure.pi fun _ : Pair c.base.K => (volume : Measure ℝ)).prod (phiPrior c))), y.2.2.1 e ≠ w :=
    Measure.quasiMeasurePreserving_snd.ae a2
  have ac : posteriorMix κ0 ν0 c n ≪ (Measure.pi fun e : Pair c.base.K => coinLaw (n.P e.1 e.2)).prod ((scalePrior n).prod ((Measure.pi fun _ : Pair c.base.K => (volume : Measure ℝ)).prod (phiPrior c))) :=
    (Measure.smul_absolutelyContinuous).trans ((withDensity_absolutelyContinuous _ _).trans (withDensity_absolutelyContinuous _ _))
  have := ac.ae_le a3
  rw [mem_ae_iff] at this
  refine measure_mono_null (fun θ hθ => ?_) this
  exact fun hn => hn hθ

/-- **C85 is false of the code as it stands**: for every valid model with at least one process, after a call started from the posterior distribution every weight is exactly `1e-32` with positive
probability; the posterior gives that event probability zero. So the new parameters do not have the posterior distribution. -/
theorem C85_violated [IsProbabilityMeasure Pr] (h : CfgOk c n) (hκ0 : 0 < κ0) (hν0 : 0 < ν0) (huge : ℝ) (b : Bool) (d : Ω → StepDraws) (hd : ∀ ω, DrawsOk c.base.K c.base.B 1 (d ω))
    (s : Ω → HawkesState) (hs : ∀ ω, SameModel c n (s ω) ∧ HyperOk (s ω) ∧ ParamsOk (s ω)) (x : Ω → Site → U)
    (hx : FreshSeeds μ Pr (fun ω => theta c.base.K (s ω)) x) (hlaw : HasLaw (fun ω => theta c.base.K (s ω)) (posteriorMix κ0 ν0 c n) Pr)
    (s' : Ω → HawkesState) (hrun : ∀ ω, resampleModelMix huge κ0 ν0 b (G.draws c.base.K c.base.B (d ω) (x ω)) (s ω) = .ok (s' ω)) (e : Pair c.base.K) :
    0 < Pr {ω | (s' ω).W e.1 e.2 = 1e-32} ∧ posteriorMix κ0 ν0 c n {θ | θ.2.2.1 e = 1e-32} = 0 ∧ ¬ HasLaw (fun ω => theta c.base.K (s' ω)) (posteriorMix κ0 ν0 c n) Pr := by
  obtain ⟨s'', θstar, h1, h2, h3, -, -⟩ := C85_posterior_partial G h hκ0 hν0 huge b d hd s hs x hx hlaw
  have es : ∀ ω, s'' ω = s' ω := fun ω => Except.ok.inj ((h1 ω).1.symm.trans (hrun ω))
  have hp : IsProbabilityMeasure (posteriorMix κ0 ν0 c n) := by rw [← hlaw.map_eq]; exact Measure.isProbabilityMeasure_map hlaw.aemeasurable
  have hms : MeasurableSet {θ : Theta c.base.K | θ.2.2.1 e < 1e-32} := measurableSet_lt (by fun_prop) measurable_const
  have hms' : MeasurableSet {θ : Theta c.base.K | θ.2.2.1 e = 1e-32} := measurableSet_eq_fun (by fun_prop) measurable_const
  have hpos : 0 < Pr {ω | (s' ω).W e.1 e.2 = 1e-32} := by
    have h0 := posteriorMix_small hκ0 hν0 h hp e (ε := 1e-32) (by norm_num)
    rw [← h2.map_eq, Measure.map_apply_of_aemeasurable h2.aemeasurable hms] at h0
    refine lt_of_lt_of_le h0 (measure_mono fun ω hω => ?_)
    have hlt : (θstar ω).2.2.1 e < 1e-32 := hω
    have := (h3 ω).2.1 e
    rw [es] at this
    change (theta c.base.K (s' ω)).2.2.1 e = 1e-32
    rw [this, max_eq_right hlt.le]
  refine ⟨hpos, posteriorMix_no_atom h e _, fun hl => ?_⟩
  have := posteriorMix_no_atom (κ0 := κ0) (ν0 := ν0) h e 1e-32
  rw [← hl.map_eq, Measure.map_apply_of_aemeasurable hl.aemeasurable hms'] at this
  exact hpos.ne' this

end

end PyHawkes
