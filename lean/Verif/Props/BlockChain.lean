import Verif.Props.BlockSweep
import Verif.Props.GibbsProper

/-!
# C83 for one-block networks (`ErdosRenyiModel`): `resample_model` leaves the posterior distribution invariant
-/
set_option linter.unusedSectionVars false
set_option linter.unusedVariables false

namespace PyHawkes
open Finset Spec MeasureTheory ProbabilityTheory

section
variable {U Ω : Type*} [MeasurableSpace U] [MeasurableSpace Ω] {μ : Measure U} {Pr : Measure Ω} (G : Generator μ) (Bt : BetaSampler μ) {c : HawkesState} {n : SBM}

/-- the call site of an index -/
def callSiteB (c : HawkesState) : Unit ⊕ Calls c → SiteB
  | .inl _ => .prob
  | .inr a => .other (callSite c a)

theorem callSiteB_inj (c : HawkesState) : Function.Injective (callSiteB c) := by
  rintro (a | a) (b | b) h <;> simp only [callSiteB, SiteB.other.injEq, reduceCtorEq] at h
  · rfl
  · rw [callSite_inj c h]

theorem seedsB_law [IsProbabilityMeasure μ] [IsProbabilityMeasure Pr] {x : Ω → SiteB → U} (hi : iIndepFun (fun σ ω => x ω σ) Pr) (hl : ∀ σ, HasLaw (fun ω => x ω σ) μ Pr) :
    HasLaw (fun ω => seedsOfB c (x ω)) (μ.prod (seedLaw c μ)) Pr := by
  have h1 : iIndepFun (fun (a : Unit ⊕ Calls c) ω => x ω (callSiteB c a)) Pr := hi.precomp (callSiteB_inj c)
  have h2 : HasLaw (fun ω (a : Unit ⊕ Calls c) => x ω (callSiteB c a)) (Measure.pi fun _ => μ) Pr := iIndepFun.hasLaw_pi (fun a => hl _) h1
  have hu : MeasurePreserving (fun y : Unit → U => y ()) (Measure.pi fun _ => μ) μ := measurePreserving_funUnique μ Unit
  have hs : MeasurePreserving (fun y : Unit ⊕ Calls c → U => ((fun i => y (.inl i) : Unit → U), (fun i => y (.inr i) : Calls c → U)))
      (Measure.pi fun _ => μ) ((Measure.pi fun _ => μ).prod (Measure.pi fun _ => μ)) := measurePreserving_sumPiEquivProdPi (X := fun _ => U) fun _ => μ
  exact ((hu.prod (unbundle_law (c := c) (μ := μ))).comp hs).fun_comp_hasLaw h2

theorem measurable_seedsOfB : Measurable fun x : SiteB → U => seedsOfB c x := by unfold seedsOfB seedsOf; fun_prop

/-- the law of the parameters after one call -/
theorem sweepB_law [IsProbabilityMeasure Pr] (h : CfgOkB c n) {θ : Ω → ThetaB c.base.K} {x : Ω → SiteB → U}
    (hi : iIndepFun (fun σ ω => x ω σ) Pr) (hl : ∀ σ, HasLaw (fun ω => x ω σ) μ Pr) (hf : IndepFun θ x Pr)
    (hθ : HasLaw θ (posteriorB c n) Pr) : HasLaw (fun ω => sweepStepB G Bt c n (θ ω) (seedsOfB c (x ω))) (posteriorB c n) Pr := by
  have hμ := gen_prob G
  have hs := seedsB_law (c := c) hi hl
  exact hasLaw_step (measurable_sweepStepB G Bt h) (posteriorB_map G Bt h) hθ hs (hf.comp measurable_id measurable_seedsOfB)

/-- **C83** for a learned one-block network (`ErdosRenyiModel`): if the parameters of the model, including edge probability and weight scale, have the posterior distribution, then
`resample_model` succeeds and the parameters it leaves have the posterior distribution. -/
theorem C83_block_posterior_invariant [IsProbabilityMeasure Pr] (h : CfgOkB c n) (huge : ℝ) (d : Ω → StepDraws) (hd : ∀ ω, DrawsOk c.base.K c.base.B 1 (d ω))
    (s : Ω → HawkesState) (hs : ∀ ω, SameModelB c n (s ω) ∧ HyperOk (s ω) ∧ ParamsOk (s ω)) (x : Ω → SiteB → U)
    (hx : FreshSeedsB μ Pr (fun ω => thetaB c.base.K (s ω)) x) (hlaw : HasLaw (fun ω => thetaB c.base.K (s ω)) (posteriorB c n) Pr) :
    ∃ s' : Ω → HawkesState, (∀ ω, resampleModelSS huge (drawsB G Bt c.base.K c.base.B (d ω) (x ω)) (s ω) = .ok (s' ω) ∧ SameModelB c n (s' ω) ∧ HyperOk (s' ω) ∧ ParamsOk (s' ω)) ∧
      HasLaw (fun ω => thetaB c.base.K (s' ω)) (posteriorB c n) Pr := by
  choose s' h1 h2 h3 h4 h5 using fun ω => sweepB_eq G Bt c n h huge (d ω) (hd ω) (s ω) (hs ω).1 (hs ω).2.1 (hs ω).2.2 (x ω)
  refine ⟨s', fun ω => ⟨h1 ω, h2 ω, h3 ω, h4 ω⟩, ?_⟩
  have := sweepB_law G Bt h hx.indep hx.law hx.fresh hlaw
  have e : (fun ω => thetaB c.base.K (s' ω)) = fun ω => sweepStepB G Bt c n (thetaB c.base.K (s ω)) (seedsOfB c (x ω)) := funext h5
  rw [e]
  exact this

/-- **C83** for a learned one-block network, whole runs: `t` successive calls of `resample_model`, the seeds of each call fresh -/
theorem C83_block_chain_invariant [IsProbabilityMeasure Pr] (h : CfgOkB c n) (huge : ℝ) (d : ℕ → Ω → StepDraws) (hd : ∀ t ω, DrawsOk c.base.K c.base.B 1 (d t ω))
    (s : ℕ → Ω → HawkesState) (hs : ∀ ω, SameModelB c n (s 0 ω) ∧ HyperOk (s 0 ω) ∧ ParamsOk (s 0 ω)) (x : ℕ → Ω → SiteB → U)
    (hrun : ∀ t ω s', resampleModelSS huge (drawsB G Bt c.base.K c.base.B (d t ω) (x t ω)) (s t ω) = .ok s' → s (t + 1) ω = s')
    (hx : ∀ t, FreshSeedsB μ Pr (fun ω => (thetaB c.base.K (s 0 ω), fun i : Fin t => x i ω)) (x t))
    (hlaw : HasLaw (fun ω => thetaB c.base.K (s 0 ω)) (posteriorB c n) Pr) (t : ℕ) :
    (∀ ω, resampleModelSS huge (drawsB G Bt c.base.K c.base.B (d t ω) (x t ω)) (s t ω) = .ok (s (t + 1) ω)) ∧ HasLaw (fun ω => thetaB c.base.K (s t ω)) (posteriorB c n) Pr := by
  have key : ∀ t, (∀ ω, SameModelB c n (s t ω) ∧ HyperOk (s t ω) ∧ ParamsOk (s t ω)) ∧ HasLaw (fun ω => thetaB c.base.K (s t ω)) (posteriorB c n) Pr ∧
      ∃ Φ : ThetaB c.base.K × (Fin t → SiteB → U) → ThetaB c.base.K, Measurable Φ ∧ ∀ ω, thetaB c.base.K (s t ω) = Φ (thetaB c.base.K (s 0 ω), fun i : Fin t => x i ω) := by
    intro t
    induction t with
    | zero => exact ⟨hs, hlaw, Prod.fst, measurable_fst, fun ω => rfl⟩
    | succ t ih =>
      obtain ⟨ih1, ih2, Φ, hΦ, hΦe⟩ := ih
      choose s' h1 h2 h3 h4 h5 using fun ω => sweepB_eq G Bt c n h huge (d t ω) (hd t ω) (s t ω) (ih1 ω).1 (ih1 ω).2.1 (ih1 ω).2.2 (x t ω)
      have es : ∀ ω, s (t + 1) ω = s' ω := fun ω => hrun t ω _ (h1 ω)
      have e : ∀ ω, thetaB c.base.K (s (t + 1) ω) = sweepStepB G Bt c n (thetaB c.base.K (s t ω)) (seedsOfB c (x t ω)) := fun ω => by rw [es]; exact h5 ω
      have hfr : IndepFun (fun ω => thetaB c.base.K (s t ω)) (x t) Pr := by
        have := (hx t).fresh.comp hΦ measurable_id
        have e' : (fun ω => thetaB c.base.K (s t ω)) = Φ ∘ fun ω => (thetaB c.base.K (s 0 ω), fun i : Fin t => x i ω) := funext hΦe
        rw [e']; exact this
      refine ⟨fun ω => by rw [es]; exact ⟨h2 ω, h3 ω, h4 ω⟩, ?_, ?_⟩
      · rw [show (fun ω => thetaB c.base.K (s (t + 1) ω)) = _ from funext e]
        exact sweepB_law G Bt h (hx t).indep (hx t).law hfr ih2
      · refine ⟨fun y => sweepStepB G Bt c n (Φ (y.1, fun i => y.2 i.castSucc)) (seedsOfB c (y.2 (Fin.last t))), ?_, fun ω => ?_⟩
        · refine (measurable_sweepStepB G Bt h).comp (f := fun y : ThetaB c.base.K × (Fin (t + 1) → SiteB → U) => (Φ (y.1, fun i => y.2 i.castSucc), seedsOfB c (y.2 (Fin.last t)))) ?_
          refine (hΦ.comp (f := fun y : ThetaB c.base.K × (Fin (t + 1) → SiteB → U) => (y.1, fun i : Fin t => y.2 i.castSucc)) (by fun_prop)).prodMk ?_
          exact measurable_seedsOfB.comp (f := fun y : ThetaB c.base.K × (Fin (t + 1) → SiteB → U) => y.2 (Fin.last t)) (by fun_prop)
        · rw [e, hΦe]; rfl
  refine ⟨fun ω => ?_, (key t).2.1⟩
  obtain ⟨h1, -⟩ := key t
  obtain ⟨s', hr, -⟩ := sweepB_eq G Bt c n h huge (d t ω) (hd t ω) (s t ω) (h1 ω).1 (h1 ω).2.1 (h1 ω).2.2 (x t ω)
  rw [hrun t ω _ hr]; exact hr

/-! ### the posterior is a probability distribution -/

theorem lik_finite (h : CfgOkB c n) (hF : FilteredFromEvents c.base.K c.base.B c.data) : ∃ C : ℝ, ∀ p, 0 ≤ p → p ≤ 1 → ∫⁻ θ, likelihood c θ ∂prior c (erOf n p) ≤ ENNReal.ofReal C := by
  obtain ⟨C, hC⟩ := lik_bounded (h.fix le_rfl zero_le_one) hF
  refine ⟨C, fun p h0 h1 => ?_⟩
  have hpr := prior_prob (h.fix h0 h1)
  calc ∫⁻ θ, likelihood c θ ∂prior c (erOf n p) ≤ ∫⁻ θ, ENNReal.ofReal C ∂prior c (erOf n p) := by
        refine lintegral_mono_ae ?_
        filter_upwards [prior_valid (h.fix h0 h1)] with θ hθ
        exact ENNReal.ofReal_le_ofReal (hC θ.1 θ.2.2.1 θ.2.2.2.1 θ.2.2.2.2 (fun e => by rcases hθ.A e with h | h <;> rw [h] <;> simp [(hθ.W e).le]) hθ.lam hθ.g)
    _ = ENNReal.ofReal C := by rw [lintegral_const, measure_univ, mul_one]

theorem priorB_prob (h : CfgOkB c n) : IsProbabilityMeasure (priorB c n) := by
  obtain ⟨h0, h1, -⟩ := h.net.hyper
  have hβ := isProbabilityMeasureBeta h1 h0
  refine ⟨?_⟩
  rw [← lintegral_one, priorB_lintegral h measurable_const]
  have e : ∫⁻ p, ∫⁻ _, 1 ∂prior c (erOf n p) ∂betaMeasure n.tau1 n.tau0 = ∫⁻ _, 1 ∂betaMeasure n.tau1 n.tau0 := by
    refine lintegral_congr_ae ?_
    filter_upwards [beta_mem (a := n.tau1) (b := n.tau0)] with p hp
    have := prior_prob (h.fix hp.1 hp.2)
    rw [lintegral_one, measure_univ]
  rw [e, lintegral_one, measure_univ]

/-- **C83** for a learned one-block network: the posterior is a probability distribution (finite, nonzero evidence). -/
theorem C83_block_posterior_proper (h : CfgOkB c n) (hF : FilteredFromEvents c.base.K c.base.B c.data) :
    ∫⁻ θ, likelihood c θ.2 ∂priorB c n ≠ 0 ∧ ∫⁻ θ, likelihood c θ.2 ∂priorB c n ≠ ⊤ ∧ IsProbabilityMeasure (posteriorB c n) := by
  obtain ⟨hτ0, hτ1, -⟩ := h.net.hyper
  have hβ := isProbabilityMeasureBeta hτ1 hτ0
  have hpr := priorB_prob h
  have mlik : Measurable fun θ : ThetaB c.base.K => likelihood c θ.2 := (measurable_likelihood c h.data).comp measurable_snd
  have h0 : ∫⁻ θ, likelihood c θ.2 ∂priorB c n ≠ 0 := by
    rw [Ne, lintegral_eq_zero_iff mlik]
    intro hz
    have : ∀ᵐ θ ∂priorB c n, False := by
      filter_upwards [hz] with θ hθ
      have : (0 : ENNReal) < likelihood c θ.2 := ENNReal.ofReal_pos.2 (Real.exp_pos _)
      rw [hθ] at this
      exact lt_irrefl _ this
    rw [Filter.eventually_false_iff_eq_bot, ae_eq_bot] at this
    exact IsProbabilityMeasure.ne_zero (priorB c n) this
  have hT : ∫⁻ θ, likelihood c θ.2 ∂priorB c n ≠ ⊤ := by
    obtain ⟨C, hC⟩ := lik_finite h hF
    refine ne_top_of_le_ne_top (b := ENNReal.ofReal C) ENNReal.ofReal_ne_top ?_
    rw [priorB_lintegral h mlik]
    calc ∫⁻ p, ∫⁻ θ, likelihood c θ ∂prior c (erOf n p) ∂betaMeasure n.tau1 n.tau0 ≤ ∫⁻ p, ENNReal.ofReal C ∂betaMeasure n.tau1 n.tau0 := by
          refine lintegral_mono_ae ?_
          filter_upwards [beta_mem (a := n.tau1) (b := n.tau0)] with p hp
          exact hC p hp.1 hp.2
      _ = ENNReal.ofReal C := by rw [lintegral_const, measure_univ, mul_one]
  refine ⟨h0, hT, ⟨?_⟩⟩
  unfold posteriorB
  rw [Measure.smul_apply, withDensity_apply _ MeasurableSet.univ, Measure.restrict_univ, smul_eq_mul, ENNReal.inv_mul_cancel h0 hT]

/-! ### the hypotheses can be met -/

/-- the beta distribution as a kernel -/
theorem betaLaw_kernel : ∃ κ : Kernel (ℝ × ℝ) ℝ, IsMarkovKernel κ ∧ ∀ a, κ a = betaMeasure (posArg a.1) (posArg a.2) := by
  have hm : Measurable (Function.uncurry fun (a : ℝ × ℝ) (x : ℝ) => betaPDF (posArg a.1) (posArg a.2) x) := by
    unfold betaPDF betaPDFReal beta
    have h1 : Measurable fun y : (ℝ × ℝ) × ℝ => posArg y.1.1 := measurable_posArg.comp (by fun_prop)
    have h2 : Measurable fun y : (ℝ × ℝ) × ℝ => posArg y.1.2 := measurable_posArg.comp (by fun_prop)
    have h3 : Measurable fun y : (ℝ × ℝ) × ℝ => Real.Gamma (posArg y.1.1) := measurable_Gamma_posArg.comp (f := fun y : (ℝ × ℝ) × ℝ => y.1.1) (by fun_prop)
    have h4 : Measurable fun y : (ℝ × ℝ) × ℝ => Real.Gamma (posArg y.1.2) := measurable_Gamma_posArg.comp (f := fun y : (ℝ × ℝ) × ℝ => y.1.2) (by fun_prop)
    have h5 : Measurable fun y : (ℝ × ℝ) × ℝ => Real.Gamma (posArg y.1.1 + posArg y.1.2) := by
      have e : (fun y : (ℝ × ℝ) × ℝ => Real.Gamma (posArg y.1.1 + posArg y.1.2)) = fun y => Real.Gamma (posArg (posArg y.1.1 + posArg y.1.2)) := by
        funext y
        rw [posArg_of_pos (add_pos (posArg_pos _) (posArg_pos _))]
      rw [e]
      exact measurable_Gamma_posArg.comp (f := fun y : (ℝ × ℝ) × ℝ => posArg y.1.1 + posArg y.1.2) (h1.add h2)
    refine ENNReal.measurable_ofReal.comp (Measurable.ite ((measurableSet_lt measurable_const measurable_snd).inter (measurableSet_lt measurable_snd measurable_const)) ?_ measurable_const)
    exact ((measurable_const.div ((h3.mul h4).div h5)).mul (measurable_snd.pow (h1.sub measurable_const))).mul ((measurable_const.sub measurable_snd).pow (h2.sub measurable_const))
  have e : ∀ a, Kernel.withDensity (Kernel.const _ (volume : Measure ℝ)) (fun (a : ℝ × ℝ) (x : ℝ) => betaPDF (posArg a.1) (posArg a.2) x) a = betaMeasure (posArg a.1) (posArg a.2) := fun a => by
    rw [Kernel.withDensity_apply _ hm]; rfl
  refine ⟨Kernel.withDensity (Kernel.const _ (volume : Measure ℝ)) (fun (a : ℝ × ℝ) (x : ℝ) => betaPDF (posArg a.1) (posArg a.2) x), ⟨fun a => ?_⟩, e⟩
  rw [e]
  exact isProbabilityMeasureBeta (posArg_pos _) (posArg_pos _)

/-- **A beta sampler exists.** -/
theorem C83_beta_sampler_exists : Nonempty (BetaSampler (volume : Measure unitInterval)) := by
  obtain ⟨κ, hκ, e⟩ := betaLaw_kernel
  obtain ⟨f, hf, hfe⟩ := Kernel.exists_measurable_map_eq_unitInterval κ
  set clip : ℝ → ℝ := fun t => max 0 (min t 1) with hclip
  have mc : Measurable clip := by rw [hclip]; fun_prop
  refine ⟨{ bet := fun a u => clip (f (a.a, a.b) u), bet_meas := mc.comp hf, bet_mem := fun a u _ _ => ⟨le_max_left _ _, max_le zero_le_one (min_le_right _ _)⟩, bet_law := fun a h1 h2 => ?_ }⟩
  have hfa : Measurable (f (a.a, a.b)) := hf.comp (f := fun u => ((a.a, a.b), u)) (by fun_prop)
  have hκa : volume.map (f (a.a, a.b)) = betaMeasure a.a a.b := by rw [hfe, e, posArg_of_pos h1, posArg_of_pos h2]
  have h01 : ∀ᵐ u ∂(volume : Measure unitInterval), 0 ≤ f (a.a, a.b) u ∧ f (a.a, a.b) u ≤ 1 := by
    have h1 : ∀ᵐ x ∂volume.map (f (a.a, a.b)), 0 ≤ x ∧ x ≤ 1 := by rw [hκa]; exact beta_mem
    exact (ae_map_iff hfa.aemeasurable (measurableSet_Ici.inter measurableSet_Iic)).1 h1
  rw [← hκa]
  refine Measure.map_congr ?_
  filter_upwards [h01] with u hu
  rw [hclip]; dsimp only
  rw [min_eq_left hu.2, max_eq_right hu.1]

/-- the model object with parameters `θ` -/
noncomputable def stateOfB (c : HawkesState) (n : SBM) (θ : ThetaB c.base.K) : HawkesState :=
  { stateOf c (erOf n θ.1) θ.2 with net := .sbm { n with p := fun _ _ => θ.1, v := fun _ _ => θ.2.2.1 } }

theorem thetaB_stateOfB (θ : ThetaB c.base.K) : thetaB c.base.K (stateOfB c n θ) = θ := by
  refine Prod.ext rfl ?_
  have := theta_stateOf (c := c) (n := erOf n θ.1) θ.2
  exact this

/-- valid parameter values -/
def ThetaOkB (c : HawkesState) (n : SBM) (θ : ThetaB c.base.K) : Prop := (0 ≤ θ.1 ∧ θ.1 ≤ 1) ∧ ThetaOk c (erOf n 0) θ.2

theorem stateOfB_ok (h : CfgOkB c n) {θ : ThetaB c.base.K} (hθ : ThetaOkB c n θ) : SameModelB c n (stateOfB c n θ) ∧ HyperOk (stateOfB c n θ) ∧ ParamsOk (stateOfB c n θ) := by
  obtain ⟨h1, h2, h3⟩ := stateOf_ok (h.fix hθ.1.1 hθ.1.2) (θ := θ.2) ⟨hθ.2.A, fun hf => (by cases hf), hθ.2.v, hθ.2.W, hθ.2.lam, hθ.2.g⟩
  refine ⟨⟨h1.base, h1.alpha, h1.beta, h1.gamma, ⟨_, _, _, rfl⟩, h1.data⟩, ⟨h2.alpha, h2.beta, h2.gamma, h2.dt, h2.basis⟩, ⟨h3.lam0, h3.g, h3.W, h3.A, ?_, ?_⟩⟩
  · intro hf
    have : n.allowSelf = false := hf
    rw [h.self] at this; cases this
  · exact ⟨h.net.size, h.net.hyper, h.net.labels, fun _ _ _ _ => hθ.1, fun _ _ _ _ => hθ.2.v⟩

theorem measurableSet_thetaOkB : MeasurableSet {θ : ThetaB c.base.K | ThetaOkB c n θ} :=
  ((measurableSet_le measurable_const measurable_fst).inter (measurableSet_le measurable_fst measurable_const)).inter ((measurableSet_thetaOk (c := c) (n := erOf n 0)).preimage measurable_snd)

theorem priorB_valid (h : CfgOkB c n) : ∀ᵐ θ ∂priorB c n, ThetaOkB c n θ := by
  have hms := (measurableSet_thetaOkB (c := c) (n := n)).compl
  rw [ae_iff, show {θ : ThetaB c.base.K | ¬ThetaOkB c n θ} = {θ | ThetaOkB c n θ}ᶜ from rfl, ← lintegral_indicator_one hms, priorB_lintegral h (measurable_one.indicator hms)]
  refine lintegral_eq_zero_of_ae_eq_zero ?_
  filter_upwards [beta_mem (a := n.tau1) (b := n.tau0)] with p hp
  refine lintegral_eq_zero_of_ae_eq_zero ?_
  filter_upwards [prior_valid (h.fix hp.1 hp.2)] with θ hθ
  rw [Set.indicator_of_notMem]
  · rfl
  · exact fun hn => hn ⟨hp, hθ.A, fun hf => (by cases hf), hθ.v, hθ.W, hθ.lam, hθ.g⟩

theorem posteriorB_valid (h : CfgOkB c n) : ∀ᵐ θ ∂posteriorB c n, ThetaOkB c n θ :=
  ((Measure.smul_absolutelyContinuous).trans (withDensity_absolutelyContinuous _ _)).ae_le (priorB_valid h)

/-- **Non-vacuity of C83 for one-block networks**: for every valid model there are a probability space, a random model object whose parameters have the posterior distribution, fresh seeds, and
random number generators as the invariance theorem assumes them. -/
theorem C83_block_hypotheses_met (h : CfgOkB c n) (hF : FilteredFromEvents c.base.K c.base.B c.data) :
    ∃ (Ω : Type) (_ : MeasurableSpace Ω) (Pr : Measure Ω) (_ : IsProbabilityMeasure Pr) (_ : Generator (volume : Measure unitInterval)) (_ : BetaSampler (volume : Measure unitInterval))
      (s : Ω → HawkesState) (x : Ω → SiteB → unitInterval),
      (∀ ω, SameModelB c n (s ω) ∧ HyperOk (s ω) ∧ ParamsOk (s ω)) ∧ FreshSeedsB volume Pr (fun ω => thetaB c.base.K (s ω)) x ∧ HasLaw (fun ω => thetaB c.base.K (s ω)) (posteriorB c n) Pr := by
  classical
  obtain ⟨-, -, hpost⟩ := C83_block_posterior_proper h hF
  obtain ⟨θ₀, hθ₀⟩ : ∃ θ, ThetaOkB c n θ := (posteriorB_valid h).exists
  obtain ⟨G⟩ := C83_generator_exists
  obtain ⟨Bt⟩ := C83_beta_sampler_exists
  set ν : Measure (SiteB → unitInterval) := Measure.infinitePi fun _ : SiteB => (volume : Measure unitInterval) with hν
  set fix : ThetaB c.base.K → ThetaB c.base.K := fun θ => if ThetaOkB c n θ then θ else θ₀ with hfix
  have hae : fix =ᵐ[posteriorB c n] id := by
    filter_upwards [posteriorB_valid h] with θ hθ
    exact if_pos hθ
  have hfm : Measurable fix := Measurable.ite measurableSet_thetaOkB measurable_id measurable_const
  have hlaw : HasLaw (fun ω : ThetaB c.base.K × (SiteB → unitInterval) => fix ω.1) (posteriorB c n) ((posteriorB c n).prod ν) := by
    refine ⟨(hfm.comp measurable_fst).aemeasurable, ?_⟩
    rw [show (fun ω : ThetaB c.base.K × (SiteB → unitInterval) => fix ω.1) = fix ∘ Prod.fst from rfl, ← Measure.map_map hfm measurable_fst, Measure.map_fst_prod, measure_univ, one_smul,
      Measure.map_congr hae, Measure.map_id]
  have hsnd : ((posteriorB c n).prod ν).map Prod.snd = ν := by rw [Measure.map_snd_prod, measure_univ, one_smul]
  have hl : ∀ σ, HasLaw (fun ω : ThetaB c.base.K × (SiteB → unitInterval) => ω.2 σ) volume ((posteriorB c n).prod ν) := by
    intro σ
    refine ⟨by fun_prop, ?_⟩
    rw [show (fun ω : ThetaB c.base.K × (SiteB → unitInterval) => ω.2 σ) = (fun y : SiteB → unitInterval => y σ) ∘ Prod.snd from rfl, ← Measure.map_map (by fun_prop) measurable_snd, hsnd]
    exact (measurePreserving_eval_infinitePi (fun _ : SiteB => (volume : Measure unitInterval)) σ).map_eq
  have ht : ∀ θ, thetaB c.base.K (stateOfB c n (fix θ)) = fix θ := fun θ => thetaB_stateOfB _
  refine ⟨ThetaB c.base.K × (SiteB → unitInterval), inferInstance, (posteriorB c n).prod ν, inferInstance, G, Bt, fun ω => stateOfB c n (fix ω.1), Prod.snd, fun ω => ?_, ⟨?_, hl, ?_⟩, ?_⟩
  · refine stateOfB_ok h ?_
    rw [hfix]; dsimp only
    split_ifs with hω
    · exact hω
    · exact hθ₀
  · rw [iIndepFun_iff_map_fun_eq_infinitePi_map (by fun_prop)]
    rw [show (fun (ω : ThetaB c.base.K × (SiteB → unitInterval)) i => ω.2 i) = Prod.snd from rfl, hsnd]
    simp only [(hl _).map_eq]
    exact hν
  · simp only [ht]
    exact indepFun_prod (X := fix) (Y := id) hfm measurable_id
  · simp only [ht]
    exact hlaw

/-- a concrete one-block network on two processes -/
noncomputable def demoBlock : SBM :=
  { K := 2, C := 1, pi := fun _ => 1, tau0 := 2, tau1 := 1, kappa := 1, alpha := 2, beta := 3, allowSelf := true, m := fun _ => 1, c := fun _ => 0, p := fun _ _ => 1 / 2, v := fun _ _ => 1,
    fixed := false, mfPi := fun _ => 1, mfM := fun _ _ => 1, mfTau0 := fun _ _ => 1, mfTau1 := fun _ _ => 1, mfAlpha := fun _ _ => 1, mfBeta := fun _ _ => 1 }

theorem demoBlock_ok : CfgOkB demoChainModel demoBlock := by
  obtain ⟨h, -⟩ := demoChain_ok
  refine ⟨h.B, h.data, h.hyper, ⟨rfl, ⟨by norm_num [demoBlock], by norm_num [demoBlock], by norm_num [demoBlock], by norm_num [demoBlock], by norm_num [demoBlock], fun _ _ => one_pos⟩,
    fun _ _ => one_pos, fun _ _ _ _ => by norm_num [demoBlock], fun _ _ _ _ => one_pos⟩, rfl, rfl, rfl⟩

example : IsProbabilityMeasure (posteriorB demoChainModel demoBlock) := (C83_block_posterior_proper demoBlock_ok demoChain_ok.2).2.2

end

end PyHawkes
