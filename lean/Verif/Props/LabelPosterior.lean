import Verif.Props.LabelSampler
import Verif.Props.Average

/-!
# C96: several blocks, discrete time: the posterior over labels, scales and all other parameters is invariant, `resample_model` converges to it
-/
set_option linter.unusedSectionVars false
set_option linter.unusedVariables false

namespace PyHawkes
open Finset Spec MeasureTheory ProbabilityTheory

section
variable {U : Type} {Ω : Type*} [MeasurableSpace U] [MeasurableSpace Ω] {μ : Measure U} {Pr : Measure Ω} (G : Generator μ) (Ls : LabelSampler μ) {c : HawkesState} {n : SBM} [NeZero n.C]

theorem _root_.PyHawkes.Spec.LabelOk.er {K : ℕ} (h : LabelOk K n) : ErOk K (erOf n 0) := by
  obtain ⟨-, -, ha, hb, hk, -⟩ := h.net.hyper
  refine ⟨h.net.size, ⟨le_rfl, zero_le_one⟩, hk, one_pos, ?_, ?_⟩
  · intro a he
    rw [← Option.some.inj (Option.mem_def.1 he)]; exact ha.le
  · intro a he
    rw [← Option.some.inj (Option.mem_def.1 he)]; exact hb.le

theorem _root_.PyHawkes.Spec.CfgOkL.fix (h : CfgOkL c n) : CfgOk c (erOf n 0) := ⟨h.B, h.data, h.hyper, h.net.er⟩

omit [NeZero n.C] in
theorem _root_.PyHawkes.Spec.LabelOk.prob {K : ℕ} [NeZero n.C] (h : LabelOk K n) : 0 ≤ n.p 0 0 ∧ n.p 0 0 ≤ 1 := h.net.p 0 (NeZero.pos n.C) 0 (NeZero.pos n.C)

/-- index of all in-range call sites -/
abbrev CallsL (c : HawkesState) (C : ℕ) := Row c ⊕ Fin c.base.K ⊕ Pair c.base.K ⊕ (Pair C ⊕ Fin c.base.K ⊕ Unit) ⊕ Pair c.base.K ⊕ Pair c.base.K

/-- the call site of an index -/
def callSiteL (c : HawkesState) (C : ℕ) : CallsL c C → SiteL Site
  | .inl ρ => .other (.parents ρ.2.1 ρ.1 ρ.2.2)
  | .inr (.inl k) => .other (.lam k)
  | .inr (.inr (.inl e)) => .other (.dir e.1 e.2)
  | .inr (.inr (.inr (.inl (.inl a)))) => .scale a.1 a.2
  | .inr (.inr (.inr (.inl (.inr (.inl k))))) => .label k
  | .inr (.inr (.inr (.inl (.inr (.inr _))))) => .blocks
  | .inr (.inr (.inr (.inr (.inl e)))) => .other (.weight e.1 e.2)
  | .inr (.inr (.inr (.inr (.inr e)))) => .other (.unif e.1 e.2)

theorem callSiteL_inj (c : HawkesState) (C : ℕ) : Function.Injective (callSiteL c C) := by
  have pair : ∀ {k : ℕ} {e e' : Pair k}, (e.1 : ℕ) = e'.1 → (e.2 : ℕ) = e'.2 → e = e' := fun h1 h2 => Prod.ext (Fin.ext h1) (Fin.ext h2)
  rintro (⟨k, i, r⟩ | k | e | (a | k | u) | e | e) (⟨k', i', r'⟩ | k' | e' | (a' | k' | u') | e' | e') h <;>
    simp only [callSiteL, SiteL.other.injEq, SiteL.scale.injEq, SiteL.label.injEq, Site.parents.injEq, Site.lam.injEq, Site.dir.injEq, Site.weight.injEq, Site.unif.injEq, reduceCtorEq] at h
  · obtain ⟨h1, h2, h3⟩ := h
    have hk := Fin.ext h2
    have hi := Fin.ext h1
    subst hk hi
    have hr := Fin.ext h3
    subst hr
    rfl
  · rw [Fin.ext h]
  · rw [pair h.1 h.2]
  · rw [pair h.1 h.2]
  · rw [Fin.ext h]
  · rfl
  · rw [pair h.1 h.2]
  · rw [pair h.1 h.2]

/-- the seeds from the indexed family -/
def unbundleL (c : HawkesState) (C : ℕ) (y : CallsL c C → U) : NetSeeds c.base.K U ((Pair C → U) × (Fin c.base.K → U) × U) (Row c → U) ((Fin c.base.K → U) × (Pair c.base.K → U)) :=
  (fun ρ => y (.inl ρ), (fun k => y (.inr (.inl k)), fun e => y (.inr (.inr (.inl e)))),
    (fun a => y (.inr (.inr (.inr (.inl (.inl a))))), fun k => y (.inr (.inr (.inr (.inl (.inr (.inl k)))))), y (.inr (.inr (.inr (.inl (.inr (.inr ()))))))),
    fun e => y (.inr (.inr (.inr (.inr (.inl e))))), fun e => y (.inr (.inr (.inr (.inr (.inr e))))))

theorem split_pi [IsProbabilityMeasure μ] (ι ι' : Type) [Fintype ι] [Fintype ι'] : MeasurePreserving (fun y : ι ⊕ ι' → U => ((fun i => y (.inl i) : ι → U), (fun i => y (.inr i) : ι' → U)))
    (Measure.pi fun _ => μ) ((Measure.pi fun _ => μ).prod (Measure.pi fun _ => μ)) := measurePreserving_sumPiEquivProdPi (X := fun _ => U) fun _ => μ

theorem netSeedsL_law [IsProbabilityMeasure μ] (K C : ℕ) : MeasurePreserving (fun y : Pair C ⊕ Fin K ⊕ Unit → U => ((fun a => y (.inl a)), (fun k => y (.inr (.inl k))), y (.inr (.inr ()))))
    (Measure.pi fun _ => μ) ((Measure.pi fun _ : Pair C => μ).prod ((Measure.pi fun _ : Fin K => μ).prod μ)) := by
  have hu : MeasurePreserving (fun y : Unit → U => y ()) (Measure.pi fun _ => μ) μ := measurePreserving_funUnique μ Unit
  have h1 := ((MeasurePreserving.id (Measure.pi fun _ : Fin K => μ)).prod hu).comp (split_pi (μ := μ) (Fin K) Unit)
  exact ((MeasurePreserving.id (Measure.pi fun _ : Pair C => μ)).prod h1).comp (split_pi (Pair C) (Fin K ⊕ Unit))

theorem unbundleL_law [IsProbabilityMeasure μ] (huge : ℝ) :
    MeasurePreserving (unbundleL c n.C) (Measure.pi fun _ : CallsL c n.C => μ) (netSeedLaw (discSys G c) (labelNet G Ls huge n (NeZero.pos n.C) c.base.K) μ) := by
  have h5 := split_pi (μ := μ) (Pair c.base.K) (Pair c.base.K)
  have h4 := ((netSeedsL_law (μ := μ) c.base.K n.C).prod h5).comp (split_pi (Pair n.C ⊕ Fin c.base.K ⊕ Unit) (Pair c.base.K ⊕ Pair c.base.K))
  have h3 := ((MeasurePreserving.id (Measure.pi fun _ : Pair c.base.K => μ)).prod h4).comp (split_pi (Pair c.base.K) ((Pair n.C ⊕ Fin c.base.K ⊕ Unit) ⊕ Pair c.base.K ⊕ Pair c.base.K))
  have h2 := ((MeasurePreserving.id (Measure.pi fun _ : Fin c.base.K => μ)).prod h3).comp (split_pi (Fin c.base.K) (Pair c.base.K ⊕ (Pair n.C ⊕ Fin c.base.K ⊕ Unit) ⊕ Pair c.base.K ⊕ Pair c.base.K))
  have ha := measurePreserving_prodAssoc (Measure.pi fun _ : Fin c.base.K => μ) (Measure.pi fun _ : Pair c.base.K => μ)
    (((Measure.pi fun _ : Pair n.C => μ).prod ((Measure.pi fun _ : Fin c.base.K => μ).prod μ)).prod ((Measure.pi fun _ : Pair c.base.K => μ).prod (Measure.pi fun _ : Pair c.base.K => μ)))
  have h2' := ha.symm.comp h2
  exact ((MeasurePreserving.id (Measure.pi fun _ : Row c => μ)).prod h2').comp (split_pi (Row c) (Fin c.base.K ⊕ Pair c.base.K ⊕ (Pair n.C ⊕ Fin c.base.K ⊕ Unit) ⊕ Pair c.base.K ⊕ Pair c.base.K))

theorem seeds_law_l [IsProbabilityMeasure μ] [IsProbabilityMeasure Pr] (huge : ℝ) {x : Ω → SiteL Site → U} (hi : iIndepFun (fun σ ω => x ω σ) Pr) (hl : ∀ σ, HasLaw (fun ω => x ω σ) μ Pr) :
    HasLaw (fun ω => seedsL c n.C (x ω)) (netSeedLaw (discSys G c) (labelNet G Ls huge n (NeZero.pos n.C) c.base.K) μ) Pr := by
  have h1 : iIndepFun (fun (a : CallsL c n.C) ω => x ω (callSiteL c n.C a)) Pr := hi.precomp (callSiteL_inj c n.C)
  have h2 : HasLaw (fun ω (a : CallsL c n.C) => x ω (callSiteL c n.C a)) (Measure.pi fun _ => μ) Pr := iIndepFun.hasLaw_pi (fun a => hl _) h1
  exact (unbundleL_law (c := c) (n := n) (μ := μ) G Ls huge).fun_comp_hasLaw h2

theorem measurable_seedsL (C : ℕ) : Measurable fun x : SiteL Site → U => seedsL c C x := by unfold seedsL seedsOf netSeedsL; fun_prop

theorem posteriorL_eq (huge : ℝ) : posteriorL c n = netPosterior (discSys G c) (labelNet G Ls huge n (NeZero.pos n.C) c.base.K) := rfl

/-- **C96**: a network with several blocks (`StochasticBlockModelFixedSparsity`, one connection probability, no self connections). If the parameters of the model, including block labels, block
probabilities and weight scales, have the posterior distribution, then `resample_model` succeeds and the parameters it leaves have the posterior distribution. -/
theorem C96_posterior_invariant [IsProbabilityMeasure Pr] (h : CfgOkL c n) (huge : ℝ) (d : Ω → StepDraws) (hd : ∀ ω, DrawsOk c.base.K c.base.B n.C (d ω))
    (s : Ω → HawkesState) (hs : ∀ ω, ValidL c n (s ω)) (x : Ω → SiteL Site → U)
    (hx : FreshSeedsL μ Pr (fun ω => thetaL c.base.K n.C (s ω)) x) (hlaw : HasLaw (fun ω => thetaL c.base.K n.C (s ω)) (posteriorL c n) Pr) :
    ∃ s' : Ω → HawkesState, (∀ ω, resampleModelSS huge (drawsL G Ls c.base.K c.base.B n.C (d ω) (x ω)) (s ω) = .ok (s' ω) ∧ ValidL c n (s' ω)) ∧
      HasLaw (fun ω => thetaL c.base.K n.C (s' ω)) (posteriorL c n) Pr := by
  have hμ := gen_prob G
  have ok := discSys_ok G h.fix
  have okn := labelNet_ok G Ls huge (NeZero.pos n.C) h.net.net h.net.prob.1 h.net.prob.2
  rw [posteriorL_eq G Ls huge] at hlaw ⊢
  exact call_law (netSweep_meas G ok okn) (netPosterior_map G ok okn) (measurable_seedsL n.C) (fun x hi hl => seeds_law_l G Ls huge hi hl)
    (run := fun ω x s => resampleModelSS huge (drawsL G Ls c.base.K c.base.B n.C (d ω) x) s) (fun ω s hs x => label_sweep_eq G Ls h huge (d ω) (hd ω) s hs x) hs hx.indep hx.law hx.fresh hlaw

/-- **C96**, whole runs: successive calls of `resample_model`, the seeds of each call fresh -/
theorem C96_chain_invariant [IsProbabilityMeasure Pr] (h : CfgOkL c n) (huge : ℝ) (d : ℕ → Ω → StepDraws) (hd : ∀ t ω, DrawsOk c.base.K c.base.B n.C (d t ω))
    (s : ℕ → Ω → HawkesState) (hs : ∀ ω, ValidL c n (s 0 ω)) (x : ℕ → Ω → SiteL Site → U)
    (hrun : ∀ t ω s', resampleModelSS huge (drawsL G Ls c.base.K c.base.B n.C (d t ω) (x t ω)) (s t ω) = .ok s' → s (t + 1) ω = s')
    (hx : ∀ t, FreshSeedsL μ Pr (fun ω => (thetaL c.base.K n.C (s 0 ω), fun i : Fin t => x i ω)) (x t))
    (hlaw : HasLaw (fun ω => thetaL c.base.K n.C (s 0 ω)) (posteriorL c n) Pr) (t : ℕ) :
    (∀ ω, resampleModelSS huge (drawsL G Ls c.base.K c.base.B n.C (d t ω) (x t ω)) (s t ω) = .ok (s (t + 1) ω)) ∧ HasLaw (fun ω => thetaL c.base.K n.C (s t ω)) (posteriorL c n) Pr := by
  have hμ := gen_prob G
  have ok := discSys_ok G h.fix
  have okn := labelNet_ok G Ls huge (NeZero.pos n.C) h.net.net h.net.prob.1 h.net.prob.2
  rw [posteriorL_eq G Ls huge] at hlaw ⊢
  exact chain_law (netSweep_meas G ok okn) (netPosterior_map G ok okn) (measurable_seedsL n.C) (fun x hi hl => seeds_law_l G Ls huge hi hl)
    (run := fun t ω x s => resampleModelSS huge (drawsL G Ls c.base.K c.base.B n.C (d t ω) x) s) (fun t ω s hs x => label_sweep_eq G Ls h huge (d t ω) (hd t ω) s hs x) hs hrun (fun t => (hx t).indep)
    (fun t => (hx t).law) (fun t => (hx t).fresh) hlaw t

end

/-! ### the posterior is a probability distribution -/

section
variable {c : HawkesState} {n : SBM} [NeZero n.C]

/-- valid parameter values -/
structure ThetaLOk (c : HawkesState) {C : ℕ} (θ : ThetaL c.base.K C) : Prop where
  A : ∀ e, θ.1 e = 0 ∨ θ.1 e = 1
  self : ∀ i, θ.1 (i, i) = 0
  v : ∀ a, 0 < θ.2.1.1 a
  m : ∀ b < C, 0 < θ.2.1.2.2 b
  W : ∀ e, 0 < θ.2.2.1 e
  lam : ∀ k, 0 < θ.2.2.2.1 k
  g : ∀ e, IsProb c.base.B (θ.2.2.2.2 e)

theorem measurableSet_thetaLOk {C : ℕ} : MeasurableSet {θ : ThetaL c.base.K C | ThetaLOk c θ} := by
  have e : {θ : ThetaL c.base.K C | ThetaLOk c θ} = (⋂ e, ({θ | θ.1 e = 0} ∪ {θ | θ.1 e = 1})) ∩ (⋂ i, {θ | θ.1 (i, i) = 0}) ∩ (⋂ a, {θ | 0 < θ.2.1.1 a}) ∩ (⋂ b : ℕ, ⋂ _ : b < C, {θ | 0 < θ.2.1.2.2 b}) ∩
      (⋂ e, {θ | 0 < θ.2.2.1 e}) ∩ (⋂ k, {θ | 0 < θ.2.2.2.1 k}) ∩ ⋂ e, {θ | IsProb c.base.B (θ.2.2.2.2 e)} := by
    ext θ
    simp only [Set.mem_ofPred_eq, Set.mem_inter_iff, Set.mem_iInter, Set.mem_union]
    exact ⟨fun h => ⟨⟨⟨⟨⟨⟨h.A, h.self⟩, h.v⟩, h.m⟩, h.W⟩, h.lam⟩, h.g⟩, fun h => ⟨h.1.1.1.1.1.1, h.1.1.1.1.1.2, h.1.1.1.1.2, h.1.1.1.2, h.1.1.2, h.1.2, h.2⟩⟩
  rw [e]
  refine (((((MeasurableSet.inter ?_ ?_).inter ?_).inter ?_).inter ?_).inter ?_).inter ?_
  · exact MeasurableSet.iInter fun e => (measurableSet_eq_fun (by fun_prop) measurable_const).union (measurableSet_eq_fun (by fun_prop) measurable_const)
  · exact MeasurableSet.iInter fun i => measurableSet_eq_fun (by fun_prop) measurable_const
  · exact MeasurableSet.iInter fun i => measurableSet_lt measurable_const (by fun_prop)
  · exact MeasurableSet.iInter fun b => MeasurableSet.iInter fun _ => measurableSet_lt measurable_const (by fun_prop)
  · exact MeasurableSet.iInter fun e => measurableSet_lt measurable_const (by fun_prop)
  · exact MeasurableSet.iInter fun e => measurableSet_lt measurable_const (by fun_prop)
  · exact MeasurableSet.iInter fun e => (measurableSet_isProb c.base.B).preimage (f := fun θ : ThetaL c.base.K C => θ.2.2.2.2 e) (by fun_prop)

/-- an adjacency matrix with a self connection has density 0 -/
theorem labelDens_self {K : ℕ} {η : NetLabels K n.C} {A W : Pair K → ℝ} (hA : ∀ e, A e = 0 ∨ A e = 1) (i : Fin K) (h : A (i, i) ≠ 0) : labelDens n η A W = 0 := by
  have h1 : A (i, i) = 1 := (hA (i, i)).resolve_left h
  unfold labelDens
  rw [Finset.prod_eq_zero (mem_univ (i, i)), zero_mul]
  rw [h1]
  unfold labelP
  simp [edgePmf]

theorem label_prior_valid (h : CfgOkL c n) : ∀ᵐ θ ∂priorL c n, ThetaLOk c θ := by
  obtain ⟨G⟩ := C83_generator_exists
  obtain ⟨Ls⟩ := C96_sampler_exists
  obtain ⟨-, -, ha, hb, hk, hpi⟩ := h.net.net.hyper
  have ok := discSys_ok G h.fix
  have okn := labelNet_ok G Ls 0 (NeZero.pos n.C) h.net.net h.net.prob.1 h.net.prob.2
  have hms := (measurableSet_thetaLOk (c := c) (C := n.C)).compl
  rw [ae_iff, show {θ : ThetaL c.base.K n.C | ¬ThetaLOk c θ} = {θ | ThetaLOk c θ}ᶜ from rfl, ← lintegral_indicator_one hms]
  have hp := netPrior_lintegral (S := discSys G c) (Q := labelNet G Ls 0 n (NeZero.pos n.C) c.base.K) ok okn (F := {θ : ThetaL c.base.K n.C | ThetaLOk c θ}ᶜ.indicator 1) (measurable_one.indicator hms)
  refine hp.trans ?_
  refine lintegral_eq_zero_of_ae_eq_zero ?_
  filter_upwards [coins01_values c.base.K] with A hA
  refine lintegral_eq_zero_of_ae_eq_zero ?_
  change ∀ᵐ η ∂labelPrior c.base.K n, _
  filter_upwards [labelPrior_pos n (NeZero.pos n.C) ha hb hpi] with η hη
  by_cases hself : ∀ i, A (i, i) = 0
  swap
  · push Not at hself
    obtain ⟨i, hi⟩ := hself
    have hz : ∀ W, (labelNet G Ls 0 n (NeZero.pos n.C) c.base.K).dens η A W = 0 := fun W => labelDens_self hA i hi
    simp only [hz, zero_mul, lintegral_const]
    rfl
  refine lintegral_eq_zero_of_ae_eq_zero ?_
  have hW0 : ∀ᵐ W ∂Measure.pi (fun _ : Pair c.base.K => (volume : Measure ℝ)), ∀ e, W e ≠ 0 :=
    ae_all_iff.2 fun e => (Measure.quasiMeasurePreserving_eval (fun _ : Pair c.base.K => (volume : Measure ℝ)) e).ae (Measure.ae_ne volume 0)
  filter_upwards [hW0] with W hW
  by_cases hWp : ∀ e, 0 ≤ W e
  · refine lintegral_eq_zero_of_ae_eq_zero ?_
    filter_upwards [dir_valid h.fix] with φ hφ
    rw [Set.indicator_of_notMem, mul_zero]
    · rfl
    · exact fun hn => hn ⟨hA, hself, hη.1, hη.2, fun e => lt_of_le_of_ne (hWp e) (Ne.symm (hW e)), hφ.1, hφ.2⟩
  · simp only [NetSys.dens_neg hWp, zero_mul, lintegral_const]
    rfl

theorem label_posterior_valid (h : CfgOkL c n) : ∀ᵐ θ ∂posteriorL c n, ThetaLOk c θ :=
  ((Measure.smul_absolutelyContinuous).trans (withDensity_absolutelyContinuous _ _)).ae_le (label_prior_valid h)

/-- **C96**: the posterior is a probability distribution (finite, nonzero evidence). -/
theorem C96_posterior_proper (h : CfgOkL c n) (hF : FilteredFromEvents c.base.K c.base.B c.data) :
    ∫⁻ θ, likelihoodL c θ ∂priorL c n ≠ 0 ∧ ∫⁻ θ, likelihoodL c θ ∂priorL c n ≠ ⊤ ∧ IsProbabilityMeasure (posteriorL c n) := by
  obtain ⟨G⟩ := C83_generator_exists
  obtain ⟨Ls⟩ := C96_sampler_exists
  obtain ⟨C, hC⟩ := lik_bounded h.fix hF
  refine net_proper (S := discSys G c) (Q := labelNet G Ls 0 n (NeZero.pos n.C) c.base.K) (discSys_ok G h.fix) (labelNet_ok G Ls 0 (NeZero.pos n.C) h.net.net h.net.prob.1 h.net.prob.2)
    (C := ENNReal.ofReal C) ENNReal.ofReal_ne_top ?_
  change ∀ᵐ θ ∂priorL c n, _
  filter_upwards [label_prior_valid h] with θ hθ
  exact ENNReal.ofReal_le_ofReal (hC θ.1 θ.2.2.1 θ.2.2.2.1 θ.2.2.2.2 (fun e => by rcases hθ.A e with h | h <;> rw [h] <;> simp [(hθ.W e).le]) hθ.lam hθ.g)

/-- the model object with parameters `θ` -/
noncomputable def stateOfL (c : HawkesState) (n : SBM) [NeZero n.C] (θ : ThetaL c.base.K n.C) : HawkesState :=
  { stateOf c (erOf n 0) (θ.1, 1, θ.2.2) with net := .sbmFixed { n with
      v := fun a b => θ.2.1.1 (Fin.ofNat n.C a, Fin.ofNat n.C b), c := fun k => if h : k < c.base.K then θ.2.1.2.1 ⟨k, h⟩ else 0, m := θ.2.1.2.2 } }

theorem thetaL_stateOf (θ : ThetaL c.base.K n.C) : thetaL c.base.K n.C (stateOfL c n θ) = θ := by
  have := theta_stateOf (c := c) (n := erOf n 0) (θ.1, 1, θ.2.2)
  have h1 := congrArg Prod.fst this
  have h2 := congrArg (fun y => y.2.2) this
  refine Prod.ext h1 (Prod.ext ?_ h2)
  refine Prod.ext ?_ (Prod.ext ?_ rfl)
  · funext a
    change θ.2.1.1 (Fin.ofNat n.C a.1, Fin.ofNat n.C a.2) = θ.2.1.1 a
    congr 1
    have e1 : Fin.ofNat n.C (a.1 : ℕ) = a.1 := Fin.ext (Nat.mod_eq_of_lt a.1.2)
    have e2 : Fin.ofNat n.C (a.2 : ℕ) = a.2 := Fin.ext (Nat.mod_eq_of_lt a.2.2)
    rw [e1, e2]
  · funext k
    refine Fin.ext ?_
    change (if h : (k : ℕ) < c.base.K then (θ.2.1.2.1 ⟨k, h⟩ : ℕ) else 0) % n.C = _
    rw [dif_pos k.2]
    exact Nat.mod_eq_of_lt (Fin.is_lt _)

theorem stateOfL_ok (h : CfgOkL c n) {θ : ThetaL c.base.K n.C} (hθ : ThetaLOk c θ) : ValidL c n (stateOfL c n θ) := by
  obtain ⟨h1, h2, h3⟩ := stateOf_ok h.fix (θ := (θ.1, 1, θ.2.2)) ⟨hθ.A, fun _ => hθ.self, one_pos, hθ.W, hθ.lam, hθ.g⟩
  refine ⟨⟨h1.base, h1.alpha, h1.beta, h1.gamma, ⟨_, _, _, rfl⟩, h1.data⟩, ⟨h2.alpha, h2.beta, h2.gamma, h2.dt, h2.basis⟩, ⟨h3.lam0, h3.g, h3.W, h3.A, ?_, ?_⟩⟩
  · intro hf i hi
    have hi' : i < c.base.K := hi
    change (if h : i < c.base.K ∧ i < c.base.K then θ.1 (⟨i, h.1⟩, ⟨i, h.2⟩) else 0) = 0
    rw [dif_pos ⟨hi', hi'⟩]; exact hθ.self _
  · refine ⟨h.net.net.size, h.net.net.hyper, fun k hk => ?_, h.net.net.p, fun _ _ _ _ => hθ.v _⟩
    have hk' : k < c.base.K := hk
    change (if h : k < c.base.K then (θ.2.1.2.1 ⟨k, h⟩ : ℕ) else 0) < n.C
    rw [dif_pos hk']; exact Fin.is_lt _

end

/-! ### convergence -/

section
variable {U : Type} {Ω : Type*} [MeasurableSpace U] [MeasurableSpace Ω] {μ : Measure U} {Pr : Measure Ω} (G : Generator μ) (Ls : LabelSampler μ) {c : HawkesState} {n : SBM} [NeZero n.C]

theorem netLabels_cg (K C : ℕ) : MeasurableSpace.CountablyGenerated (NetLabels K C) := cg_prod inferInstance (cg_prod inferInstance inferInstance)

theorem thetaL_cg (K C : ℕ) : MeasurableSpace.CountablyGenerated (ThetaL K C) :=
  cg_prod inferInstance (cg_prod (netLabels_cg K C) (cg_prod inferInstance (cg_prod inferInstance inferInstance)))

theorem thetaL_valid {s : HawkesState} (hv : ValidL c n s) : thetaL c.base.K n.C s ∈ netValid c.base.K Set.univ (discValid c) := by
  have hK : s.base.K = c.base.K := by rw [hv.same.base]
  have hB : s.base.B = c.base.B := by rw [hv.same.base]
  have hp := hv.params
  refine ⟨fun e => hp.A _ (by rw [hK]; exact e.1.2) _ (by rw [hK]; exact e.2.2), trivial, fun e => (hp.W _ (by rw [hK]; exact e.1.2) _ (by rw [hK]; exact e.2.2)).le,
    fun k => hp.lam0 _ (by rw [hK]; exact k.2), fun e b hb => ?_⟩
  exact (hp.g _ (by rw [hK]; exact e.1.2) _ (by rw [hK]; exact e.2.2)).1 b (by rw [hB]; exact hb)

/-- the block probabilities of the network are positive -/
def BlocksPos (C : ℕ) : Net → Prop
  | .sbmFixed n => ∀ b < C, 0 < n.m b
  | _ => False

/-- **C96**, convergence: started in any valid state (positive block probabilities), the distribution of the parameters after `t` calls of `resample_model` converges to the posterior in total
variation. -/
theorem C96_converges [IsProbabilityMeasure Pr] (h : CfgOkL c n) (hF : FilteredFromEvents c.base.K c.base.B c.data) (huge : ℝ) (d : ℕ → Ω → StepDraws)
    (hd : ∀ t ω, DrawsOk c.base.K c.base.B n.C (d t ω)) (s : ℕ → Ω → HawkesState) (hs : ∀ ω, ValidL c n (s 0 ω) ∧ BlocksPos n.C (s 0 ω).net)
    (hm : AEMeasurable (fun ω => thetaL c.base.K n.C (s 0 ω)) Pr) (x : ℕ → Ω → SiteL Site → U)
    (hrun : ∀ t ω s', resampleModelSS huge (drawsL G Ls c.base.K c.base.B n.C (d t ω) (x t ω)) (s t ω) = .ok s' → s (t + 1) ω = s')
    (hx : ∀ t, FreshSeedsL μ Pr (fun ω => (thetaL c.base.K n.C (s 0 ω), fun i : Fin t => x i ω)) (x t)) :
    (∀ t ω, resampleModelSS huge (drawsL G Ls c.base.K c.base.B n.C (d t ω) (x t ω)) (s t ω) = .ok (s (t + 1) ω)) ∧
      ConvergesTV (fun t => Pr.map fun ω => thetaL c.base.K n.C (s t ω)) (posteriorL c n) ∧ AveragesConverge Pr (fun t ω => thetaL c.base.K n.C (s t ω)) (posteriorL c n) := by
  have hμ := gen_prob G
  have hcg := thetaL_cg c.base.K n.C
  have ok := discSys_ok G h.fix
  have okn := labelNet_ok G Ls huge (NeZero.pos n.C) h.net.net h.net.prob.1 h.net.prob.2
  have pS := discSys_pos G h.fix
  have pQ := labelNet_pos G Ls huge (NeZero.pos n.C) h.net.prob.1 h.net.prob.2 h.net.net
  obtain ⟨e0, eT, hpost⟩ := C96_posterior_proper h hF
  rw [posteriorL_eq G Ls huge] at hpost ⊢
  have hXp := ok.X_prob
  have hYp := ok.Y_prob
  have hsl : IsProbabilityMeasure (netSeedLaw (discSys G c) (labelNet G Ls huge n (NeZero.pos n.C) c.base.K) μ) := by have := okn.V_prob; unfold netSeedLaw; infer_instance
  have key := chain_converge (netSweep_meas G ok okn) (netPosterior_map G ok okn) (netValid_meas pQ.D_meas pS.D_meas) (netPosterior_valid ok okn pS pQ)
    (fun θ hθ => (netPosterior_ac G ok okn pS pQ e0 eT hθ).1) (fun θ hθ => (netPosterior_ac G ok okn pS pQ e0 eT hθ).2) (measurable_seedsL (c := c) n.C)
    (fun x hi hl => seeds_law_l G Ls huge hi hl) (par := thetaL c.base.K n.C) (valid := ValidL c n) (run := fun t ω x s => resampleModelSS huge (drawsL G Ls c.base.K c.base.B n.C (d t ω) x) s)
    (fun t ω s hs x => label_sweep_eq G Ls h huge (d t ω) (hd t ω) s hs x) (s := s) (fun ω => (hs ω).1) (fun ω => thetaL_valid (hs ω).1) hm hrun (fun t => (hx t).indep) (fun t => (hx t).law)
    (fun t => (hx t).fresh)
  refine ⟨fun t ω => (key.1 t ω).1, key.2, ?_⟩
  exact chain_average (netSweep_meas G ok okn) (netPosterior_map G ok okn) (netValid_meas pQ.D_meas pS.D_meas) (netPosterior_valid ok okn pS pQ)
    (fun θ hθ => (netPosterior_ac G ok okn pS pQ e0 eT hθ).1) (fun θ hθ => (netPosterior_ac G ok okn pS pQ e0 eT hθ).2) (measurable_seedsL (c := c) n.C)
    (fun x hi hl => seeds_law_l G Ls huge hi hl) (par := thetaL c.base.K n.C) (valid := ValidL c n) (run := fun t ω x s => resampleModelSS huge (drawsL G Ls c.base.K c.base.B n.C (d t ω) x) s)
    (fun t ω s hs x => label_sweep_eq G Ls h huge (d t ω) (hd t ω) s hs x) (s := s) (fun ω => (hs ω).1) (fun ω => thetaL_valid (hs ω).1) hm hrun (fun t => (hx t).indep) (fun t => (hx t).law)
    (fun t => (hx t).fresh)

/-- **C96**: the posterior is the only stationary distribution on valid states. -/
theorem C96_stationary_unique [IsProbabilityMeasure Pr] (h : CfgOkL c n) (hF : FilteredFromEvents c.base.K c.base.B c.data) (huge : ℝ) (d : Ω → StepDraws) (hd : ∀ ω, DrawsOk c.base.K c.base.B n.C (d ω))
    (s s' : Ω → HawkesState) (hs : ∀ ω, ValidL c n (s ω) ∧ BlocksPos n.C (s ω).net) (x : Ω → SiteL Site → U) (hx : FreshSeedsL μ Pr (fun ω => thetaL c.base.K n.C (s ω)) x)
    (hrun : ∀ ω, resampleModelSS huge (drawsL G Ls c.base.K c.base.B n.C (d ω) (x ω)) (s ω) = .ok (s' ω)) {ρ : Measure (ThetaL c.base.K n.C)}
    (hlaw : HasLaw (fun ω => thetaL c.base.K n.C (s ω)) ρ Pr) (hlaw' : HasLaw (fun ω => thetaL c.base.K n.C (s' ω)) ρ Pr) : ρ = posteriorL c n := by
  have hμ := gen_prob G
  have hcg := thetaL_cg c.base.K n.C
  have ok := discSys_ok G h.fix
  have okn := labelNet_ok G Ls huge (NeZero.pos n.C) h.net.net h.net.prob.1 h.net.prob.2
  have pS := discSys_pos G h.fix
  have pQ := labelNet_pos G Ls huge (NeZero.pos n.C) h.net.prob.1 h.net.prob.2 h.net.net
  obtain ⟨e0, eT, hpost⟩ := C96_posterior_proper h hF
  rw [posteriorL_eq G Ls huge] at hpost ⊢
  have hXp := ok.X_prob
  have hYp := ok.Y_prob
  have hsl : IsProbabilityMeasure (netSeedLaw (discSys G c) (labelNet G Ls huge n (NeZero.pos n.C) c.base.K) μ) := by have := okn.V_prob; unfold netSeedLaw; infer_instance
  refine stationary_unique (netSweep_meas G ok okn) (netPosterior_map G ok okn) (netValid_meas pQ.D_meas pS.D_meas) (netPosterior_valid ok okn pS pQ)
    (fun θ hθ => (netPosterior_ac G ok okn pS pQ e0 eT hθ).1) (fun θ hθ => (netPosterior_ac G ok okn pS pQ e0 eT hθ).2) hlaw (fun ω => thetaL_valid (hs ω).1)
    (seeds_law_l G Ls huge hx.indep hx.law) (hx.fresh.comp measurable_id (measurable_seedsL n.C)) ?_
  have e : (fun ω => thetaL c.base.K n.C (s' ω)) = fun ω => netSweep (discSys G c) (labelNet G Ls huge n (NeZero.pos n.C) c.base.K) G (thetaL c.base.K n.C (s ω)) (seedsL c n.C (x ω)) := by
    funext ω
    obtain ⟨t, h1, -, h3⟩ := label_sweep_eq G Ls h huge (d ω) (hd ω) (s ω) (hs ω).1 (x ω)
    rw [hrun ω] at h1
    rw [Except.ok.inj h1]; exact h3
  rw [← e]; exact hlaw'

end

section
variable {c : HawkesState} {n : SBM} [NeZero n.C]

/-- **Non-vacuity of C96**, invariance: for every valid model there are a probability space, a run of `resample_model` from a random model object whose parameters have the posterior
distribution, fresh seeds for every call, and random number generators as the theorems assume them. -/
theorem C96_chain_hypotheses_met (h : CfgOkL c n) (hF : FilteredFromEvents c.base.K c.base.B c.data) (huge : ℝ) (d : StepDraws) :
    ∃ (Ω : Type) (_ : MeasurableSpace Ω) (Pr : Measure Ω) (_ : IsProbabilityMeasure Pr) (G : Generator (volume : Measure unitInterval)) (Ls : LabelSampler (volume : Measure unitInterval))
      (s : ℕ → Ω → HawkesState) (x : ℕ → Ω → SiteL Site → unitInterval),
      (∀ ω, ValidL c n (s 0 ω) ∧ BlocksPos n.C (s 0 ω).net) ∧ (∀ t ω s', resampleModelSS huge (drawsL G Ls c.base.K c.base.B n.C d (x t ω)) (s t ω) = .ok s' → s (t + 1) ω = s') ∧
      (∀ t, FreshSeedsL volume Pr (fun ω => (thetaL c.base.K n.C (s 0 ω), fun i : Fin t => x i ω)) (x t)) ∧ HasLaw (fun ω => thetaL c.base.K n.C (s 0 ω)) (posteriorL c n) Pr := by
  obtain ⟨-, -, hpost⟩ := C96_posterior_proper h hF
  obtain ⟨G⟩ := C83_generator_exists
  obtain ⟨Ls⟩ := C96_sampler_exists
  obtain ⟨Ω, i1, Pr, i2, θ, x, h1, h2, h3⟩ := fresh_chain (S := SiteL Site) (posteriorL c n) measurableSet_thetaLOk (label_posterior_valid h)
  have ht : ∀ ω, thetaL c.base.K n.C (stateOfL c n (θ ω)) = θ ω := fun ω => thetaL_stateOf _
  have hbp : ∀ ω, BlocksPos n.C (stateOfL c n (θ ω)).net := fun ω => show ∀ b < n.C, 0 < (θ ω).2.1.2.2 b from (h1 ω).m
  refine ⟨Ω, i1, Pr, i2, G, Ls, fun t ω => Nat.rec (stateOfL c n (θ ω)) (fun t st => match resampleModelSS huge (drawsL G Ls c.base.K c.base.B n.C d (x t ω)) st with | .ok s' => s' | .error _ => st) t, x,
    fun ω => ⟨stateOfL_ok h (h1 ω), hbp ω⟩, ?_, ?_, ?_⟩
  · intro t ω s' hs'
    dsimp only at hs' ⊢
    rw [hs']
  · intro t
    simp only [Nat.rec_zero, ht]
    exact ⟨(h3 t).1, (h3 t).2.1, (h3 t).2.2⟩
  · simp only [Nat.rec_zero, ht]
    exact h2

/-- **Non-vacuity of C96**, convergence: the run started in any given state -/
theorem C96_hypotheses_met (huge : ℝ) (d : StepDraws) (s0 : HawkesState) :
    ∃ (Ω : Type) (_ : MeasurableSpace Ω) (Pr : Measure Ω) (_ : IsProbabilityMeasure Pr) (G : Generator (volume : Measure unitInterval)) (Ls : LabelSampler (volume : Measure unitInterval))
      (s : ℕ → Ω → HawkesState) (x : ℕ → Ω → SiteL Site → unitInterval), (∀ ω, s 0 ω = s0) ∧ AEMeasurable (fun ω => thetaL c.base.K n.C (s 0 ω)) Pr ∧
      (∀ t ω s', resampleModelSS huge (drawsL G Ls c.base.K c.base.B n.C d (x t ω)) (s t ω) = .ok s' → s (t + 1) ω = s') ∧
      (∀ t, FreshSeedsL volume Pr (fun ω => (thetaL c.base.K n.C (s 0 ω), fun i : Fin t => x i ω)) (x t)) := by
  obtain ⟨G⟩ := C83_generator_exists
  obtain ⟨Ls⟩ := C96_sampler_exists
  obtain ⟨Ω, i1, Pr, i2, θ, x, h1, h2, h3⟩ := fresh_chain (S := SiteL Site) (Measure.dirac (thetaL c.base.K n.C s0)) (good := Set.univ) MeasurableSet.univ (Filter.Eventually.of_forall fun _ => trivial)
  refine ⟨Ω, i1, Pr, i2, G, Ls, fun t ω => Nat.rec s0 (fun t st => match resampleModelSS huge (drawsL G Ls c.base.K c.base.B n.C d (x t ω)) st with | .ok s' => s' | .error _ => st) t, x, fun ω => rfl,
    (measurable_const (a := thetaL c.base.K n.C s0)).aemeasurable, ?_, ?_⟩
  · intro t ω s' hs'
    dsimp only at hs' ⊢
    rw [hs']
  · intro t
    refine ⟨(h3 t).1, (h3 t).2.1, ?_⟩
    have := (h3 t).2.2.comp (φ := fun y : ThetaL c.base.K n.C × (Fin t → SiteL Site → unitInterval) => (thetaL c.base.K n.C s0, y.2)) (ψ := id) (by fun_prop) measurable_id
    exact this

end

/-- a concrete network with two blocks on two processes, no self connections -/
noncomputable def demoLabels : SBM :=
  { K := 2, C := 2, pi := fun _ => 1, tau0 := 2, tau1 := 1, kappa := 1, alpha := 2, beta := 3, allowSelf := false, m := fun _ => 1 / 2, c := fun k => k % 2, p := fun _ _ => 1 / 2, v := fun _ _ => 1,
    fixed := false, mfPi := fun _ => 1, mfM := fun _ _ => 1, mfTau0 := fun _ _ => 1, mfTau1 := fun _ _ => 1, mfAlpha := fun _ _ => 1, mfBeta := fun _ _ => 1 }

instance : NeZero demoLabels.C := ⟨by norm_num [demoLabels]⟩

theorem demoLabels_net : LabelOk 2 demoLabels :=
  ⟨⟨rfl, ⟨by norm_num [demoLabels], by norm_num [demoLabels], by norm_num [demoLabels], by norm_num [demoLabels], by norm_num [demoLabels], fun _ _ => one_pos⟩,
    fun k _ => Nat.mod_lt k (by norm_num), fun _ _ _ _ => by norm_num [demoLabels], fun _ _ _ _ => one_pos⟩, fun _ _ _ _ => rfl, rfl, rfl⟩

theorem demoLabels_ok : CfgOkL demoChainModel demoLabels := by
  obtain ⟨h, -⟩ := demoChain_ok
  exact ⟨h.B, h.data, h.hyper, demoLabels_net⟩

theorem demoDraws_ok2 : DrawsOk 2 1 2 demoDraws := by
  have h := demoDraws_ok
  have hind : IsProb 2 (fun b => if b = 0 then (1:ℝ) else 0) := ⟨fun c hc => by dsimp only; split_ifs <;> norm_num, by simp⟩
  exact ⟨h.mult, h.lam, h.dir, h.weight, h.erGamma, h.netGamma, h.netBeta, fun _ _ => by simp [demoDraws], fun _ _ => hind, h.unif, h.order⟩

/-- **Non-vacuity of C96**: a model with two processes, two blocks and three bins of data, started in a fixed valid state -/
theorem C96_demo_run : ∃ (Ω : Type) (_ : MeasurableSpace Ω) (Pr : Measure Ω) (_ : IsProbabilityMeasure Pr) (G : Generator (volume : Measure unitInterval)) (Ls : LabelSampler (volume : Measure unitInterval))
    (s : ℕ → Ω → HawkesState) (x : ℕ → Ω → SiteL Site → unitInterval) (s0 : HawkesState), (∀ ω, s 0 ω = s0) ∧
      (∀ t ω, resampleModelSS 1 (drawsL G Ls 2 1 2 demoDraws (x t ω)) (s t ω) = .ok (s (t + 1) ω)) ∧
      ConvergesTV (fun t => Pr.map fun ω => thetaL 2 2 (s t ω)) (posteriorL demoChainModel demoLabels) := by
  have h := demoLabels_ok
  have hF := demoChain_ok.2
  have := (C96_posterior_proper h hF).2.2
  obtain ⟨θ, hθ⟩ := (label_posterior_valid h).exists
  obtain ⟨Ω, i1, Pr, i2, G, Ls, s, x, e0, hm, hrun, hx⟩ := C96_hypotheses_met (c := demoChainModel) (n := demoLabels) 1 demoDraws (stateOfL demoChainModel demoLabels θ)
  have key := C96_converges G Ls h hF 1 (fun _ _ => demoDraws) (fun _ _ => demoDraws_ok2) s
    (fun ω => by rw [e0 ω]; exact ⟨stateOfL_ok h hθ, show ∀ b < demoLabels.C, 0 < θ.2.1.2.2 b from hθ.m⟩) hm x hrun hx
  exact ⟨Ω, i1, Pr, i2, G, Ls, s, x, _, e0, key.1, key.2.1⟩

end PyHawkes
