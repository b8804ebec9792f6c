import Verif.Props.Converge

/-!
# C94 for models with a learned one-block network
-/
set_option linter.unusedSectionVars false
set_option linter.unusedVariables false

namespace PyHawkes
open Finset Spec MeasureTheory ProbabilityTheory

/-- exchange the first two components -/
theorem swap12 {A B C : Type*} [MeasurableSpace A] [MeasurableSpace B] [MeasurableSpace C] (a : Measure A) (b : Measure B) (c : Measure C) [SFinite a] [SFinite b] [SFinite c] :
    MeasurePreserving (fun y : A × B × C => (y.2.1, y.1, y.2.2)) (a.prod (b.prod c)) (b.prod (a.prod c)) :=
  (measurePreserving_prodAssoc b a c).comp (((Measure.measurePreserving_swap (μ := a) (ν := b)).prod (MeasurePreserving.id c)).comp (measurePreserving_prodAssoc a b c).symm)

section
variable {U Ω : Type*} [MeasurableSpace U] [MeasurableSpace Ω] {μ : Measure U} {Pr : Measure Ω} (G : Generator μ) (Bt : BetaSampler μ) {c : HawkesState} {n : SBM}

theorem _root_.PyHawkes.Spec.CfgOkB.block (h : CfgOkB c n) : BlockHyper n := by
  obtain ⟨h0, h1, ha, hb, hk, -⟩ := h.net.hyper
  exact ⟨h0, h1, ha, hb, hk⟩

/-- reorder the seeds -/
def seedsNetB (x : U × Seeds c U) : NetSeeds c.base.K U (U × U) (Row c → U) ((Fin c.base.K → U) × (Pair c.base.K → U)) := (x.2.1, (x.2.2.1, x.2.2.2.1), (x.1, x.2.2.2.2.1), x.2.2.2.2.2)

theorem seedsNetB_law [IsProbabilityMeasure μ] : MeasurePreserving (seedsNetB (c := c)) (μ.prod (seedLaw c μ)) (netSeedLaw (discSys G c) (blockNet G Bt c.base.K n) μ) := by
  have R : Measure ((Pair c.base.K → U) × (Pair c.base.K → U)) := (Measure.pi fun _ => μ).prod (Measure.pi fun _ => μ)
  have h1 := swap12 μ (Measure.pi fun _ : Row c => μ) ((Measure.pi fun _ : Fin c.base.K => μ).prod ((Measure.pi fun _ : Pair c.base.K => μ).prod (μ.prod
    ((Measure.pi fun _ : Pair c.base.K => μ).prod (Measure.pi fun _ : Pair c.base.K => μ)))))
  have h2 := (measurePreserving_prodAssoc (Measure.pi fun _ : Fin c.base.K => μ) (Measure.pi fun _ : Pair c.base.K => μ)
    (μ.prod ((Measure.pi fun _ : Pair c.base.K => μ).prod (Measure.pi fun _ : Pair c.base.K => μ)))).symm
  have h3 := swap12 μ ((Measure.pi fun _ : Fin c.base.K => μ).prod (Measure.pi fun _ : Pair c.base.K => μ)) (μ.prod ((Measure.pi fun _ : Pair c.base.K => μ).prod (Measure.pi fun _ : Pair c.base.K => μ)))
  have h4 := (measurePreserving_prodAssoc μ μ ((Measure.pi fun _ : Pair c.base.K => μ).prod (Measure.pi fun _ : Pair c.base.K => μ))).symm
  exact ((MeasurePreserving.id (Measure.pi fun _ : Row c => μ)).prod
    (((MeasurePreserving.id ((Measure.pi fun _ : Fin c.base.K => μ).prod (Measure.pi fun _ : Pair c.base.K => μ))).prod h4).comp (h3.comp ((MeasurePreserving.id μ).prod h2)))).comp h1

/-- reorder the parameters -/
def parNet {K : ℕ} (θ : ThetaB K) : NetTheta K (ℝ × ℝ) ((Fin K → ℝ) × (Pair K → Vec ℝ)) := (θ.2.1, (θ.1, θ.2.2.1), θ.2.2.2)

/-- and back -/
def parBack {K : ℕ} (θ : NetTheta K (ℝ × ℝ) ((Fin K → ℝ) × (Pair K → Vec ℝ))) : ThetaB K := (θ.2.1.1, θ.1, θ.2.1.2, θ.2.2)

theorem measurable_parBack {K : ℕ} : Measurable (parBack (K := K)) := by unfold parBack; fun_prop

theorem sweepStepB_net (h : CfgOkB c n) (θ : ThetaB c.base.K) (x : U × Seeds c U) :
    sweepStepB G Bt c n θ x = parBack (netSweep (discSys G c) (blockNet G Bt c.base.K n) G (parNet θ) (seedsNetB x)) := by
  have hv : ∀ u v (A W : Pair c.base.K → ℝ), vOf G c (erOf n 0) u v A W = G.gam ⟨n.alpha + (∑ e, A e) * n.kappa, 1 / (n.beta + ∑ e, if 0 < A e then W e else 0)⟩ u := by
    intro u v A W
    have ht : (truthy (some n.alpha) && truthy (some n.beta)) = true := by
      simp [truthy, h.block.a.ne', h.block.b.ne']
    exact if_pos ht
  have hp : ∀ p, (fun e : Pair c.base.K => (erOf n p).P e.1 e.2) = fun _ => p := fun p => funext fun e => erOf_P n p _ _
  have he : ∀ (p : ℝ) (θ' : Theta c.base.K) (y : Pair c.base.K → U), edgesStep G c (erOf n p) θ' y
      = (sitesStep G (fun _ => p) (fun A => likR c A θ'.2.2.1 θ'.2.2.2.1 θ'.2.2.2.2) y (pairList c.base.K) θ'.1, θ'.2) := by
    intro p θ' y
    rw [← hp p]; rfl
  have hg : globalStep G c (erOf n 0) θ.2 x.2 = (parBack (netGlobal (discSys G c) (blockNet G Bt c.base.K n) G (parNet θ) (seedsNetB x))).2 := by
    unfold globalStep
    dsimp only
    rw [hv]
    rfl
  unfold sweepStepB
  rw [he, hg]
  rfl

theorem parNet_base (h : CfgOkB c n) : MeasurePreserving (parNet (K := c.base.K))
    ((betaMeasure n.tau1 n.tau0).prod ((Measure.pi fun _ : Pair c.base.K => Measure.dirac (0 : ℝ) + Measure.dirac 1).prod ((gammaMeasure n.alpha n.beta).prod ((Measure.pi fun _ => volume).prod (phiPrior c)))))
    ((coins01 c.base.K).prod ((blockNet G Bt c.base.K n).ν.prod ((Measure.pi fun _ => volume).prod (discSys G c).ν))) := by
  have hb := h.block
  have := isProbabilityMeasure_gammaMeasure hb.a hb.b
  have := isProbabilityMeasureBeta hb.t1 hb.t0
  have := phi_prob (h.fix (p := 0) le_rfl zero_le_one)
  have h1 := swap12 (betaMeasure n.tau1 n.tau0) (Measure.pi fun _ : Pair c.base.K => Measure.dirac (0 : ℝ) + Measure.dirac 1)
    ((gammaMeasure n.alpha n.beta).prod ((Measure.pi fun _ : Pair c.base.K => (volume : Measure ℝ)).prod (phiPrior c)))
  have h2 := (measurePreserving_prodAssoc (betaMeasure n.tau1 n.tau0) (gammaMeasure n.alpha n.beta) ((Measure.pi fun _ : Pair c.base.K => (volume : Measure ℝ)).prod (phiPrior c))).symm
  exact ((MeasurePreserving.id (Measure.pi fun _ : Pair c.base.K => Measure.dirac (0 : ℝ) + Measure.dirac 1)).prod h2).comp h1

/-- density of adjacency matrix and weights -/
noncomputable def densNet (n : SBM) {K : ℕ} (θ : NetTheta K (ℝ × ℝ) ((Fin K → ℝ) × (Pair K → Vec ℝ))) : ENNReal := (∏ e, edgePmf θ.2.1.1 (θ.1 e)) * ∏ e, gammaPDF n.kappa θ.2.1.2 (θ.2.2.1 e)

theorem densNet_meas (n : SBM) (K : ℕ) : Measurable (densNet n (K := K)) := by
  refine (Finset.measurable_prod _ fun e _ => measurable_edgePmf.comp (f := fun θ : NetTheta K (ℝ × ℝ) ((Fin K → ℝ) × (Pair K → Vec ℝ)) => (θ.2.1.1, θ.1 e)) (by fun_prop)).mul
    (Finset.measurable_prod _ fun e _ => (measurable_gammaPDF' n.kappa).comp (f := fun θ : NetTheta K (ℝ × ℝ) ((Fin K → ℝ) × (Pair K → Vec ℝ)) => (θ.2.1.2, θ.2.2.1 e)) (by fun_prop))

theorem netPrior_block : netPrior (discSys G c) (blockNet G Bt c.base.K n)
    = ((coins01 c.base.K).prod ((blockNet G Bt c.base.K n).ν.prod ((Measure.pi fun _ => volume).prod (discSys G c).ν))).withDensity (densNet n) := rfl

theorem priorB_block : priorB c n = ((betaMeasure n.tau1 n.tau0).prod ((Measure.pi fun _ : Pair c.base.K => Measure.dirac (0 : ℝ) + Measure.dirac 1).prod
    ((gammaMeasure n.alpha n.beta).prod ((Measure.pi fun _ => volume).prod (phiPrior c))))).withDensity fun θ => densNet n (parNet θ) := rfl

theorem priorB_net (h : CfgOkB c n) {T : ThetaB c.base.K → ENNReal} (hT : Measurable T) :
    ∫⁻ θ, T (parBack θ) ∂netPrior (discSys G c) (blockNet G Bt c.base.K n) = ∫⁻ θ, T θ ∂priorB c n := by
  have mD := densNet_meas n c.base.K
  have mT : Measurable fun θ => T (parBack (K := c.base.K) θ) := hT.comp measurable_parBack
  have hmp := parNet_base G Bt h
  have mD' : Measurable fun θ => densNet n (parNet (K := c.base.K) θ) := mD.comp hmp.measurable
  have hc := hmp.lintegral_comp (mD.mul mT)
  rw [netPrior_block, priorB_block]
  rw [lintegral_withDensity_eq_lintegral_mul _ mD mT]
  rw [lintegral_withDensity_eq_lintegral_mul _ mD' hT]
  exact hc.symm

theorem likB_net (θ : ThetaB c.base.K) : likelihood c θ.2 = netLik (discSys G c) (parNet θ) := rfl

/-- the parameters from which one call reaches every set of positive probability -/
def thetaValidB (c : HawkesState) : Set (ThetaB c.base.K) := parNet ⁻¹' netValid c.base.K Set.univ (discValid c)

theorem discB_ac (h : CfgOkB c n) (hF : FilteredFromEvents c.base.K c.base.B c.data) {θ : ThetaB c.base.K} (hθ : θ ∈ thetaValidB c) :
    (μ.prod (seedLaw c μ)).map (sweepStepB G Bt c n θ) ≪ posteriorB c n ∧ posteriorB c n ≪ (μ.prod (seedLaw c μ)).map (sweepStepB G Bt c n θ) := by
  have hμ := gen_prob G
  have hQ := blockNet_ok G Bt c.base.K h.block
  have h0 := h.fix (p := 0) le_rfl zero_le_one
  have hS := discSys_ok G h0
  have hp := C83_block_posterior_proper h hF
  have hsf := priorB_sfinite h
  have ms : Measurable (sweepStepB G Bt c n θ) := (measurable_sweepStepB G Bt h).comp (f := fun x => (θ, x)) (by fun_prop)
  have ml : Measurable fun θ : ThetaB c.base.K => likelihood c θ.2 := (measurable_likelihood c h.data).comp measurable_snd
  have key : ∀ s, MeasurableSet s → ((μ.prod (seedLaw c μ)).map (sweepStepB G Bt c n θ) s = 0 ↔ posteriorB c n s = 0) := by
    intro s hs
    unfold posteriorB
    rw [post_zero_iff ml (fun θ => by unfold likelihood; rw [ne_eq, ENNReal.ofReal_eq_zero]; exact not_le.2 (Real.exp_pos _)) hp.2.1 hp.1]
    have mi : Measurable (s.indicator (1 : ThetaB c.base.K → ENNReal)) := measurable_one.indicator hs
    have mT : Measurable fun θ => s.indicator (1 : ThetaB c.base.K → ENNReal) (parBack θ) := mi.comp measurable_parBack
    have hn := netSweep_null G hS hQ (discSys_pos G h0) (blockNet_pos G Bt c.base.K h.block) hθ mT
    have mN : Measurable (netSweep (discSys G c) (blockNet G Bt c.base.K n) G (parNet θ)) := (netSweep_meas G hS hQ).comp (f := fun x => (parNet θ, x)) (by fun_prop)
    rw [priorB_net G Bt h mi, lintegral_indicator_one hs] at hn
    have hc := (seedsNetB_law (c := c) (n := n) G Bt).lintegral_comp (mT.comp mN)
    simp only [Function.comp_def] at hc
    rw [← hc] at hn
    rw [← hn, ← lintegral_indicator_one hs, lintegral_map mi ms]
    simp only [sweepStepB_net G Bt h]
  exact ⟨Measure.AbsolutelyContinuous.mk fun s hs h0 => (key s hs).2 h0, Measure.AbsolutelyContinuous.mk fun s hs h0 => (key s hs).1 h0⟩

theorem thetaB_cg (K : ℕ) : MeasurableSpace.CountablyGenerated (ThetaB K) := cg_prod inferInstance (theta_cg K)

include G in
theorem thetaValidB_meas (h : CfgOkB c n) : MeasurableSet (thetaValidB c) := by
  have mP : Measurable (parNet (K := c.base.K)) := by unfold parNet; fun_prop
  exact mP (netValid_meas MeasurableSet.univ (discSys_pos G (h.fix (p := 0) le_rfl zero_le_one)).D_meas)

theorem thetaValidB_ae (h : CfgOkB c n) : ∀ᵐ θ ∂posteriorB c n, θ ∈ thetaValidB c := by
  filter_upwards [posteriorB_valid h] with θ hθ
  exact ⟨hθ.2.A, trivial, fun e => (hθ.2.W e).le, hθ.2.lam, fun e b hb => (hθ.2.g e).1 b hb⟩

theorem thetaB_valid {s : HawkesState} (hs : SameModelB c n s) (hp : ParamsOk s) : thetaB c.base.K s ∈ thetaValidB c := by
  have hK : s.base.K = c.base.K := by rw [hs.base]
  have hB : s.base.B = c.base.B := by rw [hs.base]
  refine ⟨fun e => hp.A _ (by rw [hK]; exact e.1.2) _ (by rw [hK]; exact e.2.2), trivial, fun e => (hp.W _ (by rw [hK]; exact e.1.2) _ (by rw [hK]; exact e.2.2)).le,
    fun k => hp.lam0 _ (by rw [hK]; exact k.2), fun e b hb => (hp.g _ (by rw [hK]; exact e.1.2) _ (by rw [hK]; exact e.2.2)).1 b (by rw [hB]; exact hb)⟩

/-- **C94** for a learned one-block network (`ErdosRenyiModel`): started in any valid state, the distribution of all parameters, including edge probability and weight scale, converges to the
posterior in total variation. -/
theorem C94_block_converges [IsProbabilityMeasure Pr] (h : CfgOkB c n) (hF : FilteredFromEvents c.base.K c.base.B c.data) (huge : ℝ) (d : ℕ → Ω → StepDraws)
    (hd : ∀ t ω, DrawsOk c.base.K c.base.B 1 (d t ω)) (s : ℕ → Ω → HawkesState) (hs : ∀ ω, SameModelB c n (s 0 ω) ∧ HyperOk (s 0 ω) ∧ ParamsOk (s 0 ω))
    (hm : AEMeasurable (fun ω => thetaB c.base.K (s 0 ω)) Pr) (x : ℕ → Ω → SiteB → U)
    (hrun : ∀ t ω s', resampleModelSS huge (drawsB G Bt c.base.K c.base.B (d t ω) (x t ω)) (s t ω) = .ok s' → s (t + 1) ω = s')
    (hx : ∀ t, FreshSeedsB μ Pr (fun ω => (thetaB c.base.K (s 0 ω), fun i : Fin t => x i ω)) (x t)) :
    (∀ t ω, resampleModelSS huge (drawsB G Bt c.base.K c.base.B (d t ω) (x t ω)) (s t ω) = .ok (s (t + 1) ω)) ∧
      ConvergesTV (fun t => Pr.map fun ω => thetaB c.base.K (s t ω)) (posteriorB c n) := by
  have hμ := gen_prob G
  have hcg := thetaB_cg c.base.K
  have hpost := (C83_block_posterior_proper h hF).2.2
  have hsl : IsProbabilityMeasure (μ.prod (seedLaw c μ)) := by unfold seedLaw; infer_instance
  have key := chain_converge (measurable_sweepStepB G Bt h) (posteriorB_map G Bt h) (thetaValidB_meas G h) (thetaValidB_ae h) (fun θ hθ => (discB_ac G Bt h hF hθ).1)
    (fun θ hθ => (discB_ac G Bt h hF hθ).2) (measurable_seedsOfB (c := c)) (fun x hi hl => seedsB_law (c := c) hi hl) (par := thetaB c.base.K)
    (valid := fun s => SameModelB c n s ∧ HyperOk s ∧ ParamsOk s) (run := fun t ω x s => resampleModelSS huge (drawsB G Bt c.base.K c.base.B (d t ω) x) s)
    (fun t ω s hv x => by
      obtain ⟨s', h1, h2, h3, h4, h5⟩ := sweepB_eq G Bt c n h huge (d t ω) (hd t ω) s hv.1 hv.2.1 hv.2.2 x
      exact ⟨s', h1, ⟨h2, h3, h4⟩, h5⟩)
    (s := s) hs (fun ω => thetaB_valid (hs ω).1 (hs ω).2.2) hm hrun (fun t => (hx t).indep) (fun t => (hx t).law) (fun t => (hx t).fresh)
  exact ⟨fun t ω => (key.1 t ω).1, key.2⟩

/-- **C94** for a learned one-block network: the posterior is the only stationary distribution on valid states. -/
theorem C94_block_stationary_unique [IsProbabilityMeasure Pr] (h : CfgOkB c n) (hF : FilteredFromEvents c.base.K c.base.B c.data) (huge : ℝ) (d : Ω → StepDraws)
    (hd : ∀ ω, DrawsOk c.base.K c.base.B 1 (d ω)) (s s' : Ω → HawkesState) (hs : ∀ ω, SameModelB c n (s ω) ∧ HyperOk (s ω) ∧ ParamsOk (s ω)) (x : Ω → SiteB → U)
    (hx : FreshSeedsB μ Pr (fun ω => thetaB c.base.K (s ω)) x) (hrun : ∀ ω, resampleModelSS huge (drawsB G Bt c.base.K c.base.B (d ω) (x ω)) (s ω) = .ok (s' ω))
    {ρ : Measure (ThetaB c.base.K)} (hlaw : HasLaw (fun ω => thetaB c.base.K (s ω)) ρ Pr) (hlaw' : HasLaw (fun ω => thetaB c.base.K (s' ω)) ρ Pr) : ρ = posteriorB c n := by
  have hμ := gen_prob G
  have hcg := thetaB_cg c.base.K
  have hpost := (C83_block_posterior_proper h hF).2.2
  have hsl : IsProbabilityMeasure (μ.prod (seedLaw c μ)) := by unfold seedLaw; infer_instance
  refine stationary_unique (measurable_sweepStepB G Bt h) (posteriorB_map G Bt h) (thetaValidB_meas G h) (thetaValidB_ae h) (fun θ hθ => (discB_ac G Bt h hF hθ).1)
    (fun θ hθ => (discB_ac G Bt h hF hθ).2) hlaw (fun ω => thetaB_valid (hs ω).1 (hs ω).2.2) (seedsB_law (c := c) hx.indep hx.law) (hx.fresh.comp measurable_id measurable_seedsOfB) ?_
  have e : (fun ω => thetaB c.base.K (s' ω)) = fun ω => sweepStepB G Bt c n (thetaB c.base.K (s ω)) (seedsOfB c (x ω)) := by
    funext ω
    obtain ⟨t, h1, -, -, -, h5⟩ := sweepB_eq G Bt c n h huge (d ω) (hd ω) (s ω) (hs ω).1 (hs ω).2.1 (hs ω).2.2 (x ω)
    rw [hrun ω] at h1
    rw [Except.ok.inj h1]; exact h5
  rw [← e]; exact hlaw'

end

section
variable {c : HawkesState} {n : SBM}

/-- **Non-vacuity of C94** for a learned one-block network: the run started in any given state -/
theorem C94_block_hypotheses_met (h : CfgOkB c n) (huge : ℝ) (d : StepDraws) (s0 : HawkesState) :
    ∃ (Ω : Type) (_ : MeasurableSpace Ω) (Pr : Measure Ω) (_ : IsProbabilityMeasure Pr) (G : Generator (volume : Measure unitInterval)) (Bt : BetaSampler (volume : Measure unitInterval))
      (s : ℕ → Ω → HawkesState) (x : ℕ → Ω → SiteB → unitInterval), (∀ ω, s 0 ω = s0) ∧ AEMeasurable (fun ω => thetaB c.base.K (s 0 ω)) Pr ∧
      (∀ t ω s', resampleModelSS huge (drawsB G Bt c.base.K c.base.B d (x t ω)) (s t ω) = .ok s' → s (t + 1) ω = s') ∧
      (∀ t, FreshSeedsB volume Pr (fun ω => (thetaB c.base.K (s 0 ω), fun i : Fin t => x i ω)) (x t)) := by
  obtain ⟨G⟩ := C83_generator_exists
  obtain ⟨Bt⟩ := C83_beta_sampler_exists
  obtain ⟨Ω, i1, Pr, i2, θ, x, h1, h2, h3⟩ := fresh_chain (S := SiteB) (Measure.dirac (thetaB c.base.K s0)) (good := Set.univ) MeasurableSet.univ (Filter.Eventually.of_forall fun _ => trivial)
  refine ⟨Ω, i1, Pr, i2, G, Bt, fun t ω => Nat.rec s0 (fun t st => match resampleModelSS huge (drawsB G Bt c.base.K c.base.B d (x t ω)) st with | .ok s' => s' | .error _ => st) t, x, fun ω => rfl,
    (measurable_const (a := thetaB c.base.K s0)).aemeasurable, ?_, ?_⟩
  · intro t ω s' hs'
    dsimp only at hs' ⊢
    rw [hs']
  · intro t
    refine ⟨(h3 t).1, (h3 t).2.1, ?_⟩
    have := (h3 t).2.2.comp (φ := fun y : ThetaB c.base.K × (Fin t → SiteB → unitInterval) => (thetaB c.base.K s0, y.2)) (ψ := id) (by fun_prop) measurable_id
    exact this

/-- a valid start for the demo model of C83 -/
theorem C94_block_demo_start : CfgOkB demoChainModel demoBlock ∧ FilteredFromEvents 2 1 demoChainModel.data ∧ ∃ s0, SameModelB demoChainModel demoBlock s0 ∧ HyperOk s0 ∧ ParamsOk s0 := by
  have h := demoBlock_ok
  have hF := demoChain_ok.2
  have := (C83_block_posterior_proper h hF).2.2
  obtain ⟨θ, hθ⟩ := (posteriorB_valid h).exists
  exact ⟨h, hF, stateOfB demoChainModel demoBlock θ, stateOfB_ok h hθ⟩

end

end PyHawkes
