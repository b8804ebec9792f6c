import Verif.Props.ConvergeBlock
import Verif.Props.ConvergeCT
import Verif.Props.ErgodicTransfer

/-!
# C95: averages over the states of the sampler converge to posterior expectations
-/
set_option linter.unusedSectionVars false
set_option linter.unusedVariables false

namespace PyHawkes
open Finset Spec MeasureTheory ProbabilityTheory

section
variable {U Ω : Type*} [MeasurableSpace U] [MeasurableSpace Ω] {μ : Measure U} {Pr : Measure Ω} (G : Generator μ) {c : HawkesState} {n : ERFixed}

/-- **C95**: started in any valid state, averages of any function of the parameters over the states after a burn-in converge (in probability) to its posterior expectation. -/
theorem C95_averages [IsProbabilityMeasure Pr] (h : CfgOk c n) (hF : FilteredFromEvents c.base.K c.base.B c.data) (huge : ℝ) (d : ℕ → Ω → StepDraws)
    (hd : ∀ t ω, DrawsOk c.base.K c.base.B 1 (d t ω)) (s : ℕ → Ω → HawkesState)
    (hs : ∀ ω, SameModel c n (s 0 ω) ∧ HyperOk (s 0 ω) ∧ ParamsOk (s 0 ω) ∧ ScaleOk n (netScale (s 0 ω).net)) (hm : AEMeasurable (fun ω => theta c.base.K (s 0 ω)) Pr) (x : ℕ → Ω → Site → U)
    (hrun : ∀ t ω s', resampleModelSS huge (G.draws c.base.K c.base.B (d t ω) (x t ω)) (s t ω) = .ok s' → s (t + 1) ω = s')
    (hx : ∀ t, FreshSeeds μ Pr (fun ω => (theta c.base.K (s 0 ω), fun i : Fin t => x i ω)) (x t)) :
    AveragesConverge Pr (fun t ω => theta c.base.K (s t ω)) (posterior c n) := by
  have hμ := gen_prob G
  have hcg := theta_cg c.base.K
  have hpost := (C83_posterior_proper h hF).2.2
  have hsl : IsProbabilityMeasure (seedLaw c μ) := by unfold seedLaw; infer_instance
  have hD : MeasurableSet (thetaValid c n) := netValid_meas (erNet_pos G h.net).D_meas (discSys_pos G h).D_meas
  have hpD : ∀ᵐ θ ∂posterior c n, θ ∈ thetaValid c n := by
    rw [posterior_net G h]; exact netPosterior_valid (discSys_ok G h) (erNet_ok G h.net) (discSys_pos G h) (erNet_pos G h.net)
  exact chain_average (measurable_sweepStep G h) (posterior_map G h) hD hpD (fun θ hθ => (disc_ac G h hF hθ).1) (fun θ hθ => (disc_ac G h hF hθ).2) (measurable_seedsOf (c := c))
    (fun x hi hl => seeds_law (c := c) hi hl) (par := theta c.base.K) (valid := fun s => SameModel c n s ∧ HyperOk s ∧ ParamsOk s)
    (run := fun t ω x s => resampleModelSS huge (G.draws c.base.K c.base.B (d t ω) x) s)
    (fun t ω s hv x => by
      obtain ⟨s', h1, h2, h3, h4, h5⟩ := sweep_eq G c n huge (d t ω) (hd t ω) h.B s hv.1 hv.2.1 hv.2.2 h.data x
      exact ⟨s', h1, ⟨h2, h3, h4⟩, h5⟩)
    (s := s) (fun ω => ⟨(hs ω).1, (hs ω).2.1, (hs ω).2.2.1⟩) (fun ω => theta_valid (hs ω).1 (hs ω).2.2.1 (hs ω).2.2.2) hm hrun (fun t => (hx t).indep) (fun t => (hx t).law) (fun t => (hx t).fresh)

/-- **C95**: the fraction of the sampled states in which the edge `i → j` is present converges to the posterior probability of the edge. -/
theorem C95_edge_frequency [IsProbabilityMeasure Pr] (h : CfgOk c n) (hF : FilteredFromEvents c.base.K c.base.B c.data) (huge : ℝ) (d : ℕ → Ω → StepDraws)
    (hd : ∀ t ω, DrawsOk c.base.K c.base.B 1 (d t ω)) (s : ℕ → Ω → HawkesState)
    (hs : ∀ ω, SameModel c n (s 0 ω) ∧ HyperOk (s 0 ω) ∧ ParamsOk (s 0 ω) ∧ ScaleOk n (netScale (s 0 ω).net)) (hm : AEMeasurable (fun ω => theta c.base.K (s 0 ω)) Pr) (x : ℕ → Ω → Site → U)
    (hrun : ∀ t ω s', resampleModelSS huge (G.draws c.base.K c.base.B (d t ω) (x t ω)) (s t ω) = .ok s' → s (t + 1) ω = s')
    (hx : ∀ t, FreshSeeds μ Pr (fun ω => (theta c.base.K (s 0 ω), fun i : Fin t => x i ω)) (x t)) (i j : Fin c.base.K) (b : ℕ) (ε : ℝ) (hε : 0 < ε) :
    ∃ N, ∀ m, N ≤ m → Pr.real {ω | ε ≤ |(((Finset.range m).filter fun t => (s (b + t) ω).A i j = 1).card : ℝ) / m - (posterior c n).real {θ | θ.1 (i, j) = 1}|} ≤ ε := by
  classical
  have hpost := (C83_posterior_proper h hF).2.2
  have hA : MeasurableSet {θ : Theta c.base.K | θ.1 (i, j) = 1} := measurableSet_eq_fun ((measurable_pi_apply (i, j)).comp measurable_fst) measurable_const
  have mi : Measurable ({θ : Theta c.base.K | θ.1 (i, j) = 1}.indicator fun _ => (1 : ℝ)) := measurable_const.indicator hA
  have key := C95_averages G h hF huge d hd s hs hm x hrun hx _ mi ((integrable_const _).indicator hA) b ε hε
  have e : ∀ ω m, (∑ t ∈ Finset.range m, {θ : Theta c.base.K | θ.1 (i, j) = 1}.indicator (fun _ => (1 : ℝ)) (theta c.base.K (s (b + t) ω))) = (((Finset.range m).filter fun t => (s (b + t) ω).A i j = 1).card : ℝ) :=
    fun ω m => by
      rw [Finset.card_filter]
      push_cast
      exact Finset.sum_congr rfl fun t _ => rfl
  rw [integral_indicator_const _ hA, smul_eq_mul, mul_one] at key
  simp only [e] at key
  exact key

/-- **C95**: a function of the parameters that has an expectation under the prior has one under the posterior, so `C95_averages` applies to it. -/
theorem C95_prior_integrable (h : CfgOk c n) (hF : FilteredFromEvents c.base.K c.base.B c.data) {f : Theta c.base.K → ℝ} (hf : Integrable f (prior c n)) : Integrable f (posterior c n) := by
  obtain ⟨h0, hT, -⟩ := C83_posterior_proper h hF
  obtain ⟨C, hC⟩ := lik_bounded h hF
  have mlik := measurable_likelihood c h.data
  have hb : ∀ᵐ θ ∂prior c n, likelihood c θ ≤ ENNReal.ofReal C := by
    filter_upwards [prior_valid h] with θ hθ
    exact ENNReal.ofReal_le_ofReal (hC θ.1 θ.2.2.1 θ.2.2.2.1 θ.2.2.2.2 (fun e => by rcases hθ.A e with h | h <;> rw [h] <;> simp [(hθ.W e).le]) hθ.lam hθ.g)
  unfold posterior
  refine Integrable.smul_measure ?_ (ENNReal.inv_ne_top.2 h0)
  refine Integrable.mono_measure (ν := ENNReal.ofReal C • prior c n) (hf.smul_measure ENNReal.ofReal_ne_top) ?_
  refine Measure.le_iff.2 fun s hs => ?_
  rw [withDensity_apply _ hs, Measure.smul_apply, smul_eq_mul]
  refine (lintegral_mono_ae (ae_restrict_of_ae hb)).trans ?_
  rw [lintegral_const, Measure.restrict_apply MeasurableSet.univ, Set.univ_inter]

/-- **C95**: averages of the sampled background rates converge to the posterior mean: the posterior mean exists. -/
theorem C95_background_integrable (h : CfgOk c n) (hF : FilteredFromEvents c.base.K c.base.B c.data) (k : Fin c.base.K) : Integrable (fun θ : Theta c.base.K => θ.2.2.2.1 k) (posterior c n) := by
  obtain ⟨G⟩ := C83_generator_exists
  refine C95_prior_integrable h hF ⟨by fun_prop, ?_⟩
  have m : Measurable fun θ : Theta c.base.K => ‖θ.2.2.2.1 k‖ₑ := by fun_prop
  have hΦ := phi_prob h
  have hP : ∀ e : Pair c.base.K, IsProbabilityMeasure (coinLaw (n.P e.1 e.2)) := fun e => coinLaw_prob (P_mem h e).1 (P_mem h e).2
  have hS := scale_prob G h
  unfold HasFiniteIntegral
  rw [prior_lintegral G h m]
  have ig : Integrable (fun x : ℝ => x) (gammaMeasure c.alpha c.beta) := (integrable_gammaMeasure h.hyper.alpha h.hyper.beta _).2 (gamma_mean h.hyper.alpha h.hyper.beta).1
  have := isProbabilityMeasure_gammaMeasure h.hyper.alpha h.hyper.beta
  have := dirichlet_prob h.hyper.gamma
  have mp : MeasurePreserving (fun φ : (Fin c.base.K → ℝ) × (Pair c.base.K → Vec ℝ) => φ.1 k) (phiPrior c) (gammaMeasure c.alpha c.beta) :=
    (measurePreserving_eval (fun _ : Fin c.base.K => gammaMeasure c.alpha c.beta) k).comp measurePreserving_fst
  have hI : ∫⁻ φ, ‖φ.1 k‖ₑ ∂phiPrior c < ⊤ := by
    rw [mp.lintegral_comp (f := fun x : ℝ => ‖x‖ₑ) (by fun_prop)]
    exact ig.2
  refine lt_of_le_of_lt (le_of_eq ?_) hI
  have e : ∀ (A : Pair c.base.K → ℝ), ∫⁻ η, ∫⁻ W, ∫⁻ φ, wDens (c := c) n η W * ‖φ.1 k‖ₑ ∂phiPrior c ∂Measure.pi (fun _ => volume) ∂scalePrior n = ∫⁻ φ, ‖φ.1 k‖ₑ ∂phiPrior c := by
    intro A
    rw [← mul_one (∫⁻ φ, ‖φ.1 k‖ₑ ∂phiPrior c), ← measure_univ (μ := scalePrior n), ← lintegral_const]
    refine lintegral_congr_ae ?_
    filter_upwards [scale_pos G h] with η hη
    have mk : Measurable fun φ : (Fin c.base.K → ℝ) × (Pair c.base.K → Vec ℝ) => ‖φ.1 k‖ₑ := by fun_prop
    have mw : Measurable fun W : Pair c.base.K → ℝ => wDens (c := c) n η W := by
      unfold wDens
      exact Finset.measurable_prod _ fun e _ => (measurable_gammaPDFReal _ _).ennreal_ofReal.comp (measurable_pi_apply e)
    simp only [lintegral_const_mul _ mk]
    rw [lintegral_mul_const _ mw, wDens_integral h hη, one_mul]
  rw [lintegral_congr fun A => e A, lintegral_const, measure_univ, mul_one]

end

section
variable {U Ω : Type*} [MeasurableSpace U] [MeasurableSpace Ω] {μ : Measure U} {Pr : Measure Ω} (G : Generator μ) (Bt : BetaSampler μ) {c : HawkesState} {n : SBM}

/-- **C95** for a learned one-block network -/
theorem C95_block_averages [IsProbabilityMeasure Pr] (h : CfgOkB c n) (hF : FilteredFromEvents c.base.K c.base.B c.data) (huge : ℝ) (d : ℕ → Ω → StepDraws)
    (hd : ∀ t ω, DrawsOk c.base.K c.base.B 1 (d t ω)) (s : ℕ → Ω → HawkesState) (hs : ∀ ω, SameModelB c n (s 0 ω) ∧ HyperOk (s 0 ω) ∧ ParamsOk (s 0 ω))
    (hm : AEMeasurable (fun ω => thetaB c.base.K (s 0 ω)) Pr) (x : ℕ → Ω → SiteB → U)
    (hrun : ∀ t ω s', resampleModelSS huge (drawsB G Bt c.base.K c.base.B (d t ω) (x t ω)) (s t ω) = .ok s' → s (t + 1) ω = s')
    (hx : ∀ t, FreshSeedsB μ Pr (fun ω => (thetaB c.base.K (s 0 ω), fun i : Fin t => x i ω)) (x t)) :
    AveragesConverge Pr (fun t ω => thetaB c.base.K (s t ω)) (posteriorB c n) := by
  have hμ := gen_prob G
  have hcg := thetaB_cg c.base.K
  have hpost := (C83_block_posterior_proper h hF).2.2
  have hsl : IsProbabilityMeasure (μ.prod (seedLaw c μ)) := by unfold seedLaw; infer_instance
  exact chain_average (measurable_sweepStepB G Bt h) (posteriorB_map G Bt h) (thetaValidB_meas G h) (thetaValidB_ae h) (fun θ hθ => (discB_ac G Bt h hF hθ).1)
    (fun θ hθ => (discB_ac G Bt h hF hθ).2) (measurable_seedsOfB (c := c)) (fun x hi hl => seedsB_law (c := c) hi hl) (par := thetaB c.base.K)
    (valid := fun s => SameModelB c n s ∧ HyperOk s ∧ ParamsOk s) (run := fun t ω x s => resampleModelSS huge (drawsB G Bt c.base.K c.base.B (d t ω) x) s)
    (fun t ω s hv x => by
      obtain ⟨s', h1, h2, h3, h4, h5⟩ := sweepB_eq G Bt c n h huge (d t ω) (hd t ω) s hv.1 hv.2.1 hv.2.2 x
      exact ⟨s', h1, ⟨h2, h3, h4⟩, h5⟩)
    (s := s) hs (fun ω => thetaB_valid (hs ω).1 (hs ω).2.2) hm hrun (fun t => (hx t).indep) (fun t => (hx t).law) (fun t => (hx t).fresh)

end

section
variable {U Ω : Type*} [MeasurableSpace U] [MeasurableSpace Ω] {μ : Measure U} {Pr : Measure Ω} (G : Generator μ) (N : NormalSampler μ) (Bt : BetaSampler μ) {c : CTState} {D : CTData}

/-- **C95**, continuous time -/
theorem C95_ct_averages {n : ERFixed} [IsProbabilityMeasure Pr] (h : CfgOkCT c n D) (huge : ℝ) (d : ℕ → Ω → CTDraws) (hd : ∀ t ω, CTDrawsOk c.P.K 1 (d t ω))
    (s : ℕ → Ω → CTState) (hs : ∀ ω, ValidCT c n (s 0 ω) ∧ ScaleOk n (netScale (s 0 ω).net)) (hm : AEMeasurable (fun ω => thetaCT c.P.K (s 0 ω)) Pr) (x : ℕ → Ω → CTSite → U)
    (hrun : ∀ t ω s', ctResampleModel huge (ctDraws G N (d t ω) (x t ω)) (s t ω) = .ok s' → s (t + 1) ω = s')
    (hx : ∀ t, FreshSeedsCT μ Pr (fun ω => (thetaCT c.P.K (s 0 ω), fun i : Fin t => x i ω)) (x t)) :
    AveragesConverge Pr (fun t ω => thetaCT c.P.K (s t ω)) (posteriorCT c n) := by
  have hμ := gen_prob G
  have hcg := thetaCT_cg c.P.K
  have ok := ctSys_ok G N h
  have okn := erNet_ok G h.net
  have pS := ctSys_pos G N h
  have pQ := erNet_pos G h.net
  obtain ⟨e0, eT, hpost⟩ := C84_posterior_proper h
  rw [evidenceCT_net G N h] at e0 eT
  rw [posteriorCT_net G N h] at hpost ⊢
  have hXp := ok.X_prob
  have hYp := ok.Y_prob
  have hsl : IsProbabilityMeasure (netSeedLaw (ctSys G N c D) (erNet G c.P.K n) μ) := by have := okn.V_prob; unfold netSeedLaw; infer_instance
  exact chain_average (netSweep_meas G ok okn) (netPosterior_map G ok okn) (netValid_meas pQ.D_meas pS.D_meas) (netPosterior_valid ok okn pS pQ)
    (fun θ hθ => (netPosterior_ac G ok okn pS pQ e0 eT hθ).1) (fun θ hθ => (netPosterior_ac G ok okn pS pQ e0 eT hθ).2) (measurable_seedsCT (c := c) (D := D))
    (fun x hi hl => seeds_law_ct G N hi hl) (par := thetaCT c.P.K) (valid := ValidCT c n) (run := fun t ω x s => ctResampleModel huge (ctDraws G N (d t ω) x) s)
    (fun t ω s hs x => ct_sweep_eq G N h huge (d t ω) (hd t ω) s hs x) (s := s) (fun ω => (hs ω).1) (fun ω => thetaCT_valid (hs ω).1 (hs ω).2) hm hrun (fun t => (hx t).indep) (fun t => (hx t).law)
    (fun t => (hx t).fresh)

/-- **C95**, continuous time, learned one-block network -/
theorem C95_ct_block_averages {n : SBM} [IsProbabilityMeasure Pr] (h : CfgOkCTB c n D) (huge : ℝ) (d : ℕ → Ω → CTDraws) (hd : ∀ t ω, CTDrawsOk c.P.K 1 (d t ω))
    (s : ℕ → Ω → CTState) (hs : ∀ ω, ValidCTB c n (s 0 ω)) (hm : AEMeasurable (fun ω => thetaCTB c.P.K (s 0 ω)) Pr) (x : ℕ → Ω → CTSiteB → U)
    (hrun : ∀ t ω s', ctResampleModel huge (ctDrawsB G Bt N (d t ω) (x t ω)) (s t ω) = .ok s' → s (t + 1) ω = s')
    (hx : ∀ t, FreshSeedsCTB μ Pr (fun ω => (thetaCTB c.P.K (s 0 ω), fun i : Fin t => x i ω)) (x t)) :
    AveragesConverge Pr (fun t ω => thetaCTB c.P.K (s t ω)) (posteriorCTB c n) := by
  have hμ := gen_prob G
  have hcg := thetaCTB_cg c.P.K
  have ok := ctSys_ok G N h.fix
  have okn := blockNet_ok G Bt c.P.K h.block
  have pS := ctSys_pos G N h.fix
  have pQ := blockNet_pos G Bt c.P.K h.block
  obtain ⟨e0, eT, hpost⟩ := C84_block_posterior_proper h
  rw [posteriorCTB_eq (D := D) G Bt N] at hpost ⊢
  have hXp := ok.X_prob
  have hYp := ok.Y_prob
  have hsl : IsProbabilityMeasure (netSeedLaw (ctSys G N c D) (blockNet G Bt c.P.K n) μ) := by have := okn.V_prob; unfold netSeedLaw; infer_instance
  exact chain_average (netSweep_meas G ok okn) (netPosterior_map G ok okn) (netValid_meas pQ.D_meas pS.D_meas) (netPosterior_valid ok okn pS pQ)
    (fun θ hθ => (netPosterior_ac G ok okn pS pQ e0 eT hθ).1) (fun θ hθ => (netPosterior_ac G ok okn pS pQ e0 eT hθ).2) (measurable_seedsCTB (c := c) (D := D))
    (fun x hi hl => seeds_law_ctb G Bt N hi hl) (par := thetaCTB c.P.K) (valid := ValidCTB c n) (run := fun t ω x s => ctResampleModel huge (ctDrawsB G Bt N (d t ω) x) s)
    (fun t ω s hs x => ctb_sweep_eq G Bt N h huge (d t ω) (hd t ω) s hs x) (s := s) hs (fun ω => thetaCTB_valid (hs ω)) hm hrun (fun t => (hx t).indep) (fun t => (hx t).law)
    (fun t => (hx t).fresh)

end

/-- **Non-vacuity of C95**: a model with two processes and three bins of data, started in a fixed valid state; the hypotheses of the theorems are those of C94 (`C94_hypotheses_met`,
`C94_block_hypotheses_met`, `C94_ct_hypotheses_met`, `C94_ct_block_hypotheses_met`). -/
theorem C95_demo_run : ∃ (Ω : Type) (_ : MeasurableSpace Ω) (Pr : Measure Ω) (_ : IsProbabilityMeasure Pr) (G : Generator (volume : Measure unitInterval)) (s : ℕ → Ω → HawkesState)
    (x : ℕ → Ω → Site → unitInterval) (s0 : HawkesState), (∀ ω, s 0 ω = s0) ∧
      (∀ t ω, resampleModelSS 1 (G.draws 2 1 demoDraws (x t ω)) (s t ω) = .ok (s (t + 1) ω)) ∧ AveragesConverge Pr (fun t ω => theta 2 (s t ω)) (posterior demoChainModel demoER) := by
  obtain ⟨h, hF, s0, h1, h2, h3, h4⟩ := C94_demo_start
  obtain ⟨Ω, i1, Pr, i2, G, s, x, e0, hm, hrun, hx⟩ := C94_hypotheses_met h 1 demoDraws s0
  have hs : ∀ ω, SameModel demoChainModel demoER (s 0 ω) ∧ HyperOk (s 0 ω) ∧ ParamsOk (s 0 ω) ∧ ScaleOk demoER (netScale (s 0 ω).net) := fun ω => by rw [e0 ω]; exact ⟨h1, h2, h3, h4⟩
  exact ⟨Ω, i1, Pr, i2, G, s, x, s0, e0, (C94_converges G h hF 1 (fun _ _ => demoDraws) (fun _ _ => demoDraws_ok) s hs hm x hrun hx).1,
    C95_averages G h hF 1 (fun _ _ => demoDraws) (fun _ _ => demoDraws_ok) s hs hm x hrun hx⟩

end PyHawkes
