import Verif.Props.LabelPosteriorCT

/-!
# C94, C96: the posterior is the only stationary distribution, continuous time with learned networks
-/
set_option linter.unusedSectionVars false
set_option linter.unusedVariables false

namespace PyHawkes
open Finset Spec MeasureTheory ProbabilityTheory

section
variable {U : Type} {Ω : Type*} [MeasurableSpace U] [MeasurableSpace Ω] {μ : Measure U} {Pr : Measure Ω} (G : Generator μ) (N : NormalSampler μ) {c : CTState} {D : CTData}

/-- **C94**, continuous time, learned one-block network: if one call of `resample_model` leaves the distribution of the parameters of a valid random state unchanged, that distribution is the posterior. -/
theorem C94_ct_block_stationary_unique (Bt : BetaSampler μ) {n : SBM} [IsProbabilityMeasure Pr] (h : CfgOkCTB c n D) (huge : ℝ) (d : Ω → CTDraws) (hd : ∀ ω, CTDrawsOk c.P.K 1 (d ω))
    (s s' : Ω → CTState) (hs : ∀ ω, ValidCTB c n (s ω)) (x : Ω → CTSiteB → U) (hx : FreshSeedsCTB μ Pr (fun ω => thetaCTB c.P.K (s ω)) x)
    (hrun : ∀ ω, ctResampleModel huge (ctDrawsB G Bt N (d ω) (x ω)) (s ω) = .ok (s' ω)) {ρ : Measure (ThetaCTB c.P.K)}
    (hlaw : HasLaw (fun ω => thetaCTB c.P.K (s ω)) ρ Pr) (hlaw' : HasLaw (fun ω => thetaCTB c.P.K (s' ω)) ρ Pr) : ρ = posteriorCTB c n := by
  have hμ := gen_prob G
  have hcg := thetaCTB_cg c.P.K
  have ok := ctSys_ok G N h.fix
  have okn := blockNet_ok G Bt c.P.K h.block
  have pS := ctSys_pos G N h.fix
  have pQ := blockNet_pos G Bt c.P.K h.block
  obtain ⟨e0, eT, hpost⟩ := C84_block_posterior_proper h
  rw [posteriorCTB_eq (D := D) G Bt N] at hpost ⊢
  have hXp := ok.X_prob
  have hYp := ok.Y_prob
  have hsl : IsProbabilityMeasure (netSeedLaw (ctSys G N c D) (blockNet G Bt c.P.K n) μ) := by have := okn.V_prob; unfold netSeedLaw; infer_instance
  refine stationary_unique (netSweep_meas G ok okn) (netPosterior_map G ok okn) (netValid_meas pQ.D_meas pS.D_meas) (netPosterior_valid ok okn pS pQ)
    (fun θ hθ => (netPosterior_ac G ok okn pS pQ e0 eT hθ).1) (fun θ hθ => (netPosterior_ac G ok okn pS pQ e0 eT hθ).2) hlaw (fun ω => thetaCTB_valid (hs ω))
    (seeds_law_ctb G Bt N hx.indep hx.law) (hx.fresh.comp measurable_id measurable_seedsCTB) ?_
  have e : (fun ω => thetaCTB c.P.K (s' ω)) = fun ω => netSweep (ctSys G N c D) (blockNet G Bt c.P.K n) G (thetaCTB c.P.K (s ω)) (seedsCTB c D (x ω)) := by
    funext ω
    obtain ⟨t, h1, -, h3⟩ := ctb_sweep_eq G Bt N h huge (d ω) (hd ω) (s ω) (hs ω) (x ω)
    rw [hrun ω] at h1
    rw [Except.ok.inj h1]; exact h3
  rw [← e]; exact hlaw'

/-- **C96**, continuous time: the joint posterior is the only stationary distribution. -/
theorem C96_ct_stationary_unique {n : SBM} [NeZero n.C] (Ls : LabelSampler μ) [IsProbabilityMeasure Pr] (h : CfgOkCTL c n D) (huge : ℝ) (d : Ω → CTDraws) (hd : ∀ ω, CTDrawsOk c.P.K n.C (d ω))
    (s s' : Ω → CTState) (hs : ∀ ω, ValidCTL c n (s ω) ∧ BlocksPos n.C (s ω).net) (x : Ω → SiteL CTSite → U) (hx : FreshSeedsL μ Pr (fun ω => thetaCTL c.P.K n.C (s ω)) x)
    (hrun : ∀ ω, ctResampleModel huge (ctDrawsL G Ls N n.C (d ω) (x ω)) (s ω) = .ok (s' ω)) {ρ : Measure (ThetaCTL c.P.K n.C)}
    (hlaw : HasLaw (fun ω => thetaCTL c.P.K n.C (s ω)) ρ Pr) (hlaw' : HasLaw (fun ω => thetaCTL c.P.K n.C (s' ω)) ρ Pr) : ρ = posteriorCTL c n := by
  have hμ := gen_prob G
  have hcg := thetaCTL_cg c.P.K n.C
  have ok := ctSys_ok G N h.fix
  have okn := labelNet_ok G Ls huge (NeZero.pos n.C) h.net.net h.net.prob.1 h.net.prob.2
  have pS := ctSys_pos G N h.fix
  have pQ := labelNet_pos G Ls huge (NeZero.pos n.C) h.net.prob.1 h.net.prob.2 h.net.net
  obtain ⟨e0, eT, hpost⟩ := C96_ct_posterior_proper h
  rw [posteriorCTL_eq (D := D) G Ls N huge] at hpost ⊢
  have hXp := ok.X_prob
  have hYp := ok.Y_prob
  have hsl : IsProbabilityMeasure (netSeedLaw (ctSys G N c D) (labelNet G Ls huge n (NeZero.pos n.C) c.P.K) μ) := by have := okn.V_prob; unfold netSeedLaw; infer_instance
  refine stationary_unique (netSweep_meas G ok okn) (netPosterior_map G ok okn) (netValid_meas pQ.D_meas pS.D_meas) (netPosterior_valid ok okn pS pQ)
    (fun θ hθ => (netPosterior_ac G ok okn pS pQ e0 eT hθ).1) (fun θ hθ => (netPosterior_ac G ok okn pS pQ e0 eT hθ).2) hlaw (fun ω => thetaCTL_valid (hs ω).1)
    (seeds_law_ctl G Ls N huge hx.indep hx.law) (hx.fresh.comp measurable_id (measurable_seedsCTL n.C)) ?_
  have e : (fun ω => thetaCTL c.P.K n.C (s' ω)) = fun ω => netSweep (ctSys G N c D) (labelNet G Ls huge n (NeZero.pos n.C) c.P.K) G (thetaCTL c.P.K n.C (s ω)) (seedsCTL c D n.C (x ω)) := by
    funext ω
    obtain ⟨t, h1, -, h3⟩ := ctl_sweep_eq G Ls N h huge (d ω) (hd ω) (s ω) (hs ω).1 (x ω)
    rw [hrun ω] at h1
    rw [Except.ok.inj h1]; exact h3
  rw [← e]; exact hlaw'

end

end PyHawkes
