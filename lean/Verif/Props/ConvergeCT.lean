import Verif.Props.Converge
import Verif.Props.CTBlockPosterior

/-!
# C94 for the continuous-time model
-/
set_option linter.unusedSectionVars false
set_option linter.unusedVariables false

namespace PyHawkes
open Finset Spec MeasureTheory ProbabilityTheory

section
variable {U Ω : Type*} [MeasurableSpace U] [MeasurableSpace Ω] {μ : Measure U} {Pr : Measure Ω} (G : Generator μ) (N : NormalSampler μ) (Bt : BetaSampler μ) {c : CTState} {D : CTData}

/-- positive background rates, positive precisions -/
def ctValid (K : ℕ) : Set (PhiCT K) := {φ | (∀ k, 0 < φ.1 k) ∧ ∀ e, 0 < (φ.2 e).2}

theorem ctSys_pos {n : ERFixed} (h : CfgOkCT c n D) : (ctSys G N c D).Pos (ctValid c.P.K) := by
  classical
  have hμ := gen_prob G
  refine ⟨?_, phi_ae G N h, fun A W hAW φ hφ F => ?_, fun A W hAW φ hφ z hz => ?_⟩
  · have e : ctValid c.P.K = (⋂ k, {φ | 0 < φ.1 k}) ∩ ⋂ e, {φ | 0 < (φ.2 e).2} := by
      ext φ; simp [ctValid]
    rw [e]
    exact (MeasurableSet.iInter fun k => measurableSet_lt measurable_const (by fun_prop)).inter (MeasurableSet.iInter fun e => measurableSet_lt measurable_const (by fun_prop))
  · refine pi_discrete (g := fun (n : Fin D.N) u => zSel (cumProb (ctRateParams c.P A W φ.1 φ.2) D n) n (G.unif u)) (fun n => ?_) F
    exact meas_zSel (f := fun _ => cumProb (ctRateParams c.P A W φ.1 φ.2) D n) (fun m => measurable_const) n G.unif_meas
  · have hf := ct_factor G N h hAW hφ z
    have hL : ENNReal.ofReal ((ctSys G N c D).L A W φ) ≠ 0 := by
      rw [ne_eq, ENNReal.ofReal_eq_zero]; exact not_le.2 (Real.exp_pos _)
    have h1 : (ctSys G N c D).fφ φ z ≠ 0 := fun h0 => by
      rw [h0, zero_mul, mul_eq_zero] at hf
      exact hf.elim hL hz
    by_cases hgood : GoodZ D c.P.dtMax z
    · have hfe : ∀ φ, (ctSys G N c D).fφ φ z = (∏ k : Fin c.P.K, ENNReal.ofReal (φ.1 k ^ (bkgdCount D (zN z) k : ℝ) * Real.exp (-(φ.1 k * D.T)))) * ∏ e, ENNReal.ofReal (impFac c D z e (φ.2 e)) :=
        fun φ => if_pos hgood
      rw [hfe] at h1
      have h2 := Finset.prod_ne_zero_iff.1 (right_ne_zero_of_mul h1)
      filter_upwards [phi_ae G N h] with φ' hφ'
      rw [hfe]
      refine mul_ne_zero (Finset.prod_ne_zero_iff.2 fun k _ => ?_) (Finset.prod_ne_zero_iff.2 fun e _ => ?_)
      · rw [ne_eq, ENNReal.ofReal_eq_zero, not_le]
        exact mul_pos (Real.rpow_pos_of_pos (hφ'.1 k) _) (Real.exp_pos _)
      · obtain ⟨C, hC, hform⟩ := impFac_form hgood e
        have hC0 : C ≠ 0 := by
          rintro rfl
          refine h2 e (mem_univ e) ?_
          have := hform (φ.2 e).1 (φ.2 e).2 (hφ.2 e)
          rw [show ((φ.2 e).1, (φ.2 e).2) = φ.2 e from rfl, zero_mul] at this
          rw [this, ENNReal.ofReal_zero]
        have := hform (φ'.2 e).1 (φ'.2 e).2 (hφ'.2 e)
        rw [show ((φ'.2 e).1, (φ'.2 e).2) = φ'.2 e from rfl] at this
        rw [this, ne_eq, ENNReal.ofReal_eq_zero, not_le]
        refine mul_pos (lt_of_le_of_ne hC (Ne.symm hC0)) (List.prod_pos fun x hx => ?_)
        obtain ⟨y, -, rfl⟩ := List.mem_map.1 hx
        refine gaussianPDFReal_pos _ _ _ ?_
        rw [ne_eq, Real.toNNReal_eq_zero, not_le]
        exact one_div_pos.2 (hφ'.2 e)
    · exact absurd (if_neg hgood) h1

theorem thetaCT_cg (K : ℕ) : MeasurableSpace.CountablyGenerated (ThetaCT K) := cg_prod inferInstance (cg_prod inferInstance (cg_prod inferInstance (cg_prod inferInstance inferInstance)))

theorem thetaCTB_cg (K : ℕ) : MeasurableSpace.CountablyGenerated (ThetaCTB K) :=
  cg_prod inferInstance (cg_prod (cg_prod inferInstance inferInstance) (cg_prod inferInstance (cg_prod inferInstance inferInstance)))

theorem posteriorCT_net {n : ERFixed} (h : CfgOkCT c n D) : posteriorCT c n = netPosterior (ctSys G N c D) (erNet G c.P.K n) :=
  (show posteriorCT c n = (ctSys G N c D).posterior n from rfl).trans (augPosterior_eq G (ctSys_ok G N h) h.net)

theorem evidenceCT_net {n : ERFixed} (h : CfgOkCT c n D) : ∫⁻ θ, likelihoodCT c θ ∂priorCT c n = ∫⁻ θ, netLik (ctSys G N c D) θ ∂netPrior (ctSys G N c D) (erNet G c.P.K n) := by
  rw [← augPrior_eq G (ctSys_ok G N h) h.net]; rfl

theorem thetaCT_valid {n : ERFixed} {s : CTState} (hv : ValidCT c n s) (hs : ScaleOk n (netScale s.net)) : thetaCT c.P.K s ∈ netValid c.P.K {v | ScaleOk n v} (ctValid c.P.K) := by
  have hK := hv.same.K
  have hp := hv.params
  exact ⟨fun e => hp.A _ (by rw [hK]; exact e.1.2) _ (by rw [hK]; exact e.2.2), hs, fun e => (hp.W _ (by rw [hK]; exact e.1.2) _ (by rw [hK]; exact e.2.2)).le,
    fun k => hp.lam0 _ (by rw [hK]; exact k.2), fun e => hp.tau _ (by rw [hK]; exact e.1.2) _ (by rw [hK]; exact e.2.2)⟩

/-- **C94**, continuous time: started in any valid state, the distribution of the parameters converges to the posterior in total variation. -/
theorem C94_ct_converges {n : ERFixed} [IsProbabilityMeasure Pr] (h : CfgOkCT c n D) (huge : ℝ) (d : ℕ → Ω → CTDraws) (hd : ∀ t ω, CTDrawsOk c.P.K 1 (d t ω))
    (s : ℕ → Ω → CTState) (hs : ∀ ω, ValidCT c n (s 0 ω) ∧ ScaleOk n (netScale (s 0 ω).net)) (hm : AEMeasurable (fun ω => thetaCT c.P.K (s 0 ω)) Pr) (x : ℕ → Ω → CTSite → U)
    (hrun : ∀ t ω s', ctResampleModel huge (ctDraws G N (d t ω) (x t ω)) (s t ω) = .ok s' → s (t + 1) ω = s')
    (hx : ∀ t, FreshSeedsCT μ Pr (fun ω => (thetaCT c.P.K (s 0 ω), fun i : Fin t => x i ω)) (x t)) :
    (∀ t ω, ctResampleModel huge (ctDraws G N (d t ω) (x t ω)) (s t ω) = .ok (s (t + 1) ω)) ∧ ConvergesTV (fun t => Pr.map fun ω => thetaCT c.P.K (s t ω)) (posteriorCT c n) := by
  have hμ := gen_prob G
  have hcg := thetaCT_cg c.P.K
  have ok := ctSys_ok G N h
  have okn := erNet_ok G h.net
  have pS := ctSys_pos G N h
  have pQ := erNet_pos G h.net
  obtain ⟨e0, eT, hpost⟩ := C84_posterior_proper h
  rw [evidenceCT_net G N h] at e0 eT
  rw [posteriorCT_net G N h] at hpost ⊢
  have hXp := ok.X_prob
  have hYp := ok.Y_prob
  have hsl : IsProbabilityMeasure (netSeedLaw (ctSys G N c D) (erNet G c.P.K n) μ) := by have := okn.V_prob; unfold netSeedLaw; infer_instance
  have key := chain_converge (netSweep_meas G ok okn) (netPosterior_map G ok okn) (netValid_meas pQ.D_meas pS.D_meas) (netPosterior_valid ok okn pS pQ)
    (fun θ hθ => (netPosterior_ac G ok okn pS pQ e0 eT hθ).1) (fun θ hθ => (netPosterior_ac G ok okn pS pQ e0 eT hθ).2) (measurable_seedsCT (c := c) (D := D))
    (fun x hi hl => seeds_law_ct G N hi hl) (par := thetaCT c.P.K) (valid := ValidCT c n) (run := fun t ω x s => ctResampleModel huge (ctDraws G N (d t ω) x) s)
    (fun t ω s hs x => ct_sweep_eq G N h huge (d t ω) (hd t ω) s hs x) (s := s) (fun ω => (hs ω).1) (fun ω => thetaCT_valid (hs ω).1 (hs ω).2) hm hrun (fun t => (hx t).indep) (fun t => (hx t).law)
    (fun t => (hx t).fresh)
  exact ⟨fun t ω => (key.1 t ω).1, key.2⟩

/-- **C94**, continuous time: the posterior is the only stationary distribution on valid states. -/
theorem C94_ct_stationary_unique {n : ERFixed} [IsProbabilityMeasure Pr] (h : CfgOkCT c n D) (huge : ℝ) (d : Ω → CTDraws) (hd : ∀ ω, CTDrawsOk c.P.K 1 (d ω))
    (s s' : Ω → CTState) (hs : ∀ ω, ValidCT c n (s ω) ∧ ScaleOk n (netScale (s ω).net)) (x : Ω → CTSite → U) (hx : FreshSeedsCT μ Pr (fun ω => thetaCT c.P.K (s ω)) x)
    (hrun : ∀ ω, ctResampleModel huge (ctDraws G N (d ω) (x ω)) (s ω) = .ok (s' ω)) {ρ : Measure (ThetaCT c.P.K)}
    (hlaw : HasLaw (fun ω => thetaCT c.P.K (s ω)) ρ Pr) (hlaw' : HasLaw (fun ω => thetaCT c.P.K (s' ω)) ρ Pr) : ρ = posteriorCT c n := by
  have hμ := gen_prob G
  have hcg := thetaCT_cg c.P.K
  have ok := ctSys_ok G N h
  have okn := erNet_ok G h.net
  have pS := ctSys_pos G N h
  have pQ := erNet_pos G h.net
  obtain ⟨e0, eT, hpost⟩ := C84_posterior_proper h
  rw [evidenceCT_net G N h] at e0 eT
  rw [posteriorCT_net G N h] at hpost ⊢
  have hXp := ok.X_prob
  have hYp := ok.Y_prob
  have hsl : IsProbabilityMeasure (netSeedLaw (ctSys G N c D) (erNet G c.P.K n) μ) := by have := okn.V_prob; unfold netSeedLaw; infer_instance
  refine stationary_unique (netSweep_meas G ok okn) (netPosterior_map G ok okn) (netValid_meas pQ.D_meas pS.D_meas) (netPosterior_valid ok okn pS pQ)
    (fun θ hθ => (netPosterior_ac G ok okn pS pQ e0 eT hθ).1) (fun θ hθ => (netPosterior_ac G ok okn pS pQ e0 eT hθ).2) hlaw (fun ω => thetaCT_valid (hs ω).1 (hs ω).2)
    (seeds_law_ct G N hx.indep hx.law) (hx.fresh.comp measurable_id measurable_seedsCT) ?_
  have e : (fun ω => thetaCT c.P.K (s' ω)) = fun ω => netSweep (ctSys G N c D) (erNet G c.P.K n) G (thetaCT c.P.K (s ω)) (seedsCT c D (x ω)) := by
    funext ω
    obtain ⟨t, h1, -, h3⟩ := ct_sweep_eq G N h huge (d ω) (hd ω) (s ω) (hs ω).1 (x ω)
    rw [hrun ω] at h1
    rw [Except.ok.inj h1]; exact h3
  rw [← e]; exact hlaw'

theorem thetaCTB_valid {n : SBM} {s : CTState} (hv : ValidCTB c n s) : thetaCTB c.P.K s ∈ netValid c.P.K Set.univ (ctValid c.P.K) := by
  have hK := hv.same.K
  have hp := hv.params
  exact ⟨fun e => hp.A _ (by rw [hK]; exact e.1.2) _ (by rw [hK]; exact e.2.2), trivial, fun e => (hp.W _ (by rw [hK]; exact e.1.2) _ (by rw [hK]; exact e.2.2)).le,
    fun k => hp.lam0 _ (by rw [hK]; exact k.2), fun e => hp.tau _ (by rw [hK]; exact e.1.2) _ (by rw [hK]; exact e.2.2)⟩

/-- **C94**, continuous time, learned one-block network -/
theorem C94_ct_block_converges {n : SBM} [IsProbabilityMeasure Pr] (h : CfgOkCTB c n D) (huge : ℝ) (d : ℕ → Ω → CTDraws) (hd : ∀ t ω, CTDrawsOk c.P.K 1 (d t ω))
    (s : ℕ → Ω → CTState) (hs : ∀ ω, ValidCTB c n (s 0 ω)) (hm : AEMeasurable (fun ω => thetaCTB c.P.K (s 0 ω)) Pr) (x : ℕ → Ω → CTSiteB → U)
    (hrun : ∀ t ω s', ctResampleModel huge (ctDrawsB G Bt N (d t ω) (x t ω)) (s t ω) = .ok s' → s (t + 1) ω = s')
    (hx : ∀ t, FreshSeedsCTB μ Pr (fun ω => (thetaCTB c.P.K (s 0 ω), fun i : Fin t => x i ω)) (x t)) :
    (∀ t ω, ctResampleModel huge (ctDrawsB G Bt N (d t ω) (x t ω)) (s t ω) = .ok (s (t + 1) ω)) ∧ ConvergesTV (fun t => Pr.map fun ω => thetaCTB c.P.K (s t ω)) (posteriorCTB c n) := by
  have hμ := gen_prob G
  have hcg := thetaCTB_cg c.P.K
  have ok := ctSys_ok G N h.fix
  have okn := blockNet_ok G Bt c.P.K h.block
  have pS := ctSys_pos G N h.fix
  have pQ := blockNet_pos G Bt c.P.K h.block
  obtain ⟨e0, eT, hpost⟩ := C84_block_posterior_proper h
  rw [posteriorCTB_eq (D := D) G Bt N] at hpost ⊢
  have hXp := ok.X_prob
  have hYp := ok.Y_prob
  have hsl : IsProbabilityMeasure (netSeedLaw (ctSys G N c D) (blockNet G Bt c.P.K n) μ) := by have := okn.V_prob; unfold netSeedLaw; infer_instance
  have key := chain_converge (netSweep_meas G ok okn) (netPosterior_map G ok okn) (netValid_meas pQ.D_meas pS.D_meas) (netPosterior_valid ok okn pS pQ)
    (fun θ hθ => (netPosterior_ac G ok okn pS pQ e0 eT hθ).1) (fun θ hθ => (netPosterior_ac G ok okn pS pQ e0 eT hθ).2) (measurable_seedsCTB (c := c) (D := D))
    (fun x hi hl => seeds_law_ctb G Bt N hi hl) (par := thetaCTB c.P.K) (valid := ValidCTB c n) (run := fun t ω x s => ctResampleModel huge (ctDrawsB G Bt N (d t ω) x) s)
    (fun t ω s hs x => ctb_sweep_eq G Bt N h huge (d t ω) (hd t ω) s hs x) (s := s) hs (fun ω => thetaCTB_valid (hs ω)) hm hrun (fun t => (hx t).indep) (fun t => (hx t).law)
    (fun t => (hx t).fresh)
  exact ⟨fun t ω => (key.1 t ω).1, key.2⟩

end

section
variable {c : CTState} {D : CTData}

/-- **Non-vacuity of C94**, continuous time: the run started in any given state -/
theorem C94_ct_hypotheses_met (huge : ℝ) (d : CTDraws) (s0 : CTState) :
    ∃ (Ω : Type) (_ : MeasurableSpace Ω) (Pr : Measure Ω) (_ : IsProbabilityMeasure Pr) (G : Generator (volume : Measure unitInterval)) (N : NormalSampler (volume : Measure unitInterval))
      (s : ℕ → Ω → CTState) (x : ℕ → Ω → CTSite → unitInterval), (∀ ω, s 0 ω = s0) ∧ AEMeasurable (fun ω => thetaCT c.P.K (s 0 ω)) Pr ∧
      (∀ t ω s', ctResampleModel huge (ctDraws G N d (x t ω)) (s t ω) = .ok s' → s (t + 1) ω = s') ∧
      (∀ t, FreshSeedsCT volume Pr (fun ω => (thetaCT c.P.K (s 0 ω), fun i : Fin t => x i ω)) (x t)) := by
  obtain ⟨⟨G⟩, ⟨N⟩⟩ := C84_generator_exists
  obtain ⟨Ω, i1, Pr, i2, θ, x, h1, h2, h3⟩ := fresh_chain (S := CTSite) (Measure.dirac (thetaCT c.P.K s0)) (good := Set.univ) MeasurableSet.univ (Filter.Eventually.of_forall fun _ => trivial)
  refine ⟨Ω, i1, Pr, i2, G, N, fun t ω => Nat.rec s0 (fun t st => match ctResampleModel huge (ctDraws G N d (x t ω)) st with | .ok s' => s' | .error _ => st) t, x, fun ω => rfl,
    (measurable_const (a := thetaCT c.P.K s0)).aemeasurable, ?_, ?_⟩
  · intro t ω s' hs'
    dsimp only at hs' ⊢
    rw [hs']
  · intro t
    refine ⟨(h3 t).1, (h3 t).2.1, ?_⟩
    have := (h3 t).2.2.comp (φ := fun y : ThetaCT c.P.K × (Fin t → CTSite → unitInterval) => (thetaCT c.P.K s0, y.2)) (ψ := id) (by fun_prop) measurable_id
    exact this

/-- **Non-vacuity of C94**, continuous time, learned one-block network: the run started in any given state -/
theorem C94_ct_block_hypotheses_met (huge : ℝ) (d : CTDraws) (s0 : CTState) :
    ∃ (Ω : Type) (_ : MeasurableSpace Ω) (Pr : Measure Ω) (_ : IsProbabilityMeasure Pr) (G : Generator (volume : Measure unitInterval)) (N : NormalSampler (volume : Measure unitInterval))
      (Bt : BetaSampler (volume : Measure unitInterval)) (s : ℕ → Ω → CTState) (x : ℕ → Ω → CTSiteB → unitInterval), (∀ ω, s 0 ω = s0) ∧ AEMeasurable (fun ω => thetaCTB c.P.K (s 0 ω)) Pr ∧
      (∀ t ω s', ctResampleModel huge (ctDrawsB G Bt N d (x t ω)) (s t ω) = .ok s' → s (t + 1) ω = s') ∧
      (∀ t, FreshSeedsCTB volume Pr (fun ω => (thetaCTB c.P.K (s 0 ω), fun i : Fin t => x i ω)) (x t)) := by
  obtain ⟨⟨G⟩, ⟨N⟩⟩ := C84_generator_exists
  obtain ⟨Bt⟩ := C83_beta_sampler_exists
  obtain ⟨Ω, i1, Pr, i2, θ, x, h1, h2, h3⟩ := fresh_chain (S := CTSiteB) (Measure.dirac (thetaCTB c.P.K s0)) (good := Set.univ) MeasurableSet.univ (Filter.Eventually.of_forall fun _ => trivial)
  refine ⟨Ω, i1, Pr, i2, G, N, Bt, fun t ω => Nat.rec s0 (fun t st => match ctResampleModel huge (ctDrawsB G Bt N d (x t ω)) st with | .ok s' => s' | .error _ => st) t, x, fun ω => rfl,
    (measurable_const (a := thetaCTB c.P.K s0)).aemeasurable, ?_, ?_⟩
  · intro t ω s' hs'
    dsimp only at hs' ⊢
    rw [hs']
  · intro t
    refine ⟨(h3 t).1, (h3 t).2.1, ?_⟩
    have := (h3 t).2.2.comp (φ := fun y : ThetaCTB c.P.K × (Fin t → CTSiteB → unitInterval) => (thetaCTB c.P.K s0, y.2)) (ψ := id) (by fun_prop) measurable_id
    exact this

/-- valid starts for the demo models of C84 -/
theorem C94_ct_demo_start : CfgOkCT demoCTModel demoER demoCTData ∧ (∃ s0, ValidCT demoCTModel demoER s0 ∧ ScaleOk demoER (netScale s0.net)) ∧
    CfgOkCTB demoCTModel demoBlock demoCTData ∧ ∃ s0, ValidCTB demoCTModel demoBlock s0 := by
  have h := demoCT_ok
  have h' := demoCTB_ok
  have := (C84_posterior_proper h).2.2
  have := (C84_block_posterior_proper h').2.2
  obtain ⟨θ, hθ⟩ := (ct_posterior_valid h).exists
  obtain ⟨θ', hθ'⟩ := (ctb_posterior_valid h').exists
  exact ⟨h, ⟨_, stateOfCT_ok h hθ, .inr ⟨2, 3, rfl, rfl, by norm_num, by norm_num⟩⟩, h', _, stateOfCTB_ok h' hθ'⟩

end

end PyHawkes
