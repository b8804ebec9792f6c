import Verif.Spec.PosteriorMixBlock
import Verif.Props.MixInvariant
import Verif.Props.BlockPosterior

/-!
# Gamma-mixture model with a learned one-block network: without the clip the sweep leaves the posterior invariant (used for C85)
-/
set_option linter.unusedSectionVars false
set_option linter.unusedVariables false

namespace PyHawkes
open Finset Spec MeasureTheory ProbabilityTheory

section
variable {c : HawkesState} {n : SBM} (κ0 ν0 : ℝ)

/-- density of components and weights -/
noncomputable def densMB {K : ℕ} (n : SBM) (p : ℝ) (θ : Theta K) : ENNReal := (∏ e, edgePmf p (θ.1 e)) * ∏ e, mixWeightPdf κ0 ν0 n.kappa θ.2.1 (θ.1 e) (θ.2.2.1 e)

theorem measurable_mixPdfs {K : ℕ} (n : SBM) : Measurable fun θ : Theta K => ∏ e, mixWeightPdf κ0 ν0 n.kappa θ.2.1 (θ.1 e) (θ.2.2.1 e) :=
  Finset.measurable_prod _ fun e _ => (measurable_mixWeightPdf κ0 ν0 n.kappa).comp (f := fun x : Theta K => (x.2.1, x.1 e, x.2.2.1 e)) (by fun_prop)

theorem measurable_densMB {K : ℕ} (n : SBM) : Measurable fun x : ℝ × Theta K => densMB κ0 ν0 n x.1 x.2 := by
  unfold densMB
  refine (Finset.measurable_prod _ fun e _ => measurable_edgePmf.comp (f := fun x : ℝ × Theta K => (x.1, x.2.1 e)) (by fun_prop)).mul ?_
  exact (measurable_mixPdfs κ0 ν0 n).comp measurable_snd

/-- for a fixed edge probability, the prior of the remaining parameters -/
theorem priorMix_fixed (h : CfgOkB c n) {p : ℝ} (h0 : 0 ≤ p) (h1 : p ≤ 1) {F : Theta c.base.K → ENNReal} (hF : Measurable F) :
    ∫⁻ θ, F θ ∂priorMix κ0 ν0 c (erOf n p) = ∫⁻ θ, densMB κ0 ν0 n p θ * F θ ∂restB c n := by
  obtain ⟨-, -, ha, hb, hk, -⟩ := h.net.hyper
  have hΦ := phi_prob (h.fix h0 h1)
  have hg := isProbabilityMeasure_gammaMeasure ha hb
  have hm : Measurable (edgePmf p) := measurable_edgePmf.comp (f := fun a => (p, a)) (by fun_prop)
  have hc := coinLaw_prob h0 h1
  have hc' : IsProbabilityMeasure ((Measure.dirac (0 : ℝ) + Measure.dirac 1).withDensity (edgePmf p)) := by rw [coin_density]; exact hc
  have e1 : Measure.pi (fun e : Pair c.base.K => coinLaw ((erOf n p).P e.1 e.2)) =
      (Measure.pi fun _ : Pair c.base.K => Measure.dirac (0 : ℝ) + Measure.dirac 1).withDensity fun A => ∏ e, edgePmf p (A e) := by
    simp only [erOf_P, ← coin_density]
    exact pi_withDensity' _ (fun _ => edgePmf p) fun _ => hm
  have mW := measurable_mixPdfs (K := c.base.K) κ0 ν0 n
  have mA : Measurable fun A : Pair c.base.K → ℝ => ∏ e, edgePmf p (A e) := Finset.measurable_prod _ fun e _ => hm.comp (measurable_pi_apply e)
  have mA' : Measurable fun θ : Theta c.base.K => ∏ e, edgePmf p (θ.1 e) := mA.comp measurable_fst
  unfold priorMix
  rw [e1, scalePrior_erOf h, lintegral_withDensity_eq_lintegral_mul _ (show Measurable fun θ : Theta c.base.K => ∏ e, mixWeightPdf κ0 ν0 (erOf n p).kappa θ.2.1 (θ.1 e) (θ.2.2.1 e) from mW) hF]
  change ∫⁻ θ, (∏ e, mixWeightPdf κ0 ν0 n.kappa θ.2.1 (θ.1 e) (θ.2.2.1 e)) * F θ ∂(((Measure.pi fun _ : Pair c.base.K => Measure.dirac (0 : ℝ) + Measure.dirac 1).withDensity fun A => ∏ e, edgePmf p (A e)).prod
    ((gammaMeasure n.alpha n.beta).prod ((Measure.pi fun _ => volume).prod (phiPrior c)))) = _
  rw [prod_withDensity_left mA]
  have mWF : Measurable fun θ : Theta c.base.K => (∏ e, mixWeightPdf κ0 ν0 n.kappa θ.2.1 (θ.1 e) (θ.2.2.1 e)) * F θ := mW.mul hF
  refine (lintegral_withDensity_eq_lintegral_mul _ mA' mWF).trans ?_
  refine lintegral_congr fun θ => ?_
  simp only [Pi.mul_apply, densMB]
  ring

theorem restB_sfinite (h : CfgOkB c n) : SFinite (restB c n) := by
  obtain ⟨-, -, ha, hb, hk, -⟩ := h.net.hyper
  have hΦ := phi_prob (h.fix le_rfl zero_le_one)
  have hg := isProbabilityMeasure_gammaMeasure ha hb
  unfold restB; infer_instance

theorem priorMixB_eq (c : HawkesState) (n : SBM) : priorMixB κ0 ν0 c n = ((betaMeasure n.tau1 n.tau0).prod (restB c n)).withDensity (fun θ => densMB κ0 ν0 n θ.1 θ.2) := rfl

/-- the prior as an integral over the edge probability -/
theorem priorMixB_lintegral (h : CfgOkB c n) {F : ThetaB c.base.K → ENNReal} (hF : Measurable F) :
    ∫⁻ θ, F θ ∂priorMixB κ0 ν0 c n = ∫⁻ p, ∫⁻ θ, F (p, θ) ∂priorMix κ0 ν0 c (erOf n p) ∂betaMeasure n.tau1 n.tau0 := by
  obtain ⟨h0, h1, ha, hb, hk, -⟩ := h.net.hyper
  have hβ := isProbabilityMeasureBeta h1 h0
  have hr := restB_sfinite h
  have md := measurable_densMB (K := c.base.K) κ0 ν0 n
  rw [priorMixB_eq, lintegral_withDensity_eq_lintegral_mul _ md hF, lintegral_prod _ (md.mul hF).aemeasurable]
  refine lintegral_congr_ae ?_
  filter_upwards [beta_mem (a := n.tau1) (b := n.tau0)] with p hp
  rw [priorMix_fixed κ0 ν0 h hp.1 hp.2 (F := fun θ => F (p, θ)) (hF.comp (by fun_prop))]
  rfl

theorem priorMixB_sfinite (h : CfgOkB c n) : SFinite (priorMixB κ0 ν0 c n) := by
  obtain ⟨h0, h1, ha, hb, hk, -⟩ := h.net.hyper
  have hβ := isProbabilityMeasureBeta h1 h0
  have hr := restB_sfinite h
  rw [priorMixB_eq]; infer_instance

/-! ### one call -/

variable {U : Type*} [MeasurableSpace U] {μ : Measure U} (G : Generator μ) (Bt : BetaSampler μ)

/-- one call as a function of parameters and seeds; the weights are passed through `clip` -/
noncomputable def mixSweepB (c : HawkesState) (n : SBM) (clip : ℝ → ℝ) (b : Bool) (θ : ThetaB c.base.K) (x : U × Seeds c U) : ThetaB c.base.K :=
  (if b then pOf Bt n (mixSweep G κ0 ν0 c (erOf n θ.1) clip b θ.2 x.2).1 x.1 else θ.1, mixSweep G κ0 ν0 c (erOf n θ.1) clip b θ.2 x.2)

theorem measurable_mixEdge_p (κ : ℝ) (m : ℕ) (E : ℝ) : Measurable fun x : ℝ × ℝ × U => mixEdge G κ0 ν0 κ x.2.1 x.1 m E x.2.2 := by
  have hl : Measurable fun v : ℝ => mixLp κ v m E := by unfold mixLp; fun_prop
  have hb : Measurable fun y : ℝ × ℝ => bernPost y.1 (Real.exp (mixLp κ0 ν0 m E)) (Real.exp (mixLp κ y.2 m E)) := by
    have h2 : Measurable fun y : ℝ × ℝ => mixLp κ y.2 m E := hl.comp measurable_snd
    unfold bernPost; fun_prop
  unfold mixEdge
  exact measurable_ite_lt (G.unif_meas.comp (by fun_prop)) (hb.comp (f := fun x : ℝ × ℝ × U => (x.1, x.2.1)) (by fun_prop))

theorem measurable_mixX_p (z : ZSp c) : Measurable fun x : ℝ × ℝ × ((Pair c.base.K → U) × (Pair c.base.K → U)) => mixX G κ0 ν0 c (erOf n x.1) z x.2.1 x.2.2 := by
  have h1 : Measurable fun x : ℝ × ℝ × ((Pair c.base.K → U) × (Pair c.base.K → U)) => mixAOf G κ0 ν0 c (erOf n x.1) z x.2.1 x.2.2.1 := by
    rw [measurable_pi_iff]; intro e
    unfold mixAOf
    simp only [erOf_P]
    exact (measurable_mixEdge_p κ0 ν0 G n.kappa (via z e) (evTotal c e.1)).comp (f := fun x : ℝ × ℝ × ((Pair c.base.K → U) × (Pair c.base.K → U)) => (x.1, x.2.1, x.2.2.1 e)) (by fun_prop)
  exact h1.prodMk ((measurable_mixWOf G κ0 ν0 (n := erOf n 0) z).comp
    (f := fun x : ℝ × ℝ × ((Pair c.base.K → U) × (Pair c.base.K → U)) => (x.2.1, mixAOf G κ0 ν0 c (erOf n x.1) z x.2.1 x.2.2.1, x.2.2.2)) (by fun_prop))

theorem measurable_mixAW_p : Measurable fun x : ThetaB c.base.K × Seeds c U => mixAW G κ0 ν0 c (erOf n x.1.1) x.1.2 x.2 :=
  (measurable_from_prod_countable_right (f := fun y : ZSp c × (ℝ × ℝ × ((Pair c.base.K → U) × (Pair c.base.K → U))) => mixX G κ0 ν0 c (erOf n y.2.1) y.1 y.2.2.1 y.2.2.2) fun z => measurable_mixX_p κ0 ν0 G z).comp
    (f := fun x : ThetaB c.base.K × Seeds c U => (mixZ G c x.1.2 x.2, (x.1.1, x.1.2.2.1, (x.2.2.2.2.2.2, x.2.2.2.2.2.1))))
    (((measurable_mixZ G).comp (f := fun x : ThetaB c.base.K × Seeds c U => (x.1.2, x.2)) (by fun_prop)).prodMk (by fun_prop))

theorem measurable_mixBody_p {clip : ℝ → ℝ} (hc : Measurable clip) : Measurable fun x : ThetaB c.base.K × Seeds c U => mixBody G κ0 ν0 c (erOf n x.1.1) clip x.1.2 x.2 := by
  have hX := measurable_mixAW_p κ0 ν0 G (c := c) (n := n)
  have h0 : Measurable fun x : ThetaB c.base.K × Seeds c U => mixBody G κ0 ν0 c (erOf n 0) clip x.1.2 x.2 := (measurable_mixBody G κ0 ν0 hc).comp (f := fun x : ThetaB c.base.K × Seeds c U => (x.1.2, x.2)) (by fun_prop)
  have hr : Measurable fun x : ThetaB c.base.K × Seeds c U => (mixBody G κ0 ν0 c (erOf n 0) clip x.1.2 x.2).2.2.2 := measurable_snd.comp (measurable_snd.comp (measurable_snd.comp h0))
  unfold mixBody
  refine (measurable_fst.comp hX).prodMk (Measurable.prodMk (by fun_prop) (Measurable.prodMk ?_ hr))
  rw [measurable_pi_iff]; intro e
  exact hc.comp ((measurable_pi_apply e).comp (measurable_snd.comp hX))

theorem measurable_mixSweep_p {clip : ℝ → ℝ} (hc : Measurable clip) (b : Bool) : Measurable fun x : ThetaB c.base.K × Seeds c U => mixSweep G κ0 ν0 c (erOf n x.1.1) clip b x.1.2 x.2 :=
  (measurable_mixNet G (n := erOf n 0) b).comp (f := fun x : ThetaB c.base.K × Seeds c U => (mixBody G κ0 ν0 c (erOf n x.1.1) clip x.1.2 x.2, x.2.2.2.2.1)) ((measurable_mixBody_p κ0 ν0 G hc).prodMk (by fun_prop))

theorem measurable_mixSweepB {clip : ℝ → ℝ} (hc : Measurable clip) (b : Bool) : Measurable fun x : ThetaB c.base.K × (U × Seeds c U) => mixSweepB κ0 ν0 G Bt c n clip b x.1 x.2 := by
  have hm : Measurable fun x : ThetaB c.base.K × (U × Seeds c U) => mixSweep G κ0 ν0 c (erOf n x.1.1) clip b x.1.2 x.2.2 :=
    (measurable_mixSweep_p κ0 ν0 G hc b).comp (f := fun x : ThetaB c.base.K × (U × Seeds c U) => (x.1, x.2.2)) (by fun_prop)
  unfold mixSweepB
  refine Measurable.prodMk ?_ hm
  cases b with
  | false => simp only [Bool.false_eq_true, if_false]; fun_prop
  | true =>
    simp only [if_true]
    exact (measurable_pOf Bt n c.base.K).comp (f := fun x : ThetaB c.base.K × (U × Seeds c U) => ((mixSweep G κ0 ν0 c (erOf n x.1.1) clip true x.1.2 x.2.2).1, x.2.1)) ((measurable_fst.comp hm).prodMk (by fun_prop))

/-- the update of the edge probability -/
theorem mix_p_invariant [IsProbabilityMeasure μ] (h : CfgOkB c n) {T : ThetaB c.base.K → ENNReal} (hT : Measurable T) :
    ∫⁻ θ, likelihoodMix c θ.2 * ∫⁻ u, T (pOf Bt n θ.2.1 u, θ.2) ∂μ ∂priorMixB κ0 ν0 c n = ∫⁻ θ, likelihoodMix c θ.2 * T θ ∂priorMixB κ0 ν0 c n := by
  obtain ⟨h0, h1, ha, hb, hk, -⟩ := h.net.hyper
  have hβ := isProbabilityMeasureBeta h1 h0
  have hr := restB_sfinite h
  have md := measurable_densMB (K := c.base.K) κ0 ν0 n
  have mlik := measurable_likelihoodMix (c := c) h.data
  have mlik' : Measurable fun θ : ThetaB c.base.K => likelihoodMix c θ.2 := mlik.comp measurable_snd
  have mTp : Measurable fun x : Theta c.base.K × U => T (pOf Bt n x.1.1 x.2, x.1) :=
    hT.comp (((measurable_pOf Bt n c.base.K).comp (f := fun x : Theta c.base.K × U => (x.1.1, x.2)) (by fun_prop)).prodMk (by fun_prop))
  have mI0 : Measurable fun θ : Theta c.base.K => ∫⁻ u, T (pOf Bt n θ.1 u, θ) ∂μ := mTp.lintegral_prod_right'
  have mI : Measurable fun θ : ThetaB c.base.K => ∫⁻ u, T (pOf Bt n θ.2.1 u, θ.2) ∂μ := mI0.comp measurable_snd
  have conv : ∀ F : ThetaB c.base.K → ENNReal, Measurable F → ∫⁻ θ, F θ ∂priorMixB κ0 ν0 c n = ∫⁻ θ, ∫⁻ p, densMB κ0 ν0 n p θ * F (p, θ) ∂betaMeasure n.tau1 n.tau0 ∂restB c n := by
    intro F hF
    rw [priorMixB_eq, lintegral_withDensity_eq_lintegral_mul _ md hF, lintegral_prod_symm _ (md.mul hF).aemeasurable]
    rfl
  rw [conv (fun θ => likelihoodMix c θ.2 * ∫⁻ u, T (pOf Bt n θ.2.1 u, θ.2) ∂μ) (mlik'.mul mI), conv (fun θ => likelihoodMix c θ.2 * T θ) (mlik'.mul hT)]
  have hA : ∀ᵐ θ ∂restB c n, ∀ e, θ.1 e = 0 ∨ θ.1 e = 1 := by
    obtain ⟨-, -, ha, hb, hk, -⟩ := h.net.hyper
    have hΦ := phi_prob (h.fix le_rfl zero_le_one)
    have hg := isProbabilityMeasure_gammaMeasure ha hb
    unfold restB
    have hall : ∀ᵐ A ∂Measure.pi (fun _ : Pair c.base.K => Measure.dirac (0 : ℝ) + Measure.dirac 1), ∀ e, A e = 0 ∨ A e = 1 := by
      refine ae_all_iff.2 fun e => ?_
      refine (Measure.quasiMeasurePreserving_eval (fun _ : Pair c.base.K => Measure.dirac (0 : ℝ) + Measure.dirac 1) e).ae (p := fun t => t = 0 ∨ t = 1) ?_
      rw [ae_add_measure_iff, ae_dirac_iff, ae_dirac_iff]
      · exact ⟨.inl rfl, .inr rfl⟩
      all_goals exact (measurableSet_singleton (0 : ℝ)).union (measurableSet_singleton 1)
    exact (Measure.quasiMeasurePreserving_fst).ae hall
  refine lintegral_congr_ae ?_
  filter_upwards [hA] with θ hθ
  have hS : 0 ≤ ∑ e, θ.1 e := sum_nonneg fun e _ => by rcases hθ e with h | h <;> rw [h] <;> norm_num
  have hS' : 0 ≤ ∑ e, (1 - θ.1 e) := sum_nonneg fun e _ => by rcases hθ e with h | h <;> rw [h] <;> norm_num
  have mb : Measurable (pOf Bt n θ.1) := (measurable_pOf Bt n c.base.K).comp (f := fun u => (θ.1, u)) (by fun_prop)
  have hbs : BayesStep (betaMeasure n.tau1 n.tau0) (fun p => ∏ e, edgePmf p (θ.1 e)) μ (pOf Bt n θ.1) := by
    have e := betaLaw_conj h1 h0 hθ
    have e' : μ.map (pOf Bt n θ.1) = betaMeasure (n.tau1 + ∑ e, θ.1 e) (n.tau0 + ∑ e, (1 - θ.1 e)) :=
      Bt.bet_law ⟨_, _⟩ (add_pos_of_pos_of_nonneg h1 hS) (add_pos_of_pos_of_nonneg h0 hS')
    rw [← e'] at e
    exact BayesStep.of_eq mb ENNReal.ofReal_ne_top e
  have mE : Measurable fun p : ℝ => ∏ e, edgePmf p (θ.1 e) := Finset.measurable_prod _ fun e _ => measurable_edgePmf.comp (f := fun p => (p, θ.1 e)) (by fun_prop)
  have mT1 : Measurable fun p : ℝ => T (p, θ) := hT.comp (by fun_prop)
  have key := hbs.lintegral mE mb mT1
  have mET : Measurable fun p : ℝ => (∏ e, edgePmf p (θ.1 e)) * T (p, θ) := mE.mul mT1
  set w : ENNReal := (∏ e, mixWeightPdf κ0 ν0 n.kappa θ.2.1 (θ.1 e) (θ.2.2.1 e)) * likelihoodMix c θ with hw
  have e1 : ∀ R : ℝ → ENNReal, (fun p => densMB κ0 ν0 n p θ * (likelihoodMix c θ * R p)) = fun p => w * ((∏ e, edgePmf p (θ.1 e)) * R p) := by
    intro R; funext p; rw [hw]; unfold densMB; ring
  change ∫⁻ p, densMB κ0 ν0 n p θ * (likelihoodMix c θ * ∫⁻ u, T (pOf Bt n θ.1 u, θ) ∂μ) ∂_ = ∫⁻ p, densMB κ0 ν0 n p θ * (likelihoodMix c θ * T (p, θ)) ∂_
  rw [e1 (fun _ => ∫⁻ u, T (pOf Bt n θ.1 u, θ) ∂μ), e1 (fun p => T (p, θ)), lintegral_const_mul _ (mE.mul_const _), lintegral_const_mul _ mET, key, lintegral_mul_const _ mE]

/-- **Without clipping, one call leaves the posterior invariant.** -/
theorem mixb_sweep_invariant (hκ0 : 0 < κ0) (hν0 : 0 < ν0) (h : CfgOkB c n) (b : Bool) {T : ThetaB c.base.K → ENNReal} (hT : Measurable T) :
    ∫⁻ θ, likelihoodMix c θ.2 * ∫⁻ x, T (mixSweepB κ0 ν0 G Bt c n id b θ x) ∂μ.prod (seedLaw c μ) ∂priorMixB κ0 ν0 c n = ∫⁻ θ, likelihoodMix c θ.2 * T θ ∂priorMixB κ0 ν0 c n := by
  have hμ := gen_prob G
  have hsl : IsProbabilityMeasure (seedLaw c μ) := by unfold seedLaw; infer_instance
  have mlik := measurable_likelihoodMix (c := c) h.data
  have mlik' : Measurable fun θ : ThetaB c.base.K => likelihoodMix c θ.2 := mlik.comp measurable_snd
  have mS : Measurable fun x : ThetaB c.base.K × (U × Seeds c U) => T (mixSweepB κ0 ν0 G Bt c n id b x.1 x.2) := hT.comp (measurable_mixSweepB κ0 ν0 G Bt measurable_id b)
  -- the update of `p` averaged over its seed
  set Q : ThetaB c.base.K → ENNReal := fun θ => ∫⁻ u, T (if b then pOf Bt n θ.2.1 u else θ.1, θ.2) ∂μ with hQ
  have mQ0 : Measurable fun y : ThetaB c.base.K × U => T (if b then pOf Bt n y.1.2.1 y.2 else y.1.1, y.1.2) := by
    refine hT.comp (Measurable.prodMk ?_ (by fun_prop))
    cases b with
    | false => simp only [Bool.false_eq_true, if_false]; fun_prop
    | true =>
      simp only [if_true]
      exact (measurable_pOf Bt n c.base.K).comp (f := fun y : ThetaB c.base.K × U => (y.1.2.1, y.2)) (by fun_prop)
  have mQ : Measurable Q := mQ0.lintegral_prod_right'
  have stepQ : ∫⁻ θ, likelihoodMix c θ.2 * Q θ ∂priorMixB κ0 ν0 c n = ∫⁻ θ, likelihoodMix c θ.2 * T θ ∂priorMixB κ0 ν0 c n := by
    cases b with
    | false =>
      refine lintegral_congr fun θ => ?_
      rw [hQ]
      simp only [Bool.false_eq_true, if_false, lintegral_const, measure_univ, mul_one]
    | true => exact mix_p_invariant κ0 ν0 Bt h hT
  have mI : Measurable fun θ : ThetaB c.base.K => ∫⁻ x, T (mixSweepB κ0 ν0 G Bt c n id b θ x) ∂μ.prod (seedLaw c μ) := mS.lintegral_prod_right'
  rw [← stepQ, priorMixB_lintegral κ0 ν0 h (F := fun θ => likelihoodMix c θ.2 * ∫⁻ x, T (mixSweepB κ0 ν0 G Bt c n id b θ x) ∂μ.prod (seedLaw c μ)) (mlik'.mul mI),
    priorMixB_lintegral κ0 ν0 h (F := fun θ => likelihoodMix c θ.2 * Q θ) (mlik'.mul mQ)]
  refine lintegral_congr_ae ?_
  filter_upwards [beta_mem (a := n.tau1) (b := n.tau0)] with p hp
  have mQp : Measurable fun θ : Theta c.base.K => Q (p, θ) := mQ.comp (f := fun θ => (p, θ)) (by fun_prop)
  refine Eq.trans ?_ (mix_sweep_invariant G κ0 ν0 hκ0 hν0 (h.fix hp.1 hp.2) b mQp)
  refine lintegral_congr fun θ => ?_
  congr 1
  have m1 : Measurable fun x : U × Seeds c U => T (mixSweepB κ0 ν0 G Bt c n id b (p, θ) x) := mS.comp (f := fun x => ((p, θ), x)) (by fun_prop)
  rw [lintegral_prod_symm _ m1.aemeasurable]
  rfl

theorem posteriorMixB_map (hκ0 : 0 < κ0) (hν0 : 0 < ν0) (h : CfgOkB c n) (b : Bool) :
    ((posteriorMixB κ0 ν0 c n).prod (μ.prod (seedLaw c μ))).map (fun x => mixSweepB κ0 ν0 G Bt c n id b x.1 x.2) = posteriorMixB κ0 ν0 c n := by
  have hμ := gen_prob G
  have hsl : IsProbabilityMeasure (seedLaw c μ) := by unfold seedLaw; infer_instance
  have hpr := priorMixB_sfinite κ0 ν0 h
  have hps : SFinite (posteriorMixB κ0 ν0 c n) := by unfold posteriorMixB; infer_instance
  have mlik : Measurable fun θ : ThetaB c.base.K => likelihoodMix c θ.2 := (measurable_likelihoodMix h.data).comp measurable_snd
  ext s hs
  have ms := measurable_mixSweepB κ0 ν0 G Bt (c := c) (n := n) measurable_id b
  rw [Measure.map_apply ms hs, ← lintegral_indicator_one (ms hs), lintegral_prod _ ((measurable_one.indicator (ms hs)).aemeasurable), ← lintegral_indicator_one hs]
  have e : ∀ θ x, ((fun x : ThetaB c.base.K × (U × Seeds c U) => mixSweepB κ0 ν0 G Bt c n id b x.1 x.2) ⁻¹' s).indicator (1 : ThetaB c.base.K × (U × Seeds c U) → ENNReal) (θ, x)
      = s.indicator (1 : ThetaB c.base.K → ENNReal) (mixSweepB κ0 ν0 G Bt c n id b θ x) := fun θ x => rfl
  simp only [e]
  have mT : Measurable (s.indicator (1 : ThetaB c.base.K → ENNReal)) := measurable_one.indicator hs
  have mI : Measurable fun θ : ThetaB c.base.K => ∫⁻ x, s.indicator (1 : ThetaB c.base.K → ENNReal) (mixSweepB κ0 ν0 G Bt c n id b θ x) ∂μ.prod (seedLaw c μ) := (mT.comp ms).lintegral_prod_right'
  have conv : ∀ F : ThetaB c.base.K → ENNReal, Measurable F → ∫⁻ θ, F θ ∂posteriorMixB κ0 ν0 c n
      = (∫⁻ θ, likelihoodMix c θ.2 ∂priorMixB κ0 ν0 c n)⁻¹ * ∫⁻ θ, likelihoodMix c θ.2 * F θ ∂priorMixB κ0 ν0 c n := by
    intro F hF
    unfold posteriorMixB
    rw [lintegral_smul_measure, lintegral_withDensity_eq_lintegral_mul _ mlik hF]
    rfl
  rw [conv _ mI, conv _ mT, mixb_sweep_invariant κ0 ν0 G Bt hκ0 hν0 h b mT]

end

end PyHawkes
