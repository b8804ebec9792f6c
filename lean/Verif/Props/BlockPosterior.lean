import Verif.Spec.PosteriorBlock
import Verif.Props.GibbsPosterior

/-!
# One-block networks: invariance of the posterior (C83)
-/
set_option linter.unusedSectionVars false
set_option linter.unusedVariables false

namespace PyHawkes
open Finset Spec MeasureTheory ProbabilityTheory

/-- the network with edge probability `p` held fixed -/
noncomputable def erOf (n : SBM) (p : ℝ) : ERFixed :=
  { K := n.K, p := p, kappa := n.kappa, v := 1, alpha := some n.alpha, beta := some n.beta, allowSelf := true, mf := none }

theorem erOf_P (n : SBM) (p : ℝ) (i j : ℕ) : (erOf n p).P i j = p := by
  unfold ERFixed.P erOf
  simp

/-! ### the edges given the edge probability -/

theorem measurable_edgePmf : Measurable fun x : ℝ × ℝ => edgePmf x.1 x.2 := by
  unfold edgePmf
  exact ENNReal.measurable_ofReal.comp (Measurable.ite ((measurableSet_singleton (1 : ℝ)).preimage measurable_snd) measurable_fst (measurable_const.sub measurable_fst))

theorem coin_density (p : ℝ) : (Measure.dirac (0 : ℝ) + Measure.dirac 1).withDensity (edgePmf p) = coinLaw p := by
  have hm : Measurable (edgePmf p) := measurable_edgePmf.comp (f := fun a => (p, a)) (by fun_prop)
  refine Measure.ext_of_lintegral _ fun f hf => ?_
  rw [lintegral_withDensity_eq_lintegral_mul _ hm hf, lintegral_coin, lintegral_add_measure, lintegral_dirac, lintegral_dirac]
  unfold edgePmf
  simp [add_comm]

/-- everything but the edge probability, edges counted without weight -/
noncomputable def restB (c : HawkesState) (n : SBM) : Measure (Theta c.base.K) :=
  (Measure.pi fun _ : Pair c.base.K => Measure.dirac (0 : ℝ) + Measure.dirac 1).prod ((gammaMeasure n.alpha n.beta).prod ((Measure.pi fun _ => volume).prod (phiPrior c)))

/-- density of edges and weights -/
noncomputable def densB {K : ℕ} (n : SBM) (p : ℝ) (θ : Theta K) : ENNReal := (∏ e, edgePmf p (θ.1 e)) * ∏ e, gammaPDF n.kappa θ.2.1 (θ.2.2.1 e)

theorem measurable_densB {K : ℕ} (n : SBM) : Measurable fun x : ℝ × Theta K => densB n x.1 x.2 := by
  unfold densB
  refine (Finset.measurable_prod _ fun e _ => measurable_edgePmf.comp (f := fun x : ℝ × Theta K => (x.1, x.2.1 e)) (by fun_prop)).mul ?_
  exact Finset.measurable_prod _ fun e _ => (measurable_gammaPDF' n.kappa).comp (f := fun x : ℝ × Theta K => (x.2.2.1, x.2.2.2.1 e)) (by fun_prop)

section
variable {c : HawkesState} {n : SBM}

theorem _root_.PyHawkes.Spec.CfgOkB.fix (h : CfgOkB c n) {p : ℝ} (h0 : 0 ≤ p) (h1 : p ≤ 1) : CfgOk c (erOf n p) := by
  obtain ⟨-, -, ha, hb, hk, -⟩ := h.net.hyper
  refine ⟨h.B, h.data, h.hyper, ⟨h.net.size, ⟨h0, h1⟩, hk, one_pos, ?_, ?_⟩⟩
  · intro a he
    rw [← Option.some.inj (Option.mem_def.1 he)]; exact ha.le
  · intro a he
    rw [← Option.some.inj (Option.mem_def.1 he)]; exact hb.le

theorem scalePrior_erOf (h : CfgOkB c n) (p : ℝ) : scalePrior (erOf n p) = gammaMeasure n.alpha n.beta := by
  obtain ⟨-, -, ha, hb, hk, -⟩ := h.net.hyper
  unfold scalePrior erOf
  dsimp only
  rw [if_pos]
  simp [truthy, ha.ne', hb.ne']

theorem beta_mem {a b : ℝ} : ∀ᵐ p ∂betaMeasure a b, 0 ≤ p ∧ p ≤ 1 := by
  unfold betaMeasure
  have m1 : Measurable (betaPDF a b) := (measurable_betaPDFReal a b).ennreal_ofReal
  rw [ae_withDensity_iff m1]
  refine Filter.Eventually.of_forall fun p hp => ?_
  by_contra hc
  rw [not_and_or, not_le, not_le] at hc
  rcases hc with h | h
  · exact hp (betaPDF_eq_zero_of_nonpos h.le)
  · exact hp (betaPDF_eq_zero_of_one_le h.le)

/-- the edge probability given the edges -/
theorem betaLaw_conj {ι : Type*} [Fintype ι] {a b : ℝ} (ha : 0 < a) (hb : 0 < b) {A : ι → ℝ} (hA : ∀ e, A e = 0 ∨ A e = 1) :
    (betaMeasure a b).withDensity (fun p => ∏ e, edgePmf p (A e)) =
      ENNReal.ofReal (beta (a + ∑ e, A e) (b + ∑ e, (1 - A e)) / beta a b) • betaMeasure (a + ∑ e, A e) (b + ∑ e, (1 - A e)) := by
  have hS : 0 ≤ ∑ e, A e := sum_nonneg fun e _ => by rcases hA e with h | h <;> rw [h] <;> norm_num
  have hT : 0 ≤ ∑ e, (1 - A e) := sum_nonneg fun e _ => by rcases hA e with h | h <;> rw [h] <;> norm_num
  have hm : Measurable fun p : ℝ => ∏ e, edgePmf p (A e) := Finset.measurable_prod _ fun e _ => measurable_edgePmf.comp (f := fun p => (p, A e)) (by fun_prop)
  unfold betaMeasure
  have m1 : Measurable (betaPDF a b) := (measurable_betaPDFReal a b).ennreal_ofReal
  have m2 : Measurable (betaPDF (a + ∑ e, A e) (b + ∑ e, (1 - A e))) := (measurable_betaPDFReal _ _).ennreal_ofReal
  rw [← withDensity_mul _ m1 hm, ← withDensity_smul _ m2]
  congr 1
  funext p
  simp only [Pi.mul_apply, Pi.smul_apply, smul_eq_mul]
  by_cases hp : 0 < p ∧ p < 1
  · rw [betaPDF_of_pos_lt_one hp.1 hp.2, betaPDF_of_pos_lt_one hp.1 hp.2]
    have h1p : 0 < 1 - p := by linarith [hp.2]
    have e1 : ∏ e, edgePmf p (A e) = ENNReal.ofReal (p ^ (∑ e, A e) * (1 - p) ^ (∑ e, (1 - A e))) := by
      unfold edgePmf
      rw [← ENNReal.ofReal_prod_of_nonneg fun e _ => by split_ifs; exacts [hp.1.le, h1p.le], Real.rpow_sum_of_pos hp.1, Real.rpow_sum_of_pos h1p, ← prod_mul_distrib]
      congr 1
      refine prod_congr rfl fun e _ => ?_
      rcases hA e with h | h <;> rw [h] <;> simp
    have hB1 := beta_pos ha hb
    have hB2 := beta_pos (add_pos_of_pos_of_nonneg ha hS) (add_pos_of_pos_of_nonneg hb hT)
    rw [e1, ← ENNReal.ofReal_mul (mul_nonneg (mul_nonneg (one_div_nonneg.2 hB1.le) (Real.rpow_nonneg hp.1.le _)) (Real.rpow_nonneg h1p.le _)), ← ENNReal.ofReal_mul (div_nonneg hB2.le hB1.le)]
    congr 1
    rw [show a + ∑ e, A e - 1 = (a - 1) + ∑ e, A e by ring, show b + ∑ e, (1 - A e) - 1 = (b - 1) + ∑ e, (1 - A e) by ring, Real.rpow_add hp.1, Real.rpow_add h1p]
    field_simp
  · have : ∀ a b, betaPDF a b p = 0 := by
      intro a b
      rw [not_and_or, not_lt, not_lt] at hp
      rcases hp with h | h
      · exact betaPDF_eq_zero_of_nonpos h
      · exact betaPDF_eq_zero_of_one_le h
    rw [this, this, zero_mul, mul_zero]

/-- for a fixed edge probability, the prior of the remaining parameters -/
theorem prior_fixed (h : CfgOkB c n) {p : ℝ} (h0 : 0 ≤ p) (h1 : p ≤ 1) {F : Theta c.base.K → ENNReal} (hF : Measurable F) :
    ∫⁻ θ, F θ ∂prior c (erOf n p) = ∫⁻ θ, densB n p θ * F θ ∂restB c n := by
  obtain ⟨-, -, ha, hb, hk, -⟩ := h.net.hyper
  have hΦ := phi_prob (h.fix h0 h1)
  have hg := isProbabilityMeasure_gammaMeasure ha hb
  have hm : Measurable (edgePmf p) := measurable_edgePmf.comp (f := fun a => (p, a)) (by fun_prop)
  have hc := coinLaw_prob h0 h1
  have hc' : IsProbabilityMeasure ((Measure.dirac (0 : ℝ) + Measure.dirac 1).withDensity (edgePmf p)) := by rw [coin_density]; exact hc
  have e1 : Measure.pi (fun e : Pair c.base.K => coinLaw ((erOf n p).P e.1 e.2)) =
      (Measure.pi fun _ : Pair c.base.K => Measure.dirac (0 : ℝ) + Measure.dirac 1).withDensity fun A => ∏ e, edgePmf p (A e) := by
    simp only [erOf_P, ← coin_density]
    exact pi_withDensity' _ (fun _ => edgePmf p) fun _ => hm
  have mW : Measurable fun θ : Theta c.base.K => ∏ e, gammaPDF n.kappa θ.2.1 (θ.2.2.1 e) :=
    Finset.measurable_prod _ fun e _ => (measurable_gammaPDF' n.kappa).comp (f := fun x : Theta c.base.K => (x.2.1, x.2.2.1 e)) (by fun_prop)
  have mA : Measurable fun A : Pair c.base.K → ℝ => ∏ e, edgePmf p (A e) := Finset.measurable_prod _ fun e _ => hm.comp (measurable_pi_apply e)
  have mA' : Measurable fun θ : Theta c.base.K => ∏ e, edgePmf p (θ.1 e) := mA.comp measurable_fst
  unfold prior
  rw [e1, scalePrior_erOf h, lintegral_withDensity_eq_lintegral_mul _ (show Measurable fun θ : Theta c.base.K => ∏ e, gammaPDF (erOf n p).kappa θ.2.1 (θ.2.2.1 e) from mW) hF]
  change ∫⁻ θ, (∏ e, gammaPDF n.kappa θ.2.1 (θ.2.2.1 e)) * F θ ∂(((Measure.pi fun _ : Pair c.base.K => Measure.dirac (0 : ℝ) + Measure.dirac 1).withDensity fun A => ∏ e, edgePmf p (A e)).prod
    ((gammaMeasure n.alpha n.beta).prod ((Measure.pi fun _ => volume).prod (phiPrior c)))) = _
  rw [prod_withDensity_left mA]
  have mWF : Measurable fun θ : Theta c.base.K => (∏ e, gammaPDF n.kappa θ.2.1 (θ.2.2.1 e)) * F θ := mW.mul hF
  refine (lintegral_withDensity_eq_lintegral_mul _ mA' mWF).trans ?_
  refine lintegral_congr fun θ => ?_
  simp only [Pi.mul_apply, densB]
  ring

/-- the prior as an integral over the edge probability -/
theorem priorB_lintegral (h : CfgOkB c n) {F : ThetaB c.base.K → ENNReal} (hF : Measurable F) :
    ∫⁻ θ, F θ ∂priorB c n = ∫⁻ p, ∫⁻ θ, F (p, θ) ∂prior c (erOf n p) ∂betaMeasure n.tau1 n.tau0 := by
  obtain ⟨h0, h1, ha, hb, hk, -⟩ := h.net.hyper
  have hΦ := phi_prob (h.fix le_rfl zero_le_one)
  have hg := isProbabilityMeasure_gammaMeasure ha hb
  have hβ := isProbabilityMeasureBeta h1 h0
  have hr : SFinite (restB c n) := by unfold restB; infer_instance
  have md := measurable_densB (K := c.base.K) n
  unfold priorB
  change ∫⁻ θ, F θ ∂((betaMeasure n.tau1 n.tau0).prod (restB c n)).withDensity (fun θ => densB n θ.1 θ.2) = _
  rw [lintegral_withDensity_eq_lintegral_mul _ md hF, lintegral_prod _ (md.mul hF).aemeasurable]
  have hb01 : ∀ᵐ p ∂betaMeasure n.tau1 n.tau0, 0 ≤ p ∧ p ≤ 1 := by
    exact beta_mem
  refine lintegral_congr_ae ?_
  filter_upwards [hb01] with p hp
  rw [prior_fixed h hp.1 hp.2 (F := fun θ => F (p, θ)) (hF.comp (by fun_prop))]
  rfl

/-! ### measurability in the edge probability -/

variable {U : Type*} [MeasurableSpace U] {μ : Measure U} (G : Generator μ) (Bt : BetaSampler μ)

theorem measurable_siteStep_p {ι Z : Type*} [Fintype ι] [DecidableEq ι] [MeasurableSpace Z] {L : Z → (ι → ℝ) → ℝ} (hL : Measurable fun x : Z × (ι → ℝ) => L x.1 x.2) {p : Z → ι → ℝ}
    (hp : Measurable p) (e : ι) : Measurable fun x : Z × U × (ι → ℝ) => siteStep G (p x.1) (L x.1) e x.2.1 x.2.2 := by
  unfold siteStep bernPost
  have hA : Measurable fun x : Z × U × (ι → ℝ) => x.2.2 := by fun_prop
  have h0 : ∀ t : ℝ, Measurable fun x : Z × U × (ι → ℝ) => L x.1 (Function.update x.2.2 e t) := fun t =>
    hL.comp (f := fun x : Z × U × (ι → ℝ) => (x.1, Function.update x.2.2 e t)) ((measurable_fst).prodMk (measurable_update_fun hA measurable_const e))
  have hpe : Measurable fun x : Z × U × (ι → ℝ) => p x.1 e := (measurable_pi_apply e).comp (hp.comp measurable_fst)
  refine measurable_update_fun hA (measurable_ite_lt (G.unif_meas.comp (by fun_prop)) ?_) e
  have := h0 0
  have := h0 1
  fun_prop

theorem measurable_sitesStep_p {ι Z : Type*} [Fintype ι] [DecidableEq ι] [MeasurableSpace Z] {L : Z → (ι → ℝ) → ℝ} (hL : Measurable fun x : Z × (ι → ℝ) => L x.1 x.2) {p : Z → ι → ℝ}
    (hp : Measurable p) (l : List ι) : Measurable fun x : Z × (ι → U) × (ι → ℝ) => sitesStep G (p x.1) (L x.1) x.2.1 l x.2.2 := by
  unfold sitesStep
  have : ∀ f : Z × (ι → U) × (ι → ℝ) → ι → ℝ, Measurable f → Measurable fun x => l.foldl (fun A e => siteStep G (p x.1) (L x.1) e (x.2.1 e) A) (f x) := by
    induction l with
    | nil => exact fun f hf => hf
    | cons e l ih =>
      intro f hf
      exact ih _ ((measurable_siteStep_p G hL hp e).comp (f := fun x : Z × (ι → U) × (ι → ℝ) => (x.1, x.2.1 e, f x)) (by fun_prop))
  exact this _ (by fun_prop)

theorem measurable_edgesStep_p (hD : ∀ D ∈ c.data, DataOk c.base.K c.base.B D) : Measurable fun x : ℝ × Theta c.base.K × (Pair c.base.K → U) => edgesStep G c (erOf n x.1) x.2.1 x.2.2 := by
  unfold edgesStep
  refine Measurable.prodMk ?_ (by fun_prop)
  have hL : Measurable fun x : (ℝ × ℝ × (Pair c.base.K → ℝ) × (Fin c.base.K → ℝ) × (Pair c.base.K → Vec ℝ)) × (Pair c.base.K → ℝ) => likR c x.2 x.1.2.2.1 x.1.2.2.2.1 x.1.2.2.2.2 :=
    (measurable_likR c hD).comp (f := fun x : (ℝ × ℝ × (Pair c.base.K → ℝ) × (Fin c.base.K → ℝ) × (Pair c.base.K → Vec ℝ)) × (Pair c.base.K → ℝ) => (x.2, x.1.2.2)) (by fun_prop)
  have hp : Measurable fun x : ℝ × ℝ × (Pair c.base.K → ℝ) × (Fin c.base.K → ℝ) × (Pair c.base.K → Vec ℝ) => fun e : Pair c.base.K => (erOf n x.1).P e.1 e.2 := by
    simp only [erOf_P]; fun_prop
  exact (measurable_sitesStep_p G (L := fun (y : ℝ × ℝ × (Pair c.base.K → ℝ) × (Fin c.base.K → ℝ) × (Pair c.base.K → Vec ℝ)) A => likR c A y.2.2.1 y.2.2.2.1 y.2.2.2.2) hL hp (pairList c.base.K)).comp
    (f := fun x : ℝ × Theta c.base.K × (Pair c.base.K → U) => ((x.1, x.2.1.2), x.2.2, x.2.1.1)) (by fun_prop)

/-- integrating the last group of seeds separately -/
theorem seeds_split [IsProbabilityMeasure μ] {F : Seeds c U → ENNReal} (hF : Measurable F) :
    ∫⁻ x, F x ∂seedLaw c μ = ∫⁻ x, ∫⁻ t, F (x.1, x.2.1, x.2.2.1, x.2.2.2.1, x.2.2.2.2.1, t) ∂Measure.pi (fun _ => μ) ∂seedLaw c μ := by
  have mF : Measurable fun x : (Row c → U) × (Fin c.base.K → U) × (Pair c.base.K → U) × U × (Pair c.base.K → U) => ∫⁻ t, F (x.1, x.2.1, x.2.2.1, x.2.2.2.1, x.2.2.2.2, t) ∂Measure.pi (fun _ => μ) :=
    Measurable.lintegral_prod_right' (f := fun y : ((Row c → U) × (Fin c.base.K → U) × (Pair c.base.K → U) × U × (Pair c.base.K → U)) × (Pair c.base.K → U) =>
      F (y.1.1, y.1.2.1, y.1.2.2.1, y.1.2.2.2.1, y.1.2.2.2.2, y.2)) (hF.comp (by fun_prop))
  unfold seedLaw
  have m2 : Measurable fun x : Seeds c U => ∫⁻ t, F (x.1, x.2.1, x.2.2.1, x.2.2.2.1, x.2.2.2.2.1, t) ∂Measure.pi (fun _ => μ) :=
    mF.comp (f := fun x : Seeds c U => (x.1, x.2.1, x.2.2.1, x.2.2.2.1, x.2.2.2.2.1)) (by fun_prop)
  rw [lintegral_prod _ hF.aemeasurable, lintegral_prod _ m2.aemeasurable]
  refine lintegral_congr fun x1 => ?_
  have a2 : Measurable fun x => F (x1, x) := hF.comp (f := fun x => (x1, x)) (by fun_prop)
  have b2 : Measurable fun x : (Fin c.base.K → U) × (Pair c.base.K → U) × U × (Pair c.base.K → U) × (Pair c.base.K → U) => ∫⁻ t, F (x1, x.1, x.2.1, x.2.2.1, x.2.2.2.1, t) ∂Measure.pi (fun _ => μ) :=
    m2.comp (f := fun x => (x1, x)) (by fun_prop)
  refine (lintegral_prod _ a2.aemeasurable).trans (Eq.trans ?_ (lintegral_prod _ b2.aemeasurable).symm)
  refine lintegral_congr fun x2 => ?_
  have a3 : Measurable fun x => F (x1, x2, x) := hF.comp (f := fun x => (x1, x2, x)) (by fun_prop)
  have b3 : Measurable fun x : (Pair c.base.K → U) × U × (Pair c.base.K → U) × (Pair c.base.K → U) => ∫⁻ t, F (x1, x2, x.1, x.2.1, x.2.2.1, t) ∂Measure.pi (fun _ => μ) :=
    m2.comp (f := fun x => (x1, x2, x)) (by fun_prop)
  refine (lintegral_prod _ a3.aemeasurable).trans (Eq.trans ?_ (lintegral_prod _ b3.aemeasurable).symm)
  refine lintegral_congr fun x3 => ?_
  have a4 : Measurable fun x => F (x1, x2, x3, x) := hF.comp (f := fun x => (x1, x2, x3, x)) (by fun_prop)
  have b4 : Measurable fun x : U × (Pair c.base.K → U) × (Pair c.base.K → U) => ∫⁻ t, F (x1, x2, x3, x.1, x.2.1, t) ∂Measure.pi (fun _ => μ) :=
    b3.comp (f := fun x => (x3, x)) (by fun_prop)
  refine (lintegral_prod _ a4.aemeasurable).trans (Eq.trans ?_ (lintegral_prod _ b4.aemeasurable).symm)
  refine lintegral_congr fun x4 => ?_
  have a5 : Measurable fun x => F (x1, x2, x3, x4, x) := hF.comp (f := fun x => (x1, x2, x3, x4, x)) (by fun_prop)
  have b5 : Measurable fun x : (Pair c.base.K → U) × (Pair c.base.K → U) => ∫⁻ t, F (x1, x2, x3, x4, x.1, t) ∂Measure.pi (fun _ => μ) :=
    b4.comp (f := fun x => (x4, x)) (by fun_prop)
  refine (lintegral_prod _ a5.aemeasurable).trans (Eq.trans ?_ (lintegral_prod _ b5.aemeasurable).symm)
  refine lintegral_congr fun x5 => ?_
  dsimp only
  rw [lintegral_const, measure_univ, mul_one]

/-! ### one call -/

/-- the new edge probability -/
noncomputable def pOf (n : SBM) {K : ℕ} (A : Pair K → ℝ) (u : U) : ℝ := Bt.bet ⟨n.tau1 + ∑ e, A e, n.tau0 + ∑ e, (1 - A e)⟩ u

theorem measurable_pOf (n : SBM) (K : ℕ) : Measurable fun x : (Pair K → ℝ) × U => pOf Bt n x.1 x.2 :=
  Bt.bet_meas.comp (f := fun x : (Pair K → ℝ) × U => ((n.tau1 + ∑ e, x.1 e, n.tau0 + ∑ e, (1 - x.1 e)), x.2)) (by fun_prop)

/-- one call as a function of parameters and seeds -/
noncomputable def sweepStepB (c : HawkesState) (n : SBM) (θ : ThetaB c.base.K) (x : U × Seeds c U) : ThetaB c.base.K :=
  (pOf Bt n θ.2.1 x.1, edgesStep G c (erOf n (pOf Bt n θ.2.1 x.1)) (globalStep G c (erOf n 0) θ.2 x.2) x.2.2.2.2.2.2)

theorem measurable_sweepStepB (h : CfgOkB c n) : Measurable fun x : ThetaB c.base.K × (U × Seeds c U) => sweepStepB G Bt c n x.1 x.2 := by
  have mp : Measurable fun x : ThetaB c.base.K × (U × Seeds c U) => pOf Bt n x.1.2.1 x.2.1 := (measurable_pOf Bt n c.base.K).comp (f := fun x : ThetaB c.base.K × (U × Seeds c U) => (x.1.2.1, x.2.1)) (by fun_prop)
  have mg : Measurable fun x : ThetaB c.base.K × (U × Seeds c U) => globalStep G c (erOf n 0) x.1.2 x.2.2 :=
    (measurable_globalStep G c (erOf n 0)).comp (f := fun x : ThetaB c.base.K × (U × Seeds c U) => (x.1.2, x.2.2)) (by fun_prop)
  exact mp.prodMk ((measurable_edgesStep_p G h.data).comp (f := fun x : ThetaB c.base.K × (U × Seeds c U) => (pOf Bt n x.1.2.1 x.2.1, globalStep G c (erOf n 0) x.1.2 x.2.2, x.2.2.2.2.2.2.2))
    (mp.prodMk (mg.prodMk (by fun_prop))))

/-- the update of the edge probability -/
theorem p_invariant [IsProbabilityMeasure μ] (h : CfgOkB c n) {T : ThetaB c.base.K → ENNReal} (hT : Measurable T) :
    ∫⁻ θ, likelihood c θ.2 * ∫⁻ u, T (pOf Bt n θ.2.1 u, θ.2) ∂μ ∂priorB c n = ∫⁻ θ, likelihood c θ.2 * T θ ∂priorB c n := by
  obtain ⟨h0, h1, ha, hb, hk, -⟩ := h.net.hyper
  have hΦ := phi_prob (h.fix le_rfl zero_le_one)
  have hg := isProbabilityMeasure_gammaMeasure ha hb
  have hβ := isProbabilityMeasureBeta h1 h0
  have hr : SFinite (restB c n) := by unfold restB; infer_instance
  have md := measurable_densB (K := c.base.K) n
  have mlik := measurable_likelihood c h.data
  have mlik' : Measurable fun θ : ThetaB c.base.K => likelihood c θ.2 := mlik.comp measurable_snd
  have mTp : Measurable fun x : Theta c.base.K × U => T (pOf Bt n x.1.1 x.2, x.1) :=
    hT.comp (((measurable_pOf Bt n c.base.K).comp (f := fun x : Theta c.base.K × U => (x.1.1, x.2)) (by fun_prop)).prodMk (by fun_prop))
  have mI0 : Measurable fun θ : Theta c.base.K => ∫⁻ u, T (pOf Bt n θ.1 u, θ) ∂μ := mTp.lintegral_prod_right'
  have mI : Measurable fun θ : ThetaB c.base.K => ∫⁻ u, T (pOf Bt n θ.2.1 u, θ.2) ∂μ := mI0.comp measurable_snd
  have conv : ∀ F : ThetaB c.base.K → ENNReal, Measurable F → ∫⁻ θ, F θ ∂priorB c n = ∫⁻ θ, ∫⁻ p, densB n p θ * F (p, θ) ∂betaMeasure n.tau1 n.tau0 ∂restB c n := by
    intro F hF
    unfold priorB
    change ∫⁻ θ, F θ ∂((betaMeasure n.tau1 n.tau0).prod (restB c n)).withDensity (fun θ => densB n θ.1 θ.2) = _
    rw [lintegral_withDensity_eq_lintegral_mul _ md hF, lintegral_prod_symm _ (md.mul hF).aemeasurable]
    rfl
  rw [conv (fun θ => likelihood c θ.2 * ∫⁻ u, T (pOf Bt n θ.2.1 u, θ.2) ∂μ) (mlik'.mul mI), conv (fun θ => likelihood c θ.2 * T θ) (mlik'.mul hT)]
  have hA : ∀ᵐ θ ∂restB c n, ∀ e, θ.1 e = 0 ∨ θ.1 e = 1 := by
    unfold restB
    have hall : ∀ᵐ A ∂Measure.pi (fun _ : Pair c.base.K => Measure.dirac (0 : ℝ) + Measure.dirac 1), ∀ e, A e = 0 ∨ A e = 1 := by
      refine ae_all_iff.2 fun e => ?_
      refine (Measure.quasiMeasurePreserving_eval (fun _ : Pair c.base.K => Measure.dirac (0 : ℝ) + Measure.dirac 1) e).ae (p := fun t => t = 0 ∨ t = 1) ?_
      rw [ae_add_measure_iff, ae_dirac_iff, ae_dirac_iff]
      · exact ⟨.inl rfl, .inr rfl⟩
      all_goals exact (measurableSet_singleton (0 : ℝ)).union (measurableSet_singleton 1)
    exact (Measure.quasiMeasurePreserving_fst).ae hall
  refine lintegral_congr_ae ?_
  filter_upwards [hA] with θ hθ
  have hS : 0 ≤ ∑ e, θ.1 e := sum_nonneg fun e _ => by rcases hθ e with h | h <;> rw [h] <;> norm_num
  have hS' : 0 ≤ ∑ e, (1 - θ.1 e) := sum_nonneg fun e _ => by rcases hθ e with h | h <;> rw [h] <;> norm_num
  have mb : Measurable (pOf Bt n θ.1) := (measurable_pOf Bt n c.base.K).comp (f := fun u => (θ.1, u)) (by fun_prop)
  have hbs : BayesStep (betaMeasure n.tau1 n.tau0) (fun p => ∏ e, edgePmf p (θ.1 e)) μ (pOf Bt n θ.1) := by
    have e := betaLaw_conj h1 h0 hθ
    have e' : μ.map (pOf Bt n θ.1) = betaMeasure (n.tau1 + ∑ e, θ.1 e) (n.tau0 + ∑ e, (1 - θ.1 e)) :=
      Bt.bet_law ⟨_, _⟩ (add_pos_of_pos_of_nonneg h1 hS) (add_pos_of_pos_of_nonneg h0 hS')
    rw [← e'] at e
    exact BayesStep.of_eq mb ENNReal.ofReal_ne_top e
  have mE : Measurable fun p : ℝ => ∏ e, edgePmf p (θ.1 e) := Finset.measurable_prod _ fun e _ => measurable_edgePmf.comp (f := fun p => (p, θ.1 e)) (by fun_prop)
  have mT1 : Measurable fun p : ℝ => T (p, θ) := hT.comp (by fun_prop)
  have key := hbs.lintegral mE mb mT1
  have mET : Measurable fun p : ℝ => (∏ e, edgePmf p (θ.1 e)) * T (p, θ) := mE.mul mT1
  set w : ENNReal := (∏ e, gammaPDF n.kappa θ.2.1 (θ.2.2.1 e)) * likelihood c θ with hw
  have e1 : ∀ R : ℝ → ENNReal, (fun p => densB n p θ * (likelihood c θ * R p)) = fun p => w * ((∏ e, edgePmf p (θ.1 e)) * R p) := by
    intro R; funext p; rw [hw]; unfold densB; ring
  change ∫⁻ p, densB n p θ * (likelihood c θ * ∫⁻ u, T (pOf Bt n θ.1 u, θ) ∂μ) ∂_ = ∫⁻ p, densB n p θ * (likelihood c θ * T (p, θ)) ∂_
  rw [e1 (fun _ => ∫⁻ u, T (pOf Bt n θ.1 u, θ) ∂μ), e1 (fun p => T (p, θ)), lintegral_const_mul _ (mE.mul_const _), lintegral_const_mul _ mET, key, lintegral_mul_const _ mE]

theorem sweepB_invariant (h : CfgOkB c n) {T : ThetaB c.base.K → ENNReal} (hT : Measurable T) :
    ∫⁻ θ, likelihood c θ.2 * ∫⁻ x, T (sweepStepB G Bt c n θ x) ∂μ.prod (seedLaw c μ) ∂priorB c n = ∫⁻ θ, likelihood c θ.2 * T θ ∂priorB c n := by
  have hμ := gen_prob G
  have hsl : IsProbabilityMeasure (seedLaw c μ) := by unfold seedLaw; infer_instance
  have mlik := measurable_likelihood c h.data
  have mlik' : Measurable fun θ : ThetaB c.base.K => likelihood c θ.2 := mlik.comp measurable_snd
  -- the adjacency update averaged over its seeds
  have mE : Measurable fun x : ThetaB c.base.K × (Pair c.base.K → U) => T (x.1.1, edgesStep G c (erOf n x.1.1) x.1.2 x.2) :=
    hT.comp (Measurable.prodMk (by fun_prop) ((measurable_edgesStep_p G h.data).comp (f := fun x : ThetaB c.base.K × (Pair c.base.K → U) => (x.1.1, x.1.2, x.2)) (by fun_prop)))
  set H : ThetaB c.base.K → ENNReal := fun θ => ∫⁻ y, T (θ.1, edgesStep G c (erOf n θ.1) θ.2 y) ∂Measure.pi (fun _ => μ) with hH
  have mH : Measurable H := mE.lintegral_prod_right'
  have step3 : ∫⁻ θ, likelihood c θ.2 * H θ ∂priorB c n = ∫⁻ θ, likelihood c θ.2 * T θ ∂priorB c n := by
    rw [priorB_lintegral h (F := fun θ => likelihood c θ.2 * H θ) (mlik'.mul mH), priorB_lintegral h (F := fun θ => likelihood c θ.2 * T θ) (mlik'.mul hT)]
    refine lintegral_congr_ae ?_
    filter_upwards [beta_mem (a := n.tau1) (b := n.tau0)] with p hp
    exact edges_invariant G (h.fix hp.1 hp.2) (T := fun θ => T (p, θ)) (hT.comp (by fun_prop))
  rw [← step3, ← p_invariant Bt h mH]
  -- the remaining updates
  have mHp : Measurable fun x : Theta c.base.K × U => H (pOf Bt n x.1.1 x.2, x.1) :=
    mH.comp (((measurable_pOf Bt n c.base.K).comp (f := fun x : Theta c.base.K × U => (x.1.1, x.2)) (by fun_prop)).prodMk (by fun_prop))
  set Q : Theta c.base.K → ENNReal := fun θ => ∫⁻ u, H (pOf Bt n θ.1 u, θ) ∂μ with hQ
  have mQ : Measurable Q := mHp.lintegral_prod_right'
  have mQ' : Measurable fun θ : ThetaB c.base.K => Q θ.2 := mQ.comp measurable_snd
  have mG : Measurable fun x : Theta c.base.K × Seeds c U => Q (globalStep G c (erOf n 0) x.1 x.2) := mQ.comp (measurable_globalStep G c (erOf n 0))
  have mGI : Measurable fun θ : Theta c.base.K => ∫⁻ x, Q (globalStep G c (erOf n 0) θ x) ∂seedLaw c μ := mG.lintegral_prod_right'
  have mGI' : Measurable fun θ : ThetaB c.base.K => ∫⁻ x, Q (globalStep G c (erOf n 0) θ.2 x) ∂seedLaw c μ := mGI.comp measurable_snd
  have step1 : ∫⁻ θ, likelihood c θ.2 * ∫⁻ x, Q (globalStep G c (erOf n 0) θ.2 x) ∂seedLaw c μ ∂priorB c n = ∫⁻ θ, likelihood c θ.2 * Q θ.2 ∂priorB c n := by
    rw [priorB_lintegral h (F := fun θ => likelihood c θ.2 * ∫⁻ x, Q (globalStep G c (erOf n 0) θ.2 x) ∂seedLaw c μ) (mlik'.mul mGI'), priorB_lintegral h (F := fun θ => likelihood c θ.2 * Q θ.2) (mlik'.mul mQ')]
    refine lintegral_congr_ae ?_
    filter_upwards [beta_mem (a := n.tau1) (b := n.tau0)] with p hp
    exact global_invariant G (h.fix hp.1 hp.2) mQ
  change _ = ∫⁻ θ, likelihood c θ.2 * Q θ.2 ∂priorB c n
  rw [← step1]
  refine lintegral_congr fun θ => ?_
  congr 1
  have mS : Measurable fun x : U × Seeds c U => T (sweepStepB G Bt c n θ x) := hT.comp ((measurable_sweepStepB G Bt h).comp (f := fun x => (θ, x)) (by fun_prop))
  rw [lintegral_prod _ mS.aemeasurable]
  have e1 : ∀ u, ∫⁻ x, T (sweepStepB G Bt c n θ (u, x)) ∂seedLaw c μ = ∫⁻ x, H (pOf Bt n θ.2.1 u, globalStep G c (erOf n 0) θ.2 x) ∂seedLaw c μ := by
    intro u
    have mSu : Measurable fun x => T (sweepStepB G Bt c n θ (u, x)) := mS.comp (f := fun x => (u, x)) (by fun_prop)
    rw [seeds_split mSu]
    rfl
  simp only [e1]
  have mL : Measurable fun y : U × Seeds c U => H (pOf Bt n θ.2.1 y.1, globalStep G c (erOf n 0) θ.2 y.2) := by
    refine mH.comp (Measurable.prodMk ?_ ?_)
    · exact (measurable_pOf Bt n c.base.K).comp (f := fun y : U × Seeds c U => (θ.2.1, y.1)) (by fun_prop)
    · exact (measurable_globalStep G c (erOf n 0)).comp (f := fun y : U × Seeds c U => (θ.2, y.2)) (by fun_prop)
  rw [lintegral_lintegral_swap mL.aemeasurable]
  rfl

theorem priorB_sfinite (h : CfgOkB c n) : SFinite (priorB c n) := by
  obtain ⟨h0, h1, ha, hb, hk, -⟩ := h.net.hyper
  have hΦ := phi_prob (h.fix le_rfl zero_le_one)
  have hg := isProbabilityMeasure_gammaMeasure ha hb
  have hβ := isProbabilityMeasureBeta h1 h0
  have hr : SFinite (restB c n) := by unfold restB; infer_instance
  unfold priorB
  change SFinite (((betaMeasure n.tau1 n.tau0).prod (restB c n)).withDensity (fun θ => densB n θ.1 θ.2))
  infer_instance

/-- **Invariance of the posterior.** -/
theorem posteriorB_map (h : CfgOkB c n) : ((posteriorB c n).prod (μ.prod (seedLaw c μ))).map (fun x => sweepStepB G Bt c n x.1 x.2) = posteriorB c n := by
  have hμ := gen_prob G
  have hsl : IsProbabilityMeasure (seedLaw c μ) := by unfold seedLaw; infer_instance
  have hpr := priorB_sfinite h
  have hps : SFinite (posteriorB c n) := by unfold posteriorB; infer_instance
  have mlik : Measurable fun θ : ThetaB c.base.K => likelihood c θ.2 := (measurable_likelihood c h.data).comp measurable_snd
  ext s hs
  have ms := measurable_sweepStepB G Bt h
  rw [Measure.map_apply ms hs, ← lintegral_indicator_one (ms hs), lintegral_prod _ ((measurable_one.indicator (ms hs)).aemeasurable), ← lintegral_indicator_one hs]
  have e : ∀ θ x, ((fun x : ThetaB c.base.K × (U × Seeds c U) => sweepStepB G Bt c n x.1 x.2) ⁻¹' s).indicator (1 : ThetaB c.base.K × (U × Seeds c U) → ENNReal) (θ, x)
      = s.indicator (1 : ThetaB c.base.K → ENNReal) (sweepStepB G Bt c n θ x) := fun θ x => rfl
  simp only [e]
  have mT : Measurable (s.indicator (1 : ThetaB c.base.K → ENNReal)) := measurable_one.indicator hs
  have mI : Measurable fun θ : ThetaB c.base.K => ∫⁻ x, s.indicator (1 : ThetaB c.base.K → ENNReal) (sweepStepB G Bt c n θ x) ∂μ.prod (seedLaw c μ) := (mT.comp ms).lintegral_prod_right'
  have conv : ∀ F : ThetaB c.base.K → ENNReal, Measurable F → ∫⁻ θ, F θ ∂posteriorB c n = (∫⁻ θ, likelihood c θ.2 ∂priorB c n)⁻¹ * ∫⁻ θ, likelihood c θ.2 * F θ ∂priorB c n := by
    intro F hF
    unfold posteriorB
    rw [lintegral_smul_measure, lintegral_withDensity_eq_lintegral_mul _ mlik hF]
    rfl
  rw [conv _ mI, conv _ mT, sweepB_invariant G Bt h mT]

end

end PyHawkes
