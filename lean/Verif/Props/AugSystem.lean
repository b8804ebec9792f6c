import Verif.Props.GibbsScale
import Verif.Props.GibbsEdges
import Verif.Props.GibbsAbstract
import Verif.Props.GibbsSweepMap

/-!
# One sweep of a data-augmentation Gibbs sampler for a network with an `ErdosRenyiFixedSparsity` prior, in general form (used for C84)

The likelihood `L` depends on adjacency matrix, weights and further parameters `φ`; latent variables `z` are drawn first, then `φ`, the weight scale, the weights, the adjacency matrix.
-/
set_option linter.unusedSectionVars false
set_option linter.unusedVariables false

namespace PyHawkes
open Finset Spec MeasureTheory ProbabilityTheory

/-- adjacency matrix, weight scale, weights, further parameters -/
abbrev AugTheta (K : ℕ) (Φ : Type*) := (Pair K → ℝ) × ℝ × (Pair K → ℝ) × Φ

/-- seeds of the latent variables, the further parameters, the scale, the weights, the adjacency update -/
abbrev AugSeeds (K : ℕ) (U X Y : Type*) := X × Y × U × (Pair K → U) × (Pair K → U)

section
variable {U Φ Z X Y : Type*} [MeasurableSpace U] [MeasurableSpace Φ] [MeasurableSpace Z] [MeasurableSpace X] [MeasurableSpace Y]

/-- the ingredients of the sampler -/
structure AugSys (K : ℕ) (Φ Z X Y : Type*) [MeasurableSpace Φ] [MeasurableSpace X] [MeasurableSpace Y] where
  ν : Measure Φ
  L : (Pair K → ℝ) → (Pair K → ℝ) → Φ → ℝ
  μX : Measure X
  μY : Measure Y
  z : (Pair K → ℝ) → (Pair K → ℝ) → Φ → X → Z
  sφ : Z → Y → Φ
  kz : Φ → (Pair K → ℝ) → (Pair K → ℝ) → Z → ENNReal
  fφ : Φ → Z → ENNReal
  via : Z → Pair K → ℕ
  ev : ℕ → ℝ

variable {K : ℕ} (S : AugSys K Φ Z X Y)

/-- factor of the weights -/
noncomputable def AugSys.xFac (A W : Pair K → ℝ) (z : Z) : ENNReal := ∏ e : Pair K, ENNReal.ofReal ((A e * W e) ^ S.via z e * Real.exp (-(A e * W e * S.ev e.1)))

/-- what the sampler needs: the latent variables and the further parameters are drawn from their conditional distributions -/
structure AugSys.Ok : Prop where
  ν_prob : IsProbabilityMeasure S.ν
  X_prob : IsProbabilityMeasure S.μX
  Y_prob : IsProbabilityMeasure S.μY
  L_pos : ∀ A W φ, 0 < S.L A W φ
  L_meas : Measurable fun x : (Pair K → ℝ) × (Pair K → ℝ) × Φ => S.L x.1 x.2.1 x.2.2
  z_meas : Measurable fun x : ((Pair K → ℝ) × (Pair K → ℝ) × Φ) × X => S.z x.1.1 x.1.2.1 x.1.2.2 x.2
  sφ_meas : ∀ z, Measurable (S.sφ z)
  fφ_meas : ∀ z, Measurable fun φ => S.fφ φ z
  ev_nonneg : ∀ k, 0 ≤ S.ev k
  z_law : ∀ A W, (∀ e, 0 ≤ A e * W e) → ∀ᵐ φ ∂S.ν, ∀ F : Z → ENNReal, ∫⁻ x, F (S.z A W φ x) ∂S.μX = ∑' z, S.kz φ A W z * F z
  factor : ∀ A W, (∀ e, 0 ≤ A e * W e) → ∀ᵐ φ ∂S.ν, ∀ z, ENNReal.ofReal (S.L A W φ) * S.kz φ A W z = S.fφ φ z * S.xFac A W z
  phi_step : ∀ z, BayesStep S.ν (fun φ => S.fφ φ z) S.μY (S.sφ z)

/-- the prior of the parameters -/
noncomputable def AugSys.prior (n : ERFixed) : Measure (AugTheta K Φ) :=
  ((Measure.pi fun e : Pair K => coinLaw (n.P e.1 e.2)).prod ((scalePrior n).prod ((Measure.pi fun _ => volume).prod S.ν))).withDensity fun θ => ∏ e, gammaPDF n.kappa θ.2.1 (θ.2.2.1 e)

noncomputable def AugSys.lik (θ : AugTheta K Φ) : ENNReal := ENNReal.ofReal (S.L θ.1 θ.2.2.1 θ.2.2.2)

/-- the posterior -/
noncomputable def AugSys.posterior (n : ERFixed) : Measure (AugTheta K Φ) := (∫⁻ θ, S.lik θ ∂S.prior n)⁻¹ • (S.prior n).withDensity S.lik

variable {μ : Measure U} (G : Generator μ) (n : ERFixed)

/-- the new weight scale -/
noncomputable def augV (x : U) (v : ℝ) (A W : Pair K → ℝ) : ℝ :=
  match n.alpha, n.beta with
  | some a, some b => if truthy (some a) && truthy (some b) then G.gam ⟨a + (∑ e, A e) * n.kappa, 1 / (b + ∑ e, if 0 < A e then W e else 0)⟩ x else v
  | _, _ => v

/-- the new weights -/
noncomputable def AugSys.w (z : Z) (v : ℝ) (A : Pair K → ℝ) (x : Pair K → U) : Pair K → ℝ := fun e => G.gam ⟨n.kappa + S.via z e, 1 / (v + S.ev e.1 * A e)⟩ (x e)

/-- everything except the adjacency update -/
noncomputable def AugSys.globalStep (θ : AugTheta K Φ) (x : AugSeeds K U X Y) : AugTheta K Φ :=
  let z := S.z θ.1 θ.2.2.1 θ.2.2.2 x.1
  let v := augV G n x.2.2.1 θ.2.1 θ.1 θ.2.2.1
  (θ.1, v, S.w G n z v θ.1 x.2.2.2.1, S.sφ z x.2.1)

/-- the adjacency update -/
noncomputable def AugSys.edgesStep (θ : AugTheta K Φ) (x : Pair K → U) : AugTheta K Φ :=
  (sitesStep G (fun e : Pair K => n.P e.1 e.2) (fun A => S.L A θ.2.2.1 θ.2.2.2) x (pairList K) θ.1, θ.2)

/-- one call -/
noncomputable def AugSys.sweep (θ : AugTheta K Φ) (x : AugSeeds K U X Y) : AugTheta K Φ := S.edgesStep G n (S.globalStep G n θ x) x.2.2.2.2

/-- law of the seeds -/
noncomputable def AugSys.seedLaw (μ : Measure U) : Measure (AugSeeds K U X Y) := S.μX.prod (S.μY.prod (μ.prod ((Measure.pi fun _ => μ).prod (Measure.pi fun _ => μ))))

variable {S} {n}

/-! ### measurability -/

theorem augV_meas : Measurable fun x : U × ℝ × (Pair K → ℝ) × (Pair K → ℝ) => augV G n x.1 x.2.1 x.2.2.1 x.2.2.2 := by
  unfold augV
  rcases n.alpha with _ | a
  · simp only; fun_prop
  rcases n.beta with _ | b
  · simp only; fun_prop
  simp only
  split_ifs
  · have hS : Measurable fun x : U × ℝ × (Pair K → ℝ) × (Pair K → ℝ) => ∑ e, if 0 < x.2.2.1 e then x.2.2.2 e else 0 :=
      Finset.measurable_sum _ fun e _ => Measurable.ite (measurableSet_lt measurable_const (by fun_prop)) (by fun_prop) measurable_const
    exact G.gam_meas.comp (f := fun x : U × ℝ × (Pair K → ℝ) × (Pair K → ℝ) =>
      ((a + (∑ e, x.2.2.1 e) * n.kappa, 1 / (b + ∑ e, if 0 < x.2.2.1 e then x.2.2.2 e else 0)), x.1)) (by fun_prop)
  · fun_prop

theorem AugSys.w_meas (z : Z) : Measurable fun x : ℝ × (Pair K → ℝ) × (Pair K → U) => S.w G n z x.1 x.2.1 x.2.2 := by
  rw [measurable_pi_iff]; intro e
  exact G.gam_meas.comp (f := fun x : ℝ × (Pair K → ℝ) × (Pair K → U) => ((n.kappa + S.via z e, 1 / (x.1 + S.ev e.1 * x.2.1 e)), x.2.2 e)) (by fun_prop)

variable [Countable Z] [MeasurableSingletonClass Z] (h : S.Ok) (hn : ErOk K n)

include h in
theorem AugSys.globalStep_meas : Measurable fun x : AugTheta K Φ × AugSeeds K U X Y => S.globalStep G n x.1 x.2 := by
  have hz : Measurable fun x : AugTheta K Φ × AugSeeds K U X Y => S.z x.1.1 x.1.2.2.1 x.1.2.2.2 x.2.1 :=
    h.z_meas.comp (f := fun x : AugTheta K Φ × AugSeeds K U X Y => ((x.1.1, x.1.2.2.1, x.1.2.2.2), x.2.1)) (by fun_prop)
  have hv : Measurable fun x : AugTheta K Φ × AugSeeds K U X Y => augV G n x.2.2.2.1 x.1.2.1 x.1.1 x.1.2.2.1 :=
    (augV_meas G).comp (f := fun x : AugTheta K Φ × AugSeeds K U X Y => (x.2.2.2.1, x.1.2.1, x.1.1, x.1.2.2.1)) (by fun_prop)
  have hp : Measurable fun x : AugTheta K Φ × AugSeeds K U X Y => S.sφ (S.z x.1.1 x.1.2.2.1 x.1.2.2.2 x.2.1) x.2.2.1 :=
    (measurable_from_prod_countable_right (f := fun y : Z × Y => S.sφ y.1 y.2) fun z => h.sφ_meas z).comp
      (f := fun x : AugTheta K Φ × AugSeeds K U X Y => (S.z x.1.1 x.1.2.2.1 x.1.2.2.2 x.2.1, x.2.2.1)) (hz.prodMk (by fun_prop))
  have hw : Measurable fun x : AugTheta K Φ × AugSeeds K U X Y => S.w G n (S.z x.1.1 x.1.2.2.1 x.1.2.2.2 x.2.1) (augV G n x.2.2.2.1 x.1.2.1 x.1.1 x.1.2.2.1) x.1.1 x.2.2.2.2.1 :=
    (measurable_from_prod_countable_right (f := fun y : Z × (ℝ × (Pair K → ℝ) × (Pair K → U)) => S.w G n y.1 y.2.1 y.2.2.1 y.2.2.2) fun z => S.w_meas G z).comp
      (f := fun x : AugTheta K Φ × AugSeeds K U X Y => (S.z x.1.1 x.1.2.2.1 x.1.2.2.2 x.2.1, (augV G n x.2.2.2.1 x.1.2.1 x.1.1 x.1.2.2.1, x.1.1, x.2.2.2.2.1)))
      (hz.prodMk (hv.prodMk (by fun_prop)))
  unfold AugSys.globalStep
  exact (measurable_fst.comp measurable_fst).prodMk (hv.prodMk (hw.prodMk hp))

include h in
theorem AugSys.edgesStep_meas : Measurable fun x : AugTheta K Φ × (Pair K → U) => S.edgesStep G n x.1 x.2 := by
  unfold AugSys.edgesStep
  refine Measurable.prodMk ?_ (by fun_prop)
  have hL : Measurable fun x : (ℝ × (Pair K → ℝ) × Φ) × (Pair K → ℝ) => S.L x.2 x.1.2.1 x.1.2.2 := h.L_meas.comp (f := fun x : (ℝ × (Pair K → ℝ) × Φ) × (Pair K → ℝ) => (x.2, x.1.2)) (by fun_prop)
  exact (measurable_sitesStep G (p := fun e : Pair K => n.P e.1 e.2) (L := fun (y : ℝ × (Pair K → ℝ) × Φ) A => S.L A y.2.1 y.2.2) hL (pairList K)).comp
    (f := fun x : AugTheta K Φ × (Pair K → U) => (x.1.2, x.2, x.1.1)) (by fun_prop)

include h in
theorem AugSys.lik_meas : Measurable S.lik := (h.L_meas.comp (f := fun θ : AugTheta K Φ => (θ.1, θ.2.2.1, θ.2.2.2)) (by fun_prop)).ennreal_ofReal

include h in
theorem AugSys.sweep_meas : Measurable fun x : AugTheta K Φ × AugSeeds K U X Y => S.sweep G n x.1 x.2 :=
  (AugSys.edgesStep_meas G h).comp (f := fun x : AugTheta K Φ × AugSeeds K U X Y => (S.globalStep G n x.1 x.2, x.2.2.2.2.2)) ((AugSys.globalStep_meas G h).prodMk (by fun_prop))

/-! ### the network -/

include hn in
theorem aug_P_mem (e : Pair K) : 0 ≤ n.P e.1 e.2 ∧ n.P e.1 e.2 ≤ 1 := netP_mem (n := .er n) (show NetOk K (.er n) from hn) e.1 e.1.2 e.2 e.2.2

include hn in
variable (n) in
/-- the weight scale is either learned or fixed -/
theorem aug_scale_cases :
    (∃ a b, 0 < a ∧ 0 < b ∧ scalePrior n = gammaMeasure a b ∧
      ∀ x v (A W : Pair K → ℝ), augV G n x v A W = G.gam ⟨a + (∑ e, A e) * n.kappa, 1 / (b + ∑ e, if 0 < A e then W e else 0)⟩ x) ∨
    (scalePrior n = Measure.dirac n.v ∧ ∀ x v (A W : Pair K → ℝ), augV G n x v A W = v) := by
  unfold scalePrior augV
  rcases ha : n.alpha with _ | a
  · exact .inr ⟨rfl, fun _ _ _ _ => rfl⟩
  rcases hb : n.beta with _ | b
  · exact .inr ⟨rfl, fun _ _ _ _ => rfl⟩
  dsimp only
  split_ifs with ht
  · left
    have h1 := hn.hyper.1 a (by rw [ha]; rfl)
    have h2 := hn.hyper.2 b (by rw [hb]; rfl)
    rw [Bool.and_eq_true] at ht
    simp only [truthy, decide_eq_true_eq] at ht
    exact ⟨a, b, lt_of_le_of_ne h1 (Ne.symm ht.1), lt_of_le_of_ne h2 (Ne.symm ht.2), rfl, fun _ _ _ _ => rfl⟩
  · exact .inr ⟨rfl, fun _ _ _ _ => rfl⟩

include G hn in
theorem aug_scale_prob : IsProbabilityMeasure (scalePrior n) := by
  rcases aug_scale_cases G n hn with ⟨a, b, ha, hb, e, -⟩ | ⟨e, -⟩ <;> rw [e]
  · exact isProbabilityMeasure_gammaMeasure ha hb
  · infer_instance

include G hn in
theorem aug_scale_pos : ∀ᵐ v ∂scalePrior n, 0 < v := by
  rcases aug_scale_cases G n hn with ⟨a, b, ha, hb, e, -⟩ | ⟨e, -⟩ <;> rw [e]
  · exact gammaMeasure_pos
  · rw [ae_dirac_iff measurableSet_Ioi]; exact hn.v

include hn in
theorem aug_coins : ∀ᵐ A ∂Measure.pi (fun e : Pair K => coinLaw (n.P e.1 e.2)), ∀ e, A e = 0 ∨ A e = 1 := by
  have hP : ∀ e : Pair K, IsProbabilityMeasure (coinLaw (n.P e.1 e.2)) := fun e => coinLaw_prob (aug_P_mem hn e).1 (aug_P_mem hn e).2
  exact pi_ae_all (fun e : Pair K => coinLaw (n.P e.1 e.2)) (p := fun _ t => t = 0 ∨ t = 1) fun e => coin_values

/-- density of the weights given the scale -/
noncomputable def augW (n : ERFixed) (η : ℝ) (W : Pair K → ℝ) : ENNReal := ∏ e, gammaPDF n.kappa η (W e)

theorem augW_meas : Measurable fun x : ℝ × (Pair K → ℝ) => augW n x.1 x.2 :=
  Finset.measurable_prod _ fun e _ => (measurable_gammaPDF' n.kappa).comp (f := fun x : ℝ × (Pair K → ℝ) => (x.1, x.2 e)) (by fun_prop)

theorem augW_neg {η : ℝ} {W : Pair K → ℝ} (h : ¬ ∀ e, 0 ≤ W e) : augW n η W = 0 := by
  push Not at h
  obtain ⟨e, he⟩ := h
  refine prod_eq_zero (mem_univ e) ?_
  unfold gammaPDF
  rw [gammaPDFReal_zero_of_neg he, ENNReal.ofReal_zero]

theorem AugSys.xFac_meas (z : Z) : Measurable fun x : (Pair K → ℝ) × (Pair K → ℝ) => S.xFac x.1 x.2 z := by unfold AugSys.xFac; fun_prop

include hn in
theorem augW_conv {η : ℝ} (hη : 0 < η) {F : (Pair K → ℝ) → ENNReal} (hF : Measurable F) :
    ∫⁻ W, augW n η W * F W ∂Measure.pi (fun _ => volume) = ∫⁻ W, F W ∂Measure.pi fun _ => gammaMeasure n.kappa η := by
  have hP := isProbabilityMeasure_gammaMeasure hn.kappa hη
  have hP' : IsProbabilityMeasure ((volume : Measure ℝ).withDensity (gammaPDF n.kappa η)) := hP
  have hm : Measurable (gammaPDF n.kappa η) := (measurable_gammaPDFReal _ _).ennreal_ofReal
  have h0 := pi_withDensity' (fun _ : Pair K => (volume : Measure ℝ)) (fun _ => gammaPDF n.kappa η) fun _ => hm
  have mD : Measurable fun W : Pair K → ℝ => augW n η W := augW_meas.comp (f := fun W => (η, W)) (by fun_prop)
  have := lintegral_withDensity_eq_lintegral_mul (Measure.pi fun _ : Pair K => (volume : Measure ℝ)) mD hF
  simp only [Pi.mul_apply] at this
  rw [← this]
  unfold augW
  rw [← h0]
  rfl

include h hn in
theorem AugSys.w_step (z : Z) {A : Pair K → ℝ} (hA : ∀ e, A e = 0 ∨ A e = 1) {η : ℝ} (hη : 0 < η) :
    BayesStep (Measure.pi fun _ : Pair K => gammaMeasure n.kappa η) (fun W => S.xFac A W z) (Measure.pi fun _ : Pair K => μ) (S.w G n z η A) := by
  have hμ := gen_prob G
  have hP := isProbabilityMeasure_gammaMeasure hn.kappa hη
  exact BayesStep.pi (ι := Pair K) (X := fun _ => ℝ) (Y := fun _ => U) (ν := fun _ => gammaMeasure n.kappa η)
    (f := fun e x => ENNReal.ofReal ((A e * x) ^ S.via z e * Real.exp (-(A e * x * S.ev e.1)))) (μ := fun _ => μ)
    (s := fun e u => G.gam ⟨n.kappa + S.via z e, 1 / (η + S.ev e.1 * A e)⟩ u)
    (fun e => weight_step G (S.via z e) hn.kappa hη (h.ev_nonneg _) (hA e)) (fun e => by fun_prop) (fun k => gam_measurable G _)

include h hn in
theorem AugSys.weights_step (z : Z) {A : Pair K → ℝ} (hA : ∀ e, A e = 0 ∨ A e = 1) {η : ℝ} (hη : 0 < η) {R : (Pair K → ℝ) → ENNReal} (hR : Measurable R) :
    ∫⁻ W, augW n η W * (S.xFac A W z * R W) ∂Measure.pi (fun _ => volume)
      = (∫⁻ W, augW n η W * S.xFac A W z ∂Measure.pi (fun _ => volume)) * ∫⁻ y, R (S.w G n z η A y) ∂Measure.pi (fun _ => μ) := by
  have mX : Measurable fun W => S.xFac A W z := (AugSys.xFac_meas z).comp (f := fun W => (A, W)) (by fun_prop)
  rw [augW_conv hn hη (F := fun W => S.xFac A W z * R W) (mX.mul hR), augW_conv hn hη mX]
  refine (AugSys.w_step G h hn z hA hη).lintegral mX ?_ hR
  rw [measurable_pi_iff]; intro e; exact (gam_measurable G _).comp (measurable_pi_apply e)

include h hn in
theorem AugSys.scale_step (z : Z) {A : Pair K → ℝ} (hA : ∀ e, A e = 0 ∨ A e = 1) {R : ℝ → ENNReal} (hR : Measurable R) :
    ∫⁻ η, ∫⁻ W, augW n η W * (S.xFac A W z * ∫⁻ u, R (augV G n u η A W) ∂μ) ∂Measure.pi (fun _ => volume) ∂scalePrior n
      = ∫⁻ η, ∫⁻ W, augW n η W * (S.xFac A W z * R η) ∂Measure.pi (fun _ => volume) ∂scalePrior n := by
  have hμ := gen_prob G
  rcases aug_scale_cases G n hn with ⟨a, b, ha, hb, e, hv⟩ | ⟨e, hv⟩
  · rw [e]
    simp only [hv]
    have hs : ∀ W : Pair K → ℝ, (∑ e, if 0 < A e then W e else 0) = ∑ e, A e * W e := fun W => sum_congr rfl fun e _ => by
      rcases hA e with h | h <;> rw [h] <;> simp
    simp only [hs]
    exact scale_invariant G A hn.kappa ha hb hA (H := fun w => ∏ e, ENNReal.ofReal (w e ^ S.via z e * Real.exp (-(w e * S.ev e.1)))) (by fun_prop) hR
  · simp only [hv, lintegral_const, measure_univ, mul_one]

include G h hn in
theorem AugSys.prior_lintegral {F : AugTheta K Φ → ENNReal} (hF : Measurable F) :
    ∫⁻ θ, F θ ∂S.prior n = ∫⁻ A, ∫⁻ η, ∫⁻ W, ∫⁻ φ, augW n η W * F (A, η, W, φ) ∂S.ν ∂Measure.pi (fun _ => volume) ∂scalePrior n
      ∂Measure.pi (fun e : Pair K => coinLaw (n.P e.1 e.2)) := by
  have hP : ∀ e : Pair K, IsProbabilityMeasure (coinLaw (n.P e.1 e.2)) := fun e => coinLaw_prob (aug_P_mem hn e).1 (aug_P_mem hn e).2
  have := aug_scale_prob G hn
  have := h.ν_prob
  have mD : Measurable fun θ : AugTheta K Φ => augW n θ.2.1 θ.2.2.1 := augW_meas.comp (f := fun θ : AugTheta K Φ => (θ.2.1, θ.2.2.1)) (by fun_prop)
  unfold AugSys.prior
  change ∫⁻ θ, F θ ∂((Measure.pi fun e : Pair K => coinLaw (n.P e.1 e.2)).prod ((scalePrior n).prod ((Measure.pi fun _ => volume).prod S.ν))).withDensity
    (fun θ => augW n θ.2.1 θ.2.2.1) = _
  rw [lintegral_withDensity_eq_lintegral_mul _ mD hF]
  have mm : Measurable fun θ : AugTheta K Φ => augW n θ.2.1 θ.2.2.1 * F θ := mD.mul hF
  change ∫⁻ θ, augW n θ.2.1 θ.2.2.1 * F θ ∂_ = _
  rw [lintegral_prod _ mm.aemeasurable]
  refine lintegral_congr fun A => ?_
  have mA : Measurable fun θ : ℝ × (Pair K → ℝ) × Φ => augW n θ.1 θ.2.1 * F (A, θ) := mm.comp (f := fun θ => (A, θ)) (by fun_prop)
  rw [lintegral_prod _ mA.aemeasurable]
  refine lintegral_congr fun η => ?_
  have mη : Measurable fun θ : (Pair K → ℝ) × Φ => augW n η θ.1 * F (A, η, θ) := mA.comp (f := fun θ => (η, θ)) (by fun_prop)
  rw [lintegral_prod _ mη.aemeasurable]

theorem aug_lintegral_seeds {X1 X2 X4 X5 X6 : Type*} [MeasurableSpace X1] [MeasurableSpace X2] [MeasurableSpace X4] [MeasurableSpace X5] [MeasurableSpace X6]
    {a : Measure X1} {b : Measure X2} {d : Measure X4} {e : Measure X5} {f : Measure X6} [SFinite a] [SFinite b] [SFinite d] [SFinite e] [IsProbabilityMeasure f]
    {K : X1 × X2 × X4 × X5 → ENNReal} (hK : Measurable K) :
    ∫⁻ x, K (x.1, x.2.1, x.2.2.1, x.2.2.2.1) ∂a.prod (b.prod (d.prod (e.prod f))) = ∫⁻ x1, ∫⁻ y, ∫⁻ u, ∫⁻ w, K (x1, y, u, w) ∂e ∂d ∂b ∂a := by
  have m0 : Measurable fun x : X1 × X2 × X4 × X5 × X6 => K (x.1, x.2.1, x.2.2.1, x.2.2.2.1) := hK.comp (by fun_prop)
  rw [lintegral_prod _ m0.aemeasurable]
  refine lintegral_congr fun x1 => ?_
  have m1 : Measurable fun x : X2 × X4 × X5 × X6 => K (x1, x.1, x.2.1, x.2.2.1) := hK.comp (by fun_prop)
  rw [lintegral_prod _ m1.aemeasurable]
  refine lintegral_congr fun x2 => ?_
  have m3 : Measurable fun x : X4 × X5 × X6 => K (x1, x2, x.1, x.2.1) := hK.comp (by fun_prop)
  rw [lintegral_prod _ m3.aemeasurable]
  refine lintegral_congr fun x4 => ?_
  have m4 : Measurable fun x : X5 × X6 => K (x1, x2, x4, x.1) := hK.comp (by fun_prop)
  rw [lintegral_prod _ m4.aemeasurable]
  refine lintegral_congr fun x5 => ?_
  dsimp only
  rw [lintegral_const, measure_univ, mul_one]

include h hn in
/-- one call, apart from the adjacency update -/
theorem AugSys.global_invariant {T : AugTheta K Φ → ENNReal} (hT : Measurable T) :
    ∫⁻ θ, S.lik θ * ∫⁻ x, T (S.globalStep G n θ x) ∂S.seedLaw μ ∂S.prior n = ∫⁻ θ, S.lik θ * T θ ∂S.prior n := by
  have hμ := gen_prob G
  have hP : ∀ e : Pair K, IsProbabilityMeasure (coinLaw (n.P e.1 e.2)) := fun e => coinLaw_prob (aug_P_mem hn e).1 (aug_P_mem hn e).2
  have hS := aug_scale_prob G hn
  have hΦ := h.ν_prob
  have hXp := h.X_prob
  have hYp := h.Y_prob
  have hsl : IsProbabilityMeasure (S.seedLaw μ) := by unfold AugSys.seedLaw; infer_instance
  have mg : Measurable fun x : AugTheta K Φ × AugSeeds K U X Y => T (S.globalStep G n x.1 x.2) := hT.comp (AugSys.globalStep_meas G h)
  have mI : Measurable fun θ : AugTheta K Φ => ∫⁻ x, T (S.globalStep G n θ x) ∂S.seedLaw μ := mg.lintegral_prod_right'
  have mlik := AugSys.lik_meas h
  rw [AugSys.prior_lintegral G h hn (F := fun θ => S.lik θ * ∫⁻ x, T (S.globalStep G n θ x) ∂S.seedLaw μ) (mlik.mul mI), AugSys.prior_lintegral G h hn (F := fun θ => S.lik θ * T θ) (mlik.mul hT)]
  have hAW : ∀ A : Pair K → ℝ, (∀ e, A e = 0 ∨ A e = 1) → ∀ W : Pair K → ℝ, (∀ e, 0 ≤ W e) → ∀ e, 0 ≤ A e * W e := fun A hA W hW e => by
    rcases hA e with h | h <;> rw [h] <;> simp [hW e]
  have aug := augment_invariant (Z := Z) S.ν (scalePrior n) (Measure.pi (fun e : Pair K => coinLaw (n.P e.1 e.2))) (Measure.pi (fun _ : Pair K => (volume : Measure ℝ)))
    S.μY μ (Measure.pi fun _ : Pair K => μ)
    (fun η _ W => augW n η W) (fun φ A W => ENNReal.ofReal (S.L A W φ)) (fun φ A W z => S.kz φ A W z) S.fφ S.xFac
    S.sφ (fun u η A W => augV G n u η A W) (fun z η A y => S.w G n z η A y)
    (augW_meas.comp (f := fun x : ℝ × (Pair K → ℝ) × (Pair K → ℝ) => (x.1, x.2.2)) (by fun_prop))
    h.fφ_meas AugSys.xFac_meas h.sφ_meas (augV_meas G) (S.w_meas G)
    (by
      filter_upwards [aug_coins hn] with A hA
      refine Filter.Eventually.of_forall fun η W => ?_
      by_cases hW : ∀ e, 0 ≤ W e
      · filter_upwards [h.factor A W (hAW A hA W hW)] with φ hφ z
        rw [hφ]
      · refine Filter.Eventually.of_forall fun φ z => ?_
        rw [augW_neg hW, zero_mul, zero_mul])
    (by
      filter_upwards [aug_coins hn] with A hA
      refine Filter.Eventually.of_forall fun η W => ?_
      by_cases hW : ∀ e, 0 ≤ W e
      · filter_upwards [h.z_law A W (hAW A hA W hW)] with φ hφ
        have := hφ fun _ => 1
        rw [lintegral_one, measure_univ] at this
        simp only [mul_one] at this
        rw [← this, mul_one]
      · refine Filter.Eventually.of_forall fun φ => ?_
        rw [augW_neg hW, zero_mul])
    (fun z R hR => (h.phi_step z).lintegral (h.fφ_meas z) (h.sφ_meas z) hR)
    (fun z => by
      filter_upwards [aug_coins hn] with A hA R hR
      exact AugSys.scale_step G h hn z hA hR)
    (fun z => by
      filter_upwards [aug_coins hn] with A hA
      filter_upwards [aug_scale_pos G hn] with η hη R hR
      exact AugSys.weights_step G h hn z hA hη hR)
    (fun φ η A W => T (A, η, W, φ)) (hT.comp (f := fun x : Φ × ℝ × (Pair K → ℝ) × (Pair K → ℝ) => (x.2.2.1, x.2.1, x.2.2.2, x.1)) (by fun_prop))
  refine Eq.trans ?_ aug
  refine lintegral_congr_ae ?_
  filter_upwards [aug_coins hn] with A hA
  refine lintegral_congr fun η => lintegral_congr fun W => lintegral_congr_ae ?_
  by_cases hW : ∀ e, 0 ≤ W e
  · filter_upwards [h.z_law A W (hAW A hA W hW)] with φ hφ
    rw [← hφ]
    congr 2
    -- the integral over the seeds, iterated
    have m0 : Measurable fun x : AugSeeds K U X Y => T (S.globalStep G n (A, η, W, φ) x) := mg.comp (f := fun x => ((A, η, W, φ), x)) (by fun_prop)
    have ev : ∀ x : AugSeeds K U X Y, T (S.globalStep G n (A, η, W, φ) x) = T (S.globalStep G n (A, η, W, φ) (x.1, x.2.1, x.2.2.1, x.2.2.2.1, x.2.2.2.1)) := fun x => rfl
    simp only [AugSys.seedLaw]
    rw [lintegral_congr ev]
    rw [aug_lintegral_seeds (f := Measure.pi fun _ : Pair K => μ) (K := fun x => T (S.globalStep G n (A, η, W, φ) (x.1, x.2.1, x.2.2.1, x.2.2.2, x.2.2.2)))
      (m0.comp (f := fun x : X × Y × U × (Pair K → U) => (x.1, x.2.1, x.2.2.1, x.2.2.2, x.2.2.2)) (by fun_prop))]
    rfl
  · refine Filter.Eventually.of_forall fun φ => ?_
    dsimp only
    rw [augW_neg hW, zero_mul, zero_mul]

include h hn in
/-- the adjacency update -/
theorem AugSys.edges_invariant {T : AugTheta K Φ → ENNReal} (hT : Measurable T) :
    ∫⁻ θ, S.lik θ * ∫⁻ x, T (S.edgesStep G n θ x) ∂Measure.pi (fun _ => μ) ∂S.prior n = ∫⁻ θ, S.lik θ * T θ ∂S.prior n := by
  have hμ := gen_prob G
  have hP : ∀ e : Pair K, IsProbabilityMeasure (coinLaw (n.P e.1 e.2)) := fun e => coinLaw_prob (aug_P_mem hn e).1 (aug_P_mem hn e).2
  have hS := aug_scale_prob G hn
  have hΦ := h.ν_prob
  have mlik := AugSys.lik_meas h
  have mD : Measurable fun θ : AugTheta K Φ => augW n θ.2.1 θ.2.2.1 := augW_meas.comp (f := fun θ : AugTheta K Φ => (θ.2.1, θ.2.2.1)) (by fun_prop)
  have me : Measurable fun x : AugTheta K Φ × (Pair K → U) => T (S.edgesStep G n x.1 x.2) := hT.comp (AugSys.edgesStep_meas G h)
  have mI : Measurable fun θ : AugTheta K Φ => ∫⁻ x, T (S.edgesStep G n θ x) ∂Measure.pi (fun _ => μ) := me.lintegral_prod_right'
  have conv : ∀ F : AugTheta K Φ → ENNReal, Measurable F → ∫⁻ θ, F θ ∂S.prior n
      = ∫⁻ r, ∫⁻ A, augW n r.1 r.2.1 * F (A, r) ∂(Measure.pi fun e : Pair K => coinLaw (n.P e.1 e.2)) ∂(scalePrior n).prod ((Measure.pi fun _ : Pair K => volume).prod S.ν) := by
    intro F hF
    unfold AugSys.prior
    change ∫⁻ θ, F θ ∂((Measure.pi fun e : Pair K => coinLaw (n.P e.1 e.2)).prod ((scalePrior n).prod ((Measure.pi fun _ => volume).prod S.ν))).withDensity
      (fun θ => augW n θ.2.1 θ.2.2.1) = _
    rw [lintegral_withDensity_eq_lintegral_mul _ mD hF, lintegral_prod_symm _ (mD.mul hF).aemeasurable]
    rfl
  rw [conv (fun θ => S.lik θ * ∫⁻ x, T (S.edgesStep G n θ x) ∂Measure.pi (fun _ => μ)) (mlik.mul mI), conv (fun θ => S.lik θ * T θ) (mlik.mul hT)]
  refine lintegral_congr fun r => ?_
  have mL : Measurable fun A : Pair K → ℝ => S.L A r.2.1 r.2.2 := h.L_meas.comp (f := fun A => (A, r.2)) (by fun_prop)
  have mr : Measurable fun A : Pair K → ℝ => S.lik (A, r) * ∫⁻ x, T (S.edgesStep G n (A, r) x) ∂Measure.pi (fun _ => μ) := (mlik.mul mI).comp (f := fun A => (A, r)) (by fun_prop)
  have mr' : Measurable fun A : Pair K → ℝ => S.lik (A, r) * T (A, r) := (mlik.mul hT).comp (f := fun A => (A, r)) (by fun_prop)
  rw [lintegral_const_mul _ mr, lintegral_const_mul _ mr']
  congr 1
  exact sites_invariant G (p := fun e : Pair K => n.P e.1 e.2) (L := fun A => S.L A r.2.1 r.2.2) (aug_P_mem hn) mL (fun A => h.L_pos _ _ _) (pairList K) (nodup_pairList _)
    (T := fun A => T (A, r)) (hT.comp (by fun_prop))

include h hn in
theorem AugSys.sweep_invariant {T : AugTheta K Φ → ENNReal} (hT : Measurable T) :
    ∫⁻ θ, S.lik θ * ∫⁻ x, T (S.sweep G n θ x) ∂S.seedLaw μ ∂S.prior n = ∫⁻ θ, S.lik θ * T θ ∂S.prior n := by
  have hμ := gen_prob G
  have hXp := h.X_prob
  have hYp := h.Y_prob
  have me : Measurable fun x : AugTheta K Φ × (Pair K → U) => T (S.edgesStep G n x.1 x.2) := hT.comp (AugSys.edgesStep_meas G h)
  have mI : Measurable fun θ : AugTheta K Φ => ∫⁻ x, T (S.edgesStep G n θ x) ∂Measure.pi (fun _ => μ) := me.lintegral_prod_right'
  rw [← AugSys.edges_invariant G h hn hT, ← AugSys.global_invariant G h hn mI]
  refine lintegral_congr fun θ => ?_
  congr 1
  -- the seeds of the adjacency update are used nowhere else
  have key : ∀ F : AugSeeds K U X Y → ENNReal, Measurable F → ∫⁻ x, F x ∂S.seedLaw μ = ∫⁻ x, ∫⁻ t, F (x.1, x.2.1, x.2.2.1, x.2.2.2.1, t) ∂Measure.pi (fun _ => μ) ∂S.seedLaw μ := by
    intro F hF
    have b0 : Measurable fun x : AugSeeds K U X Y => ∫⁻ t, F (x.1, x.2.1, x.2.2.1, x.2.2.2.1, t) ∂Measure.pi (fun _ => μ) := by
      have : Measurable fun y : AugSeeds K U X Y × (Pair K → U) => F (y.1.1, y.1.2.1, y.1.2.2.1, y.1.2.2.2.1, y.2) := hF.comp (by fun_prop)
      exact this.lintegral_prod_right'
    unfold AugSys.seedLaw
    refine (lintegral_prod _ hF.aemeasurable).trans (Eq.trans ?_ (lintegral_prod _ b0.aemeasurable).symm)
    refine lintegral_congr fun x1 => ?_
    have a2 : Measurable fun x => F (x1, x) := hF.comp (f := fun x => (x1, x)) (by fun_prop)
    have b2 : Measurable fun x : Y × U × (Pair K → U) × (Pair K → U) => ∫⁻ t, F (x1, x.1, x.2.1, x.2.2.1, t) ∂Measure.pi (fun _ => μ) :=
      b0.comp (f := fun x => (x1, x)) (by fun_prop)
    refine (lintegral_prod _ a2.aemeasurable).trans (Eq.trans ?_ (lintegral_prod _ b2.aemeasurable).symm)
    refine lintegral_congr fun x2 => ?_
    have a3 : Measurable fun x => F (x1, x2, x) := hF.comp (f := fun x => (x1, x2, x)) (by fun_prop)
    have b3 : Measurable fun x : U × (Pair K → U) × (Pair K → U) => ∫⁻ t, F (x1, x2, x.1, x.2.1, t) ∂Measure.pi (fun _ => μ) :=
      b2.comp (f := fun x => (x2, x)) (by fun_prop)
    refine (lintegral_prod _ a3.aemeasurable).trans (Eq.trans ?_ (lintegral_prod _ b3.aemeasurable).symm)
    refine lintegral_congr fun x3 => ?_
    have a4 : Measurable fun x => F (x1, x2, x3, x) := hF.comp (f := fun x => (x1, x2, x3, x)) (by fun_prop)
    have b4 : Measurable fun x : (Pair K → U) × (Pair K → U) => ∫⁻ t, F (x1, x2, x3, x.1, t) ∂Measure.pi (fun _ => μ) :=
      b3.comp (f := fun x => (x3, x)) (by fun_prop)
    refine (lintegral_prod _ a4.aemeasurable).trans (Eq.trans ?_ (lintegral_prod _ b4.aemeasurable).symm)
    refine lintegral_congr fun x5 => ?_
    dsimp only
    rw [lintegral_const, measure_univ, mul_one]
  rw [key (fun x => T (S.sweep G n θ x)) (hT.comp ((AugSys.sweep_meas G h).comp (f := fun x => (θ, x)) (by fun_prop)))]
  rfl

include h hn in
/-- **Invariance of the posterior.** -/
theorem AugSys.posterior_map : ((S.posterior n).prod (S.seedLaw μ)).map (fun x => S.sweep G n x.1 x.2) = S.posterior n := by
  have hμ := gen_prob G
  have hXp := h.X_prob
  have hYp := h.Y_prob
  have hsl : IsProbabilityMeasure (S.seedLaw μ) := by unfold AugSys.seedLaw; infer_instance
  have hP : ∀ e : Pair K, IsProbabilityMeasure (coinLaw (n.P e.1 e.2)) := fun e => coinLaw_prob (aug_P_mem hn e).1 (aug_P_mem hn e).2
  have hS := aug_scale_prob G hn
  have hΦ := h.ν_prob
  have hpr : SFinite (S.prior n) := by unfold AugSys.prior; infer_instance
  have hps : SFinite (S.posterior n) := by unfold AugSys.posterior; infer_instance
  have mlik := AugSys.lik_meas h
  ext s hs
  have ms := AugSys.sweep_meas (n := n) G h
  rw [Measure.map_apply ms hs, ← lintegral_indicator_one (ms hs), lintegral_prod _ ((measurable_one.indicator (ms hs)).aemeasurable), ← lintegral_indicator_one hs]
  have e : ∀ θ x, ((fun x : AugTheta K Φ × AugSeeds K U X Y => S.sweep G n x.1 x.2) ⁻¹' s).indicator (1 : AugTheta K Φ × AugSeeds K U X Y → ENNReal) (θ, x)
      = s.indicator (1 : AugTheta K Φ → ENNReal) (S.sweep G n θ x) := fun θ x => rfl
  simp only [e]
  have mT : Measurable (s.indicator (1 : AugTheta K Φ → ENNReal)) := measurable_one.indicator hs
  have mI : Measurable fun θ : AugTheta K Φ => ∫⁻ x, s.indicator (1 : AugTheta K Φ → ENNReal) (S.sweep G n θ x) ∂S.seedLaw μ := (mT.comp ms).lintegral_prod_right'
  have conv : ∀ F : AugTheta K Φ → ENNReal, Measurable F → ∫⁻ θ, F θ ∂S.posterior n = (∫⁻ θ, S.lik θ ∂S.prior n)⁻¹ * ∫⁻ θ, S.lik θ * F θ ∂S.prior n := by
    intro F hF
    unfold AugSys.posterior
    rw [lintegral_smul_measure, lintegral_withDensity_eq_lintegral_mul _ mlik hF]
    rfl
  rw [conv _ mI, conv _ mT, AugSys.sweep_invariant G h hn mT]

/-! ### the posterior is a probability distribution -/

include G h hn in
theorem AugSys.prior_prob : IsProbabilityMeasure (S.prior n) := by
  have hμ := gen_prob G
  have hP : ∀ e : Pair K, IsProbabilityMeasure (coinLaw (n.P e.1 e.2)) := fun e => coinLaw_prob (aug_P_mem hn e).1 (aug_P_mem hn e).2
  have hS := aug_scale_prob G hn
  have hΦ := h.ν_prob
  refine ⟨?_⟩
  rw [← lintegral_one, AugSys.prior_lintegral G h hn measurable_const]
  have : ∀ᵐ η ∂scalePrior n, ∫⁻ W, ∫⁻ φ, augW n η W * 1 ∂S.ν ∂Measure.pi (fun _ : Pair K => volume) = 1 := by
    filter_upwards [aug_scale_pos G hn] with η hη
    have hg := isProbabilityMeasure_gammaMeasure hn.kappa hη
    have := augW_conv hn hη (F := fun _ : Pair K → ℝ => 1) measurable_const
    rw [lintegral_one, measure_univ] at this
    simp only [lintegral_const, measure_univ, mul_one] at this ⊢
    exact this
  simp only [lintegral_congr_ae this, lintegral_one, measure_univ]

include G h hn in
/-- finite evidence: only finitely many values of the latent variables are possible -/
theorem AugSys.proper (hfin : ∃ s : Finset Z, (∀ z ∉ s, ∀ φ, S.fφ φ z = 0) ∧ ∀ z ∈ s, ∀ e, S.via z e ≠ 0 → 1 ≤ S.ev e.1) :
    ∫⁻ θ, S.lik θ ∂S.prior n ≠ 0 ∧ ∫⁻ θ, S.lik θ ∂S.prior n ≠ ⊤ ∧ IsProbabilityMeasure (S.posterior n) := by
  have hμ := gen_prob G
  have hpr := AugSys.prior_prob G h hn
  have mlik := AugSys.lik_meas h
  have hS := aug_scale_prob G hn
  have hP : ∀ e : Pair K, IsProbabilityMeasure (coinLaw (n.P e.1 e.2)) := fun e => coinLaw_prob (aug_P_mem hn e).1 (aug_P_mem hn e).2
  have hΦ := h.ν_prob
  have hXp := h.X_prob
  have h0 : ∫⁻ θ, S.lik θ ∂S.prior n ≠ 0 := by
    rw [Ne, lintegral_eq_zero_iff mlik]
    intro hz
    have : ∀ᵐ θ ∂S.prior n, False := by
      filter_upwards [hz] with θ hθ
      have : (0 : ENNReal) < S.lik θ := ENNReal.ofReal_pos.2 (h.L_pos _ _ _)
      rw [hθ] at this
      exact lt_irrefl _ this
    rw [Filter.eventually_false_iff_eq_bot, ae_eq_bot] at this
    exact IsProbabilityMeasure.ne_zero (S.prior n) this
  obtain ⟨s, hs, hev⟩ := hfin
  have hbound : ∀ A : Pair K → ℝ, (∀ e, A e = 0 ∨ A e = 1) → ∀ η : ℝ, 0 < η →
      ∫⁻ W, ∫⁻ φ, augW n η W * S.lik (A, η, W, φ) ∂S.ν ∂Measure.pi (fun _ : Pair K => volume) = ∑ z ∈ s, (∫⁻ φ, S.fφ φ z ∂S.ν) * ∫⁻ W, augW n η W * S.xFac A W z ∂Measure.pi (fun _ : Pair K => volume) := by
    intro A hA η hη
    have e1 : ∀ W : Pair K → ℝ, ∫⁻ φ, augW n η W * S.lik (A, η, W, φ) ∂S.ν = ∑ z ∈ s, (∫⁻ φ, S.fφ φ z ∂S.ν) * (augW n η W * S.xFac A W z) := by
      intro W
      by_cases hW : ∀ e, 0 ≤ W e
      · have hAW : ∀ e, 0 ≤ A e * W e := fun e => by rcases hA e with h | h <;> rw [h] <;> simp [hW e]
        have : ∀ᵐ φ ∂S.ν, augW n η W * S.lik (A, η, W, φ) = ∑ z ∈ s, S.fφ φ z * (augW n η W * S.xFac A W z) := by
          filter_upwards [h.factor A W hAW, h.z_law A W hAW] with φ hf hl
          have h1 := hl fun _ => 1
          rw [lintegral_one, measure_univ] at h1
          simp only [mul_one] at h1
          have : S.lik (A, η, W, φ) = ∑' z, S.fφ φ z * S.xFac A W z := by
            rw [← tsum_congr hf, ENNReal.tsum_mul_left, ← h1, mul_one]; rfl
          rw [this, tsum_eq_sum (s := s) (fun z hz => by rw [hs z hz, zero_mul]), mul_sum]
          exact sum_congr rfl fun z _ => by ring
        rw [lintegral_congr_ae this, lintegral_finsetSum _ fun z _ => (h.fφ_meas z).mul_const _]
        exact sum_congr rfl fun z _ => lintegral_mul_const _ (h.fφ_meas z)
      · rw [augW_neg hW]; simp
    rw [lintegral_congr e1]
    have mW : Measurable fun W : Pair K → ℝ => augW n η W := augW_meas.comp (f := fun W => (η, W)) (by fun_prop)
    have mX : ∀ z, Measurable fun W => augW n η W * S.xFac A W z := fun z => mW.mul ((AugSys.xFac_meas z).comp (f := fun W => (A, W)) (by fun_prop))
    rw [lintegral_finsetSum _ fun z _ => (mX z).const_mul _]
    exact sum_congr rfl fun z _ => lintegral_const_mul _ (mX z)
  have hcoin : ∀ᵐ A ∂(Measure.pi fun e : Pair K => coinLaw (n.P e.1 e.2)), ∀ e, A e = 0 ∨ A e = 1 := aug_coins hn
  have hxb : ∀ A : Pair K → ℝ, (∀ e, A e = 0 ∨ A e = 1) → ∀ W : Pair K → ℝ, (∀ e, 0 ≤ W e) → ∀ z ∈ s, S.xFac A W z ≤ ∏ e : Pair K, ENNReal.ofReal ((S.via z e).factorial) := by
    intro A hA W hW z hz
    refine prod_le_prod' fun e _ => ENNReal.ofReal_le_ofReal ?_
    have hx : 0 ≤ A e * W e := by rcases hA e with h | h <;> rw [h] <;> simp [hW e]
    by_cases hv : S.via z e = 0
    · rw [hv, pow_zero, one_mul, Nat.factorial_zero, Nat.cast_one]
      exact Real.exp_le_one_iff.2 (neg_nonpos.2 (mul_nonneg hx (h.ev_nonneg _)))
    · have h1 := hev z hz e hv
      have h2 := Real.pow_div_factorial_le_exp _ hx (S.via z e)
      rw [div_le_iff₀ (by exact_mod_cast Nat.factorial_pos _)] at h2
      have h3 : Real.exp (-(A e * W e * S.ev e.1)) ≤ Real.exp (-(A e * W e)) := Real.exp_le_exp.2 (by nlinarith)
      calc _ ≤ (Real.exp (A e * W e) * (S.via z e).factorial) * Real.exp (-(A e * W e)) := mul_le_mul h2 h3 (Real.exp_pos _).le (by positivity)
        _ = _ := by rw [mul_right_comm, ← Real.exp_add, add_neg_cancel, Real.exp_zero, one_mul]
  have hT : ∫⁻ θ, S.lik θ ∂S.prior n ≠ ⊤ := by
    rw [AugSys.prior_lintegral G h hn mlik]
    set C : ENNReal := ∑ z ∈ s, (∫⁻ φ, S.fφ φ z ∂S.ν) * ∏ e : Pair K, ENNReal.ofReal ((S.via z e).factorial) with hC
    have hCt : C ≠ ⊤ := ENNReal.sum_ne_top.2 fun z _ => ENNReal.mul_ne_top (h.phi_step z).1 (ENNReal.prod_ne_top fun e _ => ENNReal.ofReal_ne_top)
    refine ne_top_of_le_ne_top hCt ?_
    have hle : ∀ᵐ A ∂(Measure.pi fun e : Pair K => coinLaw (n.P e.1 e.2)), ∫⁻ η, ∫⁻ W, ∫⁻ φ, augW n η W * S.lik (A, η, W, φ) ∂S.ν ∂Measure.pi (fun _ : Pair K => volume) ∂scalePrior n ≤ C := by
      filter_upwards [hcoin] with A hA
      have : ∀ᵐ η ∂scalePrior n, ∫⁻ W, ∫⁻ φ, augW n η W * S.lik (A, η, W, φ) ∂S.ν ∂Measure.pi (fun _ : Pair K => volume) ≤ C := by
        filter_upwards [aug_scale_pos G hn] with η hη
        rw [hbound A hA η hη, hC]
        refine sum_le_sum fun z hz => mul_le_mul_right ?_ _
        have hg := isProbabilityMeasure_gammaMeasure hn.kappa hη
        have hone := augW_conv hn hη (F := fun _ : Pair K → ℝ => 1) measurable_const
        rw [lintegral_one, measure_univ] at hone
        simp only [mul_one] at hone
        have mW : Measurable fun W : Pair K → ℝ => augW n η W := augW_meas.comp (f := fun W => (η, W)) (by fun_prop)
        calc _ ≤ ∫⁻ W : Pair K → ℝ, augW n η W * ∏ e : Pair K, ENNReal.ofReal ((S.via z e).factorial) ∂Measure.pi (fun _ : Pair K => volume) := by
              refine lintegral_mono fun W => ?_
              by_cases hW : ∀ e, 0 ≤ W e
              · exact mul_le_mul_right (hxb A hA W hW z hz) _
              · simp [augW_neg hW]
          _ = _ := by rw [lintegral_mul_const _ mW, hone, one_mul]
      refine (lintegral_mono_ae this).trans ?_
      rw [lintegral_const, measure_univ, mul_one]
    refine (lintegral_mono_ae hle).trans ?_
    rw [lintegral_const, measure_univ, mul_one]
  refine ⟨h0, hT, ⟨?_⟩⟩
  unfold AugSys.posterior
  rw [Measure.smul_apply, withDensity_apply _ MeasurableSet.univ, Measure.restrict_univ, smul_eq_mul, ENNReal.inv_mul_cancel h0 hT]

end

end PyHawkes
