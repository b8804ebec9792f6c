import Verif.Props.AugSystem
import Verif.Props.BlockPosterior

/-!
# One sweep of a data-augmentation Gibbs sampler for a general random network (used for C83, C84)

As in `AugSystem`, but the network parameters `η` (edge probabilities, weight scales, block labels, ...) are arbitrary: `Q.P η e` is the probability of edge `e`, `Q.s η e` the rate of the gamma
distribution of its weight, and `Q.step` the code's update of `η` given adjacency matrix and weights.
-/
set_option linter.unusedSectionVars false
set_option linter.unusedVariables false

namespace PyHawkes
open Finset Spec MeasureTheory ProbabilityTheory

/-- adjacency matrix, network parameters, weights, further parameters -/
abbrev NetTheta (K : ℕ) (N Φ : Type*) := (Pair K → ℝ) × N × (Pair K → ℝ) × Φ

/-- seeds of the latent variables, the further parameters, the network, the weights, the adjacency update -/
abbrev NetSeeds (K : ℕ) (U V X Y : Type*) := X × Y × V × (Pair K → U) × (Pair K → U)

/-- counting measure of the 0/1 matrices -/
noncomputable def coins01 (K : ℕ) : Measure (Pair K → ℝ) := Measure.pi fun _ => Measure.dirac (0 : ℝ) + Measure.dirac 1

instance (K : ℕ) : SFinite (coins01 K) := by unfold coins01; infer_instance

theorem coins01_values (K : ℕ) : ∀ᵐ A ∂coins01 K, ∀ e, A e = 0 ∨ A e = 1 := by
  unfold coins01
  refine ae_all_iff.2 fun e => ?_
  refine (Measure.quasiMeasurePreserving_eval (fun _ : Pair K => Measure.dirac (0 : ℝ) + Measure.dirac 1) e).ae (p := fun t => t = 0 ∨ t = 1) ?_
  rw [ae_add_measure_iff, ae_dirac_iff, ae_dirac_iff]
  · exact ⟨.inl rfl, .inr rfl⟩
  all_goals exact (measurableSet_singleton (0 : ℝ)).union (measurableSet_singleton 1)

/-- a random network -/
structure NetSys (K : ℕ) (N V : Type*) [MeasurableSpace N] [MeasurableSpace V] where
  κ : ℝ
  ν : Measure N
  μV : Measure V
  P : N → Pair K → ℝ
  s : N → Pair K → ℝ
  step : V → N → (Pair K → ℝ) → (Pair K → ℝ) → N

section
variable {N V : Type*} [MeasurableSpace N] [MeasurableSpace V] {K : ℕ} (Q : NetSys K N V)

/-- probability of the adjacency matrix -/
noncomputable def NetSys.pA (η : N) (A : Pair K → ℝ) : ENNReal := ∏ e, edgePmf (Q.P η e) (A e)
/-- density of the weights -/
noncomputable def NetSys.pW (η : N) (W : Pair K → ℝ) : ENNReal := ∏ e, gammaPDF Q.κ (Q.s η e) (W e)
/-- both -/
noncomputable def NetSys.dens (η : N) (A W : Pair K → ℝ) : ENNReal := Q.pA η A * Q.pW η W

/-- the network update preserves the conditional distribution of the network parameters given the adjacency matrix and the weights of the present edges -/
structure NetSys.Ok : Prop where
  κ_pos : 0 < Q.κ
  ν_prob : IsProbabilityMeasure Q.ν
  V_prob : IsProbabilityMeasure Q.μV
  P_meas : Measurable Q.P
  s_meas : Measurable Q.s
  P_mem : ∀ᵐ η ∂Q.ν, ∀ e, 0 ≤ Q.P η e ∧ Q.P η e ≤ 1
  s_pos : ∀ᵐ η ∂Q.ν, ∀ e, 0 < Q.s η e
  step_meas : Measurable fun x : V × N × (Pair K → ℝ) × (Pair K → ℝ) => Q.step x.1 x.2.1 x.2.2.1 x.2.2.2
  step_inv : ∀ A : Pair K → ℝ, (∀ e, A e = 0 ∨ A e = 1) → ∀ H : (Pair K → ℝ) → ENNReal, Measurable H → ∀ R : N → ENNReal, Measurable R →
    ∫⁻ η, ∫⁻ W, Q.dens η A W * (H (fun e => A e * W e) * ∫⁻ u, R (Q.step u η A W) ∂Q.μV) ∂Measure.pi (fun _ => volume) ∂Q.ν
      = ∫⁻ η, ∫⁻ W, Q.dens η A W * (H (fun e => A e * W e) * R η) ∂Measure.pi (fun _ => volume) ∂Q.ν

variable {Q} (hQ : Q.Ok)

include hQ in
theorem NetSys.pA_meas : Measurable fun x : N × (Pair K → ℝ) => Q.pA x.1 x.2 := by
  unfold NetSys.pA
  refine Finset.measurable_prod _ fun e _ => measurable_edgePmf.comp (f := fun x : N × (Pair K → ℝ) => (Q.P x.1 e, x.2 e)) ?_
  exact ((measurable_pi_apply e).comp (hQ.P_meas.comp measurable_fst)).prodMk (by fun_prop)

include hQ in
theorem NetSys.pW_meas : Measurable fun x : N × (Pair K → ℝ) => Q.pW x.1 x.2 := by
  unfold NetSys.pW
  refine Finset.measurable_prod _ fun e _ => (measurable_gammaPDF' Q.κ).comp (f := fun x : N × (Pair K → ℝ) => (Q.s x.1 e, x.2 e)) ?_
  exact ((measurable_pi_apply e).comp (hQ.s_meas.comp measurable_fst)).prodMk (by fun_prop)

include hQ in
theorem NetSys.dens_meas : Measurable fun x : N × (Pair K → ℝ) × (Pair K → ℝ) => Q.dens x.1 x.2.1 x.2.2 := by
  unfold NetSys.dens
  exact ((NetSys.pA_meas hQ).comp (f := fun x : N × (Pair K → ℝ) × (Pair K → ℝ) => (x.1, x.2.1)) (by fun_prop)).mul
    ((NetSys.pW_meas hQ).comp (f := fun x : N × (Pair K → ℝ) × (Pair K → ℝ) => (x.1, x.2.2)) (by fun_prop))

theorem NetSys.dens_neg {η : N} {A W : Pair K → ℝ} (h : ¬ ∀ e, 0 ≤ W e) : Q.dens η A W = 0 := by
  push Not at h
  obtain ⟨e, he⟩ := h
  have : Q.pW η W = 0 := by
    refine prod_eq_zero (mem_univ e) ?_
    unfold gammaPDF
    rw [gammaPDFReal_zero_of_neg he, ENNReal.ofReal_zero]
  rw [NetSys.dens, this, mul_zero]

include hQ in
theorem NetSys.pW_conv {η : N} (hη : ∀ e, 0 < Q.s η e) {F : (Pair K → ℝ) → ENNReal} (hF : Measurable F) :
    ∫⁻ W, Q.pW η W * F W ∂Measure.pi (fun _ => volume) = ∫⁻ W, F W ∂Measure.pi fun e => gammaMeasure Q.κ (Q.s η e) := by
  have hP := fun e => isProbabilityMeasure_gammaMeasure hQ.κ_pos (hη e)
  have hP' : ∀ e, IsProbabilityMeasure ((volume : Measure ℝ).withDensity (gammaPDF Q.κ (Q.s η e))) := hP
  have hm : ∀ e, Measurable (gammaPDF Q.κ (Q.s η e)) := fun e => (measurable_gammaPDFReal _ _).ennreal_ofReal
  have h0 := pi_withDensity' (fun _ : Pair K => (volume : Measure ℝ)) (fun e => gammaPDF Q.κ (Q.s η e)) hm
  have mD : Measurable fun W : Pair K → ℝ => Q.pW η W := (NetSys.pW_meas hQ).comp (f := fun W => (η, W)) (by fun_prop)
  have := lintegral_withDensity_eq_lintegral_mul (Measure.pi fun _ : Pair K => (volume : Measure ℝ)) mD hF
  simp only [Pi.mul_apply] at this
  rw [← this]
  unfold NetSys.pW
  rw [← h0]
  rfl

theorem NetSys.pA_conv {η : N} (hη : ∀ e, 0 ≤ Q.P η e ∧ Q.P η e ≤ 1) {F : (Pair K → ℝ) → ENNReal} (hF : Measurable F) :
    ∫⁻ A, Q.pA η A * F A ∂coins01 K = ∫⁻ A, F A ∂Measure.pi fun e => coinLaw (Q.P η e) := by
  have hc : ∀ e, IsProbabilityMeasure (coinLaw (Q.P η e)) := fun e => coinLaw_prob (hη e).1 (hη e).2
  have hm : ∀ e, Measurable (edgePmf (Q.P η e)) := fun e => measurable_edgePmf.comp (f := fun a => (Q.P η e, a)) (by fun_prop)
  have hc' : ∀ e, IsProbabilityMeasure ((Measure.dirac (0 : ℝ) + Measure.dirac 1).withDensity (edgePmf (Q.P η e))) := fun e => by rw [coin_density]; exact hc e
  have e1 : Measure.pi (fun e : Pair K => coinLaw (Q.P η e)) = (coins01 K).withDensity fun A => Q.pA η A := by
    simp only [← coin_density]
    exact pi_withDensity' _ (fun e => edgePmf (Q.P η e)) hm
  have mA : Measurable fun A : Pair K → ℝ => Q.pA η A := Finset.measurable_prod _ fun e _ => (hm e).comp (measurable_pi_apply e)
  rw [e1, lintegral_withDensity_eq_lintegral_mul _ mA hF]
  rfl

end

section
variable {U V N Φ Z X Y : Type*} [MeasurableSpace U] [MeasurableSpace V] [MeasurableSpace N] [MeasurableSpace Φ] [MeasurableSpace Z] [MeasurableSpace X] [MeasurableSpace Y]
  {K : ℕ} (S : AugSys K Φ Z X Y) (Q : NetSys K N V)

/-- the prior of the parameters: network parameters, then the adjacency matrix and the weights given these, and the further parameters -/
noncomputable def netPrior : Measure (NetTheta K N Φ) :=
  ((coins01 K).prod (Q.ν.prod ((Measure.pi fun _ => volume).prod S.ν))).withDensity fun θ => Q.dens θ.2.1 θ.1 θ.2.2.1

noncomputable def netLik (θ : NetTheta K N Φ) : ENNReal := ENNReal.ofReal (S.L θ.1 θ.2.2.1 θ.2.2.2)

/-- the posterior -/
noncomputable def netPosterior : Measure (NetTheta K N Φ) := (∫⁻ θ, netLik S θ ∂netPrior S Q)⁻¹ • (netPrior S Q).withDensity (netLik S)

variable {μ : Measure U} (G : Generator μ)

/-- the new weights -/
noncomputable def netW (z : Z) (η : N) (A : Pair K → ℝ) (x : Pair K → U) : Pair K → ℝ := fun e => G.gam ⟨Q.κ + S.via z e, 1 / (Q.s η e + S.ev e.1 * A e)⟩ (x e)

/-- everything except the adjacency update -/
noncomputable def netGlobal (θ : NetTheta K N Φ) (x : NetSeeds K U V X Y) : NetTheta K N Φ :=
  let z := S.z θ.1 θ.2.2.1 θ.2.2.2 x.1
  let η := Q.step x.2.2.1 θ.2.1 θ.1 θ.2.2.1
  (θ.1, η, netW S Q G z η θ.1 x.2.2.2.1, S.sφ z x.2.1)

/-- the adjacency update -/
noncomputable def netEdges (θ : NetTheta K N Φ) (x : Pair K → U) : NetTheta K N Φ :=
  (sitesStep G (Q.P θ.2.1) (fun A => S.L A θ.2.2.1 θ.2.2.2) x (pairList K) θ.1, θ.2)

/-- one call -/
noncomputable def netSweep (θ : NetTheta K N Φ) (x : NetSeeds K U V X Y) : NetTheta K N Φ := netEdges S Q G (netGlobal S Q G θ x) x.2.2.2.2

/-- law of the seeds -/
noncomputable def netSeedLaw (μ : Measure U) : Measure (NetSeeds K U V X Y) := S.μX.prod (S.μY.prod (Q.μV.prod ((Measure.pi fun _ => μ).prod (Measure.pi fun _ => μ))))

variable {S Q} [Countable Z] [MeasurableSingletonClass Z] (h : S.Ok) (hQ : Q.Ok)

/-! ### measurability -/

include hQ in
theorem netW_meas (z : Z) : Measurable fun x : N × (Pair K → ℝ) × (Pair K → U) => netW S Q G z x.1 x.2.1 x.2.2 := by
  rw [measurable_pi_iff]; intro e
  have hs : Measurable fun x : N × (Pair K → ℝ) × (Pair K → U) => Q.s x.1 e := (measurable_pi_apply e).comp (hQ.s_meas.comp measurable_fst)
  exact G.gam_meas.comp (f := fun x : N × (Pair K → ℝ) × (Pair K → U) => ((Q.κ + S.via z e, 1 / (Q.s x.1 e + S.ev e.1 * x.2.1 e)), x.2.2 e)) (by fun_prop)

include h hQ in
theorem netGlobal_meas : Measurable fun x : NetTheta K N Φ × NetSeeds K U V X Y => netGlobal S Q G x.1 x.2 := by
  have hz : Measurable fun x : NetTheta K N Φ × NetSeeds K U V X Y => S.z x.1.1 x.1.2.2.1 x.1.2.2.2 x.2.1 :=
    h.z_meas.comp (f := fun x : NetTheta K N Φ × NetSeeds K U V X Y => ((x.1.1, x.1.2.2.1, x.1.2.2.2), x.2.1)) (by fun_prop)
  have hv : Measurable fun x : NetTheta K N Φ × NetSeeds K U V X Y => Q.step x.2.2.2.1 x.1.2.1 x.1.1 x.1.2.2.1 :=
    hQ.step_meas.comp (f := fun x : NetTheta K N Φ × NetSeeds K U V X Y => (x.2.2.2.1, x.1.2.1, x.1.1, x.1.2.2.1)) (by fun_prop)
  have hp : Measurable fun x : NetTheta K N Φ × NetSeeds K U V X Y => S.sφ (S.z x.1.1 x.1.2.2.1 x.1.2.2.2 x.2.1) x.2.2.1 :=
    (measurable_from_prod_countable_right (f := fun y : Z × Y => S.sφ y.1 y.2) fun z => h.sφ_meas z).comp
      (f := fun x : NetTheta K N Φ × NetSeeds K U V X Y => (S.z x.1.1 x.1.2.2.1 x.1.2.2.2 x.2.1, x.2.2.1)) (hz.prodMk (by fun_prop))
  have hw : Measurable fun x : NetTheta K N Φ × NetSeeds K U V X Y => netW S Q G (S.z x.1.1 x.1.2.2.1 x.1.2.2.2 x.2.1) (Q.step x.2.2.2.1 x.1.2.1 x.1.1 x.1.2.2.1) x.1.1 x.2.2.2.2.1 :=
    (measurable_from_prod_countable_right (f := fun y : Z × (N × (Pair K → ℝ) × (Pair K → U)) => netW S Q G y.1 y.2.1 y.2.2.1 y.2.2.2) fun z => netW_meas G hQ z).comp
      (f := fun x : NetTheta K N Φ × NetSeeds K U V X Y => (S.z x.1.1 x.1.2.2.1 x.1.2.2.2 x.2.1, (Q.step x.2.2.2.1 x.1.2.1 x.1.1 x.1.2.2.1, x.1.1, x.2.2.2.2.1)))
      (hz.prodMk (hv.prodMk (by fun_prop)))
  unfold netGlobal
  exact (measurable_fst.comp measurable_fst).prodMk (hv.prodMk (hw.prodMk hp))

include h hQ in
theorem netEdges_meas : Measurable fun x : NetTheta K N Φ × (Pair K → U) => netEdges S Q G x.1 x.2 := by
  unfold netEdges
  refine Measurable.prodMk ?_ (by fun_prop)
  have hL : Measurable fun x : (N × (Pair K → ℝ) × Φ) × (Pair K → ℝ) => S.L x.2 x.1.2.1 x.1.2.2 := h.L_meas.comp (f := fun x : (N × (Pair K → ℝ) × Φ) × (Pair K → ℝ) => (x.2, x.1.2)) (by fun_prop)
  have hp : Measurable fun x : N × (Pair K → ℝ) × Φ => Q.P x.1 := hQ.P_meas.comp measurable_fst
  exact (measurable_sitesStep_p G (L := fun (y : N × (Pair K → ℝ) × Φ) A => S.L A y.2.1 y.2.2) hL hp (pairList K)).comp
    (f := fun x : NetTheta K N Φ × (Pair K → U) => (x.1.2, x.2, x.1.1)) (by fun_prop)

include h in
theorem netLik_meas : Measurable (netLik (N := N) S) := (h.L_meas.comp (f := fun θ : NetTheta K N Φ => (θ.1, θ.2.2.1, θ.2.2.2)) (by fun_prop)).ennreal_ofReal

include h hQ in
theorem netSweep_meas : Measurable fun x : NetTheta K N Φ × NetSeeds K U V X Y => netSweep S Q G x.1 x.2 :=
  (netEdges_meas G h hQ).comp (f := fun x : NetTheta K N Φ × NetSeeds K U V X Y => (netGlobal S Q G x.1 x.2, x.2.2.2.2.2)) ((netGlobal_meas G h hQ).prodMk (by fun_prop))

/-! ### the updates -/

include h hQ in
theorem net_weights_step (z : Z) {A : Pair K → ℝ} (hA : ∀ e, A e = 0 ∨ A e = 1) {η : N} (hη : ∀ e, 0 < Q.s η e) {R : (Pair K → ℝ) → ENNReal} (hR : Measurable R) :
    ∫⁻ W, Q.dens η A W * (S.xFac A W z * R W) ∂Measure.pi (fun _ => volume)
      = (∫⁻ W, Q.dens η A W * S.xFac A W z ∂Measure.pi (fun _ => volume)) * ∫⁻ y, R (netW S Q G z η A y) ∂Measure.pi (fun _ => μ) := by
  have hμ := gen_prob G
  have hP := fun e => isProbabilityMeasure_gammaMeasure hQ.κ_pos (hη e)
  have mX : Measurable fun W => S.xFac A W z := (AugSys.xFac_meas z).comp (f := fun W => (A, W)) (by fun_prop)
  have mW : Measurable fun W : Pair K → ℝ => Q.pW η W := (NetSys.pW_meas hQ).comp (f := fun W => (η, W)) (by fun_prop)
  have hst : BayesStep (Measure.pi fun e : Pair K => gammaMeasure Q.κ (Q.s η e)) (fun W => S.xFac A W z) (Measure.pi fun _ : Pair K => μ) (netW S Q G z η A) :=
    BayesStep.pi (ι := Pair K) (X := fun _ => ℝ) (Y := fun _ => U) (ν := fun e => gammaMeasure Q.κ (Q.s η e))
      (f := fun e x => ENNReal.ofReal ((A e * x) ^ S.via z e * Real.exp (-(A e * x * S.ev e.1)))) (μ := fun _ => μ)
      (s := fun e u => G.gam ⟨Q.κ + S.via z e, 1 / (Q.s η e + S.ev e.1 * A e)⟩ u)
      (fun e => weight_step G (S.via z e) hQ.κ_pos (hη e) (h.ev_nonneg _) (hA e)) (fun e => by fun_prop) (fun k => gam_measurable G _)
  have key : ∫⁻ W, Q.pW η W * (S.xFac A W z * R W) ∂Measure.pi (fun _ => volume)
      = (∫⁻ W, Q.pW η W * S.xFac A W z ∂Measure.pi (fun _ => volume)) * ∫⁻ y, R (netW S Q G z η A y) ∂Measure.pi (fun _ => μ) := by
    rw [NetSys.pW_conv hQ hη (F := fun W => S.xFac A W z * R W) (mX.mul hR), NetSys.pW_conv hQ hη mX]
    refine hst.lintegral mX ?_ hR
    rw [measurable_pi_iff]; intro e; exact (gam_measurable G _).comp (measurable_pi_apply e)
  unfold NetSys.dens
  simp only [mul_assoc]
  have m1 : Measurable fun W : Pair K → ℝ => Q.pW η W * (S.xFac A W z * R W) := mW.mul (mX.mul hR)
  have m2 : Measurable fun W : Pair K → ℝ => Q.pW η W * S.xFac A W z := mW.mul mX
  rw [lintegral_const_mul _ m1, lintegral_const_mul _ m2, key, mul_assoc]

include h hQ in
theorem netPrior_lintegral {F : NetTheta K N Φ → ENNReal} (hF : Measurable F) :
    ∫⁻ θ, F θ ∂netPrior S Q = ∫⁻ A, ∫⁻ η, ∫⁻ W, ∫⁻ φ, Q.dens η A W * F (A, η, W, φ) ∂S.ν ∂Measure.pi (fun _ => volume) ∂Q.ν ∂coins01 K := by
  have := hQ.ν_prob
  have := h.ν_prob
  have mD : Measurable fun θ : NetTheta K N Φ => Q.dens θ.2.1 θ.1 θ.2.2.1 := (NetSys.dens_meas hQ).comp (f := fun θ : NetTheta K N Φ => (θ.2.1, θ.1, θ.2.2.1)) (by fun_prop)
  unfold netPrior
  rw [lintegral_withDensity_eq_lintegral_mul _ mD hF]
  have mm : Measurable fun θ : NetTheta K N Φ => Q.dens θ.2.1 θ.1 θ.2.2.1 * F θ := mD.mul hF
  change ∫⁻ θ, Q.dens θ.2.1 θ.1 θ.2.2.1 * F θ ∂_ = _
  rw [lintegral_prod _ mm.aemeasurable]
  refine lintegral_congr fun A => ?_
  have mA : Measurable fun θ : N × (Pair K → ℝ) × Φ => Q.dens θ.1 A θ.2.1 * F (A, θ) := mm.comp (f := fun θ => (A, θ)) (by fun_prop)
  rw [lintegral_prod _ mA.aemeasurable]
  refine lintegral_congr fun η => ?_
  have mη : Measurable fun θ : (Pair K → ℝ) × Φ => Q.dens η A θ.1 * F (A, η, θ) := mA.comp (f := fun θ => (η, θ)) (by fun_prop)
  rw [lintegral_prod _ mη.aemeasurable]

include h hQ in
/-- one call, apart from the adjacency update -/
theorem netGlobal_invariant {T : NetTheta K N Φ → ENNReal} (hT : Measurable T) :
    ∫⁻ θ, netLik S θ * ∫⁻ x, T (netGlobal S Q G θ x) ∂netSeedLaw S Q μ ∂netPrior S Q = ∫⁻ θ, netLik S θ * T θ ∂netPrior S Q := by
  have hμ := gen_prob G
  have hS := hQ.ν_prob
  have hV := hQ.V_prob
  have hΦ := h.ν_prob
  have hXp := h.X_prob
  have hYp := h.Y_prob
  have hsl : IsProbabilityMeasure (netSeedLaw S Q μ) := by unfold netSeedLaw; infer_instance
  have mg : Measurable fun x : NetTheta K N Φ × NetSeeds K U V X Y => T (netGlobal S Q G x.1 x.2) := hT.comp (netGlobal_meas G h hQ)
  have mI : Measurable fun θ : NetTheta K N Φ => ∫⁻ x, T (netGlobal S Q G θ x) ∂netSeedLaw S Q μ := mg.lintegral_prod_right'
  have mlik := netLik_meas (N := N) h
  rw [netPrior_lintegral h hQ (F := fun θ => netLik S θ * ∫⁻ x, T (netGlobal S Q G θ x) ∂netSeedLaw S Q μ) (mlik.mul mI), netPrior_lintegral h hQ (F := fun θ => netLik S θ * T θ) (mlik.mul hT)]
  have hAW : ∀ A : Pair K → ℝ, (∀ e, A e = 0 ∨ A e = 1) → ∀ W : Pair K → ℝ, (∀ e, 0 ≤ W e) → ∀ e, 0 ≤ A e * W e := fun A hA W hW e => by
    rcases hA e with h | h <;> rw [h] <;> simp [hW e]
  have aug := augment_invariant (Z := Z) S.ν Q.ν (coins01 K) (Measure.pi (fun _ : Pair K => (volume : Measure ℝ)))
    S.μY Q.μV (Measure.pi fun _ : Pair K => μ)
    (fun η A W => Q.dens η A W) (fun φ A W => ENNReal.ofReal (S.L A W φ)) (fun φ A W z => S.kz φ A W z) S.fφ S.xFac
    S.sφ (fun u η A W => Q.step u η A W) (fun z η A y => netW S Q G z η A y)
    (NetSys.dens_meas hQ)
    h.fφ_meas AugSys.xFac_meas h.sφ_meas hQ.step_meas (netW_meas G hQ)
    (by
      filter_upwards [coins01_values K] with A hA
      refine Filter.Eventually.of_forall fun η W => ?_
      by_cases hW : ∀ e, 0 ≤ W e
      · filter_upwards [h.factor A W (hAW A hA W hW)] with φ hφ z
        rw [hφ]
      · refine Filter.Eventually.of_forall fun φ z => ?_
        rw [NetSys.dens_neg hW, zero_mul, zero_mul])
    (by
      filter_upwards [coins01_values K] with A hA
      refine Filter.Eventually.of_forall fun η W => ?_
      by_cases hW : ∀ e, 0 ≤ W e
      · filter_upwards [h.z_law A W (hAW A hA W hW)] with φ hφ
        have := hφ fun _ => 1
        rw [lintegral_one, measure_univ] at this
        simp only [mul_one] at this
        rw [← this, mul_one]
      · refine Filter.Eventually.of_forall fun φ => ?_
        rw [NetSys.dens_neg hW, zero_mul])
    (fun z R hR => (h.phi_step z).lintegral (h.fφ_meas z) (h.sφ_meas z) hR)
    (fun z => by
      filter_upwards [coins01_values K] with A hA R hR
      exact hQ.step_inv A hA (fun w => ∏ e : Pair K, ENNReal.ofReal (w e ^ S.via z e * Real.exp (-(w e * S.ev e.1)))) (by fun_prop) R hR)
    (fun z => by
      filter_upwards [coins01_values K] with A hA
      filter_upwards [hQ.s_pos] with η hη R hR
      exact net_weights_step G h hQ z hA hη hR)
    (fun φ η A W => T (A, η, W, φ)) (hT.comp (f := fun x : Φ × N × (Pair K → ℝ) × (Pair K → ℝ) => (x.2.2.1, x.2.1, x.2.2.2, x.1)) (by fun_prop))
  refine Eq.trans ?_ aug
  refine lintegral_congr_ae ?_
  filter_upwards [coins01_values K] with A hA
  refine lintegral_congr fun η => lintegral_congr fun W => lintegral_congr_ae ?_
  by_cases hW : ∀ e, 0 ≤ W e
  · filter_upwards [h.z_law A W (hAW A hA W hW)] with φ hφ
    rw [← hφ]
    congr 2
    -- the integral over the seeds, iterated
    have m0 : Measurable fun x : NetSeeds K U V X Y => T (netGlobal S Q G (A, η, W, φ) x) := mg.comp (f := fun x => ((A, η, W, φ), x)) (by fun_prop)
    have ev : ∀ x : NetSeeds K U V X Y, T (netGlobal S Q G (A, η, W, φ) x) = T (netGlobal S Q G (A, η, W, φ) (x.1, x.2.1, x.2.2.1, x.2.2.2.1, x.2.2.2.1)) := fun x => rfl
    simp only [netSeedLaw]
    rw [lintegral_congr ev]
    rw [aug_lintegral_seeds (f := Measure.pi fun _ : Pair K => μ) (K := fun x => T (netGlobal S Q G (A, η, W, φ) (x.1, x.2.1, x.2.2.1, x.2.2.2, x.2.2.2)))
      (m0.comp (f := fun x : X × Y × V × (Pair K → U) => (x.1, x.2.1, x.2.2.1, x.2.2.2, x.2.2.2)) (by fun_prop))]
    rfl
  · refine Filter.Eventually.of_forall fun φ => ?_
    dsimp only
    rw [NetSys.dens_neg hW, zero_mul, zero_mul]

include h hQ in
/-- the adjacency update -/
theorem netEdges_invariant {T : NetTheta K N Φ → ENNReal} (hT : Measurable T) :
    ∫⁻ θ, netLik S θ * ∫⁻ x, T (netEdges S Q G θ x) ∂Measure.pi (fun _ => μ) ∂netPrior S Q = ∫⁻ θ, netLik S θ * T θ ∂netPrior S Q := by
  have hμ := gen_prob G
  have hS := hQ.ν_prob
  have hΦ := h.ν_prob
  have mlik := netLik_meas (N := N) h
  have mD : Measurable fun θ : NetTheta K N Φ => Q.dens θ.2.1 θ.1 θ.2.2.1 := (NetSys.dens_meas hQ).comp (f := fun θ : NetTheta K N Φ => (θ.2.1, θ.1, θ.2.2.1)) (by fun_prop)
  have me : Measurable fun x : NetTheta K N Φ × (Pair K → U) => T (netEdges S Q G x.1 x.2) := hT.comp (netEdges_meas G h hQ)
  have mI : Measurable fun θ : NetTheta K N Φ => ∫⁻ x, T (netEdges S Q G θ x) ∂Measure.pi (fun _ => μ) := me.lintegral_prod_right'
  have hP : ∀ᵐ r ∂Q.ν.prod ((Measure.pi fun _ : Pair K => (volume : Measure ℝ)).prod S.ν), ∀ e, 0 ≤ Q.P r.1 e ∧ Q.P r.1 e ≤ 1 :=
    (Measure.quasiMeasurePreserving_fst (μ := Q.ν) (ν := (Measure.pi fun _ : Pair K => (volume : Measure ℝ)).prod S.ν)).ae hQ.P_mem
  have conv : ∀ F : NetTheta K N Φ → ENNReal, Measurable F → ∫⁻ θ, F θ ∂netPrior S Q
      = ∫⁻ r, Q.pW r.1 r.2.1 * ∫⁻ A, F (A, r) ∂(Measure.pi fun e : Pair K => coinLaw (Q.P r.1 e)) ∂Q.ν.prod ((Measure.pi fun _ : Pair K => volume).prod S.ν) := by
    intro F hF
    unfold netPrior
    rw [lintegral_withDensity_eq_lintegral_mul _ mD hF, lintegral_prod_symm _ (mD.mul hF).aemeasurable]
    refine lintegral_congr_ae ?_
    filter_upwards [hP] with r hr
    have mF : Measurable fun A : Pair K → ℝ => F (A, r) := hF.comp (by fun_prop)
    have mA : Measurable fun A : Pair K → ℝ => Q.pA r.1 A := (NetSys.pA_meas hQ).comp (f := fun A => (r.1, A)) (by fun_prop)
    have m1 : Measurable fun A : Pair K → ℝ => Q.pA r.1 A * F (A, r) := mA.mul mF
    rw [← NetSys.pA_conv hr mF, ← lintegral_const_mul _ m1]
    refine lintegral_congr fun A => ?_
    simp only [Pi.mul_apply, NetSys.dens]
    ring
  rw [conv (fun θ => netLik S θ * ∫⁻ x, T (netEdges S Q G θ x) ∂Measure.pi (fun _ => μ)) (mlik.mul mI), conv (fun θ => netLik S θ * T θ) (mlik.mul hT)]
  refine lintegral_congr_ae ?_
  filter_upwards [hP] with r hr
  have mL : Measurable fun A : Pair K → ℝ => S.L A r.2.1 r.2.2 := h.L_meas.comp (f := fun A => (A, r.2)) (by fun_prop)
  congr 1
  exact sites_invariant G (p := Q.P r.1) (L := fun A => S.L A r.2.1 r.2.2) hr mL (fun A => h.L_pos _ _ _) (pairList K) (nodup_pairList _)
    (T := fun A => T (A, r)) (hT.comp (by fun_prop))

include h hQ in
theorem netSweep_invariant {T : NetTheta K N Φ → ENNReal} (hT : Measurable T) :
    ∫⁻ θ, netLik S θ * ∫⁻ x, T (netSweep S Q G θ x) ∂netSeedLaw S Q μ ∂netPrior S Q = ∫⁻ θ, netLik S θ * T θ ∂netPrior S Q := by
  have hμ := gen_prob G
  have hV := hQ.V_prob
  have hXp := h.X_prob
  have hYp := h.Y_prob
  have me : Measurable fun x : NetTheta K N Φ × (Pair K → U) => T (netEdges S Q G x.1 x.2) := hT.comp (netEdges_meas G h hQ)
  have mI : Measurable fun θ : NetTheta K N Φ => ∫⁻ x, T (netEdges S Q G θ x) ∂Measure.pi (fun _ => μ) := me.lintegral_prod_right'
  rw [← netEdges_invariant G h hQ hT, ← netGlobal_invariant G h hQ mI]
  refine lintegral_congr fun θ => ?_
  congr 1
  -- the seeds of the adjacency update are used nowhere else
  have key : ∀ F : NetSeeds K U V X Y → ENNReal, Measurable F → ∫⁻ x, F x ∂netSeedLaw S Q μ = ∫⁻ x, ∫⁻ t, F (x.1, x.2.1, x.2.2.1, x.2.2.2.1, t) ∂Measure.pi (fun _ => μ) ∂netSeedLaw S Q μ := by
    intro F hF
    have b0 : Measurable fun x : NetSeeds K U V X Y => ∫⁻ t, F (x.1, x.2.1, x.2.2.1, x.2.2.2.1, t) ∂Measure.pi (fun _ => μ) := by
      have : Measurable fun y : NetSeeds K U V X Y × (Pair K → U) => F (y.1.1, y.1.2.1, y.1.2.2.1, y.1.2.2.2.1, y.2) := hF.comp (by fun_prop)
      exact this.lintegral_prod_right'
    unfold netSeedLaw
    refine (lintegral_prod _ hF.aemeasurable).trans (Eq.trans ?_ (lintegral_prod _ b0.aemeasurable).symm)
    refine lintegral_congr fun x1 => ?_
    have a2 : Measurable fun x => F (x1, x) := hF.comp (f := fun x => (x1, x)) (by fun_prop)
    have b2 : Measurable fun x : Y × V × (Pair K → U) × (Pair K → U) => ∫⁻ t, F (x1, x.1, x.2.1, x.2.2.1, t) ∂Measure.pi (fun _ => μ) :=
      b0.comp (f := fun x => (x1, x)) (by fun_prop)
    refine (lintegral_prod _ a2.aemeasurable).trans (Eq.trans ?_ (lintegral_prod _ b2.aemeasurable).symm)
    refine lintegral_congr fun x2 => ?_
    have a3 : Measurable fun x => F (x1, x2, x) := hF.comp (f := fun x => (x1, x2, x)) (by fun_prop)
    have b3 : Measurable fun x : V × (Pair K → U) × (Pair K → U) => ∫⁻ t, F (x1, x2, x.1, x.2.1, t) ∂Measure.pi (fun _ => μ) :=
      b2.comp (f := fun x => (x2, x)) (by fun_prop)
    refine (lintegral_prod _ a3.aemeasurable).trans (Eq.trans ?_ (lintegral_prod _ b3.aemeasurable).symm)
    refine lintegral_congr fun x3 => ?_
    have a4 : Measurable fun x => F (x1, x2, x3, x) := hF.comp (f := fun x => (x1, x2, x3, x)) (by fun_prop)
    have b4 : Measurable fun x : (Pair K → U) × (Pair K → U) => ∫⁻ t, F (x1, x2, x3, x.1, t) ∂Measure.pi (fun _ => μ) :=
      b3.comp (f := fun x => (x3, x)) (by fun_prop)
    refine (lintegral_prod _ a4.aemeasurable).trans (Eq.trans ?_ (lintegral_prod _ b4.aemeasurable).symm)
    refine lintegral_congr fun x5 => ?_
    dsimp only
    rw [lintegral_const, measure_univ, mul_one]
  rw [key (fun x => T (netSweep S Q G θ x)) (hT.comp ((netSweep_meas G h hQ).comp (f := fun x => (θ, x)) (by fun_prop)))]
  rfl

include h hQ in
theorem netPrior_sfinite : SFinite (netPrior S Q) := by
  have hS := hQ.ν_prob
  have hΦ := h.ν_prob
  unfold netPrior; infer_instance

include h hQ in
/-- **Invariance of the posterior.** -/
theorem netPosterior_map : ((netPosterior S Q).prod (netSeedLaw S Q μ)).map (fun x => netSweep S Q G x.1 x.2) = netPosterior S Q := by
  have hμ := gen_prob G
  have hV := hQ.V_prob
  have hXp := h.X_prob
  have hYp := h.Y_prob
  have hsl : IsProbabilityMeasure (netSeedLaw S Q μ) := by unfold netSeedLaw; infer_instance
  have hpr := netPrior_sfinite h hQ
  have hps : SFinite (netPosterior S Q) := by unfold netPosterior; infer_instance
  have mlik := netLik_meas (N := N) h
  ext s hs
  have ms := netSweep_meas G h hQ
  rw [Measure.map_apply ms hs, ← lintegral_indicator_one (ms hs), lintegral_prod _ ((measurable_one.indicator (ms hs)).aemeasurable), ← lintegral_indicator_one hs]
  have e : ∀ θ x, ((fun x : NetTheta K N Φ × NetSeeds K U V X Y => netSweep S Q G x.1 x.2) ⁻¹' s).indicator (1 : NetTheta K N Φ × NetSeeds K U V X Y → ENNReal) (θ, x)
      = s.indicator (1 : NetTheta K N Φ → ENNReal) (netSweep S Q G θ x) := fun θ x => rfl
  simp only [e]
  have mT : Measurable (s.indicator (1 : NetTheta K N Φ → ENNReal)) := measurable_one.indicator hs
  have mI : Measurable fun θ : NetTheta K N Φ => ∫⁻ x, s.indicator (1 : NetTheta K N Φ → ENNReal) (netSweep S Q G θ x) ∂netSeedLaw S Q μ := (mT.comp ms).lintegral_prod_right'
  have conv : ∀ F : NetTheta K N Φ → ENNReal, Measurable F → ∫⁻ θ, F θ ∂netPosterior S Q = (∫⁻ θ, netLik S θ ∂netPrior S Q)⁻¹ * ∫⁻ θ, netLik S θ * F θ ∂netPrior S Q := by
    intro F hF
    unfold netPosterior
    rw [lintegral_smul_measure, lintegral_withDensity_eq_lintegral_mul _ mlik hF]
    rfl
  rw [conv _ mI, conv _ mT, netSweep_invariant G h hQ mT]

/-! ### the posterior is a probability distribution -/

include h hQ in
/-- for a given network, adjacency matrix and weights are a probability distribution -/
theorem net_dens_one : ∀ᵐ η ∂Q.ν, ∫⁻ A, ∫⁻ W, Q.dens η A W ∂Measure.pi (fun _ => volume) ∂coins01 K = 1 := by
  filter_upwards [hQ.P_mem, hQ.s_pos] with η hp hs
  have hg := fun e => isProbabilityMeasure_gammaMeasure hQ.κ_pos (hs e)
  have hc : ∀ e, IsProbabilityMeasure (coinLaw (Q.P η e)) := fun e => coinLaw_prob (hp e).1 (hp e).2
  have mW : Measurable fun W : Pair K → ℝ => Q.pW η W := (NetSys.pW_meas hQ).comp (f := fun W => (η, W)) (by fun_prop)
  have hone : ∫⁻ W, Q.pW η W ∂Measure.pi (fun _ : Pair K => volume) = 1 := by
    have := NetSys.pW_conv hQ hs (F := fun _ => 1) measurable_const
    rw [lintegral_one, measure_univ] at this
    simpa only [mul_one] using this
  have hA := NetSys.pA_conv hp (F := fun _ : Pair K → ℝ => 1) measurable_const
  rw [lintegral_one, measure_univ] at hA
  unfold NetSys.dens
  simp only [lintegral_const_mul _ mW, hone]
  exact hA

include h hQ in
theorem netPrior_prob : IsProbabilityMeasure (netPrior S Q) := by
  have hS := hQ.ν_prob
  have hΦ := h.ν_prob
  refine ⟨?_⟩
  rw [← lintegral_one, netPrior_lintegral h hQ measurable_const]
  simp only [lintegral_const, measure_univ, mul_one]
  have m : Measurable fun x : (Pair K → ℝ) × N => ∫⁻ W, Q.dens x.2 x.1 W ∂Measure.pi (fun _ : Pair K => (volume : Measure ℝ)) :=
    Measurable.lintegral_prod_right' (f := fun y : ((Pair K → ℝ) × N) × (Pair K → ℝ) => Q.dens y.1.2 y.1.1 y.2)
      ((NetSys.dens_meas hQ).comp (f := fun y : ((Pair K → ℝ) × N) × (Pair K → ℝ) => (y.1.2, y.1.1, y.2)) (by fun_prop))
  rw [lintegral_lintegral_swap m.aemeasurable, lintegral_congr_ae (net_dens_one h hQ), lintegral_one, measure_univ]

include h hQ in
theorem netPrior_coins : ∀ᵐ θ ∂netPrior S Q, (∀ e, θ.1 e = 0 ∨ θ.1 e = 1) ∧ ∀ e, 0 ≤ θ.2.2.1 e := by
  have hS := hQ.ν_prob
  have hΦ := h.ν_prob
  have mD : Measurable fun θ : NetTheta K N Φ => Q.dens θ.2.1 θ.1 θ.2.2.1 := (NetSys.dens_meas hQ).comp (f := fun θ : NetTheta K N Φ => (θ.2.1, θ.1, θ.2.2.1)) (by fun_prop)
  unfold netPrior
  rw [ae_withDensity_iff mD]
  filter_upwards [(Measure.quasiMeasurePreserving_fst (μ := coins01 K) (ν := Q.ν.prod ((Measure.pi fun _ : Pair K => (volume : Measure ℝ)).prod S.ν))).ae (coins01_values K)] with θ hθ hd
  refine ⟨hθ, ?_⟩
  by_contra hc
  exact hd (NetSys.dens_neg hc)

include h hQ in
/-- the evidence is finite if the likelihood is bounded -/
theorem net_proper {C : ENNReal} (hC : C ≠ ⊤) (hb : ∀ᵐ θ ∂netPrior S Q, netLik S θ ≤ C) :
    ∫⁻ θ, netLik S θ ∂netPrior S Q ≠ 0 ∧ ∫⁻ θ, netLik S θ ∂netPrior S Q ≠ ⊤ ∧ IsProbabilityMeasure (netPosterior S Q) := by
  have hpr := netPrior_prob h hQ
  have mlik := netLik_meas (N := N) h
  have h0 : ∫⁻ θ, netLik S θ ∂netPrior S Q ≠ 0 := by
    rw [Ne, lintegral_eq_zero_iff mlik]
    intro hz
    have : ∀ᵐ θ ∂netPrior S Q, False := by
      filter_upwards [hz] with θ hθ
      have : (0 : ENNReal) < netLik S θ := ENNReal.ofReal_pos.2 (h.L_pos _ _ _)
      rw [hθ] at this
      exact lt_irrefl _ this
    rw [Filter.eventually_false_iff_eq_bot, ae_eq_bot] at this
    exact IsProbabilityMeasure.ne_zero (netPrior S Q) this
  have hT : ∫⁻ θ, netLik S θ ∂netPrior S Q ≠ ⊤ := by
    refine ne_top_of_le_ne_top hC ((lintegral_mono_ae hb).trans ?_)
    rw [lintegral_const, measure_univ, mul_one]
  refine ⟨h0, hT, ⟨?_⟩⟩
  unfold netPosterior
  rw [Measure.smul_apply, withDensity_apply _ MeasurableSet.univ, Measure.restrict_univ, smul_eq_mul, ENNReal.inv_mul_cancel h0 hT]

include h hQ in
/-- the evidence is not zero -/
theorem net_evidence_pos : ∫⁻ θ, netLik S θ ∂netPrior S Q ≠ 0 := by
  have hpr := netPrior_prob h hQ
  have mlik := netLik_meas (N := N) h
  rw [Ne, lintegral_eq_zero_iff mlik]
  intro hz
  have : ∀ᵐ θ ∂netPrior S Q, False := by
    filter_upwards [hz] with θ hθ
    have : (0 : ENNReal) < netLik S θ := ENNReal.ofReal_pos.2 (h.L_pos _ _ _)
    rw [hθ] at this
    exact lt_irrefl _ this
  rw [Filter.eventually_false_iff_eq_bot, ae_eq_bot] at this
  exact IsProbabilityMeasure.ne_zero (netPrior S Q) this

include h hQ in
/-- finite evidence: only finitely many values of the latent variables are possible -/
theorem net_proper_fin (hfin : ∃ s : Finset Z, (∀ z ∉ s, ∀ φ, S.fφ φ z = 0) ∧ ∀ z ∈ s, ∀ e, S.via z e ≠ 0 → 1 ≤ S.ev e.1) :
    ∫⁻ θ, netLik S θ ∂netPrior S Q ≠ 0 ∧ ∫⁻ θ, netLik S θ ∂netPrior S Q ≠ ⊤ ∧ IsProbabilityMeasure (netPosterior S Q) := by
  have hpr := netPrior_prob h hQ
  have mlik := netLik_meas (N := N) h
  have hΦ := h.ν_prob
  have hXp := h.X_prob
  have h0 := net_evidence_pos h hQ
  obtain ⟨s, hs, hev⟩ := hfin
  set C : ENNReal := ∑ z ∈ s, (∫⁻ φ, S.fφ φ z ∂S.ν) * ∏ e : Pair K, ENNReal.ofReal ((S.via z e).factorial) with hC
  have hCt : C ≠ ⊤ := ENNReal.sum_ne_top.2 fun z _ => ENNReal.mul_ne_top (h.phi_step z).1 (ENNReal.prod_ne_top fun e _ => ENNReal.ofReal_ne_top)
  have hxb : ∀ A : Pair K → ℝ, (∀ e, A e = 0 ∨ A e = 1) → ∀ W : Pair K → ℝ, (∀ e, 0 ≤ W e) → ∀ z ∈ s, S.xFac A W z ≤ ∏ e : Pair K, ENNReal.ofReal ((S.via z e).factorial) := by
    intro A hA W hW z hz
    refine prod_le_prod' fun e _ => ENNReal.ofReal_le_ofReal ?_
    have hx : 0 ≤ A e * W e := by rcases hA e with h | h <;> rw [h] <;> simp [hW e]
    by_cases hv : S.via z e = 0
    · rw [hv, pow_zero, one_mul, Nat.factorial_zero, Nat.cast_one]
      exact Real.exp_le_one_iff.2 (neg_nonpos.2 (mul_nonneg hx (h.ev_nonneg _)))
    · have h1 := hev z hz e hv
      have h2 := Real.pow_div_factorial_le_exp _ hx (S.via z e)
      rw [div_le_iff₀ (by exact_mod_cast Nat.factorial_pos _)] at h2
      have h3 : Real.exp (-(A e * W e * S.ev e.1)) ≤ Real.exp (-(A e * W e)) := Real.exp_le_exp.2 (by nlinarith)
      calc _ ≤ (Real.exp (A e * W e) * (S.via z e).factorial) * Real.exp (-(A e * W e)) := mul_le_mul h2 h3 (Real.exp_pos _).le (by positivity)
        _ = _ := by rw [mul_right_comm, ← Real.exp_add, add_neg_cancel, Real.exp_zero, one_mul]
  have hle : ∀ A : Pair K → ℝ, (∀ e, A e = 0 ∨ A e = 1) → ∀ (η : N) (W : Pair K → ℝ), ∫⁻ φ, Q.dens η A W * netLik S (A, η, W, φ) ∂S.ν ≤ ∫⁻ φ, Q.dens η A W * C ∂S.ν := by
    intro A hA η W
    rw [lintegral_const, measure_univ, mul_one]
    by_cases hW : ∀ e, 0 ≤ W e
    · have hAW : ∀ e, 0 ≤ A e * W e := fun e => by rcases hA e with h | h <;> rw [h] <;> simp [hW e]
      have : ∀ᵐ φ ∂S.ν, Q.dens η A W * netLik S (A, η, W, φ) = ∑ z ∈ s, S.fφ φ z * (Q.dens η A W * S.xFac A W z) := by
        filter_upwards [h.factor A W hAW, h.z_law A W hAW] with φ hf hl
        have h1 := hl fun _ => 1
        rw [lintegral_one, measure_univ] at h1
        simp only [mul_one] at h1
        have : netLik S (A, η, W, φ) = ∑' z, S.fφ φ z * S.xFac A W z := by
          rw [← tsum_congr hf, ENNReal.tsum_mul_left, ← h1, mul_one]; rfl
        rw [this, tsum_eq_sum (s := s) (fun z hz => by rw [hs z hz, zero_mul]), mul_sum]
        exact sum_congr rfl fun z _ => by ring
      rw [lintegral_congr_ae this, lintegral_finsetSum _ fun z _ => (h.fφ_meas z).mul_const _, hC, mul_sum]
      refine sum_le_sum fun z hz => ?_
      rw [lintegral_mul_const _ (h.fφ_meas z), mul_left_comm]
      exact mul_le_mul_right (mul_le_mul_right (hxb A hA W hW z hz) _) _
    · rw [NetSys.dens_neg hW]; simp
  have hT : ∫⁻ θ, netLik S θ ∂netPrior S Q ≠ ⊤ := by
    refine ne_top_of_le_ne_top hCt ?_
    have e0 : ∫⁻ θ, C ∂netPrior S Q = C := by rw [lintegral_const, measure_univ, mul_one]
    rw [netPrior_lintegral h hQ mlik, ← e0, netPrior_lintegral h hQ (F := fun _ => C) measurable_const]
    refine lintegral_mono_ae ?_
    filter_upwards [coins01_values K] with A hA
    exact lintegral_mono fun η => lintegral_mono fun W => hle A hA η W
  refine ⟨h0, hT, ⟨?_⟩⟩
  unfold netPosterior
  rw [Measure.smul_apply, withDensity_apply _ MeasurableSet.univ, Measure.restrict_univ, smul_eq_mul, ENNReal.inv_mul_cancel h0 hT]

end

end PyHawkes
