import Verif.Props.MixPosterior
import Verif.Props.ChainSpace

/-!
# C85: the gamma-mixture posterior is a probability distribution, and the hypotheses of the theorems can be met
-/
set_option linter.unusedSectionVars false
set_option linter.unusedVariables false

namespace PyHawkes
open Finset Spec MeasureTheory ProbabilityTheory

section
variable {κ0 ν0 : ℝ} {c : HawkesState} {n : ERFixed}

theorem mixDens_integral (hκ0 : 0 < κ0) (hν0 : 0 < ν0) (h : CfgOk c n) {η : ℝ} (hη : 0 < η) (A : Pair c.base.K → ℝ) : ∫⁻ W, mixDens (c := c) κ0 ν0 n η A W ∂Measure.pi (fun _ => volume) = 1 := by
  unfold mixDens
  rw [lintegral_prod_pi (fun _ : Pair c.base.K => (volume : Measure ℝ)) (fun (e : Pair c.base.K) w => mixWeightPdf κ0 ν0 n.kappa η (A e) w) fun e =>
    (measurable_mixWeightPdf κ0 ν0 n.kappa).comp (f := fun w => (η, A e, w)) (by fun_prop)]
  exact prod_eq_one fun e _ => mixPdf_mass hκ0 hν0 h.net.kappa hη

theorem priorMix_prob (hκ0 : 0 < κ0) (hν0 : 0 < ν0) (h : CfgOk c n) : IsProbabilityMeasure (priorMix κ0 ν0 c n) := by
  obtain ⟨G⟩ := C83_generator_exists
  have hS := scale_prob G h
  have hΦ := phi_prob h
  have hB := mixBase_sfinite h
  have hP : ∀ e : Pair c.base.K, IsProbabilityMeasure (coinLaw (n.P e.1 e.2)) := fun e => coinLaw_prob (P_mem h e).1 (P_mem h e).2
  refine ⟨?_⟩
  rw [← lintegral_one, priorMix_lintegral G κ0 ν0 h measurable_const]
  simp only [mul_one]
  have m0 : Measurable fun y : ℝ × ((Pair c.base.K → ℝ) × (Pair c.base.K → ℝ)) × (Fin c.base.K → ℝ) × (Pair c.base.K → Vec ℝ) => mixDens (c := c) κ0 ν0 n y.1 y.2.1.1 y.2.1.2 :=
    (measurable_mixDens (n := n) (c := c) κ0 ν0).comp (f := fun y : ℝ × ((Pair c.base.K → ℝ) × (Pair c.base.K → ℝ)) × (Fin c.base.K → ℝ) × (Pair c.base.K → Vec ℝ) => (y.1, y.2.1.1, y.2.1.2)) (by fun_prop)
  rw [lintegral_prod _ m0.aemeasurable, ← measure_univ (μ := scalePrior n), ← lintegral_one]
  refine lintegral_congr_ae ?_
  filter_upwards [scale_pos G h] with η hη
  have m1 : Measurable fun y : ((Pair c.base.K → ℝ) × (Pair c.base.K → ℝ)) × (Fin c.base.K → ℝ) × (Pair c.base.K → Vec ℝ) => mixDens (c := c) κ0 ν0 n η y.1.1 y.1.2 := m0.comp (f := fun y => (η, y)) (by fun_prop)
  have m2 : Measurable fun X : (Pair c.base.K → ℝ) × (Pair c.base.K → ℝ) => mixDens (c := c) κ0 ν0 n η X.1 X.2 :=
    (measurable_mixDens (n := n) (c := c) κ0 ν0).comp (f := fun X : (Pair c.base.K → ℝ) × (Pair c.base.K → ℝ) => (η, X)) (by fun_prop)
  rw [lintegral_prod _ m1.aemeasurable]
  simp only [lintegral_const, measure_univ, mul_one]
  unfold mixBase
  rw [lintegral_prod _ m2.aemeasurable]
  simp only [mixDens_integral hκ0 hν0 h hη, lintegral_one, measure_univ]

theorem priorMix_valid (h : CfgOk c n) : ∀ᵐ θ ∂priorMix κ0 ν0 c n, ThetaOk c n θ := by
  obtain ⟨G⟩ := C83_generator_exists
  have hS := scale_prob G h
  have hΦ := phi_prob h
  have hB := mixBase_sfinite h
  have hP : ∀ e : Pair c.base.K, IsProbabilityMeasure (coinLaw (n.P e.1 e.2)) := fun e => coinLaw_prob (P_mem h e).1 (P_mem h e).2
  have hms := (measurableSet_thetaOk (c := c) (n := n)).compl
  rw [ae_iff, show {θ : Theta c.base.K | ¬ThetaOk c n θ} = {θ | ThetaOk c n θ}ᶜ from rfl, ← lintegral_indicator_one hms, priorMix_lintegral G κ0 ν0 h (measurable_one.indicator hms)]
  refine lintegral_eq_zero_of_ae_eq_zero ?_
  have hW0 : ∀ᵐ W ∂Measure.pi (fun _ : Pair c.base.K => (volume : Measure ℝ)), ∀ e, W e ≠ 0 :=
    ae_all_iff.2 fun e => (Measure.quasiMeasurePreserving_eval (fun _ : Pair c.base.K => (volume : Measure ℝ)) e).ae (Measure.ae_ne volume 0)
  have hW1 : ∀ᵐ X ∂mixBase c n, ∀ e, X.2 e ≠ 0 := Measure.quasiMeasurePreserving_snd.ae hW0
  have hA1 : ∀ᵐ X ∂mixBase c n, n.allowSelf = false → ∀ i, X.1 (i, i) = 0 := Measure.quasiMeasurePreserving_fst.ae (coins_self h)
  have b1 : ∀ᵐ y ∂(mixBase c n).prod (phiPrior c), (∀ e, y.1.2 e ≠ 0) ∧ (n.allowSelf = false → ∀ i, y.1.1 (i, i) = 0) ∧ (∀ e, y.1.1 e = 0 ∨ y.1.1 e = 1) :=
    Measure.quasiMeasurePreserving_fst.ae (hW1.and (hA1.and (mixBase_coins h)))
  have b2 : ∀ᵐ y ∂(mixBase c n).prod (phiPrior c), (∀ k, 0 < y.2.1 k) ∧ ∀ e, IsProb c.base.B (y.2.2 e) := Measure.quasiMeasurePreserving_snd.ae (dir_valid h)
  have c1 : ∀ᵐ y ∂(scalePrior n).prod ((mixBase c n).prod (phiPrior c)), 0 < y.1 := Measure.quasiMeasurePreserving_fst.ae (scale_pos G h)
  have c2 := (Measure.quasiMeasurePreserving_snd (μ := scalePrior n) (ν := (mixBase c n).prod (phiPrior c))).ae (b1.and b2)
  filter_upwards [c1, c2] with y hv hy
  by_cases hWp : ∀ e, 0 ≤ y.2.1.2 e
  · rw [Set.indicator_of_notMem, mul_zero]
    · rfl
    · exact fun hn => hn ⟨hy.1.2.2, hy.1.2.1, hv, fun e => lt_of_le_of_ne (hWp e) (Ne.symm (hy.1.1 e)), hy.2.1, hy.2.2⟩
  · rw [mixDens_neg hWp, zero_mul]; rfl

/-- **C85**: the posterior of the gamma-mixture model is a probability distribution (finite, nonzero evidence). -/
theorem C85_posterior_proper (hκ0 : 0 < κ0) (hν0 : 0 < ν0) (h : CfgOk c n) (hF : FilteredFromEvents c.base.K c.base.B c.data) :
    ∫⁻ θ, likelihoodMix c θ ∂priorMix κ0 ν0 c n ≠ 0 ∧ ∫⁻ θ, likelihoodMix c θ ∂priorMix κ0 ν0 c n ≠ ⊤ ∧ IsProbabilityMeasure (posteriorMix κ0 ν0 c n) := by
  have hpr := priorMix_prob hκ0 hν0 h
  have mlik := measurable_likelihoodMix (c := c) h.data
  have h0 : ∫⁻ θ, likelihoodMix c θ ∂priorMix κ0 ν0 c n ≠ 0 :=
    (lintegral_pos_of_ae _ (IsProbabilityMeasure.ne_zero _) mlik (Filter.Eventually.of_forall fun θ => ENNReal.ofReal_pos.2 (Real.exp_pos _))).ne'
  have hT : ∫⁻ θ, likelihoodMix c θ ∂priorMix κ0 ν0 c n ≠ ⊤ := by
    obtain ⟨C, hC⟩ := lik_bounded h hF
    refine ne_top_of_le_ne_top (b := ENNReal.ofReal C) ENNReal.ofReal_ne_top ?_
    calc ∫⁻ θ, likelihoodMix c θ ∂priorMix κ0 ν0 c n ≤ ∫⁻ θ, ENNReal.ofReal C ∂priorMix κ0 ν0 c n := by
          refine lintegral_mono_ae ?_
          filter_upwards [priorMix_valid h] with θ hθ
          exact ENNReal.ofReal_le_ofReal (hC (fun _ => 1) θ.2.2.1 θ.2.2.2.1 θ.2.2.2.2 (fun e => by rw [one_mul]; exact (hθ.W e).le) hθ.lam hθ.g)
      _ = ENNReal.ofReal C := by rw [lintegral_const, measure_univ, mul_one]
  refine ⟨h0, hT, ⟨?_⟩⟩
  unfold posteriorMix
  rw [Measure.smul_apply, withDensity_apply _ MeasurableSet.univ, Measure.restrict_univ, smul_eq_mul, ENNReal.inv_mul_cancel h0 hT]

theorem posteriorMix_valid (h : CfgOk c n) : ∀ᵐ θ ∂posteriorMix κ0 ν0 c n, ThetaOk c n θ :=
  ((Measure.smul_absolutelyContinuous).trans (withDensity_absolutelyContinuous _ _)).ae_le (priorMix_valid h)

/-- **Non-vacuity of C85**: the same for the gamma-mixture model. -/
theorem C85_hypotheses_met (hκ0 : 0 < κ0) (hν0 : 0 < ν0) (h : CfgOk c n) (hF : FilteredFromEvents c.base.K c.base.B c.data) (huge : ℝ) (b : ℕ → Bool) (d : StepDraws) :
    ∃ (Ω : Type) (_ : MeasurableSpace Ω) (Pr : Measure Ω) (_ : IsProbabilityMeasure Pr) (G : Generator (volume : Measure unitInterval)) (s : ℕ → Ω → HawkesState) (x : ℕ → Ω → Site → unitInterval),
      (∀ ω, SameModel c n (s 0 ω) ∧ HyperOk (s 0 ω) ∧ ParamsOk (s 0 ω)) ∧
      (∀ t ω s', resampleModelMix huge κ0 ν0 (b t) (G.draws c.base.K c.base.B d (x t ω)) (s t ω) = .ok s' → s (t + 1) ω = s') ∧
      (∀ t, FreshSeeds volume Pr (fun ω => (theta c.base.K (s 0 ω), fun i : Fin t => x i ω)) (x t)) ∧ HasLaw (fun ω => theta c.base.K (s 0 ω)) (posteriorMix κ0 ν0 c n) Pr := by
  obtain ⟨-, -, hpost⟩ := C85_posterior_proper hκ0 hν0 h hF
  obtain ⟨G⟩ := C83_generator_exists
  obtain ⟨Ω, i1, Pr, i2, θ, x, h1, h2, h3⟩ := fresh_chain (S := Site) (posteriorMix κ0 ν0 c n) measurableSet_thetaOk (posteriorMix_valid h)
  have ht : ∀ ω, theta c.base.K (stateOf c n (θ ω)) = θ ω := fun ω => theta_stateOf _
  refine ⟨Ω, i1, Pr, i2, G, fun t ω => Nat.rec (stateOf c n (θ ω)) (fun t st => match resampleModelMix huge κ0 ν0 (b t) (G.draws c.base.K c.base.B d (x t ω)) st with | .ok s' => s' | .error _ => st) t, x, fun ω => stateOf_ok h (h1 ω), ?_, ?_, ?_⟩
  · intro t ω s' hs'
    dsimp only at hs' ⊢
    rw [hs']
  · intro t
    simp only [Nat.rec_zero, ht]
    exact ⟨(h3 t).1, (h3 t).2.1, (h3 t).2.2⟩
  · simp only [Nat.rec_zero, ht]
    exact h2

/-- the default hyperparameters of the class (`models.py:1243`) on a two-process model with one data set -/
example : IsProbabilityMeasure (posteriorMix 0.1 1000 demoChainModel demoER) := (C85_posterior_proper (by norm_num) (by norm_num) demoChain_ok.1 demoChain_ok.2).2.2

end

end PyHawkes
