import Verif.Props.MixSweepMap
import Verif.Props.GibbsPosterior

/-!
# Without the clipping of the weights, the gamma-mixture model's sweep leaves the posterior invariant (used for C85)
-/
set_option linter.unusedSectionVars false
set_option linter.unusedVariables false

namespace PyHawkes
open Finset Spec MeasureTheory ProbabilityTheory

section
variable {U : Type*} [MeasurableSpace U] {μ : Measure U} (G : Generator μ) (κ0 ν0 : ℝ) {c : HawkesState} {n : ERFixed}

/-! ### measurability -/

theorem measurable_mixAOf (z : ZSp c) : Measurable fun x : ℝ × (Pair c.base.K → U) => mixAOf G κ0 ν0 c n z x.1 x.2 := by
  rw [measurable_pi_iff]; intro e
  exact (measurable_mixEdge G κ0 ν0 n.kappa (n.P e.1 e.2) (via z e) (evTotal c e.1)).comp (f := fun x : ℝ × (Pair c.base.K → U) => (x.1, x.2 e)) (by fun_prop)

theorem measurable_mixWOf (z : ZSp c) : Measurable fun x : ℝ × (Pair c.base.K → ℝ) × (Pair c.base.K → U) => mixWOf G κ0 ν0 c n z x.1 x.2.1 x.2.2 := by
  rw [measurable_pi_iff]; intro e
  exact (measurable_mixWeight G κ0 ν0 n.kappa (via z e) (evTotal c e.1)).comp (f := fun x : ℝ × (Pair c.base.K → ℝ) × (Pair c.base.K → U) => (x.1, x.2.1 e, x.2.2 e)) (by fun_prop)

/-- components and weights as a function of parents, scale and seeds -/
noncomputable def mixX (c : HawkesState) (n : ERFixed) (z : ZSp c) (v : ℝ) (y : (Pair c.base.K → U) × (Pair c.base.K → U)) : (Pair c.base.K → ℝ) × (Pair c.base.K → ℝ) :=
  (mixAOf G κ0 ν0 c n z v y.1, mixWOf G κ0 ν0 c n z v (mixAOf G κ0 ν0 c n z v y.1) y.2)

theorem measurable_mixX (z : ZSp c) : Measurable fun x : ℝ × ((Pair c.base.K → U) × (Pair c.base.K → U)) => mixX G κ0 ν0 c n z x.1 x.2 := by
  have h1 : Measurable fun x : ℝ × ((Pair c.base.K → U) × (Pair c.base.K → U)) => mixAOf G κ0 ν0 c n z x.1 x.2.1 :=
    (measurable_mixAOf G κ0 ν0 z).comp (f := fun x : ℝ × ((Pair c.base.K → U) × (Pair c.base.K → U)) => (x.1, x.2.1)) (by fun_prop)
  exact h1.prodMk ((measurable_mixWOf G κ0 ν0 z).comp (f := fun x : ℝ × ((Pair c.base.K → U) × (Pair c.base.K → U)) => (x.1, mixAOf G κ0 ν0 c n z x.1 x.2.1, x.2.2)) (by fun_prop))

theorem measurable_mixZ : Measurable fun x : Theta c.base.K × Seeds c U => mixZ G c x.1 x.2 :=
  (measurable_zOf G c).comp (f := fun x : Theta c.base.K × Seeds c U => (((fun _ => 1), x.1.2.2.1, x.1.2.2.2.1, x.1.2.2.2.2), x.2.1)) (by fun_prop)

theorem measurable_mixAW : Measurable fun x : Theta c.base.K × Seeds c U => mixAW G κ0 ν0 c n x.1 x.2 :=
  (measurable_from_prod_countable_right (f := fun y : ZSp c × (ℝ × ((Pair c.base.K → U) × (Pair c.base.K → U))) => mixX G κ0 ν0 c n y.1 y.2.1 y.2.2) fun z => measurable_mixX G κ0 ν0 z).comp
    (f := fun x : Theta c.base.K × Seeds c U => (mixZ G c x.1 x.2, (x.1.2.1, (x.2.2.2.2.2.2, x.2.2.2.2.2.1)))) ((measurable_mixZ G).prodMk (by fun_prop))

theorem measurable_mixBody {clip : ℝ → ℝ} (hc : Measurable clip) : Measurable fun x : Theta c.base.K × Seeds c U => mixBody G κ0 ν0 c n clip x.1 x.2 := by
  have hz := measurable_mixZ G (c := c)
  have hX := measurable_mixAW G κ0 ν0 (c := c) (n := n)
  have hl : Measurable fun x : Theta c.base.K × Seeds c U => lamOf G c (mixZ G c x.1 x.2) x.2.2.1 :=
    (measurable_from_prod_countable_right (f := fun y : ZSp c × (Fin c.base.K → U) => lamOf G c y.1 y.2) fun z => measurable_lamOf G c z).comp
      (f := fun x : Theta c.base.K × Seeds c U => (mixZ G c x.1 x.2, x.2.2.1)) (hz.prodMk (by fun_prop))
  have hg : Measurable fun x : Theta c.base.K × Seeds c U => gOf G c (mixZ G c x.1 x.2) x.2.2.2.1 :=
    (measurable_from_prod_countable_right (f := fun y : ZSp c × (Pair c.base.K → U) => gOf G c y.1 y.2) fun z => measurable_gOf G c z).comp
      (f := fun x : Theta c.base.K × Seeds c U => (mixZ G c x.1 x.2, x.2.2.2.1)) (hz.prodMk (by fun_prop))
  unfold mixBody
  refine (measurable_fst.comp hX).prodMk (Measurable.prodMk (by fun_prop) (Measurable.prodMk ?_ (hl.prodMk hg)))
  rw [measurable_pi_iff]; intro e
  exact hc.comp ((measurable_pi_apply e).comp (measurable_snd.comp hX))

theorem measurable_mixNet (b : Bool) : Measurable fun x : Theta c.base.K × U => mixNet G c n b x.1 x.2 := by
  unfold mixNet
  refine Measurable.prodMk (by fun_prop) (Measurable.prodMk ?_ (by fun_prop))
  cases b
  · simp only [Bool.false_eq_true, if_false]; fun_prop
  · simp only [if_true]
    exact (measurable_vOf G c n).comp (f := fun x : Theta c.base.K × U => (x.2, x.1.2.1, x.1.1, x.1.2.2.1)) (by fun_prop)

theorem measurable_mixSweep {clip : ℝ → ℝ} (hc : Measurable clip) (b : Bool) : Measurable fun x : Theta c.base.K × Seeds c U => mixSweep G κ0 ν0 c n clip b x.1 x.2 :=
  (measurable_mixNet G b).comp (f := fun x : Theta c.base.K × Seeds c U => (mixBody G κ0 ν0 c n clip x.1 x.2, x.2.2.2.2.1)) ((measurable_mixBody G κ0 ν0 hc).prodMk (by fun_prop))

theorem measurable_likelihoodMix (hD : ∀ D ∈ c.data, DataOk c.base.K c.base.B D) : Measurable (likelihoodMix c) := by
  have := (measurable_likR c hD).comp (f := fun θ : Theta c.base.K => ((fun _ => 1), θ.2.2.1, θ.2.2.2.1, θ.2.2.2.2)) (by fun_prop)
  exact this.ennreal_ofReal

/-! ### the prior as an iterated integral -/

/-- components and weights: base measure -/
noncomputable def mixBase (c : HawkesState) (n : ERFixed) : Measure ((Pair c.base.K → ℝ) × (Pair c.base.K → ℝ)) :=
  (Measure.pi fun e : Pair c.base.K => coinLaw (n.P e.1 e.2)).prod (Measure.pi fun _ => volume)

theorem mixBase_sfinite (h : CfgOk c n) : SFinite (mixBase c n) := by
  have hP : ∀ e : Pair c.base.K, IsProbabilityMeasure (coinLaw (n.P e.1 e.2)) := fun e => coinLaw_prob (P_mem h e).1 (P_mem h e).2
  unfold mixBase; infer_instance

theorem mixBase_coins (h : CfgOk c n) : ∀ᵐ X ∂mixBase c n, ∀ e, X.1 e = 0 ∨ X.1 e = 1 := by
  have hP : ∀ e : Pair c.base.K, IsProbabilityMeasure (coinLaw (n.P e.1 e.2)) := fun e => coinLaw_prob (P_mem h e).1 (P_mem h e).2
  exact Measure.quasiMeasurePreserving_fst.ae (coins_values h)

include G in
theorem priorMix_lintegral (h : CfgOk c n) {F : Theta c.base.K → ENNReal} (hF : Measurable F) :
    ∫⁻ θ, F θ ∂priorMix κ0 ν0 c n = ∫⁻ y : ℝ × ((Pair c.base.K → ℝ) × (Pair c.base.K → ℝ)) × (Fin c.base.K → ℝ) × (Pair c.base.K → Vec ℝ), mixDens κ0 ν0 n y.1 y.2.1.1 y.2.1.2 * F (y.2.1.1, y.1, y.2.1.2, y.2.2) ∂(scalePrior n).prod ((mixBase c n).prod (phiPrior c)) := by
  have hP : ∀ e : Pair c.base.K, IsProbabilityMeasure (coinLaw (n.P e.1 e.2)) := fun e => coinLaw_prob (P_mem h e).1 (P_mem h e).2
  have := scale_prob G h
  have := phi_prob h
  have := mixBase_sfinite h
  have mD : Measurable fun θ : Theta c.base.K => mixDens (c := c) κ0 ν0 n θ.2.1 θ.1 θ.2.2.1 := (measurable_mixDens κ0 ν0).comp (f := fun θ : Theta c.base.K => (θ.2.1, θ.1, θ.2.2.1)) (by fun_prop)
  unfold priorMix
  change ∫⁻ θ, F θ ∂((Measure.pi fun e : Pair c.base.K => coinLaw (n.P e.1 e.2)).prod ((scalePrior n).prod ((Measure.pi fun _ => volume).prod (phiPrior c)))).withDensity
    (fun θ => mixDens κ0 ν0 n θ.2.1 θ.1 θ.2.2.1) = _
  rw [lintegral_withDensity_eq_lintegral_mul _ mD hF]
  have mm : Measurable fun θ : Theta c.base.K => mixDens κ0 ν0 n θ.2.1 θ.1 θ.2.2.1 * F θ := mD.mul hF
  set M : Theta c.base.K → ENNReal := fun θ => mixDens κ0 ν0 n θ.2.1 θ.1 θ.2.2.1 * F θ with hM
  change ∫⁻ θ, M θ ∂_ = ∫⁻ y : ℝ × ((Pair c.base.K → ℝ) × (Pair c.base.K → ℝ)) × (Fin c.base.K → ℝ) × (Pair c.base.K → Vec ℝ), M (y.2.1.1, y.1, y.2.1.2, y.2.2) ∂_
  have m1 : Measurable fun x : ℝ × ((Pair c.base.K → ℝ) × (Pair c.base.K → ℝ)) × (Fin c.base.K → ℝ) × (Pair c.base.K → Vec ℝ) => M (x.2.1.1, x.1, x.2.1.2, x.2.2) :=
    mm.comp (f := fun x : ℝ × ((Pair c.base.K → ℝ) × (Pair c.base.K → ℝ)) × (Fin c.base.K → ℝ) × (Pair c.base.K → Vec ℝ) => (x.2.1.1, x.1, x.2.1.2, x.2.2)) (by fun_prop)
  rw [lintegral_prod _ mm.aemeasurable, lintegral_prod _ m1.aemeasurable]
  have e1 : ∀ A : Pair c.base.K → ℝ, ∫⁻ y, M (A, y) ∂(scalePrior n).prod ((Measure.pi fun _ => volume).prod (phiPrior c))
      = ∫⁻ η, ∫⁻ r, M (A, η, r) ∂(Measure.pi fun _ => volume).prod (phiPrior c) ∂scalePrior n := fun A =>
    lintegral_prod _ (mm.comp (f := fun y => (A, y)) (by fun_prop)).aemeasurable
  simp only [e1]
  have mI : Measurable fun x : (Pair c.base.K → ℝ) × ℝ => ∫⁻ r, M (x.1, x.2, r) ∂(Measure.pi fun _ => volume).prod (phiPrior c) := by
    have : Measurable fun y : ((Pair c.base.K → ℝ) × ℝ) × (Pair c.base.K → ℝ) × (Fin c.base.K → ℝ) × (Pair c.base.K → Vec ℝ) => M (y.1.1, y.1.2, y.2) :=
      mm.comp (f := fun y : ((Pair c.base.K → ℝ) × ℝ) × (Pair c.base.K → ℝ) × (Fin c.base.K → ℝ) × (Pair c.base.K → Vec ℝ) => (y.1.1, y.1.2, y.2)) (by fun_prop)
    exact this.lintegral_prod_right'
  rw [lintegral_lintegral_swap mI.aemeasurable]
  refine lintegral_congr fun η => ?_
  have mη : Measurable fun y : ((Pair c.base.K → ℝ) × (Pair c.base.K → ℝ)) × (Fin c.base.K → ℝ) × (Pair c.base.K → Vec ℝ) => M (y.1.1, η, y.1.2, y.2) :=
    m1.comp (f := fun y => (η, y)) (by fun_prop)
  rw [lintegral_prod _ mη.aemeasurable]
  have mX : Measurable fun X : (Pair c.base.K → ℝ) × (Pair c.base.K → ℝ) => ∫⁻ φ, M (X.1, η, X.2, φ) ∂phiPrior c := mη.lintegral_prod_right'
  unfold mixBase
  rw [lintegral_prod _ mX.aemeasurable]
  refine lintegral_congr fun A => ?_
  exact lintegral_prod _ (mm.comp (f := fun y => (A, η, y)) (by fun_prop)).aemeasurable

/-! ### components and weights -/

theorem mix_weights_step (hκ0 : 0 < κ0) (hν0 : 0 < ν0) (h : CfgOk c n) (z : ZSp c) {η : ℝ} (hη : 0 < η) {R : (Pair c.base.K → ℝ) × (Pair c.base.K → ℝ) → ENNReal} (hR : Measurable R) :
    ∫⁻ X, mixDens κ0 ν0 n η X.1 X.2 * (xFacE (fun _ => 1) X.2 z * R X) ∂mixBase c n
      = (∫⁻ X, mixDens κ0 ν0 n η X.1 X.2 * xFacE (fun _ => 1) X.2 z ∂mixBase c n) * ∫⁻ y, R (mixX G κ0 ν0 c n z η y) ∂(Measure.pi fun _ => μ).prod (Measure.pi fun _ => μ) := by
  have hμ := gen_prob G
  have hP : ∀ e : Pair c.base.K, IsProbabilityMeasure (coinLaw (n.P e.1 e.2)) := fun e => coinLaw_prob (P_mem h e).1 (P_mem h e).2
  have mD : Measurable fun X : (Pair c.base.K → ℝ) × (Pair c.base.K → ℝ) => mixDens (c := c) κ0 ν0 n η X.1 X.2 := (measurable_mixDens κ0 ν0).comp (f := fun X => (η, X)) (by fun_prop)
  have mX : Measurable fun X : (Pair c.base.K → ℝ) × (Pair c.base.K → ℝ) => xFacE (c := c) (fun _ => 1) X.2 z :=
    (measurable_xFacE z).comp (f := fun X : (Pair c.base.K → ℝ) × (Pair c.base.K → ℝ) => ((fun _ => 1), X.2)) (by fun_prop)
  have st := BayesStep.pi (ι := Pair c.base.K) (X := fun _ => ℝ × ℝ) (Y := fun _ => U × U) (ν := fun e => (coinLaw (n.P e.1 e.2)).prod (volume : Measure ℝ))
    (f := fun e x => mixWeightPdf κ0 ν0 n.kappa η x.1 x.2 * ENNReal.ofReal (x.2 ^ via z e * Real.exp (-(x.2 * evTotal c e.1)))) (μ := fun _ => μ.prod μ)
    (s := fun e => mixPair G κ0 ν0 n.kappa η (n.P e.1 e.2) (via z e) (evTotal c e.1))
    (fun e => mix_edge_step G hκ0 hν0 h.net.kappa hη (P_mem h e).1 (P_mem h e).2 (ev_nonneg _) (via z e))
    (fun e => ((measurable_mixWeightPdf κ0 ν0 n.kappa).comp (f := fun x : ℝ × ℝ => (η, x)) (by fun_prop)).mul (by fun_prop))
    (fun e => (measurable_mixPair G κ0 ν0 n.kappa _ _ _).comp (f := fun y => (η, y)) (by fun_prop))
  have mf : Measurable fun x : Pair c.base.K → ℝ × ℝ => ∏ e, mixWeightPdf κ0 ν0 n.kappa η (x e).1 (x e).2 * ENNReal.ofReal ((x e).2 ^ via z e * Real.exp (-((x e).2 * evTotal c e.1))) := by
    refine Finset.measurable_prod _ fun e _ => Measurable.mul ?_ (by fun_prop)
    exact (measurable_mixWeightPdf κ0 ν0 n.kappa).comp (f := fun x : Pair c.base.K → ℝ × ℝ => (η, x e)) (by fun_prop)
  have ms : Measurable fun (y : Pair c.base.K → U × U) e => mixPair G κ0 ν0 n.kappa η (n.P e.1 e.2) (via z e) (evTotal c e.1) (y e) := by
    rw [measurable_pi_iff]; intro e
    exact (measurable_mixPair G κ0 ν0 n.kappa (n.P e.1 e.2) (via z e) (evTotal c e.1)).comp (f := fun y : Pair c.base.K → U × U => (η, y e)) (by fun_prop)
  have mR' : Measurable fun x : Pair c.base.K → ℝ × ℝ => R (fun e => (x e).1, fun e => (x e).2) := hR.comp (by fun_prop)
  have key := st.lintegral mf ms mR'
  have ef : ∀ x : Pair c.base.K → ℝ × ℝ, ∏ e, mixWeightPdf κ0 ν0 n.kappa η (x e).1 (x e).2 * ENNReal.ofReal ((x e).2 ^ via z e * Real.exp (-((x e).2 * evTotal c e.1)))
      = mixDens κ0 ν0 n η (fun e => (x e).1) (fun e => (x e).2) * xFacE (fun _ => 1) (fun e => (x e).2) z := by
    intro x
    unfold mixDens xFacE
    rw [prod_mul_distrib]
    simp only [one_mul]
  simp only [ef] at key
  have m1 : Measurable fun X : (Pair c.base.K → ℝ) × (Pair c.base.K → ℝ) => mixDens κ0 ν0 n η X.1 X.2 * (xFacE (c := c) (fun _ => 1) X.2 z * R X) := mD.mul (mX.mul hR)
  have m2 : Measurable fun X : (Pair c.base.K → ℝ) × (Pair c.base.K → ℝ) => mixDens κ0 ν0 n η X.1 X.2 * xFacE (c := c) (fun _ => 1) X.2 z := mD.mul mX
  have m3 : Measurable fun y => R (mixX G κ0 ν0 c n z η y) := hR.comp ((measurable_mixX G κ0 ν0 z).comp (f := fun y => (η, y)) (by fun_prop))
  unfold mixBase
  rw [lintegral_pairs (fun e : Pair c.base.K => coinLaw (n.P e.1 e.2)) (fun _ => volume) m1, lintegral_pairs (fun e : Pair c.base.K => coinLaw (n.P e.1 e.2)) (fun _ => volume) m2,
    lintegral_pairs (fun _ : Pair c.base.K => μ) (fun _ => μ) m3]
  refine Eq.trans ?_ key
  refine lintegral_congr fun x => ?_
  simp only [mul_assoc]

/-! ### integrals over the seeds -/

section
variable {X1 X2 X3 X4 X5 X6 : Type*} [MeasurableSpace X1] [MeasurableSpace X2] [MeasurableSpace X3] [MeasurableSpace X4] [MeasurableSpace X5] [MeasurableSpace X6]
    {a : Measure X1} {b : Measure X2} {g : Measure X3} {d : Measure X4} {e : Measure X5} {f : Measure X6} [SFinite a] [SFinite b] [SFinite g] [IsProbabilityMeasure d] [SFinite e] [SFinite f]

theorem lintegral_seeds_all {F : X1 × X2 × X3 × X4 × X5 × X6 → ENNReal} (hF : Measurable F) :
    ∫⁻ x, F x ∂a.prod (b.prod (g.prod (d.prod (e.prod f)))) = ∫⁻ x1, ∫⁻ x2, ∫⁻ x3, ∫⁻ x4, ∫⁻ y, F (x1, x2, x3, x4, y) ∂e.prod f ∂d ∂g ∂b ∂a := by
  rw [lintegral_prod _ hF.aemeasurable]
  refine lintegral_congr fun x1 => ?_
  have m1 : Measurable fun x => F (x1, x) := hF.comp (f := fun x => (x1, x)) (by fun_prop)
  refine (lintegral_prod _ m1.aemeasurable).trans ?_
  refine lintegral_congr fun x2 => ?_
  have m2 : Measurable fun x => F (x1, x2, x) := hF.comp (f := fun x => (x1, x2, x)) (by fun_prop)
  refine (lintegral_prod _ m2.aemeasurable).trans ?_
  refine lintegral_congr fun x3 => ?_
  have m3 : Measurable fun x => F (x1, x2, x3, x) := hF.comp (f := fun x => (x1, x2, x3, x)) (by fun_prop)
  exact lintegral_prod _ m3.aemeasurable

theorem lintegral_seeds_mix {K : X1 × X2 × X3 × X5 × X6 → ENNReal} (hK : Measurable K) :
    ∫⁻ x, K (x.1, x.2.1, x.2.2.1, x.2.2.2.2.1, x.2.2.2.2.2) ∂a.prod (b.prod (g.prod (d.prod (e.prod f)))) = ∫⁻ x1, ∫⁻ y, ∫⁻ w, K (x1, y.1, y.2, w.2, w.1) ∂f.prod e ∂b.prod g ∂a := by
  have m0 : Measurable fun x : X1 × X2 × X3 × X4 × X5 × X6 => K (x.1, x.2.1, x.2.2.1, x.2.2.2.2.1, x.2.2.2.2.2) := hK.comp (by fun_prop)
  rw [lintegral_seeds_all m0]
  refine lintegral_congr fun x1 => ?_
  have m1 : Measurable fun x : (X2 × X3) × X6 × X5 => K (x1, x.1.1, x.1.2, x.2.2, x.2.1) := hK.comp (by fun_prop)
  have m2 : Measurable fun y : X2 × X3 => ∫⁻ w, K (x1, y.1, y.2, w.2, w.1) ∂f.prod e := m1.lintegral_prod_right'
  rw [lintegral_prod _ m2.aemeasurable]
  refine lintegral_congr fun x2 => lintegral_congr fun x3 => ?_
  dsimp only
  rw [lintegral_const, measure_univ, mul_one]
  have m3 : Measurable fun y : X6 × X5 => K (x1, x2, x3, y.2, y.1) := hK.comp (by fun_prop)
  have m4 : Measurable fun y : X5 × X6 => K (x1, x2, x3, y) := hK.comp (by fun_prop)
  rw [lintegral_prod_symm _ m3.aemeasurable]
  exact lintegral_prod _ m4.aemeasurable

theorem lintegral_seeds_fresh {F : X1 × X2 × X3 × X4 × X5 × X6 → ENNReal} (hF : Measurable F) :
    ∫⁻ x, F x ∂a.prod (b.prod (g.prod (d.prod (e.prod f)))) = ∫⁻ x, ∫⁻ u, F (x.1, x.2.1, x.2.2.1, u, x.2.2.2.2) ∂d ∂a.prod (b.prod (g.prod (d.prod (e.prod f)))) := by
  have mm : Measurable fun y : (X1 × X2 × X3 × X4 × X5 × X6) × X4 => F (y.1.1, y.1.2.1, y.1.2.2.1, y.2, y.1.2.2.2.2) := hF.comp (by fun_prop)
  have m0 : Measurable fun x : X1 × X2 × X3 × X4 × X5 × X6 => ∫⁻ u, F (x.1, x.2.1, x.2.2.1, u, x.2.2.2.2) ∂d := mm.lintegral_prod_right'
  rw [lintegral_seeds_all hF, lintegral_seeds_all m0]
  refine lintegral_congr fun x1 => lintegral_congr fun x2 => lintegral_congr fun x3 => ?_
  dsimp only
  rw [lintegral_const, measure_univ, mul_one]
  have m1 : Measurable fun x : X4 × X5 × X6 => F (x1, x2, x3, x) := hF.comp (by fun_prop)
  exact lintegral_lintegral_swap m1.aemeasurable

end

/-! ### invariance -/

theorem mix_body_invariant (hκ0 : 0 < κ0) (hν0 : 0 < ν0) (h : CfgOk c n) {T : Theta c.base.K → ENNReal} (hT : Measurable T) :
    ∫⁻ θ, likelihoodMix c θ * ∫⁻ x, T (mixBody G κ0 ν0 c n id θ x) ∂seedLaw c μ ∂priorMix κ0 ν0 c n = ∫⁻ θ, likelihoodMix c θ * T θ ∂priorMix κ0 ν0 c n := by
  have hμ := gen_prob G
  have hS := scale_prob G h
  have hΦ := phi_prob h
  have hB := mixBase_sfinite h
  have hsl : IsProbabilityMeasure (seedLaw c μ) := by unfold seedLaw; infer_instance
  have mg : Measurable fun x : Theta c.base.K × Seeds c U => T (mixBody G κ0 ν0 c n id x.1 x.2) := hT.comp (measurable_mixBody G κ0 ν0 measurable_id)
  have mI : Measurable fun θ : Theta c.base.K => ∫⁻ x, T (mixBody G κ0 ν0 c n id θ x) ∂seedLaw c μ := mg.lintegral_prod_right'
  have mlik := measurable_likelihoodMix (c := c) h.data
  have iter : ∀ F : Theta c.base.K → ENNReal, Measurable F → ∫⁻ θ, F θ ∂priorMix κ0 ν0 c n
      = ∫⁻ _, ∫⁻ η, ∫⁻ X, ∫⁻ φ, mixDens κ0 ν0 n η X.1 X.2 * F (X.1, η, X.2, φ) ∂phiPrior c ∂mixBase c n ∂scalePrior n ∂Measure.dirac () := by
    intro F hF
    have mF : Measurable fun y : ℝ × ((Pair c.base.K → ℝ) × (Pair c.base.K → ℝ)) × (Fin c.base.K → ℝ) × (Pair c.base.K → Vec ℝ) =>
        mixDens κ0 ν0 n y.1 y.2.1.1 y.2.1.2 * F (y.2.1.1, y.1, y.2.1.2, y.2.2) :=
      ((measurable_mixDens (n := n) (c := c) κ0 ν0).comp
        (f := fun y : ℝ × ((Pair c.base.K → ℝ) × (Pair c.base.K → ℝ)) × (Fin c.base.K → ℝ) × (Pair c.base.K → Vec ℝ) => (y.1, y.2.1.1, y.2.1.2)) (by fun_prop)).mul
        (hF.comp (f := fun y : ℝ × ((Pair c.base.K → ℝ) × (Pair c.base.K → ℝ)) × (Fin c.base.K → ℝ) × (Pair c.base.K → Vec ℝ) => (y.2.1.1, y.1, y.2.1.2, y.2.2)) (by fun_prop))
    rw [priorMix_lintegral G κ0 ν0 h hF, lintegral_prod _ mF.aemeasurable, lintegral_dirac]
    refine lintegral_congr fun η => ?_
    exact lintegral_prod _ (mF.comp (f := fun y => (η, y)) (by fun_prop)).aemeasurable
  rw [iter (fun θ => likelihoodMix c θ * ∫⁻ x, T (mixBody G κ0 ν0 c n id θ x) ∂seedLaw c μ) (mlik.mul mI), iter (fun θ => likelihoodMix c θ * T θ) (mlik.mul hT)]
  have aug := augment_invariant (Z := ZSp c) (phiPrior c) (scalePrior n) (Measure.dirac ()) (mixBase c n)
    ((Measure.pi fun _ : Fin c.base.K => μ).prod (Measure.pi fun _ : Pair c.base.K => μ)) (Measure.dirac ()) ((Measure.pi fun _ : Pair c.base.K => μ).prod (Measure.pi fun _ : Pair c.base.K => μ))
    (fun η _ X => mixDens κ0 ν0 n η X.1 X.2) (fun φ _ X => ENNReal.ofReal (likR c (fun _ => 1) X.2 φ.1 φ.2)) (fun φ _ X z => ENNReal.ofReal (zPmf (fun _ => 1) X.2 φ.1 φ.2 z)) phiFacE
    (fun _ X z => xFacE (fun _ => 1) X.2 z)
    (fun z y => (lamOf G c z y.1, gOf G c z y.2)) (fun (_ : Unit) η (_ : Unit) _ => η) (fun z η _ y => mixX G κ0 ν0 c n z η y)
    ((measurable_mixDens (n := n) (c := c) κ0 ν0).comp (f := fun x : ℝ × Unit × ((Pair c.base.K → ℝ) × (Pair c.base.K → ℝ)) => (x.1, x.2.2.1, x.2.2.2)) (by fun_prop))
    measurable_phiFacE
    (fun z => (measurable_xFacE z).comp (f := fun x : Unit × ((Pair c.base.K → ℝ) × (Pair c.base.K → ℝ)) => ((fun _ => 1), x.2.2)) (by fun_prop))
    (fun z => ((measurable_lamOf G c z).comp measurable_fst).prodMk ((measurable_gOf G c z).comp measurable_snd)) (by fun_prop)
    (fun z => (measurable_mixX G κ0 ν0 z).comp (f := fun x : ℝ × Unit × ((Pair c.base.K → U) × (Pair c.base.K → U)) => (x.1, x.2.2)) (by fun_prop))
    (by
      refine Filter.Eventually.of_forall fun _ => Filter.Eventually.of_forall fun η X => ?_
      by_cases hW : ∀ e, 0 ≤ X.2 e
      · filter_upwards [phi_valid h] with φ hφ z
        rw [factor_E h (fun e => by rw [one_mul]; exact hW e) hφ.1 hφ.2]
      · refine Filter.Eventually.of_forall fun φ z => ?_
        rw [mixDens_neg hW, zero_mul, zero_mul])
    (by
      refine Filter.Eventually.of_forall fun _ => Filter.Eventually.of_forall fun η X => ?_
      by_cases hW : ∀ e, 0 ≤ X.2 e
      · filter_upwards [phi_valid h] with φ hφ
        rw [tsum_zPmf c G h.data (fun e => by rw [one_mul]; exact hW e) hφ.1 hφ.2, mul_one]
      · refine Filter.Eventually.of_forall fun φ => ?_
        rw [mixDens_neg hW, zero_mul])
    (fun z R hR => (phi_step G h z).lintegral (measurable_phiFacE z) (((measurable_lamOf G c z).comp measurable_fst).prodMk ((measurable_gOf G c z).comp measurable_snd)) hR)
    (fun z => Filter.Eventually.of_forall fun _ R hR => by simp only [lintegral_dirac])
    (fun z => Filter.Eventually.of_forall fun _ => by
      filter_upwards [scale_pos G h] with η hη R hR
      exact mix_weights_step G κ0 ν0 hκ0 hν0 h z hη hR)
    (fun φ η _ X => T (X.1, η, X.2, φ))
    (hT.comp (f := fun x : ((Fin c.base.K → ℝ) × (Pair c.base.K → Vec ℝ)) × ℝ × Unit × ((Pair c.base.K → ℝ) × (Pair c.base.K → ℝ)) => (x.2.2.2.1, x.2.1, x.2.2.2.2, x.1)) (by fun_prop))
  refine Eq.trans ?_ aug
  refine lintegral_congr fun _ => lintegral_congr fun η => lintegral_congr fun X => lintegral_congr_ae ?_
  by_cases hW : ∀ e, 0 ≤ X.2 e
  · filter_upwards [phi_valid h] with φ hφ
    rw [← lintegral_zOf G c h.data (fun e => by rw [one_mul]; exact hW e) hφ.1 hφ.2]
    congr 2
    have m0 : Measurable fun x : Seeds c U => T (mixBody G κ0 ν0 c n id (X.1, η, X.2, φ) x) := mg.comp (f := fun x => ((X.1, η, X.2, φ), x)) (by fun_prop)
    have ev : ∀ x : Seeds c U, T (mixBody G κ0 ν0 c n id (X.1, η, X.2, φ) x)
        = (fun y : (Row c → U) × (Fin c.base.K → U) × (Pair c.base.K → U) × (Pair c.base.K → U) × (Pair c.base.K → U) =>
          T ((mixX G κ0 ν0 c n (zOf G c (fun _ => 1) X.2 φ.1 φ.2 y.1) η (y.2.2.2.2, y.2.2.2.1)).1, η, (mixX G κ0 ν0 c n (zOf G c (fun _ => 1) X.2 φ.1 φ.2 y.1) η (y.2.2.2.2, y.2.2.2.1)).2,
            lamOf G c (zOf G c (fun _ => 1) X.2 φ.1 φ.2 y.1) y.2.1, gOf G c (zOf G c (fun _ => 1) X.2 φ.1 φ.2 y.1) y.2.2.1)) (x.1, x.2.1, x.2.2.1, x.2.2.2.2.1, x.2.2.2.2.2) := fun x => rfl
    have mK : Measurable fun y : (Row c → U) × (Fin c.base.K → U) × (Pair c.base.K → U) × (Pair c.base.K → U) × (Pair c.base.K → U) =>
          T ((mixX G κ0 ν0 c n (zOf G c (fun _ => 1) X.2 φ.1 φ.2 y.1) η (y.2.2.2.2, y.2.2.2.1)).1, η, (mixX G κ0 ν0 c n (zOf G c (fun _ => 1) X.2 φ.1 φ.2 y.1) η (y.2.2.2.2, y.2.2.2.1)).2,
            lamOf G c (zOf G c (fun _ => 1) X.2 φ.1 φ.2 y.1) y.2.1, gOf G c (zOf G c (fun _ => 1) X.2 φ.1 φ.2 y.1) y.2.2.1) := by
      obtain ⟨u0⟩ := nonempty_of_isProbabilityMeasure μ
      exact m0.comp (f := fun y : (Row c → U) × (Fin c.base.K → U) × (Pair c.base.K → U) × (Pair c.base.K → U) × (Pair c.base.K → U) => (y.1, y.2.1, y.2.2.1, u0, y.2.2.2.1, y.2.2.2.2)) (by fun_prop)
    rw [lintegral_congr ev]
    unfold seedLaw
    rw [lintegral_seeds_mix mK]
    simp only [lintegral_dirac]
  · refine Filter.Eventually.of_forall fun φ => ?_
    dsimp only
    rw [mixDens_neg hW, zero_mul, zero_mul]

theorem mix_net_invariant (hκ0 : 0 < κ0) (hν0 : 0 < ν0) (h : CfgOk c n) (b : Bool) {T : Theta c.base.K → ENNReal} (hT : Measurable T) :
    ∫⁻ θ, likelihoodMix c θ * ∫⁻ u, T (mixNet G c n b θ u) ∂μ ∂priorMix κ0 ν0 c n = ∫⁻ θ, likelihoodMix c θ * T θ ∂priorMix κ0 ν0 c n := by
  have hμ := gen_prob G
  cases b with
  | false =>
    refine lintegral_congr fun θ => ?_
    unfold mixNet
    simp only [Bool.false_eq_true, if_false, lintegral_const, measure_univ, mul_one]
  | true =>
    have hS := scale_prob G h
    have hΦ := phi_prob h
    have hB := mixBase_sfinite h
    have mlik := measurable_likelihoodMix (c := c) h.data
    have mN : Measurable fun x : Theta c.base.K × U => T (mixNet G c n true x.1 x.2) := hT.comp (measurable_mixNet G true)
    have mI : Measurable fun θ : Theta c.base.K => ∫⁻ u, T (mixNet G c n true θ u) ∂μ := mN.lintegral_prod_right'
    have iter : ∀ F : Theta c.base.K → ENNReal, Measurable F → ∫⁻ θ, likelihoodMix c θ * F θ ∂priorMix κ0 ν0 c n
        = ∫⁻ r : ((Pair c.base.K → ℝ) × (Pair c.base.K → ℝ)) × (Fin c.base.K → ℝ) × (Pair c.base.K → Vec ℝ), ENNReal.ofReal (likR c (fun _ => 1) r.1.2 r.2.1 r.2.2) *
          ∫⁻ η, mixDens κ0 ν0 n η r.1.1 r.1.2 * F (r.1.1, η, r.1.2, r.2) ∂scalePrior n ∂(mixBase c n).prod (phiPrior c) := by
      intro F hF
      have mF : Measurable fun y : ℝ × ((Pair c.base.K → ℝ) × (Pair c.base.K → ℝ)) × (Fin c.base.K → ℝ) × (Pair c.base.K → Vec ℝ) =>
          mixDens κ0 ν0 n y.1 y.2.1.1 y.2.1.2 * F (y.2.1.1, y.1, y.2.1.2, y.2.2) :=
        ((measurable_mixDens (n := n) (c := c) κ0 ν0).comp
          (f := fun y : ℝ × ((Pair c.base.K → ℝ) × (Pair c.base.K → ℝ)) × (Fin c.base.K → ℝ) × (Pair c.base.K → Vec ℝ) => (y.1, y.2.1.1, y.2.1.2)) (by fun_prop)).mul
          (hF.comp (f := fun y : ℝ × ((Pair c.base.K → ℝ) × (Pair c.base.K → ℝ)) × (Fin c.base.K → ℝ) × (Pair c.base.K → Vec ℝ) => (y.2.1.1, y.1, y.2.1.2, y.2.2)) (by fun_prop))
      have mG : Measurable fun y : ℝ × ((Pair c.base.K → ℝ) × (Pair c.base.K → ℝ)) × (Fin c.base.K → ℝ) × (Pair c.base.K → Vec ℝ) =>
          mixDens κ0 ν0 n y.1 y.2.1.1 y.2.1.2 * (likelihoodMix c (y.2.1.1, y.1, y.2.1.2, y.2.2) * F (y.2.1.1, y.1, y.2.1.2, y.2.2)) :=
        ((measurable_mixDens (n := n) (c := c) κ0 ν0).comp
          (f := fun y : ℝ × ((Pair c.base.K → ℝ) × (Pair c.base.K → ℝ)) × (Fin c.base.K → ℝ) × (Pair c.base.K → Vec ℝ) => (y.1, y.2.1.1, y.2.1.2)) (by fun_prop)).mul
          ((mlik.mul hF).comp (f := fun y : ℝ × ((Pair c.base.K → ℝ) × (Pair c.base.K → ℝ)) × (Fin c.base.K → ℝ) × (Pair c.base.K → Vec ℝ) => (y.2.1.1, y.1, y.2.1.2, y.2.2)) (by fun_prop))
      rw [priorMix_lintegral G κ0 ν0 h (F := fun θ => likelihoodMix c θ * F θ) (mlik.mul hF), lintegral_prod_symm _ mG.aemeasurable]
      refine lintegral_congr fun r => ?_
      have mr : Measurable fun η => mixDens κ0 ν0 n η r.1.1 r.1.2 * F (r.1.1, η, r.1.2, r.2) := mF.comp (f := fun η => (η, r)) (by fun_prop)
      rw [← lintegral_const_mul _ mr]
      refine lintegral_congr fun η => ?_
      dsimp only
      change _ * (ENNReal.ofReal (likR c (fun _ => 1) r.1.2 r.2.1 r.2.2) * _) = _
      ring
    rw [iter _ mI, iter _ hT]
    have hc : ∀ᵐ r ∂(mixBase c n).prod (phiPrior c), ∀ e, r.1.1 e = 0 ∨ r.1.1 e = 1 := Measure.quasiMeasurePreserving_fst.ae (mixBase_coins h)
    refine lintegral_congr_ae ?_
    filter_upwards [hc] with r hr
    congr 1
    exact mix_scale_step G hκ0 hν0 h hr (R := fun η => T (r.1.1, η, r.1.2, r.2)) (hT.comp (f := fun η => (r.1.1, η, r.1.2, r.2)) (by fun_prop))

/-- **Without clipping, one call leaves the posterior invariant.** -/
theorem mix_sweep_invariant (hκ0 : 0 < κ0) (hν0 : 0 < ν0) (h : CfgOk c n) (b : Bool) {T : Theta c.base.K → ENNReal} (hT : Measurable T) :
    ∫⁻ θ, likelihoodMix c θ * ∫⁻ x, T (mixSweep G κ0 ν0 c n id b θ x) ∂seedLaw c μ ∂priorMix κ0 ν0 c n = ∫⁻ θ, likelihoodMix c θ * T θ ∂priorMix κ0 ν0 c n := by
  have hμ := gen_prob G
  have mN : Measurable fun x : Theta c.base.K × U => T (mixNet G c n b x.1 x.2) := hT.comp (measurable_mixNet G b)
  have mI : Measurable fun θ : Theta c.base.K => ∫⁻ u, T (mixNet G c n b θ u) ∂μ := mN.lintegral_prod_right'
  rw [← mix_net_invariant G κ0 ν0 hκ0 hν0 h b hT, ← mix_body_invariant G κ0 ν0 hκ0 hν0 h mI]
  refine lintegral_congr fun θ => ?_
  congr 1
  have mS : Measurable fun x : Seeds c U => T (mixSweep G κ0 ν0 c n id b θ x) := hT.comp ((measurable_mixSweep G κ0 ν0 measurable_id b).comp (f := fun x => (θ, x)) (by fun_prop))
  unfold seedLaw
  rw [lintegral_seeds_fresh mS]
  rfl

theorem priorMix_sfinite (h : CfgOk c n) (hS : IsProbabilityMeasure (scalePrior n)) : SFinite (priorMix κ0 ν0 c n) := by
  have hP : ∀ e : Pair c.base.K, IsProbabilityMeasure (coinLaw (n.P e.1 e.2)) := fun e => coinLaw_prob (P_mem h e).1 (P_mem h e).2
  have hΦ := phi_prob h
  unfold priorMix
  have : SFinite ((Measure.pi fun _ : Fin c.base.K => gammaMeasure c.alpha c.beta).prod (Measure.pi fun _ : Pair c.base.K => dirichletLaw c.base.B c.gamma)) := by
    change SFinite (phiPrior c); infer_instance
  infer_instance

theorem posteriorMix_map (hκ0 : 0 < κ0) (hν0 : 0 < ν0) (h : CfgOk c n) (b : Bool) :
    ((posteriorMix κ0 ν0 c n).prod (seedLaw c μ)).map (fun x => mixSweep G κ0 ν0 c n id b x.1 x.2) = posteriorMix κ0 ν0 c n := by
  have hμ := gen_prob G
  have hsl : IsProbabilityMeasure (seedLaw c μ) := by unfold seedLaw; infer_instance
  have hpr := priorMix_sfinite κ0 ν0 h (scale_prob G h)
  have hps : SFinite (posteriorMix κ0 ν0 c n) := by unfold posteriorMix; infer_instance
  have mlik := measurable_likelihoodMix (c := c) h.data
  ext s hs
  have ms := measurable_mixSweep G κ0 ν0 (c := c) (n := n) measurable_id b
  rw [Measure.map_apply ms hs, ← lintegral_indicator_one (ms hs), lintegral_prod _ ((measurable_one.indicator (ms hs)).aemeasurable), ← lintegral_indicator_one hs]
  have e : ∀ θ x, ((fun x : Theta c.base.K × Seeds c U => mixSweep G κ0 ν0 c n id b x.1 x.2) ⁻¹' s).indicator (1 : Theta c.base.K × Seeds c U → ENNReal) (θ, x)
      = s.indicator (1 : Theta c.base.K → ENNReal) (mixSweep G κ0 ν0 c n id b θ x) := fun θ x => rfl
  simp only [e]
  have mT : Measurable (s.indicator (1 : Theta c.base.K → ENNReal)) := measurable_one.indicator hs
  have mI : Measurable fun θ : Theta c.base.K => ∫⁻ x, s.indicator (1 : Theta c.base.K → ENNReal) (mixSweep G κ0 ν0 c n id b θ x) ∂seedLaw c μ := (mT.comp ms).lintegral_prod_right'
  have conv : ∀ F : Theta c.base.K → ENNReal, Measurable F → ∫⁻ θ, F θ ∂posteriorMix κ0 ν0 c n
      = (∫⁻ θ, likelihoodMix c θ ∂priorMix κ0 ν0 c n)⁻¹ * ∫⁻ θ, likelihoodMix c θ * F θ ∂priorMix κ0 ν0 c n := by
    intro F hF
    unfold posteriorMix
    rw [lintegral_smul_measure, lintegral_withDensity_eq_lintegral_mul _ mlik hF]
    rfl
  rw [conv _ mI, conv _ mT, mix_sweep_invariant G κ0 ν0 hκ0 hν0 h b mT]

end

end PyHawkes
