import Verif.Props.ChainConverge
import Verif.Props.NetErgodicER
import Verif.Props.GibbsProper

/-!
# The discrete-time sampler as a data-augmentation sampler with full support (used for C94)
-/
set_option linter.unusedSectionVars false
set_option linter.unusedVariables false

namespace PyHawkes
open Finset Spec MeasureTheory ProbabilityTheory

section
variable {U : Type*} [MeasurableSpace U] {μ : Measure U} (G : Generator μ) {c : HawkesState} {n : ERFixed}

/-- the ingredients of the sampler -/
noncomputable def discSys (c : HawkesState) : AugSys c.base.K ((Fin c.base.K → ℝ) × (Pair c.base.K → Vec ℝ)) (ZSp c) (Row c → U) ((Fin c.base.K → U) × (Pair c.base.K → U)) where
  ν := phiPrior c
  L := fun A W φ => likR c A W φ.1 φ.2
  μX := Measure.pi fun _ => μ
  μY := (Measure.pi fun _ => μ).prod (Measure.pi fun _ => μ)
  z := fun A W φ x => zOf G c A W φ.1 φ.2 x
  sφ := fun z y => (lamOf G c z y.1, gOf G c z y.2)
  kz := fun φ A W z => ENNReal.ofReal (zPmf A W φ.1 φ.2 z)
  fφ := phiFacE
  via := fun z e => via z e
  ev := evTotal c

theorem discSys_ok (h : CfgOk c n) : (discSys G c).Ok := by
  have hμ := gen_prob G
  refine ⟨phi_prob h, (by change IsProbabilityMeasure (Measure.pi _); infer_instance), (by change IsProbabilityMeasure (Measure.prod _ _); infer_instance),
    fun A W φ => Real.exp_pos _, measurable_likR c h.data, measurable_zOf G c,
    fun z => ((measurable_lamOf G c z).comp measurable_fst).prodMk ((measurable_gOf G c z).comp measurable_snd), measurable_phiFacE, fun k => ev_nonneg k, fun A W hAW => ?_, fun A W hAW => ?_, phi_step G h⟩
  · filter_upwards [phi_valid h] with φ hφ F
    exact lintegral_zOf G c h.data hAW hφ.1 hφ.2 F
  · filter_upwards [phi_valid h] with φ hφ z
    exact factor_E h hAW hφ.1 hφ.2 z

/-- positive background rates, nonnegative impulse weights -/
def discValid (c : HawkesState) : Set ((Fin c.base.K → ℝ) × (Pair c.base.K → Vec ℝ)) := {φ | (∀ k, 0 < φ.1 k) ∧ ∀ e, ∀ b < c.base.B, 0 ≤ φ.2 e b}

theorem discSys_pos (h : CfgOk c n) : (discSys G c).Pos (discValid c) := by
  refine ⟨?_, phi_valid h, fun A W hAW φ hφ F => lintegral_zOf G c h.data hAW hφ.1 hφ.2 F, fun A W hAW φ hφ z hz => ?_⟩
  · have e : discValid c = (⋂ k, {φ | 0 < φ.1 k}) ∩ ⋂ e, ⋂ b ∈ range c.base.B, {φ | 0 ≤ φ.2 e b} := by
      ext φ; simp [discValid]
    rw [e]
    refine (MeasurableSet.iInter fun k => measurableSet_lt measurable_const (by fun_prop)).inter (MeasurableSet.iInter fun e => Finset.measurableSet_biInter _ fun b _ => measurableSet_le measurable_const ?_)
    fun_prop
  · have hf := factor_E h hAW hφ.1 hφ.2 z
    have hz0 : ENNReal.ofReal (zCoef z) ≠ 0 := by
      intro h0
      have : phiFacE φ z = 0 := by unfold phiFacE; rw [h0, zero_mul]
      rw [this, zero_mul, mul_eq_zero] at hf
      rcases hf with hf | hf
      · rw [ENNReal.ofReal_eq_zero] at hf
        exact absurd (Real.exp_pos _) (not_lt.2 hf)
      · exact hz hf
    have := isProbabilityMeasure_gammaMeasure h.hyper.alpha h.hyper.beta
    have := dirichlet_prob h.hyper.gamma
    have h2 : ∀ᵐ g ∂Measure.pi (fun _ : Pair c.base.K => dirichletLaw c.base.B c.gamma), ∀ e, ∀ b < c.base.B, 0 < g e b :=
      pi_ae_all (X := fun _ => Vec ℝ) (p := fun _ (g : Vec ℝ) => ∀ b < c.base.B, 0 < g b) _ fun _ => by
        filter_upwards [dirichlet_simplex h.hyper.gamma h.B] with x hx
        exact hx.1
    have a2 := Measure.quasiMeasurePreserving_snd (μ := Measure.pi (fun _ : Fin c.base.K => gammaMeasure c.alpha c.beta))
      (ν := Measure.pi (fun _ : Pair c.base.K => dirichletLaw c.base.B c.gamma)) |>.ae h2
    change ∀ᵐ φ' ∂phiPrior c, phiFacE φ' z ≠ 0
    filter_upwards [phi_valid h, show ∀ᵐ φ ∂phiPrior c, ∀ e, ∀ b < c.base.B, 0 < φ.2 e b from a2] with φ' h1 h2
    unfold phiFacE
    refine mul_ne_zero hz0 (mul_ne_zero (Finset.prod_ne_zero_iff.2 fun k _ => ?_) (Finset.prod_ne_zero_iff.2 fun e _ => ?_))
    · rw [ne_eq, ENNReal.ofReal_eq_zero, not_le]
      exact mul_pos (pow_pos (h1.1 k) _) (Real.exp_pos _)
    · rw [ne_eq, ENNReal.ofReal_eq_zero, not_le]
      exact prod_pos fun b hb => pow_pos (h2 e b (mem_range.1 hb)) _

/-- reorder the seeds -/
def seedsNet (x : Seeds c U) : NetSeeds c.base.K U U (Row c → U) ((Fin c.base.K → U) × (Pair c.base.K → U)) := (x.1, (x.2.1, x.2.2.1), x.2.2.2)

theorem seedsNet_law [IsProbabilityMeasure μ] : MeasurePreserving (seedsNet (c := c)) (seedLaw c μ) (netSeedLaw (discSys G c) (erNet G c.base.K n) μ) :=
  (MeasurePreserving.id (Measure.pi fun _ : Row c => μ)).prod (measurePreserving_prodAssoc (Measure.pi fun _ : Fin c.base.K => μ) (Measure.pi fun _ : Pair c.base.K => μ)
    (μ.prod ((Measure.pi fun _ : Pair c.base.K => μ).prod (Measure.pi fun _ : Pair c.base.K => μ)))).symm

theorem sweepStep_net (θ : Theta c.base.K) (x : Seeds c U) : sweepStep G c n θ x = netSweep (discSys G c) (erNet G c.base.K n) G θ (seedsNet x) := rfl

end

section
variable {U Φ Z X Y : Type*} [MeasurableSpace U] [MeasurableSpace Φ] [MeasurableSpace Z] [MeasurableSpace X] [MeasurableSpace Y]
  {K : ℕ} {S : AugSys K Φ Z X Y} {n : ERFixed} {μ : Measure U} (G : Generator μ) [Countable Z] [MeasurableSingletonClass Z] (h : S.Ok) (hn : ErOk K n)

include h hn in
/-- the two descriptions of the prior agree -/
theorem augPrior_eq : S.prior n = netPrior S (erNet G K n) := by
  have hQ := erNet_ok G hn
  have := h.ν_prob
  have := aug_scale_prob G hn
  ext s hs
  rw [← lintegral_indicator_one hs, ← lintegral_indicator_one hs]
  have mT : Measurable (s.indicator (1 : AugTheta K Φ → ENNReal)) := measurable_one.indicator hs
  have mN : Measurable (s.indicator (1 : NetTheta K ℝ Φ → ENNReal)) := measurable_one.indicator hs
  rw [AugSys.prior_lintegral G h hn mT, netPrior_lintegral h hQ mN]
  set F : (Pair K → ℝ) → ENNReal := fun A => ∫⁻ η, ∫⁻ W, ∫⁻ φ, augW n η W * s.indicator (1 : AugTheta K Φ → ENNReal) (A, η, W, φ) ∂S.ν ∂Measure.pi (fun _ => volume) ∂scalePrior n with hF
  have mI : Measurable fun y : ((Pair K → ℝ) × ℝ × (Pair K → ℝ)) × Φ => augW n y.1.2.1 y.1.2.2 * s.indicator (1 : AugTheta K Φ → ENNReal) (y.1.1, y.1.2.1, y.1.2.2, y.2) :=
    (augW_meas.comp (f := fun y : ((Pair K → ℝ) × ℝ × (Pair K → ℝ)) × Φ => (y.1.2.1, y.1.2.2)) (by fun_prop)).mul (mT.comp (by fun_prop))
  have mI2 : Measurable fun y : ((Pair K → ℝ) × ℝ) × (Pair K → ℝ) => ∫⁻ φ, augW n y.1.2 y.2 * s.indicator (1 : AugTheta K Φ → ENNReal) (y.1.1, y.1.2, y.2, φ) ∂S.ν :=
    (mI.lintegral_prod_right' (ν := S.ν)).comp (f := fun y : ((Pair K → ℝ) × ℝ) × (Pair K → ℝ) => (y.1.1, y.1.2, y.2)) (by fun_prop)
  have mI3 : Measurable fun y : (Pair K → ℝ) × ℝ => ∫⁻ W, ∫⁻ φ, augW n y.2 W * s.indicator (1 : AugTheta K Φ → ENNReal) (y.1, y.2, W, φ) ∂S.ν ∂Measure.pi (fun _ => volume) := mI2.lintegral_prod_right'
  have mF : Measurable F := mI3.lintegral_prod_right'
  have conv := NetSys.pA_conv (Q := erNet G K n) (η := (0 : ℝ)) (fun e => aug_P_mem hn e) mF
  have hP : (erNet G K n).P 0 = fun e => n.P e.1 e.2 := rfl
  rw [hP] at conv
  rw [← conv]
  refine lintegral_congr fun A => ?_
  have hd : ∀ η W, (erNet G K n).dens η A W = (erNet G K n).pA 0 A * augW n η W := fun η W => rfl
  simp only [hd, mul_assoc]
  have m0 : ∀ η W, Measurable fun φ => augW n η W * s.indicator (1 : AugTheta K Φ → ENNReal) (A, η, W, φ) := fun η W => mI.comp (f := fun φ => ((A, η, W), φ)) (by fun_prop)
  have m1 : ∀ η, Measurable fun W => ∫⁻ φ, augW n η W * s.indicator (1 : AugTheta K Φ → ENNReal) (A, η, W, φ) ∂S.ν := fun η => mI2.comp (f := fun W => ((A, η), W)) (by fun_prop)
  have m2 : Measurable fun η => ∫⁻ W, ∫⁻ φ, augW n η W * s.indicator (1 : AugTheta K Φ → ENNReal) (A, η, W, φ) ∂S.ν ∂Measure.pi (fun _ => volume) := mI3.comp (f := fun η => (A, η)) (by fun_prop)
  rw [hF, ← lintegral_const_mul _ m2]
  refine lintegral_congr fun η => ?_
  rw [← lintegral_const_mul _ (m1 η)]
  refine lintegral_congr fun W => ?_
  rw [← lintegral_const_mul _ (m0 η W)]

include h hn in
theorem augPosterior_eq : S.posterior n = netPosterior S (erNet G K n) := by
  unfold AugSys.posterior netPosterior
  rw [augPrior_eq G h hn]
  rfl

end

section
variable {U : Type*} [MeasurableSpace U] {μ : Measure U} (G : Generator μ) {c : HawkesState} {n : ERFixed}

theorem posterior_net (h : CfgOk c n) : posterior c n = netPosterior (discSys G c) (erNet G c.base.K n) :=
  (show posterior c n = (discSys G c).posterior n from rfl).trans (augPosterior_eq G (discSys_ok G h) h.net)

/-- the parameters from which one call reaches every set of positive probability -/
def thetaValid (c : HawkesState) (n : ERFixed) : Set (Theta c.base.K) := netValid c.base.K {v | ScaleOk n v} (discValid c)

theorem disc_ac (h : CfgOk c n) (hF : FilteredFromEvents c.base.K c.base.B c.data) {θ : Theta c.base.K} (hθ : θ ∈ thetaValid c n) :
    (seedLaw c μ).map (sweepStep G c n θ) ≪ posterior c n ∧ posterior c n ≪ (seedLaw c μ).map (sweepStep G c n θ) := by
  have hμ := gen_prob G
  have hQ := erNet_ok G h.net
  have hS := discSys_ok G h
  have hp := C83_posterior_proper h hF
  have el : ∫⁻ θ, likelihood c θ ∂prior c n = ∫⁻ θ, netLik (discSys G c) θ ∂netPrior (discSys G c) (erNet G c.base.K n) := by
    rw [← augPrior_eq G hS h.net]; rfl
  have e : sweepStep G c n θ = netSweep (discSys G c) (erNet G c.base.K n) G θ ∘ seedsNet := rfl
  have ms : Measurable (netSweep (discSys G c) (erNet G c.base.K n) G θ) := (netSweep_meas G hS hQ).comp (f := fun x => (θ, x)) (by fun_prop)
  have hl := seedsNet_law (n := n) (c := c) G
  rw [e, ← Measure.map_map ms hl.measurable, hl.map_eq, posterior_net G h]
  exact netPosterior_ac G hS hQ (discSys_pos G h) (erNet_pos G h.net) (by rw [← el]; exact hp.1) (by rw [← el]; exact hp.2.1) hθ

end

end PyHawkes
