import Verif.Spec.PosteriorCT
import Verif.Props.GibbsLaws
import Verif.Props.CTGibbs

/-!
# The normal-gamma draw of `sample_nig` and its conjugate update, as measures (used for C84)
-/
set_option linter.unusedSectionVars false
set_option linter.unusedVariables false

namespace PyHawkes
open Finset Spec MeasureTheory ProbabilityTheory

theorem measurable_nigPdf (a : NigArgs) : Measurable fun x : ℝ × ℝ => nigPdf a x.1 x.2 := by
  unfold nigPdf
  refine ((measurable_gammaPDFReal _ _).comp (f := fun x : ℝ × ℝ => x.2) (by fun_prop)).mul ?_
  unfold gaussianPDFReal
  have : Measurable fun x : ℝ × ℝ => ((1 / (a.lmbda * x.2)).toNNReal : ℝ) := by fun_prop
  fun_prop

theorem nigPdf_eq {a : NigArgs} (m t : ℝ) : ENNReal.ofReal (nigPdf a m t) = gammaPDF a.alpha a.beta t * gaussianPDF a.mu (1 / (a.lmbda * t)).toNNReal m := by
  unfold nigPdf gammaPDF gaussianPDF
  rw [mul_comm, ENNReal.ofReal_mul (gaussianPDFReal_nonneg _ _ _), mul_comm]

/-- integrals against the normal-gamma distribution: first the precision, then the mean -/
theorem nigLaw_lintegral {a : NigArgs} (ha : NigOk a) {R : ℝ × ℝ → ENNReal} (hR : Measurable R) :
    ∫⁻ x, R x ∂nigLaw a = ∫⁻ t, ∫⁻ m, R (m, t) ∂gaussianReal a.mu (1 / (a.lmbda * t)).toNNReal ∂gammaMeasure a.alpha a.beta := by
  have mn : Measurable fun x : ℝ × ℝ => ENNReal.ofReal (nigPdf a x.1 x.2) := (measurable_nigPdf a).ennreal_ofReal
  unfold nigLaw
  rw [lintegral_withDensity_eq_lintegral_mul _ mn hR]
  have mp : Measurable fun x : ℝ × ℝ => ENNReal.ofReal (nigPdf a x.1 x.2) * R x := mn.mul hR
  change ∫⁻ x, ENNReal.ofReal (nigPdf a x.1 x.2) * R x ∂volume.prod volume = _
  rw [lintegral_prod_symm _ mp.aemeasurable]
  unfold gammaMeasure
  have mg : Measurable fun y : ℝ × ℝ => gaussianPDF a.mu (1 / (a.lmbda * y.1)).toNNReal y.2 := by
    unfold gaussianPDF gaussianPDFReal
    have : Measurable fun x : ℝ × ℝ => ((1 / (a.lmbda * x.1)).toNNReal : ℝ) := by fun_prop
    fun_prop
  have mgR : Measurable fun y : ℝ × ℝ => gaussianPDF a.mu (1 / (a.lmbda * y.1)).toNNReal y.2 * R (y.2, y.1) := mg.mul (hR.comp (by fun_prop))
  have minner : Measurable fun t : ℝ => ∫⁻ m, gaussianPDF a.mu (1 / (a.lmbda * t)).toNNReal m * R (m, t) := mgR.lintegral_prod_right'
  have hgm : Measurable (gammaPDF a.alpha a.beta) := (measurable_gammaPDFReal _ _).ennreal_ofReal
  have e1 : ∀ᵐ t ∂(volume : Measure ℝ).withDensity (gammaPDF a.alpha a.beta), ∫⁻ m, R (m, t) ∂gaussianReal a.mu (1 / (a.lmbda * t)).toNNReal
      = ∫⁻ m, gaussianPDF a.mu (1 / (a.lmbda * t)).toNNReal m * R (m, t) := by
    have hpos : ∀ᵐ t ∂(volume : Measure ℝ).withDensity (gammaPDF a.alpha a.beta), 0 < t := gammaMeasure_pos
    filter_upwards [hpos] with t ht
    have hv : (1 / (a.lmbda * t)).toNNReal ≠ 0 := by
      simp only [ne_eq, Real.toNNReal_eq_zero, not_le]
      exact one_div_pos.2 (mul_pos ha.1 ht)
    have mRt : Measurable fun m : ℝ => R (m, t) := hR.comp (by fun_prop)
    rw [gaussianReal_of_var_ne_zero _ hv, lintegral_withDensity_eq_lintegral_mul _ (measurable_gaussianPDF _ _) mRt]
    rfl
  rw [lintegral_congr_ae e1, lintegral_withDensity_eq_lintegral_mul _ hgm minner]
  refine lintegral_congr fun t => ?_
  change _ = gammaPDF a.alpha a.beta t * ∫⁻ m, gaussianPDF a.mu (1 / (a.lmbda * t)).toNNReal m * R (m, t)
  have mt : Measurable fun m : ℝ => gaussianPDF a.mu (1 / (a.lmbda * t)).toNNReal m * R (m, t) := mgR.comp (f := fun m => (t, m)) (by fun_prop)
  rw [← lintegral_const_mul _ mt]
  exact lintegral_congr fun m => by rw [nigPdf_eq, mul_assoc]

theorem nigLaw_prob {a : NigArgs} (ha : NigOk a) : IsProbabilityMeasure (nigLaw a) := by
  have := isProbabilityMeasure_gammaMeasure ha.2.1 ha.2.2
  refine ⟨?_⟩
  rw [← lintegral_one, nigLaw_lintegral ha measurable_const]
  simp

theorem nigLaw_pos {a : NigArgs} (ha : NigOk a) : ∀ᵐ x ∂nigLaw a, 0 < x.2 := by
  have hm : MeasurableSet {x : ℝ × ℝ | ¬ 0 < x.2} := (measurableSet_lt measurable_const measurable_snd).compl
  rw [ae_iff, ← lintegral_indicator_one hm, nigLaw_lintegral ha (measurable_one.indicator hm)]
  rw [lintegral_eq_zero_iff' ]
  · have hpos : ∀ᵐ t ∂gammaMeasure a.alpha a.beta, 0 < t := gammaMeasure_pos
    filter_upwards [hpos] with t ht
    have : ∀ m : ℝ, Set.indicator {x : ℝ × ℝ | ¬ 0 < x.2} (1 : ℝ × ℝ → ENNReal) (m, t) = 0 := fun m => Set.indicator_of_notMem (by rw [Set.mem_ofPred_eq]; exact fun h => h ht) _
    simp only [this, lintegral_zero, Pi.zero_apply]
  · have e : (fun t => ∫⁻ m, Set.indicator {x : ℝ × ℝ | ¬ 0 < x.2} (1 : ℝ × ℝ → ENNReal) (m, t) ∂gaussianReal a.mu (1 / (a.lmbda * t)).toNNReal)
        = fun t => Set.indicator {t : ℝ | ¬ 0 < t} 1 t := by
      funext t
      have : ∀ m : ℝ, Set.indicator {x : ℝ × ℝ | ¬ 0 < x.2} (1 : ℝ × ℝ → ENNReal) (m, t) = Set.indicator {t : ℝ | ¬ 0 < t} 1 t := fun m => by
        unfold Set.indicator; rfl
      simp only [this, lintegral_const, measure_univ, mul_one]
    rw [e]
    exact (measurable_one.indicator (measurableSet_lt measurable_const measurable_id).compl).aemeasurable

section
variable {U : Type*} [MeasurableSpace U] {μ : Measure U} (G : Generator μ) (N : NormalSampler μ)

/-- `sample_nig` as a function of two seeds -/
noncomputable def nigDraw (a : NigArgs) (y : U × U) : ℝ × ℝ := sampleNig (fun g => G.gam g y.1) (fun m s => N.normal m s y.2) a

theorem nigDraw_meas (a : NigArgs) : Measurable (nigDraw G N a) := by
  unfold nigDraw sampleNig
  have h1 : Measurable fun y : U × U => G.gam ⟨a.alpha, 1 / a.beta⟩ y.1 := (gam_measurable G _).comp measurable_fst
  refine Measurable.prodMk ?_ h1
  exact N.meas.comp (f := fun y : U × U => ((a.mu, Real.sqrt (1 / (a.lmbda * G.gam ⟨a.alpha, 1 / a.beta⟩ y.1))), y.2)) (by fun_prop)

/-- the draw has the normal-gamma distribution -/
theorem nigDraw_law {a : NigArgs} (ha : NigOk a) : (μ.prod μ).map (nigDraw G N a) = nigLaw a := by
  have hμ := gen_prob G
  have md := nigDraw_meas G N a
  refine Measure.ext_of_lintegral _ fun R hR => ?_
  have mRd : Measurable fun y => R (nigDraw G N a y) := hR.comp md
  rw [lintegral_map hR md, nigLaw_lintegral ha hR, lintegral_prod _ mRd.aemeasurable]
  have hβ := one_div_pos.2 ha.2.2
  have hl := G.gam_law ⟨a.alpha, 1 / a.beta⟩ ha.2.1 hβ
  have e : gammaMeasure a.alpha a.beta = μ.map (G.gam ⟨a.alpha, 1 / a.beta⟩) := by rw [hl]; simp
  set κ : ℝ → ENNReal := fun t => ∫⁻ y, R (N.normal a.mu (Real.sqrt (1 / (a.lmbda * t))) y, t) ∂μ with hκ
  have mκ : Measurable κ := by
    have : Measurable fun x : ℝ × U => R (N.normal a.mu (Real.sqrt (1 / (a.lmbda * x.1))) x.2, x.1) := by
      refine hR.comp (Measurable.prodMk ?_ measurable_fst)
      exact N.meas.comp (f := fun x : ℝ × U => ((a.mu, Real.sqrt (1 / (a.lmbda * x.1))), x.2)) (by fun_prop)
    exact this.lintegral_prod_right'
  have hk : ∀ᵐ t ∂gammaMeasure a.alpha a.beta, ∫⁻ m, R (m, t) ∂gaussianReal a.mu (1 / (a.lmbda * t)).toNNReal = κ t := by
    have hpos : ∀ᵐ t ∂gammaMeasure a.alpha a.beta, 0 < t := gammaMeasure_pos
    filter_upwards [hpos] with t ht
    have hp := one_div_pos.2 (mul_pos ha.1 ht)
    have := N.law a.mu (Real.sqrt (1 / (a.lmbda * t))) (Real.sqrt_pos.2 hp)
    rw [Real.sq_sqrt hp.le] at this
    have mRt : Measurable fun m : ℝ => R (m, t) := hR.comp (by fun_prop)
    have mN : Measurable (N.normal a.mu (Real.sqrt (1 / (a.lmbda * t)))) := N.meas.comp (f := fun u => ((a.mu, Real.sqrt (1 / (a.lmbda * t))), u)) (by fun_prop)
    rw [← this, lintegral_map mRt mN]
  rw [lintegral_congr_ae hk, e, lintegral_map mκ (gam_measurable G _)]
  rfl

/-- the normal-gamma update for a likelihood proportional to a product of normal densities -/
theorem nig_step {a : NigArgs} (ha : NigOk a) (l : List ℝ) {f : ℝ × ℝ → ℝ} (hf : Measurable f) {C : ℝ} (hC : 0 ≤ C)
    (h : ∀ m t, 0 < t → f (m, t) = C * (l.map (gaussianPDFReal m (1 / t).toNNReal)).prod) :
    BayesStep (nigLaw a) (fun x => ENNReal.ofReal (f x)) (μ.prod μ) (nigDraw G N (nigPosterior a l)) := by
  have hμ := gen_prob G
  obtain ⟨C', hC', hc⟩ := nig_conj a ha l
  refine BayesStep.of_eq (C := ENNReal.ofReal (C * C')) (nigDraw_meas G N _) ENNReal.ofReal_ne_top ?_
  rw [nigDraw_law G N (nigPosterior_ok a ha l)]
  have mn : ∀ a, Measurable fun x : ℝ × ℝ => ENNReal.ofReal (nigPdf a x.1 x.2) := fun a => (measurable_nigPdf a).ennreal_ofReal
  unfold nigLaw
  rw [← withDensity_mul _ (mn a) hf.ennreal_ofReal, ← withDensity_smul _ (mn _)]
  refine withDensity_congr_ae ?_
  have h0 : ∀ᵐ x ∂(volume : Measure ℝ).prod (volume : Measure ℝ), x.2 ≠ 0 := by
    have : ∀ᵐ t ∂(volume : Measure ℝ), t ≠ 0 := by simp [ae_iff]
    exact Measure.quasiMeasurePreserving_snd.ae this
  filter_upwards [h0] with x hx
  change ENNReal.ofReal (nigPdf a x.1 x.2) * ENNReal.ofReal (f x) = ENNReal.ofReal (C * C') * ENNReal.ofReal (nigPdf _ x.1 x.2)
  rcases lt_or_gt_of_ne hx with hneg | hpos
  · have hz : ∀ a : NigArgs, nigPdf a x.1 x.2 = 0 := fun a => by
      unfold nigPdf gammaPDFReal
      rw [if_neg (not_le.2 hneg), zero_mul]
    simp [hz]
  · have hn : ∀ a : NigArgs, NigOk a → 0 ≤ nigPdf a x.1 x.2 := fun a ha => by
      unfold nigPdf
      exact mul_nonneg (gammaPDFReal_nonneg ha.2.1 ha.2.2 _) (gaussianPDFReal_nonneg _ _ _)
    rw [← ENNReal.ofReal_mul (hn a ha), ← ENNReal.ofReal_mul (mul_nonneg hC hC'.le)]
    congr 1
    have := hc x.1 x.2 hpos
    have e : f x = f (x.1, x.2) := rfl
    rw [e, h x.1 x.2 hpos]
    linear_combination C * this

end

end PyHawkes
