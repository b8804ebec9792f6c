import Verif.Spec.PosteriorMix
import Verif.Props.GibbsInvariant

/-!
# The component/weight draw and the scale draw of the gamma-mixture model as exact conditional draws (used for C85)
-/
set_option linter.unusedSectionVars false
set_option linter.unusedVariables false

namespace PyHawkes
open Finset Spec MeasureTheory ProbabilityTheory

section
variable {U : Type*} [MeasurableSpace U] {μ : Measure U} (G : Generator μ)

theorem measurable_mixWeightPdf (κ0 ν0 κ : ℝ) : Measurable fun x : ℝ × ℝ × ℝ => mixWeightPdf κ0 ν0 κ x.1 x.2.1 x.2.2 := by
  unfold mixWeightPdf
  refine Measurable.ite (measurableSet_eq_fun (by fun_prop) measurable_const) ?_ ?_
  · exact (measurable_gammaPDF' κ).comp (f := fun x : ℝ × ℝ × ℝ => (x.1, x.2.2)) (by fun_prop)
  · exact ((measurable_gammaPDFReal κ0 ν0).ennreal_ofReal).comp (f := fun x : ℝ × ℝ × ℝ => x.2.2) (by fun_prop)

/-- draw of the component of one weight -/
noncomputable def mixEdge (κ0 ν0 κ v p : ℝ) (m : ℕ) (E : ℝ) (u : U) : ℝ :=
  if G.unif u < bernPost p (Real.exp (mixLp κ0 ν0 m E)) (Real.exp (mixLp κ v m E)) then 1 else 0

/-- draw of one weight given its component -/
noncomputable def mixWeight (κ0 ν0 κ v : ℝ) (m : ℕ) (E a : ℝ) (u : U) : ℝ := G.gam ⟨κ0 * (1 - a) + κ * a + m, 1 / (ν0 * (1 - a) + v * a + E)⟩ u

/-- a gamma density times `w^m e^{-wE}`: total mass and law of the corresponding draw -/
theorem mix_comp {κ v E : ℝ} (hκ : 0 < κ) (hv : 0 < v) (hE : 0 ≤ E) (m : ℕ) {R : ℝ → ENNReal} (hR : Measurable R) :
    ∫⁻ w, gammaPDF κ v w * (ENNReal.ofReal (w ^ m * Real.exp (-(w * E))) * R w) = ENNReal.ofReal (Real.exp (mixLp κ v m E)) * ∫⁻ u, R (G.gam ⟨κ + m, 1 / (v + E)⟩ u) ∂μ := by
  have hP := gen_prob G
  have hvE : 0 < v + E := by linarith
  have hm : Measurable (gammaPDF κ v) := (measurable_gammaPDFReal κ v).ennreal_ofReal
  have mf : Measurable fun w : ℝ => ENNReal.ofReal (w ^ m * Real.exp (-(w * E))) := by fun_prop
  have h1 := lintegral_withDensity_eq_lintegral_mul (volume : Measure ℝ) hm (mf.mul hR)
  have h2 := gammaLaw_conj hκ hv (Nat.cast_nonneg m) hE (p := (m : ℝ))
  simp only [Real.rpow_natCast] at h2
  have h3 := lintegral_withDensity_eq_lintegral_mul (gammaMeasure κ v) mf hR
  rw [h2, lintegral_smul_measure] at h3
  have hlaw := G.gam_law ⟨κ + m, 1 / (v + E)⟩ (by dsimp only; positivity) (by dsimp only; positivity)
  simp only [one_div_one_div] at hlaw
  rw [exp_mixLp κ v m E hκ hv (Nat.cast_nonneg m) hE, ← lintegral_map hR (gam_measurable G _), hlaw]
  simp only [smul_eq_mul] at h3
  refine Eq.trans ?_ h3.symm
  refine Eq.trans ?_ h1.symm
  rfl

theorem mixEdge_01 (κ0 ν0 κ v p : ℝ) (m : ℕ) (E : ℝ) (u : U) : mixEdge G κ0 ν0 κ v p m E u = 0 ∨ mixEdge G κ0 ν0 κ v p m E u = 1 := by
  unfold mixEdge; split_ifs
  · exact .inr rfl
  · exact .inl rfl

theorem measurable_mixEdge (κ0 ν0 κ p : ℝ) (m : ℕ) (E : ℝ) : Measurable fun x : ℝ × U => mixEdge G κ0 ν0 κ x.1 p m E x.2 := by
  have hl : Measurable fun v : ℝ => mixLp κ v m E := by unfold mixLp; fun_prop
  have hb : Measurable fun v : ℝ => bernPost p (Real.exp (mixLp κ0 ν0 m E)) (Real.exp (mixLp κ v m E)) := by unfold bernPost; fun_prop
  unfold mixEdge
  exact measurable_ite_lt (G.unif_meas.comp measurable_snd) (hb.comp measurable_fst)

theorem measurable_mixWeight (κ0 ν0 κ : ℝ) (m : ℕ) (E : ℝ) : Measurable fun x : ℝ × ℝ × U => mixWeight G κ0 ν0 κ x.1 m E x.2.1 x.2.2 :=
  G.gam_meas.comp (f := fun x : ℝ × ℝ × U => ((κ0 * (1 - x.2.1) + κ * x.2.1 + m, 1 / (ν0 * (1 - x.2.1) + x.1 * x.2.1 + E)), x.2.2)) (by fun_prop)

/-- the component and the weight of one edge, drawn one after the other -/
noncomputable def mixPair (κ0 ν0 κ v p : ℝ) (m : ℕ) (E : ℝ) (y : U × U) : ℝ × ℝ :=
  (mixEdge G κ0 ν0 κ v p m E y.1, mixWeight G κ0 ν0 κ v m E (mixEdge G κ0 ν0 κ v p m E y.1) y.2)

theorem measurable_mixPair (κ0 ν0 κ p : ℝ) (m : ℕ) (E : ℝ) : Measurable fun x : ℝ × U × U => mixPair G κ0 ν0 κ x.1 p m E x.2 := by
  have h1 : Measurable fun x : ℝ × U × U => mixEdge G κ0 ν0 κ x.1 p m E x.2.1 := (measurable_mixEdge G κ0 ν0 κ p m E).comp (f := fun x : ℝ × U × U => (x.1, x.2.1)) (by fun_prop)
  refine h1.prodMk ?_
  exact (measurable_mixWeight G κ0 ν0 κ m E).comp (f := fun x : ℝ × U × U => (x.1, mixEdge G κ0 ν0 κ x.1 p m E x.2.1, x.2.2)) (by fun_prop)

/-- **The component and the weight of one edge are drawn from their joint conditional distribution.** -/
theorem mix_edge_step {κ0 ν0 κ v p E : ℝ} (hκ0 : 0 < κ0) (hν0 : 0 < ν0) (hκ : 0 < κ) (hv : 0 < v) (hp : 0 ≤ p) (hp1 : p ≤ 1) (hE : 0 ≤ E) (m : ℕ) :
    BayesStep ((coinLaw p).prod (volume : Measure ℝ)) (fun x => mixWeightPdf κ0 ν0 κ v x.1 x.2 * ENNReal.ofReal (x.2 ^ m * Real.exp (-(x.2 * E)))) (μ.prod μ)
      (mixPair G κ0 ν0 κ v p m E) := by
  have hP := gen_prob G
  have hc := coinLaw_prob hp hp1
  set l0 := Real.exp (mixLp κ0 ν0 m E) with hl0
  set l1 := Real.exp (mixLp κ v m E) with hl1
  have p0 : 0 < l0 := Real.exp_pos _
  have p1 : 0 < l1 := Real.exp_pos _
  have hZ : 0 < p * l1 + (1 - p) * l0 := by
    rcases hp.eq_or_lt with h | h
    · subst h; simpa using p0
    · exact add_pos_of_pos_of_nonneg (mul_pos h p1) (mul_nonneg (by linarith) p0.le)
  have ms : Measurable (mixPair G κ0 ν0 κ v p m E) := (measurable_mixPair G κ0 ν0 κ p m E).comp (f := fun y => (v, y)) (by fun_prop)
  have mf : Measurable fun x : ℝ × ℝ => mixWeightPdf κ0 ν0 κ v x.1 x.2 * ENNReal.ofReal (x.2 ^ m * Real.exp (-(x.2 * E))) := by
    have := (measurable_mixWeightPdf κ0 ν0 κ).comp (f := fun x : ℝ × ℝ => (v, x)) (by fun_prop)
    exact this.mul (by fun_prop)
  refine BayesStep.of_eq ms (C := ENNReal.ofReal (p * l1 + (1 - p) * l0)) ENNReal.ofReal_ne_top ?_
  ext s hs
  have mI : Measurable (s.indicator (1 : ℝ × ℝ → ENNReal)) := measurable_one.indicator hs
  set R := s.indicator (1 : ℝ × ℝ → ENNReal) with hR
  rw [Measure.smul_apply, smul_eq_mul, ← lintegral_indicator_one hs, ← lintegral_indicator_one hs, lintegral_map mI ms, lintegral_withDensity_eq_lintegral_mul _ mf mI]
  have mfR : Measurable fun x : ℝ × ℝ => mixWeightPdf κ0 ν0 κ v x.1 x.2 * ENNReal.ofReal (x.2 ^ m * Real.exp (-(x.2 * E))) * R x := mf.mul mI
  have mRs : Measurable fun y => R (mixPair G κ0 ν0 κ v p m E y) := mI.comp ms
  change ∫⁻ x : ℝ × ℝ, mixWeightPdf κ0 ν0 κ v x.1 x.2 * ENNReal.ofReal (x.2 ^ m * Real.exp (-(x.2 * E))) * R x ∂_ = _
  rw [lintegral_prod _ mfR.aemeasurable, lintegral_prod _ mRs.aemeasurable, lintegral_coin]
  have R1 : Measurable fun w => R (1, w) := mI.comp (by fun_prop)
  have R0 : Measurable fun w => R (0, w) := mI.comp (by fun_prop)
  have e1 : ∫⁻ w, mixWeightPdf κ0 ν0 κ v 1 w * ENNReal.ofReal (w ^ m * Real.exp (-(w * E))) * R (1, w) = ENNReal.ofReal l1 * ∫⁻ u, R (1, G.gam ⟨κ + m, 1 / (v + E)⟩ u) ∂μ := by
    rw [← mix_comp G hκ hv hE m R1]
    refine lintegral_congr fun w => ?_
    unfold mixWeightPdf
    rw [if_pos rfl, mul_assoc]
  have e0 : ∫⁻ w, mixWeightPdf κ0 ν0 κ v 0 w * ENNReal.ofReal (w ^ m * Real.exp (-(w * E))) * R (0, w) = ENNReal.ofReal l0 * ∫⁻ u, R (0, G.gam ⟨κ0 + m, 1 / (ν0 + E)⟩ u) ∂μ := by
    rw [← mix_comp G hκ0 hν0 hE m R0]
    refine lintegral_congr fun w => ?_
    unfold mixWeightPdf
    rw [if_neg (by norm_num), mul_assoc]
  rw [e1, e0]
  have hq := bernPost_mem hp hp1 p0 p1
  have e2 := unif_coin G hq.1 hq.2 fun a => ∫⁻ u, R (a, mixWeight G κ0 ν0 κ v m E a u) ∂μ
  have e3 : ∫⁻ x, ∫⁻ y, R (mixPair G κ0 ν0 κ v p m E (x, y)) ∂μ ∂μ = _ := e2
  rw [e3]
  have w1 : ∀ u, mixWeight G κ0 ν0 κ v m E 1 u = G.gam ⟨κ + m, 1 / (v + E)⟩ u := fun u => by unfold mixWeight; norm_num
  have w0 : ∀ u, mixWeight G κ0 ν0 κ v m E 0 u = G.gam ⟨κ0 + m, 1 / (ν0 + E)⟩ u := fun u => by unfold mixWeight; norm_num
  simp only [w1, w0]
  rw [mul_add, ← mul_assoc, ← mul_assoc, ← mul_assoc, ← mul_assoc, ← ENNReal.ofReal_mul hp, ← ENNReal.ofReal_mul (by linarith), ← ENNReal.ofReal_mul hZ.le, ← ENNReal.ofReal_mul hZ.le]
  congr 3
  · unfold bernPost; field_simp
  · unfold bernPost; field_simp; ring

/-! ### all edges together -/

theorem lintegral_pairs {ι X Y : Type*} [Fintype ι] [MeasurableSpace X] [MeasurableSpace Y] (a : ι → Measure X) (b : ι → Measure Y) [∀ i, SigmaFinite (a i)] [∀ i, SigmaFinite (b i)]
    {F : (ι → X) × (ι → Y) → ENNReal} (hF : Measurable F) :
    ∫⁻ x, F x ∂(Measure.pi a).prod (Measure.pi b) = ∫⁻ y, F (fun i => (y i).1, fun i => (y i).2) ∂Measure.pi fun i => (a i).prod (b i) := by
  have := measurePreserving_arrowProdEquivProdArrow X Y ι a b
  rw [← this.lintegral_comp hF]
  rfl

/-! ### the scale -/

/-- as a function of the scale, the density of the weights is a constant times `v^(kappa * #edges) e^{-v * (sum of the weights of the edges)}` -/
theorem mixDens_scale {ι : Type*} [Fintype ι] (κ0 ν0 κ : ℝ) (hκ0 : 0 < κ0) (hν0 : 0 < ν0) (hκ : 0 < κ) {A : ι → ℝ} (hA : ∀ e, A e = 0 ∨ A e = 1) (W : ι → ℝ) :
    ∃ C : ENNReal, C ≠ ⊤ ∧ ∀ v, 0 < v → ∏ e, mixWeightPdf κ0 ν0 κ v (A e) (W e) = C * ENNReal.ofReal (v ^ ((∑ e, A e) * κ) * Real.exp (-(v * ∑ e, A e * W e))) := by
  have one : ∀ a w : ℝ, a = 0 ∨ a = 1 → ∃ C : ENNReal, C ≠ ⊤ ∧ ∀ v, 0 < v → mixWeightPdf κ0 ν0 κ v a w = C * ENNReal.ofReal (v ^ (a * κ) * Real.exp (-(v * (a * w)))) := by
    rintro a w (rfl | rfl)
    · refine ⟨gammaPDF κ0 ν0 w, ENNReal.ofReal_ne_top, fun v hv => ?_⟩
      unfold mixWeightPdf
      rw [if_neg (by norm_num)]
      simp
    · rcases lt_or_ge w 0 with hw | hw
      · refine ⟨0, ENNReal.zero_ne_top, fun v hv => ?_⟩
        unfold mixWeightPdf gammaPDF
        rw [if_pos rfl, gammaPDFReal_zero_of_neg hw]; simp
      · refine ⟨ENNReal.ofReal (1 / Real.Gamma κ * w ^ (κ - 1)), ENNReal.ofReal_ne_top, fun v hv => ?_⟩
        have hG := Real.Gamma_pos_of_pos hκ
        unfold mixWeightPdf gammaPDF gammaPDFReal
        rw [if_pos rfl, if_pos hw, ← ENNReal.ofReal_mul (by positivity)]
        congr 1
        rw [one_mul, one_mul]
        ring
  choose C hC hCe using fun e => one (A e) (W e) (hA e)
  refine ⟨∏ e, C e, ENNReal.prod_ne_top fun e _ => hC e, fun v hv => ?_⟩
  rw [prod_congr rfl fun e _ => hCe e v hv, prod_mul_distrib, ← ENNReal.ofReal_prod_of_nonneg fun e _ => by positivity]
  congr 2
  rw [prod_mul_distrib, ← Real.exp_sum, ← Real.rpow_sum_of_pos hv, sum_mul, sum_neg_distrib, mul_sum]

end

section
variable {U : Type*} [MeasurableSpace U] {μ : Measure U} (G : Generator μ) {c : HawkesState} {n : ERFixed}

/-- density of the weights given components and scale -/
noncomputable def mixDens (κ0 ν0 : ℝ) (n : ERFixed) (η : ℝ) (A W : Pair c.base.K → ℝ) : ENNReal := ∏ e, mixWeightPdf κ0 ν0 n.kappa η (A e) (W e)

theorem measurable_mixDens (κ0 ν0 : ℝ) : Measurable fun x : ℝ × (Pair c.base.K → ℝ) × (Pair c.base.K → ℝ) => mixDens (c := c) κ0 ν0 n x.1 x.2.1 x.2.2 :=
  Finset.measurable_prod _ fun e _ => (measurable_mixWeightPdf κ0 ν0 n.kappa).comp (f := fun x : ℝ × (Pair c.base.K → ℝ) × (Pair c.base.K → ℝ) => (x.1, x.2.1 e, x.2.2 e)) (by fun_prop)

theorem mixDens_neg {κ0 ν0 η : ℝ} {A W : Pair c.base.K → ℝ} (h : ¬ ∀ e, 0 ≤ W e) : mixDens κ0 ν0 n η A W = 0 := by
  push Not at h
  obtain ⟨e, he⟩ := h
  refine prod_eq_zero (mem_univ e) ?_
  unfold mixWeightPdf gammaPDF
  rw [gammaPDFReal_zero_of_neg he, gammaPDFReal_zero_of_neg he, ENNReal.ofReal_zero, ite_self]

/-- the draw of the scale leaves its conditional distribution invariant -/
theorem mix_scale_step {κ0 ν0 : ℝ} (hκ0 : 0 < κ0) (hν0 : 0 < ν0) (h : CfgOk c n) {A W : Pair c.base.K → ℝ} (hA : ∀ e, A e = 0 ∨ A e = 1) {R : ℝ → ENNReal} (hR : Measurable R) :
    ∫⁻ η, mixDens (c := c) κ0 ν0 n η A W * ∫⁻ u, R (vOf G c n u η A W) ∂μ ∂scalePrior n = ∫⁻ η, mixDens (c := c) κ0 ν0 n η A W * R η ∂scalePrior n := by
  have hμ := gen_prob G
  by_cases hW : ∀ e, 0 ≤ W e
  swap
  · simp only [mixDens_neg hW, zero_mul]
  rcases scale_cases G n h with ⟨a, b, ha, hb, e, hv⟩ | ⟨e, hv⟩
  · rw [e]
    simp only [hv]
    have hs : (∑ e, if 0 < A e then W e else 0) = ∑ e, A e * W e := sum_congr rfl fun e _ => by
      rcases hA e with h | h <;> rw [h] <;> simp
    rw [hs]
    obtain ⟨C, hC, hCe⟩ := mixDens_scale κ0 ν0 n.kappa hκ0 hν0 h.net.kappa hA W
    have hp0 : 0 ≤ (∑ e, A e) * n.kappa := mul_nonneg (sum_nonneg fun e _ => by rcases hA e with h | h <;> rw [h] <;> norm_num) h.net.kappa.le
    have hE0 : 0 ≤ ∑ e, A e * W e := sum_nonneg fun e _ => mul_nonneg (by rcases hA e with h | h <;> rw [h] <;> norm_num) (hW e)
    have st := gammaLaw_step G ha hb hp0 hE0
    have mD : Measurable fun v => ENNReal.ofReal (v ^ ((∑ e, A e) * n.kappa) * Real.exp (-(v * ∑ e, A e * W e))) := by fun_prop
    have conv : ∀ Q : ℝ → ENNReal, Measurable Q → ∫⁻ η, mixDens (c := c) κ0 ν0 n η A W * Q η ∂gammaMeasure a b
        = C * ∫⁻ η, ENNReal.ofReal (η ^ ((∑ e, A e) * n.kappa) * Real.exp (-(η * ∑ e, A e * W e))) * Q η ∂gammaMeasure a b := by
      intro Q hQ
      have mQ : Measurable fun η => ENNReal.ofReal (η ^ ((∑ e, A e) * n.kappa) * Real.exp (-(η * ∑ e, A e * W e))) * Q η := mD.mul hQ
      rw [← lintegral_const_mul _ mQ]
      refine lintegral_congr_ae ?_
      filter_upwards [gammaMeasure_pos] with η hη
      unfold mixDens
      rw [hCe η hη, mul_assoc]
    have r1 := st.lintegral mD (gam_measurable G _) hR
    have r2 := st.lintegral mD (gam_measurable G _) (R := fun _ => ∫⁻ u, R (G.gam ⟨a + (∑ e, A e) * n.kappa, 1 / (b + ∑ e, A e * W e)⟩ u) ∂μ) measurable_const
    rw [conv _ hR, conv _ measurable_const, r1, r2, lintegral_const, measure_univ, mul_one]
  · simp only [hv, lintegral_const, measure_univ, mul_one]

end

end PyHawkes
