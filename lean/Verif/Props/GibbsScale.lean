import Verif.Props.GibbsLaws

/-!
# The draw of the network's weight scale leaves its conditional distribution invariant (used for C83)
-/
set_option linter.unusedSectionVars false
set_option linter.unusedVariables false

namespace PyHawkes
open Finset Spec MeasureTheory ProbabilityTheory

theorem pi_ae_all {ι : Type*} [Fintype ι] {X : ι → Type*} [∀ i, MeasurableSpace (X i)] (μ : ∀ i, Measure (X i)) [∀ i, IsProbabilityMeasure (μ i)] {p : ∀ i, X i → Prop}
    (h : ∀ i, ∀ᵐ x ∂μ i, p i x) : ∀ᵐ x ∂Measure.pi μ, ∀ i, p i (x i) :=
  ae_all_iff.2 fun i => (measurePreserving_eval μ i).quasiMeasurePreserving.ae (h i)

section
variable {ι : Type*} [Fintype ι] {U : Type*} [MeasurableSpace U] {μ : Measure U} (G : Generator μ)

/-- distribution of the masked weight -/
noncomputable def maskLaw (κ v A : ℝ) : Measure ℝ := (gammaMeasure κ v).map fun w => A * w

theorem maskLaw_prob {κ v A : ℝ} (hκ : 0 < κ) (hv : 0 < v) : IsProbabilityMeasure (maskLaw κ v A) := by
  have := isProbabilityMeasure_gammaMeasure hκ hv
  exact Measure.isProbabilityMeasure_map (by fun_prop)

theorem maskLaw_nonneg {κ v A : ℝ} (hA : A = 0 ∨ A = 1) : ∀ᵐ w ∂maskLaw κ v A, 0 ≤ w := by
  unfold maskLaw
  rw [ae_map_iff (by fun_prop) measurableSet_Ici]
  filter_upwards [gammaMeasure_pos] with w hw
  rcases hA with rfl | rfl
  · simp
  · simpa using hw.le

theorem maskLaw_tilt {κ v A : ℝ} (hκ : 0 < κ) (hv : 0 < v) (hA : A = 0 ∨ A = 1) :
    maskLaw κ v A = (maskLaw κ 1 A).withDensity fun w => ENNReal.ofReal (v ^ (A * κ) * Real.exp (-((v - 1) * (A * w)))) := by
  unfold maskLaw
  rcases hA with rfl | rfl
  · have p1 := isProbabilityMeasure_gammaMeasure hκ hv
    have p2 := isProbabilityMeasure_gammaMeasure hκ one_pos
    simp only [zero_mul, Measure.map_const, measure_univ, one_smul, Real.rpow_zero, mul_zero, neg_zero, Real.exp_zero, one_mul, ENNReal.ofReal_one]
    exact withDensity_one.symm
  · simp only [one_mul]
    rw [Measure.map_id', Measure.map_id', gamma_tilt hκ hv]

variable {κ a b : ℝ} (A : ι → ℝ)

theorem weights_masked (hκ : 0 < κ) {v : ℝ} (hv : 0 < v) {H : (ι → ℝ) → ENNReal} (hH : Measurable H) :
    ∫⁻ W : ι → ℝ, (∏ e, gammaPDF κ v (W e)) * H (fun e => A e * W e) ∂Measure.pi (fun _ => volume) = ∫⁻ w, H w ∂Measure.pi fun e => maskLaw κ v (A e) := by
  have hm : Measurable (gammaPDF κ v) := (measurable_gammaPDFReal κ v).ennreal_ofReal
  have hP := isProbabilityMeasure_gammaMeasure hκ hv
  have hP' : IsProbabilityMeasure ((volume : Measure ℝ).withDensity (gammaPDF κ v)) := hP
  have hP'' : ∀ e, IsProbabilityMeasure ((gammaMeasure κ v).map fun w => A e * w) := fun e => maskLaw_prob hκ hv
  have h1 := pi_withDensity' (fun _ : ι => (volume : Measure ℝ)) (fun _ => gammaPDF κ v) fun _ => hm
  have hmH : Measurable fun W : ι → ℝ => H fun e => A e * W e := hH.comp (by fun_prop)
  have hmp : Measurable fun W : ι → ℝ => ∏ e, gammaPDF κ v (W e) := Finset.measurable_prod _ fun e _ => hm.comp (measurable_pi_apply e)
  have h2 := lintegral_withDensity_eq_lintegral_mul (Measure.pi fun _ : ι => (volume : Measure ℝ)) hmp hmH
  simp only [Pi.mul_apply] at h2
  rw [← h2, ← h1]
  unfold maskLaw
  rw [← Measure.pi_map_pi (μ := fun _ => gammaMeasure κ v) (f := fun e w => A e * w) (fun e => by fun_prop), lintegral_map hH (by fun_prop)]
  rfl

theorem scale_invariant (hκ : 0 < κ) (ha : 0 < a) (hb : 0 < b) (hA : ∀ e, A e = 0 ∨ A e = 1) {H : (ι → ℝ) → ENNReal} (hH : Measurable H) {R : ℝ → ENNReal} (hR : Measurable R) :
    ∫⁻ v, ∫⁻ W : ι → ℝ, (∏ e, gammaPDF κ v (W e)) * (H (fun e => A e * W e) * ∫⁻ u, R (G.gam ⟨a + (∑ e, A e) * κ, 1 / (b + ∑ e, A e * W e)⟩ u) ∂μ)
        ∂Measure.pi (fun _ => volume) ∂gammaMeasure a b
      = ∫⁻ v, ∫⁻ W : ι → ℝ, (∏ e, gammaPDF κ v (W e)) * (H (fun e => A e * W e) * R v) ∂Measure.pi (fun _ => volume) ∂gammaMeasure a b := by
  have hμ := gen_prob G
  have hab := isProbabilityMeasure_gammaMeasure ha hb
  set p : ℝ := (∑ e, A e) * κ with hp
  have hp0 : 0 ≤ p := mul_nonneg (sum_nonneg fun e _ => by rcases hA e with h | h <;> rw [h] <;> norm_num) hκ.le
  -- the factor by which the scale changes the law of the masked weights
  set D : ℝ → (ι → ℝ) → ENNReal := fun v w => ENNReal.ofReal (v ^ p * Real.exp (-(v * ∑ e, A e * w e))) with hD
  set E : (ι → ℝ) → ENNReal := fun w => ENNReal.ofReal (Real.exp (∑ e, A e * w e)) with hE
  have mE : Measurable E := by rw [hE]; fun_prop
  have mD : Measurable fun x : ℝ × (ι → ℝ) => D x.1 x.2 := by rw [hD]; fun_prop
  have hP1 : ∀ e, IsProbabilityMeasure (maskLaw κ 1 (A e)) := fun e => maskLaw_prob hκ one_pos
  have key : ∀ v, 0 < v → ∀ Q : (ι → ℝ) → ENNReal, Measurable Q → ∫⁻ W : ι → ℝ, (∏ e, gammaPDF κ v (W e)) * Q (fun e => A e * W e) ∂Measure.pi (fun _ => volume)
      = ∫⁻ w, D v w * (E w * Q w) ∂Measure.pi fun e => maskLaw κ 1 (A e) := by
    intro v hv Q hQ
    rw [weights_masked A hκ hv hQ]
    have hPv : ∀ e, IsProbabilityMeasure (maskLaw κ v (A e)) := fun e => maskLaw_prob hκ hv
    have e1 : (fun e => maskLaw κ v (A e)) = fun e => (maskLaw κ 1 (A e)).withDensity fun w => ENNReal.ofReal (v ^ (A e * κ) * Real.exp (-((v - 1) * (A e * w)))) := by
      funext e; exact maskLaw_tilt hκ hv (hA e)
    have hPv' : ∀ e, IsProbabilityMeasure ((maskLaw κ 1 (A e)).withDensity fun w => ENNReal.ofReal (v ^ (A e * κ) * Real.exp (-((v - 1) * (A e * w))))) := fun e => by
      rw [← maskLaw_tilt hκ hv (hA e)]; exact hPv e
    rw [e1, pi_withDensity' _ _ (fun e => by fun_prop), lintegral_withDensity_eq_lintegral_mul _ (by fun_prop) hQ]
    refine lintegral_congr fun w => ?_
    rw [Pi.mul_apply, ← mul_assoc]
    congr 1
    rw [hD, hE]
    dsimp only
    rw [← ENNReal.ofReal_prod_of_nonneg fun e _ => by positivity, ← ENNReal.ofReal_mul (by positivity)]
    congr 1
    rw [prod_mul_distrib, ← Real.exp_sum, ← Real.rpow_sum_of_pos hv, hp, sum_mul, mul_assoc, ← Real.exp_add]
    congr 2
    rw [sum_neg_distrib, ← mul_sum]
    ring
  have mK : Measurable fun w : ι → ℝ => ∫⁻ u, R (G.gam ⟨a + p, 1 / (b + ∑ e, w e)⟩ u) ∂μ := by
    have : Measurable fun x : (ι → ℝ) × U => R (G.gam ⟨a + p, 1 / (b + ∑ e, x.1 e)⟩ x.2) :=
      hR.comp (G.gam_meas.comp (f := fun x : (ι → ℝ) × U => ((a + p, 1 / (b + ∑ e, x.1 e)), x.2)) (by fun_prop))
    exact this.lintegral_prod_right'
  have eL : ∀ᵐ v ∂gammaMeasure a b, ∫⁻ W : ι → ℝ, (∏ e, gammaPDF κ v (W e)) * (H (fun e => A e * W e) * ∫⁻ u, R (G.gam ⟨a + p, 1 / (b + ∑ e, A e * W e)⟩ u) ∂μ) ∂Measure.pi (fun _ => volume)
      = ∫⁻ w, D v w * (E w * (H w * ∫⁻ u, R (G.gam ⟨a + p, 1 / (b + ∑ e, w e)⟩ u) ∂μ)) ∂Measure.pi fun e => maskLaw κ 1 (A e) := by
    filter_upwards [gammaMeasure_pos] with v hv
    exact key v hv (fun w => H w * ∫⁻ u, R (G.gam ⟨a + p, 1 / (b + ∑ e, w e)⟩ u) ∂μ) (hH.mul mK)
  have eR : ∀ᵐ v ∂gammaMeasure a b, ∫⁻ W : ι → ℝ, (∏ e, gammaPDF κ v (W e)) * (H (fun e => A e * W e) * R v) ∂Measure.pi (fun _ => volume)
      = ∫⁻ w, D v w * (E w * (H w * R v)) ∂Measure.pi fun e => maskLaw κ 1 (A e) := by
    filter_upwards [gammaMeasure_pos] with v hv
    exact key v hv (fun w => H w * R v) (hH.mul measurable_const)
  have s1 := lintegral_lintegral_swap (μ := gammaMeasure a b) (ν := Measure.pi fun e => maskLaw κ 1 (A e)) (f := fun v w => D v w * (E w * (H w * R v)))
    (by
      have : Measurable fun x : ℝ × (ι → ℝ) => D x.1 x.2 * (E x.2 * (H x.2 * R x.1)) := by fun_prop
      exact this.aemeasurable)
  have s2 := lintegral_lintegral_swap (μ := gammaMeasure a b) (ν := Measure.pi fun e => maskLaw κ 1 (A e))
    (f := fun v w => D v w * (E w * (H w * ∫⁻ u, R (G.gam ⟨a + p, 1 / (b + ∑ e, w e)⟩ u) ∂μ)))
    (by
      have : Measurable fun x : ℝ × (ι → ℝ) => D x.1 x.2 * (E x.2 * (H x.2 * ∫⁻ u, R (G.gam ⟨a + p, 1 / (b + ∑ e, x.2 e)⟩ u) ∂μ)) :=
        mD.mul ((mE.comp measurable_snd).mul ((hH.comp measurable_snd).mul (mK.comp measurable_snd)))
      exact this.aemeasurable)
  rw [lintegral_congr_ae eL, lintegral_congr_ae eR, s1, s2]
  refine lintegral_congr_ae ?_
  filter_upwards [pi_ae_all (fun e => maskLaw κ 1 (A e)) (p := fun e w => 0 ≤ w) fun e => maskLaw_nonneg (hA e),
    pi_ae_all (fun e => maskLaw κ 1 (A e)) (p := fun e w => A e * w = w) fun e => by
      unfold maskLaw
      rw [ae_map_iff (by fun_prop) (measurableSet_eq_fun (by fun_prop) (by fun_prop))]
      exact Filter.Eventually.of_forall fun w => by rcases hA e with h | h <;> rw [h] <;> simp] with w hw hAw
  have hS : ∑ e, A e * w e = ∑ e, w e := sum_congr rfl fun e _ => hAw e
  have hS0 : 0 ≤ ∑ e, w e := sum_nonneg fun e _ => hw e
  have st := gammaLaw_step G ha hb hp0 hS0
  have mDw : Measurable fun v => ENNReal.ofReal (v ^ p * Real.exp (-(v * ∑ e, w e))) := by fun_prop
  have r1 := st.lintegral mDw (gam_measurable G _) (R := fun v => E w * (H w * R v)) (by fun_prop)
  have r2 := st.lintegral mDw (gam_measurable G _) (R := fun _ => E w * (H w * ∫⁻ u, R (G.gam ⟨a + p, 1 / (b + ∑ e, w e)⟩ u) ∂μ)) (by fun_prop)
  rw [hD]
  dsimp only
  rw [hS, r1, r2]
  congr 1
  rw [lintegral_const, measure_univ, mul_one, lintegral_const_mul _ (by have := gam_measurable G ⟨a + p, 1 / (b + ∑ e, w e)⟩; fun_prop),
    lintegral_const_mul _ (show Measurable fun u => R (G.gam ⟨a + p, 1 / (b + ∑ e, w e)⟩ u) from hR.comp (gam_measurable G _))]

end

end PyHawkes
