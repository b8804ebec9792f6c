import Verif.Props.DirichletLaw
import Verif.Spec.Densities
import Mathlib.Probability.ConditionalProbability

/-! # The direction of independent gamma variables is independent of their sum; change of concentrations of a Dirichlet distribution -/
set_option linter.unusedSectionVars false

namespace PyHawkes
open Finset Spec MeasureTheory ProbabilityTheory

/-- a product of reweighted probability measures is the reweighted product -/
theorem pi_withDensity {n : ℕ} (μ : Fin n → Measure ℝ) [∀ b, IsProbabilityMeasure (μ b)] (f : Fin n → ℝ → ENNReal) (hf : ∀ b, Measurable (f b))
    [∀ b, SigmaFinite ((μ b).withDensity (f b))] :
    Measure.pi (fun b => (μ b).withDensity (f b)) = (Measure.pi μ).withDensity fun y => ∏ b, f b (y b) := by
  refine (Measure.pi_eq fun s hs => ?_)
  rw [withDensity_apply _ (MeasurableSet.univ_pi hs), ← lintegral_indicator (MeasurableSet.univ_pi hs)]
  have e : (Set.univ.pi s).indicator (fun y : Fin n → ℝ => ∏ b, f b (y b)) = fun y => ∏ b, (s b).indicator (f b) (y b) := by
    funext y
    by_cases h : y ∈ Set.univ.pi s
    · rw [Set.indicator_of_mem h]
      exact prod_congr rfl fun b _ => (Set.indicator_of_mem (h b (Set.mem_univ b)) _).symm
    · rw [Set.indicator_of_notMem h]
      simp only [Set.mem_pi, Set.mem_univ, forall_true_left, not_forall] at h
      obtain ⟨b, hb⟩ := h
      exact (prod_eq_zero (mem_univ b) (Set.indicator_of_notMem hb _)).symm
  rw [e]
  have hi : iIndepFun (fun (b : Fin n) (y : Fin n → ℝ) => (s b).indicator (f b) (y b)) (Measure.pi μ) :=
    iIndepFun_pi (X := fun b => (s b).indicator (f b)) fun b => ((hf b).indicator (hs b)).aemeasurable
  rw [lintegral_prod_eq_prod_lintegral_of_indepFun univ (fun (b : Fin n) (y : Fin n → ℝ) => (s b).indicator (f b) (y b)) hi (fun b => ((hf b).indicator (hs b)).comp (measurable_pi_apply b))]
  refine prod_congr rfl fun b _ => ?_
  rw [withDensity_apply _ (hs b), ← lintegral_indicator (hs b)]
  exact (measurePreserving_eval μ b).lintegral_comp ((hf b).indicator (hs b))

/-- change of the shape of a gamma distribution -/
theorem gamma_reshape {p q : ℝ} (hp : 0 < p) (hq : 0 < q) :
    gammaMeasure p 1 = (gammaMeasure q 1).withDensity fun x => ENNReal.ofReal (Real.Gamma q / Real.Gamma p * x ^ (p - q)) := by
  have hGp := Real.Gamma_pos_of_pos hp
  have hGq := Real.Gamma_pos_of_pos hq
  unfold gammaMeasure
  have hm : Measurable (gammaPDF q 1) := (measurable_gammaPDFReal q 1).ennreal_ofReal
  rw [← withDensity_mul _ hm (by fun_prop)]
  refine withDensity_congr_ae ?_
  have h0 : ∀ᵐ x : ℝ, x ≠ 0 := by simp [ae_iff, measure_singleton]
  filter_upwards [h0] with x hx
  rw [Pi.mul_apply]
  unfold gammaPDF
  rcases lt_or_gt_of_ne hx with h | h
  · rw [gammaPDFReal_zero_of_neg h, gammaPDFReal_zero_of_neg h]; simp
  · rw [← ENNReal.ofReal_mul (gammaPDFReal_nonneg hq one_pos x)]
    congr 1
    unfold gammaPDFReal
    rw [if_pos h.le, if_pos h.le, Real.one_rpow, Real.one_rpow, show p - 1 = (q - 1) + (p - q) by ring, Real.rpow_add h]
    field_simp

/-- change of the rate of a gamma distribution -/
theorem gamma_tilt {a r : ℝ} (ha : 0 < a) (hr : 0 < r) :
    ((gammaMeasure a 1).withDensity fun x => ENNReal.ofReal (r ^ a * Real.exp (-((r - 1) * x)))) = gammaMeasure a r := by
  unfold gammaMeasure
  have hm : Measurable (gammaPDF a 1) := (measurable_gammaPDFReal a 1).ennreal_ofReal
  rw [← withDensity_mul _ hm (by fun_prop)]
  refine withDensity_congr_ae ?_
  have h0 : ∀ᵐ x : ℝ, x ≠ 0 := by simp [ae_iff, measure_singleton]
  filter_upwards [h0] with x hx
  rw [Pi.mul_apply]
  unfold gammaPDF
  rcases lt_or_gt_of_ne hx with h | h
  · rw [gammaPDFReal_zero_of_neg h, gammaPDFReal_zero_of_neg h]; simp
  · rw [← ENNReal.ofReal_mul (gammaPDFReal_nonneg ha one_pos x)]
    congr 1
    unfold gammaPDFReal
    rw [if_pos h.le, if_pos h.le, Real.one_rpow, show -(r * x) = -(1 * x) + -((r - 1) * x) by ring, Real.exp_add]
    ring

/-- `r` times a gamma variable of rate `r` is a gamma variable of rate 1 -/
theorem gamma_scale {a r : ℝ} (ha : 0 < a) (hr : 0 < r) : (gammaMeasure a r).map (fun x => r * x) = gammaMeasure a 1 := by
  have hP : IsProbabilityMeasure (gammaMeasure a r) := isProbabilityMeasure_gammaMeasure ha hr
  refine (hasLaw_gamma_of_mgf (S := fun x => r * x) ha (by fun_prop) ?_).map_eq
  funext t
  rw [mgf_gamma ha, mgf, integral_gammaMeasure ha hr]
  have hG := Real.Gamma_pos_of_pos ha
  have hf : ∀ x ∈ Set.Ioi (0:ℝ), gammaPDFReal a r x * Real.exp (t * (r * x)) = r ^ a / Real.Gamma a * (x ^ (a - 1) * Real.exp (-((r * (1 - t)) * x))) := by
    intro x hx
    unfold gammaPDFReal
    rw [if_pos (le_of_lt hx), mul_assoc, mul_assoc, ← Real.exp_add]
    congr 3; ring
  split_ifs with h
  · have h1 : 0 < 1 - t := by linarith
    rw [expGamma, setIntegral_congr_fun measurableSet_Ioi hf, integral_const_mul, Real.integral_rpow_mul_exp_neg_mul_Ioi ha (by positivity), one_div,
      Real.inv_rpow (by positivity), Real.mul_rpow hr.le h1.le, Real.rpow_neg h1.le]
    have := Real.rpow_pos_of_pos hr a
    field_simp
  · symm
    refine integral_undef fun hi => ?_
    have hi2 : IntegrableOn (fun x : ℝ => gammaPDFReal a r x * Real.exp (t * (r * x))) (Set.Ioi 0) volume := hi
    rw [integrableOn_congr_fun hf measurableSet_Ioi] at hi2
    refine not_integrableOn_Ioi_rpow (a - 1) ?_
    have hi3 : IntegrableOn (fun x : ℝ => x ^ (a - 1) * Real.exp (-((r * (1 - t)) * x))) (Set.Ioi 0) volume := by
      have hc : r ^ a / Real.Gamma a ≠ 0 := by have := Real.rpow_pos_of_pos hr a; positivity
      refine (hi2.const_mul (r ^ a / Real.Gamma a)⁻¹).congr (Filter.Eventually.of_forall fun x => ?_)
      show (r ^ a / Real.Gamma a)⁻¹ * (r ^ a / Real.Gamma a * _) = _
      rw [inv_mul_cancel_left₀ hc]
    refine Integrable.mono' hi3 (by fun_prop) ?_
    refine (ae_restrict_iff' measurableSet_Ioi).2 (Filter.Eventually.of_forall fun x hx => ?_)
    have hx : (0:ℝ) < x := hx
    rw [Real.norm_of_nonneg (Real.rpow_nonneg hx.le _)]
    refine le_mul_of_one_le_right (Real.rpow_nonneg hx.le _) (Real.one_le_exp ?_)
    have : 0 ≤ r * (t - 1) * x := mul_nonneg (mul_nonneg hr.le (by linarith)) hx.le
    nlinarith

section
variable {B : ℕ} {v : ℕ → ℝ} (hv : ∀ b < B, 0 < v b)
include hv

/-- change of the rate in the product of gamma distributions -/
theorem gammaPi_tilt {r : ℝ} (hr : 0 < r) :
    ((gammaPi B v).withDensity fun y => ENNReal.ofReal (r ^ (∑ b ∈ range B, v b) * Real.exp (-((r - 1) * ∑ b, y b)))).map (fun y b => r * y b) = gammaPi B v := by
  have h1 : ∀ b : Fin B, IsProbabilityMeasure (gammaMeasure (v b) 1) := fun b => isProbabilityMeasure_gammaMeasure (hv b b.2) one_pos
  have h2 : ∀ b : Fin B, IsProbabilityMeasure (gammaMeasure (v b) r) := fun b => isProbabilityMeasure_gammaMeasure (hv b b.2) hr
  have e : (fun y : Fin B → ℝ => ENNReal.ofReal (r ^ (∑ b ∈ range B, v b) * Real.exp (-((r - 1) * ∑ b, y b))))
      = fun y => ∏ b : Fin B, ENNReal.ofReal (r ^ v b * Real.exp (-((r - 1) * y b))) := by
    funext y
    rw [← ENNReal.ofReal_prod_of_nonneg fun b _ => by positivity]
    congr 1
    rw [prod_mul_distrib, ← Real.exp_sum, ← Real.rpow_sum_of_pos hr, Fin.sum_univ_eq_sum_range (fun b => v b), sum_neg_distrib, mul_sum]
  have e2 : ∀ b : Fin B, ((gammaMeasure (v b) 1).withDensity fun x => ENNReal.ofReal (r ^ v b * Real.exp (-((r - 1) * x)))) = gammaMeasure (v b) r :=
    fun b => gamma_tilt (hv b b.2) hr
  have : ∀ b : Fin B, SigmaFinite ((gammaMeasure (v b) 1).withDensity fun x => ENNReal.ofReal (r ^ v b * Real.exp (-((r - 1) * x)))) := fun b => by
    rw [e2]; infer_instance
  rw [e]
  unfold gammaPi
  rw [← pi_withDensity (fun b : Fin B => gammaMeasure (v b) 1) (fun b x => ENNReal.ofReal (r ^ v b * Real.exp (-((r - 1) * x)))) (fun b => by fun_prop)]
  simp only [e2]
  have := Measure.pi_map_pi (μ := fun b : Fin B => gammaMeasure (v b) r) (f := fun _ x => r * x) (hμ := fun b => by
    rw [gamma_scale (hv b b.2) hr]; infer_instance) (fun b => by fun_prop)
  rw [this]
  congr 1
  funext b
  exact gamma_scale (hv b b.2) hr

theorem toSimplex_scale {r : ℝ} (hr : 0 < r) (y : Fin B → ℝ) : toSimplex B (fun b => r * y b) = toSimplex B y := by
  funext b
  unfold toSimplex
  split_ifs
  · rw [← mul_sum, mul_div_mul_left _ _ hr.ne']
  · rfl

/-- exponential moments of the sum on an event about the direction -/
theorem dir_exp {s : Set (ℕ → ℝ)} (hs : MeasurableSet s) {t : ℝ} (ht : t < 1) :
    ∫⁻ y in toSimplex B ⁻¹' s, ENNReal.ofReal (Real.exp (t * ∑ b, y b)) ∂gammaPi B v
      = ENNReal.ofReal ((1 - t) ^ (-(∑ b ∈ range B, v b))) * gammaPi B v (toSimplex B ⁻¹' s) := by
  have hr : 0 < 1 - t := by linarith
  have hms := (measurable_toSimplex (B := B)) hs
  have h := congrArg (fun μ => μ (toSimplex B ⁻¹' s)) (gammaPi_tilt hv hr)
  rw [Measure.map_apply (by fun_prop) hms] at h
  have hpre : (fun (y : Fin B → ℝ) b => (1 - t) * y b) ⁻¹' (toSimplex B ⁻¹' s) = toSimplex B ⁻¹' s := by
    ext y
    show toSimplex B (fun b => (1 - t) * y b) ∈ s ↔ toSimplex B y ∈ s
    rw [toSimplex_scale hv hr]
  rw [hpre, withDensity_apply _ hms] at h
  have e : ∀ y : Fin B → ℝ, ENNReal.ofReal ((1 - t) ^ (∑ b ∈ range B, v b) * Real.exp (-((1 - t - 1) * ∑ b, y b)))
      = ENNReal.ofReal ((1 - t) ^ (∑ b ∈ range B, v b)) * ENNReal.ofReal (Real.exp (t * ∑ b, y b)) := by
    intro y
    rw [← ENNReal.ofReal_mul (by positivity)]
    congr 3; ring
  simp only [e] at h
  rw [lintegral_const_mul _ (by fun_prop)] at h
  have hp := Real.rpow_pos_of_pos hr (∑ b ∈ range B, v b)
  rw [← h, ← mul_assoc, ← ENNReal.ofReal_mul (by positivity), ← Real.rpow_add hr, neg_add_cancel, Real.rpow_zero, ENNReal.ofReal_one, one_mul]

/-- given an event about the direction, the sum still has its gamma distribution -/
theorem sum_given_dir (hB : 0 < B) {s : Set (ℕ → ℝ)} (hs : MeasurableSet s) (h0 : gammaPi B v (toSimplex B ⁻¹' s) ≠ 0) :
    HasLaw (fun y : Fin B → ℝ => ∑ b, y b) (gammaMeasure (∑ b ∈ range B, v b) 1) ((gammaPi B v)[|toSimplex B ⁻¹' s]) := by
  have hP := gammaPi_prob hv
  have hms := (measurable_toSimplex (B := B)) hs
  have hQ : IsProbabilityMeasure ((gammaPi B v)[|toSimplex B ⁻¹' s]) := cond_isProbabilityMeasure h0
  have hV : 0 < ∑ b ∈ range B, v b := sum_pos (fun c hc => hv c (mem_range.1 hc)) ⟨0, mem_range.2 hB⟩
  have hfin : gammaPi B v (toSimplex B ⁻¹' s) ≠ ⊤ := measure_ne_top _ _
  have hS : Measurable fun y : Fin B → ℝ => ∑ b, y b := by fun_prop
  have hexp : ∀ t < 1, ∫⁻ y, ENNReal.ofReal (Real.exp (t * ∑ b, y b)) ∂((gammaPi B v)[|toSimplex B ⁻¹' s]) = ENNReal.ofReal ((1 - t) ^ (-(∑ b ∈ range B, v b))) := by
    intro t ht
    rw [ProbabilityTheory.cond, lintegral_smul_measure, dir_exp hv hs ht, smul_eq_mul, mul_comm (ENNReal.ofReal _), ← mul_assoc, ENNReal.inv_mul_cancel h0 hfin, one_mul]
  have hint : ∀ t < 1, Integrable (fun y : Fin B → ℝ => Real.exp (t * ∑ b, y b)) ((gammaPi B v)[|toSimplex B ⁻¹' s]) := by
    intro t ht
    refine ⟨by fun_prop, ?_⟩
    rw [hasFiniteIntegral_iff_ofReal (Filter.Eventually.of_forall fun y => (Real.exp_pos _).le), hexp t ht]
    exact ENNReal.ofReal_lt_top
  have hmgf : ∀ t < 1, mgf (fun y : Fin B → ℝ => ∑ b, y b) ((gammaPi B v)[|toSimplex B ⁻¹' s]) t = (1 - t) ^ (-(∑ b ∈ range B, v b)) := by
    intro t ht
    rw [mgf, integral_eq_lintegral_of_nonneg_ae (Filter.Eventually.of_forall fun y => (Real.exp_pos _).le) (by fun_prop), hexp t ht,
      ENNReal.toReal_ofReal (Real.rpow_nonneg (by linarith) _)]
  refine hasLaw_gamma_of_mgf hV (by fun_prop) ?_
  funext t
  rw [mgf_gamma hV]
  split_ifs with ht
  · exact (hmgf t ht).symm
  · symm
    refine integral_undef fun hi => ?_
    set M := ∫ y : Fin B → ℝ, Real.exp (t * ∑ b, y b) ∂((gammaPi B v)[|toSimplex B ⁻¹' s]) with hM
    have hM0 : 0 ≤ M := integral_nonneg fun y => (Real.exp_pos _).le
    set u := 1 - (M + 2) ^ (-(1 / ∑ b ∈ range B, v b)) with hu
    have hup : 0 < (M + 2) ^ (-(1 / ∑ b ∈ range B, v b)) := Real.rpow_pos_of_pos (by linarith) _
    have hu1 : u < 1 := by linarith
    have hval : (1 - u) ^ (-(∑ b ∈ range B, v b)) = M + 2 := by
      rw [hu, sub_sub_cancel, ← Real.rpow_mul (by linarith)]
      rw [show -(1 / ∑ b ∈ range B, v b) * -(∑ b ∈ range B, v b) = 1 by field_simp, Real.rpow_one]
    have hle : mgf (fun y : Fin B → ℝ => ∑ b, y b) ((gammaPi B v)[|toSimplex B ⁻¹' s]) u ≤ M := by
      refine integral_mono_ae (hint u hu1) hi ?_
      have hac : (gammaPi B v)[|toSimplex B ⁻¹' s] ≪ gammaPi B v := cond_absolutelyContinuous
      filter_upwards [hac.ae_le (gammaPi_pos hv)] with y hy
      have : 0 ≤ ∑ b, y b := sum_nonneg fun b _ => (hy b).le
      exact Real.exp_le_exp.2 (mul_le_mul_of_nonneg_right (by linarith) this)
    rw [hmgf u hu1, hval] at hle
    linarith

/-- **the direction is independent of the sum** -/
theorem dir_indep_sum (hB : 0 < B) : IndepFun (toSimplex B) (fun y : Fin B → ℝ => ∑ b, y b) (gammaPi B v) := by
  have hP := gammaPi_prob hv
  rw [indepFun_iff_measure_inter_preimage_eq_mul]
  intro s t hs ht
  have hms := (measurable_toSimplex (B := B)) hs
  have hS : Measurable fun y : Fin B → ℝ => ∑ b, y b := by fun_prop
  by_cases h0 : gammaPi B v (toSimplex B ⁻¹' s) = 0
  · rw [h0, zero_mul]
    exact measure_mono_null Set.inter_subset_left h0
  · have h1 := (sum_given_dir hv hB hs h0).map_eq
    have h2 := (gammaPi_total hv hB).map_eq
    have h3 : ((gammaPi B v)[|toSimplex B ⁻¹' s]) ((fun y : Fin B → ℝ => ∑ b, y b) ⁻¹' t) = gammaPi B v ((fun y : Fin B → ℝ => ∑ b, y b) ⁻¹' t) := by
      rw [← Measure.map_apply hS ht, ← Measure.map_apply hS ht, h1, h2]
    rw [cond_apply hms] at h3
    rw [← h3, ← mul_assoc, ENNReal.mul_inv_cancel h0 (measure_ne_top _ _), one_mul]

end

/-- moments of a gamma variable of rate 1 -/
theorem gamma_moment {p q : ℝ} (hp : 0 < p) (hq : 0 < q) : ∫⁻ s, ENNReal.ofReal (s ^ (p - q)) ∂gammaMeasure q 1 = ENNReal.ofReal (Real.Gamma p / Real.Gamma q) := by
  have hGp := Real.Gamma_pos_of_pos hp
  have hGq := Real.Gamma_pos_of_pos hq
  have hP : IsProbabilityMeasure (gammaMeasure p 1) := isProbabilityMeasure_gammaMeasure hp one_pos
  have h := congrArg (fun μ => μ Set.univ) (gamma_reshape hp hq)
  rw [withDensity_apply _ MeasurableSet.univ, Measure.restrict_univ, measure_univ] at h
  have hc : 0 < Real.Gamma q / Real.Gamma p := by positivity
  simp only [ENNReal.ofReal_mul hc.le] at h
  rw [lintegral_const_mul _ (by fun_prop)] at h
  have h2 : ENNReal.ofReal (Real.Gamma p / Real.Gamma q) * ENNReal.ofReal (Real.Gamma q / Real.Gamma p) = 1 := by
    rw [← ENNReal.ofReal_mul (by positivity), div_mul_div_comm, mul_comm, div_self (by positivity), ENNReal.ofReal_one]
  calc _ = (ENNReal.ofReal (Real.Gamma p / Real.Gamma q) * ENNReal.ofReal (Real.Gamma q / Real.Gamma p)) * ∫⁻ s, ENNReal.ofReal (s ^ (p - q)) ∂gammaMeasure q 1 := by rw [h2, one_mul]
    _ = _ := by rw [mul_assoc, ← h, mul_one]

section
variable {B : ℕ} {p q : ℕ → ℝ}

/-- ratio of two Dirichlet densities -/
noncomputable def dirRatio (B : ℕ) (p q x : ℕ → ℝ) : ℝ :=
  Real.Gamma (∑ b ∈ range B, p b) / Real.Gamma (∑ b ∈ range B, q b) * ∏ b ∈ range B, (Real.Gamma (q b) / Real.Gamma (p b) * x b ^ (p b - q b))

theorem dirRatio_eq (hp : ∀ b < B, 0 < p b) (hq : ∀ b < B, 0 < q b) (hB : 0 < B) {x : ℕ → ℝ} (hx : ∀ b < B, 0 < x b) : dirRatio B p q x = dirichletPdf B p x / dirichletPdf B q x := by
  have hP : 0 < ∑ b ∈ range B, p b := sum_pos (fun c hc => hp c (mem_range.1 hc)) ⟨0, mem_range.2 hB⟩
  have hQ : 0 < ∑ b ∈ range B, q b := sum_pos (fun c hc => hq c (mem_range.1 hc)) ⟨0, mem_range.2 hB⟩
  have h1 := Real.Gamma_pos_of_pos hP
  have h2 := Real.Gamma_pos_of_pos hQ
  have h3 : 0 < ∏ b ∈ range B, Real.Gamma (p b) := prod_pos fun b hb => Real.Gamma_pos_of_pos (hp b (mem_range.1 hb))
  have h4 : 0 < ∏ b ∈ range B, Real.Gamma (q b) := prod_pos fun b hb => Real.Gamma_pos_of_pos (hq b (mem_range.1 hb))
  have h5 : 0 < ∏ b ∈ range B, x b ^ (q b - 1) := prod_pos fun b hb => Real.rpow_pos_of_pos (hx b (mem_range.1 hb)) _
  have h6 : ∏ b ∈ range B, x b ^ (p b - 1) = (∏ b ∈ range B, x b ^ (q b - 1)) * ∏ b ∈ range B, x b ^ (p b - q b) := by
    rw [← prod_mul_distrib]
    refine prod_congr rfl fun b hb => ?_
    rw [← Real.rpow_add (hx b (mem_range.1 hb))]; congr 1; ring
  unfold dirRatio dirichletPdf
  rw [prod_mul_distrib, prod_div_distrib, h6]
  field_simp

/-- **change of concentrations**: a Dirichlet distribution has the ratio of the Dirichlet densities as density with respect to another -/
theorem dirichlet_reshape (hp : ∀ b < B, 0 < p b) (hq : ∀ b < B, 0 < q b) (hB : 0 < B) :
    dirichletLaw B p = (dirichletLaw B q).withDensity fun x => ENNReal.ofReal (dirRatio B p q x) := by
  have hP : 0 < ∑ b ∈ range B, p b := sum_pos (fun c hc => hp c (mem_range.1 hc)) ⟨0, mem_range.2 hB⟩
  have hQ : 0 < ∑ b ∈ range B, q b := sum_pos (fun c hc => hq c (mem_range.1 hc)) ⟨0, mem_range.2 hB⟩
  have h1 : ∀ b : Fin B, IsProbabilityMeasure (gammaMeasure (q b) 1) := fun b => isProbabilityMeasure_gammaMeasure (hq b b.2) one_pos
  have h2 : ∀ b : Fin B, IsProbabilityMeasure (gammaMeasure (p b) 1) := fun b => isProbabilityMeasure_gammaMeasure (hp b b.2) one_pos
  have hmd : Measurable fun x : ℕ → ℝ => ENNReal.ofReal (dirRatio B p q x) := by unfold dirRatio; fun_prop
  -- the product measure
  have hpi : gammaPi B p = (gammaPi B q).withDensity fun y => ∏ b : Fin B, ENNReal.ofReal (Real.Gamma (q b) / Real.Gamma (p b) * y b ^ (p b - q b)) := by
    have e : ∀ b : Fin B, gammaMeasure (p b) 1 = (gammaMeasure (q b) 1).withDensity fun x => ENNReal.ofReal (Real.Gamma (q b) / Real.Gamma (p b) * x ^ (p b - q b)) :=
      fun b => gamma_reshape (hp b b.2) (hq b b.2)
    have : ∀ b : Fin B, SigmaFinite ((gammaMeasure (q b) 1).withDensity fun x => ENNReal.ofReal (Real.Gamma (q b) / Real.Gamma (p b) * x ^ (p b - q b))) := fun b => by
      rw [← e]; infer_instance
    unfold gammaPi
    rw [← pi_withDensity (fun b : Fin B => gammaMeasure (q b) 1) (fun b x => ENNReal.ofReal (Real.Gamma (q b) / Real.Gamma (p b) * x ^ (p b - q b))) (fun b => by fun_prop)]
    congr 1
    funext b
    exact e b
  refine Measure.ext fun s hs => ?_
  have hms := (measurable_toSimplex (B := B)) hs
  have hQp := gammaPi_prob hq
  -- the density as a function of direction and sum
  set F : (ℕ → ℝ) → ENNReal := fun x => s.indicator 1 x * ENNReal.ofReal (∏ b ∈ range B, (Real.Gamma (q b) / Real.Gamma (p b) * x b ^ (p b - q b))) with hF
  set G : ℝ → ENNReal := fun t => ENNReal.ofReal (t ^ ((∑ b ∈ range B, p b) - ∑ b ∈ range B, q b)) with hG
  have hFm : Measurable F := (measurable_one.indicator hs).mul (by fun_prop)
  have hGm : Measurable G := by fun_prop
  have hS : Measurable fun y : Fin B → ℝ => ∑ b, y b := by fun_prop
  have lhs : dirichletLaw B p s = ∫⁻ y, F (toSimplex B y) * G (∑ b, y b) ∂gammaPi B q := by
    have : dirichletLaw B p s = gammaPi B p (toSimplex B ⁻¹' s) := Measure.map_apply measurable_toSimplex hs
    rw [this, hpi, withDensity_apply _ hms, ← lintegral_indicator hms]
    refine lintegral_congr_ae ?_
    filter_upwards [gammaPi_pos hq] with y hy
    have : Nonempty (Fin B) := ⟨⟨0, hB⟩⟩
    have hSp : 0 < ∑ c, y c := sum_pos (fun c _ => hy c) univ_nonempty
    by_cases hin : toSimplex B y ∈ s
    · rw [Set.indicator_of_mem (show y ∈ toSimplex B ⁻¹' s from hin), hF, hG]
      dsimp only
      rw [Set.indicator_of_mem hin, Pi.one_apply, one_mul]
      have hpos : ∀ b : Fin B, 0 ≤ Real.Gamma (q b) / Real.Gamma (p b) * y b ^ (p b - q b) := fun b => by
        have := Real.Gamma_pos_of_pos (hq b b.2); have := Real.Gamma_pos_of_pos (hp b b.2); have := Real.rpow_pos_of_pos (hy b) (p b - q b); positivity
      rw [← ENNReal.ofReal_prod_of_nonneg fun b _ => hpos b, ← ENNReal.ofReal_mul' (Real.rpow_nonneg hSp.le _)]
      congr 1
      rw [← Fin.prod_univ_eq_prod_range (fun b => Real.Gamma (q b) / Real.Gamma (p b) * toSimplex B y b ^ (p b - q b)), ← sum_sub_distrib, ← Fin.sum_univ_eq_sum_range (fun b => p b - q b),
        Real.rpow_sum_of_pos hSp, ← prod_mul_distrib]
      refine prod_congr rfl fun b _ => ?_
      have : toSimplex B y b = y b / ∑ c, y c := by simp [toSimplex]
      rw [this, Real.div_rpow (hy b).le hSp.le]
      have := Real.rpow_pos_of_pos hSp (p b - q b)
      field_simp
    · rw [Set.indicator_of_notMem (show y ∉ toSimplex B ⁻¹' s from hin), hF]
      dsimp only
      rw [Set.indicator_of_notMem hin, zero_mul, zero_mul]
  have hind : IndepFun (fun y : Fin B → ℝ => F (toSimplex B y)) (fun y => G (∑ b, y b)) (gammaPi B q) := (dir_indep_sum hq hB).comp hFm hGm
  have hmom : ∫⁻ y, G (∑ b, y b) ∂gammaPi B q = ENNReal.ofReal (Real.Gamma (∑ b ∈ range B, p b) / Real.Gamma (∑ b ∈ range B, q b)) := by
    rw [← gamma_moment hP hQ, ← (gammaPi_total hq hB).map_eq, lintegral_map hGm hS]
  have hc : 0 ≤ Real.Gamma (∑ b ∈ range B, p b) / Real.Gamma (∑ b ∈ range B, q b) := by
    have := Real.Gamma_pos_of_pos hP; have := Real.Gamma_pos_of_pos hQ; positivity
  have hmul := lintegral_mul_eq_lintegral_mul_lintegral_of_indepFun'' (f := fun y : Fin B → ℝ => F (toSimplex B y)) (g := fun y => G (∑ b, y b))
    (hFm.comp measurable_toSimplex).aemeasurable (hGm.comp hS).aemeasurable hind
  rw [lhs, hmul, hmom,
    withDensity_apply _ hs, ← lintegral_indicator hs]
  have e3 : ∫⁻ x, s.indicator (fun x => ENNReal.ofReal (dirRatio B p q x)) x ∂dirichletLaw B q
      = ∫⁻ y, s.indicator (fun x => ENNReal.ofReal (dirRatio B p q x)) (toSimplex B y) ∂gammaPi B q := lintegral_map (hmd.indicator hs) measurable_toSimplex
  rw [e3, mul_comm, ← lintegral_const_mul _ (show Measurable fun y : Fin B → ℝ => F (toSimplex B y) from hFm.comp measurable_toSimplex)]
  refine lintegral_congr fun y => ?_
  by_cases hin : toSimplex B y ∈ s
  · rw [Set.indicator_of_mem hin, hF]
    dsimp only
    rw [Set.indicator_of_mem hin, Pi.one_apply, one_mul, ← ENNReal.ofReal_mul hc]
    rfl
  · rw [Set.indicator_of_notMem hin, hF]
    dsimp only
    rw [Set.indicator_of_notMem hin, zero_mul, mul_zero]

end

end PyHawkes
