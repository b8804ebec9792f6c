import Verif.Model.Distributions
import Verif.Props.GibbsBasics
import Mathlib.Analysis.SpecialFunctions.Gamma.BohrMollerup
import Mathlib.Analysis.Convex.Deriv
import Mathlib.MeasureTheory.Integral.IntegralEqImproper

/-! Facts about `gammaln` and `psi`: differentiability, convexity, and the expectations of `x` and `log x` under a gamma distribution. -/

namespace PyHawkes
open Finset MeasureTheory Set ProbabilityTheory

theorem ne_neg_nat {x : ℝ} (hx : 0 < x) (m : ℕ) : x ≠ -(m : ℝ) := by
  have : (0:ℝ) ≤ m := Nat.cast_nonneg m
  intro h; linarith

theorem gammaln_hasDerivAt {x : ℝ} (hx : 0 < x) : HasDerivAt gammaln (psi x) x := by
  have h1 : DifferentiableAt ℝ Real.Gamma x := Real.differentiableAt_Gamma (ne_neg_nat hx)
  have : DifferentiableAt ℝ gammaln x := h1.log (Real.Gamma_pos_of_pos hx).ne'
  exact this.hasDerivAt

theorem psi_eq {x : ℝ} (hx : 0 < x) : psi x = deriv Real.Gamma x / Real.Gamma x := by
  have h1 : DifferentiableAt ℝ Real.Gamma x := Real.differentiableAt_Gamma (ne_neg_nat hx)
  exact (h1.hasDerivAt.log (Real.Gamma_pos_of_pos hx).ne').deriv

theorem gammaln_convex : ConvexOn ℝ (Ioi 0) gammaln := Real.convexOn_log_Gamma

/-- a differentiable convex function lies above its tangents -/
theorem convex_tangent {f : ℝ → ℝ} {s : Set ℝ} (hf : ConvexOn ℝ s f) {x y d : ℝ} (hx : x ∈ s) (hy : y ∈ s) (hd : HasDerivAt f d x) :
    f x + d * (y - x) ≤ f y := by
  rcases lt_trichotomy x y with h | h | h
  · have := hf.le_slope_of_hasDerivAt hx hy h hd
    rw [slope_def_field, le_div_iff₀ (by linarith)] at this
    linarith
  · subst h; simp
  · have := hf.slope_le_of_hasDerivAt hy hx h hd
    rw [slope_def_field, div_le_iff₀ (by linarith)] at this
    linarith

theorem gammaln_tangent {a b : ℝ} (ha : 0 < a) (hb : 0 < b) : gammaln b + psi b * (a - b) ≤ gammaln a :=
  convex_tangent gammaln_convex (mem_Ioi.2 hb) (mem_Ioi.2 ha) (gammaln_hasDerivAt hb)

/-- derivative of the gamma function under the integral sign -/
theorem integral_log_gamma {a : ℝ} (ha : 0 < a) :
    IntegrableOn (fun t : ℝ => t ^ (a - 1) * (Real.log t * Real.exp (-t))) (Ioi 0) ∧
    ∫ t in Ioi (0:ℝ), t ^ (a - 1) * (Real.log t * Real.exp (-t)) = deriv Real.Gamma a := by
  have hs : 0 < ((a : ℂ)).re := by simpa using ha
  have hmel := mellin_hasDerivAt_of_isBigO_rpow (E := ℂ) (f := fun x => ((Real.exp (-x) : ℝ) : ℂ)) (s := (a : ℂ))
    (a := (a : ℂ).re + 1) (b := 0) ?_ ?_ (lt_add_one _) ?_ hs
  · obtain ⟨hconv, hder⟩ := hmel
    rw [← Complex.GammaIntegral_eq_mellin] at hder
    have hform : ∀ t ∈ Ioi (0:ℝ), ((t : ℂ) ^ ((a : ℂ) - 1) • (fun t : ℝ => (Real.log t) • ((Real.exp (-t) : ℝ) : ℂ)) t)
        = ((t ^ (a - 1) * (Real.log t * Real.exp (-t)) : ℝ) : ℂ) := by
      intro t ht
      simp only [smul_eq_mul, Complex.real_smul]
      push_cast
      rw [Complex.ofReal_cpow (le_of_lt ht)]
      push_cast
      ring
    have hint : IntegrableOn (fun t : ℝ => ((t ^ (a - 1) * (Real.log t * Real.exp (-t)) : ℝ) : ℂ)) (Ioi 0) volume :=
      IntegrableOn.congr_fun hconv (fun t ht => hform t ht) measurableSet_Ioi
    have hintR : IntegrableOn (fun t : ℝ => t ^ (a - 1) * (Real.log t * Real.exp (-t))) (Ioi 0) volume := by
      have h := hint.re
      refine h.congr ?_
      exact Filter.Eventually.of_forall fun t => Complex.ofReal_re _
    refine ⟨hintR, ?_⟩
    have hval : mellin (fun t : ℝ => (Real.log t) • ((Real.exp (-t) : ℝ) : ℂ)) (a : ℂ)
        = ((∫ t in Ioi (0:ℝ), t ^ (a - 1) * (Real.log t * Real.exp (-t)) : ℝ) : ℂ) := by
      unfold mellin
      rw [setIntegral_congr_fun measurableSet_Ioi hform, integral_complex_ofReal]
    rw [hval] at hder
    have hG : HasDerivAt Complex.Gamma ((∫ t in Ioi (0:ℝ), t ^ (a - 1) * (Real.log t * Real.exp (-t)) : ℝ) : ℂ) (a : ℂ) := by
      refine hder.congr_of_eventuallyEq ?_
      have : {s : ℂ | 0 < s.re} ∈ nhds (a : ℂ) := (Complex.continuous_re.isOpen_preimage _ isOpen_Ioi).mem_nhds hs
      filter_upwards [this] with s hs'
      exact Complex.Gamma_eq_integral hs'
    have := hG.real_of_complex
    rw [Complex.ofReal_re] at this
    exact this.deriv.symm
  · refine (Continuous.continuousOn ?_).locallyIntegrableOn measurableSet_Ioi
    exact Complex.continuous_ofReal.comp (Real.continuous_exp.comp continuous_neg)
  · rw [← Asymptotics.isBigO_norm_left]
    simp_rw [Complex.norm_real, Asymptotics.isBigO_norm_left]
    simpa only [neg_one_mul] using (isLittleO_exp_neg_mul_rpow_atTop zero_lt_one _).isBigO
  · simp_rw [neg_zero, Real.rpow_zero]
    refine Asymptotics.isBigO_const_of_tendsto (?_ : Filter.Tendsto _ _ (nhds (1 : ℂ))) one_ne_zero
    rw [(by simp : (1 : ℂ) = Real.exp (-0))]
    exact (Complex.continuous_ofReal.comp (Real.continuous_exp.comp continuous_neg)).continuousWithinAt

/-- `E[x] = a/r` under a gamma distribution -/
theorem gamma_mean {a r : ℝ} (ha : 0 < a) (hr : 0 < r) :
    IntegrableOn (fun x => gammaPDFReal a r x * x) (Ioi 0) ∧ ∫ x in Ioi 0, gammaPDFReal a r x * x = a / r := by
  have hG := Real.Gamma_pos_of_pos ha
  have h : ∀ x ∈ Ioi (0:ℝ), gammaPDFReal a r x * x = a / r * gammaPDFReal (a + 1) r x := by
    intro x hx
    have hx' : (0:ℝ) < x := hx
    simp only [gammaPDFReal, if_pos hx'.le]
    rw [Real.Gamma_add_one ha.ne', Real.rpow_add hr, Real.rpow_one, add_sub_cancel_right]
    have : x ^ a = x ^ (a - 1) * x := by rw [← Real.rpow_add_one hx'.ne', sub_add_cancel]
    rw [this]
    field_simp
  refine ⟨IntegrableOn.congr_fun (show IntegrableOn (fun x => a / r * gammaPDFReal (a + 1) r x) (Ioi 0) volume from
    (gammaPDF_integrable (by linarith) hr).const_mul _) (fun x hx => (h x hx).symm) measurableSet_Ioi, ?_⟩
  rw [setIntegral_congr_fun measurableSet_Ioi h, integral_const_mul, gammaPDF_integral (by linarith) hr, mul_one]

/-- `E[log x] = psi(a) - log r` under a gamma distribution -/
theorem gamma_mean_log {a r : ℝ} (ha : 0 < a) (hr : 0 < r) :
    IntegrableOn (fun x => gammaPDFReal a r x * Real.log x) (Ioi 0) ∧
    ∫ x in Ioi 0, gammaPDFReal a r x * Real.log x = psi a - Real.log r := by
  have hG := Real.Gamma_pos_of_pos ha
  obtain ⟨hi, hv⟩ := integral_log_gamma ha
  -- change of variables t = r x
  set φ : ℝ → ℝ := fun t => t ^ (a - 1) * (Real.log t * Real.exp (-t)) with hφ
  have hi' : IntegrableOn (fun x => φ (r * x)) (Ioi 0) volume := by
    have := (integrableOn_Ioi_comp_mul_left_iff φ 0 hr).2 (by simpa using hi)
    exact this
  have hv' : ∫ x in Ioi (0:ℝ), φ (r * x) = r⁻¹ * deriv Real.Gamma a := by
    have := integral_comp_mul_left_Ioi φ 0 hr
    rw [mul_zero, hv, smul_eq_mul] at this
    exact this
  have h : ∀ x ∈ Ioi (0:ℝ), gammaPDFReal a r x * Real.log x
      = r / Real.Gamma a * φ (r * x) - Real.log r * gammaPDFReal a r x := by
    intro x hx
    have hx' : (0:ℝ) < x := hx
    simp only [gammaPDFReal, if_pos hx'.le, hφ]
    rw [Real.mul_rpow hr.le hx'.le, Real.log_mul hr.ne' hx'.ne']
    have : r ^ a = r ^ (a - 1) * r := by rw [← Real.rpow_add_one hr.ne', sub_add_cancel]
    rw [this]
    ring
  have hi2 : IntegrableOn (fun x => r / Real.Gamma a * φ (r * x)) (Ioi 0) volume := hi'.const_mul _
  have hi3 : IntegrableOn (fun x => Real.log r * gammaPDFReal a r x) (Ioi 0) volume := (gammaPDF_integrable ha hr).const_mul _
  refine ⟨IntegrableOn.congr_fun (hi2.sub hi3) (fun x hx => (h x hx).symm) measurableSet_Ioi, ?_⟩
  rw [setIntegral_congr_fun measurableSet_Ioi h, integral_sub hi2 hi3, integral_const_mul, integral_const_mul, hv',
    gammaPDF_integral ha hr, psi_eq ha]
  field_simp

end PyHawkes
