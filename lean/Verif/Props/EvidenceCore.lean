import Verif.Props.MFSampleExp
import Verif.Props.DirichletBayes
import Verif.Props.VLBReach
import Verif.Props.MixProper

/-!
# C103, tools: lower bounds on the logarithm of an integral (the variational inequality), for gamma and Dirichlet distributions
-/
set_option linter.unusedSectionVars false
set_option linter.unusedVariables false

namespace PyHawkes
open Finset Spec MeasureTheory ProbabilityTheory

/-- Jensen's inequality for the exponential, without assuming that its integral is finite -/
theorem exp_jensen {X : Type*} [MeasurableSpace X] {q : Measure X} [IsProbabilityMeasure q] {h : X → ℝ} (hi : Integrable h q) :
    ENNReal.ofReal (Real.exp (∫ x, h x ∂q)) ≤ ∫⁻ x, ENNReal.ofReal (Real.exp (h x)) ∂q := by
  set m := ∫ x, h x ∂q with hm
  have ii : Integrable (fun x => Real.exp m * (1 + (h x - m))) q := (((integrable_const _).add (hi.sub (integrable_const _))).const_mul _)
  have v : ∫ x, Real.exp m * (1 + (h x - m)) ∂q = Real.exp m := by
    have i1 : Integrable (fun x => h x - m) q := hi.sub (integrable_const _)
    rw [integral_const_mul, integral_add (integrable_const _) i1, integral_sub hi (integrable_const _)]
    simp [← hm]
  calc ENNReal.ofReal (Real.exp m) = ENNReal.ofReal (∫ x, Real.exp m * (1 + (h x - m)) ∂q) := by rw [v]
    _ ≤ ∫⁻ x, ENNReal.ofReal (Real.exp m * (1 + (h x - m))) ∂q := by
      rw [integral_eq_lintegral_pos_part_sub_lintegral_neg_part ii]
      refine (ENNReal.ofReal_le_ofReal (sub_le_self _ ENNReal.toReal_nonneg)).trans ENNReal.ofReal_toReal_le
    _ ≤ _ := by
      refine lintegral_mono fun x => ENNReal.ofReal_le_ofReal ?_
      have := Real.add_one_le_exp (h x - m)
      calc Real.exp m * (1 + (h x - m)) ≤ Real.exp m * Real.exp (h x - m) := mul_le_mul_of_nonneg_left (by linarith) (Real.exp_pos _).le
        _ = Real.exp (h x) := by rw [← Real.exp_add]; congr 1; ring

/-- the variational inequality: `r` is the log density of `q` with respect to `ν` -/
theorem variational_le {X : Type*} [MeasurableSpace X] {q ν : Measure X} [IsProbabilityMeasure q] {h r : X → ℝ} (mh : Measurable h) (mr : Measurable r)
    (hν : q.withDensity (fun x => ENNReal.ofReal (Real.exp (-r x))) ≤ ν) (hi : Integrable (fun x => h x - r x) q) :
    ENNReal.ofReal (Real.exp (∫ x, (h x - r x) ∂q)) ≤ ∫⁻ x, ENNReal.ofReal (Real.exp (h x)) ∂ν := by
  refine (exp_jensen hi).trans (le_trans (le_of_eq ?_) (lintegral_mono' hν le_rfl))
  rw [lintegral_withDensity_eq_lintegral_mul _ (by fun_prop) (by fun_prop)]
  refine lintegral_congr fun x => ?_
  rw [Pi.mul_apply, ← ENNReal.ofReal_mul (Real.exp_pos _).le, ← Real.exp_add]
  congr 2
  ring

/-- the variational inequality for a gamma prior `Gamma(α, β)`, a variational distribution `Gamma(a, b)` and an exponent that is affine in `log t` and `t` -/
theorem variational_gamma {a b α β : ℝ} (ha : 0 < a) (hb : 0 < b) (hα : 0 < α) (hβ : 0 < β) (x y z : ℝ) :
    ENNReal.ofReal (Real.exp (x * (psi a - Real.log b) - y * (a / b) + z - klGamma a b α β))
      ≤ ∫⁻ t, ENNReal.ofReal (Real.exp (x * Real.log t - y * t + z)) ∂gammaMeasure α β := by
  have hP := isProbabilityMeasure_gammaMeasure ha hb
  have hlaw : HasLaw (fun t : ℝ => t) (gammaMeasure a b) (gammaMeasure a b) := ⟨aemeasurable_id', by simp⟩
  have iL := gammaLog_integrable ha hb hlaw
  have iI := gammaId_integrable ha hb hlaw
  have vL : ∫ t, Real.log t ∂gammaMeasure a b = psi a - Real.log b := (gamma_draw ha hb hlaw Real.measurable_log).trans (expGamma_log ha hb)
  have vI : ∫ t, t ∂gammaMeasure a b = a / b := (gamma_draw ha hb hlaw measurable_id').trans (expGamma_id ha hb)
  let r : ℝ → ℝ := fun t => (a * Real.log b - gammaln a) - (α * Real.log β - gammaln α) + (a - α) * Real.log t - (b - β) * t
  have mr : Measurable r := by
    show Measurable fun t : ℝ => (a * Real.log b - gammaln a) - (α * Real.log β - gammaln α) + (a - α) * Real.log t - (b - β) * t
    fun_prop
  have hν : (gammaMeasure a b).withDensity (fun t => ENNReal.ofReal (Real.exp (-r t))) ≤ gammaMeasure α β := by
    have e : (gammaMeasure a b).withDensity (fun t => ENNReal.ofReal (Real.exp (-r t))) = volume.withDensity (gammaPDF a b * fun t => ENNReal.ofReal (Real.exp (-r t))) :=
      (withDensity_mul _ (measurable_gammaPDFReal a b).ennreal_ofReal (by fun_prop)).symm
    rw [e]
    refine withDensity_mono ?_
    have h0 : ∀ᵐ t : ℝ, t ≠ 0 := by simp [ae_iff, measure_singleton]
    filter_upwards [h0] with t ht
    rcases lt_or_gt_of_ne ht with h | h
    · simp [Pi.mul_apply, gammaPDF_of_neg h]
    · rw [Pi.mul_apply, gammaPDF, gammaPDF, ← ENNReal.ofReal_mul (gammaPDF_pos ha hb h).le]
      refine ENNReal.ofReal_le_ofReal (le_of_eq ?_)
      rw [← Real.exp_log (gammaPDF_pos ha hb h), ← Real.exp_add, ← Real.exp_log (gammaPDF_pos hα hβ h), log_gammaPDF ha hb h, log_gammaPDF hα hβ h]
      congr 1
      simp only [r]
      ring
  have ih : Integrable (fun t => (x * Real.log t - y * t + z) - r t) (gammaMeasure a b) := by
    have : (fun t => (x * Real.log t - y * t + z) - r t) = fun t => (x - (a - α)) * Real.log t + ((b - β) - y) * t + (z - ((a * Real.log b - gammaln a) - (α * Real.log β - gammaln α))) := by
      funext t; simp only [r]; ring
    rw [this]
    exact ((iL.const_mul _).add (iI.const_mul _)).add (integrable_const _)
  refine le_trans (le_of_eq ?_) (variational_le (by fun_prop) mr hν ih)
  congr 2
  have : (fun t => (x * Real.log t - y * t + z) - r t) = fun t => (x - (a - α)) * Real.log t + ((b - β) - y) * t + (z - ((a * Real.log b - gammaln a) - (α * Real.log β - gammaln α))) := by
    funext t; simp only [r]; ring
  have i1 : Integrable (fun t => (x - (a - α)) * Real.log t) (gammaMeasure a b) := iL.const_mul _
  have i2 : Integrable (fun t => ((b - β) - y) * t) (gammaMeasure a b) := iI.const_mul _
  have i12 : Integrable (fun t => (x - (a - α)) * Real.log t + ((b - β) - y) * t) (gammaMeasure a b) := i1.add i2
  rw [this, integral_add i12 (integrable_const _), integral_add i1 i2, integral_const_mul, integral_const_mul, vL, vI, klGamma_eq ha hb hα hβ]
  simp only [integral_const, probReal_univ, smul_eq_mul, gammaNegentDefault, gammaNegent]
  ring

/-- the variational inequality for a Dirichlet prior and an exponent that is linear in the logarithms -/
theorem variational_dirichlet {B : ℕ} {p q : Vec ℝ} (hp : ∀ b < B, 0 < p b) (hq : ∀ b < B, 0 < q b) (hB : 0 < B) (x : Vec ℝ) :
    ENNReal.ofReal (Real.exp (∑ b ∈ range B, x b * (psi (q b) - psi (∑ c ∈ range B, q c)) - klDirichlet B q p))
      ≤ ∫⁻ g, ENNReal.ofReal (Real.exp (∑ b ∈ range B, x b * Real.log (g b))) ∂dirichletLaw B p := by
  have hPq := dirichlet_prob hq
  let r : Vec ℝ → ℝ := fun g => (lnDirNorm B p - lnDirNorm B q) + ∑ b ∈ range B, (q b - p b) * Real.log (g b)
  have mr : Measurable r := by
    show Measurable fun g : Vec ℝ => (lnDirNorm B p - lnDirNorm B q) + ∑ b ∈ range B, (q b - p b) * Real.log (g b)
    fun_prop
  have hν : (dirichletLaw B q).withDensity (fun g => ENNReal.ofReal (Real.exp (-r g))) ≤ dirichletLaw B p := by
    rw [dirichlet_reshape hp hq hB]
    refine withDensity_mono ?_
    filter_upwards [dirichlet_simplex hq hB] with g hg
    refine ENNReal.ofReal_le_ofReal (le_of_eq ?_)
    rw [← Real.exp_log (dirRatio_pos hp hq hB hg.1), dirRatio_eq hp hq hB hg.1, Real.log_div (dirichlet_pos hB hp hg.1).ne' (dirichlet_pos hB hq hg.1).ne',
      log_dirichlet_norm hB hq hg.1, log_dirichlet_norm hB hp hg.1]
    congr 1
    have : ∑ b ∈ range B, (q b - p b) * Real.log (g b) = (∑ b ∈ range B, (q b - 1) * Real.log (g b)) - ∑ b ∈ range B, (p b - 1) * Real.log (g b) := by
      rw [← sum_sub_distrib]; exact sum_congr rfl fun b _ => by ring
    simp only [r]
    rw [this]; ring
  have eq : ∀ g : Vec ℝ, (∑ b ∈ range B, x b * Real.log (g b)) - r g = ∑ b ∈ range B, (x b - (q b - p b)) * Real.log (g b) + -(lnDirNorm B p - lnDirNorm B q) := by
    intro g
    simp only [r, sub_mul (x _), sum_sub_distrib]
    ring
  have ib : ∀ b ∈ range B, Integrable (fun g : Vec ℝ => (x b - (q b - p b)) * Real.log (g b)) (dirichletLaw B q) := fun b hb => (dirichlet_mean_log hq (mem_range.1 hb)).1.const_mul _
  have ih : Integrable (fun g : Vec ℝ => (∑ b ∈ range B, x b * Real.log (g b)) - r g) (dirichletLaw B q) := by
    simp only [eq]
    exact (integrable_finsetSum _ ib).add (integrable_const _)
  refine le_trans (le_of_eq ?_) (variational_le (by fun_prop) mr hν ih)
  congr 2
  simp only [eq]
  rw [integral_add (integrable_finsetSum _ ib) (integrable_const _), integral_finsetSum _ ib]
  simp only [integral_const_mul, integral_const, probReal_univ, smul_eq_mul, one_mul]
  have e2 : ∑ b ∈ range B, (x b - (q b - p b)) * ∫ g, Real.log (g b) ∂dirichletLaw B q = ∑ b ∈ range B, (x b - (q b - p b)) * (psi (q b) - psi (∑ c ∈ range B, q c)) :=
    sum_congr rfl fun b hb => by rw [(dirichlet_mean_log hq (mem_range.1 hb)).2]
  rw [e2]
  unfold klDirichlet
  simp only [sub_mul (x _), sum_sub_distrib]
  ring

/-- two alternatives with probabilities `p`, `1-p`, and a variational probability `q` -/
theorem variational_coin {p q s t : ℝ} (hp : 0 < p ∧ p < 1) (hq : 0 < q ∧ q < 1) :
    Real.exp (q * (s + Real.log p) + (1 - q) * (t + Real.log (1 - p)) - (q * Real.log q + (1 - q) * Real.log (1 - q))) ≤ p * Real.exp s + (1 - p) * Real.exp t := by
  set m := q * (s + Real.log p) + (1 - q) * (t + Real.log (1 - p)) - (q * Real.log q + (1 - q) * Real.log (1 - q)) with hm
  have q1 : 0 < 1 - q := by linarith [hq.2]
  have p1 : 0 < 1 - p := by linarith [hp.2]
  have e1 : p * Real.exp s = q * Real.exp (s + Real.log p - Real.log q) := by
    rw [Real.exp_sub, Real.exp_add, Real.exp_log hp.1, Real.exp_log hq.1]; field_simp [hq.1.ne']
  have e2 : (1 - p) * Real.exp t = (1 - q) * Real.exp (t + Real.log (1 - p) - Real.log (1 - q)) := by
    rw [Real.exp_sub, Real.exp_add, Real.exp_log p1, Real.exp_log q1]; field_simp
  have tan : ∀ u : ℝ, Real.exp m * (1 + (u - m)) ≤ Real.exp u := fun u => by
    have := Real.add_one_le_exp (u - m)
    calc Real.exp m * (1 + (u - m)) ≤ Real.exp m * Real.exp (u - m) := mul_le_mul_of_nonneg_left (by linarith) (Real.exp_pos _).le
      _ = Real.exp u := by rw [← Real.exp_add]; congr 1; ring
  have a1 := mul_le_mul_of_nonneg_left (tan (s + Real.log p - Real.log q)) hq.1.le
  have a2 := mul_le_mul_of_nonneg_left (tan (t + Real.log (1 - p) - Real.log (1 - q))) q1.le
  rw [e1, e2]
  have : q * (Real.exp m * (1 + (s + Real.log p - Real.log q - m))) + (1 - q) * (Real.exp m * (1 + (t + Real.log (1 - p) - Real.log (1 - q) - m))) = Real.exp m := by
    have h : q * (s + Real.log p - Real.log q) + (1 - q) * (t + Real.log (1 - p) - Real.log (1 - q)) = m := by rw [hm]; ring
    linear_combination Real.exp m * h
  linarith

end PyHawkes
