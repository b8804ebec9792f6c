import Verif.Props.Network
import Mathlib.MeasureTheory.Integral.MeanInequalities
import Mathlib.MeasureTheory.Function.LpSeminorm.Basic

/-! # The log beta function is convex; tangent inequalities for beta and Dirichlet normalisers -/
set_option linter.unusedSectionVars false

namespace PyHawkes
open Finset MeasureTheory ProbabilityTheory

/-- the integral defining the beta function -/
theorem beta_kernel {a b : ℝ} (ha : 0 < a) (hb : 0 < b) :
    IntegrableOn (fun x : ℝ => x ^ (a - 1) * (1 - x) ^ (b - 1)) (Set.Ioo 0 1) volume ∧
    ∫ x in Set.Ioo (0:ℝ) 1, x ^ (a - 1) * (1 - x) ^ (b - 1) = beta a b := by
  have hB := beta_pos ha hb
  have e : ∀ x ∈ Set.Ioo (0:ℝ) 1, x ^ (a - 1) * (1 - x) ^ (b - 1) = beta a b * betaPDFReal a b x := by
    intro x hx
    rw [betaPDFReal, if_pos ⟨hx.1, hx.2⟩]
    field_simp
  constructor
  · have : IntegrableOn (fun x => beta a b * betaPDFReal a b x) (Set.Ioo 0 1) volume := (betaPDF_integrable ha hb).const_mul (beta a b)
    exact this.congr_fun (fun x hx => (e x hx).symm) measurableSet_Ioo
  · rw [setIntegral_congr_fun measurableSet_Ioo e, integral_const_mul, betaPDF_integral ha hb, mul_one]

/-- Hölder's inequality for the beta function -/
theorem beta_holder {a b a' b' s t : ℝ} (ha : 0 < a) (hb : 0 < b) (ha' : 0 < a') (hb' : 0 < b') (hs : 0 < s) (ht : 0 < t) (hst : s + t = 1) :
    beta (s * a + t * a') (s * b + t * b') ≤ beta a b ^ s * beta a' b' ^ t := by
  let f : ℝ → ℝ → ℝ → ℝ → ℝ := fun c u v x => x ^ (c * (u - 1)) * (1 - x) ^ (c * (v - 1))
  have e : Real.HolderConjugate (1 / s) (1 / t) := Real.holderConjugate_one_div hs ht hst
  have posf : ∀ c u v x : ℝ, x ∈ Set.Ioo (0:ℝ) 1 → 0 ≤ f c u v x := fun c u v x hx =>
    mul_nonneg (Real.rpow_nonneg hx.1.le _) (Real.rpow_nonneg (by linarith [hx.2]) _)
  have posf' : ∀ c u v : ℝ, ∀ᵐ x : ℝ ∂volume.restrict (Set.Ioo 0 1), 0 ≤ f c u v x := fun c u v =>
    (ae_restrict_iff' measurableSet_Ioo).mpr (ae_of_all _ (posf c u v))
  have fpow : ∀ {c x : ℝ} (_ : 0 < c) (u v : ℝ) (_ : x ∈ Set.Ioo (0:ℝ) 1), x ^ (u - 1) * (1 - x) ^ (v - 1) = f c u v x ^ (1 / c) := by
    intro c x hc u v hx
    have h1 : (0:ℝ) ≤ 1 - x := by linarith [hx.2]
    dsimp only [f]
    rw [Real.mul_rpow (Real.rpow_nonneg hx.1.le _) (Real.rpow_nonneg h1 _), ← Real.rpow_mul hx.1.le, ← Real.rpow_mul h1]
    congr 2 <;> field
  have f_mem : ∀ {c u v : ℝ} (_ : 0 < c) (_ : 0 < u) (_ : 0 < v), MemLp (f c u v) (ENNReal.ofReal (1 / c)) (volume.restrict (Set.Ioo 0 1)) := by
    intro c u v hc hu hv
    have A : ENNReal.ofReal (1 / c) ≠ 0 := by
      rwa [Ne, ENNReal.ofReal_eq_zero, not_le, one_div_pos]
    have B : ENNReal.ofReal (1 / c) ≠ ⊤ := ENNReal.ofReal_ne_top
    rw [← memLp_norm_rpow_iff _ A B, ENNReal.toReal_ofReal (one_div_nonneg.mpr hc.le), ENNReal.div_self A B, memLp_one_iff_integrable]
    · refine Integrable.congr (beta_kernel hu hv).1 ?_
      refine Filter.eventuallyEq_of_mem (self_mem_ae_restrict measurableSet_Ioo) fun x hx => ?_
      show x ^ (u - 1) * (1 - x) ^ (v - 1) = _
      rw [fpow hc u v hx]
      congr 1
      exact (Real.norm_of_nonneg (posf _ _ _ x hx)).symm
    · refine ContinuousOn.aestronglyMeasurable ?_ measurableSet_Ioo
      refine ContinuousOn.mul ?_ ?_
      · exact fun x hx => (Real.continuousAt_rpow_const _ _ (Or.inl hx.1.ne')).continuousWithinAt
      · refine fun x hx => ContinuousAt.continuousWithinAt ?_
        exact (continuousAt_const.sub continuousAt_id).rpow_const (Or.inl (by simp; linarith [hx.2]))
  rw [← (beta_kernel ha hb).2, ← (beta_kernel ha' hb').2, ← (beta_kernel (by positivity : 0 < s * a + t * a') (by positivity : 0 < s * b + t * b')).2]
  convert! integral_mul_le_Lp_mul_Lq_of_nonneg e (posf' s a b) (posf' t a' b') (f_mem hs ha hb) (f_mem ht ha' hb') using 1
  · refine setIntegral_congr_fun measurableSet_Ioo fun x hx => ?_
    have h1 : (0:ℝ) < 1 - x := by linarith [hx.2]
    have A : x ^ (s * a + t * a' - 1) = x ^ (s * (a - 1)) * x ^ (t * (a' - 1)) := by
      rw [← Real.rpow_add hx.1]; congr 1; linear_combination hst
    have B : (1 - x) ^ (s * b + t * b' - 1) = (1 - x) ^ (s * (b - 1)) * (1 - x) ^ (t * (b' - 1)) := by
      rw [← Real.rpow_add h1]; congr 1; linear_combination hst
    simp only [f]
    rw [A, B]
    ring
  · rw [one_div_one_div, one_div_one_div]
    congr 2 <;> exact setIntegral_congr_fun measurableSet_Ioo fun x hx => fpow (by assumption) _ _ hx

/-- log of the beta function -/
noncomputable def lnBeta (a b : ℝ) : ℝ := gammaln a + gammaln b - gammaln (a + b)

theorem log_beta {a b : ℝ} (ha : 0 < a) (hb : 0 < b) : Real.log (beta a b) = lnBeta a b := by
  have h1 := Real.Gamma_pos_of_pos ha
  have h2 := Real.Gamma_pos_of_pos hb
  have h3 := Real.Gamma_pos_of_pos (add_pos ha hb)
  rw [beta, Real.log_div (by positivity) h3.ne', Real.log_mul h1.ne' h2.ne']
  rfl

theorem lnBeta_convex {a b a' b' s t : ℝ} (ha : 0 < a) (hb : 0 < b) (ha' : 0 < a') (hb' : 0 < b') (hs : 0 ≤ s) (ht : 0 ≤ t) (hst : s + t = 1) :
    lnBeta (s * a + t * a') (s * b + t * b') ≤ s * lnBeta a b + t * lnBeta a' b' := by
  rcases hs.eq_or_lt with h | hs
  · have : t = 1 := by linarith
    subst h; subst this; simp
  rcases ht.eq_or_lt with h | ht
  · have : s = 1 := by linarith
    subst h; subst this; simp
  have h1 := beta_pos ha hb
  have h2 := beta_pos ha' hb'
  have h3 := beta_pos (show 0 < s * a + t * a' by positivity) (show 0 < s * b + t * b' by positivity)
  have := Real.log_le_log h3 (beta_holder ha hb ha' hb' hs ht hst)
  rwa [Real.log_mul (Real.rpow_pos_of_pos h1 s).ne' (Real.rpow_pos_of_pos h2 t).ne', Real.log_rpow h1, Real.log_rpow h2, log_beta ha hb, log_beta ha' hb',
    log_beta (by positivity) (by positivity)] at this

/-- tangent inequality of the log beta function -/
theorem lnBeta_tangent {a b a' b' : ℝ} (ha : 0 < a) (hb : 0 < b) (ha' : 0 < a') (hb' : 0 < b') :
    lnBeta a' b' + (a - a') * (psi a' - psi (a' + b')) + (b - b') * (psi b' - psi (a' + b')) ≤ lnBeta a b := by
  set g : ℝ → ℝ := fun t => lnBeta (a' + t * (a - a')) (b' + t * (b - b')) with hg
  have hpos : ∀ t ∈ Set.Icc (0:ℝ) 1, 0 < a' + t * (a - a') ∧ 0 < b' + t * (b - b') := by
    intro t ht
    have h1 : a' + t * (a - a') = (1 - t) * a' + t * a := by ring
    have h2 : b' + t * (b - b') = (1 - t) * b' + t * b := by ring
    rw [h1, h2]
    rcases ht.1.eq_or_lt with h | h
    · rw [← h]; simp [ha', hb']
    · exact ⟨add_pos_of_nonneg_of_pos (mul_nonneg (by linarith [ht.2]) ha'.le) (by positivity),
        add_pos_of_nonneg_of_pos (mul_nonneg (by linarith [ht.2]) hb'.le) (by positivity)⟩
  have hconv : ConvexOn ℝ (Set.Icc 0 1) g := by
    refine ⟨convex_Icc 0 1, fun x hx y hy s t hs ht hst => ?_⟩
    have hx' := hpos x hx
    have hy' := hpos y hy
    have := lnBeta_convex hx'.1 hx'.2 hy'.1 hy'.2 hs ht hst
    simp only [hg, smul_eq_mul]
    have e1 : a' + (s * x + t * y) * (a - a') = s * (a' + x * (a - a')) + t * (a' + y * (a - a')) := by linear_combination -(a' * hst)
    have e2 : b' + (s * x + t * y) * (b - b') = s * (b' + x * (b - b')) + t * (b' + y * (b - b')) := by linear_combination -(b' * hst)
    rw [e1, e2]
    exact this
  have hd : HasDerivAt g ((a - a') * (psi a' - psi (a' + b')) + (b - b') * (psi b' - psi (a' + b'))) 0 := by
    have l1 : HasDerivAt (fun t : ℝ => a' + t * (a - a')) (a - a') 0 := by
      simpa using ((hasDerivAt_id (0:ℝ)).mul_const (a - a')).const_add a'
    have l2 : HasDerivAt (fun t : ℝ => b' + t * (b - b')) (b - b') 0 := by
      simpa using ((hasDerivAt_id (0:ℝ)).mul_const (b - b')).const_add b'
    have l3 : HasDerivAt (fun t : ℝ => (a' + t * (a - a')) + (b' + t * (b - b'))) ((a - a') + (b - b')) 0 := l1.add l2
    have d1 : HasDerivAt (fun t : ℝ => gammaln (a' + t * (a - a'))) (psi a' * (a - a')) 0 := by
      have h := gammaln_hasDerivAt ha'
      refine HasDerivAt.comp (0:ℝ) (h₂ := gammaln) ?_ l1
      simpa using h
    have d2 : HasDerivAt (fun t : ℝ => gammaln (b' + t * (b - b'))) (psi b' * (b - b')) 0 := by
      have h := gammaln_hasDerivAt hb'
      refine HasDerivAt.comp (0:ℝ) (h₂ := gammaln) ?_ l2
      simpa using h
    have d3 : HasDerivAt (fun t : ℝ => gammaln ((a' + t * (a - a')) + (b' + t * (b - b')))) (psi (a' + b') * ((a - a') + (b - b'))) 0 := by
      have h := gammaln_hasDerivAt (add_pos ha' hb')
      refine HasDerivAt.comp (0:ℝ) (h₂ := gammaln) ?_ l3
      simpa using h
    have := (d1.add d2).sub d3
    refine this.congr_deriv ?_
    ring
  have := convex_tangent hconv (Set.left_mem_Icc.2 zero_le_one) (Set.right_mem_Icc.2 zero_le_one) hd
  simp only [hg, zero_mul, add_zero, one_mul, sub_zero, mul_one] at this
  rw [show a' + (a - a') = a by ring, show b' + (b - b') = b by ring] at this
  linarith

/-- log normaliser of a Dirichlet distribution -/
noncomputable def lnDir (n : ℕ) (g : Vec ℝ) : ℝ := ∑ i ∈ range n, gammaln (g i) - gammaln (∑ i ∈ range n, g i)

/-- tangent inequality of the Dirichlet normaliser -/
theorem lnDir_tangent (n : ℕ) (g g' : Vec ℝ) (hg : ∀ i < n + 1, 0 < g i) (hg' : ∀ i < n + 1, 0 < g' i) :
    lnDir (n + 1) g' + ∑ i ∈ range (n + 1), (g i - g' i) * (psi (g' i) - psi (∑ i ∈ range (n + 1), g' i)) ≤ lnDir (n + 1) g := by
  induction n with
  | zero => simp [lnDir]
  | succ n ih =>
    have ih := ih (fun i hi => hg i (by omega)) (fun i hi => hg' i (by omega))
    have hS : 0 < ∑ i ∈ range (n + 1), g i := sum_pos (fun i hi => hg i (by have := mem_range.1 hi; omega)) ⟨0, mem_range.2 (by omega)⟩
    have hS' : 0 < ∑ i ∈ range (n + 1), g' i := sum_pos (fun i hi => hg' i (by have := mem_range.1 hi; omega)) ⟨0, mem_range.2 (by omega)⟩
    have ht := lnBeta_tangent hS (hg (n + 1) (by omega)) hS' (hg' (n + 1) (by omega))
    have split : ∀ g : Vec ℝ, lnDir (n + 1 + 1) g = lnDir (n + 1) g + lnBeta (∑ i ∈ range (n + 1), g i) (g (n + 1)) := by
      intro g
      unfold lnDir lnBeta
      rw [sum_range_succ _ (n + 1), sum_range_succ g (n + 1)]
      ring
    rw [split g, split g', sum_range_succ _ (n + 1), sum_range_succ g' (n + 1)]
    set S' := ∑ i ∈ range (n + 1), g' i with hS'def
    set S := ∑ i ∈ range (n + 1), g i with hSdef
    have e : ∑ i ∈ range (n + 1), (g i - g' i) * (psi (g' i) - psi (S' + g' (n + 1)))
        = ∑ i ∈ range (n + 1), (g i - g' i) * (psi (g' i) - psi S') + (S - S') * (psi S' - psi (S' + g' (n + 1))) := by
      rw [hSdef, hS'def, ← sum_sub_distrib, sum_mul, ← sum_add_distrib]
      refine sum_congr rfl fun i _ => ?_
      ring
    rw [e]
    linarith

/-- `psi a - psi (a+b)` lies below the log of the mean `a/(a+b)` (Jensen) -/
theorem psi_sub_le {a b : ℝ} (ha : 0 < a) (hb : 0 < b) : psi a - psi (a + b) ≤ Real.log (a / (a + b)) := by
  have h := lnBeta_tangent (a := a + 1) (b := b) (a' := a) (b' := b) (by linarith) hb ha hb
  have hG := Real.Gamma_pos_of_pos ha
  have hG2 := Real.Gamma_pos_of_pos (add_pos ha hb)
  have e1 : gammaln (a + 1) = Real.log a + gammaln a := by
    unfold gammaln; rw [Real.Gamma_add_one ha.ne', Real.log_mul ha.ne' hG.ne']
  have e2 : gammaln (a + 1 + b) = Real.log (a + b) + gammaln (a + b) := by
    unfold gammaln; rw [show a + 1 + b = a + b + 1 by ring, Real.Gamma_add_one (by linarith : a + b ≠ 0), Real.log_mul (by linarith) hG2.ne']
  rw [Real.log_div ha.ne' (by linarith)]
  unfold lnBeta at h
  rw [e1, e2] at h
  nlinarith

end PyHawkes
