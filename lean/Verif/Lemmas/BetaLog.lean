import Verif.Lemmas.BetaFn

/-! # Expectations of `log x` and `log (1 - x)` under a beta distribution -/
set_option linter.unusedSectionVars false

namespace PyHawkes
open Finset MeasureTheory ProbabilityTheory

theorem beta_hasDerivAt {a b : ℝ} (ha : 0 < a) (hb : 0 < b) :
    HasDerivAt (fun x => beta x b) (beta a b * (psi a - psi (a + b))) a := by
  have h1 := gammaln_hasDerivAt ha
  have h2 : HasDerivAt (fun x => gammaln (x + b)) (psi (a + b)) a := by
    have := gammaln_hasDerivAt (add_pos ha hb)
    exact this.comp_add_const a b
  have h3 : HasDerivAt (fun x => gammaln x + gammaln b - gammaln (x + b)) (psi a - psi (a + b)) a := (h1.add_const _).sub h2
  have h4 := h3.exp
  have hv : Real.exp (gammaln a + gammaln b - gammaln (a + b)) = beta a b := by
    rw [show gammaln a + gammaln b - gammaln (a + b) = Real.log (beta a b) from (log_beta ha hb).symm, Real.exp_log (beta_pos ha hb)]
  rw [hv] at h4
  refine h4.congr_of_eventuallyEq ?_
  filter_upwards [lt_mem_nhds ha] with x hx
  rw [show gammaln x + gammaln b - gammaln (x + b) = Real.log (beta x b) from (log_beta hx hb).symm, Real.exp_log (beta_pos hx hb)]

/-- derivative of the beta function under the integral sign -/
theorem integral_log_beta {a b : ℝ} (ha : 0 < a) (hb : 0 < b) :
    IntegrableOn (fun x : ℝ => x ^ (a - 1) * (1 - x) ^ (b - 1) * Real.log x) (Set.Ioo 0 1) volume ∧
    ∫ x in Set.Ioo (0:ℝ) 1, x ^ (a - 1) * (1 - x) ^ (b - 1) * Real.log x = beta a b * (psi a - psi (a + b)) := by
  let f : ℝ → ℂ := fun x => (((Set.Ioo (0:ℝ) 1).indicator (fun x => (1 - x) ^ (b - 1)) x : ℝ) : ℂ)
  have hs : 0 < ((a : ℂ)).re := by simpa using ha
  have hint1 : IntegrableOn (fun x : ℝ => (1 - x) ^ (b - 1)) (Set.Ioo 0 1) volume := by
    have := (beta_kernel (a := 1) one_pos hb).1
    simpa using this
  have hmel := mellin_hasDerivAt_of_isBigO_rpow (E := ℂ) (f := f) (s := (a : ℂ)) (a := (a : ℂ).re + 1) (b := 0) ?_ ?_ (lt_add_one _) ?_ hs
  · obtain ⟨hconv, hder⟩ := hmel
    have form : ∀ (c : ℝ) (l : ℝ → ℝ), ∀ t ∈ Set.Ioi (0:ℝ), ((t : ℂ) ^ ((c : ℂ) - 1) • ((l t) • f t))
        = (((Set.Ioo (0:ℝ) 1).indicator (fun x => x ^ (c - 1) * (1 - x) ^ (b - 1) * l x) t : ℝ) : ℂ) := by
      intro c l t ht
      by_cases h : t ∈ Set.Ioo (0:ℝ) 1
      · simp only [f, Set.indicator_of_mem h, smul_eq_mul, Complex.real_smul]
        push_cast
        rw [Complex.ofReal_cpow (le_of_lt ht)]
        push_cast
        ring
      · simp only [f, Set.indicator_of_notMem h]
        simp
    have toIoo : ∀ g : ℝ → ℝ, ∫ x in Set.Ioi (0:ℝ), (Set.Ioo (0:ℝ) 1).indicator g x = ∫ x in Set.Ioo (0:ℝ) 1, g x := by
      intro g
      rw [setIntegral_indicator measurableSet_Ioo]
      congr 2
      ext x; simp only [Set.mem_inter_iff, Set.mem_Ioi, Set.mem_Ioo]; tauto
    have hintC : IntegrableOn (fun t : ℝ => (((Set.Ioo (0:ℝ) 1).indicator (fun x => x ^ (a - 1) * (1 - x) ^ (b - 1) * Real.log x) t : ℝ) : ℂ)) (Set.Ioi 0) volume :=
      IntegrableOn.congr_fun hconv (fun t ht => form a Real.log t ht) measurableSet_Ioi
    have hintR : IntegrableOn ((Set.Ioo (0:ℝ) 1).indicator (fun x => x ^ (a - 1) * (1 - x) ^ (b - 1) * Real.log x)) (Set.Ioi 0) volume := by
      refine hintC.re.congr ?_
      exact Filter.Eventually.of_forall fun t => Complex.ofReal_re _
    have hI : IntegrableOn (fun x : ℝ => x ^ (a - 1) * (1 - x) ^ (b - 1) * Real.log x) (Set.Ioo 0 1) volume := by
      have h := hintR.mono_set (show Set.Ioo (0:ℝ) 1 ⊆ Set.Ioi 0 from fun x hx => hx.1)
      exact h.congr_fun (fun x hx => Set.indicator_of_mem hx _) measurableSet_Ioo
    refine ⟨hI, ?_⟩
    have hval : mellin (fun t : ℝ => (Real.log t) • f t) (a : ℂ)
        = ((∫ x in Set.Ioo (0:ℝ) 1, x ^ (a - 1) * (1 - x) ^ (b - 1) * Real.log x : ℝ) : ℂ) := by
      unfold mellin
      rw [setIntegral_congr_fun measurableSet_Ioi (form a Real.log), integral_complex_ofReal, toIoo]
    rw [hval] at hder
    have hR := hder.real_of_complex
    rw [Complex.ofReal_re] at hR
    have hB : HasDerivAt (fun x => beta x b) (∫ x in Set.Ioo (0:ℝ) 1, x ^ (a - 1) * (1 - x) ^ (b - 1) * Real.log x) a := by
      refine hR.congr_of_eventuallyEq ?_
      filter_upwards [lt_mem_nhds ha] with c hc
      have : mellin f (c : ℂ) = ((∫ x in Set.Ioo (0:ℝ) 1, x ^ (c - 1) * (1 - x) ^ (b - 1) * 1 : ℝ) : ℂ) := by
        unfold mellin
        have := setIntegral_congr_fun (μ := volume) measurableSet_Ioi (form c fun _ => 1)
        simp only [one_smul] at this
        rw [this, integral_complex_ofReal, toIoo]
      rw [this, Complex.ofReal_re]
      simp only [mul_one]
      exact (beta_kernel hc hb).2.symm
    exact hB.unique (beta_hasDerivAt ha hb)
  · refine LocallyIntegrable.locallyIntegrableOn ?_ _
    refine Integrable.locallyIntegrable ?_
    refine Integrable.ofReal ?_
    exact (integrable_indicator_iff measurableSet_Ioo).2 hint1
  · refine Asymptotics.IsBigO.of_bound 1 ?_
    filter_upwards [Filter.eventually_ge_atTop (1:ℝ)] with x hx
    have : x ∉ Set.Ioo (0:ℝ) 1 := fun h => absurd h.2 (not_lt.2 hx)
    simp only [f, Set.indicator_of_notMem this]
    simp
  · simp_rw [neg_zero, Real.rpow_zero]
    have hc : Filter.Tendsto (fun x : ℝ => (((1 - x) ^ (b - 1) : ℝ) : ℂ)) (nhdsWithin 0 (Set.Ioi 0)) (nhds (((1 - 0 : ℝ) ^ (b - 1) : ℝ) : ℂ)) := by
      refine (Complex.continuous_ofReal.tendsto _).comp ?_
      have : ContinuousAt (fun x : ℝ => (1 - x) ^ (b - 1)) 0 := by
        refine ContinuousAt.rpow_const (by fun_prop) (Or.inl (by norm_num))
      exact this.continuousWithinAt
    have h1 : (fun x : ℝ => (((1 - x) ^ (b - 1) : ℝ) : ℂ)) =O[nhdsWithin 0 (Set.Ioi 0)] (fun _ => (1:ℝ)) := by
      refine Asymptotics.isBigO_const_of_tendsto hc one_ne_zero
    refine Asymptotics.IsBigO.congr' h1 ?_ (Filter.EventuallyEq.refl _ _)
    filter_upwards [Ioo_mem_nhdsGT (show (0:ℝ) < 1 by norm_num)] with x hx
    simp only [f, Set.indicator_of_mem hx]

/-- `E[log x]` under a beta distribution -/
theorem beta_mean_log {a b : ℝ} (ha : 0 < a) (hb : 0 < b) :
    IntegrableOn (fun x => betaPDFReal a b x * Real.log x) (Set.Ioo 0 1) volume ∧
    ∫ x in Set.Ioo (0:ℝ) 1, betaPDFReal a b x * Real.log x = psi a - psi (a + b) := by
  obtain ⟨i, v⟩ := integral_log_beta ha hb
  have hB := beta_pos ha hb
  have e : ∀ x ∈ Set.Ioo (0:ℝ) 1, betaPDFReal a b x * Real.log x = (beta a b)⁻¹ * (x ^ (a - 1) * (1 - x) ^ (b - 1) * Real.log x) := by
    intro x hx
    rw [betaPDFReal, if_pos ⟨hx.1, hx.2⟩]
    ring
  constructor
  · have : IntegrableOn (fun x => (beta a b)⁻¹ * (x ^ (a - 1) * (1 - x) ^ (b - 1) * Real.log x)) (Set.Ioo 0 1) volume := i.const_mul _
    exact this.congr_fun (fun x hx => (e x hx).symm) measurableSet_Ioo
  · rw [setIntegral_congr_fun measurableSet_Ioo e, integral_const_mul, v]
    field_simp

/-- reflection of the unit interval -/
theorem Ioo_reflect (g : ℝ → ℝ) :
    (IntegrableOn (fun x => g (1 - x)) (Set.Ioo 0 1) volume ↔ IntegrableOn g (Set.Ioo 0 1) volume) ∧
    ∫ x in Set.Ioo (0:ℝ) 1, g (1 - x) = ∫ x in Set.Ioo (0:ℝ) 1, g x := by
  have e : (fun x : ℝ => 1 - x) ⁻¹' Set.Ioo 0 1 = Set.Ioo 0 1 := by
    ext x; simp only [Set.mem_preimage, Set.mem_Ioo]; constructor <;> rintro ⟨h1, h2⟩ <;> constructor <;> linarith
  have mp : MeasurePreserving (fun x : ℝ => 1 - x) volume volume := volume.measurePreserving_sub_left 1
  have me : MeasurableEmbedding (fun x : ℝ => 1 - x) := (Homeomorph.subLeft (1:ℝ)).measurableEmbedding
  constructor
  · have := mp.integrableOn_comp_preimage me (f := g) (s := Set.Ioo 0 1)
    rw [e] at this
    exact this
  · have := mp.setIntegral_preimage_emb me g (Set.Ioo 0 1)
    rw [e] at this
    exact this

theorem betaPDF_reflect (a b x : ℝ) : betaPDFReal a b (1 - x) = betaPDFReal b a x := by
  unfold betaPDFReal
  have : beta a b = beta b a := by unfold beta; rw [mul_comm, add_comm]
  by_cases h : 0 < x ∧ x < 1
  · rw [if_pos h, if_pos (by constructor <;> linarith), this, sub_sub_cancel]
    ring
  · rw [if_neg h, if_neg (by intro h'; apply h; constructor <;> linarith [h'.1, h'.2])]

/-- `E[log (1-x)]` under a beta distribution -/
theorem beta_mean_log_compl {a b : ℝ} (ha : 0 < a) (hb : 0 < b) :
    IntegrableOn (fun x => betaPDFReal a b x * Real.log (1 - x)) (Set.Ioo 0 1) volume ∧
    ∫ x in Set.Ioo (0:ℝ) 1, betaPDFReal a b x * Real.log (1 - x) = psi b - psi (a + b) := by
  obtain ⟨i, v⟩ := beta_mean_log hb ha
  obtain ⟨ri, rv⟩ := Ioo_reflect (fun x => betaPDFReal b a x * Real.log x)
  simp only [betaPDF_reflect] at ri rv
  rw [add_comm a b]
  exact ⟨ri.2 i, rv.trans v⟩

end PyHawkes
