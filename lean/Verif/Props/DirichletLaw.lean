import Verif.Spec.Dirichlet
import Verif.Props.MFTiltSBM
import Mathlib.Probability.HasLaw
import Mathlib.Probability.Moments.ComplexMGF
import Mathlib.MeasureTheory.Measure.CharacteristicFunction.Basic
import Mathlib.Probability.Independence.InfinitePi
import Mathlib.Probability.Independence.Integration

/-! # Sums of gamma variables, and the mean and log mean of a Dirichlet distribution -/
set_option linter.unusedSectionVars false

namespace PyHawkes
open Finset Spec MeasureTheory ProbabilityTheory

/-! ### Integrals against the gamma distribution -/

theorem gammaPDFReal_zero_of_neg {a r x : ℝ} (hx : x < 0) : gammaPDFReal a r x = 0 := by
  unfold gammaPDFReal; rw [if_neg (not_le.2 hx)]

/-- integrals against `gammaMeasure` are integrals of density times function over the positive half line -/
theorem integral_gammaMeasure {a r : ℝ} (ha : 0 < a) (hr : 0 < r) (f : ℝ → ℝ) : ∫ x, f x ∂gammaMeasure a r = expGamma a r f := by
  unfold gammaMeasure expGamma
  have hm : Measurable (gammaPDF a r) := (measurable_gammaPDFReal a r).ennreal_ofReal
  rw [integral_withDensity_eq_integral_toReal_smul hm (Filter.Eventually.of_forall fun x => by unfold gammaPDF; exact ENNReal.ofReal_lt_top)]
  rw [← integral_indicator measurableSet_Ioi]
  refine integral_congr_ae ?_
  have h0 : ∀ᵐ x : ℝ, x ≠ 0 := by simp [ae_iff, measure_singleton]
  filter_upwards [h0] with x hx
  rw [smul_eq_mul]
  unfold gammaPDF
  rw [ENNReal.toReal_ofReal (gammaPDFReal_nonneg ha hr x)]
  rcases lt_or_gt_of_ne hx with h | h
  · rw [Set.indicator_of_notMem (by simp [h.le]), gammaPDFReal_zero_of_neg h, zero_mul]
  · rw [Set.indicator_of_mem (by simpa using h)]

theorem integrable_gammaMeasure {a r : ℝ} (ha : 0 < a) (hr : 0 < r) (f : ℝ → ℝ) :
    Integrable f (gammaMeasure a r) ↔ IntegrableOn (fun x => gammaPDFReal a r x * f x) (Set.Ioi 0) volume := by
  unfold gammaMeasure
  have hm : Measurable (gammaPDF a r) := (measurable_gammaPDFReal a r).ennreal_ofReal
  rw [integrable_withDensity_iff_integrable_smul' hm (Filter.Eventually.of_forall fun x => by unfold gammaPDF; exact ENNReal.ofReal_lt_top),
    ← integrable_indicator_iff measurableSet_Ioi]
  refine integrable_congr ?_
  have h0 : ∀ᵐ x : ℝ, x ≠ 0 := by simp [ae_iff, measure_singleton]
  filter_upwards [h0] with x hx
  rw [smul_eq_mul]
  unfold gammaPDF
  rw [ENNReal.toReal_ofReal (gammaPDFReal_nonneg ha hr x)]
  rcases lt_or_gt_of_ne hx with h | h
  · rw [Set.indicator_of_notMem (by simp [h.le]), gammaPDFReal_zero_of_neg h, zero_mul]
  · rw [Set.indicator_of_mem (by simpa using h)]

/-- a gamma variable is positive -/
theorem gammaMeasure_pos {a r : ℝ} : ∀ᵐ x ∂gammaMeasure a r, 0 < x := by
  unfold gammaMeasure
  have hm : Measurable (gammaPDF a r) := (measurable_gammaPDFReal a r).ennreal_ofReal
  rw [ae_withDensity_iff hm]
  have h0 : ∀ᵐ x : ℝ, x ≠ 0 := by simp [ae_iff, measure_singleton]
  filter_upwards [h0] with x hx h
  by_contra hn
  have : x < 0 := lt_of_le_of_ne (not_lt.1 hn) hx
  exact h (gammaPDF_of_neg this)

/-! ### Moment generating function and additivity -/

theorem mgf_gamma {a : ℝ} (ha : 0 < a) (t : ℝ) : mgf id (gammaMeasure a 1) t = if t < 1 then (1 - t) ^ (-a) else 0 := by
  have hG := Real.Gamma_pos_of_pos ha
  have hf : ∀ x ∈ Set.Ioi (0:ℝ), gammaPDFReal a 1 x * Real.exp (t * id x) = 1 / Real.Gamma a * (x ^ (a - 1) * Real.exp (-((1 - t) * x))) := by
    intro x hx
    unfold gammaPDFReal
    rw [if_pos (le_of_lt hx), Real.one_rpow, mul_assoc, mul_assoc, ← Real.exp_add]
    simp only [id]
    congr 3; ring
  split_ifs with h
  · rw [mgf, integral_gammaMeasure ha one_pos, expGamma, setIntegral_congr_fun measurableSet_Ioi hf, integral_const_mul,
      Real.integral_rpow_mul_exp_neg_mul_Ioi ha (by linarith), Real.rpow_neg (by linarith), one_div (1 - t), Real.inv_rpow (by linarith)]
    field_simp
  · refine integral_undef fun hi => ?_
    rw [integrable_gammaMeasure ha one_pos, integrableOn_congr_fun hf measurableSet_Ioi] at hi
    refine not_integrableOn_Ioi_rpow (a - 1) ?_
    have hi2 : IntegrableOn (fun x : ℝ => x ^ (a - 1) * Real.exp (-((1 - t) * x))) (Set.Ioi 0) volume := by
      have := hi.const_mul (Real.Gamma a)
      refine this.congr (Filter.Eventually.of_forall fun x => ?_)
      show Real.Gamma a * (1 / Real.Gamma a * _) = _
      field_simp
    refine Integrable.mono' hi2 (by fun_prop) ?_
    refine (ae_restrict_iff' measurableSet_Ioi).2 (Filter.Eventually.of_forall fun x hx => ?_)
    have hx : (0:ℝ) < x := hx
    rw [Real.norm_of_nonneg (Real.rpow_nonneg hx.le _)]
    refine le_mul_of_one_le_right (Real.rpow_nonneg hx.le _) (Real.one_le_exp ?_)
    nlinarith

theorem integrableExp_gamma {a : ℝ} (ha : 0 < a) {t : ℝ} (ht : t < 1) : t ∈ integrableExpSet id (gammaMeasure a 1) := by
  by_contra h
  have h2 : mgf id (gammaMeasure a 1) t = 0 := integral_undef h
  rw [mgf_gamma ha, if_pos ht] at h2
  exact (Real.rpow_pos_of_pos (by linarith) _).ne' h2

/-- a variable with the moment generating function of a gamma distribution has that distribution -/
theorem hasLaw_gamma_of_mgf {Ω : Type*} [MeasurableSpace Ω] {P : Measure Ω} [IsProbabilityMeasure P] {S : Ω → ℝ} {a : ℝ} (ha : 0 < a) (hmeas : AEMeasurable S P)
    (hm : mgf id (gammaMeasure a 1) = mgf S P) : HasLaw S (gammaMeasure a 1) P := by
  refine ⟨hmeas, ?_⟩
  have : IsProbabilityMeasure (gammaMeasure a 1) := isProbabilityMeasure_gammaMeasure ha one_pos
  have : IsProbabilityMeasure (P.map S) := Measure.isProbabilityMeasure_map hmeas
  have hc := eqOn_complexMGF_of_mgf hm
  refine (Measure.ext_of_charFun ?_).symm
  funext t
  rw [← complexMGF_id_mul_I, ← complexMGF_id_mul_I, complexMGF_id_map hmeas]
  refine hc ?_
  show ((t : ℂ) * Complex.I).re ∈ interior (integrableExpSet id (gammaMeasure a 1))
  rw [Complex.re_ofReal_mul, Complex.I_re, mul_zero]
  refine mem_interior.2 ⟨Set.Iio 1, fun u hu => integrableExp_gamma ha hu, isOpen_Iio, by simp⟩

/-- **additivity**: the sum of independent gamma variables with a common rate is gamma, with the sum of the shapes -/
theorem gamma_sum {Ω ι : Type*} [MeasurableSpace Ω] {P : Measure Ω} [IsProbabilityMeasure P] {X : ι → Ω → ℝ} {v : ι → ℝ} (hv : ∀ i, 0 < v i)
    (hX : ∀ i, HasLaw (X i) (gammaMeasure (v i) 1) P) (hi : iIndepFun X P) (s : Finset ι) (hs : s.Nonempty) :
    HasLaw (fun ω => ∑ i ∈ s, X i ω) (gammaMeasure (∑ i ∈ s, v i) 1) P := by
  have hsum : 0 < ∑ i ∈ s, v i := sum_pos (fun i _ => hv i) hs
  have hmeas : AEMeasurable (∑ i ∈ s, X i) P := Finset.aemeasurable_sum s fun i _ => (hX i).aemeasurable
  have hfun : (fun ω => ∑ i ∈ s, X i ω) = ∑ i ∈ s, X i := by funext ω; simp
  rw [hfun]
  refine hasLaw_gamma_of_mgf hsum hmeas ?_
  funext t
  rw [hi.mgf_sum₀ fun i => (hX i).aemeasurable, mgf_gamma hsum]
  have h1 : ∀ i, mgf (X i) P t = if t < 1 then (1 - t) ^ (-(v i)) else 0 := by
    intro i
    rw [← mgf_gamma (hv i), ← (hX i).map_eq, mgf_id_map (hX i).aemeasurable]
  rw [prod_congr rfl fun i _ => h1 i]
  split_ifs with h
  · rw [← Finset.sum_neg_distrib, Real.rpow_sum_of_pos (by linarith)]
  · obtain ⟨i, hi⟩ := hs
    exact (prod_eq_zero hi rfl).symm

theorem gamma_add {Ω : Type*} [MeasurableSpace Ω] {P : Measure Ω} [IsProbabilityMeasure P] {X Y : Ω → ℝ} {a c : ℝ} (ha : 0 < a) (hc : 0 < c)
    (hX : HasLaw X (gammaMeasure a 1) P) (hY : HasLaw Y (gammaMeasure c 1) P) (hi : IndepFun X Y P) :
    HasLaw (fun ω => X ω + Y ω) (gammaMeasure (a + c) 1) P := by
  refine hasLaw_gamma_of_mgf (by positivity) (hX.aemeasurable.add hY.aemeasurable) ?_
  funext t
  have h := hi.mgf_add (t := t) (by have := hX.aemeasurable; fun_prop) (by have := hY.aemeasurable; fun_prop)
  have hadd : (fun ω => X ω + Y ω) = X + Y := rfl
  rw [hadd, h, ← mgf_id_map hX.aemeasurable, ← mgf_id_map hY.aemeasurable, hX.map_eq, hY.map_eq, mgf_gamma ha, mgf_gamma hc, mgf_gamma (by positivity)]
  split_ifs with h1
  · rw [← Real.rpow_add (by linarith)]; congr 1; ring
  · rw [mul_zero]

/-! ### Mean of a ratio -/

/-- the mean of the inverse of a gamma variable of shape `A + 1` -/
theorem gamma_inv_mean {A : ℝ} (hA : 0 < A) : Integrable (fun s => 1 / s) (gammaMeasure (A + 1) 1) ∧ ∫ s, 1 / s ∂gammaMeasure (A + 1) 1 = 1 / A := by
  have hpdf : ∀ x ∈ Set.Ioi (0:ℝ), gammaPDFReal (A + 1) 1 x * (1 / x) = 1 / A * (gammaPDFReal A 1 x * 1) := by
    intro x hx
    have hx : (0:ℝ) < x := hx
    have hG := Real.Gamma_pos_of_pos hA
    unfold gammaPDFReal
    rw [if_pos hx.le, if_pos hx.le, Real.one_rpow, Real.one_rpow, Real.Gamma_add_one hA.ne', add_sub_cancel_right,
      show x ^ A = x ^ (A - 1) * x by rw [← Real.rpow_add_one hx.ne', sub_add_cancel]]
    field_simp
  have h1 : Integrable (fun _ : ℝ => (1:ℝ)) (gammaMeasure A 1) := by
    have : IsProbabilityMeasure (gammaMeasure A 1) := isProbabilityMeasure_gammaMeasure hA one_pos
    exact integrable_const _
  constructor
  · rw [integrable_gammaMeasure (by positivity) one_pos, integrableOn_congr_fun hpdf measurableSet_Ioi]
    exact ((integrable_gammaMeasure hA one_pos _).1 h1).const_mul _
  · have : IsProbabilityMeasure (gammaMeasure A 1) := isProbabilityMeasure_gammaMeasure hA one_pos
    rw [integral_gammaMeasure (by positivity) one_pos, expGamma, setIntegral_congr_fun measurableSet_Ioi hpdf, integral_const_mul]
    have h2 := integral_gammaMeasure hA one_pos (fun _ => (1:ℝ))
    rw [expGamma] at h2
    rw [← h2]
    simp

theorem ratio_mean {Ω : Type*} [MeasurableSpace Ω] {P : Measure Ω} [IsProbabilityMeasure P] {X Y : Ω → ℝ} {a c : ℝ} (ha : 0 < a) (hc : 0 < c)
    (hX : HasLaw X (gammaMeasure a 1) P) (hY : HasLaw Y (gammaMeasure c 1) P) (hi : IndepFun X Y P) : ∫ ω, X ω / (X ω + Y ω) ∂P = a / (a + c) := by
  have pa : IsProbabilityMeasure (gammaMeasure a 1) := isProbabilityMeasure_gammaMeasure ha one_pos
  have pa1 : IsProbabilityMeasure (gammaMeasure (a + 1) 1) := isProbabilityMeasure_gammaMeasure (by positivity) one_pos
  have pc : IsProbabilityMeasure (gammaMeasure c 1) := isProbabilityMeasure_gammaMeasure hc one_pos
  have hmap := (indepFun_iff_map_prod_eq_prod_map_map hX.aemeasurable hY.aemeasurable).1 hi
  rw [hX.map_eq, hY.map_eq] at hmap
  have hm1 : Measurable fun p : ℝ × ℝ => p.1 / (p.1 + p.2) := by fun_prop
  have e1 : ∫ ω, X ω / (X ω + Y ω) ∂P = ∫ p, p.1 / (p.1 + p.2) ∂(gammaMeasure a 1).prod (gammaMeasure c 1) := by
    rw [← hmap, integral_map (hX.aemeasurable.prodMk hY.aemeasurable) hm1.aestronglyMeasurable]
  -- positivity on the product space
  have hpos : ∀ b : ℝ, 0 < b → ∀ᵐ p ∂(gammaMeasure b 1).prod (gammaMeasure c 1), 0 < p.1 ∧ 0 < p.2 := by
    intro b hb
    have pb : IsProbabilityMeasure (gammaMeasure b 1) := isProbabilityMeasure_gammaMeasure hb one_pos
    have h1 : ∀ᵐ p ∂(gammaMeasure b 1).prod (gammaMeasure c 1), 0 < p.1 :=
      Measure.quasiMeasurePreserving_fst.ae (gammaMeasure_pos (a := b) (r := 1))
    have h2 : ∀ᵐ p ∂(gammaMeasure b 1).prod (gammaMeasure c 1), 0 < p.2 :=
      Measure.quasiMeasurePreserving_snd.ae (gammaMeasure_pos (a := c) (r := 1))
    filter_upwards [h1, h2] with p h1 h2 using ⟨h1, h2⟩
  have i1 : Integrable (fun p : ℝ × ℝ => p.1 / (p.1 + p.2)) ((gammaMeasure a 1).prod (gammaMeasure c 1)) := by
    refine Integrable.mono' (integrable_const (1:ℝ)) hm1.aestronglyMeasurable ?_
    filter_upwards [hpos a ha] with p hp
    rw [Real.norm_of_nonneg (div_nonneg hp.1.le (add_pos hp.1 hp.2).le), div_le_one (add_pos hp.1 hp.2)]
    linarith [hp.2]
  -- the sum under the product measure
  have hsum : HasLaw (fun p : ℝ × ℝ => p.1 + p.2) (gammaMeasure (a + c + 1) 1) ((gammaMeasure (a + 1) 1).prod (gammaMeasure c 1)) := by
    have h1 : HasLaw (fun p : ℝ × ℝ => p.1) (gammaMeasure (a + 1) 1) ((gammaMeasure (a + 1) 1).prod (gammaMeasure c 1)) :=
      ⟨by fun_prop, by rw [← Measure.fst, Measure.fst_prod]⟩
    have h2 : HasLaw (fun p : ℝ × ℝ => p.2) (gammaMeasure c 1) ((gammaMeasure (a + 1) 1).prod (gammaMeasure c 1)) :=
      ⟨by fun_prop, by rw [← Measure.snd, Measure.snd_prod]⟩
    have h3 := gamma_add (by positivity) hc h1 h2 (by
      rw [indepFun_iff_map_prod_eq_prod_map_map h1.aemeasurable h2.aemeasurable, h1.map_eq, h2.map_eq]
      exact Measure.map_id)
    rwa [show a + 1 + c = a + c + 1 by ring] at h3
  obtain ⟨j1, j2⟩ := gamma_inv_mean (show 0 < a + c by positivity)
  have i2 : Integrable (fun p : ℝ × ℝ => 1 / (p.1 + p.2)) ((gammaMeasure (a + 1) 1).prod (gammaMeasure c 1)) := by
    rw [← hsum.map_eq] at j1
    exact j1.comp_aemeasurable hsum.aemeasurable
  have inner : ∀ y, ∫ x, x / (x + y) ∂gammaMeasure a 1 = a * ∫ x, 1 / (x + y) ∂gammaMeasure (a + 1) 1 := by
    intro y
    rw [integral_gammaMeasure ha one_pos, integral_gammaMeasure (by positivity) one_pos, expGamma, expGamma, ← integral_const_mul]
    refine setIntegral_congr_fun measurableSet_Ioi fun x hx => ?_
    have hx : (0:ℝ) < x := hx
    have hG := Real.Gamma_pos_of_pos ha
    show gammaPDFReal a 1 x * (x / (x + y)) = a * (gammaPDFReal (a + 1) 1 x * (1 / (x + y)))
    unfold gammaPDFReal
    rw [if_pos hx.le, if_pos hx.le, Real.one_rpow, Real.one_rpow, Real.Gamma_add_one ha.ne', add_sub_cancel_right,
      show x ^ a = x ^ (a - 1) * x by rw [← Real.rpow_add_one hx.ne', sub_add_cancel]]
    field_simp
  rw [e1, integral_prod_symm _ i1]
  have e2 : (fun y => ∫ x, x / (x + y) ∂gammaMeasure a 1) = fun y => a * ∫ x, 1 / (x + y) ∂gammaMeasure (a + 1) 1 := funext inner
  dsimp only
  rw [e2, integral_const_mul]
  have e3 := integral_prod_symm _ i2
  dsimp only at e3
  rw [← e3]
  have e4 : ∫ p, 1 / (p.1 + p.2) ∂(gammaMeasure (a + 1) 1).prod (gammaMeasure c 1) = ∫ s, 1 / s ∂gammaMeasure (a + c + 1) 1 :=
    hsum.integral_comp (f := fun s => 1 / s) j1.aestronglyMeasurable
  rw [e4, j2, mul_one_div]

/-! ### The Dirichlet distribution -/

section dirichlet
variable {B : ℕ} {v : ℕ → ℝ} (hv : ∀ b < B, 0 < v b)

/-- the product of the gamma distributions -/
noncomputable def gammaPi (B : ℕ) (v : ℕ → ℝ) : Measure (Fin B → ℝ) := Measure.pi fun b : Fin B => gammaMeasure (v b) 1

theorem measurable_toSimplex : Measurable (toSimplex B) := by
  refine measurable_pi_lambda _ fun b => ?_
  unfold toSimplex
  by_cases h : b < B
  · simp only [h, dif_pos]; fun_prop
  · simp only [h, dif_neg, not_false_eq_true]; fun_prop

include hv

theorem gammaPi_prob : IsProbabilityMeasure (gammaPi B v) := by
  have : ∀ b : Fin B, IsProbabilityMeasure (gammaMeasure (v b) 1) := fun b => isProbabilityMeasure_gammaMeasure (hv b b.2) one_pos
  unfold gammaPi; infer_instance

theorem gammaPi_law (b : Fin B) : HasLaw (fun y : Fin B → ℝ => y b) (gammaMeasure (v b) 1) (gammaPi B v) := by
  have : ∀ b : Fin B, IsProbabilityMeasure (gammaMeasure (v b) 1) := fun b => isProbabilityMeasure_gammaMeasure (hv b b.2) one_pos
  exact (measurePreserving_eval (fun b : Fin B => gammaMeasure (v b) 1) b).hasLaw

theorem gammaPi_indep : iIndepFun (fun (b : Fin B) (y : Fin B → ℝ) => y b) (gammaPi B v) := by
  have : ∀ b : Fin B, IsProbabilityMeasure (gammaMeasure (v b) 1) := fun b => isProbabilityMeasure_gammaMeasure (hv b b.2) one_pos
  exact iIndepFun_pi (X := fun _ x => x) fun _ => aemeasurable_id

theorem gammaPi_pos : ∀ᵐ y ∂gammaPi B v, ∀ b, 0 < y b := by
  rw [ae_all_iff]
  intro b
  have h := gammaPi_law hv b
  have h2 := gammaMeasure_pos (a := v b) (r := 1)
  rw [← h.map_eq] at h2
  exact ae_of_ae_map h.aemeasurable h2

theorem dirichlet_prob : IsProbabilityMeasure (dirichletLaw B v) := by
  have : IsProbabilityMeasure (Measure.pi fun b : Fin B => gammaMeasure (v b) 1) := gammaPi_prob hv
  exact Measure.isProbabilityMeasure_map measurable_toSimplex.aemeasurable

/-- a Dirichlet vector has positive entries that add up to 1 -/
theorem dirichlet_simplex (hB : 0 < B) : ∀ᵐ x ∂dirichletLaw B v, (∀ b < B, 0 < x b) ∧ ∑ b ∈ range B, x b = 1 := by
  unfold dirichletLaw
  have hms : MeasurableSet {x : ℕ → ℝ | (∀ b < B, 0 < x b) ∧ ∑ b ∈ range B, x b = 1} := by
    refine MeasurableSet.inter ?_ ?_
    · have : {x : ℕ → ℝ | ∀ b < B, 0 < x b} = ⋂ b ∈ range B, {x | 0 < x b} := by ext x; simp
      show MeasurableSet {x : ℕ → ℝ | ∀ b < B, 0 < x b}
      rw [this]
      exact Finset.measurableSet_biInter _ fun b _ => measurableSet_lt measurable_const (measurable_pi_apply b)
    · exact measurableSet_eq_fun (by fun_prop) measurable_const
  rw [ae_map_iff measurable_toSimplex.aemeasurable hms]
  filter_upwards [gammaPi_pos hv] with y hy
  have : Nonempty (Fin B) := ⟨⟨0, hB⟩⟩
  have hS : 0 < ∑ c, y c := sum_pos (fun c _ => hy c) univ_nonempty
  constructor
  · intro b hb
    simp only [toSimplex, hb, dif_pos]
    exact div_pos (hy _) hS
  · rw [← Fin.sum_univ_eq_sum_range (fun b => toSimplex B y b)]
    have : ∀ b : Fin B, toSimplex B y b = y b / ∑ c, y c := fun b => by simp [toSimplex]
    rw [sum_congr rfl fun b _ => this b, ← sum_div, div_self hS.ne']

/-- sum of the gamma variables -/
theorem gammaPi_total (hB : 0 < B) : HasLaw (fun y : Fin B → ℝ => ∑ c, y c) (gammaMeasure (∑ b ∈ range B, v b) 1) (gammaPi B v) := by
  have := gammaPi_prob hv
  have h := gamma_sum (v := fun b : Fin B => v b) (fun b => hv b b.2) (gammaPi_law hv) (gammaPi_indep hv) univ ⟨⟨0, hB⟩, mem_univ _⟩
  rwa [Fin.sum_univ_eq_sum_range (fun b => v b)] at h

/-- mean of a Dirichlet vector -/
theorem dirichlet_mean {b : ℕ} (hb : b < B) :
    Integrable (fun x : ℕ → ℝ => x b) (dirichletLaw B v) ∧ ∫ x, x b ∂dirichletLaw B v = v b / ∑ c ∈ range B, v c := by
  have hP := gammaPi_prob hv
  have hD := dirichlet_prob hv
  have hB : 0 < B := by omega
  constructor
  · refine Integrable.mono' (integrable_const (1:ℝ)) (measurable_pi_apply b).aestronglyMeasurable ?_
    filter_upwards [dirichlet_simplex hv hB] with x hx
    rw [Real.norm_of_nonneg (hx.1 b hb).le, ← hx.2]
    exact single_le_sum (f := fun b => x b) (fun c hc => (hx.1 c (mem_range.1 hc)).le) (mem_range.2 hb)
  unfold dirichletLaw
  rw [integral_map measurable_toSimplex.aemeasurable (measurable_pi_apply b).aestronglyMeasurable]
  have e : ∀ y : Fin B → ℝ, toSimplex B y b = y ⟨b, hb⟩ / ∑ c, y c := fun y => by simp [toSimplex, hb]
  simp only [e]
  change ∫ y, y ⟨b, hb⟩ / ∑ c, y c ∂gammaPi B v = _
  by_cases hE : (univ.erase (⟨b, hb⟩ : Fin B)).Nonempty
  · have hY := gamma_sum (v := fun b : Fin B => v b) (fun b => hv b b.2) (gammaPi_law hv) (gammaPi_indep hv) _ hE
    have hind : IndepFun (fun y : Fin B → ℝ => y ⟨b, hb⟩) (fun y => ∑ c ∈ univ.erase (⟨b, hb⟩ : Fin B), y c) (gammaPi B v) := by
      have h := (gammaPi_indep hv).indepFun_finsetSum_of_notMem₀ (fun c => (gammaPi_law hv c).aemeasurable) (notMem_erase (⟨b, hb⟩ : Fin B) univ)
      have h2 : (fun y : Fin B → ℝ => ∑ c ∈ univ.erase (⟨b, hb⟩ : Fin B), y c) = ∑ c ∈ univ.erase (⟨b, hb⟩ : Fin B), fun y : Fin B → ℝ => y c := by
        funext y; simp
      rw [h2]
      exact h.symm
    have hpos : 0 < ∑ c ∈ univ.erase (⟨b, hb⟩ : Fin B), v c := sum_pos (fun c _ => hv c c.2) hE
    have hr := ratio_mean (X := fun y : Fin B → ℝ => y ⟨b, hb⟩) (a := v b) (hv b hb) hpos (gammaPi_law hv ⟨b, hb⟩) hY hind
    have e2 : ∀ y : Fin B → ℝ, ∑ c, y c = y ⟨b, hb⟩ + ∑ c ∈ univ.erase (⟨b, hb⟩ : Fin B), y c := fun y => (add_sum_erase univ y (mem_univ _)).symm
    simp only [e2]
    have e3 : v b + ∑ c ∈ univ.erase (⟨b, hb⟩ : Fin B), v c = ∑ c ∈ range B, v c := by
      rw [← Fin.sum_univ_eq_sum_range (fun b => v b)]
      exact add_sum_erase univ (fun c : Fin B => v c) (mem_univ (⟨b, hb⟩ : Fin B))
    rw [hr, e3]
  · rw [not_nonempty_iff_eq_empty] at hE
    have e2 : ∀ f : Fin B → ℝ, ∑ c, f c = f ⟨b, hb⟩ := fun f => by rw [← add_sum_erase univ f (mem_univ (⟨b, hb⟩ : Fin B)), hE, sum_empty, add_zero]
    rw [← Fin.sum_univ_eq_sum_range (fun b => v b), e2 (fun c => v c)]
    have h1 : (fun y : Fin B → ℝ => y ⟨b, hb⟩ / ∑ c, y c) =ᵐ[gammaPi B v] fun _ => 1 := by
      filter_upwards [gammaPi_pos hv] with y hy
      rw [e2, div_self (hy _).ne']
    rw [integral_congr_ae h1, div_self (hv b hb).ne']
    simp

/-- log mean of a Dirichlet vector -/
theorem dirichlet_mean_log {b : ℕ} (hb : b < B) :
    Integrable (fun x : ℕ → ℝ => Real.log (x b)) (dirichletLaw B v) ∧
      ∫ x, Real.log (x b) ∂dirichletLaw B v = psi (v b) - psi (∑ c ∈ range B, v c) := by
  have hP := gammaPi_prob hv
  have hB : 0 < B := by omega
  have hs : 0 < ∑ c ∈ range B, v c := sum_pos (fun c hc => hv c (mem_range.1 hc)) ⟨0, mem_range.2 hB⟩
  have hl1 := gammaPi_law hv ⟨b, hb⟩
  have hl2 := gammaPi_total hv hB
  obtain ⟨i1, v1⟩ := gamma_mean_log (hv b hb) one_pos
  obtain ⟨i2, v2⟩ := gamma_mean_log hs one_pos
  rw [← integrable_gammaMeasure (hv b hb) one_pos] at i1
  rw [← integrable_gammaMeasure hs one_pos] at i2
  have j1 : Integrable (fun y : Fin B → ℝ => Real.log (y ⟨b, hb⟩)) (gammaPi B v) := by
    have h := i1; rw [← hl1.map_eq] at h
    exact h.comp_aemeasurable hl1.aemeasurable
  have j2 : Integrable (fun y : Fin B → ℝ => Real.log (∑ c, y c)) (gammaPi B v) := by
    have h := i2; rw [← hl2.map_eq] at h
    exact h.comp_aemeasurable hl2.aemeasurable
  have e : (fun y : Fin B → ℝ => Real.log (toSimplex B y b)) =ᵐ[gammaPi B v] fun y => Real.log (y ⟨b, hb⟩) - Real.log (∑ c, y c) := by
    filter_upwards [gammaPi_pos hv] with y hy
    have : Nonempty (Fin B) := ⟨⟨0, hB⟩⟩
    have hS : 0 < ∑ c, y c := sum_pos (fun c _ => hy c) univ_nonempty
    simp only [toSimplex, hb, dif_pos]
    rw [Real.log_div (hy _).ne' hS.ne']
  have hmeas : Measurable fun x : ℕ → ℝ => Real.log (x b) := Real.measurable_log.comp (measurable_pi_apply b)
  constructor
  · unfold dirichletLaw
    rw [integrable_map_measure hmeas.aestronglyMeasurable measurable_toSimplex.aemeasurable]
    exact (j1.sub j2).congr e.symm
  · unfold dirichletLaw
    rw [integral_map measurable_toSimplex.aemeasurable hmeas.aestronglyMeasurable]
    change ∫ y, Real.log (toSimplex B y b) ∂gammaPi B v = _
    rw [integral_congr_ae e, integral_sub j1 j2]
    have h1 : ∫ y, Real.log (y ⟨b, hb⟩) ∂gammaPi B v = ∫ x, Real.log x ∂gammaMeasure (v b) 1 := hl1.integral_comp (f := Real.log) i1.aestronglyMeasurable
    have h2 : ∫ y, Real.log (∑ c, y c) ∂gammaPi B v = ∫ x, Real.log x ∂gammaMeasure (∑ c ∈ range B, v c) 1 := hl2.integral_comp (f := Real.log) i2.aestronglyMeasurable
    rw [h1, h2, integral_gammaMeasure (hv b hb) one_pos, integral_gammaMeasure hs one_pos, expGamma_log (hv b hb) one_pos, expGamma_log hs one_pos]
    simp

end dirichlet

end PyHawkes
