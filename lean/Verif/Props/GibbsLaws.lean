import Verif.Props.GibbsLik
import Verif.Props.DirichletBayes
import Mathlib.MeasureTheory.Integral.Marginal

/-!
# Conjugate draws as measures (used for C83)
-/
set_option linter.unusedSectionVars false
set_option linter.unusedVariables false

namespace PyHawkes
open Finset Spec MeasureTheory ProbabilityTheory

/-! ### products -/

section
variable {ι : Type*} [Fintype ι] {X : ι → Type*} [∀ i, MeasurableSpace (X i)] (μ : ∀ i, Measure (X i)) [∀ i, SigmaFinite (μ i)]

theorem lintegral_prod_pi (f : ∀ i, X i → ENNReal) (hf : ∀ i, Measurable (f i)) : ∫⁻ x, ∏ i, f i (x i) ∂Measure.pi μ = ∏ i, ∫⁻ x, f i x ∂μ i := by
  classical
  have hm : Measurable fun x : ∀ i, X i => ∏ i, f i (x i) := Finset.measurable_prod _ fun i _ => (hf i).comp (measurable_pi_apply i)
  have key : ∀ s : Finset ι, ∀ x, (∫⋯∫⁻_s, (fun x : ∀ i, X i => ∏ i, f i (x i)) ∂μ) x = (∏ i ∈ s, ∫⁻ x, f i x ∂μ i) * ∏ i ∈ sᶜ, f i (x i) := by
    intro s
    induction s using Finset.induction_on with
    | empty => intro x; rw [lmarginal_empty]; simp
    | insert i s hi ih =>
      intro x
      rw [lmarginal_insert _ hm hi]
      simp only [ih]
      have hc : sᶜ = insert i (insert i s)ᶜ := by ext j; simp only [mem_compl, mem_insert]; by_cases h : j = i <;> simp [h, hi]
      have e : ∀ t, ∏ j ∈ sᶜ, f j (Function.update x i t j) = f i t * ∏ j ∈ (insert i s)ᶜ, f j (x j) := by
        intro t
        rw [hc, prod_insert (by simp)]
        rw [Function.update_self]
        congr 1
        refine prod_congr rfl fun j hj => ?_
        have : j ≠ i := by rintro rfl; simp at hj
        rw [Function.update_of_ne this]
      simp only [e]
      rw [lintegral_const_mul _ ((hf i).mul_const _), lintegral_mul_const _ (hf i), prod_insert hi]
      ring
  rcases isEmpty_or_nonempty (∀ i, X i) with h | ⟨⟨x⟩⟩
  · rw [lintegral_of_isEmpty]
    obtain ⟨i, hi⟩ := isEmpty_pi.1 h
    exact (prod_eq_zero (mem_univ i) (lintegral_of_isEmpty _ _)).symm
  · rw [lintegral_eq_lmarginal_univ x, key univ x]; simp

theorem pi_withDensity' (f : ∀ i, X i → ENNReal) (hf : ∀ i, Measurable (f i)) [∀ i, SigmaFinite ((μ i).withDensity (f i))] :
    Measure.pi (fun b => (μ b).withDensity (f b)) = (Measure.pi μ).withDensity fun y => ∏ b, f b (y b) := by
  classical
  refine (Measure.pi_eq fun s hs => ?_)
  rw [withDensity_apply _ (MeasurableSet.univ_pi hs), ← lintegral_indicator (MeasurableSet.univ_pi hs)]
  have e : (Set.univ.pi s).indicator (fun y : ∀ i, X i => ∏ b, f b (y b)) = fun y => ∏ b, (s b).indicator (f b) (y b) := by
    funext y
    by_cases h : y ∈ Set.univ.pi s
    · rw [Set.indicator_of_mem h]
      exact prod_congr rfl fun b _ => (Set.indicator_of_mem (h b (Set.mem_univ b)) _).symm
    · rw [Set.indicator_of_notMem h]
      simp only [Set.mem_pi, Set.mem_univ, forall_true_left, not_forall] at h
      obtain ⟨b, hb⟩ := h
      exact (prod_eq_zero (mem_univ b) (Set.indicator_of_notMem hb _)).symm
  rw [e, lintegral_prod_pi μ _ fun b => (hf b).indicator (hs b)]
  refine prod_congr rfl fun b _ => ?_
  rw [withDensity_apply _ (hs b), ← lintegral_indicator (hs b)]

theorem pi_smul_measure (c : ι → ENNReal) (hc : ∀ i, c i ≠ ⊤) : Measure.pi (fun i => c i • μ i) = (∏ i, c i) • Measure.pi μ := by
  have : ∀ i, SigmaFinite (c i • μ i) := fun i => by
    have := SMul.sigmaFinite (μ := μ i) (c i).toNNReal
    rwa [show (c i).toNNReal • μ i = c i • μ i by
      conv_rhs => rw [← ENNReal.coe_toNNReal (hc i)]
      rfl] at this
  refine Measure.pi_eq fun s hs => ?_
  rw [Measure.smul_apply, Measure.pi_pi, smul_eq_mul, ← prod_mul_distrib]
  rfl

end

/-! ### conjugate draws -/

/-- `s y` with `y` distributed as `μ` is a draw from the distribution proportional to `f` times `ν` -/
def BayesStep {X Y : Type*} [MeasurableSpace X] [MeasurableSpace Y] (ν : Measure X) (f : X → ENNReal) (μ : Measure Y) (s : Y → X) : Prop :=
  ∫⁻ x, f x ∂ν ≠ ⊤ ∧ ν.withDensity f = (∫⁻ x, f x ∂ν) • μ.map s

section
variable {X Y : Type*} [MeasurableSpace X] [MeasurableSpace Y] {ν : Measure X} {f : X → ENNReal} {μ : Measure Y} {s : Y → X}

theorem BayesStep.lintegral (h : BayesStep ν f μ s) (hf : Measurable f) (hs : Measurable s) {R : X → ENNReal} (hR : Measurable R) :
    ∫⁻ x, f x * R x ∂ν = (∫⁻ x, f x ∂ν) * ∫⁻ y, R (s y) ∂μ := by
  have e := lintegral_withDensity_eq_lintegral_mul ν hf hR
  rw [h.2, lintegral_smul_measure, lintegral_map hR hs] at e
  exact e.symm

/-- it suffices to know the reweighted measure up to a finite factor -/
theorem BayesStep.of_eq [IsProbabilityMeasure μ] (hs : Measurable s) {C : ENNReal} (hC : C ≠ ⊤) (h : ν.withDensity f = C • μ.map s) : BayesStep ν f μ s := by
  have hm : ∫⁻ x, f x ∂ν = C := by
    have := congrArg (fun m => m Set.univ) h
    rw [withDensity_apply _ MeasurableSet.univ, Measure.restrict_univ, Measure.smul_apply, Measure.map_apply hs MeasurableSet.univ, Set.preimage_univ, measure_univ, smul_eq_mul, mul_one] at this
    exact this
  exact ⟨hm ▸ hC, hm.symm ▸ h⟩

theorem BayesStep.const_mul (h : BayesStep ν f μ s) (hf : Measurable f) {C : ENNReal} (hC : C ≠ ⊤) : BayesStep ν (fun x => C * f x) μ s := by
  refine ⟨?_, ?_⟩
  · rw [lintegral_const_mul _ hf]; exact ENNReal.mul_ne_top hC h.1
  · rw [lintegral_const_mul _ hf, mul_smul, ← h.2]
    exact withDensity_smul C hf

theorem BayesStep.prod {X' Y' : Type*} [MeasurableSpace X'] [MeasurableSpace Y'] {ν' : Measure X'} {f' : X' → ENNReal} {μ' : Measure Y'} {s' : Y' → X'} [SigmaFinite ν] [SigmaFinite ν']
    [IsProbabilityMeasure μ] [IsProbabilityMeasure μ'] (h : BayesStep ν f μ s) (h' : BayesStep ν' f' μ' s') (hf : Measurable f) (hf' : Measurable f') (hs : Measurable s)
    (hs' : Measurable s') : BayesStep (ν.prod ν') (fun x => f x.1 * f' x.2) (μ.prod μ') (fun y => (s y.1, s' y.2)) := by
  have : SFinite (ν.withDensity f) := inferInstance
  have : SFinite (ν'.withDensity f') := inferInstance
  have p1 : IsProbabilityMeasure (μ.map s) := Measure.isProbabilityMeasure_map hs.aemeasurable
  have p2 : IsProbabilityMeasure (μ'.map s') := Measure.isProbabilityMeasure_map hs'.aemeasurable
  refine BayesStep.of_eq (C := (∫⁻ x, f x ∂ν) * ∫⁻ x, f' x ∂ν') (by fun_prop) (ENNReal.mul_ne_top h.1 h'.1) ?_
  rw [← prod_withDensity hf hf', h.2, h'.2, Measure.prod_smul_left, Measure.prod_smul_right, mul_smul, Measure.map_prod_map _ _ hs hs']
  rfl

theorem BayesStep.pi {ι : Type*} [Fintype ι] {X Y : ι → Type*} [∀ i, MeasurableSpace (X i)] [∀ i, MeasurableSpace (Y i)] {ν : ∀ i, Measure (X i)} [∀ i, SigmaFinite (ν i)]
    {f : ∀ i, X i → ENNReal} {μ : ∀ i, Measure (Y i)} [∀ i, IsProbabilityMeasure (μ i)] {s : ∀ i, Y i → X i} (h : ∀ i, BayesStep (ν i) (f i) (μ i) (s i))
    (hf : ∀ i, Measurable (f i)) (hs : ∀ i, Measurable (s i)) : BayesStep (Measure.pi ν) (fun x => ∏ i, f i (x i)) (Measure.pi μ) (fun y i => s i (y i)) := by
  have p1 : ∀ i, IsProbabilityMeasure ((μ i).map (s i)) := fun i => Measure.isProbabilityMeasure_map (hs i).aemeasurable
  have p2 : ∀ i, IsFiniteMeasure ((ν i).withDensity (f i)) := fun i => isFiniteMeasure_withDensity (h i).1
  refine BayesStep.of_eq (C := ∏ i, ∫⁻ x, f i x ∂ν i) (by fun_prop) (ENNReal.prod_ne_top fun i _ => (h i).1) ?_
  rw [← pi_withDensity' ν f hf, Measure.pi_map_pi fun i => (hs i).aemeasurable, ← pi_smul_measure _ _ fun i => (h i).1]
  congr 1
  funext i
  exact (h i).2

end

/-! ### gamma and Dirichlet -/

theorem measurable_gammaPDF' (a : ℝ) : Measurable fun x : ℝ × ℝ => gammaPDF a x.1 x.2 := by
  unfold gammaPDF gammaPDFReal
  refine ENNReal.measurable_ofReal.comp (Measurable.ite (measurableSet_le measurable_const (by fun_prop)) ?_ measurable_const)
  fun_prop

theorem gammaLaw_conj {a r p E : ℝ} (ha : 0 < a) (hr : 0 < r) (hp : 0 ≤ p) (hE : 0 ≤ E) :
    (gammaMeasure a r).withDensity (fun x => ENNReal.ofReal (x ^ p * Real.exp (-(x * E)))) =
      ENNReal.ofReal (r ^ a / Real.Gamma a * (Real.Gamma (a + p) / (r + E) ^ (a + p))) • gammaMeasure (a + p) (r + E) := by
  have hap : 0 < a + p := by linarith
  have hrE : 0 < r + E := by linarith
  have hGa := Real.Gamma_pos_of_pos ha
  have hGp := Real.Gamma_pos_of_pos hap
  have h1 : 0 < r ^ a := Real.rpow_pos_of_pos hr _
  have h2 : 0 < (r + E) ^ (a + p) := Real.rpow_pos_of_pos hrE _
  unfold gammaMeasure
  have hm : Measurable (gammaPDF a r) := (measurable_gammaPDFReal a r).ennreal_ofReal
  have hm' : Measurable (gammaPDF (a + p) (r + E)) := (measurable_gammaPDFReal _ _).ennreal_ofReal
  rw [← withDensity_mul _ hm (by fun_prop), ← withDensity_smul _ hm']
  refine withDensity_congr_ae ?_
  have h0 : ∀ᵐ x : ℝ, x ≠ 0 := by simp [ae_iff, measure_singleton]
  filter_upwards [h0] with x hx
  rw [Pi.mul_apply, Pi.smul_apply, smul_eq_mul]
  unfold gammaPDF
  rcases lt_or_gt_of_ne hx with hx | hx
  · rw [gammaPDFReal_zero_of_neg hx, gammaPDFReal_zero_of_neg hx]; simp
  · rw [← ENNReal.ofReal_mul (by unfold gammaPDFReal; rw [if_pos hx.le]; positivity), ← ENNReal.ofReal_mul (by positivity)]
    congr 1
    unfold gammaPDFReal
    rw [if_pos hx.le, if_pos hx.le]
    have e1 : x ^ (a + p - 1) = x ^ (a - 1) * x ^ p := by rw [← Real.rpow_add hx]; congr 1; ring
    have e2 : Real.exp (-((r + E) * x)) = Real.exp (-(r * x)) * Real.exp (-(x * E)) := by rw [← Real.exp_add]; congr 1; ring
    rw [e1, e2]
    field_simp

section
variable {U : Type*} [MeasurableSpace U] {μ : Measure U} (G : Generator μ)

include G in
theorem gen_prob : IsProbabilityMeasure μ := by
  refine ⟨?_⟩
  have := congrArg (fun m => m Set.univ) G.unif_law
  rw [Measure.map_apply G.unif_meas MeasurableSet.univ, Set.preimage_univ, Measure.restrict_apply MeasurableSet.univ, Set.univ_inter, Real.volume_Ico] at this
  rw [this]; norm_num

theorem gam_measurable (a : GammaArgs) : Measurable (G.gam a) := G.gam_meas.comp (f := fun u => ((a.shape, a.scale), u)) (by fun_prop)

theorem dir_measurable (n : ℕ) (v : Vec ℝ) : Measurable (G.dir n v) := (G.dir_meas n).comp (f := fun u => (v, u)) (by fun_prop)

theorem gammaLaw_step {a r p E : ℝ} (ha : 0 < a) (hr : 0 < r) (hp : 0 ≤ p) (hE : 0 ≤ E) :
    BayesStep (gammaMeasure a r) (fun x => ENNReal.ofReal (x ^ p * Real.exp (-(x * E)))) μ (G.gam ⟨a + p, 1 / (r + E)⟩) := by
  have := gen_prob G
  have hrE : 0 < r + E := by linarith
  refine BayesStep.of_eq (gam_measurable G _) ENNReal.ofReal_ne_top (C := ENNReal.ofReal (r ^ a / Real.Gamma a * (Real.Gamma (a + p) / (r + E) ^ (a + p)))) ?_
  rw [G.gam_law _ (by dsimp only; linarith) (by dsimp only; positivity), gammaLaw_conj ha hr hp hE]
  simp

/-- draw of a weight: `A` is 0 or 1 -/
theorem weight_step {a r A E : ℝ} (m : ℕ) (ha : 0 < a) (hr : 0 < r) (hE : 0 ≤ E) (hA : A = 0 ∨ A = 1) :
    BayesStep (gammaMeasure a r) (fun x => ENNReal.ofReal ((A * x) ^ m * Real.exp (-(A * x * E)))) μ (G.gam ⟨a + m, 1 / (r + E * A)⟩) := by
  have hP := gen_prob G
  rcases hA with rfl | rfl
  · rcases Nat.eq_zero_or_pos m with rfl | hm
    · refine BayesStep.of_eq (gam_measurable G _) ENNReal.one_ne_top ?_
      rw [G.gam_law _ (by dsimp only; simpa using ha) (by dsimp only; simpa using hr)]
      simp
    · refine BayesStep.of_eq (gam_measurable G _) ENNReal.zero_ne_top ?_
      simp [hm.ne']
  · have := gammaLaw_step G ha hr (Nat.cast_nonneg m) hE (p := (m : ℝ))
    simpa [Real.rpow_natCast] using this

theorem dirichletLaw_arr (B : ℕ) (v : Vec ℝ) : dirichletLaw B (arr B v) = dirichletLaw B v := by
  unfold dirichletLaw arr
  simp

theorem dir_step {B : ℕ} (hB : 0 < B) {γ : Vec ℝ} (hγ : ∀ b < B, 0 < γ b) (m : ℕ → ℕ) :
    BayesStep (dirichletLaw B γ) (fun x => ENNReal.ofReal (∏ b ∈ range B, x b ^ m b)) μ (G.dir B (arr B fun b => γ b + m b)) := by
  have hP := gen_prob G
  have hpos : ∀ b < B, 0 < γ b + m b := fun b hb => add_pos_of_pos_of_nonneg (hγ b hb) (Nat.cast_nonneg _)
  have h := dirichlet_posterior (p := fun b => γ b + m b) hpos hγ hB (lik := fun x => ∏ b ∈ range B, x b ^ m b) (by
    intro x hx
    rw [← prod_mul_distrib]
    refine prod_congr rfl fun b hb => ?_
    rw [← Real.rpow_natCast, ← Real.rpow_add (hx b (mem_range.1 hb))]
    congr 1; ring)
  refine ⟨h.2.1, ?_⟩
  rw [G.dir_law B _ hB (fun b hb => by unfold arr; rw [if_pos hb]; exact hpos b hb), dirichletLaw_arr, h.2.2, smul_smul, ENNReal.mul_inv_cancel h.1 h.2.1, one_smul]

end

end PyHawkes
