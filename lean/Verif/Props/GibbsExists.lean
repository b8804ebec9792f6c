import Verif.Props.GibbsLaws
import Mathlib.Probability.Kernel.Representation
import Mathlib.Probability.Kernel.WithDensity
import Mathlib.Analysis.SpecialFunctions.Gamma.Deriv

/-!
# A generator that meets the contracts of `Spec.Generator` (hypotheses of C83 can be met)
-/
set_option linter.unusedSectionVars false
set_option linter.unusedVariables false

namespace PyHawkes
open Finset Spec MeasureTheory ProbabilityTheory

section
/-- replace a nonpositive argument by 1 -/
noncomputable def posArg (a : ℝ) : ℝ := if 0 < a then a else 1

theorem posArg_pos (a : ℝ) : 0 < posArg a := by unfold posArg; split_ifs with h; exacts [h, one_pos]

theorem posArg_of_pos {a : ℝ} (h : 0 < a) : posArg a = a := if_pos h

theorem measurable_posArg : Measurable posArg := Measurable.ite measurableSet_Ioi measurable_id measurable_const

theorem measurable_Gamma_posArg : Measurable fun a => Real.Gamma (posArg a) := by
  have hc : ContinuousOn Real.Gamma (Set.Ioi 0) := fun x hx => (Real.differentiableAt_Gamma fun m => by
    have : (0 : ℝ) < x := hx
    have hm : (0 : ℝ) ≤ m := Nat.cast_nonneg m
    linarith).continuousAt.continuousWithinAt
  have h := hc.measurable_piecewise (g := fun _ => Real.Gamma 1) continuousOn_const measurableSet_Ioi
  convert h using 1
  funext a
  unfold posArg Set.piecewise
  simp only [Set.mem_Ioi]
  split_ifs <;> rfl

/-- the gamma distribution as a kernel in shape and scale -/
theorem gamma_kernel : ∃ κ : Kernel (ℝ × ℝ) ℝ, IsMarkovKernel κ ∧ ∀ a, κ a = gammaMeasure (posArg a.1) (1 / posArg a.2) := by
  have hm : Measurable (Function.uncurry fun (a : ℝ × ℝ) (x : ℝ) => gammaPDF (posArg a.1) (1 / posArg a.2) x) := by
    unfold gammaPDF gammaPDFReal
    have h1 : Measurable fun y : (ℝ × ℝ) × ℝ => posArg y.1.1 := measurable_posArg.comp (by fun_prop)
    have h2 : Measurable fun y : (ℝ × ℝ) × ℝ => posArg y.1.2 := measurable_posArg.comp (by fun_prop)
    have h3 : Measurable fun y : (ℝ × ℝ) × ℝ => Real.Gamma (posArg y.1.1) := measurable_Gamma_posArg.comp (f := fun y : (ℝ × ℝ) × ℝ => y.1.1) (by fun_prop)
    refine ENNReal.measurable_ofReal.comp (Measurable.ite (measurableSet_le measurable_const (by fun_prop)) ?_ measurable_const)
    exact (((((measurable_const.div h2).pow h1).div h3).mul ((measurable_snd).pow (h1.sub measurable_const)))).mul (((measurable_const.div h2).mul measurable_snd).neg.exp)
  have e : ∀ a, Kernel.withDensity (Kernel.const _ (volume : Measure ℝ)) (fun (a : ℝ × ℝ) (x : ℝ) => gammaPDF (posArg a.1) (1 / posArg a.2) x) a
      = gammaMeasure (posArg a.1) (1 / posArg a.2) := fun a => by
    rw [Kernel.withDensity_apply _ hm]; rfl
  refine ⟨Kernel.withDensity (Kernel.const _ (volume : Measure ℝ)) (fun (a : ℝ × ℝ) (x : ℝ) => gammaPDF (posArg a.1) (1 / posArg a.2) x), ⟨fun a => ?_⟩, e⟩
  rw [e]
  exact isProbabilityMeasure_gammaMeasure (posArg_pos _) (one_div_pos.2 (posArg_pos _))

/-- a gamma sampler -/
theorem gamma_sampler : ∃ f : ℝ × ℝ → unitInterval → ℝ, Measurable (Function.uncurry f) ∧ (∀ a u, 0 < f a u) ∧
    ∀ a, volume.map (f a) = gammaMeasure (posArg a.1) (1 / posArg a.2) := by
  obtain ⟨κ, hκ, e⟩ := gamma_kernel
  obtain ⟨f, hf, hfe⟩ := Kernel.exists_measurable_map_eq_unitInterval κ
  refine ⟨fun a u => posArg (f a u), measurable_posArg.comp hf, fun a u => posArg_pos _, fun a => ?_⟩
  have hfa : Measurable (f a) := hf.comp (f := fun u => (a, u)) (by fun_prop)
  have hpos : ∀ᵐ u ∂(volume : Measure unitInterval), 0 < f a u := by
    have h1 : ∀ᵐ x ∂volume.map (f a), 0 < x := by rw [hfe, e]; exact gammaMeasure_pos
    exact (ae_map_iff hfa.aemeasurable measurableSet_Ioi).1 h1
  rw [← e, ← hfe]
  refine Measure.map_congr ?_
  filter_upwards [hpos] with u hu
  exact posArg_of_pos hu

/-- a Dirichlet sampler -/
theorem dirichlet_sampler (n : ℕ) (hn : 0 < n) : ∃ f : Vec ℝ → unitInterval → Vec ℝ, Measurable (Function.uncurry f) ∧ (∀ v u, IsProb n (f v u)) ∧
    ∀ v, (∀ b < n, 0 < v b) → volume.map (f v) = dirichletLaw n v := by
  obtain ⟨γ, hγ, hpos, hlaw⟩ := gamma_sampler
  obtain ⟨r, hr, hre⟩ := Measure.exists_measurable_map_eq (Measure.pi fun _ : Fin n => (volume : Measure unitInterval))
  have hγb : ∀ a, Measurable (γ a) := fun a => hγ.comp (f := fun u => (a, u)) (by fun_prop)
  refine ⟨fun v u => toSimplex n fun b => γ (v b, 1) (r u b), ?_, fun v u => ?_, fun v hv => ?_⟩
  · refine measurable_toSimplex.comp (f := fun x : Vec ℝ × unitInterval => fun b : Fin n => γ (x.1 b, 1) (r x.2 b)) ?_
    rw [measurable_pi_iff]
    intro b
    exact hγ.comp (f := fun x : Vec ℝ × unitInterval => ((x.1 b, (1 : ℝ)), r x.2 b)) (by fun_prop)
  · have hs : 0 < ∑ b : Fin n, γ (v b, 1) (r u b) := sum_pos (fun b _ => hpos _ _) ⟨⟨0, hn⟩, mem_univ _⟩
    constructor
    · intro c hc
      change 0 ≤ toSimplex n (fun b : Fin n => γ (v b, 1) (r u b)) c
      unfold toSimplex
      rw [dif_pos hc]
      exact div_nonneg (hpos _ _).le hs.le
    · rw [← Fin.sum_univ_eq_sum_range (fun c => toSimplex n (fun b => γ (v b, 1) (r u b)) c) n]
      unfold toSimplex
      simp only [Fin.is_lt, dif_pos, Fin.eta]
      rw [← Finset.sum_div, div_self hs.ne']
  · have hm : Measurable fun y : Fin n → unitInterval => fun b : Fin n => γ (v b, 1) (y b) := by
      rw [measurable_pi_iff]; intro b; exact (hγb _).comp (by fun_prop)
    unfold dirichletLaw
    change volume.map ((toSimplex n) ∘ (fun y : Fin n → unitInterval => fun b : Fin n => γ (v b, 1) (y b)) ∘ r) = _
    rw [← Measure.map_map measurable_toSimplex (hm.comp hr), ← Measure.map_map hm hr, hre]
    congr 1
    have hP : ∀ b : Fin n, IsProbabilityMeasure ((volume : Measure unitInterval).map (γ (v b, 1))) := fun b => Measure.isProbabilityMeasure_map (hγb _).aemeasurable
    rw [Measure.pi_map_pi fun i => (hγb _).aemeasurable]
    congr 1
    funext b
    rw [hlaw, posArg_of_pos (hv b b.2), posArg_of_pos one_pos, div_one]

/-! ### multinomial -/

theorem measurableSet_isProb (n : ℕ) : MeasurableSet {p : Vec ℝ | IsProb n p} := by
  unfold IsProb
  have h1 : MeasurableSet {p : Vec ℝ | ∀ c < n, 0 ≤ p c} := by
    rw [show {p : Vec ℝ | ∀ c < n, 0 ≤ p c} = ⋂ c, ⋂ (_ : c < n), {p : Vec ℝ | 0 ≤ p c} by ext; simp]
    exact MeasurableSet.iInter fun c => MeasurableSet.iInter fun _ => measurableSet_le measurable_const (measurable_pi_apply c)
  have h2 : MeasurableSet {p : Vec ℝ | ∑ c ∈ range n, p c = 1} := measurableSet_eq_fun (by fun_prop) measurable_const
  exact h1.inter h2

/-- possible outcomes, extended by 0 -/
theorem pmf_sum (n s : ℕ) {p : Vec ℝ} (hp : IsProb n p) : ∑ z ∈ piAntidiag (range n) s, ENNReal.ofReal (multinomialPmf n s p z) = 1 := by
  have h0 : ∀ z : Vec ℕ, 0 ≤ multinomialPmf n s p z := fun z => by
    unfold multinomialPmf
    split_ifs
    · exact mul_nonneg (Nat.cast_nonneg _) (prod_nonneg fun c hc => pow_nonneg (hp.1 c (mem_range.1 hc)) _)
    · exact le_rfl
  rw [← ENNReal.ofReal_sum_of_nonneg fun z _ => h0 z, ← ENNReal.ofReal_one]
  congr 1
  have := sum_pow_eq_sum_piAntidiag (range n) p s
  rw [hp.2, one_pow] at this
  rw [this]
  refine sum_congr rfl fun z hz => ?_
  unfold multinomialPmf
  rw [if_pos (mem_piAntidiag.1 hz).1]

open Classical in
theorem multinomial_kernel (n s : ℕ) : ∃ κ : Kernel (Vec ℝ) (Vec ℕ), IsMarkovKernel κ ∧
    ∀ p, IsProb n p → κ p = ∑ z ∈ piAntidiag (range n) s, ENNReal.ofReal (multinomialPmf n s p z) • Measure.dirac z := by
  have hm : Measurable fun p : Vec ℝ => if IsProb n p then ∑ z ∈ piAntidiag (range n) s, ENNReal.ofReal (multinomialPmf n s p z) • Measure.dirac z else (Measure.dirac 0 : Measure (Vec ℕ)) := by
    refine Measurable.ite (measurableSet_isProb n) ?_ measurable_const
    refine Measure.measurable_of_measurable_coe _ fun t ht => ?_
    simp only [Measure.finsetSum_apply, Measure.smul_apply, smul_eq_mul]
    refine Finset.measurable_sum _ fun z _ => Measurable.mul_const (ENNReal.measurable_ofReal.comp ?_) _
    unfold multinomialPmf
    split_ifs <;> fun_prop
  refine ⟨⟨_, hm⟩, ⟨fun p => ⟨?_⟩⟩, fun p hp => ?_⟩
  · change (if IsProb n p then ∑ z ∈ piAntidiag (range n) s, ENNReal.ofReal (multinomialPmf n s p z) • Measure.dirac z else (Measure.dirac 0 : Measure (Vec ℕ))) Set.univ = 1
    split_ifs with h
    · simp only [Measure.finsetSum_apply, Measure.smul_apply, smul_eq_mul, measure_univ, mul_one]
      exact pmf_sum n s h
    · simp
  · exact if_pos hp

/-- everything in the first cell of positive probability -/
noncomputable def firstCell (s : ℕ) (p : Vec ℝ) : Vec ℕ := fun c => if p c ≠ 0 ∧ ∀ c' < c, p c' = 0 then s else 0

theorem measurableSet_zeros (c : ℕ) : MeasurableSet {p : Vec ℝ | ∀ c' < c, p c' = 0} := by
  rw [show {p : Vec ℝ | ∀ c' < c, p c' = 0} = ⋂ c', ⋂ (_ : c' < c), {p : Vec ℝ | p c' = 0} by ext; simp]
  exact MeasurableSet.iInter fun c => MeasurableSet.iInter fun _ => measurableSet_eq_fun (measurable_pi_apply c) measurable_const

theorem measurable_firstCell (s : ℕ) : Measurable (firstCell s) := by
  rw [measurable_pi_iff]
  intro c
  have h1 : MeasurableSet {p : Vec ℝ | p c ≠ 0} := (measurableSet_eq_fun (measurable_pi_apply c) measurable_const).compl
  exact Measurable.ite (h1.inter (measurableSet_zeros c)) measurable_const measurable_const

theorem firstCell_ok {n s : ℕ} {p : Vec ℝ} (hp : IsProb n p) : MultinomialOutcome n s p (firstCell s p) := by
  classical
  have hex : ∃ c, c < n ∧ p c ≠ 0 := by
    by_contra hn
    push Not at hn
    have : ∑ c ∈ range n, p c = 0 := sum_eq_zero fun c hc => hn c (mem_range.1 hc)
    rw [hp.2] at this
    exact one_ne_zero this
  have hex' : ∃ c, p c ≠ 0 := ⟨_, hex.choose_spec.2⟩
  set m := Nat.find hex' with hm
  have hmp : p m ≠ 0 := Nat.find_spec hex'
  have hmin : ∀ c < m, p c = 0 := fun c hc => not_not.1 (Nat.find_min hex' hc)
  have hmn : m < n := lt_of_le_of_lt (Nat.find_min' hex' hex.choose_spec.2) hex.choose_spec.1
  have e : ∀ c, firstCell s p c = if c = m then s else 0 := by
    intro c
    unfold firstCell
    by_cases hc : c = m
    · rw [if_pos hc, if_pos (by rw [hc]; exact ⟨hmp, hmin⟩)]
    · rw [if_neg hc, if_neg]
      rintro ⟨h1, h2⟩
      rcases lt_or_gt_of_ne hc with h | h
      · exact h1 (hmin c h)
      · exact hmp (h2 m h)
  refine ⟨?_, fun c hc h0 => ?_⟩
  · simp only [e, sum_ite_eq', mem_range, if_pos hmn]
  · rw [e, if_neg]; rintro rfl; exact hmp h0

theorem measurableSet_outcome (n s : ℕ) : MeasurableSet {x : Vec ℝ × Vec ℕ | MultinomialOutcome n s x.1 x.2} := by
  have h1 : MeasurableSet {x : Vec ℝ × Vec ℕ | ∑ c ∈ range n, x.2 c = s} := measurableSet_eq_fun (by fun_prop) measurable_const
  have h2 : MeasurableSet {x : Vec ℝ × Vec ℕ | ∀ c < n, x.1 c = 0 → x.2 c = 0} := by
    rw [show {x : Vec ℝ × Vec ℕ | ∀ c < n, x.1 c = 0 → x.2 c = 0} = ⋂ c, ⋂ (_ : c < n), ({x : Vec ℝ × Vec ℕ | x.1 c = 0}ᶜ ∪ {x : Vec ℝ × Vec ℕ | x.2 c = 0}) by
      ext x; simp [imp_iff_not_or]]
    exact MeasurableSet.iInter fun c => MeasurableSet.iInter fun _ => (measurableSet_eq_fun (by fun_prop) measurable_const).compl.union (measurableSet_eq_fun (by fun_prop) measurable_const)
  exact h1.inter h2

open Classical in
theorem multinomial_sampler (n s : ℕ) : ∃ f : Vec ℝ → unitInterval → Vec ℕ, Measurable (Function.uncurry f) ∧ (∀ p u, IsProb n p → MultinomialOutcome n s p (f p u)) ∧
    ∀ p, IsProb n p → ∀ z : Vec ℕ, volume {u | ∀ c < n, f p u c = z c} = ENNReal.ofReal (multinomialPmf n s p z) := by
  obtain ⟨κ, hκ, e⟩ := multinomial_kernel n s
  obtain ⟨f, hf, hfe⟩ := Kernel.exists_measurable_map_eq_unitInterval κ
  have hset : MeasurableSet {x : Vec ℝ × unitInterval | MultinomialOutcome n s x.1 (f x.1 x.2)} :=
    (measurableSet_outcome n s).preimage (f := fun x : Vec ℝ × unitInterval => (x.1, f x.1 x.2)) (measurable_fst.prodMk hf)
  refine ⟨fun p u => if MultinomialOutcome n s p (f p u) then f p u else firstCell s p, ?_, fun p u hp => ?_, fun p hp z => ?_⟩
  · exact Measurable.ite hset hf ((measurable_firstCell s).comp measurable_fst)
  · dsimp only
    split_ifs with h
    · exact h
    · exact firstCell_ok hp
  · have hfp : Measurable (f p) := hf.comp (f := fun u => (p, u)) (by fun_prop)
    have hout : ∀ᵐ u ∂(volume : Measure unitInterval), MultinomialOutcome n s p (f p u) := by
      have h1 : ∀ᵐ w ∂volume.map (f p), MultinomialOutcome n s p w := by
        rw [hfe, e p hp]
        rw [ae_iff, Measure.finsetSum_apply]
        refine sum_eq_zero fun w hw => ?_
        rw [Measure.smul_apply, smul_eq_mul]
        by_cases ho : MultinomialOutcome n s p w
        · have hmo : MeasurableSet {a : Vec ℕ | ¬MultinomialOutcome n s p a} := ((measurableSet_outcome n s).preimage (f := fun w : Vec ℕ => (p, w)) (by fun_prop)).compl
          rw [Measure.dirac_apply' _ hmo, Set.indicator_of_notMem, mul_zero]
          simpa using ho
        · have : multinomialPmf n s p w = 0 := by
            unfold multinomialPmf
            split_ifs with hsum
            · have : ∃ c < n, p c = 0 ∧ w c ≠ 0 := by
                by_contra hn
                push Not at hn
                exact ho ⟨hsum, hn⟩
              obtain ⟨c, hc, h0, hw0⟩ := this
              rw [prod_eq_zero (mem_range.2 hc) (by rw [h0, zero_pow hw0]), mul_zero]
            · rfl
          rw [this, ENNReal.ofReal_zero, zero_mul]
      exact (ae_map_iff hfp.aemeasurable ((measurableSet_outcome n s).preimage (f := fun w : Vec ℕ => (p, w)) (by fun_prop))).1 h1
    have hms : MeasurableSet {w : Vec ℕ | ∀ c < n, w c = z c} := by
      rw [show {w : Vec ℕ | ∀ c < n, w c = z c} = ⋂ c, ⋂ (_ : c < n), {w : Vec ℕ | w c = z c} by ext; simp]
      exact MeasurableSet.iInter fun c => MeasurableSet.iInter fun _ => measurableSet_eq_fun (measurable_pi_apply c) measurable_const
    have h2 : volume {u : unitInterval | ∀ c < n, (if MultinomialOutcome n s p (f p u) then f p u else firstCell s p) c = z c} = volume (f p ⁻¹' {w | ∀ c < n, w c = z c}) := by
      refine measure_congr ?_
      filter_upwards [hout] with u hu
      refine propext ?_
      change (∀ c < n, (if MultinomialOutcome n s p (f p u) then f p u else firstCell s p) c = z c) ↔ ∀ c < n, f p u c = z c
      rw [if_pos hu]
    rw [h2, ← Measure.map_apply hfp hms, hfe, e p hp, Measure.finsetSum_apply]
    -- exactly one outcome agrees with `z`
    set z' : Vec ℕ := fun c => if c < n then z c else 0 with hz'
    have hpm : multinomialPmf n s p z' = multinomialPmf n s p z := by
      have e1 : ∀ c ∈ range n, z' c = z c := fun c hc => if_pos (mem_range.1 hc)
      unfold multinomialPmf
      rw [sum_congr rfl e1, Nat.multinomial_congr e1, prod_congr rfl fun c hc => by rw [e1 c hc]]
    have hterm : ∀ w ∈ piAntidiag (range n) s, (ENNReal.ofReal (multinomialPmf n s p w) • Measure.dirac w) {w : Vec ℕ | ∀ c < n, w c = z c}
        = if w = z' then ENNReal.ofReal (multinomialPmf n s p z') else 0 := by
      intro w hw
      rw [Measure.smul_apply, smul_eq_mul, Measure.dirac_apply' _ hms]
      by_cases hwz : w = z'
      · rw [if_pos hwz, hwz, Set.indicator_of_mem, Pi.one_apply, mul_one]
        exact fun c hc => if_pos hc
      · rw [if_neg hwz, Set.indicator_of_notMem, mul_zero]
        intro hmem
        refine hwz (funext fun c => ?_)
        by_cases hc : c < n
        · rw [hmem c hc, hz']; dsimp only; rw [if_pos hc]
        · have := (mem_piAntidiag.1 hw).2 c
          rw [hz']; dsimp only; rw [if_neg hc]
          by_contra h0
          exact hc (mem_range.1 (this h0))
    rw [sum_congr rfl hterm, sum_ite_eq', hpm]
    split_ifs with hmem
    · rfl
    · have : multinomialPmf n s p z = 0 := by
        rw [← hpm]
        unfold multinomialPmf
        rw [if_neg]
        intro hsum
        exact hmem (mem_piAntidiag.2 ⟨hsum, fun c hc => by
          by_contra hcn
          exact hc (if_neg fun h => hcn (mem_range.2 h))⟩)
      rw [this, ENNReal.ofReal_zero]

/-! ### uniform -/

theorem uniform_sampler : ∃ f : unitInterval → ℝ, Measurable f ∧ (∀ u, 0 ≤ f u ∧ f u < 1) ∧ volume.map f = volume.restrict (Set.Ico 0 1) := by
  refine ⟨fun u => if (u : ℝ) < 1 then u else 0, ?_, fun u => ?_, ?_⟩
  · exact Measurable.ite (measurableSet_lt measurable_subtype_coe measurable_const) measurable_subtype_coe measurable_const
  · dsimp only
    split_ifs with h
    · exact ⟨u.2.1, h⟩
    · exact ⟨le_rfl, one_pos⟩
  · have h1 : (volume : Measure unitInterval).map (Subtype.val : unitInterval → ℝ) = volume.restrict (Set.Icc 0 1) := (MeasurePreserving.map_eq (measurePreserving_subtype_coe measurableSet_Icc))
    rw [Measure.restrict_congr_set Ico_ae_eq_Icc, ← h1]
    refine Measure.map_congr ?_
    have : ∀ᵐ x ∂(volume : Measure unitInterval).map (Subtype.val : unitInterval → ℝ), x ≠ 1 := by
      rw [h1]
      exact ae_restrict_of_ae (Measure.ae_ne volume 1)
    have := (ae_map_iff measurable_subtype_coe.aemeasurable (measurableSet_singleton (1 : ℝ)).compl).1 this
    filter_upwards [this] with u hu
    exact if_pos (lt_of_le_of_ne u.2.2 hu)

/-- **Random number generators with the documented distributions exist.** -/
theorem C83_generator_exists : Nonempty (Generator (volume : Measure unitInterval)) := by
  obtain ⟨γ, hγ, hpos, hlaw⟩ := gamma_sampler
  choose D hD1 hD2 hD3 using dirichlet_sampler
  choose M hM1 hM2 hM3 using multinomial_sampler
  obtain ⟨f, hf, hf1, hf2⟩ := uniform_sampler
  exact ⟨{
    gam := fun a u => γ (a.shape, a.scale) u
    dir := fun n v u => if h : 0 < n then D n h v u else fun _ => 0
    mult := fun n s p u => M n s p u
    unif := f
    gam_meas := hγ
    dir_meas := fun n => by
      by_cases h : 0 < n
      · simp only [dif_pos h]; exact hD1 n h
      · simp only [dif_neg h]; exact measurable_const
    mult_meas := fun n s => hM1 n s
    unif_meas := hf
    gam_pos := fun a u _ _ => hpos _ _
    dir_prob := fun n v u hn hv => by rw [dif_pos hn]; exact hD2 n hn v u
    mult_ok := fun n u s p hp => hM2 n s p u hp
    unif_mem := hf1
    gam_law := fun a h1 h2 => by rw [hlaw, posArg_of_pos h1, posArg_of_pos h2]
    dir_law := fun n v hn hv => by simp only [dif_pos hn]; exact hD3 n hn v hv
    mult_law := fun n s p hp z => hM3 n s p hp z
    unif_law := hf2 }⟩

end

end PyHawkes
