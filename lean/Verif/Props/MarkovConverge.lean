import Mathlib.Probability.Kernel.RadonNikodym
import Mathlib.MeasureTheory.Measure.Sub
import Mathlib.Probability.Kernel.Composition.MeasureComp

/-!
# Convergence of Markov chains that reach every set of positive probability in one step (used for C94)
-/
set_option linter.unusedSectionVars false
set_option linter.unusedVariables false

namespace PyHawkes
open MeasureTheory ProbabilityTheory Filter Topology

section
variable {E : Type*} [MeasurableSpace E] (κ : Kernel E E)

/-- distribution after `n` steps -/
noncomputable def iterK (κ : Kernel E E) (n : ℕ) (ν : Measure E) : Measure E := (fun μ : Measure E => μ.bind κ)^[n] ν

theorem iterK_zero (ν : Measure E) : iterK κ 0 ν = ν := rfl

theorem iterK_succ (n : ℕ) (ν : Measure E) : iterK κ (n + 1) ν = (iterK κ n ν).bind κ := Function.iterate_succ_apply' _ _ _

theorem iterK_succ' (n : ℕ) (ν : Measure E) : iterK κ (n + 1) ν = iterK κ n (ν.bind κ) := rfl

theorem bind_le {μ ν : Measure E} (h : μ ≤ ν) : μ.bind κ ≤ ν.bind κ := by
  refine Measure.le_iff.2 fun s hs => ?_
  rw [Measure.bind_apply hs κ.aemeasurable, Measure.bind_apply hs κ.aemeasurable]
  exact lintegral_mono' h le_rfl

theorem bind_add' (μ ν : Measure E) : (μ + ν).bind κ = μ.bind κ + ν.bind κ := by
  ext s hs
  rw [Measure.add_apply, Measure.bind_apply hs κ.aemeasurable, Measure.bind_apply hs κ.aemeasurable, Measure.bind_apply hs κ.aemeasurable, lintegral_add_measure]

theorem bind_smul' (c : ENNReal) (μ : Measure E) : (c • μ).bind κ = c • μ.bind κ := by
  ext s hs
  rw [Measure.smul_apply, Measure.bind_apply hs κ.aemeasurable, Measure.bind_apply hs κ.aemeasurable, lintegral_smul_measure]

theorem bind_univ [IsMarkovKernel κ] (μ : Measure E) : μ.bind κ Set.univ = μ Set.univ := by
  rw [Measure.bind_apply MeasurableSet.univ κ.aemeasurable]
  simp

theorem iterK_add (n : ℕ) (μ ν : Measure E) : iterK κ n (μ + ν) = iterK κ n μ + iterK κ n ν := by
  induction n with
  | zero => rfl
  | succ n ih => rw [iterK_succ, iterK_succ, iterK_succ, ih, bind_add']

theorem iterK_smul (n : ℕ) (c : ENNReal) (μ : Measure E) : iterK κ n (c • μ) = c • iterK κ n μ := by
  induction n with
  | zero => rfl
  | succ n ih => rw [iterK_succ, iterK_succ, ih, bind_smul']

theorem iterK_univ [IsMarkovKernel κ] (n : ℕ) (μ : Measure E) : iterK κ n μ Set.univ = μ Set.univ := by
  induction n with
  | zero => rfl
  | succ n ih => rw [iterK_succ, bind_univ, ih]

variable {κ} [IsMarkovKernel κ] {π : Measure E} [IsProbabilityMeasure π]

theorem iterK_inv (hinv : π.bind κ = π) (n : ℕ) : iterK κ n π = π := by
  induction n with
  | zero => rfl
  | succ n ih => rw [iterK_succ, ih, hinv]

variable [MeasurableSpace.CountablyGenerated E]

/-- what one step makes common to all distributions with bounded density and mass at least `ε` -/
theorem overlap (hpos : ∀ x, π ≪ κ x) {M ε : ENNReal} (hM0 : M ≠ 0) (hM : M ≠ ⊤) (hε0 : ε ≠ 0) (hε : ε ≠ ⊤) :
    ∃ γ : Measure E, IsFiniteMeasure γ ∧ γ Set.univ ≠ 0 ∧ ∀ α : Measure E, IsFiniteMeasure α → α ≤ M • π → ε ≤ α Set.univ → γ ≤ α.bind κ := by
  set q : E → E → ENNReal := Kernel.rnDeriv κ (Kernel.const E π) with hq
  have mq : Measurable fun p : E × E => q p.1 p.2 := Kernel.measurable_rnDeriv κ (Kernel.const E π)
  have qpos : ∀ x, ∀ᵐ y ∂π, 0 < q x y := fun x => by
    filter_upwards [Kernel.rnDeriv_eq_rnDeriv_measure (κ := κ) (η := Kernel.const E π) (a := x), Measure.rnDeriv_pos' (hpos x)] with y h1 h2
    rw [hq, h1]
    exact h2
  have qle : ∀ x s, MeasurableSet s → ∫⁻ y in s, q x y ∂π ≤ κ x s := fun x s hs => Kernel.setLIntegral_rnDeriv_le (κ := κ) (η := Kernel.const E π) (a := x) hs
  -- pairs with small density
  set D : ℕ → Set (E × E) := fun n => {p | q p.1 p.2 < (n + 1 : ENNReal)⁻¹} with hD
  have mD : ∀ n, MeasurableSet (D n) := fun n => measurableSet_lt mq measurable_const
  set r : ENNReal := ε / 2 / M with hr
  have hr0 : r ≠ 0 := by rw [hr]; exact ENNReal.div_ne_zero.2 ⟨ENNReal.div_ne_zero.2 ⟨hε0, by simp⟩, hM⟩
  have hrT : r ≠ ⊤ := by rw [hr]; exact ENNReal.div_ne_top (ENNReal.div_ne_top hε (by simp)) hM0
  have hMr : M * r = ε / 2 := by rw [hr]; exact ENNReal.mul_div_cancel hM0 hM
  have hlim : Tendsto (fun n => (π.prod π) (D n)) atTop (𝓝 0) := by
    have h0 : (π.prod π) (⋂ n, D n) = 0 := by
      have e : (⋂ n, D n) ⊆ {p : E × E | q p.1 p.2 = 0} := by
        intro p hp
        have h1 : ∀ n : ℕ, q p.1 p.2 < (n + 1 : ENNReal)⁻¹ := fun n => Set.mem_iInter.1 hp n
        by_contra hne
        have hne' : q p.1 p.2 ≠ 0 := hne
        obtain ⟨n, hn⟩ := ENNReal.exists_inv_nat_lt hne'
        have := (h1 n).trans_le (ENNReal.inv_le_inv.2 (le_self_add : (n : ENNReal) ≤ n + 1))
        exact absurd (hn.trans this) (lt_irrefl _)
      refine measure_mono_null e ?_
      have m0 : MeasurableSet {p : E × E | q p.1 p.2 = 0} := measurableSet_eq_fun mq measurable_const
      rw [Measure.measure_prod_null m0]
      refine Eventually.of_forall fun x => ?_
      have := qpos x
      rw [ae_iff] at this
      refine measure_mono_null (fun y hy => ?_) this
      change ¬ 0 < q x y
      rw [show q x y = 0 from hy]
      exact lt_irrefl _
    rw [← h0]
    refine tendsto_measure_iInter_atTop (fun n => (mD n).nullMeasurableSet) (fun m n hmn p hp => ?_) ⟨0, measure_ne_top _ _⟩
    exact lt_of_lt_of_le (show q p.1 p.2 < (n + 1 : ENNReal)⁻¹ from hp) (ENNReal.inv_le_inv.2 (by gcongr))
  obtain ⟨n, hn⟩ : ∃ n, (π.prod π) (D n) < r / 2 := by
    have := hlim.eventually (gt_mem_nhds (show (0 : ENNReal) < r / 2 from ENNReal.div_pos hr0 (by simp)))
    exact this.exists
  set δ : ENNReal := (n + 1 : ENNReal)⁻¹ with hδ
  have hδ0 : δ ≠ 0 := ENNReal.inv_ne_zero.2 (by simp)
  have hδT : δ ≠ ⊤ := ENNReal.inv_ne_top.2 (by simp)
  have msec : Measurable fun y => π {x | q x y < δ} := by
    have := measurable_measure_prodMk_right (μ := π) (mD n)
    exact this
  set Y : Set E := {y | π {x | q x y < δ} < r} with hY
  have mY : MeasurableSet Y := measurableSet_lt msec measurable_const
  have hYc : π Yᶜ ≤ 1 / 2 := by
    have h1 : r * π {y | r ≤ π {x | q x y < δ}} ≤ ∫⁻ y, π {x | q x y < δ} ∂π := mul_meas_ge_le_lintegral msec r
    have h2 : ∫⁻ y, π {x | q x y < δ} ∂π = (π.prod π) (D n) := by
      rw [Measure.prod_apply_symm (mD n)]
      rfl
    have h3 : Yᶜ = {y | r ≤ π {x | q x y < δ}} := by ext y; simp [hY]
    rw [h3]
    rw [h2] at h1
    have h4 : r * π {y | r ≤ π {x | q x y < δ}} ≤ r * (1 / 2) := by
      refine h1.trans (hn.le.trans (le_of_eq ?_))
      rw [one_div, ENNReal.div_eq_inv_mul, mul_comm]
    exact (ENNReal.mul_le_mul_iff_right hr0 hrT).1 h4
  have hYpos : π Y ≠ 0 := by
    intro h0
    have : π Yᶜ = 1 := by rw [prob_compl_eq_one_iff mY]; exact h0
    rw [this] at hYc
    norm_num at hYc
  refine ⟨(δ * (ε / 2)) • π.restrict Y, ?_, ?_, ?_⟩
  · refine ⟨?_⟩
    rw [Measure.smul_apply, smul_eq_mul]
    exact ENNReal.mul_lt_top (ENNReal.mul_lt_top hδT.lt_top (ENNReal.div_ne_top hε (by simp)).lt_top) (measure_lt_top _ _)
  · rw [Measure.smul_apply, smul_eq_mul, Measure.restrict_apply_univ]
    exact mul_ne_zero (mul_ne_zero hδ0 (ENNReal.div_ne_zero.2 ⟨hε0, by simp⟩)) hYpos
  · intro α hα hle hmass
    refine Measure.le_iff.2 fun s hs => ?_
    rw [Measure.bind_apply hs κ.aemeasurable, Measure.smul_apply, smul_eq_mul, Measure.restrict_apply hs]
    have mqs : Measurable fun p : E × E => q p.1 p.2 := mq
    calc δ * (ε / 2) * π (s ∩ Y) = ∫⁻ y in s ∩ Y, δ * (ε / 2) ∂π := by rw [setLIntegral_const]
      _ ≤ ∫⁻ y in s ∩ Y, ∫⁻ x, q x y ∂α ∂π := by
        refine setLIntegral_mono_ae' (hs.inter mY) (Eventually.of_forall fun y hy => ?_)
        have hy' : π {x | q x y < δ} < r := hy.2
        have mqy : Measurable fun x => q x y := mq.comp (f := fun x => (x, y)) (by fun_prop)
        have h1 : α {x | q x y < δ} ≤ ε / 2 := by
          refine (hle _).trans ?_
          rw [Measure.smul_apply, smul_eq_mul, ← hMr]
          gcongr
        have h2 : ε / 2 ≤ α {x | δ ≤ q x y} := by
          have h3 : α Set.univ ≤ α {x | δ ≤ q x y} + α {x | q x y < δ} := by
            refine (measure_mono (fun x _ => ?_)).trans (measure_union_le _ _)
            exact le_or_gt δ (q x y)
          have h4 : ε / 2 + ε / 2 ≤ α {x | δ ≤ q x y} + ε / 2 := by
            rw [ENNReal.add_halves]
            exact hmass.trans (h3.trans (by gcongr))
          exact ENNReal.le_of_add_le_add_right (ENNReal.div_ne_top hε (by simp)) h4
        exact (mul_le_mul_right h2 δ).trans (mul_meas_ge_le_lintegral mqy δ)
      _ ≤ ∫⁻ y in s, ∫⁻ x, q x y ∂α ∂π := lintegral_mono_set Set.inter_subset_left
      _ = ∫⁻ x, ∫⁻ y in s, q x y ∂π ∂α := lintegral_lintegral_swap (mq.comp measurable_swap).aemeasurable
      _ ≤ ∫⁻ x, κ x s ∂α := lintegral_mono fun x => qle x s hs

/-- bounded densities of equal mass merge -/
theorem merge (hinv : π.bind κ = π) (hpos : ∀ x, π ≪ κ x) {M ε : ENNReal} (hM0 : M ≠ 0) (hM : M ≠ ⊤) (hε0 : ε ≠ 0) (hε : ε ≠ ⊤) :
    ∃ d : ENNReal, d ≠ 0 ∧ ∀ α β : Measure E, IsFiniteMeasure α → IsFiniteMeasure β → α ≤ M • π → β ≤ M • π → α Set.univ = β Set.univ → ∀ n : ℕ,
      ∃ a b g : Measure E, IsFiniteMeasure a ∧ IsFiniteMeasure b ∧ a ≤ M • π ∧ b ≤ M • π ∧ a Set.univ = b Set.univ ∧ iterK κ n α = a + g ∧ iterK κ n β = b + g ∧
        (a Set.univ ≤ ε ∨ a Set.univ + n * d ≤ α Set.univ) := by
  obtain ⟨γ, hγ, hγ0, hov⟩ := overlap (κ := κ) hpos hM0 hM hε0 hε
  refine ⟨γ Set.univ, hγ0, fun α β hα hβ hαM hβM hmass n => ?_⟩
  induction n with
  | zero => exact ⟨α, β, 0, hα, hβ, hαM, hβM, hmass, (add_zero _).symm, (add_zero _).symm, .inr (by simp)⟩
  | succ n ih =>
    obtain ⟨a, b, g, ha, hb, haM, hbM, hab, h1, h2, h3⟩ := ih
    have hMP : ∀ c : Measure E, c ≤ M • π → c.bind κ ≤ M • π := fun c hc => by
      have := bind_le κ hc
      rwa [bind_smul', hinv] at this
    have hfin : ∀ c : Measure E, IsFiniteMeasure c → IsFiniteMeasure (c.bind κ) := fun c hc => ⟨by rw [bind_univ]; exact measure_lt_top _ _⟩
    by_cases hsmall : a Set.univ ≤ ε
    · refine ⟨a.bind κ, b.bind κ, g.bind κ, hfin a ha, hfin b hb, hMP a haM, hMP b hbM, by rw [bind_univ, bind_univ, hab], ?_, ?_, .inl (by rw [bind_univ]; exact hsmall)⟩
      · rw [iterK_succ, h1, bind_add']
      · rw [iterK_succ, h2, bind_add']
    · have h3' : a Set.univ + n * γ Set.univ ≤ α Set.univ := h3.resolve_left hsmall
      have hεa : ε ≤ a Set.univ := (not_le.1 hsmall).le
      have ga := hov a ha haM hεa
      have gb := hov b hb hbM (hab ▸ hεa)
      have ea := Measure.sub_add_cancel_of_le ga
      have eb := Measure.sub_add_cancel_of_le gb
      have hau : (a.bind κ - γ) Set.univ + γ Set.univ = a Set.univ := by rw [← Measure.add_apply, ea, bind_univ]
      have hbu : (b.bind κ - γ) Set.univ + γ Set.univ = b Set.univ := by rw [← Measure.add_apply, eb, bind_univ]
      have hfa := hfin a ha
      have hfb := hfin b hb
      refine ⟨a.bind κ - γ, b.bind κ - γ, γ + g.bind κ, inferInstance, inferInstance, Measure.sub_le.trans (hMP a haM), Measure.sub_le.trans (hMP b hbM), ?_, ?_, ?_, .inr ?_⟩
      · have : (a.bind κ - γ) Set.univ + γ Set.univ = (b.bind κ - γ) Set.univ + γ Set.univ := by rw [hau, hbu, hab]
        exact (ENNReal.add_left_inj (measure_ne_top _ _)).1 this
      · rw [iterK_succ, h1, bind_add', ← add_assoc, ea]
      · rw [iterK_succ, h2, bind_add', ← add_assoc, eb]
      · refine le_trans (le_of_eq ?_) h3'
        rw [← hau]
        push_cast
        ring

/-- the distributions merge uniformly in the set -/
theorem merge_close (hinv : π.bind κ = π) (hpos : ∀ x, π ≪ κ x) {M ε : ENNReal} (hM0 : M ≠ 0) (hM : M ≠ ⊤) (hε0 : ε ≠ 0) (hε : ε ≠ ⊤) {α β : Measure E} [IsFiniteMeasure α] [IsFiniteMeasure β]
    (hα : α ≤ M • π) (hβ : β ≤ M • π) (hm : α Set.univ = β Set.univ) : ∃ N, ∀ n ≥ N, ∀ s, iterK κ n α s ≤ iterK κ n β s + ε ∧ iterK κ n β s ≤ iterK κ n α s + ε := by
  obtain ⟨d, hd, h⟩ := merge hinv hpos hM0 hM hε0 hε
  obtain ⟨N, hN⟩ := ENNReal.exists_nat_mul_gt hd (measure_ne_top α Set.univ)
  refine ⟨N, fun n hn s => ?_⟩
  obtain ⟨a, b, g, ha, hb, -, -, hab, h1, h2, h3⟩ := h α β inferInstance inferInstance hα hβ hm n
  have hs : a Set.univ ≤ ε := by
    refine h3.resolve_right fun h4 => ?_
    have : (N : ENNReal) * d ≤ α Set.univ := le_trans (by gcongr) (le_trans le_add_self h4)
    exact absurd hN (not_lt.2 this)
  rw [h1, h2, Measure.add_apply, Measure.add_apply]
  have hsa : a s ≤ ε := (measure_mono (Set.subset_univ s)).trans hs
  have hsb : b s ≤ ε := (measure_mono (Set.subset_univ s)).trans (hab ▸ hs)
  constructor
  · calc a s + g s ≤ ε + g s := by gcongr
      _ ≤ ε + (b s + g s) := by gcongr; exact le_add_self
      _ = _ := add_comm _ _
  · calc b s + g s ≤ ε + g s := by gcongr
      _ ≤ ε + (a s + g s) := by gcongr; exact le_add_self
      _ = _ := add_comm _ _

/-- **Convergence in total variation.** A Markov chain with invariant distribution `π` that can reach every set of positive probability in one step converges to `π` from every starting distribution that is absolutely continuous. -/
theorem markov_converges (hinv : π.bind κ = π) (hpos : ∀ x, π ≪ κ x) {ν : Measure E} [IsProbabilityMeasure ν] (hν : ν ≪ π) {ε : ENNReal} (hε : ε ≠ 0) :
    ∃ N, ∀ n ≥ N, ∀ s, iterK κ n ν s ≤ π s + ε ∧ π s ≤ iterK κ n ν s + ε := by
  wlog hεT : ε ≠ ⊤ generalizing ε
  · obtain ⟨N, hN⟩ := this (ε := 1) one_ne_zero ENNReal.one_ne_top
    refine ⟨N, fun n hn s => ?_⟩
    rw [not_not.1 hεT]
    simp
  set f := ν.rnDeriv π with hf
  have mf : Measurable f := Measure.measurable_rnDeriv _ _
  have eν : π.withDensity f = ν := Measure.withDensity_rnDeriv_eq _ _ hν
  have hint : ∫⁻ x, f x ∂π = 1 := by
    have : π.withDensity f Set.univ = 1 := by rw [eν]; exact measure_univ
    rwa [withDensity_apply _ MeasurableSet.univ, Measure.restrict_univ] at this
  have hfin : ∀ᵐ x ∂π, f x < ⊤ := ae_lt_top mf (by rw [hint]; exact ENNReal.one_ne_top)
  -- truncation
  have hlim : Tendsto (fun m : ℕ => ∫⁻ x, f x - min (f x) m ∂π) atTop (𝓝 0) := by
    have := tendsto_lintegral_of_dominated_convergence (μ := π) (F := fun (m : ℕ) x => f x - min (f x) m) (f := fun _ => 0) f (fun m => mf.sub (mf.min measurable_const))
      (fun m => Eventually.of_forall fun x => tsub_le_self) (by rw [hint]; exact ENNReal.one_ne_top)
      (by
        filter_upwards [hfin] with x hx
        obtain ⟨m, hm⟩ := ENNReal.exists_nat_gt hx.ne
        refine tendsto_const_nhds.congr' ?_
        filter_upwards [eventually_ge_atTop m] with k hk
        have : f x ≤ k := hm.le.trans (by exact_mod_cast hk)
        rw [min_eq_left this, tsub_self])
    simpa using this
  have hε3 : (0 : ENNReal) < ε / 3 := ENNReal.div_pos hε (by simp)
  obtain ⟨m, hm⟩ := ((hlim.eventually (gt_mem_nhds hε3)).and (eventually_ge_atTop 1)).exists
  obtain ⟨hmε, hm1⟩ := hm
  set α := π.withDensity fun x => min (f x) m with hα
  set ρ := π.withDensity fun x => f x - min (f x) m with hρ
  have eαρ : ν = α + ρ := by
    rw [← eν, hα, hρ, ← withDensity_add_left (mf.min measurable_const)]
    congr 1
    funext x
    exact (add_tsub_cancel_of_le (min_le_left _ _)).symm
  have hρu : ρ Set.univ ≤ ε / 3 := by
    rw [hρ, withDensity_apply _ MeasurableSet.univ, Measure.restrict_univ]
    exact hmε.le
  have hsum : α Set.univ + ρ Set.univ = 1 := by rw [← Measure.add_apply, ← eαρ]; exact measure_univ
  have hα1 : α Set.univ ≤ 1 := by rw [← hsum]; exact le_self_add
  have hαf : IsFiniteMeasure α := ⟨lt_of_le_of_lt hα1 ENNReal.one_lt_top⟩
  have hm0 : (m : ENNReal) ≠ 0 := by exact_mod_cast (show m ≠ 0 by omega)
  have hαM : α ≤ (m : ENNReal) • π := by
    refine Measure.le_iff.2 fun s hs => ?_
    rw [hα, withDensity_apply _ hs, Measure.smul_apply, smul_eq_mul, ← setLIntegral_const]
    exact lintegral_mono fun x => min_le_right _ _
  have hβM : α Set.univ • π ≤ (m : ENNReal) • π := by
    refine Measure.le_iff.2 fun s hs => ?_
    rw [Measure.smul_apply, Measure.smul_apply, smul_eq_mul, smul_eq_mul]
    gcongr
    exact hα1.trans (by exact_mod_cast hm1)
  have hβf : IsFiniteMeasure (α Set.univ • π) := ⟨by rw [Measure.smul_apply, smul_eq_mul, measure_univ (μ := π), mul_one]; exact measure_lt_top _ _⟩
  obtain ⟨N, hN⟩ := merge_close hinv hpos hm0 (ENNReal.natCast_ne_top m) hε3.ne' (ENNReal.div_ne_top hεT (by simp)) hαM hβM (by rw [Measure.smul_apply, smul_eq_mul, measure_univ (μ := π), mul_one])
  refine ⟨N, fun n hn s => ?_⟩
  obtain ⟨h1, h2⟩ := hN n hn s
  rw [iterK_smul, iterK_inv hinv, Measure.smul_apply, smul_eq_mul] at h1 h2
  have hρs : iterK κ n ρ s ≤ ε / 3 := (measure_mono (Set.subset_univ s)).trans (by rw [iterK_univ]; exact hρu)
  have e3 : ε / 3 + ε / 3 + ε / 3 = ε := ENNReal.add_thirds ε
  rw [eαρ, iterK_add, Measure.add_apply]
  constructor
  · calc iterK κ n α s + iterK κ n ρ s ≤ (α Set.univ * π s + ε / 3) + ε / 3 := by gcongr
      _ ≤ (1 * π s + ε / 3) + ε / 3 := by gcongr
      _ = π s + (ε / 3 + ε / 3) := by ring
      _ ≤ π s + (ε / 3 + ε / 3 + ε / 3) := by gcongr; exact le_self_add
      _ = _ := by rw [e3]
  · calc π s = (α Set.univ + ρ Set.univ) * π s := by rw [hsum, one_mul]
      _ = α Set.univ * π s + ρ Set.univ * π s := add_mul _ _ _
      _ ≤ (iterK κ n α s + ε / 3) + ε / 3 * 1 := by gcongr; exact prob_le_one
      _ = iterK κ n α s + (ε / 3 + ε / 3) := by ring
      _ ≤ (iterK κ n α s + iterK κ n ρ s) + (ε / 3 + ε / 3 + ε / 3) := by
        refine add_le_add le_self_add le_self_add
      _ = _ := by rw [e3]

end

end PyHawkes
