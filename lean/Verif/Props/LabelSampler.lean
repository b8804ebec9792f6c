import Verif.Props.LabelSweep
import Verif.Props.GibbsProper
/-!
# A label sampler exists (C96)
-/
set_option linter.unusedSectionVars false
set_option linter.unusedVariables false

namespace PyHawkes
open Finset Spec MeasureTheory ProbabilityTheory

theorem label_sampler_at (n : ℕ) : ∃ f : Vec ℝ → unitInterval → ℕ, (Measurable fun x : Vec ℝ × unitInterval => f x.1 x.2) ∧ (∀ lp u, 0 < n → f lp u < n) ∧
    ∀ lp, ∀ i < n, (volume : Measure unitInterval) {u | f lp u = i} = ENNReal.ofReal (Real.exp (lp i) / ∑ j ∈ range n, Real.exp (lp j)) := by
  rcases n with _ | n
  · exact ⟨fun _ _ => 0, measurable_const, fun _ _ h => absurd h (lt_irrefl 0), fun _ i hi => absurd hi (Nat.not_lt_zero i)⟩
  set w : Vec ℝ → Fin (n + 1) → ℝ := fun lp i => Real.exp (lp i) / ∑ j ∈ range (n + 1), Real.exp (lp j) with hw
  have hm : Measurable (Function.uncurry fun (lp : Vec ℝ) (j : Fin (n + 1)) => ENNReal.ofReal (w lp j)) := by
    refine measurable_from_prod_countable_left fun j => ?_
    unfold Function.uncurry
    dsimp only
    rw [hw]
    dsimp only
    fun_prop
  have e : ∀ (lp : Vec ℝ) (j : Fin (n + 1)), Kernel.withDensity (Kernel.const _ (Measure.count : Measure (Fin (n + 1)))) (fun (lp : Vec ℝ) (j : Fin (n + 1)) => ENNReal.ofReal (w lp j)) lp {j} = ENNReal.ofReal (w lp j) := fun m j => by
    rw [Kernel.withDensity_apply _ hm, withDensity_apply _ (measurableSet_singleton j), Kernel.const_apply, Measure.restrict_singleton, Measure.count_singleton, one_smul, lintegral_dirac]
  set κ := Kernel.withDensity (Kernel.const _ (Measure.count : Measure (Fin (n + 1)))) (fun (lp : Vec ℝ) (j : Fin (n + 1)) => ENNReal.ofReal (w lp j)) with hκ
  have hM : IsMarkovKernel κ := by
    refine ⟨fun lp => ⟨?_⟩⟩
    have hpos : 0 < ∑ j ∈ range (n + 1), Real.exp (lp j) := sum_pos (fun j _ => Real.exp_pos _) ⟨0, by simp⟩
    rw [← Measure.tsum_indicator_apply_singleton _ _ MeasurableSet.univ]
    simp only [Set.indicator_univ, e]
    rw [tsum_fintype, ← ENNReal.ofReal_sum_of_nonneg fun j _ => (div_pos (Real.exp_pos _) hpos).le, ← sum_div, Fin.sum_univ_eq_sum_range (fun j => Real.exp (lp j)), div_self hpos.ne', ENNReal.ofReal_one]
  obtain ⟨f, hf, hfe⟩ := Kernel.exists_measurable_map_eq_unitInterval κ
  refine ⟨fun lp u => f lp u, (measurable_from_top (f := fun i : Fin (n + 1) => (i : ℕ))).comp hf, fun lp u _ => (f lp u).2, fun lp i hi => ?_⟩
  have hfm : Measurable (f lp) := hf.comp (f := fun u => (lp, u)) (by fun_prop)
  have := e lp ⟨i, hi⟩
  rw [← hfe, Measure.map_apply hfm (measurableSet_singleton _)] at this
  rw [hw] at this
  rw [← this]
  congr 1
  ext u
  simp [Fin.ext_iff]

/-- **A label sampler exists.** -/
theorem C96_sampler_exists : Nonempty (LabelSampler (volume : Measure unitInterval)) := by
  choose f h1 h2 h3 using label_sampler_at
  exact ⟨⟨f, h1, fun n lp u h => h2 n lp u h, h3⟩⟩

end PyHawkes
