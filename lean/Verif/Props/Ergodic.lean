import Verif.Props.MarkovConverge

/-!
# Chains driven by fresh seeds: convergence to the invariant distribution (used for C94)
-/
set_option linter.unusedSectionVars false
set_option linter.unusedVariables false

namespace PyHawkes
open MeasureTheory ProbabilityTheory Filter Topology

section
variable {E X : Type*} [MeasurableSpace E] [MeasurableSpace X]

/-- the transition kernel of `f` -/
noncomputable def stepKernel (f : E × X → E) (hf : Measurable f) (ν : Measure X) [SFinite ν] : Kernel E E :=
  ⟨fun x => ν.map fun y => f (x, y), by
    refine Measure.measurable_of_measurable_coe _ fun s hs => ?_
    have e : ∀ x, (ν.map fun y => f (x, y)) s = ν (Prod.mk x ⁻¹' (f ⁻¹' s)) := fun x => by
      rw [Measure.map_apply (show Measurable fun y => f (x, y) from hf.comp measurable_prodMk_left) hs]; rfl
    simp only [e]
    exact measurable_measure_prodMk_left (hf hs)⟩

theorem stepKernel_apply (f : E × X → E) (hf : Measurable f) (ν : Measure X) [SFinite ν] (x : E) : stepKernel f hf ν x = ν.map fun y => f (x, y) := rfl

theorem bind_stepKernel (f : E × X → E) (hf : Measurable f) (ν : Measure X) [SFinite ν] (m : Measure E) [SFinite m] : m.bind (stepKernel f hf ν) = (m.prod ν).map f := by
  ext s hs
  rw [Measure.bind_apply hs (stepKernel f hf ν).aemeasurable, Measure.map_apply hf hs, Measure.prod_apply (hf hs)]
  refine lintegral_congr fun x => ?_
  rw [stepKernel_apply, Measure.map_apply (show Measurable fun y => f (x, y) from hf.comp measurable_prodMk_left) hs]
  rfl

variable [MeasurableSpace.CountablyGenerated E]

open Classical in
/-- **Convergence.** `f` preserves `π`; from the states of `D` one step reaches exactly the sets of positive `π`-measure. -/
theorem ergodic_chain {f : E × X → E} (hf : Measurable f) {ν : Measure X} [IsProbabilityMeasure ν] {π : Measure E} [IsProbabilityMeasure π] {D : Set E} (hD : MeasurableSet D)
    (hπ : (π.prod ν).map f = π) (hπD : ∀ᵐ x ∂π, x ∈ D)
    (hle : ∀ x ∈ D, (ν.map fun y => f (x, y)) ≪ π) (hge : ∀ x ∈ D, π ≪ ν.map fun y => f (x, y))
    {m : ℕ → Measure E} [IsProbabilityMeasure (m 0)] (hm0 : ∀ᵐ x ∂m 0, x ∈ D) (hm : ∀ t, m (t + 1) = ((m t).prod ν).map f) :
    ∀ ε : ENNReal, ε ≠ 0 → ∃ N, ∀ n, N ≤ n → ∀ s, m n s ≤ π s + ε ∧ π s ≤ m n s + ε := by
  intro ε hε
  have hpr : ∀ t, IsProbabilityMeasure (m t) := fun t => by
    induction t with
    | zero => infer_instance
    | succ t ih => rw [hm]; exact Measure.isProbabilityMeasure_map hf.aemeasurable
  have hk0 : ∀ x, IsProbabilityMeasure (ν.map fun y => f (x, y)) := fun x => Measure.isProbabilityMeasure_map (hf.comp measurable_prodMk_left).aemeasurable
  have hK0 : IsMarkovKernel (stepKernel f hf ν) := ⟨hk0⟩
  set κ : Kernel E E := Kernel.piecewise hD (stepKernel f hf ν) (Kernel.const E π) with hκ
  have hbind : ∀ ρ : Measure E, SFinite ρ → (∀ᵐ x ∂ρ, x ∈ D) → ρ.bind κ = (ρ.prod ν).map f := fun ρ _ hρ => by
    rw [← bind_stepKernel f hf ν ρ]
    ext s hs
    rw [Measure.bind_apply hs κ.aemeasurable, Measure.bind_apply hs (stepKernel f hf ν).aemeasurable]
    refine lintegral_congr_ae ?_
    filter_upwards [hρ] with x hx
    rw [hκ, Kernel.piecewise_apply, if_pos hx]
  have hinv : π.bind κ = π := by rw [hbind π inferInstance hπD, hπ]
  have hpos : ∀ x, π ≪ κ x := fun x => by
    rw [hκ, Kernel.piecewise_apply]
    split_ifs with hx
    · exact hge x hx
    · rw [Kernel.const_apply]
  have hac : ∀ ρ : Measure E, SFinite ρ → (∀ᵐ x ∂ρ, x ∈ D) → (ρ.prod ν).map f ≪ π := fun ρ _ hρ => by
    rw [← bind_stepKernel f hf ν ρ]
    refine Measure.AbsolutelyContinuous.mk fun s hs h0 => ?_
    rw [Measure.bind_apply hs (stepKernel f hf ν).aemeasurable]
    rw [lintegral_eq_zero_iff (Kernel.measurable_coe _ hs)]
    filter_upwards [hρ] with x hx
    exact hle x hx h0
  have hmac : ∀ t, m (t + 1) ≪ π ∧ ∀ᵐ x ∂m (t + 1), x ∈ D := fun t => by
    have hstep : (∀ᵐ x ∂m t, x ∈ D) → m (t + 1) ≪ π ∧ ∀ᵐ x ∂m (t + 1), x ∈ D := fun h => by
      have h1 : m (t + 1) ≪ π := by rw [hm]; exact hac _ inferInstance h
      exact ⟨h1, h1.ae_le hπD⟩
    induction t with
    | zero => exact hstep hm0
    | succ t ih => exact hstep (ih fun h => by
        have h1 : m (t + 1) ≪ π := by rw [hm]; exact hac _ inferInstance h
        exact ⟨h1, h1.ae_le hπD⟩).2
  have hiter : ∀ n, m (n + 1) = iterK κ n (m 1) := fun n => by
    induction n with
    | zero => rfl
    | succ n ih => rw [iterK_succ, ← ih, hbind _ inferInstance (hmac n).2, hm (n + 1)]
  obtain ⟨N, hN⟩ := markov_converges hinv hpos (hmac 0).1 hε
  refine ⟨N + 1, fun n hn s => ?_⟩
  obtain ⟨k, rfl⟩ : ∃ k, n = k + 1 := ⟨n - 1, by omega⟩
  rw [hiter]
  exact hN k (by omega) s

/-- **Uniqueness** of the invariant distribution. -/
theorem ergodic_unique {f : E × X → E} (hf : Measurable f) {ν : Measure X} [IsProbabilityMeasure ν] {π : Measure E} [IsProbabilityMeasure π] {D : Set E} (hD : MeasurableSet D)
    (hπ : (π.prod ν).map f = π) (hπD : ∀ᵐ x ∂π, x ∈ D)
    (hle : ∀ x ∈ D, (ν.map fun y => f (x, y)) ≪ π) (hge : ∀ x ∈ D, π ≪ ν.map fun y => f (x, y))
    {ρ : Measure E} [IsProbabilityMeasure ρ] (hρD : ∀ᵐ x ∂ρ, x ∈ D) (hρ : (ρ.prod ν).map f = ρ) : ρ = π := by
  ext s hs
  have h := ergodic_chain hf hD hπ hπD hle hge (m := fun _ => ρ) hρD fun _ => hρ.symm
  refine le_antisymm ?_ ?_
  · refine ENNReal.le_of_forall_pos_le_add fun ε hε _ => ?_
    obtain ⟨N, hN⟩ := h ε (by exact_mod_cast hε.ne')
    exact (hN N le_rfl s).1
  · refine ENNReal.le_of_forall_pos_le_add fun ε hε _ => ?_
    obtain ⟨N, hN⟩ := h ε (by exact_mod_cast hε.ne')
    exact (hN N le_rfl s).2

end

end PyHawkes
