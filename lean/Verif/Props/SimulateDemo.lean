import Verif.Props.SimulateGap

/-!
# C90, C91: concrete models and probability spaces that meet the hypotheses
-/
set_option linter.unusedSectionVars false
set_option linter.unusedVariables false

namespace PyHawkes
open Finset Spec MeasureTheory ProbabilityTheory

/-- one event of process 0 in the first bin -/
def firstEvent : Mat ℕ := fun t k => if t = 0 ∧ k = 0 then 1 else 0

/-- rates of the demonstration model: two processes, responses one bin after the event -/
noncomputable def simBase : NetParams ℝ := { K := 2, B := 1, L := 2, dt := 1, lam0 := fun _ => 1, Weff := fun _ _ => 1 / 2, g := fun _ _ _ => 1, basis := fun l _ => if l = 1 then 1 else 0 }

/-- demonstration model with one data set of `T` bins as stored by `add_data` -/
noncomputable def simModel (T : ℕ) : HawkesState :=
  { demoChainModel with
    base := simBase
    data := [{ T := T, S := firstEvent, F := match convolve T 2 2 1 simBase.basis (fun t k => (firstEvent t k : ℝ)) with | .ok F => F | .error _ => fun _ _ _ => 0 }] }

theorem simBase_ok : UnitSim simBase ∧ RateOk simBase := by
  refine ⟨⟨⟨by decide, by decide, by decide, rfl, one_pos, fun l _ b _ => ?_, fun b _ => ?_⟩, fun b _ => ?_⟩, ⟨fun _ _ => one_pos, fun _ _ _ _ => by norm_num [simBase], fun _ _ _ _ => ⟨fun _ _ => zero_le_one, by simp [simBase]⟩⟩⟩
  · dsimp only [simBase]; split_ifs <;> norm_num
  · simp [simBase]
  · simp [simBase, sum_range_succ]

theorem simStored {T : ℕ} (hT : 0 < T) : ∀ D ∈ (simModel T).data, StoredOk (simModel T).base D := by
  intro D hD
  rw [List.mem_singleton.1 hD]
  refine ⟨hT, ?_⟩
  obtain ⟨F, hF, -⟩ := C02_convolve_eq_filtered (R := ℝ) T 2 2 1 simBase.basis (fun t k => (firstEvent t k : ℝ)) hT (by decide) (by decide) (by decide)
  change convolve T 2 2 1 simBase.basis (fun t k => (firstEvent t k : ℝ)) = .ok (match convolve T 2 2 1 simBase.basis (fun t k => (firstEvent t k : ℝ)) with | .ok F => F | .error _ => fun _ _ _ => 0)
  rw [hF]

theorem simCfg {T : ℕ} (hT : 0 < T) : CfgOk (simModel T) demoER := by
  refine ⟨Nat.one_pos, ?_, ⟨one_pos, one_pos, fun _ _ => one_pos, one_pos, simBase_ok.1.basis⟩, demoChain_ok.1.net⟩
  intro D hD
  have hs := simStored hT D hD
  refine ⟨fun t ht k hk b hb => ?_, ?_⟩
  · rw [convolve_ok_eq hs.F t ht k hk b hb]
    unfold filtered
    refine sum_nonneg fun l hl => ?_
    split_ifs
    · exact mul_nonneg (simBase_ok.1.basis l (mem_range.1 hl) b hb) (Nat.cast_nonneg _)
    · exact le_rfl
  · rw [List.mem_singleton.1 hD]
    intro t _ k _
    dsimp only [firstEvent]
    split_ifs <;> norm_num

theorem simEarly : ∀ D ∈ (simModel 3).data, NoLateEvents (simModel 3).base D := by
  intro D hD
  rw [List.mem_singleton.1 hD]
  intro t ht k hk hl
  change firstEvent t k = 0
  change 3 < t + 2 at hl
  exact if_neg (by omega)

/-- **Hypotheses of C91 are met**: for any valid model there are a probability space, a Poisson sampler, random parameters with the prior distribution and independent seeds for the simulations. -/
theorem C91_hypotheses_met {c : HawkesState} {n : ERFixed} (h : CfgOk c n) :
    ∃ (Ω : Type) (_ : MeasurableSpace Ω) (Pr : Measure Ω) (_ : IsProbabilityMeasure Pr) (_ : PoissonSampler (volume : Measure unitInterval)) (θ : Ω → Theta c.base.K) (x : Ω → ℕ × ℕ × ℕ → unitInterval),
      HasLaw θ (prior c n) Pr ∧ FreshSim volume Pr θ x := by
  have := prior_prob h
  obtain ⟨Ps⟩ := C90_sampler_exists
  obtain ⟨Ω, i1, Pr, i2, θ, x, -, h2, h3⟩ := fresh_chain (S := ℕ × ℕ × ℕ) (prior c n) measurableSet_thetaOk (prior_valid h)
  obtain ⟨a, b, d⟩ := h3 0
  exact ⟨Ω, i1, Pr, i2, Ps, θ, x 0, h2, a, b, d.comp (φ := Prod.fst) (ψ := id) measurable_fst measurable_id⟩

/-- a recording in which the response to the only event is complete: the invariant distribution of the sampler is the conditional distribution given the data, which has positive probability -/
example : ∃ (Ω : Type) (_ : MeasurableSpace Ω) (Pr : Measure Ω) (_ : IsProbabilityMeasure Pr) (Ps : PoissonSampler (volume : Measure unitInterval)) (θ : Ω → Theta 2) (x : Ω → ℕ × ℕ × ℕ → unitInterval),
    HasLaw θ (prior (simModel 3) demoER) Pr ∧ 0 < Pr {ω | Observed Ps (simModel 3) (parSS (simModel 3) (θ ω)) (x ω)} ∧ ∀ B, MeasurableSet B →
      Pr {ω | θ ω ∈ B ∧ Observed Ps (simModel 3) (parSS (simModel 3) (θ ω)) (x ω)} = Pr {ω | Observed Ps (simModel 3) (parSS (simModel 3) (θ ω)) (x ω)} * posterior (simModel 3) demoER B := by
  obtain ⟨Ω, i1, Pr, i2, Ps, θ, x, h1, h2⟩ := C91_hypotheses_met (simCfg (T := 3) (by decide))
  obtain ⟨a, b⟩ := C91_posterior_is_conditional_partial Ps (simCfg (T := 3) (by decide)) simBase_ok.1 (simStored (by decide)) simEarly h1 h2
  exact ⟨Ω, i1, Pr, i2, Ps, θ, x, h1, a, b⟩

/-- a recording that ends right after the event: it is not -/
example : ∃ (Ω : Type) (_ : MeasurableSpace Ω) (Pr : Measure Ω) (_ : IsProbabilityMeasure Pr) (Ps : PoissonSampler (volume : Measure unitInterval)) (θ : Ω → Theta 2) (x : Ω → ℕ × ℕ × ℕ → unitInterval),
    HasLaw θ (prior (simModel 1) demoER) Pr ∧
      Pr {ω | (∀ e, (θ ω).1 e = 0) ∧ Observed Ps (simModel 1) (parSS (simModel 1) (θ ω)) (x ω)} ≠ Pr {ω | Observed Ps (simModel 1) (parSS (simModel 1) (θ ω)) (x ω)} * posterior (simModel 1) demoER {θ | ∀ e, θ.1 e = 0} := by
  obtain ⟨Ω, i1, Pr, i2, Ps, θ, x, h1, h2⟩ := C91_hypotheses_met (simCfg (T := 1) (by decide))
  refine ⟨Ω, i1, Pr, i2, Ps, θ, x, h1, ?_⟩
  refine C91_late_events_violated Ps (simCfg (T := 1) (by decide)) simBase_ok.1 (simStored (by decide)) (fun i _ j _ => ?_) (i := 0) (j := 0) (by decide) (by decide) ?_ (List.mem_singleton.2 rfl) (fun b hb => ?_) h1 h2
  · norm_num [ERFixed.P, demoER]
  · norm_num [ERFixed.P, demoER]
  · simp [lostMass, simModel, simBase, firstEvent, sum_range_succ]

/-- the probability of a concrete simulated recording -/
example : ∃ (Ω : Type) (_ : MeasurableSpace Ω) (Pr : Measure Ω) (Ps : PoissonSampler (volume : Measure unitInterval)) (x : Ω → ℕ × ℕ × ℕ → unitInterval),
    Pr {ω | Simulates simBase (Ps.draws (x ω) 0) 3 firstEvent} = ENNReal.ofReal (countProb simBase 3 firstEvent) := by
  obtain ⟨Ω, i1, Pr, i2, Ps, θ, x, h1, h2⟩ := C91_hypotheses_met (simCfg (T := 3) (by decide))
  exact ⟨Ω, i1, Pr, Ps, x, C90_count_probability Ps simBase_ok.1.toSimOk simBase_ok.2 (by decide) h2.indep h2.law 0 firstEvent⟩

end PyHawkes
