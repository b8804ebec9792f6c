import Verif.Props.DiscErgodic
import Verif.Props.ChainSpace

/-!
# C94: from every valid starting state, `resample_model` converges to the posterior
-/
set_option linter.unusedSectionVars false
set_option linter.unusedVariables false

namespace PyHawkes
open Finset Spec MeasureTheory ProbabilityTheory

section
variable {U Ω : Type*} [MeasurableSpace U] [MeasurableSpace Ω] {μ : Measure U} {Pr : Measure Ω} (G : Generator μ) {c : HawkesState} {n : ERFixed}

theorem theta_cg (K : ℕ) : MeasurableSpace.CountablyGenerated (Theta K) :=
  cg_prod inferInstance (cg_prod inferInstance (cg_prod inferInstance (cg_prod inferInstance inferInstance)))

theorem theta_valid {s : HawkesState} (hs : SameModel c n s) (hp : ParamsOk s) (hv : ScaleOk n (netScale s.net)) : theta c.base.K s ∈ thetaValid c n := by
  have hK : s.base.K = c.base.K := by rw [hs.base]
  have hB : s.base.B = c.base.B := by rw [hs.base]
  refine ⟨fun e => hp.A _ (by rw [hK]; exact e.1.2) _ (by rw [hK]; exact e.2.2), hv, fun e => (hp.W _ (by rw [hK]; exact e.1.2) _ (by rw [hK]; exact e.2.2)).le,
    fun k => hp.lam0 _ (by rw [hK]; exact k.2), fun e b hb => (hp.g _ (by rw [hK]; exact e.1.2) _ (by rw [hK]; exact e.2.2)).1 b (by rw [hB]; exact hb)⟩

/-- **C94**: started in any valid state of the model, successive calls of `resample_model` with fresh seeds succeed, and the distribution of the parameters converges to the posterior in total
variation. -/
theorem C94_converges [IsProbabilityMeasure Pr] (h : CfgOk c n) (hF : FilteredFromEvents c.base.K c.base.B c.data) (huge : ℝ) (d : ℕ → Ω → StepDraws)
    (hd : ∀ t ω, DrawsOk c.base.K c.base.B 1 (d t ω)) (s : ℕ → Ω → HawkesState)
    (hs : ∀ ω, SameModel c n (s 0 ω) ∧ HyperOk (s 0 ω) ∧ ParamsOk (s 0 ω) ∧ ScaleOk n (netScale (s 0 ω).net)) (hm : AEMeasurable (fun ω => theta c.base.K (s 0 ω)) Pr) (x : ℕ → Ω → Site → U)
    (hrun : ∀ t ω s', resampleModelSS huge (G.draws c.base.K c.base.B (d t ω) (x t ω)) (s t ω) = .ok s' → s (t + 1) ω = s')
    (hx : ∀ t, FreshSeeds μ Pr (fun ω => (theta c.base.K (s 0 ω), fun i : Fin t => x i ω)) (x t)) :
    (∀ t ω, resampleModelSS huge (G.draws c.base.K c.base.B (d t ω) (x t ω)) (s t ω) = .ok (s (t + 1) ω)) ∧
      ConvergesTV (fun t => Pr.map fun ω => theta c.base.K (s t ω)) (posterior c n) := by
  have hμ := gen_prob G
  have hcg := theta_cg c.base.K
  have hpost := (C83_posterior_proper h hF).2.2
  have hsl : IsProbabilityMeasure (seedLaw c μ) := by unfold seedLaw; infer_instance
  have hD : MeasurableSet (thetaValid c n) := netValid_meas (erNet_pos G h.net).D_meas (discSys_pos G h).D_meas
  have hpD : ∀ᵐ θ ∂posterior c n, θ ∈ thetaValid c n := by
    rw [posterior_net G h]; exact netPosterior_valid (discSys_ok G h) (erNet_ok G h.net) (discSys_pos G h) (erNet_pos G h.net)
  have key := chain_converge (measurable_sweepStep G h) (posterior_map G h) hD hpD (fun θ hθ => (disc_ac G h hF hθ).1) (fun θ hθ => (disc_ac G h hF hθ).2) (measurable_seedsOf (c := c))
    (fun x hi hl => seeds_law (c := c) hi hl) (par := theta c.base.K) (valid := fun s => SameModel c n s ∧ HyperOk s ∧ ParamsOk s)
    (run := fun t ω x s => resampleModelSS huge (G.draws c.base.K c.base.B (d t ω) x) s)
    (fun t ω s hv x => by
      obtain ⟨s', h1, h2, h3, h4, h5⟩ := sweep_eq G c n huge (d t ω) (hd t ω) h.B s hv.1 hv.2.1 hv.2.2 h.data x
      exact ⟨s', h1, ⟨h2, h3, h4⟩, h5⟩)
    (s := s) (fun ω => ⟨(hs ω).1, (hs ω).2.1, (hs ω).2.2.1⟩) (fun ω => theta_valid (hs ω).1 (hs ω).2.2.1 (hs ω).2.2.2) hm hrun (fun t => (hx t).indep) (fun t => (hx t).law) (fun t => (hx t).fresh)
  exact ⟨fun t ω => (key.1 t ω).1, key.2⟩

/-- **C94**: the posterior is the only stationary distribution of the sampler on valid parameters: if one call of `resample_model` leaves the distribution of the parameters of a valid random state
unchanged, that distribution is the posterior. -/
theorem C94_stationary_unique [IsProbabilityMeasure Pr] (h : CfgOk c n) (hF : FilteredFromEvents c.base.K c.base.B c.data) (huge : ℝ) (d : Ω → StepDraws)
    (hd : ∀ ω, DrawsOk c.base.K c.base.B 1 (d ω)) (s s' : Ω → HawkesState)
    (hs : ∀ ω, SameModel c n (s ω) ∧ HyperOk (s ω) ∧ ParamsOk (s ω) ∧ ScaleOk n (netScale (s ω).net)) (x : Ω → Site → U) (hx : FreshSeeds μ Pr (fun ω => theta c.base.K (s ω)) x)
    (hrun : ∀ ω, resampleModelSS huge (G.draws c.base.K c.base.B (d ω) (x ω)) (s ω) = .ok (s' ω))
    {ρ : Measure (Theta c.base.K)} (hlaw : HasLaw (fun ω => theta c.base.K (s ω)) ρ Pr) (hlaw' : HasLaw (fun ω => theta c.base.K (s' ω)) ρ Pr) : ρ = posterior c n := by
  have hμ := gen_prob G
  have hcg := theta_cg c.base.K
  have hpost := (C83_posterior_proper h hF).2.2
  have hsl : IsProbabilityMeasure (seedLaw c μ) := by unfold seedLaw; infer_instance
  have hD : MeasurableSet (thetaValid c n) := netValid_meas (erNet_pos G h.net).D_meas (discSys_pos G h).D_meas
  have hpD : ∀ᵐ θ ∂posterior c n, θ ∈ thetaValid c n := by
    rw [posterior_net G h]; exact netPosterior_valid (discSys_ok G h) (erNet_ok G h.net) (discSys_pos G h) (erNet_pos G h.net)
  refine stationary_unique (measurable_sweepStep G h) (posterior_map G h) hD hpD (fun θ hθ => (disc_ac G h hF hθ).1) (fun θ hθ => (disc_ac G h hF hθ).2) hlaw (fun ω => theta_valid (hs ω).1 (hs ω).2.2.1 (hs ω).2.2.2)
    (seeds_law (c := c) hx.indep hx.law) (hx.fresh.comp measurable_id measurable_seedsOf) ?_
  have e : (fun ω => theta c.base.K (s' ω)) = fun ω => sweepStep G c n (theta c.base.K (s ω)) (seedsOf c (x ω)) := by
    funext ω
    obtain ⟨t, h1, -, -, -, h5⟩ := sweep_eq G c n huge (d ω) (hd ω) h.B (s ω) (hs ω).1 (hs ω).2.1 (hs ω).2.2.1 h.data (x ω)
    rw [hrun ω] at h1
    rw [Except.ok.inj h1]; exact h5
  rw [← e]; exact hlaw'

end

section
variable {c : HawkesState} {n : ERFixed}

/-- **Non-vacuity of C94**: for every valid state of a valid model there are a probability space, a random number generator, fresh seeds for infinitely many calls and the run of the sampler started in
that state. -/
theorem C94_hypotheses_met (h : CfgOk c n) (huge : ℝ) (d : StepDraws) (s0 : HawkesState) :
    ∃ (Ω : Type) (_ : MeasurableSpace Ω) (Pr : Measure Ω) (_ : IsProbabilityMeasure Pr) (G : Generator (volume : Measure unitInterval)) (s : ℕ → Ω → HawkesState) (x : ℕ → Ω → Site → unitInterval),
      (∀ ω, s 0 ω = s0) ∧ AEMeasurable (fun ω => theta c.base.K (s 0 ω)) Pr ∧
      (∀ t ω s', resampleModelSS huge (G.draws c.base.K c.base.B d (x t ω)) (s t ω) = .ok s' → s (t + 1) ω = s') ∧
      (∀ t, FreshSeeds volume Pr (fun ω => (theta c.base.K (s 0 ω), fun i : Fin t => x i ω)) (x t)) := by
  obtain ⟨G⟩ := C83_generator_exists
  obtain ⟨Ω, i1, Pr, i2, θ, x, h1, h2, h3⟩ := fresh_chain (S := Site) (Measure.dirac (theta c.base.K s0)) (good := Set.univ) MeasurableSet.univ (Filter.Eventually.of_forall fun _ => trivial)
  refine ⟨Ω, i1, Pr, i2, G, fun t ω => Nat.rec s0 (fun t st => match resampleModelSS huge (G.draws c.base.K c.base.B d (x t ω)) st with | .ok s' => s' | .error _ => st) t, x, fun ω => rfl,
    (measurable_const (a := theta c.base.K s0)).aemeasurable, ?_, ?_⟩
  · intro t ω s' hs'
    dsimp only at hs' ⊢
    rw [hs']
  · intro t
    refine ⟨(h3 t).1, (h3 t).2.1, ?_⟩
    have := (h3 t).2.2.comp (φ := fun y : Theta c.base.K × (Fin t → Site → unitInterval) => (theta c.base.K s0, y.2)) (ψ := id) (by fun_prop) measurable_id
    exact this

/-- a valid start for the demo model of C83 -/
theorem C94_demo_start : CfgOk demoChainModel demoER ∧ FilteredFromEvents 2 1 demoChainModel.data ∧
    ∃ s0, SameModel demoChainModel demoER s0 ∧ HyperOk s0 ∧ ParamsOk s0 ∧ ScaleOk demoER (netScale s0.net) := by
  obtain ⟨h, hF⟩ := demoChain_ok
  have := (C83_posterior_proper h hF).2.2
  obtain ⟨θ, hθ⟩ := (posterior_valid h).exists
  obtain ⟨h1, h2, h3⟩ := stateOf_ok h hθ
  exact ⟨h, hF, stateOf demoChainModel demoER θ, h1, h2, h3, .inr ⟨2, 3, rfl, rfl, by norm_num, by norm_num⟩⟩

end

end PyHawkes
