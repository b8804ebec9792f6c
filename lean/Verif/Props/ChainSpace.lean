import Verif.Props.BlockChain
import Verif.Props.CTProper

/-!
# Whole runs: a probability space with initial parameters of a given distribution and fresh seeds for each of infinitely many calls (non-vacuity of the chain theorems C83, C84, C85)
-/
set_option linter.unusedSectionVars false
set_option linter.unusedVariables false

namespace PyHawkes
open Finset Spec MeasureTheory ProbabilityTheory

theorem indep_extend {E E' Y P S : Type*} [MeasurableSpace E] [MeasurableSpace E'] [MeasurableSpace Y] [MeasurableSpace P] [MeasurableSpace S] {ν : Measure E} {ρ : Measure Y} [IsProbabilityMeasure ν] [IsProbabilityMeasure ρ]
    {f : E → E'} {p : Y → P} {q : Y → S} (hf : Measurable f) (hp : Measurable p) (hq : Measurable q) (h : IndepFun p q ρ) :
    IndepFun (fun ω : E × Y => (f ω.1, p ω.2)) (fun ω : E × Y => q ω.2) (ν.prod ρ) := by
  have i1 : IsProbabilityMeasure (ν.map f) := Measure.isProbabilityMeasure_map hf.aemeasurable
  have i2 : IsProbabilityMeasure (ρ.map p) := Measure.isProbabilityMeasure_map hp.aemeasurable
  have i3 : IsProbabilityMeasure (ρ.map q) := Measure.isProbabilityMeasure_map hq.aemeasurable
  rw [indepFun_iff_map_prod_eq_prod_map_map hp.aemeasurable hq.aemeasurable] at h
  have m1 : MeasurePreserving f ν (ν.map f) := ⟨hf, rfl⟩
  have m2 : MeasurePreserving (fun y => (p y, q y)) ρ ((ρ.map p).prod (ρ.map q)) := ⟨hp.prodMk hq, h⟩
  have m3 := (measurePreserving_prodAssoc (ν.map f) (ρ.map p) (ρ.map q)).symm.comp (m1.prod m2)
  have m4 : MeasurePreserving f ν (ν.map f) := ⟨hf, rfl⟩
  have m5 : MeasurePreserving p ρ (ρ.map p) := ⟨hp, rfl⟩
  have m6 : MeasurePreserving (fun ω : E × Y => q ω.2) (ν.prod ρ) (ρ.map q) := (show MeasurePreserving q ρ (ρ.map q) from ⟨hq, rfl⟩).comp measurePreserving_snd
  rw [indepFun_iff_map_prod_eq_prod_map_map (by fun_prop) (by fun_prop)]
  refine m3.map_eq.trans ?_
  rw [← (m4.prod m5).map_eq, ← m6.map_eq]
  rfl

/-- For any distribution of valid parameters there are a probability space, random parameters of that distribution, and for each of infinitely many calls a family of seeds that is
fresh: independent of the initial parameters and of the seeds of the earlier calls. -/
theorem fresh_chain {E S : Type} [MeasurableSpace E] (ν : Measure E) [IsProbabilityMeasure ν] {good : Set E} (hgood : MeasurableSet good) (hν : ∀ᵐ θ ∂ν, θ ∈ good) :
    ∃ (Ω : Type) (_ : MeasurableSpace Ω) (Pr : Measure Ω) (_ : IsProbabilityMeasure Pr) (θ : Ω → E) (x : ℕ → Ω → S → unitInterval), (∀ ω, θ ω ∈ good) ∧ HasLaw θ ν Pr ∧
      ∀ t, iIndepFun (fun σ ω => x t ω σ) Pr ∧ (∀ σ, HasLaw (fun ω => x t ω σ) volume Pr) ∧ IndepFun (fun ω => (θ ω, fun i : Fin t => x i ω)) (x t) Pr := by
  classical
  obtain ⟨θ₀, hθ₀⟩ : ∃ θ, θ ∈ good := hν.exists
  set ρ : Measure (ℕ × S → unitInterval) := Measure.infinitePi fun _ : ℕ × S => (volume : Measure unitInterval) with hρ
  set fix : E → E := fun θ => if θ ∈ good then θ else θ₀ with hfix
  have hae : fix =ᵐ[ν] id := by
    filter_upwards [hν] with θ hθ
    exact if_pos hθ
  have hfm : Measurable fix := Measurable.ite hgood measurable_id measurable_const
  have hlaw : HasLaw (fun ω : E × (ℕ × S → unitInterval) => fix ω.1) ν (ν.prod ρ) := by
    refine ⟨(hfm.comp measurable_fst).aemeasurable, ?_⟩
    rw [show (fun ω : E × (ℕ × S → unitInterval) => fix ω.1) = fix ∘ Prod.fst from rfl, ← Measure.map_map hfm measurable_fst, Measure.map_fst_prod, measure_univ, one_smul,
      Measure.map_congr hae, Measure.map_id]
  have hsnd : (ν.prod ρ).map Prod.snd = ρ := by rw [Measure.map_snd_prod, measure_univ, one_smul]
  have hl : ∀ a, HasLaw (fun ω : E × (ℕ × S → unitInterval) => ω.2 a) volume (ν.prod ρ) := by
    intro a
    refine ⟨by fun_prop, ?_⟩
    rw [show (fun ω : E × (ℕ × S → unitInterval) => ω.2 a) = (fun y : ℕ × S → unitInterval => y a) ∘ Prod.snd from rfl, ← Measure.map_map (by fun_prop) measurable_snd, hsnd]
    exact (measurePreserving_eval_infinitePi (fun _ : ℕ × S => (volume : Measure unitInterval)) a).map_eq
  have hind : iIndepFun (fun (a : ℕ × S) (ω : E × (ℕ × S → unitInterval)) => ω.2 a) (ν.prod ρ) := by
    rw [iIndepFun_iff_map_fun_eq_infinitePi_map (by fun_prop)]
    rw [show (fun (ω : E × (ℕ × S → unitInterval)) i => ω.2 i) = Prod.snd from rfl, hsnd]
    simp only [(hl _).map_eq]
    exact hρ
  have hcall : iIndepFun (fun (t : ℕ) (y : ℕ × S → unitInterval) => fun σ => y (t, σ)) ρ := by
    rw [iIndepFun_iff_map_fun_eq_infinitePi_map (by fun_prop)]
    have h1 : ρ.map (fun (y : ℕ × S → unitInterval) (t : ℕ) (σ : S) => y (t, σ)) = Measure.infinitePi fun _ : ℕ => Measure.infinitePi fun _ : S => (volume : Measure unitInterval) :=
      Measure.infinitePi_map_curry (ι := ℕ) (κ := S) (X := unitInterval) (fun _ _ => (volume : Measure unitInterval))
    have h2 : ∀ t : ℕ, ρ.map (fun (y : ℕ × S → unitInterval) (σ : S) => y (t, σ)) = Measure.infinitePi fun _ : S => (volume : Measure unitInterval) := by
      intro t
      rw [show (fun (y : ℕ × S → unitInterval) (σ : S) => y (t, σ)) = (fun z : ℕ → S → unitInterval => z t) ∘ (fun (y : ℕ × S → unitInterval) (t : ℕ) (σ : S) => y (t, σ)) from rfl,
        ← Measure.map_map (by fun_prop) (by fun_prop), h1]
      exact (measurePreserving_eval_infinitePi (fun _ : ℕ => Measure.infinitePi fun _ : S => (volume : Measure unitInterval)) t).map_eq
    simp only [h2]
    exact h1
  have hpast : ∀ t : ℕ, IndepFun (fun (y : ℕ × S → unitInterval) (i : Fin t) (σ : S) => y ((i : ℕ), σ)) (fun (y : ℕ × S → unitInterval) (σ : S) => y (t, σ)) ρ := by
    intro t
    have h1 := hcall.indepFun_finset (Finset.range t) {t} (by simp) (fun i => by fun_prop)
    exact h1.comp (φ := fun (z : Finset.range t → S → unitInterval) (i : Fin t) => z ⟨i, Finset.mem_range.2 i.2⟩) (ψ := fun (z : ({t} : Finset ℕ) → S → unitInterval) => z ⟨t, Finset.mem_singleton_self t⟩)
      (by fun_prop) (by fun_prop)
  refine ⟨E × (ℕ × S → unitInterval), inferInstance, ν.prod ρ, inferInstance, fun ω => fix ω.1, fun t ω σ => ω.2 (t, σ), fun ω => ?_, hlaw, fun t => ⟨?_, fun σ => hl (t, σ), ?_⟩⟩
  · rw [hfix]; dsimp only
    split_ifs with hω
    · exact hω
    · exact hθ₀
  · exact hind.precomp (g := fun σ : S => (t, σ)) fun a b hab => (Prod.mk.inj hab).2
  · exact indep_extend hfm (by fun_prop) (by fun_prop) (hpast t)

section
variable {c : HawkesState} {n : ERFixed}

/-- **Non-vacuity of C83 for whole runs**: for every valid model there are a probability space, a random model object whose parameters have the posterior distribution, fresh seeds for each of
infinitely many calls, a random number generator and the resulting run, as `C83_chain_invariant` assumes them. -/
theorem C83_chain_hypotheses_met (h : CfgOk c n) (hF : FilteredFromEvents c.base.K c.base.B c.data) (huge : ℝ) (d : StepDraws) :
    ∃ (Ω : Type) (_ : MeasurableSpace Ω) (Pr : Measure Ω) (_ : IsProbabilityMeasure Pr) (G : Generator (volume : Measure unitInterval)) (s : ℕ → Ω → HawkesState) (x : ℕ → Ω → Site → unitInterval),
      (∀ ω, SameModel c n (s 0 ω) ∧ HyperOk (s 0 ω) ∧ ParamsOk (s 0 ω)) ∧
      (∀ t ω s', resampleModelSS huge (G.draws c.base.K c.base.B d (x t ω)) (s t ω) = .ok s' → s (t + 1) ω = s') ∧
      (∀ t, FreshSeeds volume Pr (fun ω => (theta c.base.K (s 0 ω), fun i : Fin t => x i ω)) (x t)) ∧ HasLaw (fun ω => theta c.base.K (s 0 ω)) (posterior c n) Pr := by
  obtain ⟨-, -, hpost⟩ := C83_posterior_proper h hF
  obtain ⟨G⟩ := C83_generator_exists
  obtain ⟨Ω, i1, Pr, i2, θ, x, h1, h2, h3⟩ := fresh_chain (S := Site) (posterior c n) measurableSet_thetaOk (posterior_valid h)
  have ht : ∀ ω, theta c.base.K (stateOf c n (θ ω)) = θ ω := fun ω => theta_stateOf _
  refine ⟨Ω, i1, Pr, i2, G, fun t ω => Nat.rec (stateOf c n (θ ω)) (fun t st => match resampleModelSS huge (G.draws c.base.K c.base.B d (x t ω)) st with | .ok s' => s' | .error _ => st) t, x, fun ω => stateOf_ok h (h1 ω), ?_, ?_, ?_⟩
  · intro t ω s' hs'
    dsimp only at hs' ⊢
    rw [hs']
  · intro t
    simp only [Nat.rec_zero, ht]
    exact ⟨(h3 t).1, (h3 t).2.1, (h3 t).2.2⟩
  · simp only [Nat.rec_zero, ht]
    exact h2

end

section
variable {c : HawkesState} {n : SBM}

/-- the same for one-block stochastic block models, as `C83_block_chain_invariant` assumes them -/
theorem C83_block_chain_hypotheses_met (h : CfgOkB c n) (hF : FilteredFromEvents c.base.K c.base.B c.data) (huge : ℝ) (d : StepDraws) :
    ∃ (Ω : Type) (_ : MeasurableSpace Ω) (Pr : Measure Ω) (_ : IsProbabilityMeasure Pr) (G : Generator (volume : Measure unitInterval)) (Bt : BetaSampler (volume : Measure unitInterval))
      (s : ℕ → Ω → HawkesState) (x : ℕ → Ω → SiteB → unitInterval),
      (∀ ω, SameModelB c n (s 0 ω) ∧ HyperOk (s 0 ω) ∧ ParamsOk (s 0 ω)) ∧
      (∀ t ω s', resampleModelSS huge (drawsB G Bt c.base.K c.base.B d (x t ω)) (s t ω) = .ok s' → s (t + 1) ω = s') ∧
      (∀ t, FreshSeedsB volume Pr (fun ω => (thetaB c.base.K (s 0 ω), fun i : Fin t => x i ω)) (x t)) ∧ HasLaw (fun ω => thetaB c.base.K (s 0 ω)) (posteriorB c n) Pr := by
  obtain ⟨-, -, hpost⟩ := C83_block_posterior_proper h hF
  obtain ⟨G⟩ := C83_generator_exists
  obtain ⟨Bt⟩ := C83_beta_sampler_exists
  obtain ⟨Ω, i1, Pr, i2, θ, x, h1, h2, h3⟩ := fresh_chain (S := SiteB) (posteriorB c n) measurableSet_thetaOkB (posteriorB_valid h)
  have ht : ∀ ω, thetaB c.base.K (stateOfB c n (θ ω)) = θ ω := fun ω => thetaB_stateOfB _
  refine ⟨Ω, i1, Pr, i2, G, Bt, fun t ω => Nat.rec (stateOfB c n (θ ω)) (fun t st => match resampleModelSS huge (drawsB G Bt c.base.K c.base.B d (x t ω)) st with | .ok s' => s' | .error _ => st) t, x,
    fun ω => stateOfB_ok h (h1 ω), ?_, ?_, ?_⟩
  · intro t ω s' hs'
    dsimp only at hs' ⊢
    rw [hs']
  · intro t
    simp only [Nat.rec_zero, ht]
    exact ⟨(h3 t).1, (h3 t).2.1, (h3 t).2.2⟩
  · simp only [Nat.rec_zero, ht]
    exact h2

end

section
variable {c : CTState} {n : ERFixed} {D : CTData}

/-- the same for the continuous-time model, as `C84_chain_invariant` assumes them -/
theorem C84_chain_hypotheses_met (h : CfgOkCT c n D) (huge : ℝ) (d : CTDraws) :
    ∃ (Ω : Type) (_ : MeasurableSpace Ω) (Pr : Measure Ω) (_ : IsProbabilityMeasure Pr) (G : Generator (volume : Measure unitInterval)) (N : NormalSampler (volume : Measure unitInterval))
      (s : ℕ → Ω → CTState) (x : ℕ → Ω → CTSite → unitInterval),
      (∀ ω, ValidCT c n (s 0 ω)) ∧ (∀ t ω s', ctResampleModel huge (ctDraws G N d (x t ω)) (s t ω) = .ok s' → s (t + 1) ω = s') ∧
      (∀ t, FreshSeedsCT volume Pr (fun ω => (thetaCT c.P.K (s 0 ω), fun i : Fin t => x i ω)) (x t)) ∧ HasLaw (fun ω => thetaCT c.P.K (s 0 ω)) (posteriorCT c n) Pr := by
  obtain ⟨-, -, hpost⟩ := C84_posterior_proper h
  obtain ⟨⟨G⟩, ⟨N⟩⟩ := C84_generator_exists
  obtain ⟨Ω, i1, Pr, i2, θ, x, h1, h2, h3⟩ := fresh_chain (S := CTSite) (posteriorCT c n) measurableSet_thetaCTOk (ct_posterior_valid h)
  have ht : ∀ ω, thetaCT c.P.K (stateOfCT c n (θ ω)) = θ ω := fun ω => thetaCT_stateOf _
  refine ⟨Ω, i1, Pr, i2, G, N, fun t ω => Nat.rec (stateOfCT c n (θ ω)) (fun t st => match ctResampleModel huge (ctDraws G N d (x t ω)) st with | .ok s' => s' | .error _ => st) t, x,
    fun ω => stateOfCT_ok h (h1 ω), ?_, ?_, ?_⟩
  · intro t ω s' hs'
    dsimp only at hs' ⊢
    rw [hs']
  · intro t
    simp only [Nat.rec_zero, ht]
    exact ⟨(h3 t).1, (h3 t).2.1, (h3 t).2.2⟩
  · simp only [Nat.rec_zero, ht]
    exact h2

end

end PyHawkes
