import Verif.Props.GibbsInvariant

/-!
# C83: `resample_model` leaves the posterior distribution invariant
-/
set_option linter.unusedSectionVars false
set_option linter.unusedVariables false

namespace PyHawkes
open Finset Spec MeasureTheory ProbabilityTheory

section
variable {U Ω : Type*} [MeasurableSpace U] [MeasurableSpace Ω] {μ : Measure U} {Pr : Measure Ω} (G : Generator μ) {c : HawkesState} {n : ERFixed}

/-- index of all in-range call sites -/
abbrev Calls (c : HawkesState) := Row c ⊕ Fin c.base.K ⊕ Pair c.base.K ⊕ Unit ⊕ Pair c.base.K ⊕ Pair c.base.K

/-- the call site of an index -/
def callSite (c : HawkesState) : Calls c → Site
  | .inl ρ => .parents ρ.2.1 ρ.1 ρ.2.2
  | .inr (.inl k) => .lam k
  | .inr (.inr (.inl e)) => .dir e.1 e.2
  | .inr (.inr (.inr (.inl _))) => .scale
  | .inr (.inr (.inr (.inr (.inl e)))) => .weight e.1 e.2
  | .inr (.inr (.inr (.inr (.inr e)))) => .unif e.1 e.2

theorem callSite_inj (c : HawkesState) : Function.Injective (callSite c) := by
  have pair : ∀ {e e' : Pair c.base.K}, (e.1 : ℕ) = e'.1 → (e.2 : ℕ) = e'.2 → e = e' := fun h1 h2 => Prod.ext (Fin.ext h1) (Fin.ext h2)
  rintro (⟨k, i, r⟩ | k | e | u | e | e) (⟨k', i', r'⟩ | k' | e' | u' | e' | e') h <;> simp only [callSite, Site.parents.injEq, Site.lam.injEq, Site.dir.injEq, Site.weight.injEq, Site.unif.injEq, reduceCtorEq] at h
  · obtain ⟨h1, h2, h3⟩ := h
    have hk := Fin.ext h2
    have hi := Fin.ext h1
    subst hk hi
    have hr := Fin.ext h3
    subst hr
    rfl
  · rw [Fin.ext h]
  · rw [pair h.1 h.2]
  · rfl
  · rw [pair h.1 h.2]
  · rw [pair h.1 h.2]

/-- the seeds from the indexed family -/
def unbundle (c : HawkesState) (y : Calls c → U) : Seeds c U :=
  (fun ρ => y (.inl ρ), fun k => y (.inr (.inl k)), fun e => y (.inr (.inr (.inl e))), y (.inr (.inr (.inr (.inl ())))), fun e => y (.inr (.inr (.inr (.inr (.inl e))))),
    fun e => y (.inr (.inr (.inr (.inr (.inr e))))))

theorem unbundle_law [IsProbabilityMeasure μ] : MeasurePreserving (unbundle c) (Measure.pi fun _ : Calls c => μ) (seedLaw c μ) := by
  have split : ∀ (ι ι' : Type) [Fintype ι] [Fintype ι'], MeasurePreserving (fun y : ι ⊕ ι' → U => ((fun i => y (.inl i) : ι → U), (fun i => y (.inr i) : ι' → U)))
      (Measure.pi fun _ => μ) ((Measure.pi fun _ => μ).prod (Measure.pi fun _ => μ)) := fun ι ι' _ _ => measurePreserving_sumPiEquivProdPi (X := fun _ => U) fun _ => μ
  have h5 := split (Pair c.base.K) (Pair c.base.K)
  have hu : MeasurePreserving (fun y : Unit → U => y ()) (Measure.pi fun _ => μ) μ := measurePreserving_funUnique μ Unit
  have h4 := (hu.prod h5).comp (split Unit (Pair c.base.K ⊕ Pair c.base.K))
  have h3 := ((MeasurePreserving.id (Measure.pi fun _ : Pair c.base.K => μ)).prod h4).comp (split (Pair c.base.K) (Unit ⊕ Pair c.base.K ⊕ Pair c.base.K))
  have h2 := ((MeasurePreserving.id (Measure.pi fun _ : Fin c.base.K => μ)).prod h3).comp (split (Fin c.base.K) (Pair c.base.K ⊕ Unit ⊕ Pair c.base.K ⊕ Pair c.base.K))
  exact ((MeasurePreserving.id (Measure.pi fun _ : Row c => μ)).prod h2).comp (split (Row c) (Fin c.base.K ⊕ Pair c.base.K ⊕ Unit ⊕ Pair c.base.K ⊕ Pair c.base.K))

theorem seeds_law [IsProbabilityMeasure μ] [IsProbabilityMeasure Pr] {x : Ω → Site → U} (hi : iIndepFun (fun σ ω => x ω σ) Pr) (hl : ∀ σ, HasLaw (fun ω => x ω σ) μ Pr) :
    HasLaw (fun ω => seedsOf c (x ω)) (seedLaw c μ) Pr := by
  have h1 : iIndepFun (fun (a : Calls c) ω => x ω (callSite c a)) Pr := hi.precomp (callSite_inj c)
  have h2 : HasLaw (fun ω (a : Calls c) => x ω (callSite c a)) (Measure.pi fun _ => μ) Pr := iIndepFun.hasLaw_pi (fun a => hl _) h1
  exact (unbundle_law (c := c) (μ := μ)).fun_comp_hasLaw h2

theorem measurable_seedsOf : Measurable fun x : Site → U => seedsOf c x := by unfold seedsOf; fun_prop

/-- a measure-preserving update with independent randomness -/
theorem hasLaw_step {E S : Type*} [MeasurableSpace E] [MeasurableSpace S] [IsProbabilityMeasure Pr] {ν : Measure E} {σ : Measure S} {Φ : E → S → E}
    (hΦ : Measurable fun y : E × S => Φ y.1 y.2) (hm : (ν.prod σ).map (fun y => Φ y.1 y.2) = ν)
    {θ : Ω → E} {x : Ω → S} (hθ : HasLaw θ ν Pr) (hx : HasLaw x σ Pr) (hi : IndepFun θ x Pr) : HasLaw (fun ω => Φ (θ ω) (x ω)) ν Pr := by
  have hp := (indepFun_iff_hasLaw_prodMk_prod hθ hx).1 hi
  have hl : HasLaw (fun y : E × S => Φ y.1 y.2) ν (ν.prod σ) := ⟨hΦ.aemeasurable, hm⟩
  exact hl.fun_comp hp

/-- the law of the parameters after one call -/
theorem sweep_law [IsProbabilityMeasure Pr] (h : CfgOk c n) {θ : Ω → Theta c.base.K} {x : Ω → Site → U}
    (hi : iIndepFun (fun σ ω => x ω σ) Pr) (hl : ∀ σ, HasLaw (fun ω => x ω σ) μ Pr) (hf : IndepFun θ x Pr)
    (hθ : HasLaw θ (posterior c n) Pr) : HasLaw (fun ω => sweepStep G c n (θ ω) (seedsOf c (x ω))) (posterior c n) Pr := by
  have hμ := gen_prob G
  have hs := seeds_law (c := c) hi hl
  exact hasLaw_step (measurable_sweepStep G h) (posterior_map G h) hθ hs (hf.comp measurable_id measurable_seedsOf)

/-- **C83**: if the parameters of the model have the posterior distribution, then `resample_model` succeeds and the parameters it leaves have the posterior distribution. -/
theorem C83_posterior_invariant [IsProbabilityMeasure Pr] (h : CfgOk c n) (huge : ℝ) (d : Ω → StepDraws) (hd : ∀ ω, DrawsOk c.base.K c.base.B 1 (d ω))
    (s : Ω → HawkesState) (hs : ∀ ω, SameModel c n (s ω) ∧ HyperOk (s ω) ∧ ParamsOk (s ω)) (x : Ω → Site → U)
    (hx : FreshSeeds μ Pr (fun ω => theta c.base.K (s ω)) x) (hlaw : HasLaw (fun ω => theta c.base.K (s ω)) (posterior c n) Pr) :
    ∃ s' : Ω → HawkesState, (∀ ω, resampleModelSS huge (G.draws c.base.K c.base.B (d ω) (x ω)) (s ω) = .ok (s' ω) ∧ SameModel c n (s' ω) ∧ HyperOk (s' ω) ∧ ParamsOk (s' ω)) ∧
      HasLaw (fun ω => theta c.base.K (s' ω)) (posterior c n) Pr := by
  choose s' h1 h2 h3 h4 h5 using fun ω => sweep_eq G c n huge (d ω) (hd ω) h.B (s ω) (hs ω).1 (hs ω).2.1 (hs ω).2.2 h.data (x ω)
  refine ⟨s', fun ω => ⟨h1 ω, h2 ω, h3 ω, h4 ω⟩, ?_⟩
  have := sweep_law G h hx.indep hx.law hx.fresh hlaw
  have e : (fun ω => theta c.base.K (s' ω)) = fun ω => sweepStep G c n (theta c.base.K (s ω)) (seedsOf c (x ω)) := funext h5
  rw [e]
  exact this

/-- **C83**, whole runs: `T` successive calls of `resample_model`, the seeds of each call fresh -/
theorem C83_chain_invariant [IsProbabilityMeasure Pr] (h : CfgOk c n) (huge : ℝ) (d : ℕ → Ω → StepDraws) (hd : ∀ t ω, DrawsOk c.base.K c.base.B 1 (d t ω))
    (s : ℕ → Ω → HawkesState) (hs : ∀ ω, SameModel c n (s 0 ω) ∧ HyperOk (s 0 ω) ∧ ParamsOk (s 0 ω)) (x : ℕ → Ω → Site → U)
    (hrun : ∀ t ω s', resampleModelSS huge (G.draws c.base.K c.base.B (d t ω) (x t ω)) (s t ω) = .ok s' → s (t + 1) ω = s')
    (hx : ∀ t, FreshSeeds μ Pr (fun ω => (theta c.base.K (s 0 ω), fun i : Fin t => x i ω)) (x t))
    (hlaw : HasLaw (fun ω => theta c.base.K (s 0 ω)) (posterior c n) Pr) (t : ℕ) :
    (∀ ω, resampleModelSS huge (G.draws c.base.K c.base.B (d t ω) (x t ω)) (s t ω) = .ok (s (t + 1) ω)) ∧ HasLaw (fun ω => theta c.base.K (s t ω)) (posterior c n) Pr := by
  have key : ∀ t, (∀ ω, SameModel c n (s t ω) ∧ HyperOk (s t ω) ∧ ParamsOk (s t ω)) ∧ HasLaw (fun ω => theta c.base.K (s t ω)) (posterior c n) Pr ∧
      ∃ Φ : Theta c.base.K × (Fin t → Site → U) → Theta c.base.K, Measurable Φ ∧ ∀ ω, theta c.base.K (s t ω) = Φ (theta c.base.K (s 0 ω), fun i : Fin t => x i ω) := by
    intro t
    induction t with
    | zero => exact ⟨hs, hlaw, Prod.fst, measurable_fst, fun ω => rfl⟩
    | succ t ih =>
      obtain ⟨ih1, ih2, Φ, hΦ, hΦe⟩ := ih
      choose s' h1 h2 h3 h4 h5 using fun ω => sweep_eq G c n huge (d t ω) (hd t ω) h.B (s t ω) (ih1 ω).1 (ih1 ω).2.1 (ih1 ω).2.2 h.data (x t ω)
      have es : ∀ ω, s (t + 1) ω = s' ω := fun ω => hrun t ω _ (h1 ω)
      have e : ∀ ω, theta c.base.K (s (t + 1) ω) = sweepStep G c n (theta c.base.K (s t ω)) (seedsOf c (x t ω)) := fun ω => by rw [es]; exact h5 ω
      have hfr : IndepFun (fun ω => theta c.base.K (s t ω)) (x t) Pr := by
        have := (hx t).fresh.comp hΦ measurable_id
        have e' : (fun ω => theta c.base.K (s t ω)) = Φ ∘ fun ω => (theta c.base.K (s 0 ω), fun i : Fin t => x i ω) := funext hΦe
        rw [e']; exact this
      refine ⟨fun ω => by rw [es]; exact ⟨h2 ω, h3 ω, h4 ω⟩, ?_, ?_⟩
      · rw [show (fun ω => theta c.base.K (s (t + 1) ω)) = _ from funext e]
        exact sweep_law G h (hx t).indep (hx t).law hfr ih2
      · refine ⟨fun y => sweepStep G c n (Φ (y.1, fun i => y.2 i.castSucc)) (seedsOf c (y.2 (Fin.last t))), ?_, fun ω => ?_⟩
        · refine (measurable_sweepStep G h).comp (f := fun y : Theta c.base.K × (Fin (t + 1) → Site → U) => (Φ (y.1, fun i => y.2 i.castSucc), seedsOf c (y.2 (Fin.last t)))) ?_
          refine (hΦ.comp (f := fun y : Theta c.base.K × (Fin (t + 1) → Site → U) => (y.1, fun i : Fin t => y.2 i.castSucc)) (by fun_prop)).prodMk ?_
          exact measurable_seedsOf.comp (f := fun y : Theta c.base.K × (Fin (t + 1) → Site → U) => y.2 (Fin.last t)) (by fun_prop)
        · rw [e, hΦe]; rfl
  refine ⟨fun ω => ?_, (key t).2.1⟩
  obtain ⟨h1, -⟩ := key t
  obtain ⟨s', hr, -⟩ := sweep_eq G c n huge (d t ω) (hd t ω) h.B (s t ω) (h1 ω).1 (h1 ω).2.1 (h1 ω).2.2 h.data (x t ω)
  rw [hrun t ω _ hr]; exact hr

end

end PyHawkes
