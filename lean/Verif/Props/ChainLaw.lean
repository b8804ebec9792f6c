import Verif.Props.GibbsPosterior

/-!
# Whole runs of a sampler whose single call is a measurable function of parameters and seeds (used for C83, C84, C85)
-/
set_option linter.unusedSectionVars false
set_option linter.unusedVariables false

namespace PyHawkes
open MeasureTheory ProbabilityTheory

section
variable {Ω Θ Sd S U St : Type*} [MeasurableSpace Ω] [MeasurableSpace Θ] [MeasurableSpace Sd] [MeasurableSpace U] {Pr : Measure Ω} [IsProbabilityMeasure Pr] {μ : Measure U}
  {post : Measure Θ} {sl : Measure Sd} {sweep : Θ → Sd → Θ} (ms : Measurable fun y : Θ × Sd => sweep y.1 y.2) (hmap : (post.prod sl).map (fun y => sweep y.1 y.2) = post)
  {seeds : (S → U) → Sd} (mseeds : Measurable seeds)
  (hseeds : ∀ x : Ω → S → U, iIndepFun (fun σ ω => x ω σ) Pr → (∀ σ, HasLaw (fun ω => x ω σ) μ Pr) → HasLaw (fun ω => seeds (x ω)) sl Pr)
  {par : St → Θ} {valid : St → Prop}

include ms hmap mseeds hseeds

/-- one call -/
theorem call_law {run : Ω → (S → U) → St → Except PyErr St} (step : ∀ ω s, valid s → ∀ x, ∃ s', run ω x s = .ok s' ∧ valid s' ∧ par s' = sweep (par s) (seeds x))
    {s : Ω → St} (hs : ∀ ω, valid (s ω)) {x : Ω → S → U} (hi : iIndepFun (fun σ ω => x ω σ) Pr) (hl : ∀ σ, HasLaw (fun ω => x ω σ) μ Pr) (hf : IndepFun (fun ω => par (s ω)) x Pr)
    (hlaw : HasLaw (fun ω => par (s ω)) post Pr) :
    ∃ s' : Ω → St, (∀ ω, run ω (x ω) (s ω) = .ok (s' ω) ∧ valid (s' ω)) ∧ HasLaw (fun ω => par (s' ω)) post Pr := by
  choose s' h1 h2 h3 using fun ω => step ω (s ω) (hs ω) (x ω)
  refine ⟨s', fun ω => ⟨h1 ω, h2 ω⟩, ?_⟩
  rw [show (fun ω => par (s' ω)) = _ from funext h3]
  exact hasLaw_step ms hmap hlaw (hseeds x hi hl) (hf.comp measurable_id mseeds)

/-- successive calls, the seeds of each call fresh -/
theorem chain_law {run : ℕ → Ω → (S → U) → St → Except PyErr St} (step : ∀ t ω s, valid s → ∀ x, ∃ s', run t ω x s = .ok s' ∧ valid s' ∧ par s' = sweep (par s) (seeds x))
    {s : ℕ → Ω → St} (hs : ∀ ω, valid (s 0 ω)) {x : ℕ → Ω → S → U} (hrun : ∀ t ω s', run t ω (x t ω) (s t ω) = .ok s' → s (t + 1) ω = s')
    (hi : ∀ t, iIndepFun (fun σ ω => x t ω σ) Pr) (hl : ∀ t σ, HasLaw (fun ω => x t ω σ) μ Pr) (hf : ∀ t, IndepFun (fun ω => (par (s 0 ω), fun i : Fin t => x i ω)) (x t) Pr)
    (hlaw : HasLaw (fun ω => par (s 0 ω)) post Pr) (t : ℕ) :
    (∀ ω, run t ω (x t ω) (s t ω) = .ok (s (t + 1) ω)) ∧ HasLaw (fun ω => par (s t ω)) post Pr := by
  have key : ∀ t, (∀ ω, valid (s t ω)) ∧ HasLaw (fun ω => par (s t ω)) post Pr ∧
      ∃ Φ : Θ × (Fin t → S → U) → Θ, Measurable Φ ∧ ∀ ω, par (s t ω) = Φ (par (s 0 ω), fun i : Fin t => x i ω) := by
    intro t
    induction t with
    | zero => exact ⟨hs, hlaw, Prod.fst, measurable_fst, fun ω => rfl⟩
    | succ t ih =>
      obtain ⟨ih1, ih2, Φ, hΦ, hΦe⟩ := ih
      choose s' h1 h2 h3 using fun ω => step t ω (s t ω) (ih1 ω) (x t ω)
      have es : ∀ ω, s (t + 1) ω = s' ω := fun ω => hrun t ω _ (h1 ω)
      have e : ∀ ω, par (s (t + 1) ω) = sweep (par (s t ω)) (seeds (x t ω)) := fun ω => by rw [es]; exact h3 ω
      have hfr : IndepFun (fun ω => par (s t ω)) (x t) Pr := by
        have := (hf t).comp hΦ measurable_id
        have e' : (fun ω => par (s t ω)) = Φ ∘ fun ω => (par (s 0 ω), fun i : Fin t => x i ω) := funext hΦe
        rw [e']; exact this
      refine ⟨fun ω => by rw [es]; exact h2 ω, ?_, ?_⟩
      · rw [show (fun ω => par (s (t + 1) ω)) = _ from funext e]
        exact hasLaw_step ms hmap ih2 (hseeds (x t) (hi t) (hl t)) (hfr.comp measurable_id mseeds)
      · refine ⟨fun y => sweep (Φ (y.1, fun i => y.2 i.castSucc)) (seeds (y.2 (Fin.last t))), ?_, fun ω => ?_⟩
        · refine ms.comp (f := fun y : Θ × (Fin (t + 1) → S → U) => (Φ (y.1, fun i => y.2 i.castSucc), seeds (y.2 (Fin.last t)))) ?_
          refine (hΦ.comp (f := fun y : Θ × (Fin (t + 1) → S → U) => (y.1, fun i : Fin t => y.2 i.castSucc)) (by fun_prop)).prodMk ?_
          exact mseeds.comp (f := fun y : Θ × (Fin (t + 1) → S → U) => y.2 (Fin.last t)) (by fun_prop)
        · rw [e, hΦe]; rfl
  refine ⟨fun ω => ?_, (key t).2.1⟩
  obtain ⟨s', hr, -⟩ := step t ω (s t ω) ((key t).1 ω) (x t ω)
  rw [hrun t ω _ hr]; exact hr

end

end PyHawkes
