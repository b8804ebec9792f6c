import Verif.Props.ChainLaw
import Verif.Props.Ergodic
import Verif.Props.NetErgodic
import Verif.Spec.Converge

/-!
# Runs of a sampler started in any valid state converge to the posterior (used for C94)
-/
set_option linter.unusedSectionVars false
set_option linter.unusedVariables false

namespace PyHawkes
open Spec MeasureTheory ProbabilityTheory

theorem convergesTV_of {E : Type*} [MeasurableSpace E] {m : ℕ → Measure E} {π : Measure E} (hm : ∀ t, IsProbabilityMeasure (m t)) [IsProbabilityMeasure π]
    (h : ∀ ε : ENNReal, ε ≠ 0 → ∃ N, ∀ n, N ≤ n → ∀ s, m n s ≤ π s + ε ∧ π s ≤ m n s + ε) : ConvergesTV m π := by
  intro ε hε
  obtain ⟨N, hN⟩ := h (ENNReal.ofReal ε) (by rw [ne_eq, ENNReal.ofReal_eq_zero]; exact not_le.2 hε)
  refine ⟨N, fun t ht B _ => ?_⟩
  obtain ⟨h1, h2⟩ := hN t ht B
  have key : ∀ {ν ρ : Measure E} [IsProbabilityMeasure ν] [IsProbabilityMeasure ρ], ν B ≤ ρ B + ENNReal.ofReal ε → ν.real B ≤ ρ.real B + ε := by
    intro ν ρ _ _ hle
    have := ENNReal.toReal_mono (ENNReal.add_ne_top.2 ⟨measure_ne_top ρ B, ENNReal.ofReal_ne_top⟩) hle
    rwa [ENNReal.toReal_add (measure_ne_top ρ B) ENNReal.ofReal_ne_top, ENNReal.toReal_ofReal hε.le] at this
  have := hm t
  have a := key h1
  have b := key h2
  rw [abs_le]
  constructor <;> linarith

section
variable {Ω Θ Sd S U St : Type*} [MeasurableSpace Ω] [MeasurableSpace Θ] [MeasurableSpace Sd] [MeasurableSpace U] {Pr : Measure Ω} [IsProbabilityMeasure Pr] {μ : Measure U}
  {post : Measure Θ} [IsProbabilityMeasure post] {sl : Measure Sd} [IsProbabilityMeasure sl] {sweep : Θ → Sd → Θ} (ms : Measurable fun y : Θ × Sd => sweep y.1 y.2)
  (hmap : (post.prod sl).map (fun y => sweep y.1 y.2) = post)
  {D : Set Θ} (hD : MeasurableSet D) (hpD : ∀ᵐ θ ∂post, θ ∈ D) (hle : ∀ θ ∈ D, sl.map (sweep θ) ≪ post) (hge : ∀ θ ∈ D, post ≪ sl.map (sweep θ))
  {seeds : (S → U) → Sd} (mseeds : Measurable seeds)
  (hseeds : ∀ x : Ω → S → U, iIndepFun (fun σ ω => x ω σ) Pr → (∀ σ, HasLaw (fun ω => x ω σ) μ Pr) → HasLaw (fun ω => seeds (x ω)) sl Pr)
  {par : St → Θ} {valid : St → Prop} [MeasurableSpace.CountablyGenerated Θ]

include ms hmap hD hpD hle hge mseeds hseeds in
/-- successive calls started in any valid state -/
theorem chain_converge {run : ℕ → Ω → (S → U) → St → Except PyErr St} (step : ∀ t ω s, valid s → ∀ x, ∃ s', run t ω x s = .ok s' ∧ valid s' ∧ par s' = sweep (par s) (seeds x))
    {s : ℕ → Ω → St} (hs : ∀ ω, valid (s 0 ω)) (hs0 : ∀ ω, par (s 0 ω) ∈ D) (hm0 : AEMeasurable (fun ω => par (s 0 ω)) Pr)
    {x : ℕ → Ω → S → U} (hrun : ∀ t ω s', run t ω (x t ω) (s t ω) = .ok s' → s (t + 1) ω = s')
    (hi : ∀ t, iIndepFun (fun σ ω => x t ω σ) Pr) (hl : ∀ t σ, HasLaw (fun ω => x t ω σ) μ Pr) (hf : ∀ t, IndepFun (fun ω => (par (s 0 ω), fun i : Fin t => x i ω)) (x t) Pr) :
    (∀ t ω, run t ω (x t ω) (s t ω) = .ok (s (t + 1) ω) ∧ valid (s (t + 1) ω)) ∧ ConvergesTV (fun t => Pr.map fun ω => par (s t ω)) post := by
  have key : ∀ t, (∀ ω, valid (s t ω)) ∧ AEMeasurable (fun ω => par (s t ω)) Pr ∧
      ∃ Φ : Θ × (Fin t → S → U) → Θ, Measurable Φ ∧ ∀ ω, par (s t ω) = Φ (par (s 0 ω), fun i : Fin t => x i ω) := by
    intro t
    induction t with
    | zero => exact ⟨hs, hm0, Prod.fst, measurable_fst, fun ω => rfl⟩
    | succ t ih =>
      obtain ⟨ih1, ih2, Φ, hΦ, hΦe⟩ := ih
      choose s' h1 h2 h3 using fun ω => step t ω (s t ω) (ih1 ω) (x t ω)
      have es : ∀ ω, s (t + 1) ω = s' ω := fun ω => hrun t ω _ (h1 ω)
      have e : ∀ ω, par (s (t + 1) ω) = sweep (par (s t ω)) (seeds (x t ω)) := fun ω => by rw [es]; exact h3 ω
      refine ⟨fun ω => by rw [es]; exact h2 ω, ?_, ?_⟩
      · rw [show (fun ω => par (s (t + 1) ω)) = _ from funext e]
        exact ms.comp_aemeasurable (ih2.prodMk (hseeds (x t) (hi t) (hl t)).aemeasurable)
      · refine ⟨fun y => sweep (Φ (y.1, fun i => y.2 i.castSucc)) (seeds (y.2 (Fin.last t))), ?_, fun ω => ?_⟩
        · refine ms.comp (f := fun y : Θ × (Fin (t + 1) → S → U) => (Φ (y.1, fun i => y.2 i.castSucc), seeds (y.2 (Fin.last t)))) ?_
          refine (hΦ.comp (f := fun y : Θ × (Fin (t + 1) → S → U) => (y.1, fun i : Fin t => y.2 i.castSucc)) (by fun_prop)).prodMk ?_
          exact mseeds.comp (f := fun y : Θ × (Fin (t + 1) → S → U) => y.2 (Fin.last t)) (by fun_prop)
        · rw [e, hΦe]; rfl
  have ok : ∀ t ω, run t ω (x t ω) (s t ω) = .ok (s (t + 1) ω) := fun t ω => by
    obtain ⟨s', hr, -⟩ := step t ω (s t ω) ((key t).1 ω) (x t ω)
    rw [hrun t ω _ hr]; exact hr
  refine ⟨fun t ω => ⟨ok t ω, (key (t + 1)).1 ω⟩, ?_⟩
  have hpr : ∀ t, IsProbabilityMeasure (Pr.map fun ω => par (s t ω)) := fun t => Measure.isProbabilityMeasure_map (key t).2.1
  refine convergesTV_of hpr ?_
  have hm0' : ∀ᵐ θ ∂Pr.map (fun ω => par (s 0 ω)), θ ∈ D := (ae_map_iff hm0 hD).2 (Filter.Eventually.of_forall hs0)
  refine ergodic_chain (f := fun y : Θ × Sd => sweep y.1 y.2) ms hD hmap hpD hle hge (m := fun t => Pr.map fun ω => par (s t ω)) hm0' fun t => ?_
  obtain ⟨h1, h2, Φ, hΦ, hΦe⟩ := key t
  have hfr : IndepFun (fun ω => par (s t ω)) (x t) Pr := by
    have := (hf t).comp hΦ measurable_id
    have e' : (fun ω => par (s t ω)) = Φ ∘ fun ω => (par (s 0 ω), fun i : Fin t => x i ω) := funext hΦe
    rw [e']; exact this
  have e : ∀ ω, par (s (t + 1) ω) = sweep (par (s t ω)) (seeds (x t ω)) := fun ω => by
    obtain ⟨s', hr, -, hp⟩ := step t ω (s t ω) (h1 ω) (x t ω)
    rw [hrun t ω _ hr]; exact hp
  have hsd := hseeds (x t) (hi t) (hl t)
  have hθ : HasLaw (fun ω => par (s t ω)) (Pr.map fun ω => par (s t ω)) Pr := ⟨h2, rfl⟩
  have hp := (indepFun_iff_hasLaw_prodMk_prod hθ hsd).1 (hfr.comp measurable_id mseeds)
  change Pr.map (fun ω => par (s (t + 1) ω)) = _
  rw [show (fun ω => par (s (t + 1) ω)) = (fun y : Θ × Sd => sweep y.1 y.2) ∘ fun ω => (par (s t ω), seeds (x t ω)) from funext e, ← AEMeasurable.map_map_of_aemeasurable ms.aemeasurable hp.aemeasurable]
  congr 1
  exact hp.map_eq

end

section
variable {Ω Θ Sd : Type*} [MeasurableSpace Ω] [MeasurableSpace Θ] [MeasurableSpace Sd] {Pr : Measure Ω} [IsProbabilityMeasure Pr]
  {post : Measure Θ} [IsProbabilityMeasure post] {sl : Measure Sd} [IsProbabilityMeasure sl] {sweep : Θ → Sd → Θ} (ms : Measurable fun y : Θ × Sd => sweep y.1 y.2)
  (hmap : (post.prod sl).map (fun y => sweep y.1 y.2) = post)
  {D : Set Θ} (hD : MeasurableSet D) (hpD : ∀ᵐ θ ∂post, θ ∈ D) (hle : ∀ θ ∈ D, sl.map (sweep θ) ≪ post) (hge : ∀ θ ∈ D, post ≪ sl.map (sweep θ)) [MeasurableSpace.CountablyGenerated Θ]

include ms hmap hD hpD hle hge in
/-- one call that leaves a distribution unchanged -/
theorem stationary_unique {ρ : Measure Θ} {θ : Ω → Θ} {x : Ω → Sd} (hθ : HasLaw θ ρ Pr) (hθD : ∀ ω, θ ω ∈ D) (hx : HasLaw x sl Pr) (hi : IndepFun θ x Pr)
    (hθ' : HasLaw (fun ω => sweep (θ ω) (x ω)) ρ Pr) : ρ = post := by
  have hpr : IsProbabilityMeasure ρ := by rw [← hθ.map_eq]; exact Measure.isProbabilityMeasure_map hθ.aemeasurable
  have hρD : ∀ᵐ θ ∂ρ, θ ∈ D := by
    rw [← hθ.map_eq]
    exact (ae_map_iff hθ.aemeasurable hD).2 (Filter.Eventually.of_forall hθD)
  refine ergodic_unique (f := fun y : Θ × Sd => sweep y.1 y.2) ms hD hmap hpD hle hge hρD ?_
  have hp := (indepFun_iff_hasLaw_prodMk_prod hθ hx).1 hi
  rw [← hp.map_eq, AEMeasurable.map_map_of_aemeasurable ms.aemeasurable hp.aemeasurable]
  exact hθ'.map_eq

end

theorem cg_prod {α β : Type*} [MeasurableSpace α] [MeasurableSpace β] (h1 : MeasurableSpace.CountablyGenerated α) (h2 : MeasurableSpace.CountablyGenerated β) :
    MeasurableSpace.CountablyGenerated (α × β) := inferInstance

/-! ### the null sets of one call -/

section
variable {U V N Φ Z X Y : Type*} [MeasurableSpace U] [MeasurableSpace V] [MeasurableSpace N] [MeasurableSpace Φ] [MeasurableSpace Z] [MeasurableSpace X] [MeasurableSpace Y]
  {K : ℕ} {S : AugSys K Φ Z X Y} {Q : NetSys K N V} {μ : Measure U} (G : Generator μ) [Countable Z] [MeasurableSingletonClass Z] (h : S.Ok) (hQ : Q.Ok) {DN : Set N} {DΦ : Set Φ}

/-- a posterior has the null sets of the prior -/
theorem post_zero_iff {E : Type*} [MeasurableSpace E] {p : Measure E} [SFinite p] {l : E → ENNReal} (ml : Measurable l) (hl : ∀ θ, l θ ≠ 0) (hT : ∫⁻ θ, l θ ∂p ≠ ⊤)
    (h0 : ∫⁻ θ, l θ ∂p ≠ 0) (s : Set E) : ((∫⁻ θ, l θ ∂p)⁻¹ • p.withDensity l) s = 0 ↔ p s = 0 := by
  rw [Measure.smul_apply, smul_eq_mul, mul_eq_zero]
  constructor
  · rintro (h | h)
    · exact absurd h (ENNReal.inv_ne_zero.2 hT)
    · rw [withDensity_apply_eq_zero' ml.aemeasurable] at h
      convert h using 2
      ext θ; simp [hl θ]
  · exact fun h => .inr (withDensity_absolutelyContinuous _ _ h)

include h hQ in
theorem netPosterior_ac (pS : S.Pos DΦ) (pQ : Q.Pos DN) (h0 : ∫⁻ θ, netLik S θ ∂netPrior S Q ≠ 0) (hT : ∫⁻ θ, netLik S θ ∂netPrior S Q ≠ ⊤) {θ : NetTheta K N Φ} (hθ : θ ∈ netValid K DN DΦ) :
    (netSeedLaw S Q μ).map (netSweep S Q G θ) ≪ netPosterior S Q ∧ netPosterior S Q ≪ (netSeedLaw S Q μ).map (netSweep S Q G θ) := by
  have hsf := netPrior_sfinite h hQ
  have ms : Measurable (netSweep S Q G θ) := (netSweep_meas G h hQ).comp (f := fun x => (θ, x)) (by fun_prop)
  have key : ∀ s, MeasurableSet s → ((netSeedLaw S Q μ).map (netSweep S Q G θ) s = 0 ↔ netPosterior S Q s = 0) := by
    intro s hs
    unfold netPosterior
    rw [post_zero_iff (netLik_meas h) (fun θ => by unfold netLik; rw [ne_eq, ENNReal.ofReal_eq_zero]; exact not_le.2 (h.L_pos _ _ _)) hT h0]
    have := netSweep_null G h hQ pS pQ hθ (T := s.indicator 1) (measurable_one.indicator hs)
    rw [lintegral_indicator_one hs] at this
    rw [← this, ← lintegral_indicator_one hs, lintegral_map (measurable_one.indicator hs) ms]
  exact ⟨Measure.AbsolutelyContinuous.mk fun s hs h0 => (key s hs).2 h0, Measure.AbsolutelyContinuous.mk fun s hs h0 => (key s hs).1 h0⟩

include h hQ in
theorem netPosterior_valid (pS : S.Pos DΦ) (pQ : Q.Pos DN) : ∀ᵐ θ ∂netPosterior S Q, θ ∈ netValid K DN DΦ := by
  have hν := hQ.ν_prob
  have hΦ := h.ν_prob
  have e : netPosterior S Q ≪ netPrior S Q := by
    unfold netPosterior
    exact (Measure.AbsolutelyContinuous.smul_left (withDensity_absolutelyContinuous _ _) _)
  refine e.ae_le ?_
  have e2 : netPrior S Q ≪ (coins01 K).prod (Q.ν.prod ((Measure.pi fun _ => volume).prod S.ν)) := withDensity_absolutelyContinuous _ _
  have a1 : ∀ᵐ θ ∂netPrior S Q, θ.2.1 ∈ DN := e2.ae_le ((Measure.quasiMeasurePreserving_fst.comp Measure.quasiMeasurePreserving_snd).ae (p := fun η => η ∈ DN) pQ.D_ae)
  have a2 : ∀ᵐ θ ∂netPrior S Q, θ.2.2.2 ∈ DΦ := e2.ae_le
    ((Measure.quasiMeasurePreserving_snd.comp (Measure.quasiMeasurePreserving_snd.comp Measure.quasiMeasurePreserving_snd)).ae (p := fun η => η ∈ DΦ) pS.D_ae)
  filter_upwards [a1, a2, netPrior_coins h hQ] with θ h1 h2 h3
  exact ⟨h3.1, h1, h3.2, h2⟩

end

end PyHawkes
