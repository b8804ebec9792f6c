import Verif.Props.CTAugmentOk
import Verif.Props.CTSweepMap
import Verif.Props.GibbsPosterior

/-!
# C84: `resample_model` of the continuous-time model leaves the posterior distribution invariant
-/
set_option linter.unusedSectionVars false
set_option linter.unusedVariables false

namespace PyHawkes
open Finset Spec MeasureTheory ProbabilityTheory

section
variable {U Ω : Type*} [MeasurableSpace U] [MeasurableSpace Ω] {μ : Measure U} {Pr : Measure Ω} (G : Generator μ) (N : NormalSampler μ) {c : CTState} {n : ERFixed} {D : CTData}

/-- index of all in-range call sites -/
abbrev CallsCT (c : CTState) (D : CTData) := Fin D.N ⊕ Fin c.P.K ⊕ (Pair c.P.K ⊕ Pair c.P.K) ⊕ Unit ⊕ Pair c.P.K ⊕ Pair c.P.K

/-- the call site of an index -/
def callSiteCT (c : CTState) (D : CTData) : CallsCT c D → CTSite
  | .inl n => .parent 0 n
  | .inr (.inl k) => .lam k
  | .inr (.inr (.inl (.inl e))) => .precision e.1 e.2
  | .inr (.inr (.inl (.inr e))) => .mean e.1 e.2
  | .inr (.inr (.inr (.inl _))) => .scale
  | .inr (.inr (.inr (.inr (.inl e)))) => .weight e.1 e.2
  | .inr (.inr (.inr (.inr (.inr e)))) => .unif e.1 e.2

theorem callSiteCT_inj : Function.Injective (callSiteCT c D) := by
  have pair : ∀ {e e' : Pair c.P.K}, (e.1 : ℕ) = e'.1 → (e.2 : ℕ) = e'.2 → e = e' := fun h1 h2 => Prod.ext (Fin.ext h1) (Fin.ext h2)
  rintro (k | k | (e | e) | u | e | e) (k' | k' | (e' | e') | u' | e' | e') h <;>
    simp only [callSiteCT, CTSite.parent.injEq, CTSite.lam.injEq, CTSite.precision.injEq, CTSite.mean.injEq, CTSite.weight.injEq, CTSite.unif.injEq, reduceCtorEq] at h
  · rw [Fin.ext h.2]
  · rw [Fin.ext h]
  · rw [pair h.1 h.2]
  · rw [pair h.1 h.2]
  · rfl
  · rw [pair h.1 h.2]
  · rw [pair h.1 h.2]

/-- pairs of independent families are families of independent pairs -/
theorem zip_law {ι : Type} [Fintype ι] [IsProbabilityMeasure μ] :
    MeasurePreserving (fun y : (ι → U) × (ι → U) => fun i => (y.1 i, y.2 i)) ((Measure.pi fun _ => μ).prod (Measure.pi fun _ => μ)) (Measure.pi fun _ => μ.prod μ) :=
  (measurePreserving_arrowProdEquivProdArrow U U ι (fun _ => μ) fun _ => μ).symm

/-- the seeds from the indexed family -/
def unbundleCT (c : CTState) (D : CTData) (y : CallsCT c D → U) : AugSeeds c.P.K U (Fin D.N → U) ((Fin c.P.K → U) × (Pair c.P.K → U × U)) :=
  (fun n => y (.inl n), (fun k => y (.inr (.inl k)), fun e => (y (.inr (.inr (.inl (.inl e)))), y (.inr (.inr (.inl (.inr e)))))), y (.inr (.inr (.inr (.inl ())))),
    fun e => y (.inr (.inr (.inr (.inr (.inl e))))), fun e => y (.inr (.inr (.inr (.inr (.inr e))))))

theorem unbundleCT_law [IsProbabilityMeasure μ] : MeasurePreserving (unbundleCT c D) (Measure.pi fun _ : CallsCT c D => μ) ((ctSys G N c D).seedLaw μ) := by
  have split : ∀ (ι ι' : Type) [Fintype ι] [Fintype ι'], MeasurePreserving (fun y : ι ⊕ ι' → U => ((fun i => y (.inl i) : ι → U), (fun i => y (.inr i) : ι' → U)))
      (Measure.pi fun _ => μ) ((Measure.pi fun _ => μ).prod (Measure.pi fun _ => μ)) := fun ι ι' _ _ => measurePreserving_sumPiEquivProdPi (X := fun _ => U) fun _ => μ
  have h5 := split (Pair c.P.K) (Pair c.P.K)
  have hu : MeasurePreserving (fun y : Unit → U => y ()) (Measure.pi fun _ => μ) μ := measurePreserving_funUnique μ Unit
  have h4 := (hu.prod h5).comp (split Unit (Pair c.P.K ⊕ Pair c.P.K))
  have hz := (zip_law (ι := Pair c.P.K) (μ := μ)).comp h5
  have h3 := (hz.prod h4).comp (split (Pair c.P.K ⊕ Pair c.P.K) (Unit ⊕ Pair c.P.K ⊕ Pair c.P.K))
  have h2 := ((MeasurePreserving.id (Measure.pi fun _ : Fin c.P.K => μ)).prod h3).comp (split (Fin c.P.K) ((Pair c.P.K ⊕ Pair c.P.K) ⊕ Unit ⊕ Pair c.P.K ⊕ Pair c.P.K))
  have ha := measurePreserving_prodAssoc (Measure.pi fun _ : Fin c.P.K => μ) (Measure.pi fun _ : Pair c.P.K => μ.prod μ) (μ.prod ((Measure.pi fun _ : Pair c.P.K => μ).prod (Measure.pi fun _ : Pair c.P.K => μ)))
  have h2' := ha.symm.comp h2
  exact ((MeasurePreserving.id (Measure.pi fun _ : Fin D.N => μ)).prod h2').comp (split (Fin D.N) (Fin c.P.K ⊕ (Pair c.P.K ⊕ Pair c.P.K) ⊕ Unit ⊕ Pair c.P.K ⊕ Pair c.P.K))

theorem seeds_law_ct [IsProbabilityMeasure μ] [IsProbabilityMeasure Pr] {x : Ω → CTSite → U} (hi : iIndepFun (fun σ ω => x ω σ) Pr) (hl : ∀ σ, HasLaw (fun ω => x ω σ) μ Pr) :
    HasLaw (fun ω => seedsCT c D (x ω)) ((ctSys G N c D).seedLaw μ) Pr := by
  have h1 : iIndepFun (fun (a : CallsCT c D) ω => x ω (callSiteCT c D a)) Pr := hi.precomp callSiteCT_inj
  have h2 : HasLaw (fun ω (a : CallsCT c D) => x ω (callSiteCT c D a)) (Measure.pi fun _ => μ) Pr := iIndepFun.hasLaw_pi (fun a => hl _) h1
  exact (unbundleCT_law (c := c) (D := D) (μ := μ) G N).fun_comp_hasLaw h2

theorem measurable_seedsCT : Measurable fun x : CTSite → U => seedsCT c D x := by unfold seedsCT; fun_prop

theorem ct_sweep_law [IsProbabilityMeasure Pr] (h : CfgOkCT c n D) {θ : Ω → ThetaCT c.P.K} {x : Ω → CTSite → U}
    (hi : iIndepFun (fun σ ω => x ω σ) Pr) (hl : ∀ σ, HasLaw (fun ω => x ω σ) μ Pr) (hf : IndepFun θ x Pr)
    (hθ : HasLaw θ (posteriorCT c n) Pr) : HasLaw (fun ω => (ctSys G N c D).sweep G n (θ ω) (seedsCT c D (x ω))) (posteriorCT c n) Pr := by
  have hμ := gen_prob G
  have hs := seeds_law_ct (c := c) (D := D) G N hi hl
  have hp : posteriorCT c n = (ctSys G N c D).posterior n := rfl
  rw [hp] at hθ ⊢
  have ok := ctSys_ok G N h
  exact hasLaw_step (AugSys.sweep_meas G ok) (AugSys.posterior_map G ok h.net) hθ hs (hf.comp measurable_id measurable_seedsCT)

/-- **C84**: if the parameters of the continuous-time model have the posterior distribution, then `resample_model` succeeds and the parameters it leaves have the posterior distribution. -/
theorem C84_posterior_invariant [IsProbabilityMeasure Pr] (h : CfgOkCT c n D) (huge : ℝ) (d : Ω → CTDraws) (hd : ∀ ω, CTDrawsOk c.P.K 1 (d ω))
    (s : Ω → CTState) (hs : ∀ ω, ValidCT c n (s ω)) (x : Ω → CTSite → U)
    (hx : FreshSeedsCT μ Pr (fun ω => thetaCT c.P.K (s ω)) x) (hlaw : HasLaw (fun ω => thetaCT c.P.K (s ω)) (posteriorCT c n) Pr) :
    ∃ s' : Ω → CTState, (∀ ω, ctResampleModel huge (ctDraws G N (d ω) (x ω)) (s ω) = .ok (s' ω) ∧ ValidCT c n (s' ω)) ∧
      HasLaw (fun ω => thetaCT c.P.K (s' ω)) (posteriorCT c n) Pr := by
  choose s' h1 h2 h3 using fun ω => ct_sweep_eq G N h huge (d ω) (hd ω) (s ω) (hs ω) (x ω)
  refine ⟨s', fun ω => ⟨h1 ω, h2 ω⟩, ?_⟩
  have := ct_sweep_law G N h hx.indep hx.law hx.fresh hlaw
  rw [show (fun ω => thetaCT c.P.K (s' ω)) = _ from funext h3]
  exact this

/-- **C84**, whole runs: successive calls of `resample_model`, the seeds of each call fresh -/
theorem C84_chain_invariant [IsProbabilityMeasure Pr] (h : CfgOkCT c n D) (huge : ℝ) (d : ℕ → Ω → CTDraws) (hd : ∀ t ω, CTDrawsOk c.P.K 1 (d t ω))
    (s : ℕ → Ω → CTState) (hs : ∀ ω, ValidCT c n (s 0 ω)) (x : ℕ → Ω → CTSite → U)
    (hrun : ∀ t ω s', ctResampleModel huge (ctDraws G N (d t ω) (x t ω)) (s t ω) = .ok s' → s (t + 1) ω = s')
    (hx : ∀ t, FreshSeedsCT μ Pr (fun ω => (thetaCT c.P.K (s 0 ω), fun i : Fin t => x i ω)) (x t))
    (hlaw : HasLaw (fun ω => thetaCT c.P.K (s 0 ω)) (posteriorCT c n) Pr) (t : ℕ) :
    (∀ ω, ctResampleModel huge (ctDraws G N (d t ω) (x t ω)) (s t ω) = .ok (s (t + 1) ω)) ∧ HasLaw (fun ω => thetaCT c.P.K (s t ω)) (posteriorCT c n) Pr := by
  have ok := ctSys_ok G N h
  have key : ∀ t, (∀ ω, ValidCT c n (s t ω)) ∧ HasLaw (fun ω => thetaCT c.P.K (s t ω)) (posteriorCT c n) Pr ∧
      ∃ Φ : ThetaCT c.P.K × (Fin t → CTSite → U) → ThetaCT c.P.K, Measurable Φ ∧ ∀ ω, thetaCT c.P.K (s t ω) = Φ (thetaCT c.P.K (s 0 ω), fun i : Fin t => x i ω) := by
    intro t
    induction t with
    | zero => exact ⟨hs, hlaw, Prod.fst, measurable_fst, fun ω => rfl⟩
    | succ t ih =>
      obtain ⟨ih1, ih2, Φ, hΦ, hΦe⟩ := ih
      choose s' h1 h2 h3 using fun ω => ct_sweep_eq G N h huge (d t ω) (hd t ω) (s t ω) (ih1 ω) (x t ω)
      have es : ∀ ω, s (t + 1) ω = s' ω := fun ω => hrun t ω _ (h1 ω)
      have e : ∀ ω, thetaCT c.P.K (s (t + 1) ω) = (ctSys G N c D).sweep G n (thetaCT c.P.K (s t ω)) (seedsCT c D (x t ω)) := fun ω => by rw [es]; exact h3 ω
      have hfr : IndepFun (fun ω => thetaCT c.P.K (s t ω)) (x t) Pr := by
        have := (hx t).fresh.comp hΦ measurable_id
        have e' : (fun ω => thetaCT c.P.K (s t ω)) = Φ ∘ fun ω => (thetaCT c.P.K (s 0 ω), fun i : Fin t => x i ω) := funext hΦe
        rw [e']; exact this
      refine ⟨fun ω => by rw [es]; exact h2 ω, ?_, ?_⟩
      · rw [show (fun ω => thetaCT c.P.K (s (t + 1) ω)) = _ from funext e]
        exact ct_sweep_law G N h (hx t).indep (hx t).law hfr ih2
      · refine ⟨fun y => (ctSys G N c D).sweep G n (Φ (y.1, fun i => y.2 i.castSucc)) (seedsCT c D (y.2 (Fin.last t))), ?_, fun ω => ?_⟩
        · refine (AugSys.sweep_meas G ok).comp (f := fun y : ThetaCT c.P.K × (Fin (t + 1) → CTSite → U) => (Φ (y.1, fun i => y.2 i.castSucc), seedsCT c D (y.2 (Fin.last t)))) ?_
          refine (hΦ.comp (f := fun y : ThetaCT c.P.K × (Fin (t + 1) → CTSite → U) => (y.1, fun i : Fin t => y.2 i.castSucc)) (by fun_prop)).prodMk ?_
          exact measurable_seedsCT.comp (f := fun y : ThetaCT c.P.K × (Fin (t + 1) → CTSite → U) => y.2 (Fin.last t)) (by fun_prop)
        · rw [e, hΦe]; rfl
  refine ⟨fun ω => ?_, (key t).2.1⟩
  obtain ⟨s', hr, -⟩ := ct_sweep_eq G N h huge (d t ω) (hd t ω) (s t ω) ((key t).1 ω) (x t ω)
  rw [hrun t ω _ hr]; exact hr

end

end PyHawkes
