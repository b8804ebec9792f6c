import Verif.Props.MixBlockSweep
import Verif.Props.BlockChain
import Verif.Props.MixProper

/-!
# C85 for a learned one-block network: the gamma-mixture model's `resample_model` and the posterior distribution
-/
set_option linter.unusedSectionVars false
set_option linter.unusedVariables false

namespace PyHawkes
open Finset Spec MeasureTheory ProbabilityTheory

section
variable {U Ω : Type*} [MeasurableSpace U] [MeasurableSpace Ω] {μ : Measure U} {Pr : Measure Ω} (G : Generator μ) (Bt : BetaSampler μ) {κ0 ν0 : ℝ} {c : HawkesState} {n : SBM}

theorem measurableSet_tinyB : MeasurableSet {θ : ThetaB c.base.K | Tiny c θ.2} := (measurableSet_tiny (c := c)).preimage measurable_snd

theorem mixSweepB_clip (b : Bool) (θ : ThetaB c.base.K) (x : U × Seeds c U) (h : ¬ Tiny c (mixSweepB κ0 ν0 G Bt c n id b θ x).2) :
    mixSweepB κ0 ν0 G Bt c n (fun w => max w 1e-32) b θ x = mixSweepB κ0 ν0 G Bt c n id b θ x := by
  have := mixSweep_clip G (κ0 := κ0) (ν0 := ν0) (n := erOf n θ.1) b θ.2 x.2 h
  unfold mixSweepB
  rw [this]

/-- the law of the parameters after one call, had the weights not been clipped -/
theorem mixb_ideal_law [IsProbabilityMeasure Pr] (hκ0 : 0 < κ0) (hν0 : 0 < ν0) (h : CfgOkB c n) (b : Bool) {θ : Ω → ThetaB c.base.K} {x : Ω → SiteB → U}
    (hi : iIndepFun (fun σ ω => x ω σ) Pr) (hl : ∀ σ, HasLaw (fun ω => x ω σ) μ Pr) (hf : IndepFun θ x Pr)
    (hθ : HasLaw θ (posteriorMixB κ0 ν0 c n) Pr) : HasLaw (fun ω => mixSweepB κ0 ν0 G Bt c n id b (θ ω) (seedsOfB c (x ω))) (posteriorMixB κ0 ν0 c n) Pr := by
  have hμ := gen_prob G
  have hs := seedsB_law (c := c) hi hl
  exact hasLaw_step (measurable_mixSweepB κ0 ν0 G Bt measurable_id b) (posteriorMixB_map κ0 ν0 G Bt hκ0 hν0 h b) hθ hs (hf.comp measurable_id measurable_seedsOfB)

/-- **C85** for a learned one-block network (one call). If the parameters have the posterior distribution, the call succeeds, and there is an exact posterior draw `θ*` such that the new edge
probability, components, background rates and impulse weights are those of `θ*`, the new weights are those of `θ*` with every value below `1e-32` replaced by `1e-32`, and the new scale is that
of `θ*` unless some weight was replaced. Missing for the full claim: the case where a weight is replaced (`C85_block_violated`). -/
theorem C85_block_posterior_partial [IsProbabilityMeasure Pr] (h : CfgOkB c n) (hκ0 : 0 < κ0) (hν0 : 0 < ν0) (huge : ℝ) (b : Bool) (d : Ω → StepDraws) (hd : ∀ ω, DrawsOk c.base.K c.base.B 1 (d ω))
    (s : Ω → HawkesState) (hs : ∀ ω, SameModelB c n (s ω) ∧ HyperOk (s ω) ∧ ParamsOk (s ω)) (x : Ω → SiteB → U)
    (hx : FreshSeedsB μ Pr (fun ω => thetaB c.base.K (s ω)) x) (hlaw : HasLaw (fun ω => thetaB c.base.K (s ω)) (posteriorMixB κ0 ν0 c n) Pr) :
    ∃ (s' : Ω → HawkesState) (θstar : Ω → ThetaB c.base.K),
      (∀ ω, resampleModelMix huge κ0 ν0 b (drawsB G Bt c.base.K c.base.B (d ω) (x ω)) (s ω) = .ok (s' ω) ∧ SameModelB c n (s' ω) ∧ HyperOk (s' ω) ∧ ParamsOk (s' ω)) ∧
      HasLaw θstar (posteriorMixB κ0 ν0 c n) Pr ∧
      (∀ ω, (thetaB c.base.K (s' ω)).1 = (θstar ω).1 ∧ (thetaB c.base.K (s' ω)).2.1 = (θstar ω).2.1 ∧
        (∀ e, (thetaB c.base.K (s' ω)).2.2.2.1 e = max ((θstar ω).2.2.2.1 e) 1e-32) ∧ (thetaB c.base.K (s' ω)).2.2.2.2 = (θstar ω).2.2.2.2) ∧
      (∀ ω, (∀ e, 1e-32 ≤ (θstar ω).2.2.2.1 e) → thetaB c.base.K (s' ω) = θstar ω) ∧
      (b = false → ∀ ω, (thetaB c.base.K (s' ω)).2.2.1 = (θstar ω).2.2.1) := by
  choose s' h1 h2 h3 h4 h5 using fun ω => mixb_sweep_eq κ0 ν0 G Bt h huge b (d ω) (hd ω) (s ω) (hs ω).1 (hs ω).2.1 (hs ω).2.2 (x ω)
  refine ⟨s', fun ω => mixSweepB κ0 ν0 G Bt c n id b (thetaB c.base.K (s ω)) (seedsOfB c (x ω)), fun ω => ⟨h1 ω, h2 ω, h3 ω, h4 ω⟩, mixb_ideal_law G Bt hκ0 hν0 h b hx.indep hx.law hx.fresh hlaw, ?_, ?_, ?_⟩
  · intro ω
    rw [h5 ω]
    exact ⟨rfl, rfl, fun e => rfl, rfl⟩
  · intro ω hω
    rw [h5 ω]
    exact mixSweepB_clip G Bt b _ _ (by rintro ⟨e, he⟩; exact absurd (hω e) (not_le.2 he))
  · rintro rfl ω
    rw [h5 ω]
    rfl

/-- **C85** for a learned one-block network (whole runs): `t` successive calls (each with or without the network update), the seeds of each call fresh. For every event the probability under the law of the parameters differs from the
posterior probability by at most `t` times the posterior probability that some weight is below `1e-32`. Missing for the full claim: that this error is zero (`C85_block_violated`). -/
theorem C85_block_chain_partial [IsProbabilityMeasure Pr] (h : CfgOkB c n) (hκ0 : 0 < κ0) (hν0 : 0 < ν0) (huge : ℝ) (b : ℕ → Bool) (d : ℕ → Ω → StepDraws) (hd : ∀ t ω, DrawsOk c.base.K c.base.B 1 (d t ω))
    (s : ℕ → Ω → HawkesState) (hs : ∀ ω, SameModelB c n (s 0 ω) ∧ HyperOk (s 0 ω) ∧ ParamsOk (s 0 ω)) (x : ℕ → Ω → SiteB → U)
    (hrun : ∀ t ω s', resampleModelMix huge κ0 ν0 (b t) (drawsB G Bt c.base.K c.base.B (d t ω) (x t ω)) (s t ω) = .ok s' → s (t + 1) ω = s')
    (hx : ∀ t, FreshSeedsB μ Pr (fun ω => (thetaB c.base.K (s 0 ω), fun i : Fin t => x i ω)) (x t))
    (hlaw : HasLaw (fun ω => thetaB c.base.K (s 0 ω)) (posteriorMixB κ0 ν0 c n) Pr) (t : ℕ) :
    (∀ ω, resampleModelMix huge κ0 ν0 (b t) (drawsB G Bt c.base.K c.base.B (d t ω) (x t ω)) (s t ω) = .ok (s (t + 1) ω)) ∧
      ∀ B : Set (ThetaB c.base.K), MeasurableSet B →
        Pr {ω | thetaB c.base.K (s t ω) ∈ B} ≤ posteriorMixB κ0 ν0 c n B + t * posteriorMixB κ0 ν0 c n {θ | ∃ e, θ.2.2.2.1 e < 1e-32} ∧
        posteriorMixB κ0 ν0 c n B ≤ Pr {ω | thetaB c.base.K (s t ω) ∈ B} + t * posteriorMixB κ0 ν0 c n {θ | ∃ e, θ.2.2.2.1 e < 1e-32} := by
  set ε := posteriorMixB κ0 ν0 c n {θ | Tiny c θ.2} with hε
  have key : ∀ t, (∀ ω, SameModelB c n (s t ω) ∧ HyperOk (s t ω) ∧ ParamsOk (s t ω)) ∧
      ∃ (Φ : ThetaB c.base.K × (Fin t → SiteB → U) → ThetaB c.base.K) (bad : Set Ω), Measurable Φ ∧ HasLaw (fun ω => Φ (thetaB c.base.K (s 0 ω), fun i : Fin t => x i ω)) (posteriorMixB κ0 ν0 c n) Pr ∧
        (∀ ω, ω ∉ bad → thetaB c.base.K (s t ω) = Φ (thetaB c.base.K (s 0 ω), fun i : Fin t => x i ω)) ∧ Pr bad ≤ t * ε := by
    intro t
    induction t with
    | zero => exact ⟨hs, Prod.fst, ∅, measurable_fst, hlaw, fun ω _ => rfl, by simp⟩
    | succ t ih =>
      obtain ⟨ih1, Φ, bad, hΦ, hΦl, hΦe, hbad⟩ := ih
      choose s' h1 h2 h3 h4 h5 using fun ω => mixb_sweep_eq κ0 ν0 G Bt h huge (b t) (d t ω) (hd t ω) (s t ω) (ih1 ω).1 (ih1 ω).2.1 (ih1 ω).2.2 (x t ω)
      have es : ∀ ω, s (t + 1) ω = s' ω := fun ω => hrun t ω _ (h1 ω)
      have e : ∀ ω, thetaB c.base.K (s (t + 1) ω) = mixSweepB κ0 ν0 G Bt c n (fun w => max w 1e-32) (b t) (thetaB c.base.K (s t ω)) (seedsOfB c (x t ω)) := fun ω => by rw [es]; exact h5 ω
      have hfr : IndepFun (fun ω => Φ (thetaB c.base.K (s 0 ω), fun i : Fin t => x i ω)) (x t) Pr := (hx t).fresh.comp hΦ measurable_id
      have hl1 := mixb_ideal_law G Bt hκ0 hν0 h (b t) (hx t).indep (hx t).law hfr hΦl
      refine ⟨fun ω => by rw [es]; exact ⟨h2 ω, h3 ω, h4 ω⟩, fun y => mixSweepB κ0 ν0 G Bt c n id (b t) (Φ (y.1, fun i => y.2 i.castSucc)) (seedsOfB c (y.2 (Fin.last t))),
        bad ∪ {ω | Tiny c (mixSweepB κ0 ν0 G Bt c n id (b t) (Φ (thetaB c.base.K (s 0 ω), fun i : Fin t => x i ω)) (seedsOfB c (x t ω))).2}, ?_, hl1, ?_, ?_⟩
      · refine (measurable_mixSweepB κ0 ν0 G Bt measurable_id (b t)).comp (f := fun y : ThetaB c.base.K × (Fin (t + 1) → SiteB → U) => (Φ (y.1, fun i => y.2 i.castSucc), seedsOfB c (y.2 (Fin.last t)))) ?_
        refine (hΦ.comp (f := fun y : ThetaB c.base.K × (Fin (t + 1) → SiteB → U) => (y.1, fun i : Fin t => y.2 i.castSucc)) (by fun_prop)).prodMk ?_
        exact measurable_seedsOfB.comp (f := fun y : ThetaB c.base.K × (Fin (t + 1) → SiteB → U) => y.2 (Fin.last t)) (by fun_prop)
      · intro ω hω
        rw [Set.mem_union, not_or] at hω
        rw [e, hΦe ω hω.1]
        exact mixSweepB_clip G Bt (b t) _ _ hω.2
      · refine le_trans (measure_union_le _ _) ?_
        have : Pr {ω | Tiny c (mixSweepB κ0 ν0 G Bt c n id (b t) (Φ (thetaB c.base.K (s 0 ω), fun i : Fin t => x i ω)) (seedsOfB c (x t ω))).2} = ε := by
          rw [hε, ← hl1.map_eq, Measure.map_apply_of_aemeasurable hl1.aemeasurable measurableSet_tinyB]; rfl
        rw [this, Nat.cast_succ, add_mul, one_mul]
        exact add_le_add hbad le_rfl
  refine ⟨fun ω => ?_, fun B hB => ?_⟩
  · obtain ⟨h1, -⟩ := key t
    obtain ⟨s', hr, -⟩ := mixb_sweep_eq κ0 ν0 G Bt h huge (b t) (d t ω) (hd t ω) (s t ω) (h1 ω).1 (h1 ω).2.1 (h1 ω).2.2 (x t ω)
    rw [hrun t ω _ hr]; exact hr
  · obtain ⟨-, Φ, bad, -, hΦl, hΦe, hbad⟩ := key t
    obtain ⟨a1, a2⟩ := close_of_agree hΦl bad hΦe hB
    exact ⟨a1.trans (add_le_add le_rfl hbad), a2.trans (add_le_add le_rfl hbad)⟩

/-! ### the clipped weights have an atom -/

theorem priorMixB_small (hκ0 : 0 < κ0) (hν0 : 0 < ν0) (h : CfgOkB c n) (e : Pair c.base.K) {ε : ℝ} (hε : 0 < ε) : 0 < priorMixB κ0 ν0 c n {θ | θ.2.2.2.1 e < ε} := by
  obtain ⟨h0, h1, -⟩ := h.net.hyper
  have hβ := isProbabilityMeasureBeta h1 h0
  have hr := restB_sfinite h
  have hms : MeasurableSet {θ : ThetaB c.base.K | θ.2.2.2.1 e < ε} := measurableSet_lt (by fun_prop) measurable_const
  rw [pos_iff_ne_zero]
  intro hz
  rw [← lintegral_indicator_one hms, priorMixB_eq, lintegral_withDensity_eq_lintegral_mul _ (measurable_densMB κ0 ν0 n) (measurable_one.indicator hms)] at hz
  have mF : Measurable fun θ : ThetaB c.base.K => densMB κ0 ν0 n θ.1 θ.2 * {θ : ThetaB c.base.K | θ.2.2.2.1 e < ε}.indicator 1 θ := (measurable_densMB κ0 ν0 n).mul (measurable_one.indicator hms)
  replace hz : ∫⁻ θ : ThetaB c.base.K, densMB κ0 ν0 n θ.1 θ.2 * {θ : ThetaB c.base.K | θ.2.2.2.1 e < ε}.indicator 1 θ ∂(betaMeasure n.tau1 n.tau0).prod (restB c n) = 0 := hz
  rw [lintegral_prod _ mF.aemeasurable] at hz
  refine (lintegral_pos_of_ae _ (IsProbabilityMeasure.ne_zero (betaMeasure n.tau1 n.tau0)) mF.lintegral_prod_right' ?_).ne' hz
  filter_upwards [beta_mem (a := n.tau1) (b := n.tau0)] with p hp
  have hs := priorMix_small hκ0 hν0 (h.fix hp.1 hp.2) e hε
  have hms' : MeasurableSet {θ : Theta c.base.K | θ.2.2.1 e < ε} := measurableSet_lt (by fun_prop) measurable_const
  rw [← lintegral_indicator_one hms', priorMix_fixed κ0 ν0 h hp.1 hp.2 (measurable_one.indicator hms')] at hs
  exact hs

theorem posteriorMixB_small (hκ0 : 0 < κ0) (hν0 : 0 < ν0) (h : CfgOkB c n) (hp : IsProbabilityMeasure (posteriorMixB κ0 ν0 c n)) (e : Pair c.base.K) {ε : ℝ} (hε : 0 < ε) :
    0 < posteriorMixB κ0 ν0 c n {θ | θ.2.2.2.1 e < ε} := by
  have hms : MeasurableSet {θ : ThetaB c.base.K | θ.2.2.2.1 e < ε} := measurableSet_lt (by fun_prop) measurable_const
  have hk : (∫⁻ θ, likelihoodMix c θ.2 ∂priorMixB κ0 ν0 c n)⁻¹ ≠ 0 := by
    intro hz
    have := hp.measure_univ
    unfold posteriorMixB at this
    rw [hz, zero_smul] at this
    simp at this
  have hne : (priorMixB κ0 ν0 c n).restrict {θ : ThetaB c.base.K | θ.2.2.2.1 e < ε} ≠ 0 := by
    rw [Ne, Measure.restrict_eq_zero]; exact (priorMixB_small hκ0 hν0 h e hε).ne'
  have mlik : Measurable fun θ : ThetaB c.base.K => likelihoodMix c θ.2 := (measurable_likelihoodMix h.data).comp measurable_snd
  unfold posteriorMixB
  rw [Measure.smul_apply, withDensity_apply _ hms, smul_eq_mul]
  refine ENNReal.mul_pos hk (lintegral_pos_of_ae _ hne mlik (Filter.Eventually.of_forall fun θ => ?_)).ne'
  exact ENNReal.ofReal_pos.2 (Real.exp_pos _)

theorem posteriorMixB_no_atom (h : CfgOkB c n) (e : Pair c.base.K) (w : ℝ) : posteriorMixB κ0 ν0 c n {θ | θ.2.2.2.1 e = w} = 0 := by
  obtain ⟨h0, h1, ha, hb, -⟩ := h.net.hyper
  have hβ := isProbabilityMeasureBeta h1 h0
  have hΦ := phi_prob (h.fix le_rfl zero_le_one)
  have hg := isProbabilityMeasure_gammaMeasure ha hb
  have hr := restB_sfinite h
  have hW : ∀ᵐ W ∂Measure.pi (fun _ : Pair c.base.K => (volume : Measure ℝ)), W e ≠ w := (Measure.quasiMeasurePreserving_eval (fun _ : Pair c.base.K => (volume : Measure ℝ)) e).ae (Measure.ae_ne volume w)
  have a1 : ∀ᵐ y ∂(Measure.pi fun _ : Pair c.base.K => (volume : Measure ℝ)).prod (phiPrior c), y.1 e ≠ w := Measure.quasiMeasurePreserving_fst.ae hW
  have a2 : ∀ᵐ y ∂(gammaMeasure n.alpha n.beta).prod ((Measure.pi fun _ : Pair c.base.K => (volume : Measure ℝ)).prod (phiPrior c)), y.2.1 e ≠ w := Measure.quasiMeasurePreserving_snd.ae a1
  have a3 : ∀ᵐ y ∂restB c n, y.2.2.1 e ≠ w := Measure.quasiMeasurePreserving_snd.ae a2
  have a4 : ∀ᵐ y ∂(betaMeasure n.tau1 n.tau0).prod (restB c n), y.2.2.2.1 e ≠ w := Measure.quasiMeasurePreserving_snd.ae a3
  have ac : posteriorMixB κ0 ν0 c n ≪ (betaMeasure n.tau1 n.tau0).prod (restB c n) :=
    (Measure.smul_absolutelyContinuous).trans ((withDensity_absolutelyContinuous _ _).trans (withDensity_absolutelyContinuous _ _))
  have := ac.ae_le a4
  rw [mem_ae_iff] at this
  refine measure_mono_null (fun θ hθ => ?_) this
  exact fun hn => hn hθ

/-- **C85 is false of the code as it stands** for a learned one-block network too: after a call started from the posterior distribution every weight is exactly `1e-32` with positive probability;
the posterior gives that event probability zero. -/
theorem C85_block_violated [IsProbabilityMeasure Pr] (h : CfgOkB c n) (hκ0 : 0 < κ0) (hν0 : 0 < ν0) (huge : ℝ) (b : Bool) (d : Ω → StepDraws) (hd : ∀ ω, DrawsOk c.base.K c.base.B 1 (d ω))
    (s : Ω → HawkesState) (hs : ∀ ω, SameModelB c n (s ω) ∧ HyperOk (s ω) ∧ ParamsOk (s ω)) (x : Ω → SiteB → U)
    (hx : FreshSeedsB μ Pr (fun ω => thetaB c.base.K (s ω)) x) (hlaw : HasLaw (fun ω => thetaB c.base.K (s ω)) (posteriorMixB κ0 ν0 c n) Pr)
    (s' : Ω → HawkesState) (hrun : ∀ ω, resampleModelMix huge κ0 ν0 b (drawsB G Bt c.base.K c.base.B (d ω) (x ω)) (s ω) = .ok (s' ω)) (e : Pair c.base.K) :
    0 < Pr {ω | (s' ω).W e.1 e.2 = 1e-32} ∧ posteriorMixB κ0 ν0 c n {θ | θ.2.2.2.1 e = 1e-32} = 0 ∧ ¬ HasLaw (fun ω => thetaB c.base.K (s' ω)) (posteriorMixB κ0 ν0 c n) Pr := by
  obtain ⟨s'', θstar, h1, h2, h3, -, -⟩ := C85_block_posterior_partial G Bt h hκ0 hν0 huge b d hd s hs x hx hlaw
  have es : ∀ ω, s'' ω = s' ω := fun ω => Except.ok.inj ((h1 ω).1.symm.trans (hrun ω))
  have hp : IsProbabilityMeasure (posteriorMixB κ0 ν0 c n) := by rw [← hlaw.map_eq]; exact Measure.isProbabilityMeasure_map hlaw.aemeasurable
  have hms : MeasurableSet {θ : ThetaB c.base.K | θ.2.2.2.1 e < 1e-32} := measurableSet_lt (by fun_prop) measurable_const
  have hms' : MeasurableSet {θ : ThetaB c.base.K | θ.2.2.2.1 e = 1e-32} := measurableSet_eq_fun (by fun_prop) measurable_const
  have hpos : 0 < Pr {ω | (s' ω).W e.1 e.2 = 1e-32} := by
    have h0 := posteriorMixB_small hκ0 hν0 h hp e (ε := 1e-32) (by norm_num)
    rw [← h2.map_eq, Measure.map_apply_of_aemeasurable h2.aemeasurable hms] at h0
    refine lt_of_lt_of_le h0 (measure_mono fun ω hω => ?_)
    have hlt : (θstar ω).2.2.2.1 e < 1e-32 := hω
    have := (h3 ω).2.2.1 e
    rw [es] at this
    change (thetaB c.base.K (s' ω)).2.2.2.1 e = 1e-32
    rw [this, max_eq_right hlt.le]
  refine ⟨hpos, posteriorMixB_no_atom h e _, fun hl => ?_⟩
  have := posteriorMixB_no_atom (κ0 := κ0) (ν0 := ν0) h e 1e-32
  rw [← hl.map_eq, Measure.map_apply_of_aemeasurable hl.aemeasurable hms'] at this
  exact hpos.ne' this

/-! ### the posterior is a probability distribution -/

theorem priorMixB_prob (hκ0 : 0 < κ0) (hν0 : 0 < ν0) (h : CfgOkB c n) : IsProbabilityMeasure (priorMixB κ0 ν0 c n) := by
  obtain ⟨h0, h1, -⟩ := h.net.hyper
  have hβ := isProbabilityMeasureBeta h1 h0
  refine ⟨?_⟩
  rw [← lintegral_one, priorMixB_lintegral κ0 ν0 h measurable_const]
  have e : ∫⁻ p, ∫⁻ _, 1 ∂priorMix κ0 ν0 c (erOf n p) ∂betaMeasure n.tau1 n.tau0 = ∫⁻ _, 1 ∂betaMeasure n.tau1 n.tau0 := by
    refine lintegral_congr_ae ?_
    filter_upwards [beta_mem (a := n.tau1) (b := n.tau0)] with p hp
    have := priorMix_prob hκ0 hν0 (h.fix hp.1 hp.2)
    rw [lintegral_one, measure_univ]
  rw [e, lintegral_one, measure_univ]

theorem priorMixB_valid (h : CfgOkB c n) : ∀ᵐ θ ∂priorMixB κ0 ν0 c n, ThetaOkB c n θ := by
  have hms := (measurableSet_thetaOkB (c := c) (n := n)).compl
  rw [ae_iff, show {θ : ThetaB c.base.K | ¬ThetaOkB c n θ} = {θ | ThetaOkB c n θ}ᶜ from rfl, ← lintegral_indicator_one hms, priorMixB_lintegral κ0 ν0 h (measurable_one.indicator hms)]
  refine lintegral_eq_zero_of_ae_eq_zero ?_
  filter_upwards [beta_mem (a := n.tau1) (b := n.tau0)] with p hp
  refine lintegral_eq_zero_of_ae_eq_zero ?_
  filter_upwards [priorMix_valid (κ0 := κ0) (ν0 := ν0) (h.fix hp.1 hp.2)] with θ hθ
  rw [Set.indicator_of_notMem]
  · rfl
  · exact fun hn => hn ⟨hp, hθ.A, fun hf => (by cases hf), hθ.v, hθ.W, hθ.lam, hθ.g⟩

/-- **C85** for a learned one-block network: the posterior is a probability distribution (finite, nonzero evidence). -/
theorem C85_block_posterior_proper (hκ0 : 0 < κ0) (hν0 : 0 < ν0) (h : CfgOkB c n) (hF : FilteredFromEvents c.base.K c.base.B c.data) :
    ∫⁻ θ, likelihoodMix c θ.2 ∂priorMixB κ0 ν0 c n ≠ 0 ∧ ∫⁻ θ, likelihoodMix c θ.2 ∂priorMixB κ0 ν0 c n ≠ ⊤ ∧ IsProbabilityMeasure (posteriorMixB κ0 ν0 c n) := by
  have hpr := priorMixB_prob hκ0 hν0 h
  have mlik : Measurable fun θ : ThetaB c.base.K => likelihoodMix c θ.2 := (measurable_likelihoodMix h.data).comp measurable_snd
  have h0 : ∫⁻ θ, likelihoodMix c θ.2 ∂priorMixB κ0 ν0 c n ≠ 0 :=
    (lintegral_pos_of_ae _ (IsProbabilityMeasure.ne_zero _) mlik (Filter.Eventually.of_forall fun θ => ENNReal.ofReal_pos.2 (Real.exp_pos _))).ne'
  have hT : ∫⁻ θ, likelihoodMix c θ.2 ∂priorMixB κ0 ν0 c n ≠ ⊤ := by
    obtain ⟨C, hC⟩ := lik_bounded (h.fix le_rfl zero_le_one) hF
    refine ne_top_of_le_ne_top (b := ENNReal.ofReal C) ENNReal.ofReal_ne_top ?_
    calc ∫⁻ θ, likelihoodMix c θ.2 ∂priorMixB κ0 ν0 c n ≤ ∫⁻ θ, ENNReal.ofReal C ∂priorMixB κ0 ν0 c n := by
          refine lintegral_mono_ae ?_
          filter_upwards [priorMixB_valid h] with θ hθ
          exact ENNReal.ofReal_le_ofReal (hC (fun _ => 1) θ.2.2.2.1 θ.2.2.2.2.1 θ.2.2.2.2.2 (fun e => by rw [one_mul]; exact (hθ.2.W e).le) hθ.2.lam hθ.2.g)
      _ = ENNReal.ofReal C := by rw [lintegral_const, measure_univ, mul_one]
  refine ⟨h0, hT, ⟨?_⟩⟩
  unfold posteriorMixB
  rw [Measure.smul_apply, withDensity_apply _ MeasurableSet.univ, Measure.restrict_univ, smul_eq_mul, ENNReal.inv_mul_cancel h0 hT]

theorem posteriorMixB_valid (h : CfgOkB c n) : ∀ᵐ θ ∂posteriorMixB κ0 ν0 c n, ThetaOkB c n θ :=
  ((Measure.smul_absolutelyContinuous).trans (withDensity_absolutelyContinuous _ _)).ae_le (priorMixB_valid h)

/-- **Non-vacuity of C85 for one-block networks**: there are a run, generators and fresh seeds meeting all hypotheses of the theorems above. -/
theorem C85_block_hypotheses_met (hκ0 : 0 < κ0) (hν0 : 0 < ν0) (h : CfgOkB c n) (hF : FilteredFromEvents c.base.K c.base.B c.data) (huge : ℝ) (b : ℕ → Bool) (d : StepDraws) :
    ∃ (Ω : Type) (_ : MeasurableSpace Ω) (Pr : Measure Ω) (_ : IsProbabilityMeasure Pr) (G : Generator (volume : Measure unitInterval)) (Bt : BetaSampler (volume : Measure unitInterval))
      (s : ℕ → Ω → HawkesState) (x : ℕ → Ω → SiteB → unitInterval),
      (∀ ω, SameModelB c n (s 0 ω) ∧ HyperOk (s 0 ω) ∧ ParamsOk (s 0 ω)) ∧
      (∀ t ω s', resampleModelMix huge κ0 ν0 (b t) (drawsB G Bt c.base.K c.base.B d (x t ω)) (s t ω) = .ok s' → s (t + 1) ω = s') ∧
      (∀ t, FreshSeedsB volume Pr (fun ω => (thetaB c.base.K (s 0 ω), fun i : Fin t => x i ω)) (x t)) ∧ HasLaw (fun ω => thetaB c.base.K (s 0 ω)) (posteriorMixB κ0 ν0 c n) Pr := by
  obtain ⟨-, -, hpost⟩ := C85_block_posterior_proper hκ0 hν0 h hF
  obtain ⟨G⟩ := C83_generator_exists
  obtain ⟨Bt⟩ := C83_beta_sampler_exists
  obtain ⟨Ω, i1, Pr, i2, θ, x, h1, h2, h3⟩ := fresh_chain (S := SiteB) (posteriorMixB κ0 ν0 c n) measurableSet_thetaOkB (posteriorMixB_valid h)
  have ht : ∀ ω, thetaB c.base.K (stateOfB c n (θ ω)) = θ ω := fun ω => thetaB_stateOfB _
  refine ⟨Ω, i1, Pr, i2, G, Bt, fun t ω => Nat.rec (stateOfB c n (θ ω)) (fun t st => match resampleModelMix huge κ0 ν0 (b t) (drawsB G Bt c.base.K c.base.B d (x t ω)) st with | .ok s' => s' | .error _ => st) t, x, fun ω => stateOfB_ok h (h1 ω), ?_, ?_, ?_⟩
  · intro t ω s' hs'
    dsimp only at hs' ⊢
    rw [hs']
  · intro t
    simp only [Nat.rec_zero, ht]
    exact ⟨(h3 t).1, (h3 t).2.1, (h3 t).2.2⟩
  · simp only [Nat.rec_zero, ht]
    exact h2

/-- the default hyperparameters of the class (`models.py:1243`) on a two-process model with one data set -/
example : IsProbabilityMeasure (posteriorMixB 0.1 1000 demoChainModel demoBlock) := (C85_block_posterior_proper (by norm_num) (by norm_num) demoBlock_ok demoChain_ok.2).2.2

end

end PyHawkes
