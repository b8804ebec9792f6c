import Verif.Props.LabelPosterior
import Verif.Props.CTSweepNet
import Verif.Spec.PosteriorLabelsCT

/-!
# C96, continuous time: several blocks
-/
set_option linter.unusedSectionVars false
set_option linter.unusedVariables false

namespace PyHawkes
open Finset Spec MeasureTheory ProbabilityTheory

section
variable {U : Type} {Ω : Type*} [MeasurableSpace U] [MeasurableSpace Ω] {μ : Measure U} {Pr : Measure Ω} (G : Generator μ) (Ls : LabelSampler μ) (N : NormalSampler μ) {c : CTState} {n : SBM} {D : CTData} [NeZero n.C]

omit [NeZero n.C] in
theorem _root_.PyHawkes.Spec.CfgOkCTL.fix [NeZero n.C] (h : CfgOkCTL c n D) : CfgOkCT c (erOf n 0) D := ⟨h.data, h.labels, h.sorted, h.T, h.boundary, h.hyper, h.net.er⟩

/-- `s` is a state of the model `c` with the network `n`, with valid parameters and with parent statistics that match the stored parents -/
structure ValidCTL (c : CTState) (n : SBM) (s : CTState) : Prop where
  same : SameModelCTL c n s
  hyper : CTHyperOk s
  params : CTParamsOk s
  data : ∀ D ∈ s.data, CTDataOk s.P.K s.P.dtMax D

theorem ctDrawsL_ok {K : ℕ} (d : CTDraws) (hd : CTDrawsOk K n.C d) (x : SiteL CTSite → U) : CTDrawsOk K n.C (ctDrawsL G Ls N n.C d x) := by
  have h1 : CTDrawsOk K 1 { d with net := { d.net with label := fun _ _ => 0, dirichlet := fun _ _ => 1 } } :=
    ⟨hd.parU, hd.sched, hd.lam, hd.nigGam, ⟨hd.net.erGamma, hd.net.netGamma, hd.net.netBeta, fun _ _ => one_pos, fun v _ => ⟨fun b _ => zero_le_one, by simp⟩⟩, hd.weight, hd.unif, hd.order⟩
  have h := ctDraws_ok G N _ h1 fun σ => x (.other σ)
  refine ⟨h.parU, h.sched, h.lam, h.nigGam, ⟨h.net.erGamma, fun i j a => G.gam_pos a _, hd.net.netBeta, fun k v => Ls.lab_lt n.C _ _ (NeZero.pos n.C), fun v hv => ?_⟩, h.weight, h.unif, h.order⟩
  refine G.dir_prob n.C _ _ (NeZero.pos n.C) fun b hb => ?_
  unfold arr
  rw [if_pos hb]
  exact hv b hb

/-- the seeds of the in-range call sites -/
def seedsCTL (c : CTState) (D : CTData) (C : ℕ) (x : SiteL CTSite → U) : NetSeeds c.P.K U ((Pair C → U) × (Fin c.P.K → U) × U) (Fin D.N → U) ((Fin c.P.K → U) × (Pair c.P.K → U × U)) :=
  (fun n => x (.other (.parent 0 n)), (fun k => x (.other (.lam k)), fun e => (x (.other (.precision e.1 e.2)), x (.other (.mean e.1 e.2)))), netSeedsL c.P.K C x,
    fun e => x (.other (.weight e.1 e.2)), fun e => x (.other (.unif e.1 e.2)))

/-- **The parameters after one `resample_model` call are a function of the parameters before and the seeds of the in-range call sites.** -/
theorem ctl_sweep_eq (h : CfgOkCTL c n D) (huge : ℝ) (d : CTDraws) (hd : CTDrawsOk c.P.K n.C d) (s : CTState) (hv : ValidCTL c n s) (x : SiteL CTSite → U) :
    ∃ s', ctResampleModel huge (ctDrawsL G Ls N n.C d x) s = .ok s' ∧ ValidCTL c n s' ∧
      thetaCTL c.P.K n.C s' = netSweep (ctSys G N c D) (labelNet G Ls huge n (NeZero.pos n.C) c.P.K) G (thetaCTL c.P.K n.C s) (seedsCTL c D n.C x) := by
  obtain ⟨v0, l0, m0, hn0⟩ := hv.same.net
  have hblocks : blocks s.net = n.C := by rw [hn0]; rfl
  have hdo := ctDrawsL_ok (n := n) G Ls N d hd x
  have hK := hv.same.K
  obtain ⟨s', hr, hv', hnet, φ, W, hφ, hW, hφ', hW', hA'⟩ := ct_sweep_net (D := D) G N h.fix huge (ctDrawsL G Ls N n.C d x) s
    ⟨hv.same.K, hv.same.dtMax, hv.same.alpha, hv.same.beta, hv.same.nig, hv.same.data, hv.hyper, hv.params, hv.data⟩ (by rw [hblocks]; exact hdo) (fun σ => x (.other σ))
    ⟨fun _ => rfl, fun _ _ => rfl, fun _ _ _ => rfl, fun _ _ _ _ => rfl, fun _ _ _ => rfl, fun _ _ => rfl⟩
  have hnok := hv.params.net
  rw [hn0, hK] at hnok
  have hAp := hv.params.A
  have hWp := hv.params.W
  rw [hK] at hAp hWp
  obtain ⟨v, l, m, hb, hl, hstep⟩ := label_resample (K := c.P.K) G Ls h.net huge d.net (ctDrawsL G Ls N n.C d x).erGamma x hAp hWp v0 hnok.labels m0
  rw [hn0] at hnet
  replace hnet := hnet.trans hb
  have hη : netLabels c.P.K n.C s'.net = (labelNet G Ls huge n (NeZero.pos n.C) c.P.K).step (netSeedsL c.P.K n.C x) (netLabels c.P.K n.C s.net) (fun e => s.P.A e.1 e.2) fun e => s.P.W e.1 e.2 := by
    rw [hnet, hstep, hn0]
  have hV : ∀ e : Pair c.P.K, s'.net.V e.1 e.2 = labelV (netLabels c.P.K n.C s'.net) e := by
    intro e
    rw [hnet]
    change v (l e.1) (l e.2) = v ((l e.1) % n.C) ((l e.2) % n.C)
    rw [Nat.mod_eq_of_lt (hl _ e.1.2), Nat.mod_eq_of_lt (hl _ e.2.2)]
  have hPe : ∀ e : Pair c.P.K, s'.net.P e.1 e.2 = labelP n e := by
    intro e
    rw [hnet]
    change SBM.P _ e.1 e.2 = _
    unfold SBM.P labelP
    dsimp only
    rw [h.net.self, h.net.p _ (hl _ e.1.2) _ (hl _ e.2.2)]
    simp [Fin.ext_iff]
  have hkap : s'.net.kappa = n.kappa := by rw [hnet]; rfl
  refine ⟨s', hr, ⟨⟨hv'.K, hv'.dtMax, hv'.alpha, hv'.beta, hv'.nig, ⟨v, l, m, hnet⟩, hv'.events⟩, hv'.hyper, hv'.params, hv'.data⟩, ?_⟩
  simp only [hPe] at hA'
  simp only [hV, hkap] at hW
  unfold thetaCTL
  rw [hη] at hW ⊢
  refine Prod.ext ?_ (Prod.ext ?_ (Prod.ext ?_ ?_))
  · refine hA'.trans ?_
    rw [hφ, hW]
    rfl
  · rfl
  · exact hW'.trans hW
  · exact hφ'.trans hφ

/-- index of all in-range call sites -/
abbrev CallsCTL (c : CTState) (D : CTData) (C : ℕ) := Fin D.N ⊕ Fin c.P.K ⊕ (Pair c.P.K ⊕ Pair c.P.K) ⊕ (Pair C ⊕ Fin c.P.K ⊕ Unit) ⊕ Pair c.P.K ⊕ Pair c.P.K

/-- the call site of an index -/
def callSiteCTL (c : CTState) (D : CTData) (C : ℕ) : CallsCTL c D C → SiteL CTSite
  | .inl n => .other (.parent 0 n)
  | .inr (.inl k) => .other (.lam k)
  | .inr (.inr (.inl (.inl e))) => .other (.precision e.1 e.2)
  | .inr (.inr (.inl (.inr e))) => .other (.mean e.1 e.2)
  | .inr (.inr (.inr (.inl (.inl a)))) => .scale a.1 a.2
  | .inr (.inr (.inr (.inl (.inr (.inl k))))) => .label k
  | .inr (.inr (.inr (.inl (.inr (.inr _))))) => .blocks
  | .inr (.inr (.inr (.inr (.inl e)))) => .other (.weight e.1 e.2)
  | .inr (.inr (.inr (.inr (.inr e)))) => .other (.unif e.1 e.2)

theorem callSiteCTL_inj (c : CTState) (D : CTData) (C : ℕ) : Function.Injective (callSiteCTL c D C) := by
  have pair : ∀ {k : ℕ} {e e' : Pair k}, (e.1 : ℕ) = e'.1 → (e.2 : ℕ) = e'.2 → e = e' := fun h1 h2 => Prod.ext (Fin.ext h1) (Fin.ext h2)
  rintro (k | k | (e | e) | (a | k | u) | e | e) (k' | k' | (e' | e') | (a' | k' | u') | e' | e') h <;>
    simp only [callSiteCTL, SiteL.other.injEq, SiteL.scale.injEq, SiteL.label.injEq, CTSite.parent.injEq, CTSite.lam.injEq, CTSite.precision.injEq, CTSite.mean.injEq, CTSite.weight.injEq, CTSite.unif.injEq,
      reduceCtorEq] at h
  · rw [Fin.ext h.2]
  · rw [Fin.ext h]
  · rw [pair h.1 h.2]
  · rw [pair h.1 h.2]
  · rw [pair h.1 h.2]
  · rw [Fin.ext h]
  · rfl
  · rw [pair h.1 h.2]
  · rw [pair h.1 h.2]

/-- the seeds from the indexed family -/
def unbundleCTL (c : CTState) (D : CTData) (C : ℕ) (y : CallsCTL c D C → U) : NetSeeds c.P.K U ((Pair C → U) × (Fin c.P.K → U) × U) (Fin D.N → U) ((Fin c.P.K → U) × (Pair c.P.K → U × U)) :=
  (fun n => y (.inl n), (fun k => y (.inr (.inl k)), fun e => (y (.inr (.inr (.inl (.inl e)))), y (.inr (.inr (.inl (.inr e)))))),
    (fun a => y (.inr (.inr (.inr (.inl (.inl a))))), fun k => y (.inr (.inr (.inr (.inl (.inr (.inl k)))))), y (.inr (.inr (.inr (.inl (.inr (.inr ()))))))),
    fun e => y (.inr (.inr (.inr (.inr (.inl e))))), fun e => y (.inr (.inr (.inr (.inr (.inr e))))))

theorem unbundleCTL_law [IsProbabilityMeasure μ] (huge : ℝ) :
    MeasurePreserving (unbundleCTL c D n.C) (Measure.pi fun _ : CallsCTL c D n.C => μ) (netSeedLaw (ctSys G N c D) (labelNet G Ls huge n (NeZero.pos n.C) c.P.K) μ) := by
  have h5 := split_pi (μ := μ) (Pair c.P.K) (Pair c.P.K)
  have h4 := ((netSeedsL_law (μ := μ) c.P.K n.C).prod h5).comp (split_pi (Pair n.C ⊕ Fin c.P.K ⊕ Unit) (Pair c.P.K ⊕ Pair c.P.K))
  have hz := (zip_law (ι := Pair c.P.K) (μ := μ)).comp h5
  have h3 := (hz.prod h4).comp (split_pi (Pair c.P.K ⊕ Pair c.P.K) ((Pair n.C ⊕ Fin c.P.K ⊕ Unit) ⊕ Pair c.P.K ⊕ Pair c.P.K))
  have h2 := ((MeasurePreserving.id (Measure.pi fun _ : Fin c.P.K => μ)).prod h3).comp (split_pi (Fin c.P.K) ((Pair c.P.K ⊕ Pair c.P.K) ⊕ (Pair n.C ⊕ Fin c.P.K ⊕ Unit) ⊕ Pair c.P.K ⊕ Pair c.P.K))
  have ha := measurePreserving_prodAssoc (Measure.pi fun _ : Fin c.P.K => μ) (Measure.pi fun _ : Pair c.P.K => μ.prod μ)
    (((Measure.pi fun _ : Pair n.C => μ).prod ((Measure.pi fun _ : Fin c.P.K => μ).prod μ)).prod ((Measure.pi fun _ : Pair c.P.K => μ).prod (Measure.pi fun _ : Pair c.P.K => μ)))
  have h2' := ha.symm.comp h2
  exact ((MeasurePreserving.id (Measure.pi fun _ : Fin D.N => μ)).prod h2').comp (split_pi (Fin D.N) (Fin c.P.K ⊕ (Pair c.P.K ⊕ Pair c.P.K) ⊕ (Pair n.C ⊕ Fin c.P.K ⊕ Unit) ⊕ Pair c.P.K ⊕ Pair c.P.K))

theorem seeds_law_ctl [IsProbabilityMeasure μ] [IsProbabilityMeasure Pr] (huge : ℝ) {x : Ω → SiteL CTSite → U} (hi : iIndepFun (fun σ ω => x ω σ) Pr) (hl : ∀ σ, HasLaw (fun ω => x ω σ) μ Pr) :
    HasLaw (fun ω => seedsCTL c D n.C (x ω)) (netSeedLaw (ctSys G N c D) (labelNet G Ls huge n (NeZero.pos n.C) c.P.K) μ) Pr := by
  have h1 : iIndepFun (fun (a : CallsCTL c D n.C) ω => x ω (callSiteCTL c D n.C a)) Pr := hi.precomp (callSiteCTL_inj c D n.C)
  have h2 : HasLaw (fun ω (a : CallsCTL c D n.C) => x ω (callSiteCTL c D n.C a)) (Measure.pi fun _ => μ) Pr := iIndepFun.hasLaw_pi (fun a => hl _) h1
  exact (unbundleCTL_law (c := c) (D := D) (n := n) (μ := μ) G Ls N huge).fun_comp_hasLaw h2

theorem measurable_seedsCTL (C : ℕ) : Measurable fun x : SiteL CTSite → U => seedsCTL c D C x := by unfold seedsCTL netSeedsL; fun_prop

theorem posteriorCTL_eq (huge : ℝ) : posteriorCTL c n = netPosterior (ctSys G N c D) (labelNet G Ls huge n (NeZero.pos n.C) c.P.K) := rfl

/-- **C96**, continuous time: a network with several blocks. If the parameters of the model, including block labels, block probabilities and weight scales, have the posterior distribution, then
`resample_model` succeeds and the parameters it leaves have the posterior distribution. -/
theorem C96_ct_posterior_invariant [IsProbabilityMeasure Pr] (h : CfgOkCTL c n D) (huge : ℝ) (d : Ω → CTDraws) (hd : ∀ ω, CTDrawsOk c.P.K n.C (d ω))
    (s : Ω → CTState) (hs : ∀ ω, ValidCTL c n (s ω)) (x : Ω → SiteL CTSite → U)
    (hx : FreshSeedsL μ Pr (fun ω => thetaCTL c.P.K n.C (s ω)) x) (hlaw : HasLaw (fun ω => thetaCTL c.P.K n.C (s ω)) (posteriorCTL c n) Pr) :
    ∃ s' : Ω → CTState, (∀ ω, ctResampleModel huge (ctDrawsL G Ls N n.C (d ω) (x ω)) (s ω) = .ok (s' ω) ∧ ValidCTL c n (s' ω)) ∧
      HasLaw (fun ω => thetaCTL c.P.K n.C (s' ω)) (posteriorCTL c n) Pr := by
  have hμ := gen_prob G
  have ok := ctSys_ok G N h.fix
  have okn := labelNet_ok G Ls huge (NeZero.pos n.C) h.net.net h.net.prob.1 h.net.prob.2
  rw [posteriorCTL_eq (D := D) G Ls N huge] at hlaw ⊢
  exact call_law (netSweep_meas G ok okn) (netPosterior_map G ok okn) (measurable_seedsCTL (D := D) n.C) (fun x hi hl => seeds_law_ctl G Ls N huge hi hl)
    (run := fun ω x s => ctResampleModel huge (ctDrawsL G Ls N n.C (d ω) x) s) (fun ω s hs x => ctl_sweep_eq G Ls N h huge (d ω) (hd ω) s hs x) hs hx.indep hx.law hx.fresh hlaw

/-- **C96**, continuous time, whole runs -/
theorem C96_ct_chain_invariant [IsProbabilityMeasure Pr] (h : CfgOkCTL c n D) (huge : ℝ) (d : ℕ → Ω → CTDraws) (hd : ∀ t ω, CTDrawsOk c.P.K n.C (d t ω))
    (s : ℕ → Ω → CTState) (hs : ∀ ω, ValidCTL c n (s 0 ω)) (x : ℕ → Ω → SiteL CTSite → U)
    (hrun : ∀ t ω s', ctResampleModel huge (ctDrawsL G Ls N n.C (d t ω) (x t ω)) (s t ω) = .ok s' → s (t + 1) ω = s')
    (hx : ∀ t, FreshSeedsL μ Pr (fun ω => (thetaCTL c.P.K n.C (s 0 ω), fun i : Fin t => x i ω)) (x t))
    (hlaw : HasLaw (fun ω => thetaCTL c.P.K n.C (s 0 ω)) (posteriorCTL c n) Pr) (t : ℕ) :
    (∀ ω, ctResampleModel huge (ctDrawsL G Ls N n.C (d t ω) (x t ω)) (s t ω) = .ok (s (t + 1) ω)) ∧ HasLaw (fun ω => thetaCTL c.P.K n.C (s t ω)) (posteriorCTL c n) Pr := by
  have hμ := gen_prob G
  have ok := ctSys_ok G N h.fix
  have okn := labelNet_ok G Ls huge (NeZero.pos n.C) h.net.net h.net.prob.1 h.net.prob.2
  rw [posteriorCTL_eq (D := D) G Ls N huge] at hlaw ⊢
  exact chain_law (netSweep_meas G ok okn) (netPosterior_map G ok okn) (measurable_seedsCTL (D := D) n.C) (fun x hi hl => seeds_law_ctl G Ls N huge hi hl)
    (run := fun t ω x s => ctResampleModel huge (ctDrawsL G Ls N n.C (d t ω) x) s) (fun t ω s hs x => ctl_sweep_eq G Ls N h huge (d t ω) (hd t ω) s hs x) hs hrun (fun t => (hx t).indep)
    (fun t => (hx t).law) (fun t => (hx t).fresh) hlaw t

end

section
variable {c : CTState} {n : SBM} {D : CTData} [NeZero n.C]

/-- **C96**, continuous time: the posterior is a probability distribution (finite, nonzero evidence). -/
theorem C96_ct_posterior_proper (h : CfgOkCTL c n D) :
    ∫⁻ θ, likelihoodCTL c θ ∂priorCTL c n ≠ 0 ∧ ∫⁻ θ, likelihoodCTL c θ ∂priorCTL c n ≠ ⊤ ∧ IsProbabilityMeasure (posteriorCTL c n) := by
  obtain ⟨⟨G⟩, ⟨N⟩⟩ := C84_generator_exists
  obtain ⟨Ls⟩ := C96_sampler_exists
  exact net_proper_fin (S := ctSys G N c D) (Q := labelNet G Ls 0 n (NeZero.pos n.C) c.P.K) (ctSys_ok G N h.fix) (labelNet_ok G Ls 0 (NeZero.pos n.C) h.net.net h.net.prob.1 h.net.prob.2)
    (ct_latent_finite G N c D)

/-- valid parameter values -/
structure ThetaCTLOk (c : CTState) {C : ℕ} (θ : ThetaCTL c.P.K C) : Prop where
  A : ∀ e, θ.1 e = 0 ∨ θ.1 e = 1
  self : ∀ i, θ.1 (i, i) = 0
  v : ∀ a, 0 < θ.2.1.1 a
  m : ∀ b < C, 0 < θ.2.1.2.2 b
  W : ∀ e, 0 < θ.2.2.1 e
  lam : ∀ k, 0 < θ.2.2.2.1 k
  tau : ∀ e, 0 < (θ.2.2.2.2 e).2

theorem measurableSet_thetaCTLOk {C : ℕ} : MeasurableSet {θ : ThetaCTL c.P.K C | ThetaCTLOk c θ} := by
  have e : {θ : ThetaCTL c.P.K C | ThetaCTLOk c θ} = (⋂ e, ({θ | θ.1 e = 0} ∪ {θ | θ.1 e = 1})) ∩ (⋂ i, {θ | θ.1 (i, i) = 0}) ∩ (⋂ a, {θ | 0 < θ.2.1.1 a}) ∩ (⋂ b : ℕ, ⋂ _ : b < C, {θ | 0 < θ.2.1.2.2 b}) ∩
      (⋂ e, {θ | 0 < θ.2.2.1 e}) ∩ (⋂ k, {θ | 0 < θ.2.2.2.1 k}) ∩ ⋂ e, {θ | 0 < (θ.2.2.2.2 e).2} := by
    ext θ
    simp only [Set.mem_ofPred_eq, Set.mem_inter_iff, Set.mem_iInter, Set.mem_union]
    exact ⟨fun h => ⟨⟨⟨⟨⟨⟨h.A, h.self⟩, h.v⟩, h.m⟩, h.W⟩, h.lam⟩, h.tau⟩, fun h => ⟨h.1.1.1.1.1.1, h.1.1.1.1.1.2, h.1.1.1.1.2, h.1.1.1.2, h.1.1.2, h.1.2, h.2⟩⟩
  rw [e]
  refine (((((MeasurableSet.inter ?_ ?_).inter ?_).inter ?_).inter ?_).inter ?_).inter ?_
  · exact MeasurableSet.iInter fun e => (measurableSet_eq_fun (by fun_prop) measurable_const).union (measurableSet_eq_fun (by fun_prop) measurable_const)
  · exact MeasurableSet.iInter fun i => measurableSet_eq_fun (by fun_prop) measurable_const
  · exact MeasurableSet.iInter fun i => measurableSet_lt measurable_const (by fun_prop)
  · exact MeasurableSet.iInter fun b => MeasurableSet.iInter fun _ => measurableSet_lt measurable_const (by fun_prop)
  · exact MeasurableSet.iInter fun e => measurableSet_lt measurable_const (by fun_prop)
  · exact MeasurableSet.iInter fun e => measurableSet_lt measurable_const (by fun_prop)
  · exact MeasurableSet.iInter fun e => measurableSet_lt measurable_const (by fun_prop)

theorem ctl_prior_valid (h : CfgOkCTL c n D) : ∀ᵐ θ ∂priorCTL c n, ThetaCTLOk c θ := by
  obtain ⟨⟨G⟩, ⟨N⟩⟩ := C84_generator_exists
  obtain ⟨Ls⟩ := C96_sampler_exists
  obtain ⟨-, -, ha, hb, hk, hpi⟩ := h.net.net.hyper
  have ok := ctSys_ok G N h.fix
  have okn := labelNet_ok G Ls 0 (NeZero.pos n.C) h.net.net h.net.prob.1 h.net.prob.2
  have hms := (measurableSet_thetaCTLOk (c := c) (C := n.C)).compl
  rw [ae_iff, show {θ : ThetaCTL c.P.K n.C | ¬ThetaCTLOk c θ} = {θ | ThetaCTLOk c θ}ᶜ from rfl, ← lintegral_indicator_one hms]
  have hp := netPrior_lintegral (S := ctSys G N c D) (Q := labelNet G Ls 0 n (NeZero.pos n.C) c.P.K) ok okn (F := {θ : ThetaCTL c.P.K n.C | ThetaCTLOk c θ}ᶜ.indicator 1) (measurable_one.indicator hms)
  refine hp.trans ?_
  refine lintegral_eq_zero_of_ae_eq_zero ?_
  filter_upwards [coins01_values c.P.K] with A hA
  refine lintegral_eq_zero_of_ae_eq_zero ?_
  change ∀ᵐ η ∂labelPrior c.P.K n, _
  filter_upwards [labelPrior_pos n (NeZero.pos n.C) ha hb hpi] with η hη
  by_cases hself : ∀ i, A (i, i) = 0
  swap
  · push Not at hself
    obtain ⟨i, hi⟩ := hself
    have hz : ∀ W, (labelNet G Ls 0 n (NeZero.pos n.C) c.P.K).dens η A W = 0 := fun W => labelDens_self hA i hi
    simp only [hz, zero_mul, lintegral_const]
    rfl
  refine lintegral_eq_zero_of_ae_eq_zero ?_
  have hW0 : ∀ᵐ W ∂Measure.pi (fun _ : Pair c.P.K => (volume : Measure ℝ)), ∀ e, W e ≠ 0 :=
    ae_all_iff.2 fun e => (Measure.quasiMeasurePreserving_eval (fun _ : Pair c.P.K => (volume : Measure ℝ)) e).ae (Measure.ae_ne volume 0)
  filter_upwards [hW0] with W hW
  by_cases hWp : ∀ e, 0 ≤ W e
  · refine lintegral_eq_zero_of_ae_eq_zero ?_
    filter_upwards [ct_phi_valid h.fix] with φ hφ
    rw [Set.indicator_of_notMem, mul_zero]
    · rfl
    · exact fun hn => hn ⟨hA, hself, hη.1, hη.2, fun e => lt_of_le_of_ne (hWp e) (Ne.symm (hW e)), hφ.1, hφ.2⟩
  · simp only [NetSys.dens_neg hWp, zero_mul, lintegral_const]
    rfl

theorem ctl_posterior_valid (h : CfgOkCTL c n D) : ∀ᵐ θ ∂posteriorCTL c n, ThetaCTLOk c θ :=
  ((Measure.smul_absolutelyContinuous).trans (withDensity_absolutelyContinuous _ _)).ae_le (ctl_prior_valid h)

/-- the model object with parameters `θ`, all events assigned to the background -/
noncomputable def stateOfCTL (c : CTState) (n : SBM) [NeZero n.C] (θ : ThetaCTL c.P.K n.C) : CTState :=
  { stateOfCT c (erOf n 0) (θ.1, 1, θ.2.2) with net := .sbmFixed { n with
      v := fun a b => θ.2.1.1 (Fin.ofNat n.C a, Fin.ofNat n.C b), c := fun k => if h : k < c.P.K then θ.2.1.2.1 ⟨k, h⟩ else 0, m := θ.2.1.2.2 } }

theorem thetaCTL_stateOf (θ : ThetaCTL c.P.K n.C) : thetaCTL c.P.K n.C (stateOfCTL c n θ) = θ := by
  have := thetaCT_stateOf (c := c) (n := erOf n 0) (θ.1, 1, θ.2.2)
  have h1 := congrArg Prod.fst this
  have h2 := congrArg (fun y => y.2.2) this
  refine Prod.ext h1 (Prod.ext ?_ h2)
  refine Prod.ext ?_ (Prod.ext ?_ rfl)
  · funext a
    change θ.2.1.1 (Fin.ofNat n.C a.1, Fin.ofNat n.C a.2) = θ.2.1.1 a
    have e1 : Fin.ofNat n.C (a.1 : ℕ) = a.1 := Fin.ext (Nat.mod_eq_of_lt a.1.2)
    have e2 : Fin.ofNat n.C (a.2 : ℕ) = a.2 := Fin.ext (Nat.mod_eq_of_lt a.2.2)
    rw [e1, e2]
  · funext k
    refine Fin.ext ?_
    change (if h : (k : ℕ) < c.P.K then (θ.2.1.2.1 ⟨k, h⟩ : ℕ) else 0) % n.C = _
    rw [dif_pos k.2]
    exact Nat.mod_eq_of_lt (Fin.is_lt _)

theorem stateOfCTL_ok (h : CfgOkCTL c n D) {θ : ThetaCTL c.P.K n.C} (hθ : ThetaCTLOk c θ) : ValidCTL c n (stateOfCTL c n θ) := by
  have h0 := stateOfCT_ok h.fix (θ := (θ.1, 1, θ.2.2)) ⟨hθ.A, fun _ => hθ.self, one_pos, hθ.W, hθ.lam, hθ.tau⟩
  refine ⟨⟨h0.same.K, h0.same.dtMax, h0.same.alpha, h0.same.beta, h0.same.nig, ⟨_, _, _, rfl⟩, h0.same.data⟩, ⟨h0.hyper.dtMax, h0.hyper.alpha, h0.hyper.beta, h0.hyper.nig⟩, ?_, h0.data⟩
  refine ⟨h0.params.lam0, h0.params.tau, h0.params.W, h0.params.A, ?_, ?_⟩
  · intro hf i hi
    rw [show (stateOfCTL c n θ).P.A i i = _ from padM_in (K := c.P.K) θ.1 hi hi]; exact hθ.self _
  · refine ⟨h.net.net.size, h.net.net.hyper, fun k hk => ?_, h.net.net.p, fun _ _ _ _ => hθ.v _⟩
    have hk' : k < c.P.K := hk
    change (if h : k < c.P.K then (θ.2.1.2.1 ⟨k, h⟩ : ℕ) else 0) < n.C
    rw [dif_pos hk']; exact Fin.is_lt _

end

section
variable {U : Type} {Ω : Type*} [MeasurableSpace U] [MeasurableSpace Ω] {μ : Measure U} {Pr : Measure Ω} (G : Generator μ) (Ls : LabelSampler μ) (N : NormalSampler μ) {c : CTState} {n : SBM} {D : CTData} [NeZero n.C]

theorem thetaCTL_cg (K C : ℕ) : MeasurableSpace.CountablyGenerated (ThetaCTL K C) :=
  cg_prod inferInstance (cg_prod (netLabels_cg K C) (cg_prod inferInstance (cg_prod inferInstance inferInstance)))

theorem thetaCTL_valid {s : CTState} (hv : ValidCTL c n s) : thetaCTL c.P.K n.C s ∈ netValid c.P.K Set.univ (ctValid c.P.K) := by
  have hK := hv.same.K
  have hp := hv.params
  exact ⟨fun e => hp.A _ (by rw [hK]; exact e.1.2) _ (by rw [hK]; exact e.2.2), trivial, fun e => (hp.W _ (by rw [hK]; exact e.1.2) _ (by rw [hK]; exact e.2.2)).le,
    fun k => hp.lam0 _ (by rw [hK]; exact k.2), fun e => hp.tau _ (by rw [hK]; exact e.1.2) _ (by rw [hK]; exact e.2.2)⟩

/-- **C96**, continuous time, convergence: started in any valid state, the distribution of the parameters converges to the posterior in total variation, and sample averages converge to posterior
expectations. -/
theorem C96_ct_converges [IsProbabilityMeasure Pr] (h : CfgOkCTL c n D) (huge : ℝ) (d : ℕ → Ω → CTDraws)
    (hd : ∀ t ω, CTDrawsOk c.P.K n.C (d t ω)) (s : ℕ → Ω → CTState) (hs : ∀ ω, ValidCTL c n (s 0 ω) ∧ BlocksPos n.C (s 0 ω).net)
    (hm : AEMeasurable (fun ω => thetaCTL c.P.K n.C (s 0 ω)) Pr) (x : ℕ → Ω → SiteL CTSite → U)
    (hrun : ∀ t ω s', ctResampleModel huge (ctDrawsL G Ls N n.C (d t ω) (x t ω)) (s t ω) = .ok s' → s (t + 1) ω = s')
    (hx : ∀ t, FreshSeedsL μ Pr (fun ω => (thetaCTL c.P.K n.C (s 0 ω), fun i : Fin t => x i ω)) (x t)) :
    (∀ t ω, ctResampleModel huge (ctDrawsL G Ls N n.C (d t ω) (x t ω)) (s t ω) = .ok (s (t + 1) ω)) ∧
      ConvergesTV (fun t => Pr.map fun ω => thetaCTL c.P.K n.C (s t ω)) (posteriorCTL c n) ∧ AveragesConverge Pr (fun t ω => thetaCTL c.P.K n.C (s t ω)) (posteriorCTL c n) := by
  have hμ := gen_prob G
  have hcg := thetaCTL_cg c.P.K n.C
  have ok := ctSys_ok G N h.fix
  have okn := labelNet_ok G Ls huge (NeZero.pos n.C) h.net.net h.net.prob.1 h.net.prob.2
  have pS := ctSys_pos G N h.fix
  have pQ := labelNet_pos G Ls huge (NeZero.pos n.C) h.net.prob.1 h.net.prob.2 h.net.net
  obtain ⟨e0, eT, hpost⟩ := C96_ct_posterior_proper h
  rw [posteriorCTL_eq (D := D) G Ls N huge] at hpost ⊢
  have hXp := ok.X_prob
  have hYp := ok.Y_prob
  have hsl : IsProbabilityMeasure (netSeedLaw (ctSys G N c D) (labelNet G Ls huge n (NeZero.pos n.C) c.P.K) μ) := by have := okn.V_prob; unfold netSeedLaw; infer_instance
  have key := chain_converge (netSweep_meas G ok okn) (netPosterior_map G ok okn) (netValid_meas pQ.D_meas pS.D_meas) (netPosterior_valid ok okn pS pQ)
    (fun θ hθ => (netPosterior_ac G ok okn pS pQ e0 eT hθ).1) (fun θ hθ => (netPosterior_ac G ok okn pS pQ e0 eT hθ).2) (measurable_seedsCTL (c := c) (D := D) n.C)
    (fun x hi hl => seeds_law_ctl G Ls N huge hi hl) (par := thetaCTL c.P.K n.C) (valid := ValidCTL c n) (run := fun t ω x s => ctResampleModel huge (ctDrawsL G Ls N n.C (d t ω) x) s)
    (fun t ω s hs x => ctl_sweep_eq G Ls N h huge (d t ω) (hd t ω) s hs x) (s := s) (fun ω => (hs ω).1) (fun ω => thetaCTL_valid (hs ω).1) hm hrun (fun t => (hx t).indep) (fun t => (hx t).law)
    (fun t => (hx t).fresh)
  refine ⟨fun t ω => (key.1 t ω).1, key.2, ?_⟩
  exact chain_average (netSweep_meas G ok okn) (netPosterior_map G ok okn) (netValid_meas pQ.D_meas pS.D_meas) (netPosterior_valid ok okn pS pQ)
    (fun θ hθ => (netPosterior_ac G ok okn pS pQ e0 eT hθ).1) (fun θ hθ => (netPosterior_ac G ok okn pS pQ e0 eT hθ).2) (measurable_seedsCTL (c := c) (D := D) n.C)
    (fun x hi hl => seeds_law_ctl G Ls N huge hi hl) (par := thetaCTL c.P.K n.C) (valid := ValidCTL c n) (run := fun t ω x s => ctResampleModel huge (ctDrawsL G Ls N n.C (d t ω) x) s)
    (fun t ω s hs x => ctl_sweep_eq G Ls N h huge (d t ω) (hd t ω) s hs x) (s := s) (fun ω => (hs ω).1) (fun ω => thetaCTL_valid (hs ω).1) hm hrun (fun t => (hx t).indep) (fun t => (hx t).law)
    (fun t => (hx t).fresh)

end

section
variable {c : CTState} {n : SBM} {D : CTData} [NeZero n.C]

/-- **Non-vacuity of C96**, continuous time, invariance -/
theorem C96_ct_chain_hypotheses_met (h : CfgOkCTL c n D) (huge : ℝ) (d : CTDraws) :
    ∃ (Ω : Type) (_ : MeasurableSpace Ω) (Pr : Measure Ω) (_ : IsProbabilityMeasure Pr) (G : Generator (volume : Measure unitInterval)) (Ls : LabelSampler (volume : Measure unitInterval))
      (N : NormalSampler (volume : Measure unitInterval)) (s : ℕ → Ω → CTState) (x : ℕ → Ω → SiteL CTSite → unitInterval),
      (∀ ω, ValidCTL c n (s 0 ω) ∧ BlocksPos n.C (s 0 ω).net) ∧ (∀ t ω s', ctResampleModel huge (ctDrawsL G Ls N n.C d (x t ω)) (s t ω) = .ok s' → s (t + 1) ω = s') ∧
      (∀ t, FreshSeedsL volume Pr (fun ω => (thetaCTL c.P.K n.C (s 0 ω), fun i : Fin t => x i ω)) (x t)) ∧ HasLaw (fun ω => thetaCTL c.P.K n.C (s 0 ω)) (posteriorCTL c n) Pr := by
  obtain ⟨-, -, hpost⟩ := C96_ct_posterior_proper h
  obtain ⟨⟨G⟩, ⟨N⟩⟩ := C84_generator_exists
  obtain ⟨Ls⟩ := C96_sampler_exists
  obtain ⟨Ω, i1, Pr, i2, θ, x, h1, h2, h3⟩ := fresh_chain (S := SiteL CTSite) (posteriorCTL c n) measurableSet_thetaCTLOk (ctl_posterior_valid h)
  have ht : ∀ ω, thetaCTL c.P.K n.C (stateOfCTL c n (θ ω)) = θ ω := fun ω => thetaCTL_stateOf _
  have hbp : ∀ ω, BlocksPos n.C (stateOfCTL c n (θ ω)).net := fun ω => show ∀ b < n.C, 0 < (θ ω).2.1.2.2 b from (h1 ω).m
  refine ⟨Ω, i1, Pr, i2, G, Ls, N, fun t ω => Nat.rec (stateOfCTL c n (θ ω)) (fun t st => match ctResampleModel huge (ctDrawsL G Ls N n.C d (x t ω)) st with | .ok s' => s' | .error _ => st) t, x,
    fun ω => ⟨stateOfCTL_ok h (h1 ω), hbp ω⟩, ?_, ?_, ?_⟩
  · intro t ω s' hs'
    dsimp only at hs' ⊢
    rw [hs']
  · intro t
    simp only [Nat.rec_zero, ht]
    exact ⟨(h3 t).1, (h3 t).2.1, (h3 t).2.2⟩
  · simp only [Nat.rec_zero, ht]
    exact h2

/-- **Non-vacuity of C96**, continuous time, convergence: the run started in any given state -/
theorem C96_ct_hypotheses_met (huge : ℝ) (d : CTDraws) (s0 : CTState) :
    ∃ (Ω : Type) (_ : MeasurableSpace Ω) (Pr : Measure Ω) (_ : IsProbabilityMeasure Pr) (G : Generator (volume : Measure unitInterval)) (Ls : LabelSampler (volume : Measure unitInterval))
      (N : NormalSampler (volume : Measure unitInterval)) (s : ℕ → Ω → CTState) (x : ℕ → Ω → SiteL CTSite → unitInterval), (∀ ω, s 0 ω = s0) ∧ AEMeasurable (fun ω => thetaCTL c.P.K n.C (s 0 ω)) Pr ∧
      (∀ t ω s', ctResampleModel huge (ctDrawsL G Ls N n.C d (x t ω)) (s t ω) = .ok s' → s (t + 1) ω = s') ∧
      (∀ t, FreshSeedsL volume Pr (fun ω => (thetaCTL c.P.K n.C (s 0 ω), fun i : Fin t => x i ω)) (x t)) := by
  obtain ⟨⟨G⟩, ⟨N⟩⟩ := C84_generator_exists
  obtain ⟨Ls⟩ := C96_sampler_exists
  obtain ⟨Ω, i1, Pr, i2, θ, x, h1, h2, h3⟩ := fresh_chain (S := SiteL CTSite) (Measure.dirac (thetaCTL c.P.K n.C s0)) (good := Set.univ) MeasurableSet.univ (Filter.Eventually.of_forall fun _ => trivial)
  refine ⟨Ω, i1, Pr, i2, G, Ls, N, fun t ω => Nat.rec s0 (fun t st => match ctResampleModel huge (ctDrawsL G Ls N n.C d (x t ω)) st with | .ok s' => s' | .error _ => st) t, x, fun ω => rfl,
    (measurable_const (a := thetaCTL c.P.K n.C s0)).aemeasurable, ?_, ?_⟩
  · intro t ω s' hs'
    dsimp only at hs' ⊢
    rw [hs']
  · intro t
    refine ⟨(h3 t).1, (h3 t).2.1, ?_⟩
    have := (h3 t).2.2.comp (φ := fun y : ThetaCTL c.P.K n.C × (Fin t → SiteL CTSite → unitInterval) => (thetaCTL c.P.K n.C s0, y.2)) (ψ := id) (by fun_prop) measurable_id
    exact this

end

theorem demoCTL_ok : CfgOkCTL demoCTModel demoLabels demoCTData := by
  have h := demoCT_ok
  exact ⟨h.data, h.labels, h.sorted, h.T, h.boundary, h.hyper, demoLabels_net⟩

theorem demoCTDraws_ok2 (K : ℕ) : CTDrawsOk K 2 (demoCTDraws K) := by
  have h := demoCTDraws_ok K
  have hind : IsProb 2 (fun b => if b = 0 then (1:ℝ) else 0) := ⟨fun c hc => by dsimp only; split_ifs <;> norm_num, by simp⟩
  exact ⟨h.parU, h.sched, h.lam, h.nigGam, ⟨h.net.erGamma, h.net.netGamma, h.net.netBeta, fun _ _ => by simp [demoCTDraws], fun _ _ => hind⟩, h.weight, h.unif, h.order⟩

/-- **Non-vacuity of C96**, continuous time: a model with two processes, two blocks and three events, started in a fixed valid state -/
theorem C96_ct_demo_run : ∃ (Ω : Type) (_ : MeasurableSpace Ω) (Pr : Measure Ω) (_ : IsProbabilityMeasure Pr) (G : Generator (volume : Measure unitInterval)) (Ls : LabelSampler (volume : Measure unitInterval))
    (N : NormalSampler (volume : Measure unitInterval)) (s : ℕ → Ω → CTState) (x : ℕ → Ω → SiteL CTSite → unitInterval) (s0 : CTState), (∀ ω, s 0 ω = s0) ∧
      (∀ t ω, ctResampleModel 1 (ctDrawsL G Ls N 2 (demoCTDraws 2) (x t ω)) (s t ω) = .ok (s (t + 1) ω)) ∧
      ConvergesTV (fun t => Pr.map fun ω => thetaCTL 2 2 (s t ω)) (posteriorCTL demoCTModel demoLabels) := by
  have h := demoCTL_ok
  have := (C96_ct_posterior_proper h).2.2
  obtain ⟨θ, hθ⟩ := (ctl_posterior_valid h).exists
  obtain ⟨Ω, i1, Pr, i2, G, Ls, N, s, x, e0, hm, hrun, hx⟩ := C96_ct_hypotheses_met (c := demoCTModel) (n := demoLabels) 1 (demoCTDraws 2) (stateOfCTL demoCTModel demoLabels θ)
  have key := C96_ct_converges G Ls N h 1 (fun _ _ => demoCTDraws 2) (fun _ _ => demoCTDraws_ok2 2) s
    (fun ω => by rw [e0 ω]; exact ⟨stateOfCTL_ok h hθ, show ∀ b < demoLabels.C, 0 < θ.2.1.2.2 b from hθ.m⟩) hm x hrun hx
  exact ⟨Ω, i1, Pr, i2, G, Ls, N, s, x, _, e0, key.1, key.2.1⟩

end PyHawkes
