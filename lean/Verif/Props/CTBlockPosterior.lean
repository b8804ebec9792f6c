import Verif.Props.CTSweepNet
import Verif.Props.NetBlock
import Verif.Props.ChainLaw
import Verif.Props.CTProper
import Verif.Props.ChainSpace
import Verif.Spec.PosteriorCTBlock

/-!
# C84 for the default kind of network: `resample_model` of the continuous-time model with a learned one-block network leaves the posterior distribution invariant
-/
set_option linter.unusedSectionVars false
set_option linter.unusedVariables false

namespace PyHawkes
open Finset Spec MeasureTheory ProbabilityTheory

section
variable {U : Type*} [MeasurableSpace U] {μ : Measure U} (G : Generator μ) (Bt : BetaSampler μ)

/-- the update of a learned one-block network -/
theorem block_resample {K : ℕ} {n : SBM} (hn : SbmOk K n) (h1 : n.C = 1) (hf : n.fixed = false) (huge : ℝ) (o : SBMOracle) (er : GammaArgs → ℝ) (A W : Mat ℝ) (p0 v0 : Mat ℝ) (m0 : Vec ℝ) :
    ∃ p v m, Net.resample huge o er A W (.sbm { n with p := p0, v := v0, m := m0 }) = .sbm { n with p := p, v := v, m := m } ∧
      p 0 0 = o.beta 0 0 ⟨n.tau1 + ∑ e : Pair K, A e.1 e.2, n.tau0 + ∑ e : Pair K, (1 - A e.1 e.2)⟩ ∧
      v 0 0 = o.gamma 0 0 ⟨n.alpha + (∑ e : Pair K, A e.1 e.2) * n.kappa, 1 / (n.beta + ∑ e : Pair K, if 0 < A e.1 e.2 then W e.1 e.2 else 0)⟩ := by
  have hnK : n.K = K := hn.size
  have hlab : ∀ k < K, n.c k = 0 := fun k hk => by have := hn.labels k hk; rw [h1] at this; omega
  have hsum : ∀ f : ℕ → ℕ → ℝ, blockSum { n with p := p0, v := v0, m := m0 } 0 0 f = ∑ e : Pair K, f e.1 e.2 := by
    intro f
    unfold blockSum
    dsimp only
    rw [hnK, ← sum_pairs]
    refine sum_congr rfl fun i hi => sum_congr rfl fun j hj => ?_
    rw [if_pos ⟨hlab i (mem_range.1 hi), hlab j (mem_range.1 hj)⟩]
  set n0 : SBM := { n with p := p0, v := v0, m := m0 } with hn0'
  refine ⟨(sbmResampleP o A n0).p, (sbmResampleV o A W n0).v, o.dirichlet (sbmMArgs n), ?_, ?_, ?_⟩
  · change Net.sbm (sbmResample huge o A W _) = _
    unfold sbmResample sbmResampleC
    rw [if_neg (by rw [hf]; simp)]
    unfold sbmResampleV sbmResampleP sbmResampleM
    dsimp only
    rw [if_pos h1]
    rfl
  · unfold sbmResampleP
    dsimp only
    rw [if_pos ⟨by rw [h1]; exact one_pos, by rw [h1]; exact one_pos⟩]
    unfold sbmPArgs
    rw [hsum, hsum]
  · unfold sbmResampleV
    dsimp only
    rw [if_pos ⟨by rw [h1]; exact one_pos, by rw [h1]; exact one_pos⟩]
    unfold sbmVArgs
    dsimp only
    rw [hsum, hsum]

end

section
variable {U Ω : Type*} [MeasurableSpace U] [MeasurableSpace Ω] {μ : Measure U} {Pr : Measure Ω} (G : Generator μ) (Bt : BetaSampler μ) (N : NormalSampler μ) {c : CTState} {n : SBM} {D : CTData}

theorem _root_.PyHawkes.Spec.CfgOkCTB.fix (h : CfgOkCTB c n D) : CfgOkCT c (erOf n 0) D := by
  obtain ⟨-, -, ha, hb, hk, -⟩ := h.net.hyper
  refine ⟨h.data, h.labels, h.sorted, h.T, h.boundary, h.hyper, ⟨h.net.size, ⟨le_rfl, zero_le_one⟩, hk, one_pos, ?_, ?_⟩⟩
  · intro a he
    rw [← Option.some.inj (Option.mem_def.1 he)]; exact ha.le
  · intro a he
    rw [← Option.some.inj (Option.mem_def.1 he)]; exact hb.le

theorem _root_.PyHawkes.Spec.CfgOkCTB.block (h : CfgOkCTB c n D) : BlockHyper n := by
  obtain ⟨h0, h1, ha, hb, hk, -⟩ := h.net.hyper
  exact ⟨h0, h1, ha, hb, hk⟩

/-- `s` is a state of the model `c` with the one-block network `n`, with valid parameters and with parent statistics that match the stored parents -/
structure ValidCTB (c : CTState) (n : SBM) (s : CTState) : Prop where
  same : SameModelCTB c n s
  hyper : CTHyperOk s
  params : CTParamsOk s
  data : ∀ D ∈ s.data, CTDataOk s.P.K s.P.dtMax D

theorem ctDrawsB_ok {K : ℕ} (d : CTDraws) (hd : CTDrawsOk K 1 d) (x : CTSiteB → U) : CTDrawsOk K 1 (ctDrawsB G Bt N d x) := by
  have h := ctDraws_ok G N d hd fun σ => x (.other σ)
  exact ⟨h.parU, h.sched, h.lam, h.nigGam, ⟨h.net.erGamma, fun i j a => G.gam_pos a _, fun i j a => Bt.bet_mem a _, hd.net.netLabel, hd.net.netDir⟩, h.weight, h.unif, h.order⟩

/-- the seeds of the in-range call sites -/
def seedsCTB (c : CTState) (D : CTData) (x : CTSiteB → U) : NetSeeds c.P.K U (U × U) (Fin D.N → U) ((Fin c.P.K → U) × (Pair c.P.K → U × U)) :=
  (fun n => x (.other (.parent 0 n)), (fun k => x (.other (.lam k)), fun e => (x (.other (.precision e.1 e.2)), x (.other (.mean e.1 e.2)))), (x .prob, x (.other .scale)),
    fun e => x (.other (.weight e.1 e.2)), fun e => x (.other (.unif e.1 e.2)))

/-- **The parameters after one `resample_model` call are a function of the parameters before and the seeds of the in-range call sites.** -/
theorem ctb_sweep_eq (h : CfgOkCTB c n D) (huge : ℝ) (d : CTDraws) (hd : CTDrawsOk c.P.K 1 d) (s : CTState) (hv : ValidCTB c n s) (x : CTSiteB → U) :
    ∃ s', ctResampleModel huge (ctDrawsB G Bt N d x) s = .ok s' ∧ ValidCTB c n s' ∧
      thetaCTB c.P.K s' = netSweep (ctSys G N c D) (blockNet G Bt c.P.K n) G (thetaCTB c.P.K s) (seedsCTB c D x) := by
  obtain ⟨p0, v0, m0, hn0⟩ := hv.same.net
  have hblocks : blocks s.net = 1 := by rw [hn0]; exact h.one
  have hdo := ctDrawsB_ok G Bt N d hd x
  obtain ⟨s', hr, hv', hnet, φ, W, hφ, hW, hφ', hW', hA'⟩ := ct_sweep_net (D := D) G N h.fix huge (ctDrawsB G Bt N d x) s
    ⟨hv.same.K, hv.same.dtMax, hv.same.alpha, hv.same.beta, hv.same.nig, hv.same.data, hv.hyper, hv.params, hv.data⟩ (by rw [hblocks]; exact hdo) (fun σ => x (.other σ))
    ⟨fun _ => rfl, fun _ _ => rfl, fun _ _ _ => rfl, fun _ _ _ _ => rfl, fun _ _ _ => rfl, fun _ _ => rfl⟩
  obtain ⟨p, v, m, hb, hp, hvv⟩ := block_resample (K := c.P.K) h.net h.one h.learned huge (ctDrawsB G Bt N d x).net (ctDrawsB G Bt N d x).erGamma s.P.A s.P.W p0 v0 m0
  rw [hn0, hb] at hnet
  have hlab : ∀ k < c.P.K, n.c k = 0 := fun k hk => by have := h.net.labels k hk; rw [h.one] at this; omega
  have hV : ∀ e : Pair c.P.K, s'.net.V e.1 e.2 = v 0 0 := by
    intro e
    rw [hnet]
    change SBM.V _ e.1 e.2 = _
    unfold SBM.V
    dsimp only
    rw [hlab e.1 e.1.2, hlab e.2 e.2.2]
  have hPe : ∀ e : Pair c.P.K, s'.net.P e.1 e.2 = p 0 0 := by
    intro e
    rw [hnet]
    change SBM.P _ e.1 e.2 = _
    unfold SBM.P
    dsimp only
    rw [if_neg (by rw [h.self]; simp), hlab e.1 e.1.2, hlab e.2 e.2.2]
  have hk : s'.net.kappa = n.kappa := by rw [hnet]; rfl
  refine ⟨s', hr, ⟨⟨hv'.K, hv'.dtMax, hv'.alpha, hv'.beta, hv'.nig, ⟨p, v, m, hnet⟩, hv'.events⟩, hv'.hyper, hv'.params, hv'.data⟩, ?_⟩
  have hη : (netProb s'.net, netScaleB s'.net) = (blockNet G Bt c.P.K n).step (x .prob, x (.other .scale)) (netProb s.net, netScaleB s.net) (fun e => s.P.A e.1 e.2) (fun e => s.P.W e.1 e.2) := by
    rw [hnet]
    exact Prod.ext hp hvv
  have hη1 : p 0 0 = ((blockNet G Bt c.P.K n).step (x .prob, x (.other .scale)) (netProb s.net, netScaleB s.net) (fun e => s.P.A e.1 e.2) (fun e => s.P.W e.1 e.2)).1 := hp
  have hη2 : v 0 0 = ((blockNet G Bt c.P.K n).step (x .prob, x (.other .scale)) (netProb s.net, netScaleB s.net) (fun e => s.P.A e.1 e.2) (fun e => s.P.W e.1 e.2)).2 := hvv
  simp only [hV, hk, hη2] at hW
  simp only [hPe, hη1] at hA'
  refine Prod.ext ?_ (Prod.ext hη (Prod.ext ?_ ?_))
  · refine hA'.trans ?_
    rw [hφ, hW]
    rfl
  · exact hW'.trans hW
  · exact hφ'.trans hφ

/-- index of all in-range call sites -/
abbrev CallsCTB (c : CTState) (D : CTData) := Fin D.N ⊕ Fin c.P.K ⊕ (Pair c.P.K ⊕ Pair c.P.K) ⊕ (Unit ⊕ Unit) ⊕ Pair c.P.K ⊕ Pair c.P.K

/-- the call site of an index -/
def callSiteCTB (c : CTState) (D : CTData) : CallsCTB c D → CTSiteB
  | .inl n => .other (.parent 0 n)
  | .inr (.inl k) => .other (.lam k)
  | .inr (.inr (.inl (.inl e))) => .other (.precision e.1 e.2)
  | .inr (.inr (.inl (.inr e))) => .other (.mean e.1 e.2)
  | .inr (.inr (.inr (.inl (.inl _)))) => .prob
  | .inr (.inr (.inr (.inl (.inr _)))) => .other .scale
  | .inr (.inr (.inr (.inr (.inl e)))) => .other (.weight e.1 e.2)
  | .inr (.inr (.inr (.inr (.inr e)))) => .other (.unif e.1 e.2)

theorem callSiteCTB_inj : Function.Injective (callSiteCTB c D) := by
  have pair : ∀ {e e' : Pair c.P.K}, (e.1 : ℕ) = e'.1 → (e.2 : ℕ) = e'.2 → e = e' := fun h1 h2 => Prod.ext (Fin.ext h1) (Fin.ext h2)
  rintro (k | k | (e | e) | (u | u) | e | e) (k' | k' | (e' | e') | (u' | u') | e' | e') h <;>
    simp only [callSiteCTB, CTSiteB.other.injEq, CTSite.parent.injEq, CTSite.lam.injEq, CTSite.precision.injEq, CTSite.mean.injEq, CTSite.weight.injEq, CTSite.unif.injEq, reduceCtorEq] at h
  · rw [Fin.ext h.2]
  · rw [Fin.ext h]
  · rw [pair h.1 h.2]
  · rw [pair h.1 h.2]
  · rfl
  · rfl
  · rw [pair h.1 h.2]
  · rw [pair h.1 h.2]

/-- the seeds from the indexed family -/
def unbundleCTB (c : CTState) (D : CTData) (y : CallsCTB c D → U) : NetSeeds c.P.K U (U × U) (Fin D.N → U) ((Fin c.P.K → U) × (Pair c.P.K → U × U)) :=
  (fun n => y (.inl n), (fun k => y (.inr (.inl k)), fun e => (y (.inr (.inr (.inl (.inl e)))), y (.inr (.inr (.inl (.inr e)))))), (y (.inr (.inr (.inr (.inl (.inl ()))))), y (.inr (.inr (.inr (.inl (.inr ())))))),
    fun e => y (.inr (.inr (.inr (.inr (.inl e))))), fun e => y (.inr (.inr (.inr (.inr (.inr e))))))

theorem unbundleCTB_law [IsProbabilityMeasure μ] : MeasurePreserving (unbundleCTB c D) (Measure.pi fun _ : CallsCTB c D => μ) (netSeedLaw (ctSys G N c D) (blockNet G Bt c.P.K n) μ) := by
  have split : ∀ (ι ι' : Type) [Fintype ι] [Fintype ι'], MeasurePreserving (fun y : ι ⊕ ι' → U => ((fun i => y (.inl i) : ι → U), (fun i => y (.inr i) : ι' → U)))
      (Measure.pi fun _ => μ) ((Measure.pi fun _ => μ).prod (Measure.pi fun _ => μ)) := fun ι ι' _ _ => measurePreserving_sumPiEquivProdPi (X := fun _ => U) fun _ => μ
  have h5 := split (Pair c.P.K) (Pair c.P.K)
  have hu : MeasurePreserving (fun y : Unit → U => y ()) (Measure.pi fun _ => μ) μ := measurePreserving_funUnique μ Unit
  have huu := (hu.prod hu).comp (split Unit Unit)
  have h4 := (huu.prod h5).comp (split (Unit ⊕ Unit) (Pair c.P.K ⊕ Pair c.P.K))
  have hz := (zip_law (ι := Pair c.P.K) (μ := μ)).comp h5
  have h3 := (hz.prod h4).comp (split (Pair c.P.K ⊕ Pair c.P.K) ((Unit ⊕ Unit) ⊕ Pair c.P.K ⊕ Pair c.P.K))
  have h2 := ((MeasurePreserving.id (Measure.pi fun _ : Fin c.P.K => μ)).prod h3).comp (split (Fin c.P.K) ((Pair c.P.K ⊕ Pair c.P.K) ⊕ (Unit ⊕ Unit) ⊕ Pair c.P.K ⊕ Pair c.P.K))
  have ha := measurePreserving_prodAssoc (Measure.pi fun _ : Fin c.P.K => μ) (Measure.pi fun _ : Pair c.P.K => μ.prod μ)
    ((μ.prod μ).prod ((Measure.pi fun _ : Pair c.P.K => μ).prod (Measure.pi fun _ : Pair c.P.K => μ)))
  have h2' := ha.symm.comp h2
  exact ((MeasurePreserving.id (Measure.pi fun _ : Fin D.N => μ)).prod h2').comp (split (Fin D.N) (Fin c.P.K ⊕ (Pair c.P.K ⊕ Pair c.P.K) ⊕ (Unit ⊕ Unit) ⊕ Pair c.P.K ⊕ Pair c.P.K))

theorem seeds_law_ctb [IsProbabilityMeasure μ] [IsProbabilityMeasure Pr] {x : Ω → CTSiteB → U} (hi : iIndepFun (fun σ ω => x ω σ) Pr) (hl : ∀ σ, HasLaw (fun ω => x ω σ) μ Pr) :
    HasLaw (fun ω => seedsCTB c D (x ω)) (netSeedLaw (ctSys G N c D) (blockNet G Bt c.P.K n) μ) Pr := by
  have h1 : iIndepFun (fun (a : CallsCTB c D) ω => x ω (callSiteCTB c D a)) Pr := hi.precomp callSiteCTB_inj
  have h2 : HasLaw (fun ω (a : CallsCTB c D) => x ω (callSiteCTB c D a)) (Measure.pi fun _ => μ) Pr := iIndepFun.hasLaw_pi (fun a => hl _) h1
  exact (unbundleCTB_law (c := c) (D := D) (μ := μ) G Bt N).fun_comp_hasLaw h2

theorem measurable_seedsCTB : Measurable fun x : CTSiteB → U => seedsCTB c D x := by unfold seedsCTB; fun_prop

theorem posteriorCTB_eq : posteriorCTB c n = netPosterior (ctSys G N c D) (blockNet G Bt c.P.K n) := rfl

/-- **C84** for a learned one-block network, the default kind of network (`StochasticBlockModel` with `C=1`, `ErdosRenyiModel`): if the parameters of the continuous-time model, including edge
probability and weight scale, have the posterior distribution, then `resample_model` succeeds and the parameters it leaves have the posterior distribution. -/
theorem C84_block_posterior_invariant [IsProbabilityMeasure Pr] (h : CfgOkCTB c n D) (huge : ℝ) (d : Ω → CTDraws) (hd : ∀ ω, CTDrawsOk c.P.K 1 (d ω))
    (s : Ω → CTState) (hs : ∀ ω, ValidCTB c n (s ω)) (x : Ω → CTSiteB → U)
    (hx : FreshSeedsCTB μ Pr (fun ω => thetaCTB c.P.K (s ω)) x) (hlaw : HasLaw (fun ω => thetaCTB c.P.K (s ω)) (posteriorCTB c n) Pr) :
    ∃ s' : Ω → CTState, (∀ ω, ctResampleModel huge (ctDrawsB G Bt N (d ω) (x ω)) (s ω) = .ok (s' ω) ∧ ValidCTB c n (s' ω)) ∧
      HasLaw (fun ω => thetaCTB c.P.K (s' ω)) (posteriorCTB c n) Pr := by
  have hμ := gen_prob G
  have ok := ctSys_ok G N h.fix
  have okn := blockNet_ok G Bt c.P.K h.block
  rw [posteriorCTB_eq (D := D) G Bt N] at hlaw ⊢
  exact call_law (netSweep_meas G ok okn) (netPosterior_map G ok okn) measurable_seedsCTB (fun x hi hl => seeds_law_ctb G Bt N hi hl)
    (run := fun ω x s => ctResampleModel huge (ctDrawsB G Bt N (d ω) x) s) (fun ω s hs x => ctb_sweep_eq G Bt N h huge (d ω) (hd ω) s hs x) hs hx.indep hx.law hx.fresh hlaw

/-- **C84** for a learned one-block network, whole runs: successive calls of `resample_model`, the seeds of each call fresh -/
theorem C84_block_chain_invariant [IsProbabilityMeasure Pr] (h : CfgOkCTB c n D) (huge : ℝ) (d : ℕ → Ω → CTDraws) (hd : ∀ t ω, CTDrawsOk c.P.K 1 (d t ω))
    (s : ℕ → Ω → CTState) (hs : ∀ ω, ValidCTB c n (s 0 ω)) (x : ℕ → Ω → CTSiteB → U)
    (hrun : ∀ t ω s', ctResampleModel huge (ctDrawsB G Bt N (d t ω) (x t ω)) (s t ω) = .ok s' → s (t + 1) ω = s')
    (hx : ∀ t, FreshSeedsCTB μ Pr (fun ω => (thetaCTB c.P.K (s 0 ω), fun i : Fin t => x i ω)) (x t))
    (hlaw : HasLaw (fun ω => thetaCTB c.P.K (s 0 ω)) (posteriorCTB c n) Pr) (t : ℕ) :
    (∀ ω, ctResampleModel huge (ctDrawsB G Bt N (d t ω) (x t ω)) (s t ω) = .ok (s (t + 1) ω)) ∧ HasLaw (fun ω => thetaCTB c.P.K (s t ω)) (posteriorCTB c n) Pr := by
  have hμ := gen_prob G
  have ok := ctSys_ok G N h.fix
  have okn := blockNet_ok G Bt c.P.K h.block
  rw [posteriorCTB_eq (D := D) G Bt N] at hlaw ⊢
  exact chain_law (netSweep_meas G ok okn) (netPosterior_map G ok okn) measurable_seedsCTB (fun x hi hl => seeds_law_ctb G Bt N hi hl)
    (run := fun t ω x s => ctResampleModel huge (ctDrawsB G Bt N (d t ω) x) s) (fun t ω s hs x => ctb_sweep_eq G Bt N h huge (d t ω) (hd t ω) s hs x) hs hrun (fun t => (hx t).indep)
    (fun t => (hx t).law) (fun t => (hx t).fresh) hlaw t

end

/-! ### the posterior is a probability distribution and the hypotheses can be met -/

section
variable {c : CTState} {n : SBM} {D : CTData}

theorem ct_latent_finite {U : Type*} [MeasurableSpace U] {μ : Measure U} (G : Generator μ) (N : NormalSampler μ) (c : CTState) (D : CTData) :
    ∃ s : Finset (ZCT D), (∀ z ∉ s, ∀ φ, (ctSys G N c D).fφ φ z = 0) ∧ ∀ z ∈ s, ∀ e, (ctSys G N c D).via z e ≠ 0 → 1 ≤ (ctSys G N c D).ev e.1 := by
  classical
  refine ⟨(goodZ_finite c.P.dtMax).toFinset, fun z hz φ => ?_, fun z hz e hv => ?_⟩
  · rw [Set.Finite.mem_toFinset] at hz
    exact if_neg hz
  · rw [Set.Finite.mem_toFinset] at hz
    have hz' : GoodZ D c.P.dtMax z := hz
    have hv' : (children D (zN z) e.1 e.2).card ≠ 0 := hv
    obtain ⟨m, hm⟩ := card_pos.1 (Nat.pos_of_ne_zero hv')
    unfold children at hm
    obtain ⟨hm, h0, h1, -⟩ := mem_filter.1 hm
    have hmN := mem_range.1 hm
    rw [zN_in z hmN] at h0 h1
    change (1 : ℝ) ≤ (D.Ns e.1 : ℝ)
    have : 1 ≤ D.Ns e.1 := by
      rw [CTData.Ns_eq_card]
      refine card_pos.2 ?_
      rcases hz' ⟨m, hmN⟩ with hb | ⟨p, hp, hpm, -⟩
      · rw [hb] at h0; omega
      · refine ⟨p, mem_filter.2 ⟨mem_range.2 (lt_trans hpm hmN), ?_⟩⟩
        rw [hp] at h1
        simpa using h1
    exact_mod_cast this

/-- **C84** for a learned one-block network: the posterior is a probability distribution (finite, nonzero evidence). -/
theorem C84_block_posterior_proper (h : CfgOkCTB c n D) :
    ∫⁻ θ, likelihoodCTB c θ ∂priorCTB c n ≠ 0 ∧ ∫⁻ θ, likelihoodCTB c θ ∂priorCTB c n ≠ ⊤ ∧ IsProbabilityMeasure (posteriorCTB c n) := by
  obtain ⟨⟨G⟩, ⟨N⟩⟩ := C84_generator_exists
  obtain ⟨Bt⟩ := C83_beta_sampler_exists
  exact net_proper_fin (S := ctSys G N c D) (Q := blockNet G Bt c.P.K n) (ctSys_ok G N h.fix) (blockNet_ok G Bt c.P.K h.block) (ct_latent_finite G N c D)

/-- valid parameter values -/
structure ThetaCTBOk (c : CTState) (θ : ThetaCTB c.P.K) : Prop where
  A : ∀ e, θ.1 e = 0 ∨ θ.1 e = 1
  p : 0 ≤ θ.2.1.1 ∧ θ.2.1.1 ≤ 1
  v : 0 < θ.2.1.2
  W : ∀ e, 0 < θ.2.2.1 e
  lam : ∀ k, 0 < θ.2.2.2.1 k
  tau : ∀ e, 0 < (θ.2.2.2.2 e).2

theorem measurableSet_thetaCTBOk : MeasurableSet {θ : ThetaCTB c.P.K | ThetaCTBOk c θ} := by
  have e : {θ : ThetaCTB c.P.K | ThetaCTBOk c θ} = (⋂ e, ({θ | θ.1 e = 0} ∪ {θ | θ.1 e = 1})) ∩ {θ | 0 ≤ θ.2.1.1} ∩ {θ | θ.2.1.1 ≤ 1} ∩ {θ | 0 < θ.2.1.2} ∩ (⋂ e, {θ | 0 < θ.2.2.1 e}) ∩
      (⋂ k, {θ | 0 < θ.2.2.2.1 k}) ∩ ⋂ e, {θ | 0 < (θ.2.2.2.2 e).2} := by
    ext θ
    simp only [Set.mem_ofPred_eq, Set.mem_inter_iff, Set.mem_iInter, Set.mem_union]
    exact ⟨fun h => ⟨⟨⟨⟨⟨⟨h.A, h.p.1⟩, h.p.2⟩, h.v⟩, h.W⟩, h.lam⟩, h.tau⟩, fun h => ⟨h.1.1.1.1.1.1, ⟨h.1.1.1.1.1.2, h.1.1.1.1.2⟩, h.1.1.1.2, h.1.1.2, h.1.2, h.2⟩⟩
  rw [e]
  refine (((((MeasurableSet.inter ?_ ?_).inter ?_).inter ?_).inter ?_).inter ?_).inter ?_
  · exact MeasurableSet.iInter fun e => (measurableSet_eq_fun (by fun_prop) measurable_const).union (measurableSet_eq_fun (by fun_prop) measurable_const)
  · exact measurableSet_le measurable_const (by fun_prop)
  · exact measurableSet_le (by fun_prop) measurable_const
  · exact measurableSet_lt measurable_const (by fun_prop)
  · exact MeasurableSet.iInter fun e => measurableSet_lt measurable_const (by fun_prop)
  · exact MeasurableSet.iInter fun e => measurableSet_lt measurable_const (by fun_prop)
  · exact MeasurableSet.iInter fun e => measurableSet_lt measurable_const (by fun_prop)

theorem ctb_prior_valid (h : CfgOkCTB c n D) : ∀ᵐ θ ∂priorCTB c n, ThetaCTBOk c θ := by
  obtain ⟨⟨G⟩, ⟨N⟩⟩ := C84_generator_exists
  obtain ⟨Bt⟩ := C83_beta_sampler_exists
  have ok := ctSys_ok G N h.fix
  have okn := blockNet_ok G Bt c.P.K h.block
  have hms := (measurableSet_thetaCTBOk (c := c)).compl
  rw [ae_iff, show {θ : ThetaCTB c.P.K | ¬ThetaCTBOk c θ} = {θ | ThetaCTBOk c θ}ᶜ from rfl, ← lintegral_indicator_one hms]
  have hp := netPrior_lintegral (S := ctSys G N c D) (Q := blockNet G Bt c.P.K n) ok okn (F := {θ : ThetaCTB c.P.K | ThetaCTBOk c θ}ᶜ.indicator 1) (measurable_one.indicator hms)
  refine hp.trans ?_
  refine lintegral_eq_zero_of_ae_eq_zero ?_
  filter_upwards [coins01_values c.P.K] with A hA
  refine lintegral_eq_zero_of_ae_eq_zero ?_
  have hη := beta_mem (a := n.tau1) (b := n.tau0)
  have h1 := (Measure.quasiMeasurePreserving_fst (μ := betaMeasure n.tau1 n.tau0) (ν := gammaMeasure n.alpha n.beta)).ae hη
  have h2 := (Measure.quasiMeasurePreserving_snd (μ := betaMeasure n.tau1 n.tau0) (ν := gammaMeasure n.alpha n.beta)).ae gammaMeasure_pos
  change ∀ᵐ η : ℝ × ℝ ∂((betaMeasure n.tau1 n.tau0).prod (gammaMeasure n.alpha n.beta)), _
  filter_upwards [h1, h2] with η hη1 hη2
  refine lintegral_eq_zero_of_ae_eq_zero ?_
  have hW0 : ∀ᵐ W ∂Measure.pi (fun _ : Pair c.P.K => (volume : Measure ℝ)), ∀ e, W e ≠ 0 :=
    ae_all_iff.2 fun e => (Measure.quasiMeasurePreserving_eval (fun _ : Pair c.P.K => (volume : Measure ℝ)) e).ae (Measure.ae_ne volume 0)
  filter_upwards [hW0] with W hW
  by_cases hWp : ∀ e, 0 ≤ W e
  · refine lintegral_eq_zero_of_ae_eq_zero ?_
    filter_upwards [ct_phi_valid h.fix] with φ hφ
    rw [Set.indicator_of_notMem, mul_zero]
    · rfl
    · exact fun hn => hn ⟨hA, hη1, hη2, fun e => lt_of_le_of_ne (hWp e) (Ne.symm (hW e)), hφ.1, hφ.2⟩
  · simp only [NetSys.dens_neg hWp, zero_mul, lintegral_const]
    rfl

theorem ctb_posterior_valid (h : CfgOkCTB c n D) : ∀ᵐ θ ∂posteriorCTB c n, ThetaCTBOk c θ :=
  ((Measure.smul_absolutelyContinuous).trans (withDensity_absolutelyContinuous _ _)).ae_le (ctb_prior_valid h)

/-- the model object with parameters `θ`, all events assigned to the background -/
noncomputable def stateOfCTB (c : CTState) (n : SBM) (θ : ThetaCTB c.P.K) : CTState :=
  { stateOfCT c (erOf n θ.2.1.1) (θ.1, θ.2.1.2, θ.2.2) with net := .sbm { n with p := fun _ _ => θ.2.1.1, v := fun _ _ => θ.2.1.2 } }

theorem thetaCTB_stateOf (θ : ThetaCTB c.P.K) : thetaCTB c.P.K (stateOfCTB c n θ) = θ := by
  have := thetaCT_stateOf (c := c) (n := erOf n θ.2.1.1) (θ.1, θ.2.1.2, θ.2.2)
  have h1 := congrArg Prod.fst this
  have h2 := congrArg (fun y => y.2.2) this
  exact Prod.ext h1 (Prod.ext rfl h2)

theorem stateOfCTB_ok (h : CfgOkCTB c n D) {θ : ThetaCTB c.P.K} (hθ : ThetaCTBOk c θ) : ValidCTB c n (stateOfCTB c n θ) := by
  have h0 := stateOfCT_ok h.fix (θ := (θ.1, θ.2.1.2, θ.2.2)) ⟨hθ.A, fun hf => (by cases hf), hθ.v, hθ.W, hθ.lam, hθ.tau⟩
  refine ⟨⟨h0.same.K, h0.same.dtMax, h0.same.alpha, h0.same.beta, h0.same.nig, ⟨_, _, _, rfl⟩, h0.same.data⟩, ⟨h0.hyper.dtMax, h0.hyper.alpha, h0.hyper.beta, h0.hyper.nig⟩, ?_, h0.data⟩
  refine ⟨h0.params.lam0, h0.params.tau, h0.params.W, h0.params.A, ?_, ?_⟩
  · intro hf
    have : n.allowSelf = false := hf
    rw [h.self] at this; cases this
  · exact ⟨h.net.size, h.net.hyper, h.net.labels, fun _ _ _ _ => hθ.p, fun _ _ _ _ => hθ.v⟩

/-- **Non-vacuity of C84 for learned one-block networks**: for every valid model with one data set there are a probability space, a run of `resample_model` from a random model object whose
parameters have the posterior distribution, fresh seeds for every call, and random number generators as the chain theorem assumes them. -/
theorem C84_block_chain_hypotheses_met (h : CfgOkCTB c n D) (huge : ℝ) (d : CTDraws) :
    ∃ (Ω : Type) (_ : MeasurableSpace Ω) (Pr : Measure Ω) (_ : IsProbabilityMeasure Pr) (G : Generator (volume : Measure unitInterval)) (Bt : BetaSampler (volume : Measure unitInterval))
      (N : NormalSampler (volume : Measure unitInterval)) (s : ℕ → Ω → CTState) (x : ℕ → Ω → CTSiteB → unitInterval),
      (∀ ω, ValidCTB c n (s 0 ω)) ∧ (∀ t ω s', ctResampleModel huge (ctDrawsB G Bt N d (x t ω)) (s t ω) = .ok s' → s (t + 1) ω = s') ∧
      (∀ t, FreshSeedsCTB volume Pr (fun ω => (thetaCTB c.P.K (s 0 ω), fun i : Fin t => x i ω)) (x t)) ∧ HasLaw (fun ω => thetaCTB c.P.K (s 0 ω)) (posteriorCTB c n) Pr := by
  obtain ⟨-, -, hpost⟩ := C84_block_posterior_proper h
  obtain ⟨⟨G⟩, ⟨N⟩⟩ := C84_generator_exists
  obtain ⟨Bt⟩ := C83_beta_sampler_exists
  obtain ⟨Ω, i1, Pr, i2, θ, x, h1, h2, h3⟩ := fresh_chain (S := CTSiteB) (posteriorCTB c n) measurableSet_thetaCTBOk (ctb_posterior_valid h)
  have ht : ∀ ω, thetaCTB c.P.K (stateOfCTB c n (θ ω)) = θ ω := fun ω => thetaCTB_stateOf _
  refine ⟨Ω, i1, Pr, i2, G, Bt, N, fun t ω => Nat.rec (stateOfCTB c n (θ ω)) (fun t st => match ctResampleModel huge (ctDrawsB G Bt N d (x t ω)) st with | .ok s' => s' | .error _ => st) t, x,
    fun ω => stateOfCTB_ok h (h1 ω), ?_, ?_, ?_⟩
  · intro t ω s' hs'
    dsimp only at hs' ⊢
    rw [hs']
  · intro t
    simp only [Nat.rec_zero, ht]
    exact ⟨(h3 t).1, (h3 t).2.1, (h3 t).2.2⟩
  · simp only [Nat.rec_zero, ht]
    exact h2

theorem demoCTB_ok : CfgOkCTB demoCTModel demoBlock demoCTData := by
  have h := demoCT_ok
  exact ⟨h.data, h.labels, h.sorted, h.T, h.boundary, h.hyper, demoBlock_ok.net, rfl, rfl, rfl⟩

/-- the hypotheses hold for a concrete model with two processes and three events -/
example : CfgOkCTB demoCTModel demoBlock demoCTData ∧ IsProbabilityMeasure (posteriorCTB demoCTModel demoBlock) ∧ CTDrawsOk demoCTModel.P.K 1 (demoCTDraws 2) :=
  ⟨demoCTB_ok, (C84_block_posterior_proper demoCTB_ok).2.2, demoCTDraws_ok 2⟩

end

end PyHawkes
