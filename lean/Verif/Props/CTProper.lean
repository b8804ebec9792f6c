import Verif.Props.CTPosterior
import Verif.Props.GibbsProper

/-!
# C84: the posterior of the continuous-time model is a probability distribution, and the hypotheses of the invariance theorem can be met
-/
set_option linter.unusedSectionVars false
set_option linter.unusedVariables false

namespace PyHawkes
open Finset Spec MeasureTheory ProbabilityTheory

/-! ### a normal sampler exists -/

theorem normal_sampler_exists : Nonempty (NormalSampler (volume : Measure unitInterval)) := by
  obtain ⟨f, hf, hfe⟩ := Measure.exists_measurable_map_eq (gaussianReal 0 1)
  refine ⟨⟨fun m s u => m + s * f u, ?_, fun m s hs => ?_⟩⟩
  · have : Measurable fun x : (ℝ × ℝ) × unitInterval => f x.2 := hf.comp measurable_snd
    fun_prop
  · have h1 : (fun u => m + s * f u) = (fun x => m + x) ∘ (fun x => s * x) ∘ f := rfl
    rw [h1, ← Measure.map_map (by fun_prop) (by fun_prop), ← Measure.map_map (by fun_prop) hf, hfe, gaussianReal_map_const_mul, gaussianReal_map_const_add]
    congr 1
    · ring
    · rw [mul_one]; ext; simp [sq_nonneg]

/-- **Random number generators with the documented distributions exist**, normal draws included. -/
theorem C84_generator_exists : Nonempty (Generator (volume : Measure unitInterval)) ∧ Nonempty (NormalSampler (volume : Measure unitInterval)) :=
  ⟨C83_generator_exists, normal_sampler_exists⟩

section
variable {c : CTState} {n : ERFixed} {D : CTData}

theorem goodZ_finite (dtMax : ℝ) : {z : ZCT D | GoodZ D dtMax z}.Finite := by
  refine Set.Finite.subset (Set.Finite.pi' fun i : Fin D.N => Set.finite_Icc (-1 : ℤ) D.N) fun z hz i => ?_
  rcases hz i with h | ⟨m, h, hm, -⟩
  · rw [h, Set.mem_Icc]; omega
  · have := i.2
    rw [h, Set.mem_Icc]; omega

/-- **C84**: the posterior is a probability distribution (finite, nonzero evidence). -/
theorem C84_posterior_proper (h : CfgOkCT c n D) :
    ∫⁻ θ, likelihoodCT c θ ∂priorCT c n ≠ 0 ∧ ∫⁻ θ, likelihoodCT c θ ∂priorCT c n ≠ ⊤ ∧ IsProbabilityMeasure (posteriorCT c n) := by
  classical
  obtain ⟨⟨G⟩, ⟨N⟩⟩ := C84_generator_exists
  have ok := ctSys_ok G N h
  refine AugSys.proper (S := ctSys G N c D) G ok h.net ⟨(goodZ_finite c.P.dtMax).toFinset, fun z hz φ => ?_, fun z hz e hv => ?_⟩
  · rw [Set.Finite.mem_toFinset] at hz
    exact if_neg hz
  · rw [Set.Finite.mem_toFinset] at hz
    have hz' : GoodZ D c.P.dtMax z := hz
    have hv' : (children D (zN z) e.1 e.2).card ≠ 0 := hv
    obtain ⟨m, hm⟩ := card_pos.1 (Nat.pos_of_ne_zero hv')
    unfold children at hm
    obtain ⟨hm, h0, h1, -⟩ := mem_filter.1 hm
    have hmN := mem_range.1 hm
    rw [zN_in z hmN] at h0 h1
    change (1 : ℝ) ≤ (D.Ns e.1 : ℝ)
    have : 1 ≤ D.Ns e.1 := by
      rw [CTData.Ns_eq_card]
      refine card_pos.2 ?_
      rcases hz' ⟨m, hmN⟩ with hb | ⟨p, hp, hpm, -⟩
      · rw [hb] at h0; omega
      · refine ⟨p, mem_filter.2 ⟨mem_range.2 (lt_trans hpm hmN), ?_⟩⟩
        rw [hp] at h1
        simpa using h1
    exact_mod_cast this

/-! ### valid parameters -/

/-- valid parameter values -/
structure ThetaCTOk (c : CTState) (n : ERFixed) (θ : ThetaCT c.P.K) : Prop where
  A : ∀ e, θ.1 e = 0 ∨ θ.1 e = 1
  self : n.allowSelf = false → ∀ i, θ.1 (i, i) = 0
  v : 0 < θ.2.1
  W : ∀ e, 0 < θ.2.2.1 e
  lam : ∀ k, 0 < θ.2.2.2.1 k
  tau : ∀ e, 0 < (θ.2.2.2.2 e).2

theorem measurableSet_thetaCTOk : MeasurableSet {θ : ThetaCT c.P.K | ThetaCTOk c n θ} := by
  have e : {θ : ThetaCT c.P.K | ThetaCTOk c n θ} = (⋂ e, ({θ | θ.1 e = 0} ∪ {θ | θ.1 e = 1})) ∩ (⋂ (_ : n.allowSelf = false), ⋂ i, {θ | θ.1 (i, i) = 0}) ∩ {θ | 0 < θ.2.1} ∩ (⋂ e, {θ | 0 < θ.2.2.1 e}) ∩
      (⋂ k, {θ | 0 < θ.2.2.2.1 k}) ∩ ⋂ e, {θ | 0 < (θ.2.2.2.2 e).2} := by
    ext θ
    simp only [Set.mem_ofPred_eq, Set.mem_inter_iff, Set.mem_iInter, Set.mem_union]
    exact ⟨fun h => ⟨⟨⟨⟨⟨h.A, h.self⟩, h.v⟩, h.W⟩, h.lam⟩, h.tau⟩, fun h => ⟨h.1.1.1.1.1, h.1.1.1.1.2, h.1.1.1.2, h.1.1.2, h.1.2, h.2⟩⟩
  rw [e]
  refine ((((MeasurableSet.inter ?_ ?_).inter ?_).inter ?_).inter ?_).inter ?_
  · exact MeasurableSet.iInter fun e => (measurableSet_eq_fun (by fun_prop) measurable_const).union (measurableSet_eq_fun (by fun_prop) measurable_const)
  · exact MeasurableSet.iInter fun _ => MeasurableSet.iInter fun i => measurableSet_eq_fun (by fun_prop) measurable_const
  · exact measurableSet_lt measurable_const (by fun_prop)
  · exact MeasurableSet.iInter fun e => measurableSet_lt measurable_const (by fun_prop)
  · exact MeasurableSet.iInter fun e => measurableSet_lt measurable_const (by fun_prop)
  · exact MeasurableSet.iInter fun e => measurableSet_lt measurable_const (by fun_prop)

theorem ct_coins_self (h : CfgOkCT c n D) : ∀ᵐ A ∂Measure.pi (fun e : Pair c.P.K => coinLaw (n.P e.1 e.2)), n.allowSelf = false → ∀ i, A (i, i) = 0 := by
  have hP : ∀ e : Pair c.P.K, IsProbabilityMeasure (coinLaw (n.P e.1 e.2)) := fun e => coinLaw_prob (aug_P_mem h.net e).1 (aug_P_mem h.net e).2
  have h1 : ∀ᵐ A ∂Measure.pi (fun e : Pair c.P.K => coinLaw (n.P e.1 e.2)), ∀ e : Pair c.P.K, n.P e.1 e.2 = 0 → A e = 0 :=
    pi_ae_all (fun e : Pair c.P.K => coinLaw (n.P e.1 e.2)) (p := fun e t => n.P e.1 e.2 = 0 → t = 0) fun e => by
      by_cases h0 : n.P e.1 e.2 = 0
      · rw [h0]
        have : coinLaw 0 = Measure.dirac 0 := by unfold coinLaw; simp
        rw [this, ae_dirac_iff ((measurableSet_singleton (0 : ℝ)).preimage (f := fun t => t) measurable_id |>.congr (by ext t; simp [h0]))]
        exact fun _ => rfl
      · exact Filter.Eventually.of_forall fun t ht => absurd ht h0
  filter_upwards [h1] with A hA hs i
  refine hA (i, i) ?_
  unfold ERFixed.P
  rw [if_pos ⟨by rw [hs]; rfl, rfl⟩]

theorem ct_phi_valid (h : CfgOkCT c n D) : ∀ᵐ φ ∂((Measure.pi fun _ : Fin c.P.K => gammaMeasure c.alpha c.beta).prod (Measure.pi fun _ : Pair c.P.K => nigLaw c.nig)), (∀ k, 0 < φ.1 k) ∧ ∀ e, 0 < (φ.2 e).2 := by
  have := isProbabilityMeasure_gammaMeasure h.hyper.alpha h.hyper.beta
  have := nigLaw_prob h.hyper.nig
  have h1 : ∀ᵐ lam ∂Measure.pi (fun _ : Fin c.P.K => gammaMeasure c.alpha c.beta), ∀ k, 0 < lam k := pi_ae_all _ fun _ => gammaMeasure_pos
  have h2 : ∀ᵐ g ∂Measure.pi (fun _ : Pair c.P.K => nigLaw c.nig), ∀ e, 0 < (g e).2 :=
    pi_ae_all (fun _ : Pair c.P.K => nigLaw c.nig) (p := fun _ x => 0 < x.2) fun _ => nigLaw_pos h.hyper.nig
  have m1 := Measure.quasiMeasurePreserving_fst (μ := Measure.pi fun _ : Fin c.P.K => gammaMeasure c.alpha c.beta) (ν := Measure.pi fun _ : Pair c.P.K => nigLaw c.nig)
  have m2 := Measure.quasiMeasurePreserving_snd (μ := Measure.pi fun _ : Fin c.P.K => gammaMeasure c.alpha c.beta) (ν := Measure.pi fun _ : Pair c.P.K => nigLaw c.nig)
  filter_upwards [m1.ae h1, m2.ae h2] with φ a b
  exact ⟨a, b⟩

theorem ct_prior_valid (h : CfgOkCT c n D) : ∀ᵐ θ ∂priorCT c n, ThetaCTOk c n θ := by
  obtain ⟨⟨G⟩, ⟨N⟩⟩ := C84_generator_exists
  have ok := ctSys_ok G N h
  have hms := (measurableSet_thetaCTOk (c := c) (n := n)).compl
  rw [ae_iff, show {θ : ThetaCT c.P.K | ¬ThetaCTOk c n θ} = {θ | ThetaCTOk c n θ}ᶜ from rfl, ← lintegral_indicator_one hms]
  have hp := AugSys.prior_lintegral (S := ctSys G N c D) G ok h.net (F := {θ : ThetaCT c.P.K | ThetaCTOk c n θ}ᶜ.indicator 1) (measurable_one.indicator hms)
  refine hp.trans ?_
  refine lintegral_eq_zero_of_ae_eq_zero ?_
  filter_upwards [aug_coins h.net, ct_coins_self h] with A hA hAs
  refine lintegral_eq_zero_of_ae_eq_zero ?_
  filter_upwards [aug_scale_pos G h.net] with η hη
  refine lintegral_eq_zero_of_ae_eq_zero ?_
  have hW0 : ∀ᵐ W ∂Measure.pi (fun _ : Pair c.P.K => (volume : Measure ℝ)), ∀ e, W e ≠ 0 :=
    ae_all_iff.2 fun e => (Measure.quasiMeasurePreserving_eval (fun _ : Pair c.P.K => (volume : Measure ℝ)) e).ae (Measure.ae_ne volume 0)
  filter_upwards [hW0] with W hW
  by_cases hWp : ∀ e, 0 ≤ W e
  · refine lintegral_eq_zero_of_ae_eq_zero ?_
    filter_upwards [ct_phi_valid h] with φ hφ
    rw [Set.indicator_of_notMem, mul_zero]
    · rfl
    · exact fun hn => hn ⟨hA, hAs, hη, fun e => lt_of_le_of_ne (hWp e) (Ne.symm (hW e)), hφ.1, hφ.2⟩
  · simp only [augW_neg hWp, zero_mul, lintegral_const]
    rfl

theorem ct_posterior_valid (h : CfgOkCT c n D) : ∀ᵐ θ ∂posteriorCT c n, ThetaCTOk c n θ :=
  ((Measure.smul_absolutelyContinuous).trans (withDensity_absolutelyContinuous _ _)).ae_le (ct_prior_valid h)

/-! ### the hypotheses of the invariance theorem can be met -/

/-- the model object with parameters `θ`, all events assigned to the background -/
noncomputable def stateOfCT (c : CTState) (n : ERFixed) (θ : ThetaCT c.P.K) : CTState :=
  { c with
    P := ctRateParams c.P θ.1 θ.2.2.1 θ.2.2.2.1 θ.2.2.2.2
    net := .er { n with v := θ.2.1 }
    data := c.data.map fun D => withStats c.P.dtMax { D with Z := fun _ => -1 } }

theorem thetaCT_stateOf (θ : ThetaCT c.P.K) : thetaCT c.P.K (stateOfCT c n θ) = θ := by
  refine Prod.ext ?_ (Prod.ext rfl (Prod.ext ?_ (Prod.ext ?_ ?_))) <;> funext e
  · exact padM_in (K := c.P.K) θ.1 e.1.2 e.2.2
  · exact padM_in (K := c.P.K) θ.2.2.1 e.1.2 e.2.2
  · exact dif_pos e.2
  · exact Prod.ext (padM_in (K := c.P.K) (fun e => (θ.2.2.2.2 e).1) e.1.2 e.2.2) (padM_in (K := c.P.K) (fun e => (θ.2.2.2.2 e).2) e.1.2 e.2.2)

theorem stateOfCT_ok (h : CfgOkCT c n D) {θ : ThetaCT c.P.K} (hθ : ThetaCTOk c n θ) : ValidCT c n (stateOfCT c n θ) := by
  refine ⟨⟨rfl, rfl, rfl, rfl, rfl, rfl, ?_⟩, ⟨h.hyper.dtMax, h.hyper.alpha, h.hyper.beta, h.hyper.nig⟩, ?_, ?_⟩
  · change List.Forall₂ _ c.data (c.data.map _)
    rw [h.data]
    exact .cons ⟨rfl, rfl, rfl, rfl⟩ .nil
  · constructor
    · intro k hk
      rw [show (stateOfCT c n θ).P.lam0 k = _ from ctRate_lam (K := c.P.K) c.P θ.1 θ.2.2.1 θ.2.2.2.1 θ.2.2.2.2 hk]; exact hθ.lam _
    · intro i hi j hj
      rw [show (stateOfCT c n θ).P.tau i j = _ from padM_in (K := c.P.K) (fun e => (θ.2.2.2.2 e).2) hi hj]; exact hθ.tau _
    · intro i hi j hj
      rw [show (stateOfCT c n θ).P.W i j = _ from padM_in (K := c.P.K) θ.2.2.1 hi hj]; exact hθ.W _
    · intro i hi j hj
      rw [show (stateOfCT c n θ).P.A i j = _ from padM_in (K := c.P.K) θ.1 hi hj]; exact hθ.A _
    · intro hs i hi
      rw [show (stateOfCT c n θ).P.A i i = _ from padM_in (K := c.P.K) θ.1 hi hi]; exact hθ.self hs _
    · exact ⟨h.net.size, h.net.p, h.net.kappa, hθ.v, h.net.hyper⟩
  · intro D' hD'
    have : (stateOfCT c n θ).data = [withStats c.P.dtMax { D with Z := fun _ => -1 }] := by
      change c.data.map _ = _
      rw [h.data]; rfl
    rw [this] at hD'
    rw [List.mem_singleton.1 hD']
    refine ⟨h.sorted, h.labels, fun m _ => ⟨le_rfl, ?_, ?_⟩, fun _ => rfl, fun _ _ => rfl, fun _ _ => rfl, fun _ _ => rfl, fun _ _ => rfl⟩
    · change (-1 : ℤ) < m; omega
    · intro hz
      change (0 : ℤ) ≤ -1 at hz
      omega

/-- **Non-vacuity of C84**: for every valid model with one data set there are a probability space, a random model object whose parameters have the posterior distribution, fresh seeds, and
random number generators as the invariance theorem assumes them. -/
theorem C84_hypotheses_met (h : CfgOkCT c n D) :
    ∃ (Ω : Type) (_ : MeasurableSpace Ω) (Pr : Measure Ω) (_ : IsProbabilityMeasure Pr) (_ : Generator (volume : Measure unitInterval)) (_ : NormalSampler (volume : Measure unitInterval))
      (s : Ω → CTState) (x : Ω → CTSite → unitInterval),
      (∀ ω, ValidCT c n (s ω)) ∧ FreshSeedsCT volume Pr (fun ω => thetaCT c.P.K (s ω)) x ∧ HasLaw (fun ω => thetaCT c.P.K (s ω)) (posteriorCT c n) Pr := by
  classical
  obtain ⟨-, -, hpost⟩ := C84_posterior_proper h
  obtain ⟨θ₀, hθ₀⟩ : ∃ θ, ThetaCTOk c n θ := (ct_posterior_valid h).exists
  obtain ⟨⟨G⟩, ⟨N⟩⟩ := C84_generator_exists
  set ν : Measure (CTSite → unitInterval) := Measure.infinitePi fun _ : CTSite => (volume : Measure unitInterval) with hν
  set fix : ThetaCT c.P.K → ThetaCT c.P.K := fun θ => if ThetaCTOk c n θ then θ else θ₀ with hfix
  have hae : fix =ᵐ[posteriorCT c n] id := by
    filter_upwards [ct_posterior_valid h] with θ hθ
    exact if_pos hθ
  have hfm : Measurable fix := Measurable.ite measurableSet_thetaCTOk measurable_id measurable_const
  have hlaw : HasLaw (fun ω : ThetaCT c.P.K × (CTSite → unitInterval) => fix ω.1) (posteriorCT c n) ((posteriorCT c n).prod ν) := by
    refine ⟨(hfm.comp measurable_fst).aemeasurable, ?_⟩
    rw [show (fun ω : ThetaCT c.P.K × (CTSite → unitInterval) => fix ω.1) = fix ∘ Prod.fst from rfl, ← Measure.map_map hfm measurable_fst, Measure.map_fst_prod, measure_univ, one_smul,
      Measure.map_congr hae, Measure.map_id]
  have hsnd : ((posteriorCT c n).prod ν).map Prod.snd = ν := by rw [Measure.map_snd_prod, measure_univ, one_smul]
  have hl : ∀ σ, HasLaw (fun ω : ThetaCT c.P.K × (CTSite → unitInterval) => ω.2 σ) volume ((posteriorCT c n).prod ν) := by
    intro σ
    refine ⟨by fun_prop, ?_⟩
    rw [show (fun ω : ThetaCT c.P.K × (CTSite → unitInterval) => ω.2 σ) = (fun y : CTSite → unitInterval => y σ) ∘ Prod.snd from rfl, ← Measure.map_map (by fun_prop) measurable_snd, hsnd]
    exact (measurePreserving_eval_infinitePi (fun _ : CTSite => (volume : Measure unitInterval)) σ).map_eq
  have ht : ∀ θ, thetaCT c.P.K (stateOfCT c n (fix θ)) = fix θ := fun θ => thetaCT_stateOf _
  refine ⟨ThetaCT c.P.K × (CTSite → unitInterval), inferInstance, (posteriorCT c n).prod ν, inferInstance, G, N, fun ω => stateOfCT c n (fix ω.1), Prod.snd, fun ω => ?_, ⟨?_, hl, ?_⟩, ?_⟩
  · refine stateOfCT_ok h ?_
    rw [hfix]; dsimp only
    split_ifs with hω
    · exact hω
    · exact hθ₀
  · rw [iIndepFun_iff_map_fun_eq_infinitePi_map (by fun_prop)]
    rw [show (fun (ω : ThetaCT c.P.K × (CTSite → unitInterval)) i => ω.2 i) = Prod.snd from rfl, hsnd]
    simp only [(hl _).map_eq]
    exact hν
  · simp only [ht]
    exact indepFun_prod (X := fix) (Y := id) hfm measurable_id
  · simp only [ht]
    exact hlaw

/-- a concrete model: two processes, three events (the second and third within the window), learned weight scale -/
noncomputable def demoCTData : CTData := { N := 3, S := fun n => n / 4, C := fun n => n % 2, T := 10, bkgd := fun _ => 0, Z := fun _ => -1 }

noncomputable def demoCTModel : CTState :=
  { P := { K := 2, dtMax := 1, lam0 := fun _ => 1, W := fun _ _ => 1, A := fun _ _ => 1, mu := fun _ _ => 0, tau := fun _ _ => 1 }
    alpha := 1
    beta := 1
    nig := ⟨0, 1, 1, 1⟩
    net := .er demoER
    data := [demoCTData] }

theorem demoCT_ok : CfgOkCT demoCTModel demoER demoCTData := by
  refine ⟨rfl, fun m _ => ?_, fun i j hij hj => ?_, ?_, fun m hm j hj => ?_, ⟨one_pos, one_pos, one_pos, ?_⟩, demoChain_ok.1.net⟩
  · exact Nat.mod_lt _ (by norm_num)
  · change ((i : ℝ) / 4) ≤ (j : ℝ) / 4
    have : (i : ℝ) ≤ j := by exact_mod_cast hij
    linarith
  · change (0 : ℝ) ≤ 10; norm_num
  · have hm' : m < 3 := hm
    change (m : ℝ) / 4 - (j : ℝ) / 4 ≠ 1 - 1e-8
    have h1 : (m : ℝ) ≤ 2 := by exact_mod_cast Nat.lt_succ_iff.1 hm'
    have h2 : (0 : ℝ) ≤ j := Nat.cast_nonneg j
    intro he
    norm_num at he
    linarith
  · unfold NigOk; norm_num [demoCTModel]

/-- the hypotheses hold for a concrete model with two processes and three events -/
example : CfgOkCT demoCTModel demoER demoCTData ∧ IsProbabilityMeasure (posteriorCT demoCTModel demoER) ∧ CTDrawsOk demoCTModel.P.K 1 (demoCTDraws 2) :=
  ⟨demoCT_ok, (C84_posterior_proper demoCT_ok).2.2, demoCTDraws_ok 2⟩

end

end PyHawkes
