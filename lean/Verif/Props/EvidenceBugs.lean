import Verif.Props.Evidence
import Mathlib.NumberTheory.Harmonic.GammaDeriv
import Mathlib.Analysis.Real.Pi.Bounds
import Verif.Props.DirichletDensity

/-!
# C103: the cases in which `get_vlb()` is not a lower bound on the log evidence, and a concrete model that meets the hypotheses
-/
set_option linter.unusedSectionVars false
set_option linter.unusedVariables false

namespace PyHawkes
open Finset Spec MeasureTheory ProbabilityTheory

/-- under the prior the background rates are independent gamma variables, whatever the network and the weights -/
theorem priorMix_lam {κ0 ν0 : ℝ} {c : HawkesState} {n : ERFixed} (hκ0 : 0 < κ0) (hν0 : 0 < ν0) (h : CfgOk c n) {f : (Fin c.base.K → ℝ) → ENNReal} (hf : Measurable f) :
    ∫⁻ θ, f θ.2.2.2.1 ∂priorMix κ0 ν0 c n = ∫⁻ lam, f lam ∂Measure.pi (fun _ : Fin c.base.K => gammaMeasure c.alpha c.beta) := by
  obtain ⟨G⟩ := C83_generator_exists
  have hS := scale_prob G h
  have hΦ := phi_prob h
  have hB := mixBase_sfinite h
  have hP : ∀ e : Pair c.base.K, IsProbabilityMeasure (coinLaw (n.P e.1 e.2)) := fun e => coinLaw_prob (P_mem h e).1 (P_mem h e).2
  have := isProbabilityMeasure_gammaMeasure h.hyper.alpha h.hyper.beta
  have := dirichlet_prob h.hyper.gamma
  have mf' : Measurable fun θ : Theta c.base.K => f θ.2.2.2.1 := hf.comp (by fun_prop)
  rw [priorMix_lintegral G κ0 ν0 h mf']
  dsimp only
  have m0 : Measurable fun y : ℝ × ((Pair c.base.K → ℝ) × (Pair c.base.K → ℝ)) × (Fin c.base.K → ℝ) × (Pair c.base.K → Vec ℝ) => mixDens (c := c) κ0 ν0 n y.1 y.2.1.1 y.2.1.2 * f y.2.2.1 :=
    ((measurable_mixDens (n := n) (c := c) κ0 ν0).comp (f := fun y : ℝ × ((Pair c.base.K → ℝ) × (Pair c.base.K → ℝ)) × (Fin c.base.K → ℝ) × (Pair c.base.K → Vec ℝ) => (y.1, y.2.1.1, y.2.1.2)) (by fun_prop)).mul
      (hf.comp (by fun_prop))
  have mφ : Measurable fun φ : (Fin c.base.K → ℝ) × (Pair c.base.K → Vec ℝ) => f φ.1 := hf.comp (by fun_prop)
  rw [lintegral_prod _ m0.aemeasurable]
  have phi : ∫⁻ φ, f φ.1 ∂phiPrior c = ∫⁻ lam, f lam ∂Measure.pi (fun _ : Fin c.base.K => gammaMeasure c.alpha c.beta) := by
    unfold phiPrior
    rw [lintegral_prod _ mφ.aemeasurable]
    simp only [lintegral_const, measure_univ, mul_one]
  have inner : ∀ᵐ η ∂scalePrior n, ∫⁻ y, mixDens (c := c) κ0 ν0 n η y.1.1 y.1.2 * f y.2.1 ∂(mixBase c n).prod (phiPrior c)
      = ∫⁻ lam, f lam ∂Measure.pi (fun _ : Fin c.base.K => gammaMeasure c.alpha c.beta) := by
    filter_upwards [scale_pos G h] with η hη
    have m2 : Measurable fun X : (Pair c.base.K → ℝ) × (Pair c.base.K → ℝ) => mixDens (c := c) κ0 ν0 n η X.1 X.2 :=
      (measurable_mixDens (n := n) (c := c) κ0 ν0).comp (f := fun X : (Pair c.base.K → ℝ) × (Pair c.base.K → ℝ) => (η, X)) (by fun_prop)
    rw [lintegral_prod_mul (f := fun X : (Pair c.base.K → ℝ) × (Pair c.base.K → ℝ) => mixDens (c := c) κ0 ν0 n η X.1 X.2) (g := fun φ : (Fin c.base.K → ℝ) × (Pair c.base.K → Vec ℝ) => f φ.1) m2.aemeasurable mφ.aemeasurable, phi]
    have one : ∫⁻ X, mixDens (c := c) κ0 ν0 n η X.1 X.2 ∂mixBase c n = 1 := by
      unfold mixBase
      rw [lintegral_prod _ m2.aemeasurable]
      simp only [mixDens_integral hκ0 hν0 h hη, lintegral_one, measure_univ]
    rw [one, one_mul]
  rw [lintegral_congr_ae inner, lintegral_const, measure_univ, mul_one]

theorem psi_one : -(2 / 3) < psi 1 := by
  rw [psi_eq one_pos, Real.hasDerivAt_Gamma_one.deriv, Real.Gamma_one, div_one]
  linarith [Real.eulerMascheroniConstant_lt_two_thirds]

/-- a model as its constructors leave it: one bin per process with counts `s`, no filtered counts; the variational distributions of the rates, the impulse weights and the scale equal their priors -/
noncomputable def evNet (K : ℕ) : ERFixed := { K := K, kappa := 1, p := 1 - 1e-3, v := 1, alpha := some 1, beta := some 1, allowSelf := true, mf := some (1, 1) }

noncomputable def evM (K B : ℕ) (dt al be γ : ℝ) (s : ℕ) : MFModel :=
  { K := K, B := B, bias := { alpha := al, beta := be, dt := dt, mfAlpha := fun _ => al, mfBeta := fun _ => be },
    imp := { gamma := fun _ => γ, mfGamma := fun _ _ _ => γ }, w := MFWeights.init 1 1 1 (fun _ _ => 1), net := .er (evNet K),
    data := [{ T := 1, S := fun _ _ => s, F := fun _ _ _ => 0 }], sgdOffset := none }

noncomputable def evC (K B : ℕ) (dt al be γ : ℝ) (s : ℕ) : HawkesState :=
  { base := { K := K, B := B, L := 1, dt := dt, lam0 := fun _ => 1, Weff := fun _ _ => 0, g := fun _ _ _ => 1, basis := fun _ _ => 1 }
    alpha := al
    beta := be
    gamma := fun _ => γ
    net := .er (evNet K)
    A := fun _ _ => 1
    W := fun _ _ => 1
    data := [{ T := 1, S := fun _ _ => s, F := fun _ _ _ => 0 }] }

theorem evNet_P (K i j : ℕ) : (evNet K).P i j = 1 - 1e-3 := by simp [evNet, ERFixed.P]

section
variable {K B s : ℕ} {dt al be γ : ℝ}

theorem evM_good (ha : 0 < al) (hb : 0 < be) (hγ : 0 < γ) (hdt : 0 < dt) : MFGood (evM K B dt al be γ s) where
  bias := ⟨ha, hb, hdt.le, fun _ _ => ⟨ha, hb⟩⟩
  imp := fun _ _ => ⟨hγ, fun _ _ _ _ => hγ⟩
  w := ⟨one_pos, one_pos⟩
  wmf := fun _ _ _ _ => by simp [evM, MFWeights.init]
  p := fun _ _ _ _ => by norm_num [evM, MFWeights.init]
  net := ⟨rfl, one_pos, fun i _ j _ => by rw [evNet_P]; norm_num, 1, 1, 1, 1, rfl, rfl, rfl, one_pos, one_pos, one_pos, one_pos⟩
  data := ⟨by simp [evM], fun D hD => by rw [List.mem_singleton.1 hD]; exact ⟨one_pos, fun _ _ _ => le_rfl⟩⟩

theorem evC_ok (hB : 0 < B) (ha : 0 < al) (hb : 0 < be) (hγ : 0 < γ) (hdt : 0 < dt) (hs : s < 2 ^ 32) : CfgOk (evC K B dt al be γ s) (evNet K) where
  B := hB
  data := fun D hD => by rw [List.mem_singleton.1 hD]; exact ⟨fun _ _ _ _ _ _ => le_rfl, fun _ _ _ _ => hs⟩
  hyper := ⟨ha, hb, fun _ _ => hγ, hdt, fun _ _ _ _ => zero_le_one⟩
  net := ⟨rfl, by norm_num [evNet], one_pos, one_pos, by constructor <;> (intro a h; rw [← Option.some.inj (Option.mem_def.1 h)]; norm_num)⟩

theorem ev_filtered : FilteredFromEvents K B (evC K B dt al be γ s).data := by
  intro D hD t ht i hi b hb h
  rw [List.mem_singleton.1 hD] at h
  exact absurd rfl h

theorem ev_shared : SharedSettings (evM K B dt al be γ s) (evC K B dt al be γ s) (evNet K) :=
  ⟨rfl, rfl, rfl, rfl, rfl, evNet K, rfl, rfl, rfl, 1, 1, 1, 1, rfl, rfl, rfl, rfl, rfl, one_pos, one_pos, one_pos, one_pos⟩

theorem evP : ∀ i < (evC K B dt al be γ s).base.K, ∀ j < (evC K B dt al be γ s).base.K, 0 < (evNet K).P i j ∧ (evNet K).P i j < 1 := by
  intro i _ j _
  rw [evNet_P]; norm_num

/-- the bound of the constructed model: background term, source term, impulse correction and the spread of the scale -/
theorem ev_vlb (huge : ℝ) (ha : 0 < al) (hb : 0 < be) (hγ : 0 < γ) (hs : s < 2 ^ 32) :
    (evM K B dt al be γ s).vlb huge = .ok (.fin (-(K * (al / be)) - K * K * s + (((K * K : ℕ) : ℝ) - 1) * lnDirNorm B (fun _ => γ) + K * K * ((1 - 1e-3) * psi 1))) := by
  have hD : ∀ D ∈ (evM K B dt al be γ s).data, DataOk D := fun D hD => by
    rw [List.mem_singleton.1 hD]; exact DataOk.fresh rfl (fun _ _ => hs) (fun _ _ _ => le_rfl)
  have h4 := parents_sum_value (evM K B dt al be γ s) rfl hD
  have h5 := wVlb_value K (.er (evNet K)) (fun _ _ => 1 / 1) (fun _ _ => psi 1 - Real.log 1) (fun _ _ => Real.log (1 - 1e-3)) (fun _ _ => Real.log (1 - (1 - 1e-3))) (MFWeights.init 1 1 1 (fun _ _ => 1))
    (fun _ _ _ _ => by norm_num [MFWeights.init]) (fun i _ j _ => ⟨by
      show FX.log ((evNet K).P i j) = _
      rw [evNet_P, FX.log_pos (by norm_num)], by
      show FX.log (1 - (evNet K).P i j) = _
      rw [evNet_P, FX.log_pos (by norm_num)]⟩)
  have h3 : (MFNet.er (evNet K)).vlb huge = .ok (-klGamma 1 1 1 1) := (C55_er_nonpos (evNet K) rfl rfl rfl one_pos one_pos one_pos one_pos).1
  have := vlb_of_parts huge (evM K B dt al be γ s) (V := fun _ _ => 1 / 1) (L := fun _ _ => psi 1 - Real.log 1) rfl rfl h3 h4 h5
  rw [this]
  congr 2
  have eb : (evM K B dt al be γ s).bias.vlb K = 0 := (C55_bias_nonpos K _ ha hb (fun _ _ => ⟨ha, hb⟩)).2 (fun _ _ => ⟨rfl, rfl⟩)
  have ei : (evM K B dt al be γ s).imp.vlb K B = (((K * K : ℕ) : ℝ) - 1) * lnDirNorm B (fun _ => γ) := by
    rw [C55_impulse_value]
    have : ∀ i j, (evM K B dt al be γ s).imp.mfGamma i j = (evM K B dt al be γ s).imp.gamma := fun _ _ => rfl
    simp only [this, klDirichlet_self, sum_const_zero, neg_zero, zero_add]
    rfl
  have ew : ∀ i j, wEntry (MFNet.er (evNet K)).kappa (1 / 1) (psi 1 - Real.log 1) (Real.log (1 - 1e-3)) (Real.log (1 - (1 - 1e-3))) (MFWeights.init 1 1 1 (fun _ _ => 1)) i j = (1 - 1e-3) * psi 1 := by
    intro i j
    have hk : (MFNet.er (evNet K)).kappa = 1 := rfl
    have c1 : (MFWeights.init 1 1 1 (fun _ _ => 1)).eWGivenA 1 i j = 1 := by simp [MFWeights.eWGivenA, MFWeights.init]
    have c2 : (MFWeights.init 1 1 1 (fun _ _ => 1)).eWGivenA 0 i j = 1 := by simp [MFWeights.eWGivenA, MFWeights.init]
    have g1 : gammaln 1 = 0 := by simp [gammaln]
    unfold wEntry
    rw [hk, c1, c2]
    simp only [MFWeights.init, gammaNegentDefault, gammaNegent, Real.log_one, g1, mul_one, Real.log_one]
    ring_nf
  have ed : dataBound K B (evM K B dt al be γ s).data (evM K B dt al be γ s).bias.eLam (evM K B dt al be γ s).bias.eLnLam (evM K B dt al be γ s).w.wR (evM K B dt al be γ s).w.lnWR ((evM K B dt al be γ s).imp.eLnG B)
      = -(K * (al / be)) - K * K * s := by
    have wR : ∀ i j, (evM K B dt al be γ s).w.wR i j = 1 := by
      intro i j
      simp [MFWeights.wR, MFWeights.eWGivenA, evM, MFWeights.init]
    have hr : ∀ k, ((zRows { T := 1, S := fun _ _ => s, F := fun _ _ _ => 0 } k).map fun r => rowR K B k (evM K B dt al be γ s).bias.eLnLam (evM K B dt al be γ s).w.lnWR ((evM K B dt al be γ s).imp.eLnG B) r.1 r.2.1 r.2.2).sum = 0 := by
      intro k
      refine List.sum_eq_zero fun x hx => ?_
      obtain ⟨r, hr, rfl⟩ := List.mem_map.1 hx
      have hz := (List.of_mem_zip hr).1
      simp only [DParents.getEZ, List.mem_map] at hz
      obtain ⟨_, _, hz⟩ := hz
      simp [rowR, ← hz]
    unfold dataBound
    show (List.map _ [_]).sum = _
    simp only [List.map_cons, List.map_nil, List.sum_cons, List.sum_nil, add_zero, hr, wR, mul_one, Ns_eq]
    simp [MFBias.eLam, evM]
    ring
  show dataBound K B (evM K B dt al be γ s).data (evM K B dt al be γ s).bias.eLam (evM K B dt al be γ s).bias.eLnLam (evM K B dt al be γ s).w.wR (evM K B dt al be γ s).w.lnWR ((evM K B dt al be γ s).imp.eLnG B)
    + (evM K B dt al be γ s).bias.vlb K + (evM K B dt al be γ s).imp.vlb K B + _ + _ = _
  rw [ed, eb, ei, klGamma_self]
  simp only [ew, sum_const, card_range, nsmul_eq_mul]
  ring

/-- the log likelihood of the constructed model -/
theorem ev_ll (θ : Theta K) : llModel (rateParams (evC K B dt al be γ s).base (fun _ => 1) θ.2.2.1 θ.2.2.2.1 θ.2.2.2.2) (evC K B dt al be γ s).data
    = ∑ k : Fin K, ((toU32 s : ℝ) * Real.log (θ.2.2.2.1 k) - θ.2.2.2.1 k * dt - ∑ i : Fin K, θ.2.2.1 (i, k) * s) := by
  rw [C08_model_sum]
  show (List.map _ [_]).sum = _
  rw [List.map_cons, List.sum_cons, List.map_nil, List.sum_nil, add_zero, llData_eq_sum, sum_range_one]
  show ∑ k ∈ range K, _ = _
  rw [Finset.sum_range]
  refine sum_congr rfl fun k _ => ?_
  unfold llBin
  simp only [mul_zero, sum_const_zero, add_zero]
  have e1 : (rateParams (evC K B dt al be γ s).base (fun _ => 1) θ.2.2.1 θ.2.2.2.1 θ.2.2.2.2).lam0 k = θ.2.2.2.1 k := by simp [rateParams]
  have e2 : ∑ k1 ∈ range K, (rateParams (evC K B dt al be γ s).base (fun _ => 1) θ.2.2.1 θ.2.2.2.1 θ.2.2.2.2).Weff k1 k * (s : ℝ) = ∑ i : Fin K, θ.2.2.1 (i, k) * s := by
    rw [Finset.sum_range]
    exact sum_congr rfl fun i _ => by simp [rateParams]
  rw [e1]
  show _ - _ * dt - ∑ k1 ∈ range K, _ = _
  rw [e2]

/-- log evidence from an upper bound on the evidence -/
theorem ev_log {r : ℝ} (hB : 0 < B) (ha : 0 < al) (hb : 0 < be) (hγ : 0 < γ) (hdt : 0 < dt) (hs : s < 2 ^ 32) (hr : 0 < r)
    (h : ∫⁻ θ, likelihoodMix (evC K B dt al be γ s) θ ∂priorMix 1 1 (evC K B dt al be γ s) (evNet K) ≤ ENNReal.ofReal r) :
    logEvidence 1 1 (evC K B dt al be γ s) (evNet K) ≤ Real.log r := by
  have c := C85_posterior_proper one_pos one_pos (evC_ok (K := K) hB ha hb hγ hdt hs) (ev_filtered (K := K) (B := B))
  unfold logEvidence
  refine Real.log_le_log (ENNReal.toReal_pos c.1 c.2.1) ?_
  have := ENNReal.toReal_mono ENNReal.ofReal_ne_top h
  rwa [ENNReal.toReal_ofReal hr.le] at this

end

/-- **C103 (violated).** With two processes, two basis functions and concentrations 1/2, and one bin without events: `get_vlb()` of the newly constructed model is positive, but the log evidence is not:
the code counts the normaliser of the impulse weights' prior once instead of four times. -/
theorem C103_impulse_normaliser_violated (huge : ℝ) : ∃ M c n x, MFGood M ∧ SharedSettings M c n ∧ CfgOk c n ∧ FilteredFromEvents c.base.K c.base.B c.data ∧ List.Forall₂ SameObs M.data c.data ∧ c.base.dt = 1 ∧
    (∀ D ∈ M.data, ∀ t k, D.S t k = 0) ∧ M.vlb huge = .ok (.fin x) ∧ logEvidence M.w.kappa0 M.w.nu0 c n ≤ 0 ∧ 0 < x := by
  refine ⟨evM 2 2 1 1 10 (1 / 2) 0, evC 2 2 1 1 10 (1 / 2) 0, evNet 2, _, evM_good one_pos (by norm_num) (by norm_num) one_pos, ev_shared,
    evC_ok (by norm_num) one_pos (by norm_num) (by norm_num) one_pos (by norm_num), ev_filtered, List.forall₂_same.2 fun D _ => ⟨rfl, rfl, rfl⟩, rfl,
    fun D hD _ _ => by rw [List.mem_singleton.1 hD], ev_vlb huge one_pos (by norm_num) (by norm_num) (by norm_num), ?_, ?_⟩
  · rw [← Real.log_one]
    refine ev_log (by norm_num) one_pos (by norm_num) (by norm_num) one_pos (by norm_num) one_pos ?_
    have hc : CfgOk (evC 2 2 1 1 10 (1 / 2) 0) (evNet 2) := evC_ok (by norm_num) one_pos (by norm_num) (by norm_num) one_pos (by norm_num)
    have := priorMix_prob (κ0 := 1) (ν0 := 1) one_pos one_pos hc
    rw [ENNReal.ofReal_one, ← measure_univ (μ := priorMix 1 1 (evC 2 2 1 1 10 (1 / 2) 0) (evNet 2)), ← lintegral_one]
    refine lintegral_mono_ae ?_
    filter_upwards [priorMix_valid hc] with θ hθ
    unfold likelihoodMix
    rw [ENNReal.ofReal_le_one, Real.exp_le_one_iff]
    refine le_trans (le_of_eq (ev_ll (K := 2) (B := 2) (dt := 1) (al := 1) (be := 10) (γ := 1 / 2) (s := 0) θ)) ?_
    refine sum_nonpos fun k _ => ?_
    have := hθ.lam k
    simp [toU32]
    exact this.le
  · have e : lnDirNorm 2 (fun _ => (1:ℝ) / 2) = Real.log Real.pi := by
      unfold lnDirNorm
      rw [sum_range_succ, sum_range_one, sum_range_succ, sum_range_one, Real.Gamma_one_half_eq, show (1:ℝ) / 2 + 1 / 2 = 1 by norm_num, Real.Gamma_one, Real.log_one, Real.log_sqrt Real.pi_pos.le]
      ring
    have h1 : 1 < Real.log Real.pi := by
      rw [Real.lt_log_iff_exp_lt Real.pi_pos]
      linarith [Real.exp_one_lt_d9, Real.pi_gt_three]
    have h2 := psi_one
    rw [e]
    norm_num
    nlinarith

/-- **C103 (violated).** With bins of 100 time units and one bin without events, `get_vlb()` of a newly constructed model exceeds the log evidence: the code charges the background rate per bin instead of per
time unit. -/
theorem C103_long_bins_violated (huge : ℝ) : ∃ M c n x, MFGood M ∧ SharedSettings M c n ∧ CfgOk c n ∧ FilteredFromEvents c.base.K c.base.B c.data ∧ List.Forall₂ SameObs M.data c.data ∧ M.K = 1 ∧ c.base.dt = 100 ∧
    (∀ D ∈ M.data, ∀ t k, D.S t k = 0) ∧ M.vlb huge = .ok (.fin x) ∧ logEvidence M.w.kappa0 M.w.nu0 c n < x := by
  refine ⟨evM 1 1 100 1 1 1 0, evC 1 1 100 1 1 1 0, evNet 1, _, evM_good one_pos one_pos one_pos (by norm_num), ev_shared,
    evC_ok one_pos one_pos one_pos one_pos (by norm_num) (by norm_num), ev_filtered, List.forall₂_same.2 fun D _ => ⟨rfl, rfl, rfl⟩, rfl, rfl,
    fun D hD _ _ => by rw [List.mem_singleton.1 hD], ev_vlb huge one_pos one_pos one_pos (by norm_num), ?_⟩
  have hc : CfgOk (evC 1 1 100 1 1 1 0) (evNet 1) := evC_ok one_pos one_pos one_pos one_pos (by norm_num) (by norm_num)
  have gp := isProbabilityMeasure_gammaMeasure (a := 1) (r := 1) one_pos one_pos
  have key : logEvidence 1 1 (evC 1 1 100 1 1 1 0) (evNet 1) ≤ Real.log (1 / 101) := by
    refine ev_log one_pos one_pos one_pos one_pos (by norm_num) (by norm_num) (by norm_num) ?_
    let f : (Fin 1 → ℝ) → ENNReal := fun lam => ENNReal.ofReal (Real.exp (-100 * lam 0))
    have mf : Measurable f := by
      have : Measurable fun t : ℝ => ENNReal.ofReal (Real.exp (-100 * t)) := by fun_prop
      exact this.comp (measurable_pi_apply 0)
    refine le_of_eq ?_
    calc ∫⁻ θ, likelihoodMix (evC 1 1 100 1 1 1 0) θ ∂priorMix 1 1 (evC 1 1 100 1 1 1 0) (evNet 1) = ∫⁻ θ, f θ.2.2.2.1 ∂priorMix 1 1 (evC 1 1 100 1 1 1 0) (evNet 1) := by
          refine lintegral_congr fun θ => ?_
          unfold likelihoodMix
          refine congrArg (fun r => ENNReal.ofReal (Real.exp r)) ((ev_ll (K := 1) (B := 1) (dt := 100) (al := 1) (be := 1) (γ := 1) (s := 0) θ).trans ?_)
          show (∑ k : Fin 1, _) = -100 * θ.2.2.2.1 (0 : Fin 1)
          rw [Fin.sum_univ_one]
          simp [toU32]
          ring
      _ = ∫⁻ lam, f lam ∂Measure.pi (fun _ : Fin 1 => gammaMeasure 1 1) := priorMix_lam (c := evC 1 1 100 1 1 1 0) one_pos one_pos hc mf
      _ = ∫⁻ t, ENNReal.ofReal (Real.exp (-100 * t)) ∂gammaMeasure 1 1 :=
          (measurePreserving_eval (fun _ : Fin 1 => gammaMeasure 1 1) 0).lintegral_comp (f := fun t : ℝ => ENNReal.ofReal (Real.exp (-100 * t))) (by fun_prop)
      _ = ENNReal.ofReal (1 / 101) := by
          have hm := mgf_gamma (a := 1) one_pos (-100)
          rw [if_pos (by norm_num)] at hm
          have hpos : (0:ℝ) < mgf id (gammaMeasure 1 1) (-100) := by rw [hm]; positivity
          have hi : Integrable (fun t : ℝ => Real.exp (-100 * t)) (gammaMeasure 1 1) := by
            by_contra hn
            unfold mgf at hpos
            have : ∫ x, Real.exp (-100 * id x) ∂gammaMeasure 1 1 = 0 := integral_undef hn
            rw [this] at hpos
            exact lt_irrefl _ hpos
          rw [← ofReal_integral_eq_lintegral_ofReal hi (Filter.Eventually.of_forall fun t => (Real.exp_pos _).le)]
          congr 1
          have : ∫ t, Real.exp (-100 * t) ∂gammaMeasure 1 1 = mgf id (gammaMeasure 1 1) (-100) := rfl
          rw [this, hm, Real.rpow_neg (by norm_num)]
          norm_num
  refine lt_of_le_of_lt key ?_
  have h1 : Real.log (1 / 101) < -2 := by
    rw [one_div, Real.log_inv, neg_lt_neg_iff, Real.lt_log_iff_exp_lt (by norm_num)]
    have : Real.exp 2 = Real.exp 1 * Real.exp 1 := by rw [← Real.exp_add]; norm_num
    rw [this]
    nlinarith [Real.exp_one_lt_d9, Real.exp_pos 1]
  have h2 := psi_one
  norm_num at h1 ⊢
  nlinarith

/-- **C103 (violated).** Before the first coordinate step the expected parents are zero, so the events do not enter the bound: with one event and a small background rate `get_vlb()` of a newly constructed
model exceeds the log evidence. -/
theorem C103_fresh_violated (huge : ℝ) : ∃ M c n x, MFGood M ∧ SharedSettings M c n ∧ CfgOk c n ∧ FilteredFromEvents c.base.K c.base.B c.data ∧ List.Forall₂ SameObs M.data c.data ∧ M.K = 1 ∧ c.base.dt = 1 ∧
    (∀ D ∈ M.data, D.EZ = none) ∧ M.vlb huge = .ok (.fin x) ∧ logEvidence M.w.kappa0 M.w.nu0 c n < x := by
  have q0 : (0:ℝ) < 1 / 1000 := by norm_num
  refine ⟨evM 1 1 1 (1 / 1000) 1 1 1, evC 1 1 1 (1 / 1000) 1 1 1, evNet 1, _, evM_good q0 one_pos one_pos one_pos, ev_shared,
    evC_ok one_pos q0 one_pos one_pos one_pos (by norm_num), ev_filtered, List.forall₂_same.2 fun D _ => ⟨rfl, rfl, rfl⟩, rfl, rfl,
    fun D hD => by rw [List.mem_singleton.1 hD], ev_vlb huge q0 one_pos one_pos (by norm_num), ?_⟩
  have hc : CfgOk (evC 1 1 1 (1 / 1000) 1 1 1) (evNet 1) := evC_ok one_pos q0 one_pos one_pos one_pos (by norm_num)
  have gp := isProbabilityMeasure_gammaMeasure (a := 1 / 1000) (r := 1) q0 one_pos
  have key : logEvidence 1 1 (evC 1 1 1 (1 / 1000) 1 1 1) (evNet 1) ≤ Real.log (1 / 1000) := by
    refine ev_log one_pos q0 one_pos one_pos one_pos (by norm_num) q0 ?_
    let f : (Fin 1 → ℝ) → ENNReal := fun lam => ENNReal.ofReal (lam 0 ^ ((1001:ℝ) / 1000 - 1 / 1000))
    have m1 : Measurable fun t : ℝ => ENNReal.ofReal (t ^ ((1001:ℝ) / 1000 - 1 / 1000)) := by fun_prop
    have mf : Measurable f := m1.comp (measurable_pi_apply 0)
    calc ∫⁻ θ, likelihoodMix (evC 1 1 1 (1 / 1000) 1 1 1) θ ∂priorMix 1 1 (evC 1 1 1 (1 / 1000) 1 1 1) (evNet 1) ≤ ∫⁻ θ, f θ.2.2.2.1 ∂priorMix 1 1 (evC 1 1 1 (1 / 1000) 1 1 1) (evNet 1) := by
          refine lintegral_mono_ae ?_
          filter_upwards [priorMix_valid hc] with θ hθ
          unfold likelihoodMix
          refine ENNReal.ofReal_le_ofReal ?_
          refine le_trans (Real.exp_le_exp.2 (le_of_eq (ev_ll (K := 1) (B := 1) (dt := 1) (al := 1 / 1000) (be := 1) (γ := 1) (s := 1) θ))) ?_
          have l0 : 0 < θ.2.2.2.1 (0 : Fin 1) := hθ.lam (0 : Fin 1)
          have w0 : 0 < θ.2.2.1 ((0 : Fin 1), (0 : Fin 1)) := hθ.W ((0 : Fin 1), (0 : Fin 1))
          show Real.exp (∑ k : Fin 1, ((toU32 1 : ℝ) * Real.log (θ.2.2.2.1 k) - θ.2.2.2.1 k * 1 - ∑ i : Fin 1, θ.2.2.1 (i, k) * ((1:ℕ) : ℝ))) ≤ θ.2.2.2.1 (0 : Fin 1) ^ ((1001:ℝ) / 1000 - 1 / 1000)
          rw [Fin.sum_univ_one, Fin.sum_univ_one, show (1001:ℝ) / 1000 - 1 / 1000 = 1 by norm_num, Real.rpow_one, show (toU32 1 : ℝ) = 1 by norm_num [toU32]]
          calc _ ≤ Real.exp (Real.log (θ.2.2.2.1 (0 : Fin 1))) := Real.exp_le_exp.2 (by push_cast; linarith)
            _ = _ := Real.exp_log l0
      _ = ∫⁻ lam, f lam ∂Measure.pi (fun _ : Fin 1 => gammaMeasure (1 / 1000) 1) := priorMix_lam (c := evC 1 1 1 (1 / 1000) 1 1 1) one_pos one_pos hc mf
      _ = ∫⁻ t, ENNReal.ofReal (t ^ ((1001:ℝ) / 1000 - 1 / 1000)) ∂gammaMeasure (1 / 1000) 1 :=
          (measurePreserving_eval (fun _ : Fin 1 => gammaMeasure (1 / 1000) 1) 0).lintegral_comp m1
      _ = ENNReal.ofReal (1 / 1000) := by
          rw [gamma_moment (by norm_num) q0]
          congr 1
          rw [show (1001:ℝ) / 1000 = 1 / 1000 + 1 by norm_num, Real.Gamma_add_one q0.ne', mul_div_cancel_right₀ _ (Real.Gamma_pos_of_pos q0).ne']
  refine lt_of_le_of_lt key ?_
  have h1 : Real.log (1 / 1000) < -2 := by
    rw [one_div, Real.log_inv, neg_lt_neg_iff, Real.lt_log_iff_exp_lt (by norm_num)]
    have : Real.exp 2 = Real.exp 1 * Real.exp 1 := by rw [← Real.exp_add]; norm_num
    rw [this]
    nlinarith [Real.exp_one_lt_d9, Real.exp_pos 1]
  have h2 := psi_one
  norm_num at h1 ⊢
  nlinarith

end PyHawkes
