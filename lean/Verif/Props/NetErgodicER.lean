import Verif.Props.NetErgodic
import Verif.Props.NetBlock
import Verif.Spec.Converge

/-!
# `ErdosRenyiFixedSparsity` and the one-block network as random networks whose updates have full support (used for C94)
-/
set_option linter.unusedSectionVars false
set_option linter.unusedVariables false
set_option linter.unnecessarySeqFocus false

namespace PyHawkes
open Finset Spec MeasureTheory ProbabilityTheory

section
variable {U : Type*} [MeasurableSpace U] {μ : Measure U} (G : Generator μ)

/-- `ErdosRenyiFixedSparsity` -/
noncomputable def erNet (K : ℕ) (n : ERFixed) : NetSys K ℝ U where
  κ := n.kappa
  ν := scalePrior n
  μV := μ
  P := fun _ e => n.P e.1 e.2
  s := fun η _ => η
  step := fun u η A W => augV G n u η A W

variable {K : ℕ} {n : ERFixed}

theorem erNet_ok (hn : ErOk K n) : (erNet G K n).Ok := by
  have hμ := gen_prob G
  have hsp : IsProbabilityMeasure (scalePrior n) := by
    rcases aug_scale_cases G n hn with ⟨a, b, ha, hb, e, -⟩ | ⟨e, -⟩ <;> rw [e]
    · exact isProbabilityMeasure_gammaMeasure ha hb
    · infer_instance
  refine ⟨hn.kappa, hsp, hμ, measurable_const, measurable_pi_iff.2 fun e => measurable_id, Filter.Eventually.of_forall fun η e => aug_P_mem hn e, ?_, augV_meas G, ?_⟩
  · have : ∀ᵐ v ∂scalePrior n, 0 < v := by
      rcases aug_scale_cases G n hn with ⟨a, b, ha, hb, e, -⟩ | ⟨e, -⟩ <;> rw [e]
      · exact gammaMeasure_pos
      · rw [ae_dirac_iff measurableSet_Ioi]; exact hn.v
    filter_upwards [this] with v hv e
    exact hv
  intro A hA H hH R hR
  set pA : ENNReal := ∏ e : Pair K, edgePmf (n.P e.1 e.2) (A e) with hpA
  have hd : ∀ (η : ℝ) (W : Pair K → ℝ), (erNet G K n).dens η A W = pA * ∏ e, gammaPDF n.kappa η (W e) := fun η W => rfl
  have mH : Measurable fun W : Pair K → ℝ => H (fun e => A e * W e) := hH.comp (by fun_prop)
  have mw : Measurable fun x : ℝ × (Pair K → ℝ) => ∏ e, gammaPDF n.kappa x.1 (x.2 e) :=
    Finset.measurable_prod _ fun e _ => (measurable_gammaPDF' n.kappa).comp (f := fun x : ℝ × (Pair K → ℝ) => (x.1, x.2 e)) (by fun_prop)
  have mI : Measurable fun x : ℝ × (Pair K → ℝ) => ∫⁻ u, R (augV G n u x.1 A x.2) ∂μ :=
    Measurable.lintegral_prod_right' (f := fun y : (ℝ × (Pair K → ℝ)) × U => R (augV G n y.2 y.1.1 A y.1.2))
      (hR.comp ((augV_meas G).comp (f := fun y : (ℝ × (Pair K → ℝ)) × U => (y.2, y.1.1, A, y.1.2)) (by fun_prop)))
  have pull : ∀ F : ℝ × (Pair K → ℝ) → ENNReal, Measurable F → ∫⁻ η, ∫⁻ W, pA * (∏ e, gammaPDF n.kappa η (W e)) * (H (fun e => A e * W e) * F (η, W)) ∂Measure.pi (fun _ => volume) ∂scalePrior n
      = pA * ∫⁻ η, ∫⁻ W, (∏ e, gammaPDF n.kappa η (W e)) * (H (fun e => A e * W e) * F (η, W)) ∂Measure.pi (fun _ => volume) ∂scalePrior n := by
    intro F hF
    have m1 : Measurable fun x : ℝ × (Pair K → ℝ) => (∏ e, gammaPDF n.kappa x.1 (x.2 e)) * (H (fun e => A e * x.2 e) * F x) := mw.mul ((mH.comp measurable_snd).mul hF)
    have m2 : Measurable fun η : ℝ => ∫⁻ W, (∏ e, gammaPDF n.kappa η (W e)) * (H (fun e => A e * W e) * F (η, W)) ∂Measure.pi (fun _ : Pair K => volume) := m1.lintegral_prod_right'
    rw [← lintegral_const_mul _ m2]
    refine lintegral_congr fun η => ?_
    have m3 : Measurable fun W : Pair K → ℝ => (∏ e, gammaPDF n.kappa η (W e)) * (H (fun e => A e * W e) * F (η, W)) := m1.comp (f := fun W => (η, W)) (by fun_prop)
    rw [← lintegral_const_mul _ m3]
    exact lintegral_congr fun W => by ring
  simp only [hd]
  refine (pull (fun x => ∫⁻ u, R (augV G n u x.1 A x.2) ∂μ) mI).trans (Eq.trans ?_ (pull (fun x => R x.1) (hR.comp measurable_fst)).symm)
  congr 1
  dsimp only
  rcases aug_scale_cases G n hn with ⟨a, b, ha, hb, e, hv⟩ | ⟨e, hv⟩
  · rw [e]
    simp only [hv]
    have hs : ∀ W : Pair K → ℝ, (∑ e, if 0 < A e then W e else 0) = ∑ e, A e * W e := fun W => sum_congr rfl fun e _ => by
      rcases hA e with h | h <;> rw [h] <;> simp
    simp only [hs]
    exact scale_invariant G A hn.kappa ha hb hA hH hR
  · simp only [hv, lintegral_const, measure_univ, mul_one]

theorem erNet_pos (hn : ErOk K n) : (erNet G K n).Pos {v | ScaleOk n v} := by
  have hμ := gen_prob G
  by_cases hl : ∃ a b, n.alpha = some a ∧ n.beta = some b ∧ a ≠ 0 ∧ b ≠ 0
  · have hD : {v | ScaleOk n v} = Set.univ := Set.eq_univ_of_forall fun v => .inr hl
    rw [hD]
    refine ⟨MeasurableSet.univ, Filter.Eventually.of_forall fun _ => trivial, fun η _ A W hA hW => ?_⟩
    obtain ⟨a, b, ha, hb, ha0, hb0⟩ := hl
    have hap : 0 < a := lt_of_le_of_ne (hn.hyper.1 a (by rw [ha]; rfl)) (Ne.symm ha0)
    have hbp : 0 < b := lt_of_le_of_ne (hn.hyper.2 b (by rw [hb]; rfl)) (Ne.symm hb0)
    have ht : (truthy (some a) && truthy (some b)) = true := by simp [truthy, ha0, hb0]
    have e1 : (erNet G K n).ν = gammaMeasure a b := by
      change scalePrior n = _
      unfold scalePrior
      rw [ha, hb]
      dsimp only
      rw [if_pos ht]
    have e2 : (fun u => (erNet G K n).step u η A W) = G.gam ⟨a + (∑ e, A e) * n.kappa, 1 / (b + ∑ e, if 0 < A e then W e else 0)⟩ := by
      funext u
      change augV G n u η A W = _
      unfold augV
      rw [ha, hb]
      dsimp only
      rw [if_pos ht]
    have hA0 : 0 ≤ ∑ e, A e := sum_nonneg fun e _ => by rcases hA e with h | h <;> rw [h] <;> norm_num
    have hS0 : 0 ≤ ∑ e, if 0 < A e then W e else 0 := sum_nonneg fun e _ => by split_ifs <;> simp [hW e]
    have h1 : 0 < a + (∑ e, A e) * n.kappa := add_pos_of_pos_of_nonneg hap (mul_nonneg hA0 hn.kappa.le)
    have h2 : 0 < b + ∑ e, if 0 < A e then W e else 0 := add_pos_of_pos_of_nonneg hbp hS0
    have e3 : (erNet G K n).μV.map (fun u => (erNet G K n).step u η A W) = gammaMeasure (a + (∑ e, A e) * n.kappa) (b + ∑ e, if 0 < A e then W e else 0) := by
      rw [e2]
      have := G.gam_law ⟨a + (∑ e, A e) * n.kappa, 1 / (b + ∑ e, if 0 < A e then W e else 0)⟩ h1 (one_div_pos.2 h2)
      rw [one_div_one_div] at this
      exact this
    rw [e3, e1]
    exact ⟨gammaMeasure_ac hap hbp, gammaMeasure_ac h1 h2⟩
  · have hD : {v | ScaleOk n v} = {n.v} := by
      ext v; constructor
      · exact fun h => h.resolve_right hl
      · exact fun h => .inl h
    rw [hD]
    have hfix : scalePrior n = Measure.dirac n.v ∧ ∀ x v (A W : Pair K → ℝ), augV G n x v A W = v := by
      unfold scalePrior augV
      rcases ha : n.alpha with _ | a
      · exact ⟨rfl, fun _ _ _ _ => rfl⟩
      rcases hb : n.beta with _ | b
      · exact ⟨rfl, fun _ _ _ _ => rfl⟩
      dsimp only
      have ht : ¬ (truthy (some a) && truthy (some b)) = true := fun ht => hl ⟨a, b, ha, hb, by
        rw [Bool.and_eq_true] at ht
        simpa only [truthy, decide_eq_true_eq] using ht⟩
      rw [if_neg ht]
      exact ⟨rfl, fun _ _ _ _ => if_neg ht⟩
    refine ⟨measurableSet_singleton _, ?_, fun η hη A W hA hW => ?_⟩
    · change ∀ᵐ η ∂scalePrior n, _
      rw [hfix.1]
      exact (ae_dirac_iff (p := fun η => η ∈ ({n.v} : Set ℝ)) (measurableSet_singleton _)).2 rfl
    · have e2 : (fun u => (erNet G K n).step u η A W) = fun _ => n.v := by
        funext u
        change augV G n u η A W = _
        rw [hfix.2]; exact hη
      have e3 : (erNet G K n).μV.map (fun u => (erNet G K n).step u η A W) = Measure.dirac n.v := by
        rw [e2, Measure.map_const]
        change μ Set.univ • _ = _
        rw [measure_univ, one_smul]
      rw [e3]
      change _ ≪ scalePrior n ∧ scalePrior n ≪ _
      rw [hfix.1]
      exact ⟨Measure.AbsolutelyContinuous.refl _, Measure.AbsolutelyContinuous.refl _⟩

theorem betaMeasure_ac {a b a' b' : ℝ} (ha : 0 < a') (hb : 0 < b') : betaMeasure a b ≪ betaMeasure a' b' := by
  refine Measure.AbsolutelyContinuous.mk fun s hs h0 => ?_
  unfold betaMeasure at h0 ⊢
  have m : ∀ a b, Measurable (betaPDF a b) := fun a b => (measurable_betaPDFReal a b).ennreal_ofReal
  rw [withDensity_apply _ hs] at h0 ⊢
  rw [lintegral_eq_zero_iff (m a' b')] at h0
  rw [lintegral_eq_zero_iff (m a b)]
  filter_upwards [h0] with x hx
  by_cases hx1 : 0 < x ∧ x < 1
  · have hp : 0 < betaPDF a' b' x := ENNReal.ofReal_pos.2 (betaPDFReal_pos hx1.1 hx1.2 ha hb)
    exact absurd hx hp.ne'
  · unfold betaPDF betaPDFReal
    rw [if_neg hx1, ENNReal.ofReal_zero]
    rfl

theorem blockNet_pos (Bt : BetaSampler μ) (K : ℕ) {n : SBM} (h : BlockHyper n) : (blockNet G Bt K n).Pos Set.univ := by
  have hμ := gen_prob G
  refine ⟨MeasurableSet.univ, Filter.Eventually.of_forall fun _ => trivial, fun η _ A W hA hW => ?_⟩
  have hA0 : 0 ≤ ∑ e, A e := sum_nonneg fun e _ => by rcases hA e with h | h <;> rw [h] <;> norm_num
  have hA1 : 0 ≤ ∑ e, (1 - A e) := sum_nonneg fun e _ => by rcases hA e with h | h <;> rw [h] <;> norm_num
  have hS0 : 0 ≤ ∑ e, if 0 < A e then W e else 0 := sum_nonneg fun e _ => by split_ifs <;> simp [hW e]
  have h1 : 0 < n.alpha + (∑ e, A e) * n.kappa := add_pos_of_pos_of_nonneg h.a (mul_nonneg hA0 h.k.le)
  have h2 : 0 < n.beta + ∑ e, if 0 < A e then W e else 0 := add_pos_of_pos_of_nonneg h.b hS0
  have h3 : 0 < n.tau1 + ∑ e, A e := add_pos_of_pos_of_nonneg h.t1 hA0
  have h4 : 0 < n.tau0 + ∑ e, (1 - A e) := add_pos_of_pos_of_nonneg h.t0 hA1
  have p1 := isProbabilityMeasure_gammaMeasure h1 h2
  have p2 := isProbabilityMeasureBeta h3 h4
  have p3 := isProbabilityMeasure_gammaMeasure h.a h.b
  have p4 := isProbabilityMeasureBeta h.t1 h.t0
  have mb : Measurable fun u => Bt.bet ⟨n.tau1 + ∑ e, A e, n.tau0 + ∑ e, (1 - A e)⟩ u := Bt.bet_meas.comp (f := fun u => ((n.tau1 + ∑ e, A e, n.tau0 + ∑ e, (1 - A e)), u)) (by fun_prop)
  have mg := gam_measurable G ⟨n.alpha + (∑ e, A e) * n.kappa, 1 / (n.beta + ∑ e, if 0 < A e then W e else 0)⟩
  have e3 : (blockNet G Bt K n).μV.map (fun u => (blockNet G Bt K n).step u η A W)
      = (betaMeasure (n.tau1 + ∑ e, A e) (n.tau0 + ∑ e, (1 - A e))).prod (gammaMeasure (n.alpha + (∑ e, A e) * n.kappa) (n.beta + ∑ e, if 0 < A e then W e else 0)) := by
    have a1 := Bt.bet_law ⟨n.tau1 + ∑ e, A e, n.tau0 + ∑ e, (1 - A e)⟩ h3 h4
    have a2 := G.gam_law ⟨n.alpha + (∑ e, A e) * n.kappa, 1 / (n.beta + ∑ e, if 0 < A e then W e else 0)⟩ h1 (one_div_pos.2 h2)
    rw [one_div_one_div] at a2
    rw [← a1, ← a2, Measure.map_prod_map _ _ mb mg]
    rfl
  rw [e3]
  exact ⟨(betaMeasure_ac h.t1 h.t0).prod (gammaMeasure_ac h.a h.b), (betaMeasure_ac h3 h4).prod (gammaMeasure_ac h1 h2)⟩

end

end PyHawkes
