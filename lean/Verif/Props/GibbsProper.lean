import Verif.Props.GibbsPosterior
import Verif.Props.GibbsExists
import Mathlib.Probability.Independence.InfinitePi

/-!
# C83: the posterior is a probability distribution, and the hypotheses of the invariance theorem can be met
-/
set_option linter.unusedSectionVars false
set_option linter.unusedVariables false

namespace PyHawkes
open Finset Spec MeasureTheory ProbabilityTheory

section
variable {c : HawkesState} {n : ERFixed}

/-- the likelihood is bounded -/
theorem lik_bounded (h : CfgOk c n) (hF : FilteredFromEvents c.base.K c.base.B c.data) : ∃ C : ℝ, ∀ (A W : Pair c.base.K → ℝ) (lam : Fin c.base.K → ℝ) (g : Pair c.base.K → Vec ℝ), (∀ e, 0 ≤ A e * W e) →
    (∀ k, 0 < lam k) → (∀ e, IsProb c.base.B (g e)) → likR c A W lam g ≤ C := by
  have hF0 : ∀ (ρ : Row c) (i : Fin c.base.K), ∀ b < c.base.B, 0 ≤ rowF ρ i b := fun ρ i b hb => (h.data _ (List.getElem_mem _)).1 _ (mem_ts (List.getElem_mem _)).1 i i.2 b hb
  have hev : ∀ (ρ : Row c) (i : Fin c.base.K), ∀ b < c.base.B, rowF ρ i b ≤ evTotal c i * rowF ρ i b := by
    intro ρ i b hb
    by_cases h0 : rowF ρ i b = 0
    · rw [h0, mul_zero]
    · refine le_mul_of_one_le_left (hF0 ρ i b hb) ?_
      obtain ⟨D', hD', t, ht, hS⟩ := hF _ (List.getElem_mem ρ.2.1.2) _ (mem_ts (List.getElem_mem _)).1 i i.2 b hb h0
      obtain ⟨j, hj, rfl⟩ := List.getElem_of_mem hD'
      have h1 : 1 ≤ (c.data[j]).Ns i := by
        rw [Ns_eq]
        exact le_trans (Nat.one_le_iff_ne_zero.2 hS) (single_le_sum (f := fun t => (c.data[j]).S t i) (fun _ _ => Nat.zero_le _) (mem_range.2 ht))
      unfold evTotal
      refine le_trans (by exact_mod_cast h1 : (1 : ℝ) ≤ ((c.data[j]).Ns i : ℝ)) ?_
      exact single_le_sum (f := fun j : Fin c.data.length => ((c.data[j]).Ns i : ℝ)) (fun _ _ => Nat.cast_nonneg _) (mem_univ ⟨j, hj⟩)
  set M : ℝ := 1 + ∑ ρ : Row c, ∑ i : Fin c.base.K, ∑ b ∈ range c.base.B, rowF ρ i b with hM
  have hMF : ∀ (ρ : Row c) (i : Fin c.base.K), ∀ b < c.base.B, rowF ρ i b ≤ M := by
    intro ρ i b hb
    have h1 : rowF ρ i b ≤ ∑ b ∈ range c.base.B, rowF ρ i b := single_le_sum (f := fun b => rowF ρ i b) (fun b hb => hF0 ρ i b (mem_range.1 hb)) (mem_range.2 hb)
    have h2 : ∑ b ∈ range c.base.B, rowF ρ i b ≤ ∑ i : Fin c.base.K, ∑ b ∈ range c.base.B, rowF ρ i b :=
      single_le_sum (f := fun i : Fin c.base.K => ∑ b ∈ range c.base.B, rowF ρ i b) (fun i _ => sum_nonneg fun b hb => hF0 ρ i b (mem_range.1 hb)) (mem_univ i)
    have h3 : ∑ i : Fin c.base.K, ∑ b ∈ range c.base.B, rowF ρ i b ≤ ∑ ρ : Row c, ∑ i : Fin c.base.K, ∑ b ∈ range c.base.B, rowF ρ i b :=
      single_le_sum (f := fun ρ : Row c => ∑ i : Fin c.base.K, ∑ b ∈ range c.base.B, rowF ρ i b) (fun ρ _ => sum_nonneg fun i _ => sum_nonneg fun b hb => hF0 ρ i b (mem_range.1 hb)) (mem_univ ρ)
    linarith
  have hM1 : 1 ≤ M := by
    have : 0 ≤ ∑ ρ : Row c, ∑ i : Fin c.base.K, ∑ b ∈ range c.base.B, rowF ρ i b := sum_nonneg fun ρ _ => sum_nonneg fun i _ => sum_nonneg fun b hb => hF0 ρ i b (mem_range.1 hb)
    linarith
  set m : ℕ := ∑ ρ : Row c, rowCount ρ with hm
  set ε : ℝ := min (timeTotal c) 1 with hε
  refine ⟨max 1 ((M / ε) ^ m * m.factorial), fun A W lam g hAW hlam hg => ?_⟩
  set Y : ℝ := ∑ k, lam k + ∑ e : Pair c.base.K, A e * W e * evTotal c e.1 with hY
  have hX0 : ∀ e : Pair c.base.K, 0 ≤ A e * W e * evTotal c e.1 := fun e => mul_nonneg (hAW e) (ev_nonneg _)
  have hY0 : 0 ≤ Y := add_nonneg (sum_nonneg fun k _ => (hlam k).le) (sum_nonneg fun e _ => hX0 e)
  have hrate : ∀ ρ : Row c, rowRate A W lam g ρ ≤ M * Y := by
    intro ρ
    unfold rowRate
    have h1 : ∀ i : Fin c.base.K, ∑ b ∈ range c.base.B, A (i, ρ.1) * W (i, ρ.1) * g (i, ρ.1) b * rowF ρ i b ≤ M * (A (i, ρ.1) * W (i, ρ.1) * evTotal c i) := by
      intro i
      calc ∑ b ∈ range c.base.B, A (i, ρ.1) * W (i, ρ.1) * g (i, ρ.1) b * rowF ρ i b
          ≤ ∑ b ∈ range c.base.B, (A (i, ρ.1) * W (i, ρ.1) * evTotal c i) * M * g (i, ρ.1) b := by
            refine sum_le_sum fun b hb => ?_
            have hb' := mem_range.1 hb
            have hg0 := (hg (i, ρ.1)).1 b hb'
            calc A (i, ρ.1) * W (i, ρ.1) * g (i, ρ.1) b * rowF ρ i b ≤ A (i, ρ.1) * W (i, ρ.1) * g (i, ρ.1) b * (evTotal c i * rowF ρ i b) :=
                  mul_le_mul_of_nonneg_left (hev ρ i b hb') (mul_nonneg (hAW _) hg0)
              _ = (A (i, ρ.1) * W (i, ρ.1) * evTotal c i * g (i, ρ.1) b) * rowF ρ i b := by ring
              _ ≤ (A (i, ρ.1) * W (i, ρ.1) * evTotal c i * g (i, ρ.1) b) * M := mul_le_mul_of_nonneg_left (hMF ρ i b hb') (mul_nonneg (hX0 (i, ρ.1)) hg0)
              _ = _ := by ring
        _ = M * (A (i, ρ.1) * W (i, ρ.1) * evTotal c i) := by rw [← mul_sum, (hg (i, ρ.1)).2, mul_one, mul_comm]
    have h2 : ∑ i : Fin c.base.K, A (i, ρ.1) * W (i, ρ.1) * evTotal c i ≤ ∑ e : Pair c.base.K, A e * W e * evTotal c e.1 := by
      rw [Fintype.sum_prod_type]
      exact sum_le_sum fun i _ => single_le_sum (f := fun j : Fin c.base.K => A (i, j) * W (i, j) * evTotal c i) (fun j _ => hX0 (i, j)) (mem_univ ρ.1)
    have h3 : lam ρ.1 ≤ ∑ k, lam k := single_le_sum (f := lam) (fun k _ => (hlam k).le) (mem_univ ρ.1)
    calc lam ρ.1 + ∑ i : Fin c.base.K, ∑ b ∈ range c.base.B, A (i, ρ.1) * W (i, ρ.1) * g (i, ρ.1) b * rowF ρ i b
        ≤ M * lam ρ.1 + ∑ i : Fin c.base.K, M * (A (i, ρ.1) * W (i, ρ.1) * evTotal c i) := add_le_add (le_mul_of_one_le_left (hlam _).le hM1) (sum_le_sum fun i _ => h1 i)
      _ = M * (lam ρ.1 + ∑ i : Fin c.base.K, A (i, ρ.1) * W (i, ρ.1) * evTotal c i) := by rw [← mul_sum, mul_add]
      _ ≤ M * Y := mul_le_mul_of_nonneg_left (add_le_add h3 h2) (by linarith)
  have hprod : ∏ ρ : Row c, rowRate A W lam g ρ ^ rowCount ρ ≤ (M * Y) ^ m := by
    rw [hm, ← prod_pow_eq_pow_sum]
    have hpos := rowRate_pos h.data hAW hlam (fun e b hb => (hg e).1 b hb)
    exact prod_le_prod (fun ρ _ => pow_nonneg (hpos ρ).le _) fun ρ _ => pow_le_pow_left₀ (hpos ρ).le (hrate ρ) _
  rw [likR_eq h.data hAW hlam fun e b hb => (hg e).1 b hb, ← Real.exp_sum, ← Real.exp_sum, ← Real.exp_add]
  have hexp : ∑ k, -(lam k * timeTotal c) + ∑ e : Pair c.base.K, -(A e * W e * evTotal c e.1) ≤ -(ε * Y) := by
    rw [sum_neg_distrib, sum_neg_distrib, ← sum_mul, hY, mul_add]
    have h1 : ε * ∑ k, lam k ≤ (∑ k, lam k) * timeTotal c := by
      rw [mul_comm]; exact mul_le_mul_of_nonneg_left (min_le_left _ _) (sum_nonneg fun k _ => (hlam k).le)
    have h2 : ε * ∑ e : Pair c.base.K, A e * W e * evTotal c e.1 ≤ ∑ e : Pair c.base.K, A e * W e * evTotal c e.1 :=
      mul_le_of_le_one_left (sum_nonneg fun e _ => hX0 e) (min_le_right _ _)
    linarith
  have hε0 : 0 ≤ ε := le_min (time_nonneg h) zero_le_one
  rcases isEmpty_or_nonempty (Row c) with he | ⟨⟨ρ⟩⟩
  · rw [Fintype.prod_empty, mul_one]
    refine le_trans (Real.exp_le_one_iff.2 (hexp.trans ?_)) (le_max_left _ _)
    have := mul_nonneg hε0 hY0
    linarith
  · have hT : 0 < timeTotal c := by
      have ht := (mem_ts (List.getElem_mem ρ.2.2.2)).1
      have hTi : 0 < (c.data[ρ.2.1]).T := lt_of_le_of_lt (Nat.zero_le _) ht
      unfold timeTotal
      refine lt_of_lt_of_le (mul_pos (Nat.cast_pos.2 hTi) h.hyper.dt) ?_
      exact single_le_sum (f := fun i : Fin c.data.length => ((c.data[i]).T : ℝ) * c.base.dt) (fun i _ => mul_nonneg (Nat.cast_nonneg _) h.hyper.dt.le) (mem_univ ρ.2.1)
    have hεp : 0 < ε := lt_min hT one_pos
    refine le_trans ?_ (le_max_right _ _)
    have hb : (ε * Y) ^ m / m.factorial ≤ Real.exp (ε * Y) := Real.pow_div_factorial_le_exp _ (mul_nonneg hεp.le hY0) m
    have hb' : (ε * Y) ^ m ≤ Real.exp (ε * Y) * m.factorial := (div_le_iff₀ (Nat.cast_pos.2 m.factorial_pos)).1 hb
    calc Real.exp (∑ k, -(lam k * timeTotal c) + ∑ e : Pair c.base.K, -(A e * W e * evTotal c e.1)) * ∏ ρ : Row c, rowRate A W lam g ρ ^ rowCount ρ
        ≤ Real.exp (-(ε * Y)) * (M * Y) ^ m := mul_le_mul (Real.exp_le_exp.2 hexp) hprod
          (prod_nonneg fun ρ _ => pow_nonneg (rowRate_pos h.data hAW hlam (fun e b hb => (hg e).1 b hb) ρ).le _) (Real.exp_pos _).le
      _ = Real.exp (-(ε * Y)) * ((M / ε) ^ m * (ε * Y) ^ m) := by rw [← mul_pow]; congr 2; field_simp
      _ ≤ Real.exp (-(ε * Y)) * ((M / ε) ^ m * (Real.exp (ε * Y) * m.factorial)) :=
          mul_le_mul_of_nonneg_left (mul_le_mul_of_nonneg_left hb' (pow_nonneg (div_nonneg (by linarith) hεp.le) _)) (Real.exp_pos _).le
      _ = (M / ε) ^ m * m.factorial * (Real.exp (-(ε * Y)) * Real.exp (ε * Y)) := by ring
      _ = _ := by rw [← Real.exp_add, neg_add_cancel, Real.exp_zero, mul_one]

/-! ### the prior -/

/-- valid parameter values -/
structure ThetaOk (c : HawkesState) (n : ERFixed) (θ : Theta c.base.K) : Prop where
  A : ∀ e, θ.1 e = 0 ∨ θ.1 e = 1
  self : n.allowSelf = false → ∀ i, θ.1 (i, i) = 0
  v : 0 < θ.2.1
  W : ∀ e, 0 < θ.2.2.1 e
  lam : ∀ k, 0 < θ.2.2.2.1 k
  g : ∀ e, IsProb c.base.B (θ.2.2.2.2 e)

theorem measurableSet_thetaOk : MeasurableSet {θ : Theta c.base.K | ThetaOk c n θ} := by
  have e : {θ : Theta c.base.K | ThetaOk c n θ} = (⋂ e, ({θ | θ.1 e = 0} ∪ {θ | θ.1 e = 1})) ∩ (⋂ (_ : n.allowSelf = false), ⋂ i, {θ | θ.1 (i, i) = 0}) ∩ {θ | 0 < θ.2.1} ∩ (⋂ e, {θ | 0 < θ.2.2.1 e}) ∩
      (⋂ k, {θ | 0 < θ.2.2.2.1 k}) ∩ ⋂ e, {θ | IsProb c.base.B (θ.2.2.2.2 e)} := by
    ext θ
    simp only [Set.mem_ofPred_eq, Set.mem_inter_iff, Set.mem_iInter, Set.mem_union]
    exact ⟨fun h => ⟨⟨⟨⟨⟨h.A, h.self⟩, h.v⟩, h.W⟩, h.lam⟩, h.g⟩, fun h => ⟨h.1.1.1.1.1, h.1.1.1.1.2, h.1.1.1.2, h.1.1.2, h.1.2, h.2⟩⟩
  rw [e]
  refine ((((MeasurableSet.inter ?_ ?_).inter ?_).inter ?_).inter ?_).inter ?_
  · exact MeasurableSet.iInter fun e => (measurableSet_eq_fun (by fun_prop) measurable_const).union (measurableSet_eq_fun (by fun_prop) measurable_const)
  · exact MeasurableSet.iInter fun _ => MeasurableSet.iInter fun i => measurableSet_eq_fun (by fun_prop) measurable_const
  · exact measurableSet_lt measurable_const (by fun_prop)
  · exact MeasurableSet.iInter fun e => measurableSet_lt measurable_const (by fun_prop)
  · exact MeasurableSet.iInter fun e => measurableSet_lt measurable_const (by fun_prop)
  · exact MeasurableSet.iInter fun e => (measurableSet_isProb c.base.B).preimage (f := fun θ : Theta c.base.K => θ.2.2.2.2 e) (by fun_prop)

theorem wDens_integral (h : CfgOk c n) {η : ℝ} (hη : 0 < η) : ∫⁻ W, wDens (c := c) n η W ∂Measure.pi (fun _ => volume) = 1 := by
  unfold wDens
  rw [lintegral_prod_pi _ (fun _ : Pair c.base.K => gammaPDF n.kappa η) fun _ => (measurable_gammaPDFReal _ _).ennreal_ofReal]
  exact prod_eq_one fun e _ => lintegral_gammaPDF_eq_one h.net.kappa hη

theorem prior_prob (h : CfgOk c n) : IsProbabilityMeasure (prior c n) := by
  obtain ⟨G⟩ := C83_generator_exists
  have hP : ∀ e : Pair c.base.K, IsProbabilityMeasure (coinLaw (n.P e.1 e.2)) := fun e => coinLaw_prob (P_mem h e).1 (P_mem h e).2
  have hS := scale_prob G h
  have hΦ := phi_prob h
  refine ⟨?_⟩
  rw [← lintegral_one, prior_lintegral G h measurable_const]
  have e : ∀ (A : Pair c.base.K → ℝ), ∫⁻ η, ∫⁻ W, ∫⁻ φ, wDens (c := c) n η W * 1 ∂phiPrior c ∂Measure.pi (fun _ => volume) ∂scalePrior n = 1 := by
    intro A
    rw [← measure_univ (μ := scalePrior n), ← lintegral_one]
    refine lintegral_congr_ae ?_
    filter_upwards [scale_pos G h] with η hη
    simp only [mul_one, lintegral_const, measure_univ]
    exact wDens_integral h hη
  rw [lintegral_congr fun A => e A, lintegral_one, measure_univ]

theorem dir_valid (h : CfgOk c n) : ∀ᵐ φ ∂phiPrior c, (∀ k, 0 < φ.1 k) ∧ ∀ e, IsProb c.base.B (φ.2 e) := by
  have := isProbabilityMeasure_gammaMeasure h.hyper.alpha h.hyper.beta
  have := dirichlet_prob h.hyper.gamma
  have h1 : ∀ᵐ lam ∂Measure.pi (fun _ : Fin c.base.K => gammaMeasure c.alpha c.beta), ∀ k, 0 < lam k := pi_ae_all _ fun _ => gammaMeasure_pos
  have h2 : ∀ᵐ g ∂Measure.pi (fun _ : Pair c.base.K => dirichletLaw c.base.B c.gamma), ∀ e, IsProb c.base.B (g e) :=
    pi_ae_all (fun _ : Pair c.base.K => dirichletLaw c.base.B c.gamma) (p := fun _ x => IsProb c.base.B x) fun _ => by
      filter_upwards [dirichlet_simplex h.hyper.gamma h.B] with x hx
      exact ⟨fun b hb => (hx.1 b hb).le, hx.2⟩
  have m1 := Measure.quasiMeasurePreserving_fst (μ := Measure.pi fun _ : Fin c.base.K => gammaMeasure c.alpha c.beta) (ν := Measure.pi fun _ : Pair c.base.K => dirichletLaw c.base.B c.gamma)
  have m2 := Measure.quasiMeasurePreserving_snd (μ := Measure.pi fun _ : Fin c.base.K => gammaMeasure c.alpha c.beta) (ν := Measure.pi fun _ : Pair c.base.K => dirichletLaw c.base.B c.gamma)
  unfold phiPrior
  filter_upwards [m1.ae h1, m2.ae h2] with φ a b
  exact ⟨a, b⟩

theorem coins_self (h : CfgOk c n) : ∀ᵐ A ∂Measure.pi (fun e : Pair c.base.K => coinLaw (n.P e.1 e.2)), n.allowSelf = false → ∀ i, A (i, i) = 0 := by
  have hP : ∀ e : Pair c.base.K, IsProbabilityMeasure (coinLaw (n.P e.1 e.2)) := fun e => coinLaw_prob (P_mem h e).1 (P_mem h e).2
  have h1 : ∀ᵐ A ∂Measure.pi (fun e : Pair c.base.K => coinLaw (n.P e.1 e.2)), ∀ e : Pair c.base.K, n.P e.1 e.2 = 0 → A e = 0 :=
    pi_ae_all (fun e : Pair c.base.K => coinLaw (n.P e.1 e.2)) (p := fun e t => n.P e.1 e.2 = 0 → t = 0) fun e => by
      by_cases h0 : n.P e.1 e.2 = 0
      · rw [h0]
        have : coinLaw 0 = Measure.dirac 0 := by unfold coinLaw; simp
        rw [this, ae_dirac_iff ((measurableSet_singleton (0 : ℝ)).preimage (f := fun t => t) measurable_id |>.congr (by ext t; simp [h0]))]
        exact fun _ => rfl
      · exact Filter.Eventually.of_forall fun t ht => absurd ht h0
  filter_upwards [h1] with A hA hs i
  refine hA (i, i) ?_
  unfold ERFixed.P
  rw [if_pos ⟨by rw [hs]; rfl, rfl⟩]

theorem prior_valid (h : CfgOk c n) : ∀ᵐ θ ∂prior c n, ThetaOk c n θ := by
  obtain ⟨G⟩ := C83_generator_exists
  have hms := (measurableSet_thetaOk (c := c) (n := n)).compl
  rw [ae_iff, show {θ : Theta c.base.K | ¬ThetaOk c n θ} = {θ | ThetaOk c n θ}ᶜ from rfl, ← lintegral_indicator_one hms, prior_lintegral G h (measurable_one.indicator hms)]
  refine lintegral_eq_zero_of_ae_eq_zero ?_
  filter_upwards [coins_values h, coins_self h] with A hA hAs
  refine lintegral_eq_zero_of_ae_eq_zero ?_
  filter_upwards [scale_pos G h] with η hη
  refine lintegral_eq_zero_of_ae_eq_zero ?_
  have hW0 : ∀ᵐ W ∂Measure.pi (fun _ : Pair c.base.K => (volume : Measure ℝ)), ∀ e, W e ≠ 0 :=
    ae_all_iff.2 fun e => (Measure.quasiMeasurePreserving_eval (fun _ : Pair c.base.K => (volume : Measure ℝ)) e).ae (Measure.ae_ne volume 0)
  filter_upwards [hW0] with W hW
  by_cases hWp : ∀ e, 0 ≤ W e
  · refine lintegral_eq_zero_of_ae_eq_zero ?_
    filter_upwards [dir_valid h] with φ hφ
    rw [Set.indicator_of_notMem, mul_zero]
    · rfl
    · exact fun hn => hn ⟨hA, hAs, hη, fun e => lt_of_le_of_ne (hWp e) (Ne.symm (hW e)), hφ.1, hφ.2⟩
  · simp only [wDens_neg hWp, zero_mul, lintegral_const]
    rfl

/-- **C83**: the posterior is a probability distribution (finite, nonzero evidence). -/
theorem C83_posterior_proper (h : CfgOk c n) (hF : FilteredFromEvents c.base.K c.base.B c.data) :
    ∫⁻ θ, likelihood c θ ∂prior c n ≠ 0 ∧ ∫⁻ θ, likelihood c θ ∂prior c n ≠ ⊤ ∧ IsProbabilityMeasure (posterior c n) := by
  have hpr := prior_prob h
  have mlik := measurable_likelihood c h.data
  have h0 : ∫⁻ θ, likelihood c θ ∂prior c n ≠ 0 := by
    rw [Ne, lintegral_eq_zero_iff mlik]
    intro hz
    have : ∀ᵐ θ ∂prior c n, False := by
      filter_upwards [hz] with θ hθ
      have : (0 : ENNReal) < likelihood c θ := ENNReal.ofReal_pos.2 (Real.exp_pos _)
      rw [hθ] at this
      exact lt_irrefl _ this
    rw [Filter.eventually_false_iff_eq_bot, ae_eq_bot] at this
    exact IsProbabilityMeasure.ne_zero (prior c n) this
  have hT : ∫⁻ θ, likelihood c θ ∂prior c n ≠ ⊤ := by
    obtain ⟨C, hC⟩ := lik_bounded h hF
    refine ne_top_of_le_ne_top (b := ENNReal.ofReal C) ENNReal.ofReal_ne_top ?_
    calc ∫⁻ θ, likelihood c θ ∂prior c n ≤ ∫⁻ θ, ENNReal.ofReal C ∂prior c n := by
          refine lintegral_mono_ae ?_
          filter_upwards [prior_valid h] with θ hθ
          exact ENNReal.ofReal_le_ofReal (hC θ.1 θ.2.2.1 θ.2.2.2.1 θ.2.2.2.2 (fun e => by rcases hθ.A e with h | h <;> rw [h] <;> simp [(hθ.W e).le]) hθ.lam hθ.g)
      _ = ENNReal.ofReal C := by rw [lintegral_const, measure_univ, mul_one]
  refine ⟨h0, hT, ⟨?_⟩⟩
  unfold posterior
  rw [Measure.smul_apply, withDensity_apply _ MeasurableSet.univ, Measure.restrict_univ, smul_eq_mul, ENNReal.inv_mul_cancel h0 hT]

/-! ### the hypotheses of the invariance theorem can be met -/

/-- the model object with parameters `θ` -/
noncomputable def stateOf (c : HawkesState) (n : ERFixed) (θ : Theta c.base.K) : HawkesState :=
  { c with
    base := { c.base with
      lam0 := fun k => if h : k < c.base.K then θ.2.2.2.1 ⟨k, h⟩ else 0
      g := fun i j => if h : i < c.base.K ∧ j < c.base.K then θ.2.2.2.2 (⟨i, h.1⟩, ⟨j, h.2⟩) else fun _ => 0 }
    net := .er { n with v := θ.2.1 }
    A := fun i j => if h : i < c.base.K ∧ j < c.base.K then θ.1 (⟨i, h.1⟩, ⟨j, h.2⟩) else 0
    W := fun i j => if h : i < c.base.K ∧ j < c.base.K then θ.2.2.1 (⟨i, h.1⟩, ⟨j, h.2⟩) else 0 }

theorem theta_stateOf (θ : Theta c.base.K) : theta c.base.K (stateOf c n θ) = θ := by
  unfold theta stateOf netScale
  simp

theorem forall₂_same (l : List (DParents ℝ)) : List.Forall₂ (fun D D' : DParents ℝ => D'.T = D.T ∧ D'.S = D.S ∧ D'.F = D.F) l l := by
  induction l with
  | nil => exact .nil
  | cons a l ih => exact .cons ⟨rfl, rfl, rfl⟩ ih

theorem stateOf_ok (h : CfgOk c n) {θ : Theta c.base.K} (hθ : ThetaOk c n θ) : SameModel c n (stateOf c n θ) ∧ HyperOk (stateOf c n θ) ∧ ParamsOk (stateOf c n θ) := by
  refine ⟨⟨rfl, rfl, rfl, rfl, rfl, forall₂_same _⟩, ⟨h.hyper.alpha, h.hyper.beta, h.hyper.gamma, h.hyper.dt, h.hyper.basis⟩, ?_⟩
  constructor
  · intro k hk
    have hk' : k < c.base.K := hk
    change 0 < (if h : k < c.base.K then θ.2.2.2.1 ⟨k, h⟩ else 0)
    rw [dif_pos hk']; exact hθ.lam _
  · intro i hi j hj
    have hi' : i < c.base.K := hi
    have hj' : j < c.base.K := hj
    change IsProb c.base.B (if h : i < c.base.K ∧ j < c.base.K then θ.2.2.2.2 (⟨i, h.1⟩, ⟨j, h.2⟩) else fun _ => 0)
    rw [dif_pos ⟨hi', hj'⟩]; exact hθ.g _
  · intro i hi j hj
    have hi' : i < c.base.K := hi
    have hj' : j < c.base.K := hj
    change 0 < (if h : i < c.base.K ∧ j < c.base.K then θ.2.2.1 (⟨i, h.1⟩, ⟨j, h.2⟩) else 0)
    rw [dif_pos ⟨hi', hj'⟩]; exact hθ.W _
  · intro i hi j hj
    have hi' : i < c.base.K := hi
    have hj' : j < c.base.K := hj
    change (if h : i < c.base.K ∧ j < c.base.K then θ.1 (⟨i, h.1⟩, ⟨j, h.2⟩) else 0) = 0 ∨ (if h : i < c.base.K ∧ j < c.base.K then θ.1 (⟨i, h.1⟩, ⟨j, h.2⟩) else 0) = 1
    rw [dif_pos ⟨hi', hj'⟩]; exact hθ.A _
  · intro hs i hi
    have hi' : i < c.base.K := hi
    change (if h : i < c.base.K ∧ i < c.base.K then θ.1 (⟨i, h.1⟩, ⟨i, h.2⟩) else 0) = 0
    rw [dif_pos ⟨hi', hi'⟩]; exact hθ.self hs _
  · exact ⟨h.net.size, h.net.p, h.net.kappa, hθ.v, h.net.hyper⟩

theorem posterior_valid (h : CfgOk c n) : ∀ᵐ θ ∂posterior c n, ThetaOk c n θ :=
  ((Measure.smul_absolutelyContinuous).trans (withDensity_absolutelyContinuous _ _)).ae_le (prior_valid h)

/-- **Non-vacuity of C83**: for every valid model there are a probability space, a random model object whose parameters have the posterior distribution, fresh seeds, and random number
generators as the invariance theorem assumes them. -/
theorem C83_hypotheses_met (h : CfgOk c n) (hF : FilteredFromEvents c.base.K c.base.B c.data) :
    ∃ (Ω : Type) (_ : MeasurableSpace Ω) (Pr : Measure Ω) (_ : IsProbabilityMeasure Pr) (_ : Generator (volume : Measure unitInterval)) (s : Ω → HawkesState) (x : Ω → Site → unitInterval),
      (∀ ω, SameModel c n (s ω) ∧ HyperOk (s ω) ∧ ParamsOk (s ω)) ∧ FreshSeeds volume Pr (fun ω => theta c.base.K (s ω)) x ∧ HasLaw (fun ω => theta c.base.K (s ω)) (posterior c n) Pr := by
  classical
  obtain ⟨-, -, hpost⟩ := C83_posterior_proper h hF
  obtain ⟨θ₀, hθ₀⟩ : ∃ θ, ThetaOk c n θ := by
    have := (posterior_valid h).exists
    exact this
  obtain ⟨G⟩ := C83_generator_exists
  set ν : Measure (Site → unitInterval) := Measure.infinitePi fun _ : Site => (volume : Measure unitInterval) with hν
  set fix : Theta c.base.K → Theta c.base.K := fun θ => if ThetaOk c n θ then θ else θ₀ with hfix
  have hae : fix =ᵐ[posterior c n] id := by
    filter_upwards [posterior_valid h] with θ hθ
    exact if_pos hθ
  have hfm : Measurable fix := Measurable.ite measurableSet_thetaOk measurable_id measurable_const
  have hlaw : HasLaw (fun ω : Theta c.base.K × (Site → unitInterval) => fix ω.1) (posterior c n) ((posterior c n).prod ν) := by
    refine ⟨(hfm.comp measurable_fst).aemeasurable, ?_⟩
    rw [show (fun ω : Theta c.base.K × (Site → unitInterval) => fix ω.1) = fix ∘ Prod.fst from rfl, ← Measure.map_map hfm measurable_fst, Measure.map_fst_prod, measure_univ, one_smul,
      Measure.map_congr hae, Measure.map_id]
  have hsnd : ((posterior c n).prod ν).map Prod.snd = ν := by rw [Measure.map_snd_prod, measure_univ, one_smul]
  have hl : ∀ σ, HasLaw (fun ω : Theta c.base.K × (Site → unitInterval) => ω.2 σ) volume ((posterior c n).prod ν) := by
    intro σ
    refine ⟨by fun_prop, ?_⟩
    rw [show (fun ω : Theta c.base.K × (Site → unitInterval) => ω.2 σ) = (fun y : Site → unitInterval => y σ) ∘ Prod.snd from rfl, ← Measure.map_map (by fun_prop) measurable_snd, hsnd]
    exact (measurePreserving_eval_infinitePi (fun _ : Site => (volume : Measure unitInterval)) σ).map_eq
  have ht : ∀ θ, theta c.base.K (stateOf c n (fix θ)) = fix θ := fun θ => theta_stateOf _
  refine ⟨Theta c.base.K × (Site → unitInterval), inferInstance, (posterior c n).prod ν, inferInstance, G, fun ω => stateOf c n (fix ω.1), Prod.snd, fun ω => ?_, ⟨?_, hl, ?_⟩, ?_⟩
  · refine stateOf_ok h ?_
    rw [hfix]; dsimp only
    split_ifs with hω
    · exact hω
    · exact hθ₀
  · rw [iIndepFun_iff_map_fun_eq_infinitePi_map (by fun_prop)]
    rw [show (fun (ω : Theta c.base.K × (Site → unitInterval)) i => ω.2 i) = Prod.snd from rfl, hsnd]
    simp only [(hl _).map_eq]
    exact hν
  · simp only [ht]
    exact indepFun_prod (X := fix) (Y := id) hfm measurable_id
  · simp only [ht]
    exact hlaw

/-- `add_data` (filtered counts computed by the model) keeps the filtered counts supported by events. -/
theorem C83_add_data_filtered {P : NetParams ℝ} {a : AddArgs ℝ} {dl dl' : List (DParents ℝ)} (h : addData P a dl = .ok dl') (haF : a.F = none) (hdl : FilteredFromEvents P.K P.B dl) :
    FilteredFromEvents P.K P.B dl' := by
  have mono : ∀ new, dl' = dl ++ new → (∀ D ∈ new, ∀ t < D.T, ∀ i < P.K, ∀ b < P.B, D.F t i b ≠ 0 → ∃ D' ∈ new, ∃ t' < D'.T, D'.S t' i ≠ 0) → FilteredFromEvents P.K P.B dl' := by
    rintro new rfl hnew D hD t ht i hi b hb h0
    rcases List.mem_append.1 hD with hD | hD
    · obtain ⟨D', hD', h⟩ := hdl D hD t ht i hi b hb h0
      exact ⟨D', List.mem_append_left _ hD', h⟩
    · obtain ⟨D', hD', h⟩ := hnew D hD t ht i hi b hb h0
      exact ⟨D', List.mem_append_right _ hD', h⟩
  unfold addData at h
  split at h
  · cases h
  split at h
  · cases h
  rename_i hK hT
  push Not at hK hT
  split at h
  · cases h
  rename_i hval
  push Not at hval
  rw [haF] at h
  dsimp only at h
  split at h
  · cases h
  rename_i F hFe
  have hF : ∀ t < a.T, ∀ i < P.K, ∀ b < P.B, F t i b ≠ 0 → ∃ t' < a.T, (a.S t' i).toNat ≠ 0 := by
    intro t ht i hi b hb h0
    have hL : 0 < P.L := by
      by_contra hL
      unfold convolve at hFe
      rw [if_neg (by omega), if_pos (by omega)] at hFe
      cases hFe
    obtain ⟨F', hF', hF'e⟩ := C02_convolve_eq_filtered a.T P.K P.L P.B P.basis (fun t k => (a.S t k : ℝ)) (by omega) (by omega) hL (by omega)
    rw [hFe] at hF'
    have := Except.ok.inj hF'
    rw [this, hF'e t ht i hi b hb] at h0
    obtain ⟨l, hl, hne⟩ := exists_ne_zero_of_sum_ne_zero h0
    by_cases hlt : l ≤ t
    · rw [if_pos hlt] at hne
      refine ⟨t - l, by omega, fun hz => hne ?_⟩
      have h1 := hval.1 (t - l) (by omega) i (by omega)
      have : a.S (t - l) i = 0 := by omega
      dsimp only; rw [this]; simp
    · rw [if_neg hlt] at hne; exact absurd rfl hne
  split at h
  · refine mono _ (Except.ok.inj h).symm ?_
    intro D hD t ht i hi b hb h0
    rw [List.mem_singleton.1 hD] at ht h0
    obtain ⟨t', ht', hS⟩ := hF t ht i hi b hb h0
    exact ⟨_, List.mem_singleton.2 rfl, t', ht', hS⟩
  · rename_i m hm
    split at h
    · cases h
    split at h
    · rw [← Except.ok.inj h]; exact hdl
    · refine mono _ (Except.ok.inj h).symm ?_
      intro D hD t ht i hi b hb h0
      obtain ⟨bd, hbd, rfl⟩ := List.mem_map.1 hD
      have hmp : 0 < m.toNat := by omega
      obtain ⟨h1, h2, h3⟩ := C10_block_size a.T m.toNat hmp bd hbd
      have ht' : t < bd.2 - bd.1 := ht
      obtain ⟨t', ht', hS⟩ := hF (bd.1 + t) (by omega) i hi b hb h0
      have hmem : t' ∈ (mbBounds a.T m.toNat).flatMap (fun b => (List.range (b.2 - b.1)).map (b.1 + ·)) := by
        rw [C10_blocks_concat a.T m.toNat hmp]; exact List.mem_range.2 ht'
      obtain ⟨b', hb', hin⟩ := List.mem_flatMap.1 hmem
      obtain ⟨u, hu, rfl⟩ := List.mem_map.1 hin
      exact ⟨_, List.mem_map.2 ⟨b', hb', rfl⟩, u, List.mem_range.1 hu, hS⟩

/-- a concrete model: two processes, one event each way, one basis function, learned weight scale -/
noncomputable def demoER : ERFixed := { K := 2, kappa := 1, p := 1 / 2, v := 1, alpha := some 2, beta := some 3, allowSelf := true, mf := none }

noncomputable def demoChainModel : HawkesState :=
  { base := { K := 2, B := 1, L := 1, dt := 1, lam0 := fun _ => 1, Weff := fun _ _ => 0, g := fun _ _ _ => 1, basis := fun _ _ => 1 }
    alpha := 1
    beta := 1
    gamma := fun _ => 1
    net := .er demoER
    A := fun _ _ => 1
    W := fun _ _ => 1
    data := [{ T := 3, S := fun t k => if t = k then 1 else 0, F := fun t k _ => if k < t then 1 else 0 }] }

theorem demoChain_ok : CfgOk demoChainModel demoER ∧ FilteredFromEvents 2 1 demoChainModel.data := by
  refine ⟨⟨Nat.one_pos, ?_, ⟨one_pos, one_pos, fun _ _ => one_pos, one_pos, fun _ _ _ _ => zero_le_one⟩, ⟨rfl, by constructor <;> norm_num [demoER], one_pos, one_pos, ?_⟩⟩, ?_⟩
  · intro D hD
    rw [List.mem_singleton.1 hD]
    refine ⟨fun t _ k _ b _ => ?_, fun t _ k _ => ?_⟩ <;> dsimp only <;> split_ifs <;> norm_num
  · constructor
    · intro a ha
      rw [← Option.some.inj (Option.mem_def.1 ha)]; norm_num
    · intro a ha
      rw [← Option.some.inj (Option.mem_def.1 ha)]; norm_num
  · intro D hD t ht i hi b hb _
    have hi' : i < 2 := hi
    exact ⟨_, List.mem_singleton.2 rfl, i, by change i < 3; omega, by dsimp only; rw [if_pos rfl]; exact one_ne_zero⟩

example : IsProbabilityMeasure (posterior demoChainModel demoER) := (C83_posterior_proper demoChain_ok.1 demoChain_ok.2).2.2

end

end PyHawkes
