import Verif.Props.GibbsMeas

/-!
# The parameters after one `resample_model` call, in expectation over the posterior (used for C83)
-/
set_option linter.unusedSectionVars false
set_option linter.unusedVariables false

namespace PyHawkes
open Finset Spec MeasureTheory ProbabilityTheory

section
variable {U : Type*} [MeasurableSpace U] {μ : Measure U} (G : Generator μ) (c : HawkesState) (n : ERFixed)

variable {c n}

theorem time_nonneg (h : CfgOk c n) : 0 ≤ timeTotal c := sum_nonneg fun i _ => mul_nonneg (Nat.cast_nonneg _) h.hyper.dt.le

theorem ev_nonneg (k : ℕ) : 0 ≤ evTotal c k := sum_nonneg fun i _ => Nat.cast_nonneg _

theorem P_mem (h : CfgOk c n) (e : Pair c.base.K) : 0 ≤ n.P e.1 e.2 ∧ n.P e.1 e.2 ≤ 1 :=
  netP_mem (n := .er n) (show NetOk c.base.K (.er n) from h.net) e.1 e.1.2 e.2 e.2.2

variable (n) in
/-- the weight scale is either learned or fixed -/
theorem scale_cases (h : CfgOk c n) :
    (∃ a b, 0 < a ∧ 0 < b ∧ scalePrior n = gammaMeasure a b ∧
      ∀ x v A W, vOf G c n x v A W = G.gam ⟨a + (∑ e, A e) * n.kappa, 1 / (b + ∑ e, if 0 < A e then W e else 0)⟩ x) ∨
    (scalePrior n = Measure.dirac n.v ∧ ∀ x v A W, vOf G c n x v A W = v) := by
  unfold scalePrior vOf
  rcases ha : n.alpha with _ | a
  · exact .inr ⟨rfl, fun _ _ _ _ => rfl⟩
  rcases hb : n.beta with _ | b
  · exact .inr ⟨rfl, fun _ _ _ _ => rfl⟩
  dsimp only
  split_ifs with ht
  · left
    have h1 := h.net.hyper.1 a (by rw [ha]; rfl)
    have h2 := h.net.hyper.2 b (by rw [hb]; rfl)
    rw [Bool.and_eq_true] at ht
    simp only [truthy, decide_eq_true_eq] at ht
    exact ⟨a, b, lt_of_le_of_ne h1 (Ne.symm ht.1), lt_of_le_of_ne h2 (Ne.symm ht.2), rfl, fun _ _ _ _ => rfl⟩
  · exact .inr ⟨rfl, fun _ _ _ _ => rfl⟩

include G in
theorem scale_prob (h : CfgOk c n) : IsProbabilityMeasure (scalePrior n) := by
  rcases scale_cases G n h with ⟨a, b, ha, hb, e, -⟩ | ⟨e, -⟩ <;> rw [e]
  · exact isProbabilityMeasure_gammaMeasure ha hb
  · infer_instance

include G in
theorem scale_pos (h : CfgOk c n) : ∀ᵐ v ∂scalePrior n, 0 < v := by
  rcases scale_cases G n h with ⟨a, b, ha, hb, e, -⟩ | ⟨e, -⟩ <;> rw [e]
  · exact gammaMeasure_pos
  · rw [ae_dirac_iff measurableSet_Ioi]; exact h.net.v

theorem coins_values (h : CfgOk c n) : ∀ᵐ A ∂Measure.pi (fun e : Pair c.base.K => coinLaw (n.P e.1 e.2)), ∀ e, A e = 0 ∨ A e = 1 := by
  have hP : ∀ e : Pair c.base.K, IsProbabilityMeasure (coinLaw (n.P e.1 e.2)) := fun e => coinLaw_prob (P_mem h e).1 (P_mem h e).2
  exact pi_ae_all (fun e : Pair c.base.K => coinLaw (n.P e.1 e.2)) (p := fun _ t => t = 0 ∨ t = 1) fun e => coin_values

/-- the priors of background rates and impulse weights -/
noncomputable def phiPrior (c : HawkesState) : Measure ((Fin c.base.K → ℝ) × (Pair c.base.K → Vec ℝ)) :=
  (Measure.pi fun _ => gammaMeasure c.alpha c.beta).prod (Measure.pi fun _ => dirichletLaw c.base.B c.gamma)

theorem phi_prob (h : CfgOk c n) : IsProbabilityMeasure (phiPrior c) := by
  have := isProbabilityMeasure_gammaMeasure h.hyper.alpha h.hyper.beta
  have := dirichlet_prob h.hyper.gamma
  unfold phiPrior; infer_instance

theorem phi_valid (h : CfgOk c n) : ∀ᵐ φ ∂phiPrior c, (∀ k, 0 < φ.1 k) ∧ ∀ e, ∀ b < c.base.B, 0 ≤ φ.2 e b := by
  have := isProbabilityMeasure_gammaMeasure h.hyper.alpha h.hyper.beta
  have := dirichlet_prob h.hyper.gamma
  have h1 : ∀ᵐ lam ∂Measure.pi (fun _ : Fin c.base.K => gammaMeasure c.alpha c.beta), ∀ k, 0 < lam k := pi_ae_all _ fun _ => gammaMeasure_pos
  have h2 : ∀ᵐ g ∂Measure.pi (fun _ : Pair c.base.K => dirichletLaw c.base.B c.gamma), ∀ e, ∀ b < c.base.B, 0 ≤ g e b :=
    pi_ae_all (X := fun _ => Vec ℝ) (p := fun _ (g : Vec ℝ) => ∀ b < c.base.B, 0 ≤ g b) _ fun _ => by
      filter_upwards [dirichlet_simplex h.hyper.gamma h.B] with x hx b hb
      exact (hx.1 b hb).le
  unfold phiPrior
  have a1 := Measure.quasiMeasurePreserving_fst (μ := Measure.pi (fun _ : Fin c.base.K => gammaMeasure c.alpha c.beta))
    (ν := Measure.pi (fun _ : Pair c.base.K => dirichletLaw c.base.B c.gamma)) |>.ae h1
  have a2 := Measure.quasiMeasurePreserving_snd (μ := Measure.pi (fun _ : Fin c.base.K => gammaMeasure c.alpha c.beta))
    (ν := Measure.pi (fun _ : Pair c.base.K => dirichletLaw c.base.B c.gamma)) |>.ae h2
  filter_upwards [a1, a2] with φ h1 h2
  exact ⟨h1, h2⟩

/-- density of the weights given the scale -/
noncomputable def wDens (n : ERFixed) (η : ℝ) (W : Pair c.base.K → ℝ) : ENNReal := ∏ e, gammaPDF n.kappa η (W e)

theorem measurable_wDens : Measurable fun x : ℝ × (Pair c.base.K → ℝ) => wDens (c := c) n x.1 x.2 :=
  Finset.measurable_prod _ fun e _ => (measurable_gammaPDF' n.kappa).comp (f := fun x : ℝ × (Pair c.base.K → ℝ) => (x.1, x.2 e)) (by fun_prop)

theorem wDens_neg {η : ℝ} {W : Pair c.base.K → ℝ} (h : ¬ ∀ e, 0 ≤ W e) : wDens n η W = 0 := by
  push Not at h
  obtain ⟨e, he⟩ := h
  refine prod_eq_zero (mem_univ e) ?_
  unfold gammaPDF
  rw [gammaPDFReal_zero_of_neg he, ENNReal.ofReal_zero]

/-- factor of the globals -/
noncomputable def phiFacE (φ : (Fin c.base.K → ℝ) × (Pair c.base.K → Vec ℝ)) (z : ZSp c) : ENNReal :=
  ENNReal.ofReal (zCoef z) * ((∏ k, ENNReal.ofReal (φ.1 k ^ bkgd z k * Real.exp (-(φ.1 k * timeTotal c)))) * ∏ e, ENNReal.ofReal (∏ b ∈ range c.base.B, φ.2 e b ^ viaB z e b))

/-- factor of the weights -/
noncomputable def xFacE (A W : Pair c.base.K → ℝ) (z : ZSp c) : ENNReal := ∏ e, ENNReal.ofReal ((A e * W e) ^ via z e * Real.exp (-(A e * W e * evTotal c e.1)))

theorem measurable_phiFacE (z : ZSp c) : Measurable fun φ => phiFacE φ z := by unfold phiFacE; fun_prop

theorem measurable_xFacE (z : ZSp c) : Measurable fun x : (Pair c.base.K → ℝ) × (Pair c.base.K → ℝ) => xFacE x.1 x.2 z := by unfold xFacE; fun_prop

theorem zCoef_nonneg (h : CfgOk c n) (z : ZSp c) : 0 ≤ zCoef z := by
  refine mul_nonneg (prod_nonneg fun ρ _ => by split_ifs <;> positivity) (prod_nonneg fun ρ _ => prod_nonneg fun i _ => prod_nonneg fun b hb => pow_nonneg ?_ _)
  exact (h.data _ (List.getElem_mem _)).1 _ (mem_ts (List.getElem_mem _)).1 i i.2 b (mem_range.1 hb)

theorem factor_E (h : CfgOk c n) {A W : Pair c.base.K → ℝ} (hAW : ∀ e, 0 ≤ A e * W e) {φ : (Fin c.base.K → ℝ) × (Pair c.base.K → Vec ℝ)} (hlam : ∀ k, 0 < φ.1 k)
    (hg : ∀ e, ∀ b < c.base.B, 0 ≤ φ.2 e b) (z : ZSp c) :
    ENNReal.ofReal (likR c A W φ.1 φ.2) * ENNReal.ofReal (zPmf A W φ.1 φ.2 z) = phiFacE φ z * xFacE A W z := by
  have hz := zCoef_nonneg h z
  have h1 : ∀ k, 0 ≤ φ.1 k ^ bkgd z k * Real.exp (-(φ.1 k * timeTotal c)) := fun k => mul_nonneg (pow_nonneg (hlam k).le _) (Real.exp_pos _).le
  have h2 : ∀ e, 0 ≤ ∏ b ∈ range c.base.B, φ.2 e b ^ viaB z e b := fun e => prod_nonneg fun b hb => pow_nonneg (hg e b (mem_range.1 hb)) _
  have h3 : ∀ e : Pair c.base.K, 0 ≤ (A e * W e) ^ via z e * Real.exp (-(A e * W e * evTotal c e.1)) := fun e => mul_nonneg (pow_nonneg (hAW e) _) (Real.exp_pos _).le
  have h4 : 0 ≤ phiFac z φ.1 φ.2 := mul_nonneg (prod_nonneg fun k _ => h1 k) (prod_nonneg fun e _ => h2 e)
  rw [← ENNReal.ofReal_mul (show 0 ≤ likR c A W φ.1 φ.2 from (Real.exp_pos _).le), lik_factor h.data hAW hlam hg, ENNReal.ofReal_mul (mul_nonneg hz h4), ENNReal.ofReal_mul hz]
  unfold phiFacE xFacE phiFac xFac
  rw [ENNReal.ofReal_mul (prod_nonneg fun k _ => h1 k), ENNReal.ofReal_prod_of_nonneg fun k _ => h1 k, ENNReal.ofReal_prod_of_nonneg fun k _ => h2 k,
    ENNReal.ofReal_prod_of_nonneg fun k _ => h3 k]

theorem phi_step (h : CfgOk c n) (z : ZSp c) :
    BayesStep (phiPrior c) (fun φ => phiFacE φ z) ((Measure.pi fun _ : Fin c.base.K => μ).prod (Measure.pi fun _ : Pair c.base.K => μ)) (fun y => (lamOf G c z y.1, gOf G c z y.2)) := by
  have hμ := gen_prob G
  have := isProbabilityMeasure_gammaMeasure h.hyper.alpha h.hyper.beta
  have := dirichlet_prob h.hyper.gamma
  have h1 := BayesStep.pi (ι := Fin c.base.K) (X := fun _ => ℝ) (Y := fun _ => U) (ν := fun _ => gammaMeasure c.alpha c.beta)
    (f := fun k x => ENNReal.ofReal (x ^ bkgd z k * Real.exp (-(x * timeTotal c)))) (μ := fun _ => μ) (s := fun k u => G.gam ⟨c.alpha + bkgd z k, 1 / (c.beta + timeTotal c)⟩ u)
    (fun k => by simpa [Real.rpow_natCast] using gammaLaw_step G h.hyper.alpha h.hyper.beta (Nat.cast_nonneg (bkgd z k)) (time_nonneg h)) (fun k => by fun_prop) (fun k => gam_measurable G _)
  have h2 := BayesStep.pi (ι := Pair c.base.K) (X := fun _ => Vec ℝ) (Y := fun _ => U) (ν := fun _ => dirichletLaw c.base.B c.gamma)
    (f := fun e x => ENNReal.ofReal (∏ b ∈ range c.base.B, x b ^ viaB z e b)) (μ := fun _ => μ) (s := fun e u => G.dir c.base.B (arr c.base.B fun b => c.gamma b + viaB z e b) u)
    (fun e => dir_step G h.B h.hyper.gamma fun b => viaB z e b) (fun k => by fun_prop) (fun k => dir_measurable G _ _)
  have h3 := (h1.prod h2 (by fun_prop) (by fun_prop) (measurable_lamOf G c z) (measurable_gOf G c z)).const_mul (by fun_prop) (C := ENNReal.ofReal (zCoef z)) ENNReal.ofReal_ne_top
  exact h3

theorem weights_step (h : CfgOk c n) (z : ZSp c) {A : Pair c.base.K → ℝ} (hA : ∀ e, A e = 0 ∨ A e = 1) {η : ℝ} (hη : 0 < η) {R : (Pair c.base.K → ℝ) → ENNReal} (hR : Measurable R) :
    ∫⁻ W, wDens n η W * (xFacE A W z * R W) ∂Measure.pi (fun _ => volume)
      = (∫⁻ W, wDens n η W * xFacE A W z ∂Measure.pi (fun _ => volume)) * ∫⁻ y, R (wOf G c n z η A y) ∂Measure.pi (fun _ => μ) := by
  have hμ := gen_prob G
  have hκ := h.net.kappa
  have hP := isProbabilityMeasure_gammaMeasure hκ hη
  have hP' : IsProbabilityMeasure ((volume : Measure ℝ).withDensity (gammaPDF n.kappa η)) := hP
  have hm : Measurable (gammaPDF n.kappa η) := (measurable_gammaPDFReal _ _).ennreal_ofReal
  have h0 := pi_withDensity' (fun _ : Pair c.base.K => (volume : Measure ℝ)) (fun _ => gammaPDF n.kappa η) fun _ => hm
  have mX : Measurable fun W => xFacE A W z := (measurable_xFacE z).comp (f := fun W => (A, W)) (by fun_prop)
  have mD : Measurable fun W : Pair c.base.K → ℝ => wDens n η W := measurable_wDens.comp (f := fun W => (η, W)) (by fun_prop)
  have conv : ∀ F : (Pair c.base.K → ℝ) → ENNReal, Measurable F → ∫⁻ W, wDens n η W * F W ∂Measure.pi (fun _ => volume) = ∫⁻ W, F W ∂Measure.pi fun _ => gammaMeasure n.kappa η := by
    intro F hF
    have := lintegral_withDensity_eq_lintegral_mul (Measure.pi fun _ : Pair c.base.K => (volume : Measure ℝ)) mD hF
    simp only [Pi.mul_apply] at this
    rw [← this]
    unfold wDens
    rw [← h0]
    rfl
  have st := BayesStep.pi (ι := Pair c.base.K) (X := fun _ => ℝ) (Y := fun _ => U) (ν := fun _ => gammaMeasure n.kappa η)
    (f := fun e x => ENNReal.ofReal ((A e * x) ^ via z e * Real.exp (-(A e * x * evTotal c e.1)))) (μ := fun _ => μ)
    (s := fun e u => G.gam ⟨n.kappa + via z e, 1 / (η + evTotal c e.1 * A e)⟩ u)
    (fun e => weight_step G (via z e) hκ hη (ev_nonneg _) (hA e)) (fun e => by fun_prop) (fun k => gam_measurable G _)
  have := st.lintegral (by fun_prop) (by rw [measurable_pi_iff]; intro e; exact (gam_measurable G _).comp (measurable_pi_apply e)) hR
  rw [conv (fun W => xFacE A W z * R W) (mX.mul hR), conv _ mX]
  exact this

theorem scale_step' (h : CfgOk c n) (z : ZSp c) {A : Pair c.base.K → ℝ} (hA : ∀ e, A e = 0 ∨ A e = 1) {R : ℝ → ENNReal} (hR : Measurable R) :
    ∫⁻ η, ∫⁻ W, wDens n η W * (xFacE A W z * ∫⁻ u, R (vOf G c n u η A W) ∂μ) ∂Measure.pi (fun _ => volume) ∂scalePrior n
      = ∫⁻ η, ∫⁻ W, wDens n η W * (xFacE A W z * R η) ∂Measure.pi (fun _ => volume) ∂scalePrior n := by
  have hμ := gen_prob G
  rcases scale_cases G n h with ⟨a, b, ha, hb, e, hv⟩ | ⟨e, hv⟩
  · rw [e]
    simp only [hv]
    have hs : ∀ W : Pair c.base.K → ℝ, (∑ e, if 0 < A e then W e else 0) = ∑ e, A e * W e := fun W => sum_congr rfl fun e _ => by
      rcases hA e with h | h <;> rw [h] <;> simp
    simp only [hs]
    exact scale_invariant G A h.net.kappa ha hb hA (H := fun w => ∏ e, ENNReal.ofReal (w e ^ via z e * Real.exp (-(w e * evTotal c e.1)))) (by fun_prop) hR
  · simp only [hv, lintegral_const, measure_univ, mul_one]

/-! ### the whole call -/

/-- law of the seeds of the in-range call sites -/
noncomputable def seedLaw (c : HawkesState) (μ : Measure U) : Measure (Seeds c U) :=
  (Measure.pi fun _ => μ).prod ((Measure.pi fun _ => μ).prod ((Measure.pi fun _ => μ).prod (μ.prod ((Measure.pi fun _ => μ).prod (Measure.pi fun _ => μ)))))

include G in
theorem prior_lintegral (h : CfgOk c n) {F : Theta c.base.K → ENNReal} (hF : Measurable F) :
    ∫⁻ θ, F θ ∂prior c n = ∫⁻ A, ∫⁻ η, ∫⁻ W, ∫⁻ φ, wDens n η W * F (A, η, W, φ) ∂phiPrior c ∂Measure.pi (fun _ => volume) ∂scalePrior n
      ∂Measure.pi (fun e : Pair c.base.K => coinLaw (n.P e.1 e.2)) := by
  have hP : ∀ e : Pair c.base.K, IsProbabilityMeasure (coinLaw (n.P e.1 e.2)) := fun e => coinLaw_prob (P_mem h e).1 (P_mem h e).2
  have := scale_prob G h
  have := phi_prob h
  have mD : Measurable fun θ : Theta c.base.K => wDens (c := c) n θ.2.1 θ.2.2.1 := measurable_wDens.comp (f := fun θ : Theta c.base.K => (θ.2.1, θ.2.2.1)) (by fun_prop)
  unfold prior
  change ∫⁻ θ, F θ ∂((Measure.pi fun e : Pair c.base.K => coinLaw (n.P e.1 e.2)).prod ((scalePrior n).prod ((Measure.pi fun _ => volume).prod (phiPrior c)))).withDensity
    (fun θ => wDens n θ.2.1 θ.2.2.1) = _
  rw [lintegral_withDensity_eq_lintegral_mul _ mD hF]
  have mm : Measurable fun θ : Theta c.base.K => wDens n θ.2.1 θ.2.2.1 * F θ := mD.mul hF
  change ∫⁻ θ, wDens n θ.2.1 θ.2.2.1 * F θ ∂_ = _
  rw [lintegral_prod _ mm.aemeasurable]
  refine lintegral_congr fun A => ?_
  have mA : Measurable fun θ : ℝ × (Pair c.base.K → ℝ) × (Fin c.base.K → ℝ) × (Pair c.base.K → Vec ℝ) => wDens n θ.1 θ.2.1 * F (A, θ) := mm.comp (f := fun θ => (A, θ)) (by fun_prop)
  rw [lintegral_prod _ mA.aemeasurable]
  refine lintegral_congr fun η => ?_
  have mη : Measurable fun θ : (Pair c.base.K → ℝ) × (Fin c.base.K → ℝ) × (Pair c.base.K → Vec ℝ) => wDens n η θ.1 * F (A, η, θ) := mA.comp (f := fun θ => (η, θ)) (by fun_prop)
  rw [lintegral_prod _ mη.aemeasurable]

theorem lintegral_seeds {X1 X2 X3 X4 X5 X6 : Type*} [MeasurableSpace X1] [MeasurableSpace X2] [MeasurableSpace X3] [MeasurableSpace X4] [MeasurableSpace X5] [MeasurableSpace X6]
    {a : Measure X1} {b : Measure X2} {g : Measure X3} {d : Measure X4} {e : Measure X5} {f : Measure X6} [SFinite a] [SFinite b] [SFinite g] [SFinite d] [SFinite e] [IsProbabilityMeasure f]
    {K : X1 × X2 × X3 × X4 × X5 → ENNReal} (hK : Measurable K) :
    ∫⁻ x, K (x.1, x.2.1, x.2.2.1, x.2.2.2.1, x.2.2.2.2.1) ∂a.prod (b.prod (g.prod (d.prod (e.prod f)))) = ∫⁻ x1, ∫⁻ y, ∫⁻ u, ∫⁻ w, K (x1, y.1, y.2, u, w) ∂e ∂d ∂b.prod g ∂a := by
  have m0 : Measurable fun x : X1 × X2 × X3 × X4 × X5 × X6 => K (x.1, x.2.1, x.2.2.1, x.2.2.2.1, x.2.2.2.2.1) := hK.comp (by fun_prop)
  rw [lintegral_prod _ m0.aemeasurable]
  refine lintegral_congr fun x1 => ?_
  have m1 : Measurable fun x : X2 × X3 × X4 × X5 × X6 => K (x1, x.1, x.2.1, x.2.2.1, x.2.2.2.1) := hK.comp (by fun_prop)
  rw [lintegral_prod _ m1.aemeasurable]
  have q1 : Measurable fun x : ((X2 × X3) × X4) × X5 => K (x1, x.1.1.1, x.1.1.2, x.1.2, x.2) := hK.comp (by fun_prop)
  have q2 : Measurable fun x : (X2 × X3) × X4 => ∫⁻ w, K (x1, x.1.1, x.1.2, x.2, w) ∂e := q1.lintegral_prod_right'
  have q3 : Measurable fun y : X2 × X3 => ∫⁻ u, ∫⁻ w, K (x1, y.1, y.2, u, w) ∂e ∂d := q2.lintegral_prod_right'
  rw [lintegral_prod _ q3.aemeasurable]
  refine lintegral_congr fun x2 => ?_
  have m2 : Measurable fun x : X3 × X4 × X5 × X6 => K (x1, x2, x.1, x.2.1, x.2.2.1) := hK.comp (by fun_prop)
  rw [lintegral_prod _ m2.aemeasurable]
  refine lintegral_congr fun x3 => ?_
  have m3 : Measurable fun x : X4 × X5 × X6 => K (x1, x2, x3, x.1, x.2.1) := hK.comp (by fun_prop)
  rw [lintegral_prod _ m3.aemeasurable]
  refine lintegral_congr fun x4 => ?_
  have m4 : Measurable fun x : X5 × X6 => K (x1, x2, x3, x4, x.1) := hK.comp (by fun_prop)
  rw [lintegral_prod _ m4.aemeasurable]
  refine lintegral_congr fun x5 => ?_
  dsimp only
  rw [lintegral_const, measure_univ, mul_one]

/-- one call, apart from the adjacency update -/
theorem global_invariant (h : CfgOk c n) {T : Theta c.base.K → ENNReal} (hT : Measurable T) :
    ∫⁻ θ, likelihood c θ * ∫⁻ x, T (globalStep G c n θ x) ∂seedLaw c μ ∂prior c n = ∫⁻ θ, likelihood c θ * T θ ∂prior c n := by
  have hμ := gen_prob G
  have hP : ∀ e : Pair c.base.K, IsProbabilityMeasure (coinLaw (n.P e.1 e.2)) := fun e => coinLaw_prob (P_mem h e).1 (P_mem h e).2
  have hS := scale_prob G h
  have hΦ := phi_prob h
  have hsl : IsProbabilityMeasure (seedLaw c μ) := by unfold seedLaw; infer_instance
  have mg : Measurable fun x : Theta c.base.K × Seeds c U => T (globalStep G c n x.1 x.2) := hT.comp (measurable_globalStep G c n)
  have mI : Measurable fun θ : Theta c.base.K => ∫⁻ x, T (globalStep G c n θ x) ∂seedLaw c μ := mg.lintegral_prod_right'
  have mlik := measurable_likelihood c h.data
  rw [prior_lintegral G h (F := fun θ => likelihood c θ * ∫⁻ x, T (globalStep G c n θ x) ∂seedLaw c μ) (mlik.mul mI), prior_lintegral G h (F := fun θ => likelihood c θ * T θ) (mlik.mul hT)]
  have aug := augment_invariant (Z := ZSp c) (phiPrior c) (scalePrior n) (Measure.pi (fun e : Pair c.base.K => coinLaw (n.P e.1 e.2))) (Measure.pi (fun _ : Pair c.base.K => (volume : Measure ℝ)))
    ((Measure.pi fun _ : Fin c.base.K => μ).prod (Measure.pi fun _ : Pair c.base.K => μ)) μ (Measure.pi fun _ : Pair c.base.K => μ)
    (fun η _ W => wDens n η W) (fun φ A W => ENNReal.ofReal (likR c A W φ.1 φ.2)) (fun φ A W z => ENNReal.ofReal (zPmf A W φ.1 φ.2 z)) phiFacE xFacE
    (fun z y => (lamOf G c z y.1, gOf G c z y.2)) (fun u η A W => vOf G c n u η A W) (fun z η A y => wOf G c n z η A y)
    (measurable_wDens.comp (f := fun x : ℝ × (Pair c.base.K → ℝ) × (Pair c.base.K → ℝ) => (x.1, x.2.2)) (by fun_prop))
    measurable_phiFacE measurable_xFacE
    (fun z => ((measurable_lamOf G c z).comp measurable_fst).prodMk ((measurable_gOf G c z).comp measurable_snd)) (measurable_vOf G c n) (measurable_wOf G c n)
    (by
      filter_upwards [coins_values h] with A hA
      refine Filter.Eventually.of_forall fun η W => ?_
      by_cases hW : ∀ e, 0 ≤ W e
      · have hAW : ∀ e, 0 ≤ A e * W e := fun e => by rcases hA e with h | h <;> rw [h] <;> simp [hW e]
        filter_upwards [phi_valid h] with φ hφ z
        rw [factor_E h hAW hφ.1 hφ.2]
      · refine Filter.Eventually.of_forall fun φ z => ?_
        rw [wDens_neg hW, zero_mul, zero_mul])
    (by
      filter_upwards [coins_values h] with A hA
      refine Filter.Eventually.of_forall fun η W => ?_
      by_cases hW : ∀ e, 0 ≤ W e
      · have hAW : ∀ e, 0 ≤ A e * W e := fun e => by rcases hA e with h | h <;> rw [h] <;> simp [hW e]
        filter_upwards [phi_valid h] with φ hφ
        rw [tsum_zPmf c G h.data hAW hφ.1 hφ.2, mul_one]
      · refine Filter.Eventually.of_forall fun φ => ?_
        rw [wDens_neg hW, zero_mul])
    (fun z R hR => (phi_step G h z).lintegral (measurable_phiFacE z) (((measurable_lamOf G c z).comp measurable_fst).prodMk ((measurable_gOf G c z).comp measurable_snd)) hR)
    (fun z => by
      filter_upwards [coins_values h] with A hA R hR
      exact scale_step' G h z hA hR)
    (fun z => by
      filter_upwards [coins_values h] with A hA
      filter_upwards [scale_pos G h] with η hη R hR
      exact weights_step G h z hA hη hR)
    (fun φ η A W => T (A, η, W, φ)) (hT.comp (f := fun x : ((Fin c.base.K → ℝ) × (Pair c.base.K → Vec ℝ)) × ℝ × (Pair c.base.K → ℝ) × (Pair c.base.K → ℝ) => (x.2.2.1, x.2.1, x.2.2.2, x.1)) (by fun_prop))
  refine Eq.trans ?_ aug
  refine lintegral_congr_ae ?_
  filter_upwards [coins_values h] with A hA
  refine lintegral_congr fun η => lintegral_congr fun W => lintegral_congr_ae ?_
  by_cases hW : ∀ e, 0 ≤ W e
  · have hAW : ∀ e, 0 ≤ A e * W e := fun e => by rcases hA e with h | h <;> rw [h] <;> simp [hW e]
    filter_upwards [phi_valid h] with φ hφ
    rw [← lintegral_zOf G c h.data hAW hφ.1 hφ.2]
    congr 2
    -- the integral over the seeds, iterated
    have m0 : Measurable fun x : Seeds c U => T (globalStep G c n (A, η, W, φ) x) := mg.comp (f := fun x => ((A, η, W, φ), x)) (by fun_prop)
    have ev : ∀ x : Seeds c U, T (globalStep G c n (A, η, W, φ) x) = T (globalStep G c n (A, η, W, φ) (x.1, x.2.1, x.2.2.1, x.2.2.2.1, x.2.2.2.2.1, x.2.2.2.2.1)) := fun x => rfl
    simp only [seedLaw]
    rw [lintegral_congr ev]
    rw [lintegral_seeds (f := Measure.pi fun _ : Pair c.base.K => μ) (K := fun x => T (globalStep G c n (A, η, W, φ) (x.1, x.2.1, x.2.2.1, x.2.2.2.1, x.2.2.2.2, x.2.2.2.2)))
      (m0.comp (f := fun x : (Row c → U) × (Fin c.base.K → U) × (Pair c.base.K → U) × U × (Pair c.base.K → U) => (x.1, x.2.1, x.2.2.1, x.2.2.2.1, x.2.2.2.2, x.2.2.2.2)) (by fun_prop))]
    rfl
  · refine Filter.Eventually.of_forall fun φ => ?_
    dsimp only
    rw [wDens_neg hW, zero_mul, zero_mul]

/-- the adjacency update -/
theorem edges_invariant (h : CfgOk c n) {T : Theta c.base.K → ENNReal} (hT : Measurable T) :
    ∫⁻ θ, likelihood c θ * ∫⁻ x, T (edgesStep G c n θ x) ∂Measure.pi (fun _ => μ) ∂prior c n = ∫⁻ θ, likelihood c θ * T θ ∂prior c n := by
  have hμ := gen_prob G
  have hP : ∀ e : Pair c.base.K, IsProbabilityMeasure (coinLaw (n.P e.1 e.2)) := fun e => coinLaw_prob (P_mem h e).1 (P_mem h e).2
  have hS := scale_prob G h
  have hΦ := phi_prob h
  have mlik := measurable_likelihood c h.data
  have mD : Measurable fun θ : Theta c.base.K => wDens (c := c) n θ.2.1 θ.2.2.1 := measurable_wDens.comp (f := fun θ : Theta c.base.K => (θ.2.1, θ.2.2.1)) (by fun_prop)
  have me : Measurable fun x : Theta c.base.K × (Pair c.base.K → U) => T (edgesStep G c n x.1 x.2) := hT.comp (measurable_edgesStep G c n h.data)
  have mI : Measurable fun θ : Theta c.base.K => ∫⁻ x, T (edgesStep G c n θ x) ∂Measure.pi (fun _ => μ) := me.lintegral_prod_right'
  have conv : ∀ F : Theta c.base.K → ENNReal, Measurable F → ∫⁻ θ, F θ ∂prior c n
      = ∫⁻ r, ∫⁻ A, wDens n r.1 r.2.1 * F (A, r) ∂(Measure.pi fun e : Pair c.base.K => coinLaw (n.P e.1 e.2)) ∂(scalePrior n).prod ((Measure.pi fun _ : Pair c.base.K => volume).prod (phiPrior c)) := by
    intro F hF
    unfold prior
    change ∫⁻ θ, F θ ∂((Measure.pi fun e : Pair c.base.K => coinLaw (n.P e.1 e.2)).prod ((scalePrior n).prod ((Measure.pi fun _ => volume).prod (phiPrior c)))).withDensity
      (fun θ => wDens n θ.2.1 θ.2.2.1) = _
    rw [lintegral_withDensity_eq_lintegral_mul _ mD hF, lintegral_prod_symm _ (mD.mul hF).aemeasurable]
    rfl
  rw [conv (fun θ => likelihood c θ * ∫⁻ x, T (edgesStep G c n θ x) ∂Measure.pi (fun _ => μ)) (mlik.mul mI), conv (fun θ => likelihood c θ * T θ) (mlik.mul hT)]
  refine lintegral_congr fun r => ?_
  have mL : Measurable fun A : Pair c.base.K → ℝ => likR c A r.2.1 r.2.2.1 r.2.2.2 := (measurable_likR c h.data).comp (f := fun A => (A, r.2)) (by fun_prop)
  have mr : Measurable fun A : Pair c.base.K → ℝ => likelihood c (A, r) * ∫⁻ x, T (edgesStep G c n (A, r) x) ∂Measure.pi (fun _ => μ) := (mlik.mul mI).comp (f := fun A => (A, r)) (by fun_prop)
  have mr' : Measurable fun A : Pair c.base.K → ℝ => likelihood c (A, r) * T (A, r) := (mlik.mul hT).comp (f := fun A => (A, r)) (by fun_prop)
  rw [lintegral_const_mul _ mr, lintegral_const_mul _ mr']
  congr 1
  exact sites_invariant G (p := fun e : Pair c.base.K => n.P e.1 e.2) (L := fun A => likR c A r.2.1 r.2.2.1 r.2.2.2) (P_mem h) mL (fun A => Real.exp_pos _) (pairList c.base.K) (nodup_pairList _)
    (T := fun A => T (A, r)) (hT.comp (by fun_prop))

/-- one call as a function of parameters and seeds -/
noncomputable def sweepStep (G : Generator μ) (c : HawkesState) (n : ERFixed) (θ : Theta c.base.K) (x : Seeds c U) : Theta c.base.K :=
  edgesStep G c n (globalStep G c n θ x) x.2.2.2.2.2

theorem measurable_sweepStep (h : CfgOk c n) : Measurable fun x : Theta c.base.K × Seeds c U => sweepStep G c n x.1 x.2 :=
  (measurable_edgesStep G c n h.data).comp (f := fun x : Theta c.base.K × Seeds c U => (globalStep G c n x.1 x.2, x.2.2.2.2.2.2)) ((measurable_globalStep G c n).prodMk (by fun_prop))

theorem sweep_invariant (h : CfgOk c n) {T : Theta c.base.K → ENNReal} (hT : Measurable T) :
    ∫⁻ θ, likelihood c θ * ∫⁻ x, T (sweepStep G c n θ x) ∂seedLaw c μ ∂prior c n = ∫⁻ θ, likelihood c θ * T θ ∂prior c n := by
  have hμ := gen_prob G
  have me : Measurable fun x : Theta c.base.K × (Pair c.base.K → U) => T (edgesStep G c n x.1 x.2) := hT.comp (measurable_edgesStep G c n h.data)
  have mI : Measurable fun θ : Theta c.base.K => ∫⁻ x, T (edgesStep G c n θ x) ∂Measure.pi (fun _ => μ) := me.lintegral_prod_right'
  rw [← edges_invariant G h hT, ← global_invariant G h mI]
  refine lintegral_congr fun θ => ?_
  congr 1
  have hg : Measurable fun x : Seeds c U => globalStep G c n θ x := (measurable_globalStep G c n).comp (f := fun x => (θ, x)) (by fun_prop)
  have e1 : ∀ x : Seeds c U, globalStep G c n θ x = globalStep G c n θ (x.1, x.2.1, x.2.2.1, x.2.2.2.1, x.2.2.2.2.1, x.2.2.2.2.1) := fun x => rfl
  have key : ∀ F : Seeds c U → ENNReal, Measurable F → ∫⁻ x, F x ∂seedLaw c μ = ∫⁻ x, ∫⁻ t, F (x.1, x.2.1, x.2.2.1, x.2.2.2.1, x.2.2.2.2.1, t) ∂Measure.pi (fun _ => μ) ∂seedLaw c μ := by
    intro F hF
    have mF : Measurable fun x : (Row c → U) × (Fin c.base.K → U) × (Pair c.base.K → U) × U × (Pair c.base.K → U) => ∫⁻ t, F (x.1, x.2.1, x.2.2.1, x.2.2.2.1, x.2.2.2.2, t) ∂Measure.pi (fun _ => μ) :=
      Measurable.lintegral_prod_right' (f := fun y : ((Row c → U) × (Fin c.base.K → U) × (Pair c.base.K → U) × U × (Pair c.base.K → U)) × (Pair c.base.K → U) =>
        F (y.1.1, y.1.2.1, y.1.2.2.1, y.1.2.2.2.1, y.1.2.2.2.2, y.2)) (hF.comp (by fun_prop))
    unfold seedLaw
    have m2 : Measurable fun x : Seeds c U => ∫⁻ t, F (x.1, x.2.1, x.2.2.1, x.2.2.2.1, x.2.2.2.2.1, t) ∂Measure.pi (fun _ => μ) :=
      mF.comp (f := fun x : Seeds c U => (x.1, x.2.1, x.2.2.1, x.2.2.2.1, x.2.2.2.2.1)) (by fun_prop)
    rw [lintegral_prod _ hF.aemeasurable, lintegral_prod _ m2.aemeasurable]
    refine lintegral_congr fun x1 => ?_
    have a2 : Measurable fun x => F (x1, x) := hF.comp (f := fun x => (x1, x)) (by fun_prop)
    have b2 : Measurable fun x : (Fin c.base.K → U) × (Pair c.base.K → U) × U × (Pair c.base.K → U) × (Pair c.base.K → U) => ∫⁻ t, F (x1, x.1, x.2.1, x.2.2.1, x.2.2.2.1, t) ∂Measure.pi (fun _ => μ) :=
      m2.comp (f := fun x => (x1, x)) (by fun_prop)
    refine (lintegral_prod _ a2.aemeasurable).trans (Eq.trans ?_ (lintegral_prod _ b2.aemeasurable).symm)
    refine lintegral_congr fun x2 => ?_
    have a3 : Measurable fun x => F (x1, x2, x) := hF.comp (f := fun x => (x1, x2, x)) (by fun_prop)
    have b3 : Measurable fun x : (Pair c.base.K → U) × U × (Pair c.base.K → U) × (Pair c.base.K → U) => ∫⁻ t, F (x1, x2, x.1, x.2.1, x.2.2.1, t) ∂Measure.pi (fun _ => μ) :=
      m2.comp (f := fun x => (x1, x2, x)) (by fun_prop)
    refine (lintegral_prod _ a3.aemeasurable).trans (Eq.trans ?_ (lintegral_prod _ b3.aemeasurable).symm)
    refine lintegral_congr fun x3 => ?_
    have a4 : Measurable fun x => F (x1, x2, x3, x) := hF.comp (f := fun x => (x1, x2, x3, x)) (by fun_prop)
    have b4 : Measurable fun x : U × (Pair c.base.K → U) × (Pair c.base.K → U) => ∫⁻ t, F (x1, x2, x3, x.1, x.2.1, t) ∂Measure.pi (fun _ => μ) :=
      b3.comp (f := fun x => (x3, x)) (by fun_prop)
    refine (lintegral_prod _ a4.aemeasurable).trans (Eq.trans ?_ (lintegral_prod _ b4.aemeasurable).symm)
    refine lintegral_congr fun x4 => ?_
    have a5 : Measurable fun x => F (x1, x2, x3, x4, x) := hF.comp (f := fun x => (x1, x2, x3, x4, x)) (by fun_prop)
    have b5 : Measurable fun x : (Pair c.base.K → U) × (Pair c.base.K → U) => ∫⁻ t, F (x1, x2, x3, x4, x.1, t) ∂Measure.pi (fun _ => μ) :=
      b4.comp (f := fun x => (x4, x)) (by fun_prop)
    refine (lintegral_prod _ a5.aemeasurable).trans (Eq.trans ?_ (lintegral_prod _ b5.aemeasurable).symm)
    refine lintegral_congr fun x5 => ?_
    dsimp only
    rw [lintegral_const, measure_univ, mul_one]
  rw [key (fun x => T (sweepStep G c n θ x)) (hT.comp ((measurable_sweepStep G h).comp (f := fun x => (θ, x)) (by fun_prop)))]
  rfl

/-- **Invariance of the posterior.** -/
theorem posterior_map (h : CfgOk c n) : ((posterior c n).prod (seedLaw c μ)).map (fun x => sweepStep G c n x.1 x.2) = posterior c n := by
  have hμ := gen_prob G
  have hsl : IsProbabilityMeasure (seedLaw c μ) := by unfold seedLaw; infer_instance
  have hP : ∀ e : Pair c.base.K, IsProbabilityMeasure (coinLaw (n.P e.1 e.2)) := fun e => coinLaw_prob (P_mem h e).1 (P_mem h e).2
  have hS := scale_prob G h
  have hΦ := phi_prob h
  have hpr : SFinite (prior c n) := by
    unfold prior
    have : SFinite ((Measure.pi fun _ : Fin c.base.K => gammaMeasure c.alpha c.beta).prod (Measure.pi fun _ : Pair c.base.K => dirichletLaw c.base.B c.gamma)) := by
      change SFinite (phiPrior c); infer_instance
    infer_instance
  have hps : SFinite (posterior c n) := by unfold posterior; infer_instance
  have mlik := measurable_likelihood c h.data
  ext s hs
  have ms := measurable_sweepStep G h
  rw [Measure.map_apply ms hs, ← lintegral_indicator_one (ms hs), lintegral_prod _ ((measurable_one.indicator (ms hs)).aemeasurable), ← lintegral_indicator_one hs]
  have e : ∀ θ x, ((fun x : Theta c.base.K × Seeds c U => sweepStep G c n x.1 x.2) ⁻¹' s).indicator (1 : Theta c.base.K × Seeds c U → ENNReal) (θ, x)
      = s.indicator (1 : Theta c.base.K → ENNReal) (sweepStep G c n θ x) := fun θ x => rfl
  simp only [e]
  have mT : Measurable (s.indicator (1 : Theta c.base.K → ENNReal)) := measurable_one.indicator hs
  have mI : Measurable fun θ : Theta c.base.K => ∫⁻ x, s.indicator (1 : Theta c.base.K → ENNReal) (sweepStep G c n θ x) ∂seedLaw c μ := (mT.comp ms).lintegral_prod_right'
  have conv : ∀ F : Theta c.base.K → ENNReal, Measurable F → ∫⁻ θ, F θ ∂posterior c n = (∫⁻ θ, likelihood c θ ∂prior c n)⁻¹ * ∫⁻ θ, likelihood c θ * F θ ∂prior c n := by
    intro F hF
    unfold posterior
    rw [lintegral_smul_measure, lintegral_withDensity_eq_lintegral_mul _ mlik hF]
    rfl
  rw [conv _ mI, conv _ mT, sweep_invariant G h mT]

end

end PyHawkes
