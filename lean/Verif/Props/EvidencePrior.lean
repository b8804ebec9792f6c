import Verif.Props.EvidenceCore

/-!
# C103, tools: the variational inequality for the whole prior of the gamma-mixture model
-/
set_option linter.unusedSectionVars false
set_option linter.unusedVariables false

namespace PyHawkes
open Finset Spec MeasureTheory ProbabilityTheory

/-- variational parameters of one pair: edge probability, gamma parameters of the weight of an absent and of a present edge; and the coefficients of the exponent -/
structure PairQ where
  q : ℝ
  k0 : ℝ
  v0 : ℝ
  k1 : ℝ
  v1 : ℝ
  Z : ℝ
  N : ℝ

structure PairQ.Ok (w : PairQ) : Prop where
  q : 0 < w.q ∧ w.q < 1
  k0 : 0 < w.k0
  v0 : 0 < w.v0
  k1 : 0 < w.k1
  v1 : 0 < w.v1

/-- contribution of one pair to the bound, given log probabilities of presence and absence, and the mean and mean log of the scale -/
noncomputable def PairQ.val (w : PairQ) (κ0 ν0 κ lp ln eV eLnV : ℝ) : ℝ :=
  w.q * (w.Z * (psi w.k1 - Real.log w.v1) - w.N * (w.k1 / w.v1) - (gammaNegentDefault w.k1 w.v1 - gammaNegent κ eV eLnV (w.k1 / w.v1) (psi w.k1 - Real.log w.v1)) + lp)
    + (1 - w.q) * (w.Z * (psi w.k0 - Real.log w.v0) - w.N * (w.k0 / w.v0) - klGamma w.k0 w.v0 κ0 ν0 + ln)
    - (w.q * Real.log w.q + (1 - w.q) * Real.log (1 - w.q))

/-- `exp (Z log t - N t)` -/
noncomputable def PairQ.fac (w : PairQ) (t : ℝ) : ENNReal := ENNReal.ofReal (Real.exp (w.Z * Real.log t - w.N * t))

theorem PairQ.fac_meas (w : PairQ) : Measurable w.fac := by unfold PairQ.fac; fun_prop

theorem lintegral_gamma (a b : ℝ) {f : ℝ → ENNReal} (hf : Measurable f) : ∫⁻ t, gammaPDF a b t * f t = ∫⁻ t, f t ∂gammaMeasure a b := by
  unfold gammaMeasure
  exact (lintegral_withDensity_eq_lintegral_mul _ (f := gammaPDF a b) (measurable_gammaPDFReal a b).ennreal_ofReal hf).symm

/-- one pair, at a given scale -/
theorem pair_inner {κ0 ν0 κ v p : ℝ} (hκ0 : 0 < κ0) (hν0 : 0 < ν0) (hκ : 0 < κ) (hv : 0 < v) (hp : 0 < p ∧ p < 1) (w : PairQ) (hw : w.Ok) :
    ENNReal.ofReal (Real.exp (w.val κ0 ν0 κ (Real.log p) (Real.log (1 - p)) v (Real.log v)))
      ≤ ∫⁻ a, (∫⁻ t, mixWeightPdf κ0 ν0 κ v a t * w.fac t) ∂coinLaw p := by
  have h1 := variational_gamma hw.k1 hw.v1 hκ hv w.Z w.N 0
  have h0 := variational_gamma hw.k0 hw.v0 hκ0 hν0 w.Z w.N 0
  simp only [add_zero] at h1 h0
  rw [lintegral_coin]
  simp only [mixWeightPdf, if_true, zero_ne_one, if_false]
  rw [lintegral_gamma _ _ w.fac_meas, lintegral_gamma _ _ w.fac_meas]
  have c := variational_coin (s := w.Z * (psi w.k1 - Real.log w.v1) - w.N * (w.k1 / w.v1) - klGamma w.k1 w.v1 κ v)
    (t := w.Z * (psi w.k0 - Real.log w.v0) - w.N * (w.k0 / w.v0) - klGamma w.k0 w.v0 κ0 ν0) hp hw.q
  calc ENNReal.ofReal (Real.exp (w.val κ0 ν0 κ (Real.log p) (Real.log (1 - p)) v (Real.log v)))
      ≤ ENNReal.ofReal (p * Real.exp (w.Z * (psi w.k1 - Real.log w.v1) - w.N * (w.k1 / w.v1) - klGamma w.k1 w.v1 κ v)
        + (1 - p) * Real.exp (w.Z * (psi w.k0 - Real.log w.v0) - w.N * (w.k0 / w.v0) - klGamma w.k0 w.v0 κ0 ν0)) := by
        refine ENNReal.ofReal_le_ofReal (le_trans (le_of_eq ?_) c)
        unfold PairQ.val
        rw [klGamma_eq hw.k1 hw.v1 hκ hv]
    _ = ENNReal.ofReal p * ENNReal.ofReal (Real.exp (w.Z * (psi w.k1 - Real.log w.v1) - w.N * (w.k1 / w.v1) - klGamma w.k1 w.v1 κ v))
        + ENNReal.ofReal (1 - p) * ENNReal.ofReal (Real.exp (w.Z * (psi w.k0 - Real.log w.v0) - w.N * (w.k0 / w.v0) - klGamma w.k0 w.v0 κ0 ν0)) := by
        have p1 : 0 < 1 - p := by linarith [hp.2]
        rw [ENNReal.ofReal_add (by have := hp.1; positivity) (by positivity), ENNReal.ofReal_mul hp.1.le, ENNReal.ofReal_mul p1.le]
    _ ≤ _ := add_le_add (mul_le_mul_right h1 _) (mul_le_mul_right h0 _)

theorem ofReal_exp_sum {ι : Type*} (s : Finset ι) (f : ι → ℝ) : ENNReal.ofReal (Real.exp (∑ i ∈ s, f i)) = ∏ i ∈ s, ENNReal.ofReal (Real.exp (f i)) := by
  rw [Real.exp_sum, ENNReal.ofReal_prod_of_nonneg fun i _ => (Real.exp_pos _).le]

/-- all pairs, at a given scale -/
theorem pairs_inner {K : ℕ} {κ0 ν0 κ v : ℝ} (hκ0 : 0 < κ0) (hν0 : 0 < ν0) (hκ : 0 < κ) (hv : 0 < v) {p : Pair K → ℝ} (hp : ∀ e, 0 < p e ∧ p e < 1) (w : Pair K → PairQ) (hw : ∀ e, (w e).Ok) :
    ENNReal.ofReal (Real.exp (∑ e, (w e).val κ0 ν0 κ (Real.log (p e)) (Real.log (1 - p e)) v (Real.log v)))
      ≤ ∫⁻ X, (∏ e, mixWeightPdf κ0 ν0 κ v (X.1 e) (X.2 e)) * ∏ e, (w e).fac (X.2 e) ∂(Measure.pi fun e : Pair K => coinLaw (p e)).prod (Measure.pi fun _ : Pair K => (volume : Measure ℝ)) := by
  have hP : ∀ e : Pair K, IsProbabilityMeasure (coinLaw (p e)) := fun e => coinLaw_prob (hp e).1.le (hp e).2.le
  have mw : Measurable fun x : ℝ × ℝ => mixWeightPdf κ0 ν0 κ v x.1 x.2 := (measurable_mixWeightPdf κ0 ν0 κ).comp (f := fun x : ℝ × ℝ => (v, x.1, x.2)) (by fun_prop)
  have me : ∀ e : Pair K, Measurable fun x : ℝ × ℝ => mixWeightPdf κ0 ν0 κ v x.1 x.2 * (w e).fac x.2 := fun e => mw.mul ((w e).fac_meas.comp measurable_snd)
  have mAll : Measurable fun X : (Pair K → ℝ) × (Pair K → ℝ) => (∏ e, mixWeightPdf κ0 ν0 κ v (X.1 e) (X.2 e)) * ∏ e, (w e).fac (X.2 e) := by
    simp only [← prod_mul_distrib]
    exact Finset.measurable_prod _ fun e _ => (me e).comp (f := fun X : (Pair K → ℝ) × (Pair K → ℝ) => (X.1 e, X.2 e)) (by fun_prop)
  rw [lintegral_prod _ mAll.aemeasurable]
  have e1 : ∀ A : Pair K → ℝ, ∫⁻ W, (∏ e, mixWeightPdf κ0 ν0 κ v (A e) (W e)) * ∏ e, (w e).fac (W e) ∂Measure.pi (fun _ : Pair K => (volume : Measure ℝ))
      = ∏ e, ∫⁻ t, mixWeightPdf κ0 ν0 κ v (A e) t * (w e).fac t := by
    intro A
    simp only [← prod_mul_distrib]
    exact lintegral_prod_pi (fun _ : Pair K => (volume : Measure ℝ)) (fun (e : Pair K) t => mixWeightPdf κ0 ν0 κ v (A e) t * (w e).fac t) fun e => (me e).comp (f := fun t : ℝ => (A e, t)) (by fun_prop)
  simp only [e1]
  rw [lintegral_prod_pi (fun e : Pair K => coinLaw (p e)) (fun (e : Pair K) a => ∫⁻ t, mixWeightPdf κ0 ν0 κ v a t * (w e).fac t) fun e => (me e).lintegral_prod_right', ofReal_exp_sum]
  exact prod_le_prod' fun e _ => pair_inner hκ0 hν0 hκ hv (hp e) (w e) (hw e)

/-- all pairs and the scale -/
theorem pairs_scale {K : ℕ} {κ0 ν0 κ : ℝ} (hκ0 : 0 < κ0) (hν0 : 0 < ν0) (hκ : 0 < κ) {al be a b : ℝ} (hal : 0 < al) (hbe : 0 < be) (ha : 0 < a) (hb : 0 < b)
    {p : Pair K → ℝ} (hp : ∀ e, 0 < p e ∧ p e < 1) (w : Pair K → PairQ) (hw : ∀ e, (w e).Ok) :
    ENNReal.ofReal (Real.exp (∑ e, (w e).val κ0 ν0 κ (Real.log (p e)) (Real.log (1 - p e)) (a / b) (psi a - Real.log b) - klGamma a b al be))
      ≤ ∫⁻ v, ∫⁻ X, (∏ e, mixWeightPdf κ0 ν0 κ v (X.1 e) (X.2 e)) * ∏ e, (w e).fac (X.2 e) ∂(Measure.pi fun e : Pair K => coinLaw (p e)).prod (Measure.pi fun _ : Pair K => (volume : Measure ℝ))
        ∂gammaMeasure al be := by
  have lin : ∀ (e : Pair K) (eV eL : ℝ), (w e).val κ0 ν0 κ (Real.log (p e)) (Real.log (1 - p e)) eV eL
      = (w e).q * κ * eL - (w e).q * ((w e).k1 / (w e).v1) * eV + (w e).val κ0 ν0 κ (Real.log (p e)) (Real.log (1 - p e)) 0 0 := by
    intro e eV eL
    simp only [PairQ.val, gammaNegent]
    ring
  have lin' : ∀ eV eL : ℝ, ∑ e, (w e).val κ0 ν0 κ (Real.log (p e)) (Real.log (1 - p e)) eV eL
      = (∑ e, (w e).q * κ) * eL - (∑ e, (w e).q * ((w e).k1 / (w e).v1)) * eV + ∑ e, (w e).val κ0 ν0 κ (Real.log (p e)) (Real.log (1 - p e)) 0 0 := by
    intro eV eL
    rw [sum_mul, sum_mul, ← sum_sub_distrib, ← sum_add_distrib]
    exact sum_congr rfl fun e _ => lin e eV eL
  rw [lin']
  refine (variational_gamma ha hb hal hbe _ _ _).trans (lintegral_mono_ae ?_)
  filter_upwards [gammaMeasure_pos] with v hv
  rw [← lin' v (Real.log v)]
  exact pairs_inner hκ0 hν0 hκ hv hp w hw

/-- the background rates and impulse weights -/
theorem phi_inner {K B : ℕ} (hB : 0 < B) {α β : ℝ} (hα : 0 < α) (hβ : 0 < β) {γ : Vec ℝ} (hγ : ∀ b < B, 0 < γ b) (la lb zL zT : Fin K → ℝ) (hl : ∀ k, 0 < la k ∧ 0 < lb k)
    (gm zG : Pair K → Vec ℝ) (hg : ∀ e, ∀ b < B, 0 < gm e b) :
    ENNReal.ofReal (Real.exp (∑ k, (zL k * (psi (la k) - Real.log (lb k)) - zT k * (la k / lb k) - klGamma (la k) (lb k) α β)
        + ∑ e, (∑ b ∈ range B, zG e b * (psi (gm e b) - psi (∑ c ∈ range B, gm e c)) - klDirichlet B (gm e) γ)))
      ≤ ∫⁻ φ, (∏ k, ENNReal.ofReal (Real.exp (zL k * Real.log (φ.1 k) - zT k * φ.1 k))) * ∏ e, ENNReal.ofReal (Real.exp (∑ b ∈ range B, zG e b * Real.log (φ.2 e b)))
        ∂(Measure.pi fun _ : Fin K => gammaMeasure α β).prod (Measure.pi fun _ : Pair K => dirichletLaw B γ) := by
  have := isProbabilityMeasure_gammaMeasure hα hβ
  have := dirichlet_prob hγ
  have m1 : ∀ k : Fin K, Measurable fun t : ℝ => ENNReal.ofReal (Real.exp (zL k * Real.log t - zT k * t)) := fun k => by fun_prop
  have m2 : ∀ e : Pair K, Measurable fun g : Vec ℝ => ENNReal.ofReal (Real.exp (∑ b ∈ range B, zG e b * Real.log (g b))) := fun e => by fun_prop
  have M1 : Measurable fun l : Fin K → ℝ => ∏ k, ENNReal.ofReal (Real.exp (zL k * Real.log (l k) - zT k * l k)) := Finset.measurable_prod _ fun k _ => (m1 k).comp (measurable_pi_apply k)
  have M2 : Measurable fun g : Pair K → Vec ℝ => ∏ e, ENNReal.ofReal (Real.exp (∑ b ∈ range B, zG e b * Real.log (g e b))) := Finset.measurable_prod _ fun e _ => (m2 e).comp (measurable_pi_apply e)
  rw [lintegral_prod_mul M1.aemeasurable M2.aemeasurable, lintegral_prod_pi (fun _ : Fin K => gammaMeasure α β) (fun k t => ENNReal.ofReal (Real.exp (zL k * Real.log t - zT k * t))) m1,
    lintegral_prod_pi (fun _ : Pair K => dirichletLaw B γ) (fun e g => ENNReal.ofReal (Real.exp (∑ b ∈ range B, zG e b * Real.log (g b)))) m2, Real.exp_add, ENNReal.ofReal_mul (Real.exp_pos _).le,
    ofReal_exp_sum, ofReal_exp_sum]
  refine mul_le_mul' (prod_le_prod' fun k _ => ?_) (prod_le_prod' fun e _ => variational_dirichlet hγ (hg e) hB (zG e))
  have h := variational_gamma (hl k).1 (hl k).2 hα hβ (zL k) (zT k) 0
  simpa only [add_zero] using h

/-- **the variational inequality for the model's prior**: if the integrand is at least the exponential of a function that is linear in the rates, the weights and all logarithms, the logarithm of its
integral is at least the expectation of that function minus all the divergences -/
theorem evidence_ge {κ0 ν0 : ℝ} {c : HawkesState} {n : ERFixed} (h : CfgOk c n) (hκ0 : 0 < κ0) (hν0 : 0 < ν0) {al be a b : ℝ} (hsc : scalePrior n = gammaMeasure al be) (hal : 0 < al) (hbe : 0 < be) (ha : 0 < a) (hb : 0 < b)
    (hp : ∀ e : Pair c.base.K, 0 < n.P e.1 e.2 ∧ n.P e.1 e.2 < 1) (w : Pair c.base.K → PairQ) (hw : ∀ e, (w e).Ok) (la lb zL zT : Fin c.base.K → ℝ) (hl : ∀ k, 0 < la k ∧ 0 < lb k)
    (gm zG : Pair c.base.K → Vec ℝ) (hg : ∀ e, ∀ b < c.base.B, 0 < gm e b) (C0 : ℝ) {f : Theta c.base.K → ENNReal} (mf : Measurable f)
    (hf : ∀ θ : Theta c.base.K, (∀ e, 0 < θ.2.2.1 e) → (∀ k, 0 < θ.2.2.2.1 k) → (∀ e, ∀ b < c.base.B, 0 < θ.2.2.2.2 e b) →
      ENNReal.ofReal (Real.exp (C0 + ∑ k, (zL k * Real.log (θ.2.2.2.1 k) - zT k * θ.2.2.2.1 k) + ∑ e, ((w e).Z * Real.log (θ.2.2.1 e) - (w e).N * θ.2.2.1 e)
        + ∑ e, ∑ b ∈ range c.base.B, zG e b * Real.log (θ.2.2.2.2 e b))) ≤ f θ) :
    ENNReal.ofReal (Real.exp (C0 + ∑ k, (zL k * (psi (la k) - Real.log (lb k)) - zT k * (la k / lb k) - klGamma (la k) (lb k) c.alpha c.beta)
        + (∑ e, (w e).val κ0 ν0 n.kappa (Real.log (n.P e.1 e.2)) (Real.log (1 - n.P e.1 e.2)) (a / b) (psi a - Real.log b) - klGamma a b al be)
        + ∑ e, (∑ b ∈ range c.base.B, zG e b * (psi (gm e b) - psi (∑ c ∈ range c.base.B, gm e c)) - klDirichlet c.base.B (gm e) c.gamma)))
      ≤ ∫⁻ θ, f θ ∂priorMix κ0 ν0 c n := by
  obtain ⟨G⟩ := C83_generator_exists
  have hS := scale_prob G h
  have hΦ := phi_prob h
  have hBs := mixBase_sfinite h
  have hP : ∀ e : Pair c.base.K, IsProbabilityMeasure (coinLaw (n.P e.1 e.2)) := fun e => coinLaw_prob (P_mem h e).1 (P_mem h e).2
  have := isProbabilityMeasure_gammaMeasure h.hyper.alpha h.hyper.beta
  have := dirichlet_prob h.hyper.gamma
  rw [priorMix_lintegral G κ0 ν0 h mf]
  -- pointwise lower bound, almost everywhere
  have hW0 : ∀ᵐ W ∂Measure.pi (fun _ : Pair c.base.K => (volume : Measure ℝ)), ∀ e, W e ≠ 0 :=
    ae_all_iff.2 fun e => (Measure.quasiMeasurePreserving_eval (fun _ : Pair c.base.K => (volume : Measure ℝ)) e).ae (Measure.ae_ne volume 0)
  have hW1 : ∀ᵐ X ∂mixBase c n, ∀ e, X.2 e ≠ 0 := Measure.quasiMeasurePreserving_snd.ae hW0
  have hφ : ∀ᵐ φ ∂phiPrior c, (∀ k, 0 < φ.1 k) ∧ ∀ e, ∀ b < c.base.B, 0 < φ.2 e b := by
    have h1 : ∀ᵐ lam ∂Measure.pi (fun _ : Fin c.base.K => gammaMeasure c.alpha c.beta), ∀ k, 0 < lam k := pi_ae_all _ fun _ => gammaMeasure_pos
    have h2 : ∀ᵐ g ∂Measure.pi (fun _ : Pair c.base.K => dirichletLaw c.base.B c.gamma), ∀ e, ∀ b < c.base.B, 0 < g e b :=
      pi_ae_all (X := fun _ => Vec ℝ) (p := fun _ (g : Vec ℝ) => ∀ b < c.base.B, 0 < g b) _ fun _ => by
        filter_upwards [dirichlet_simplex h.hyper.gamma h.B] with x hx b hb
        exact hx.1 b hb
    have m1 := Measure.quasiMeasurePreserving_fst (μ := Measure.pi fun _ : Fin c.base.K => gammaMeasure c.alpha c.beta) (ν := Measure.pi fun _ : Pair c.base.K => dirichletLaw c.base.B c.gamma)
    have m2 := Measure.quasiMeasurePreserving_snd (μ := Measure.pi fun _ : Fin c.base.K => gammaMeasure c.alpha c.beta) (ν := Measure.pi fun _ : Pair c.base.K => dirichletLaw c.base.B c.gamma)
    unfold phiPrior
    filter_upwards [m1.ae h1, m2.ae h2] with φ a b
    exact ⟨a, b⟩
  have b1 : ∀ᵐ y ∂(mixBase c n).prod (phiPrior c), ∀ e, y.1.2 e ≠ 0 := Measure.quasiMeasurePreserving_fst.ae hW1
  have b2 : ∀ᵐ y ∂(mixBase c n).prod (phiPrior c), (∀ k, 0 < y.2.1 k) ∧ ∀ e, ∀ b < c.base.B, 0 < y.2.2 e b := Measure.quasiMeasurePreserving_snd.ae hφ
  have c2 := (Measure.quasiMeasurePreserving_snd (μ := scalePrior n) (ν := (mixBase c n).prod (phiPrior c))).ae (b1.and b2)
  let ΦF : (Fin c.base.K → ℝ) × (Pair c.base.K → Vec ℝ) → ENNReal := fun φ =>
    (∏ k, ENNReal.ofReal (Real.exp (zL k * Real.log (φ.1 k) - zT k * φ.1 k))) * ∏ e, ENNReal.ofReal (Real.exp (∑ b ∈ range c.base.B, zG e b * Real.log (φ.2 e b)))
  let WF : ℝ → (Pair c.base.K → ℝ) × (Pair c.base.K → ℝ) → ENNReal := fun v X => mixDens κ0 ν0 n v X.1 X.2 * ∏ e, (w e).fac (X.2 e)
  have mΦ : Measurable ΦF := by
    refine Measurable.mul (Finset.measurable_prod _ fun k _ => ?_) (Finset.measurable_prod _ fun e _ => ?_)
    · have : Measurable fun t : ℝ => ENNReal.ofReal (Real.exp (zL k * Real.log t - zT k * t)) := by fun_prop
      exact this.comp (f := fun φ : (Fin c.base.K → ℝ) × (Pair c.base.K → Vec ℝ) => φ.1 k) (by fun_prop)
    · have : Measurable fun g : Vec ℝ => ENNReal.ofReal (Real.exp (∑ b ∈ range c.base.B, zG e b * Real.log (g b))) := by fun_prop
      exact this.comp (f := fun φ : (Fin c.base.K → ℝ) × (Pair c.base.K → Vec ℝ) => φ.2 e) (by fun_prop)
  have mW : Measurable fun x : ℝ × (Pair c.base.K → ℝ) × (Pair c.base.K → ℝ) => WF x.1 x.2 := by
    refine (measurable_mixDens κ0 ν0).mul (Finset.measurable_prod _ fun e _ => (w e).fac_meas.comp (f := fun x : ℝ × (Pair c.base.K → ℝ) × (Pair c.base.K → ℝ) => x.2.2 e) (by fun_prop))
  have low : ∀ᵐ y ∂(scalePrior n).prod ((mixBase c n).prod (phiPrior c)), ENNReal.ofReal (Real.exp C0) * (WF y.1 y.2.1 * ΦF y.2.2) ≤ mixDens κ0 ν0 n y.1 y.2.1.1 y.2.1.2 * f (y.2.1.1, y.1, y.2.1.2, y.2.2) := by
    filter_upwards [c2] with y hy
    by_cases hWp : ∀ e, 0 ≤ y.2.1.2 e
    · have hb := hf (y.2.1.1, y.1, y.2.1.2, y.2.2) (fun e => lt_of_le_of_ne (hWp e) (Ne.symm (hy.1 e))) hy.2.1 hy.2.2
      refine le_trans (le_of_eq ?_) (mul_le_mul_right hb _)
      dsimp only [WF, ΦF, PairQ.fac]
      rw [Real.exp_add, Real.exp_add, Real.exp_add, ENNReal.ofReal_mul (by positivity), ENNReal.ofReal_mul (by positivity), ENNReal.ofReal_mul (by positivity), ofReal_exp_sum, ofReal_exp_sum, ofReal_exp_sum]
      ring
    · dsimp only [WF]
      rw [mixDens_neg hWp, zero_mul, zero_mul, zero_mul, mul_zero]
  refine le_trans ?_ (lintegral_mono_ae low)
  have mAll : Measurable fun y : ℝ × ((Pair c.base.K → ℝ) × (Pair c.base.K → ℝ)) × (Fin c.base.K → ℝ) × (Pair c.base.K → Vec ℝ) => WF y.1 y.2.1 * ΦF y.2.2 :=
    (mW.comp (f := fun y : ℝ × ((Pair c.base.K → ℝ) × (Pair c.base.K → ℝ)) × (Fin c.base.K → ℝ) × (Pair c.base.K → Vec ℝ) => (y.1, y.2.1)) (by fun_prop)).mul (mΦ.comp (by fun_prop))
  rw [lintegral_const_mul _ mAll, lintegral_prod _ mAll.aemeasurable]
  have inner : ∀ v, ∫⁻ z, WF v z.1 * ΦF z.2 ∂(mixBase c n).prod (phiPrior c) = (∫⁻ X, WF v X ∂mixBase c n) * ∫⁻ φ, ΦF φ ∂phiPrior c := fun v =>
    lintegral_prod_mul (mW.comp (f := fun X : (Pair c.base.K → ℝ) × (Pair c.base.K → ℝ) => (v, X)) (by fun_prop)).aemeasurable mΦ.aemeasurable
  dsimp only
  simp only [inner]
  have mWv : Measurable fun v => ∫⁻ X, WF v X ∂mixBase c n := mW.lintegral_prod_right'
  rw [lintegral_mul_const _ mWv, hsc]
  have P1 := pairs_scale hκ0 hν0 h.net.kappa hal hbe ha hb hp w hw
  have P2 := phi_inner (K := c.base.K) h.B h.hyper.alpha h.hyper.beta h.hyper.gamma la lb zL zT hl gm zG hg
  calc _ = ENNReal.ofReal (Real.exp C0) * (ENNReal.ofReal (Real.exp (∑ e, (w e).val κ0 ν0 n.kappa (Real.log (n.P e.1 e.2)) (Real.log (1 - n.P e.1 e.2)) (a / b) (psi a - Real.log b) - klGamma a b al be))
        * ENNReal.ofReal (Real.exp (∑ k, (zL k * (psi (la k) - Real.log (lb k)) - zT k * (la k / lb k) - klGamma (la k) (lb k) c.alpha c.beta)
        + ∑ e, (∑ b ∈ range c.base.B, zG e b * (psi (gm e b) - psi (∑ c ∈ range c.base.B, gm e c)) - klDirichlet c.base.B (gm e) c.gamma)))) := by
        rw [← ENNReal.ofReal_mul (by positivity), ← ENNReal.ofReal_mul (by positivity), ← Real.exp_add, ← Real.exp_add]
        congr 2
        ring
    _ ≤ _ := mul_le_mul_right (mul_le_mul' P1 P2) _

end PyHawkes
