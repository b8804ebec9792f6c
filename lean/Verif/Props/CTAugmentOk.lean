import Verif.Props.CTAugment

/-!
# The continuous-time sampler draws from the conditional distributions (used for C84)
-/
set_option linter.unusedSectionVars false
set_option linter.unusedVariables false

namespace PyHawkes
open Finset Spec MeasureTheory ProbabilityTheory

/-- independent integer-valued draws -/
theorem pi_discrete {U : Type*} [MeasurableSpace U] {μ : Measure U} [IsProbabilityMeasure μ] {ι : Type*} [Fintype ι] {g : ι → U → ℤ} (hg : ∀ i, Measurable (g i)) (F : (ι → ℤ) → ENNReal) :
    ∫⁻ x, F (fun i => g i (x i)) ∂Measure.pi (fun _ => μ) = ∑' z, (∏ i, μ.map (g i) {z i}) * F z := by
  have hp : ∀ i, IsProbabilityMeasure (μ.map (g i)) := fun i => Measure.isProbabilityMeasure_map (hg i).aemeasurable
  have hm : Measurable F := measurable_of_countable _
  have mg : Measurable fun (x : ι → U) i => g i (x i) := measurable_pi_iff.2 fun i => (hg i).comp (measurable_pi_apply i)
  rw [← lintegral_map hm mg, Measure.pi_map_pi fun i => (hg i).aemeasurable, lintegral_countable']
  exact tsum_congr fun z => by rw [Measure.pi_singleton, mul_comm]

section
variable {U : Type*} [MeasurableSpace U] {μ : Measure U} (G : Generator μ) (N : NormalSampler μ) {c : CTState} {n : ERFixed} {D : CTData}

/-- the likelihood factor of an impulse response is proportional to a product of normal densities of the scaled lags -/
theorem impFac_form {z : ZCT D} (h : GoodZ D c.P.dtMax z) (e : Pair c.P.K) : ∃ C : ℝ, 0 ≤ C ∧ ∀ m t, 0 < t →
    impFac c D z e (m, t) = C * ((lagsOf c D z e).map (gaussianPDFReal m (1 / t).toNNReal)).prod := by
  set κ : ℝ := Real.sqrt (2 * Real.pi) / 2.5066282746310002 with hκ
  set s : ℕ → ℝ := fun n => D.S n - D.S (zN z n).toNat with hs
  set d := c.P.dtMax with hd
  have hwin : ∀ n ∈ children D (zN z) e.1 e.2, 1e-8 ≤ s n ∧ s n ≤ d - 1e-8 := by
    intro n hn
    unfold children at hn
    obtain ⟨h1, h2, -⟩ := mem_filter.1 hn
    have hn' := mem_range.1 h1
    rw [hs]; dsimp only
    rw [zN_in z hn'] at h2 ⊢
    rcases h ⟨n, hn'⟩ with h | ⟨m, h, hm, hw⟩
    · rw [h] at h2; omega
    · rw [h, Int.toNat_natCast]; exact hw
  refine ⟨∏ n ∈ children D (zN z) e.1 e.2, κ * |d / (s n * (d - s n))|, prod_nonneg fun n _ => mul_nonneg (by positivity) (abs_nonneg _), fun m t ht => ?_⟩
  unfold impFac lagsOf
  rw [List.map_map, Finset.prod_map_toList, ← prod_mul_distrib]
  refine prod_congr rfl fun n hn => ?_
  obtain ⟨h1, h2⟩ := hwin n hn
  have h0 : 0 < s n := by norm_num at h1; linarith
  have h3 : s n < d := by norm_num at h2; linarith
  change impulse m t d (s n) = _
  rw [← lnImpulse_eq (s n) m t d h1 h2, (C31_kernel_constant m t d (s n) ht h1 h2).1, pyImpulse_eq m t d (s n) ht h0 h3, ← mul_assoc]
  have := childLag_eq { D with Z := zN z } d n h0 h3
  change _ = _ * gaussianPDFReal m (1 / t).toNNReal (childLag D d (zN z) n)
  rw [show childLag D d (zN z) n = pyLogit (s n / d) 1 from this]

theorem impFac_meas (z : ZCT D) (e : Pair c.P.K) : Measurable (impFac c D z e) := by
  unfold impFac
  exact Finset.measurable_prod _ fun n _ => meas_impulse _ _

theorem impFac_nonneg {z : ZCT D} (h : GoodZ D c.P.dtMax z) (e : Pair c.P.K) {m : ℝ × ℝ} (hm : 0 < m.2) : 0 ≤ impFac c D z e m := by
  obtain ⟨C, hC, hf⟩ := impFac_form h e
  have := hf m.1 m.2 hm
  rw [show m = (m.1, m.2) from rfl, this]
  exact mul_nonneg hC (List.prod_nonneg fun x hx => by
    obtain ⟨y, -, rfl⟩ := List.mem_map.1 hx
    exact gaussianPDFReal_nonneg _ _ _)

theorem phi_ae (h : CfgOkCT c n D) : ∀ᵐ φ ∂(ctSys G N c D).ν, (∀ k, 0 < φ.1 k) ∧ ∀ e, 0 < (φ.2 e).2 := by
  have h1 : IsProbabilityMeasure (gammaMeasure c.alpha c.beta) := isProbabilityMeasure_gammaMeasure h.hyper.alpha h.hyper.beta
  have h2 := nigLaw_prob h.hyper.nig
  have a1 : ∀ᵐ l ∂(Measure.pi fun _ : Fin c.P.K => gammaMeasure c.alpha c.beta), ∀ k, 0 < l k := pi_ae_all _ (p := fun _ t => 0 < t) fun _ => gammaMeasure_pos
  have a2 : ∀ᵐ m ∂(Measure.pi fun _ : Pair c.P.K => nigLaw c.nig), ∀ e, 0 < (m e).2 := pi_ae_all _ (p := fun _ (x : ℝ × ℝ) => 0 < x.2) fun _ => nigLaw_pos h.hyper.nig
  exact (Measure.quasiMeasurePreserving_fst.ae a1).and (Measure.quasiMeasurePreserving_snd.ae a2)

theorem ct_factor (h : CfgOkCT c n D) {A W : Pair c.P.K → ℝ} (hAW : ∀ e, 0 ≤ A e * W e) {φ : PhiCT c.P.K} (hφ : (∀ k, 0 < φ.1 k) ∧ ∀ e, 0 < (φ.2 e).2) (z : ZCT D) :
    ENNReal.ofReal ((ctSys G N c D).L A W φ) * (ctSys G N c D).kz φ A W z = (ctSys G N c D).fφ φ z * (ctSys G N c D).xFac A W z := by
  classical
  have hμ := gen_prob G
  set P := ctRateParams c.P A W φ.1 φ.2 with hP
  have hOk : CTOk P := ctRate_ok c.P A W φ.1 φ.2 rfl h.hyper.dtMax hAW hφ.1 hφ.2
  have hL : LabelsOk P.K D := h.labels
  have hb : ∀ n < D.N, ∀ j < n, ¬ BoundaryLag P D n j := fun n hn j hj => h.boundary n hn j hj
  have hkz : (ctSys G N c D).kz φ A W z = ∏ n : Fin D.N, ENNReal.ofReal (parFac P D n (z n) / totalRate P D n) :=
    Finset.prod_congr (s₁ := univ) (f := fun n : Fin D.N => μ.map (fun u => zSel (cumProb P D n) n (G.unif u)) {z n}) rfl fun (n : Fin D.N) _ => sel_law G P D hOk hL h.sorted n n.2 (z n)
  have hpf : ∀ n : Fin D.N, 0 ≤ parFac P D n (z n) := by
    intro n
    unfold parFac
    split_ifs with h1 h2
    · exact (hOk.lam0 _ (hL n n.2)).le
    · exact contribution_nonneg P D hOk hL n _ n.2 (by have := n.2; omega)
    · exact le_rfl
  have htr : ∀ n : Fin D.N, 0 < totalRate P D n := fun n => totalRate_pos P D hOk hL n n.2
  have hLL : (ctSys G N c D).L A W φ = (∏ n : Fin D.N, totalRate P D n) * ((∏ k : Fin P.K, Real.exp (-(P.lam0 k * D.T))) * ∏ e : Pair P.K, Real.exp (-(P.A e.1 e.2 * P.W e.1 e.2 * D.Ns e.1))) := by
    rw [← ctLik_eq P D hOk hL h.sorted hb, ← h.data]; rfl
  have hLn : 0 ≤ (ctSys G N c D).L A W φ := (Real.exp_pos _).le
  have hlhs : ENNReal.ofReal ((ctSys G N c D).L A W φ) * (ctSys G N c D).kz φ A W z = ENNReal.ofReal ((∏ n : Fin D.N, parFac P D n (z n)) *
      ((∏ k : Fin P.K, Real.exp (-(P.lam0 k * D.T))) * ∏ e : Pair P.K, Real.exp (-(P.A e.1 e.2 * P.W e.1 e.2 * D.Ns e.1)))) := by
    rw [hkz, ← ENNReal.ofReal_prod_of_nonneg fun n _ => div_nonneg (hpf n) (htr n).le, ← ENNReal.ofReal_mul hLn, hLL, prod_div_distrib]
    congr 1
    have := (prod_pos fun (n : Fin D.N) (_ : n ∈ univ) => htr n).ne'
    rw [mul_div_assoc', div_eq_iff this]; ring
  rw [hlhs]
  by_cases hgood : GoodZ D c.P.dtMax z
  · rw [parFac_prod c.P h.labels A W φ z hgood]
    have hf : (ctSys G N c D).fφ φ z = (∏ k : Fin c.P.K, ENNReal.ofReal (φ.1 k ^ (bkgdCount D (zN z) k : ℝ) * Real.exp (-(φ.1 k * D.T)))) * ∏ e, ENNReal.ofReal (impFac c D z e (φ.2 e)) := if_pos hgood
    have hx : (ctSys G N c D).xFac A W z = ∏ e : Pair c.P.K, ENNReal.ofReal ((A e * W e) ^ (children D (zN z) e.1 e.2).card * Real.exp (-(A e * W e * D.Ns e.1))) := rfl
    have n1 : ∀ k ∈ (univ : Finset (Fin c.P.K)), 0 ≤ φ.1 k ^ (bkgdCount D (zN z) k : ℝ) * Real.exp (-(φ.1 k * D.T)) := fun k _ => mul_nonneg (Real.rpow_nonneg (hφ.1 k).le _) (Real.exp_pos _).le
    have n2 : ∀ e ∈ (univ : Finset (Pair c.P.K)), 0 ≤ impFac c D z e (φ.2 e) := fun e _ => impFac_nonneg hgood e (hφ.2 e)
    have n3 : ∀ e ∈ (univ : Finset (Pair c.P.K)), 0 ≤ (A e * W e) ^ (children D (zN z) e.1 e.2).card * Real.exp (-(A e * W e * D.Ns e.1)) := fun e _ => mul_nonneg (pow_nonneg (hAW e) _) (Real.exp_pos _).le
    rw [hf, hx, ← ENNReal.ofReal_prod_of_nonneg n1, ← ENNReal.ofReal_prod_of_nonneg n2, ← ENNReal.ofReal_prod_of_nonneg n3, ← ENNReal.ofReal_mul (prod_nonneg n1),
      ← ENNReal.ofReal_mul (mul_nonneg (prod_nonneg n1) (prod_nonneg n2))]
    congr 1
    have e1 : ∏ k : Fin P.K, Real.exp (-(P.lam0 k * D.T)) = ∏ k : Fin c.P.K, Real.exp (-(φ.1 k * D.T)) := prod_congr rfl fun k _ => by rw [show P.lam0 k = φ.1 k from ctRate_lam _ _ _ _ _ k.2]
    have e2 : ∏ e : Pair P.K, Real.exp (-(P.A e.1 e.2 * P.W e.1 e.2 * D.Ns e.1)) = ∏ e : Pair c.P.K, Real.exp (-(A e * W e * D.Ns e.1)) := prod_congr rfl fun e _ => by
      rw [show P.A e.1 e.2 = A e from padM_in A e.1.2 e.2.2, show P.W e.1 e.2 = W e from padM_in W e.1.2 e.2.2]
    rw [e1, e2]
    simp only [Real.rpow_natCast, prod_mul_distrib]
    unfold impFac
    ring
  · obtain ⟨n, hn⟩ := parFac_bad c.P P rfl z hgood
    have hf : (ctSys G N c D).fφ φ z = 0 := if_neg hgood
    rw [hf, zero_mul, prod_eq_zero (mem_univ n) hn, zero_mul, ENNReal.ofReal_zero]

theorem ctSys_ok (h : CfgOkCT c n D) : (ctSys G N c D).Ok := by
  classical
  have hμ := gen_prob G
  have hg : IsProbabilityMeasure (gammaMeasure c.alpha c.beta) := isProbabilityMeasure_gammaMeasure h.hyper.alpha h.hyper.beta
  have hnig := nigLaw_prob h.hyper.nig
  have mz : ∀ n : Fin D.N, Measurable fun x : AWP c.P.K × (Fin D.N → U) => zSel (cumProb (ctRateParams c.P x.1.1 x.1.2.1 x.1.2.2.1 x.1.2.2.2) D n) n (G.unif (x.2 n)) := fun n =>
    meas_zSel (f := fun x : AWP c.P.K × (Fin D.N → U) => cumProb (ctRateParams c.P x.1.1 x.1.2.1 x.1.2.2.1 x.1.2.2.2) D n)
      (fun m => (meas_cumProb c.P D n m).comp (f := fun x : AWP c.P.K × (Fin D.N → U) => x.1) measurable_fst) n (G.unif_meas.comp (by fun_prop))
  have mlam : ∀ (z : ZCT D) (k : Fin c.P.K), Measurable fun l : ℝ => ENNReal.ofReal (l ^ (bkgdCount D (zN z) k : ℝ) * Real.exp (-(l * D.T))) := fun z k => by fun_prop
  have mimp : ∀ (z : ZCT D) (e : Pair c.P.K), Measurable fun m : ℝ × ℝ => ENNReal.ofReal (impFac c D z e m) := fun z e => (impFac_meas z e).ennreal_ofReal
  have msφ : ∀ z, Measurable ((ctSys G N c D).sφ z) := fun z => by
    refine Measurable.prodMk (measurable_pi_iff.2 fun k => ?_) (measurable_pi_iff.2 fun e => ?_)
    · exact (gam_measurable G _).comp (by fun_prop)
    · exact (nigDraw_meas G N _).comp (by fun_prop)
  constructor
  · exact inferInstanceAs (IsProbabilityMeasure (Measure.prod _ _))
  · exact inferInstanceAs (IsProbabilityMeasure (Measure.pi _))
  · exact inferInstanceAs (IsProbabilityMeasure (Measure.prod _ _))
  · exact fun _ _ _ => Real.exp_pos _
  · exact Real.measurable_exp.comp (meas_ctLogLik c.P c.data)
  · exact measurable_pi_iff.2 mz
  · exact msφ
  · intro z
    unfold ctSys
    dsimp only
    split_ifs
    · refine Measurable.mul (Finset.measurable_prod _ fun k _ => ?_) (Finset.measurable_prod _ fun e _ => ?_)
      · exact (mlam z k).comp (f := fun φ : PhiCT c.P.K => φ.1 k) (by fun_prop)
      · exact (mimp z e).comp (f := fun φ : PhiCT c.P.K => φ.2 e) (by fun_prop)
    · exact measurable_const
  · exact fun k => Nat.cast_nonneg _
  · intro A W hAW
    refine Filter.Eventually.of_forall fun φ F => ?_
    refine pi_discrete (g := fun (n : Fin D.N) u => zSel (cumProb (ctRateParams c.P A W φ.1 φ.2) D n) n (G.unif u)) (fun n => ?_) F
    exact meas_zSel (f := fun _ => cumProb (ctRateParams c.P A W φ.1 φ.2) D n) (fun m => measurable_const) n G.unif_meas
  · intro A W hAW
    filter_upwards [phi_ae G N h] with φ hφ z
    exact ct_factor G N h hAW hφ z
  · intro z
    by_cases hgood : GoodZ D c.P.dtMax z
    · have hf : (fun φ => (ctSys G N c D).fφ φ z) = fun φ => (∏ k : Fin c.P.K, ENNReal.ofReal (φ.1 k ^ (bkgdCount D (zN z) k : ℝ) * Real.exp (-(φ.1 k * D.T)))) * ∏ e, ENNReal.ofReal (impFac c D z e (φ.2 e)) :=
        funext fun φ => if_pos hgood
      rw [hf]
      have s1 := BayesStep.pi (ι := Fin c.P.K) (X := fun _ => ℝ) (Y := fun _ => U) (ν := fun _ => gammaMeasure c.alpha c.beta) (μ := fun _ => μ)
        (f := fun k l => ENNReal.ofReal (l ^ (bkgdCount D (zN z) k : ℝ) * Real.exp (-(l * D.T)))) (s := fun k => G.gam ⟨c.alpha + bkgdCount D (zN z) k, 1 / (c.beta + D.T)⟩)
        (fun k => gammaLaw_step G h.hyper.alpha h.hyper.beta (Nat.cast_nonneg _) h.T) (fun k => mlam z k) fun k => gam_measurable G _
      have s2 := BayesStep.pi (ι := Pair c.P.K) (X := fun _ => ℝ × ℝ) (Y := fun _ => U × U) (ν := fun _ => nigLaw c.nig) (μ := fun _ => μ.prod μ)
        (f := fun e m => ENNReal.ofReal (impFac c D z e m)) (s := fun e => nigDraw G N (nigPosterior c.nig (lagsOf c D z e)))
        (fun e => by
          obtain ⟨C, hC, hf⟩ := impFac_form hgood e
          exact nig_step G N h.hyper.nig _ (impFac_meas z e) hC hf) (fun e => mimp z e) fun e => nigDraw_meas G N _
      exact s1.prod s2 (Finset.measurable_prod _ fun k _ => (mlam z k).comp (by fun_prop)) (Finset.measurable_prod _ fun e _ => (mimp z e).comp (by fun_prop))
        (measurable_pi_iff.2 fun k => (gam_measurable G _).comp (by fun_prop)) (measurable_pi_iff.2 fun e => (nigDraw_meas G N _).comp (by fun_prop))
    · have hf : (fun φ => (ctSys G N c D).fφ φ z) = fun _ => 0 := funext fun φ => if_neg hgood
      rw [hf]
      exact ⟨by simp, by simp⟩

end

end PyHawkes
