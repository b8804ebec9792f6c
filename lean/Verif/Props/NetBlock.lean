import Verif.Props.NetSystem

/-!
# The learned one-block network (`StochasticBlockModel` with `C=1`, `ErdosRenyiModel`) as a random network in the sense of `NetSystem`
-/
set_option linter.unusedSectionVars false
set_option linter.unusedVariables false

namespace PyHawkes
open Finset Spec MeasureTheory ProbabilityTheory

section
variable {U : Type*} [MeasurableSpace U] {μ : Measure U} (G : Generator μ) (Bt : BetaSampler μ)

/-- edge probability and weight scale; the two updates use independent seeds -/
noncomputable def blockNet (K : ℕ) (n : SBM) : NetSys K (ℝ × ℝ) (U × U) where
  κ := n.kappa
  ν := (betaMeasure n.tau1 n.tau0).prod (gammaMeasure n.alpha n.beta)
  μV := μ.prod μ
  P := fun η _ => η.1
  s := fun η _ => η.2
  step := fun u _ A W => (Bt.bet ⟨n.tau1 + ∑ e, A e, n.tau0 + ∑ e, (1 - A e)⟩ u.1,
    G.gam ⟨n.alpha + (∑ e, A e) * n.kappa, 1 / (n.beta + ∑ e, if 0 < A e then W e else 0)⟩ u.2)

/-- positive hyperparameters -/
structure BlockHyper (n : SBM) : Prop where
  t0 : 0 < n.tau0
  t1 : 0 < n.tau1
  a : 0 < n.alpha
  b : 0 < n.beta
  k : 0 < n.kappa

theorem blockNet_ok (K : ℕ) {n : SBM} (h : BlockHyper n) : (blockNet G Bt K n).Ok := by
  have hμ := gen_prob G
  have hβ := isProbabilityMeasureBeta h.t1 h.t0
  have hγ := isProbabilityMeasure_gammaMeasure h.a h.b
  have mstep : Measurable fun x : (U × U) × (ℝ × ℝ) × (Pair K → ℝ) × (Pair K → ℝ) => (blockNet G Bt K n).step x.1 x.2.1 x.2.2.1 x.2.2.2 := by
    have hS : Measurable fun x : (U × U) × (ℝ × ℝ) × (Pair K → ℝ) × (Pair K → ℝ) => ∑ e, if 0 < x.2.2.1 e then x.2.2.2 e else 0 :=
      Finset.measurable_sum _ fun e _ => Measurable.ite (measurableSet_lt measurable_const (by fun_prop)) (by fun_prop) measurable_const
    refine Measurable.prodMk ?_ ?_
    · exact Bt.bet_meas.comp (f := fun x : (U × U) × (ℝ × ℝ) × (Pair K → ℝ) × (Pair K → ℝ) => ((n.tau1 + ∑ e, x.2.2.1 e, n.tau0 + ∑ e, (1 - x.2.2.1 e)), x.1.1)) (by fun_prop)
    · exact G.gam_meas.comp (f := fun x : (U × U) × (ℝ × ℝ) × (Pair K → ℝ) × (Pair K → ℝ) =>
        ((n.alpha + (∑ e, x.2.2.1 e) * n.kappa, 1 / (n.beta + ∑ e, if 0 < x.2.2.1 e then x.2.2.2 e else 0)), x.1.2)) (by fun_prop)
  refine ⟨h.k, by unfold blockNet; infer_instance, by unfold blockNet; infer_instance, ?_, ?_, ?_, ?_, mstep, ?_⟩
  · exact measurable_pi_iff.2 fun e => measurable_fst
  · exact measurable_pi_iff.2 fun e => measurable_snd
  · filter_upwards [(Measure.quasiMeasurePreserving_fst (μ := betaMeasure n.tau1 n.tau0) (ν := gammaMeasure n.alpha n.beta)).ae beta_mem] with η hη e
    exact hη
  · filter_upwards [(Measure.quasiMeasurePreserving_snd (μ := betaMeasure n.tau1 n.tau0) (ν := gammaMeasure n.alpha n.beta)).ae gammaMeasure_pos] with η hη e
    exact hη
  intro A hA H hH R hR
  set bet : U → ℝ := fun u => Bt.bet ⟨n.tau1 + ∑ e, A e, n.tau0 + ∑ e, (1 - A e)⟩ u with hbet
  set gam : (Pair K → ℝ) → U → ℝ := fun W u => G.gam ⟨n.alpha + (∑ e, A e) * n.kappa, 1 / (n.beta + ∑ e, if 0 < A e then W e else 0)⟩ u with hgam
  have hif : ∀ W : Pair K → ℝ, (∑ e, if 0 < A e then W e else 0) = ∑ e, A e * W e := fun W => sum_congr rfl fun e _ => by
    rcases hA e with h | h <;> rw [h] <;> simp
  have hgam' : ∀ W u, gam W u = G.gam ⟨n.alpha + (∑ e, A e) * n.kappa, 1 / (n.beta + ∑ e, A e * W e)⟩ u := fun W u => by rw [hgam]; dsimp only; rw [hif]
  have mbet : Measurable bet := Bt.bet_meas.comp (f := fun u => ((n.tau1 + ∑ e, A e, n.tau0 + ∑ e, (1 - A e)), u)) (by fun_prop)
  have mgam : Measurable fun x : (Pair K → ℝ) × U => gam x.1 x.2 := by
    simp only [hgam']
    exact G.gam_meas.comp (f := fun x : (Pair K → ℝ) × U => ((n.alpha + (∑ e, A e) * n.kappa, 1 / (n.beta + ∑ e, A e * x.1 e)), x.2)) (by fun_prop)
  set pA : ℝ → ENNReal := fun p => ∏ e, edgePmf p (A e) with hpA
  have mA : Measurable pA := Finset.measurable_prod _ fun e _ => measurable_edgePmf.comp (f := fun p => (p, A e)) (by fun_prop)
  set pW : ℝ → (Pair K → ℝ) → ENNReal := fun v W => ∏ e, gammaPDF n.kappa v (W e) with hpW
  have mW : Measurable fun x : ℝ × (Pair K → ℝ) => pW x.1 x.2 :=
    Finset.measurable_prod _ fun e _ => (measurable_gammaPDF' n.kappa).comp (f := fun x : ℝ × (Pair K → ℝ) => (x.1, x.2 e)) (by fun_prop)
  have mH : Measurable fun W : Pair K → ℝ => H (fun e => A e * W e) := hH.comp (by fun_prop)
  -- what is left after integrating over scale and weights, the edge probability given
  set g : ℝ → ENNReal := fun p => ∫⁻ v, ∫⁻ W, pW v W * (H (fun e => A e * W e) * R (p, v)) ∂Measure.pi (fun _ => volume) ∂gammaMeasure n.alpha n.beta with hg
  have mk : Measurable fun x : (ℝ × ℝ) × (Pair K → ℝ) => pW x.1.2 x.2 * (H (fun e => A e * x.2 e) * R (x.1.1, x.1.2)) :=
    (mW.comp (f := fun x : (ℝ × ℝ) × (Pair K → ℝ) => (x.1.2, x.2)) (by fun_prop)).mul ((mH.comp measurable_snd).mul (hR.comp (f := fun x : (ℝ × ℝ) × (Pair K → ℝ) => (x.1.1, x.1.2)) (by fun_prop)))
  have mk2 : Measurable fun x : ℝ × ℝ => ∫⁻ W, pW x.2 W * (H (fun e => A e * W e) * R (x.1, x.2)) ∂Measure.pi (fun _ : Pair K => volume) := mk.lintegral_prod_right'
  have mg : Measurable g := mk2.lintegral_prod_right'
  have hbs : BayesStep (betaMeasure n.tau1 n.tau0) pA μ bet := by
    have hS : 0 ≤ ∑ e, A e := sum_nonneg fun e _ => by rcases hA e with h | h <;> rw [h] <;> norm_num
    have hS' : 0 ≤ ∑ e, (1 - A e) := sum_nonneg fun e _ => by rcases hA e with h | h <;> rw [h] <;> norm_num
    have e := betaLaw_conj h.t1 h.t0 hA
    have e' : μ.map bet = betaMeasure (n.tau1 + ∑ e, A e) (n.tau0 + ∑ e, (1 - A e)) :=
      Bt.bet_law ⟨_, _⟩ (add_pos_of_pos_of_nonneg h.t1 hS) (add_pos_of_pos_of_nonneg h.t0 hS')
    rw [← e'] at e
    exact BayesStep.of_eq mbet ENNReal.ofReal_ne_top e
  -- the right side
  have hright : ∫⁻ η, ∫⁻ W, (blockNet G Bt K n).dens η A W * (H (fun e => A e * W e) * R η) ∂Measure.pi (fun _ => volume) ∂(blockNet G Bt K n).ν = ∫⁻ p, pA p * g p ∂betaMeasure n.tau1 n.tau0 := by
    change ∫⁻ η : ℝ × ℝ, ∫⁻ W, pA η.1 * pW η.2 W * (H (fun e => A e * W e) * R η) ∂Measure.pi (fun _ => volume) ∂((betaMeasure n.tau1 n.tau0).prod (gammaMeasure n.alpha n.beta)) = _
    have e1 : ∀ η : ℝ × ℝ, ∫⁻ W, pA η.1 * pW η.2 W * (H (fun e => A e * W e) * R η) ∂Measure.pi (fun _ => volume) =
        pA η.1 * ∫⁻ W, pW η.2 W * (H (fun e => A e * W e) * R η) ∂Measure.pi (fun _ => volume) := by
      intro η
      have m1 : Measurable fun W : Pair K → ℝ => pW η.2 W * (H (fun e => A e * W e) * R η) := mk.comp (f := fun W => (η, W)) (by fun_prop)
      rw [← lintegral_const_mul _ m1]
      exact lintegral_congr fun W => by ring
    rw [lintegral_congr e1]
    have m2 : Measurable fun η : ℝ × ℝ => pA η.1 * ∫⁻ W, pW η.2 W * (H (fun e => A e * W e) * R η) ∂Measure.pi (fun _ : Pair K => volume) := (mA.comp measurable_fst).mul mk2
    rw [lintegral_prod _ m2.aemeasurable]
    refine lintegral_congr fun p => ?_
    have m3 : Measurable fun v : ℝ => ∫⁻ W, pW v W * (H (fun e => A e * W e) * R (p, v)) ∂Measure.pi (fun _ : Pair K => volume) := mk2.comp (f := fun v => (p, v)) (by fun_prop)
    exact lintegral_const_mul (pA p) m3
  rw [hright, hbs.lintegral mA mbet mg]
  -- the left side
  change ∫⁻ η : ℝ × ℝ, ∫⁻ W, pA η.1 * pW η.2 W * (H (fun e => A e * W e) * ∫⁻ u, R (bet u.1, gam W u.2) ∂μ.prod μ) ∂Measure.pi (fun _ => volume) ∂((betaMeasure n.tau1 n.tau0).prod (gammaMeasure n.alpha n.beta)) = _
  have mRu : Measurable fun x : (Pair K → ℝ) × (U × U) => R (bet x.2.1, gam x.1 x.2.2) := hR.comp ((mbet.comp (by fun_prop)).prodMk (mgam.comp (f := fun x : (Pair K → ℝ) × (U × U) => (x.1, x.2.2)) (by fun_prop)))
  have mI : Measurable fun W : Pair K → ℝ => ∫⁻ u, R (bet u.1, gam W u.2) ∂μ.prod μ := mRu.lintegral_prod_right'
  have mJ : Measurable fun x : ℝ × (Pair K → ℝ) => pW x.1 x.2 * (H (fun e => A e * x.2 e) * ∫⁻ u, R (bet u.1, gam x.2 u.2) ∂μ.prod μ) := mW.mul ((mH.comp measurable_snd).mul (mI.comp measurable_snd))
  have mJ2 : Measurable fun v : ℝ => ∫⁻ W, pW v W * (H (fun e => A e * W e) * ∫⁻ u, R (bet u.1, gam W u.2) ∂μ.prod μ) ∂Measure.pi (fun _ : Pair K => volume) := mJ.lintegral_prod_right'
  have e1 : ∀ η : ℝ × ℝ, ∫⁻ W, pA η.1 * pW η.2 W * (H (fun e => A e * W e) * ∫⁻ u, R (bet u.1, gam W u.2) ∂μ.prod μ) ∂Measure.pi (fun _ => volume) =
      pA η.1 * ∫⁻ W, pW η.2 W * (H (fun e => A e * W e) * ∫⁻ u, R (bet u.1, gam W u.2) ∂μ.prod μ) ∂Measure.pi (fun _ => volume) := by
    intro η
    have m1 : Measurable fun W : Pair K → ℝ => pW η.2 W * (H (fun e => A e * W e) * ∫⁻ u, R (bet u.1, gam W u.2) ∂μ.prod μ) := mJ.comp (f := fun W => (η.2, W)) (by fun_prop)
    rw [← lintegral_const_mul _ m1]
    exact lintegral_congr fun W => by ring
  have m2 : Measurable fun η : ℝ × ℝ => pA η.1 * ∫⁻ W, pW η.2 W * (H (fun e => A e * W e) * ∫⁻ u, R (bet u.1, gam W u.2) ∂μ.prod μ) ∂Measure.pi (fun _ : Pair K => volume) :=
    (mA.comp measurable_fst).mul (mJ2.comp measurable_snd)
  rw [lintegral_congr e1, lintegral_prod _ m2.aemeasurable]
  have e2 : ∀ p, ∫⁻ v, pA p * ∫⁻ W, pW v W * (H (fun e => A e * W e) * ∫⁻ u, R (bet u.1, gam W u.2) ∂μ.prod μ) ∂Measure.pi (fun _ : Pair K => volume) ∂gammaMeasure n.alpha n.beta =
      pA p * ∫⁻ v, ∫⁻ W, pW v W * (H (fun e => A e * W e) * ∫⁻ u, R (bet u.1, gam W u.2) ∂μ.prod μ) ∂Measure.pi (fun _ : Pair K => volume) ∂gammaMeasure n.alpha n.beta := fun p =>
    lintegral_const_mul _ mJ2
  rw [lintegral_congr e2, lintegral_mul_const _ mA]
  congr 1
  -- exchange the integrals over the seed of the edge probability and over scale and weights
  have mRW : ∀ W : Pair K → ℝ, Measurable fun u : U × U => R (bet u.1, gam W u.2) := fun W => mRu.comp (f := fun u => (W, u)) (by fun_prop)
  have mIn : Measurable fun x : (Pair K → ℝ) × U => ∫⁻ u2, R (bet x.2, gam x.1 u2) ∂μ := by
    have : Measurable fun y : ((Pair K → ℝ) × U) × U => R (bet y.1.2, gam y.1.1 y.2) := mRu.comp (f := fun y : ((Pair K → ℝ) × U) × U => (y.1.1, (y.1.2, y.2))) (by fun_prop)
    exact this.lintegral_prod_right'
  have mInt : Measurable fun x : (ℝ × (Pair K → ℝ)) × U => pW x.1.1 x.1.2 * (H (fun e => A e * x.1.2 e) * ∫⁻ u2, R (bet x.2, gam x.1.2 u2) ∂μ) :=
    (mW.comp measurable_fst).mul ((mH.comp (f := fun x : (ℝ × (Pair K → ℝ)) × U => x.1.2) (by fun_prop)).mul (mIn.comp (f := fun x : (ℝ × (Pair K → ℝ)) × U => (x.1.2, x.2)) (by fun_prop)))
  have e3 : ∀ v (W : Pair K → ℝ), pW v W * (H (fun e => A e * W e) * ∫⁻ u, R (bet u.1, gam W u.2) ∂μ.prod μ) = ∫⁻ u1, pW v W * (H (fun e => A e * W e) * ∫⁻ u2, R (bet u1, gam W u2) ∂μ) ∂μ := by
    intro v W
    have mi : Measurable fun u1 : U => ∫⁻ u2, R (bet u1, gam W u2) ∂μ := mIn.comp (f := fun u1 => (W, u1)) (by fun_prop)
    rw [lintegral_prod _ (mRW W).aemeasurable, lintegral_const_mul _ (mi.const_mul _), lintegral_const_mul _ mi]
  simp only [e3]
  have mS : Measurable fun x : ℝ × (Pair K → ℝ) => ∫⁻ u1, pW x.1 x.2 * (H (fun e => A e * x.2 e) * ∫⁻ u2, R (bet u1, gam x.2 u2) ∂μ) ∂μ := mInt.lintegral_prod_right'
  rw [← lintegral_prod (μ := gammaMeasure n.alpha n.beta) (ν := Measure.pi fun _ : Pair K => volume)
    (fun x => ∫⁻ u1, pW x.1 x.2 * (H (fun e => A e * x.2 e) * ∫⁻ u2, R (bet u1, gam x.2 u2) ∂μ) ∂μ) mS.aemeasurable, lintegral_lintegral_swap mInt.aemeasurable]
  refine lintegral_congr fun u1 => ?_
  have mS1 : Measurable fun x : ℝ × (Pair K → ℝ) => pW x.1 x.2 * (H (fun e => A e * x.2 e) * ∫⁻ u2, R (bet u1, gam x.2 u2) ∂μ) := mInt.comp (f := fun x => (x, u1)) (by fun_prop)
  rw [lintegral_prod _ mS1.aemeasurable, hg]
  simp only [hgam']
  exact scale_invariant G A h.k h.a h.b hA hH (R := fun v => R (bet u1, v)) (hR.comp (by fun_prop))

end

end PyHawkes
