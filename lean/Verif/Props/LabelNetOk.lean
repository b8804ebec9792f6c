import Verif.Props.LabelInvariant

/-!
# The network with several blocks meets the conditions of `NetSystem` and `NetErgodic` (used for C96)
-/
set_option linter.unusedSectionVars false
set_option linter.unusedVariables false

namespace PyHawkes
open Finset Spec MeasureTheory ProbabilityTheory

section
variable {ι : Type*} [Fintype ι] {κ : ℝ}

theorem weights_masked' (A : ι → ℝ) (hκ : 0 < κ) {s : ι → ℝ} (hs : ∀ e, 0 < s e) {H : (ι → ℝ) → ENNReal} (hH : Measurable H) :
    ∫⁻ W : ι → ℝ, (∏ e, gammaPDF κ (s e) (W e)) * H (fun e => A e * W e) ∂Measure.pi (fun _ => volume) = ∫⁻ w, H w ∂Measure.pi fun e => maskLaw κ (s e) (A e) := by
  have hm : ∀ e, Measurable (gammaPDF κ (s e)) := fun e => (measurable_gammaPDFReal κ (s e)).ennreal_ofReal
  have hP := fun e => isProbabilityMeasure_gammaMeasure hκ (hs e)
  have hP' : ∀ e, IsProbabilityMeasure ((volume : Measure ℝ).withDensity (gammaPDF κ (s e))) := hP
  have hP'' : ∀ e, IsProbabilityMeasure ((gammaMeasure κ (s e)).map fun w => A e * w) := fun e => maskLaw_prob hκ (hs e)
  have h1 := pi_withDensity' (fun _ : ι => (volume : Measure ℝ)) (fun e => gammaPDF κ (s e)) hm
  have hmH : Measurable fun W : ι → ℝ => H fun e => A e * W e := hH.comp (by fun_prop)
  have hmp : Measurable fun W : ι → ℝ => ∏ e, gammaPDF κ (s e) (W e) := Finset.measurable_prod _ fun e _ => (hm e).comp (measurable_pi_apply e)
  have h2 := lintegral_withDensity_eq_lintegral_mul (Measure.pi fun _ : ι => (volume : Measure ℝ)) hmp hmH
  simp only [Pi.mul_apply] at h2
  rw [← h2, ← h1]
  unfold maskLaw
  rw [← Measure.pi_map_pi (μ := fun e => gammaMeasure κ (s e)) (f := fun e w => A e * w) (fun e => by fun_prop), lintegral_map hH (by fun_prop)]
  rfl

end

section
variable {U : Type*} [MeasurableSpace U] {μ : Measure U} (G : Generator μ) (Ls : LabelSampler μ) (huge : ℝ) {K : ℕ} {n : SBM} (hC : 0 < n.C)

/-- the update only looks at the weights of present edges -/
theorem label_step_masked {A : Pair K → ℝ} (hA : ∀ e, A e = 0 ∨ A e = 1) (W : Pair K → ℝ) (u : (Pair n.C → U) × (Fin K → U) × U) (η : NetLabels K n.C) :
    (labelNet G Ls huge n hC K).step u η A W = (labelNet G Ls huge n hC K).step u η A fun e => A e * W e := by
  have h1 : ∀ c : Fin K → Fin n.C, labScale G n A W c u.1 = labScale G n A (fun e => A e * W e) c u.1 := fun c => by
    funext a
    unfold labScale
    congr 4
    refine sum_congr rfl fun e _ => ?_
    rcases hA e with h | h <;> simp [h]
  have h2 : ∀ v m, (labLp huge n v m A W : (Fin K → Fin n.C) → Fin K → Vec ℝ) = labLp huge n v m A fun e => A e * W e := fun v m => by
    funext c k b
    unfold labLp
    split_ifs with h
    · congr 1
      · congr 1
        refine sum_congr rfl fun j _ => ?_
        rcases hA (k, j) with h | h <;> simp [h]
      · refine sum_congr rfl fun j _ => ?_
        rcases hA (j, k) with h | h <;> simp [h]
    · rfl
  change (labScale G n A W η.2.1 u.1, labNew Ls huge n hC (labScale G n A W η.2.1 u.1) η.2.2 A W η.2.1 u.2.1, _) = _
  unfold labNew
  rw [h1, h2]
  rfl

/-- prior of the labels and weights of the present edges, integrated against `X` -/
noncomputable def labInt (n : SBM) (A w : Pair K → ℝ) (X : NetLabels K n.C → ENNReal) : ENNReal :=
  ∫⁻ η, ENNReal.ofReal (Real.exp (labPhi n A w η.1 η.2.1)) * X η ∂labelPrior K n

variable (hn : SbmOk K n)

theorem labPhi_meas_net (n : SBM) (A w : Pair K → ℝ) : Measurable fun η : NetLabels K n.C => ENNReal.ofReal (Real.exp (labPhi n A w η.1 η.2.1)) :=
  ((labPhi_meas' n).comp (f := fun η : NetLabels K n.C => ((η.1, η.2.1), (A, w))) (by fun_prop)).exp.ennreal_ofReal

include hn in
theorem labInt_eq (A w : Pair K → ℝ) {X : NetLabels K n.C → ENNReal} (hX : Measurable X) :
    labInt n A w X = ∫⁻ v, ∑ c : Fin K → Fin n.C, ∫⁻ m, (∏ k, ENNReal.ofReal (m (c k))) * (ENNReal.ofReal (Real.exp (labPhi n A w v c)) * X (v, c, m)) ∂dirichletLaw n.C n.pi
      ∂Measure.pi fun _ => gammaMeasure n.alpha n.beta := by
  obtain ⟨-, -, ha, hb, hk, hpi⟩ := hn.hyper
  exact labelPrior_lintegral n ha hb hpi ((labPhi_meas_net n A w).mul hX)

theorem lab_integrand_meas (n : SBM) (A w : Pair K → ℝ) {X : NetLabels K n.C → ENNReal} (hX : Measurable X) (c : Fin K → Fin n.C) :
    Measurable fun y : (Pair n.C → ℝ) × Vec ℝ => (∏ k, ENNReal.ofReal (y.2 (c k))) * (ENNReal.ofReal (Real.exp (labPhi n A w y.1 c)) * X (y.1, c, y.2)) := by
  have h1 : Measurable fun y : (Pair n.C → ℝ) × Vec ℝ => labPhi n A w y.1 c := (labPhi_meas n A w c).comp measurable_fst
  have h2 : Measurable fun y : (Pair n.C → ℝ) × Vec ℝ => X (y.1, c, y.2) := hX.comp (by fun_prop)
  have h3 : Measurable fun y : (Pair n.C → ℝ) × Vec ℝ => ∏ k, ENNReal.ofReal (y.2 (c k)) := by fun_prop
  exact h3.mul (h1.exp.ennreal_ofReal.mul h2)

include hn hC in
/-- **Given the edges and the weights of the present edges, the network update leaves the distribution of scales, labels and block probabilities invariant.** -/
theorem label_core {A w : Pair K → ℝ} (hA : ∀ e, A e = 0 ∨ A e = 1) (hd : ∀ k, A (k, k) = 0) (hw : ∀ e, 0 ≤ w e) {R : NetLabels K n.C → ENNReal} (hR : Measurable R) :
    labInt n A w (fun η => ∫⁻ u, R ((labelNet G Ls huge n hC K).step u η A w) ∂(labelNet G Ls huge n hC K).μV) = labInt n A w R := by
  obtain ⟨-, -, ha, hb, hk, hpi⟩ := hn.hyper
  have hμ := gen_prob G
  have hγ := isProbabilityMeasure_gammaMeasure ha hb
  have hD := dirichlet_prob (B := n.C) (v := n.pi) hpi
  -- integrate out the seeds one after the other
  set X2 : NetLabels K n.C → ENNReal := fun η => ∫⁻ u, R (η.1, η.2.1, labBlocks G n η.2.1 u) ∂μ with hX2
  set X1 : NetLabels K n.C → ENNReal := fun η => ∫⁻ u, X2 (η.1, labNew Ls huge n hC η.1 η.2.2 A w η.2.1 u, η.2.2) ∂Measure.pi (fun _ => μ) with hX1
  set X0 : NetLabels K n.C → ENNReal := fun η => ∫⁻ u, X1 (labScale G n A w η.2.1 u, η.2) ∂Measure.pi (fun _ => μ) with hX0
  have mb : Measurable fun y : NetLabels K n.C × U => labBlocks G n y.1.2.1 y.2 := (labBlocks_meas G n).comp (f := fun y : NetLabels K n.C × U => (y.1.2.1, y.2)) (by fun_prop)
  have mX2 : Measurable X2 := Measurable.lintegral_prod_right' (f := fun y : NetLabels K n.C × U => R (y.1.1, y.1.2.1, labBlocks G n y.1.2.1 y.2)) (hR.comp (by fun_prop))
  have mc : Measurable fun y : NetLabels K n.C × (Fin K → U) => labNew Ls huge n hC y.1.1 y.1.2.2 A w y.1.2.1 y.2 :=
    (labNew_meas Ls huge n hC).comp (f := fun y : NetLabels K n.C × (Fin K → U) => ((y.1.1, y.1.2.2, A, w), y.2, y.1.2.1)) (by fun_prop)
  have mX1 : Measurable X1 := Measurable.lintegral_prod_right' (f := fun y : NetLabels K n.C × (Fin K → U) => X2 (y.1.1, labNew Ls huge n hC y.1.1 y.1.2.2 A w y.1.2.1 y.2, y.1.2.2))
    (mX2.comp (by fun_prop))
  have mv : Measurable fun y : NetLabels K n.C × (Pair n.C → U) => labScale G n A w y.1.2.1 y.2 :=
    (labScale_meas G n).comp (f := fun y : NetLabels K n.C × (Pair n.C → U) => (A, w, y.1.2.1, y.2)) (by fun_prop)
  have mX0 : Measurable X0 := Measurable.lintegral_prod_right' (f := fun y : NetLabels K n.C × (Pair n.C → U) => X1 (labScale G n A w y.1.2.1 y.2, y.1.2)) (mX1.comp (by fun_prop))
  have e0 : (fun η => ∫⁻ u, R ((labelNet G Ls huge n hC K).step u η A w) ∂(labelNet G Ls huge n hC K).μV) = X0 := by
    funext η
    have m0 : Measurable fun u : (Pair n.C → U) × (Fin K → U) × U => R ((labelNet G Ls huge n hC K).step u η A w) :=
      hR.comp ((labelNet_step_meas G Ls huge n hC).comp (f := fun u => (u, η, A, w)) (by fun_prop))
    change ∫⁻ u, R ((labelNet G Ls huge n hC K).step u η A w) ∂((Measure.pi fun _ => μ).prod ((Measure.pi fun _ => μ).prod μ)) = _
    rw [lintegral_prod _ m0.aemeasurable]
    refine lintegral_congr fun u1 => ?_
    have m1 : Measurable fun u : (Fin K → U) × U => R ((labelNet G Ls huge n hC K).step (u1, u) η A w) := m0.comp (f := fun u => (u1, u)) (by fun_prop)
    rw [lintegral_prod _ m1.aemeasurable]
    rfl
  have s1 : labInt n A w X0 = labInt n A w X1 := by
    rw [labInt_eq hn A w mX0, labInt_eq hn A w mX1, lintegral_finsetSum, lintegral_finsetSum]
    · refine sum_congr rfl fun c _ => ?_
      refine (lintegral_lintegral_swap (lab_integrand_meas n A w mX0 c).aemeasurable).trans (Eq.trans ?_ (lintegral_lintegral_swap (lab_integrand_meas n A w mX1 c).aemeasurable).symm)
      refine lintegral_congr fun m => ?_
      have mR : Measurable fun v => X1 (v, c, m) := mX1.comp (by fun_prop)
      have st := labScale_step G n ha hb hk hA hw c mR
      have mphi := labPhi_meas n A w c
      have mp : Measurable fun v => ENNReal.ofReal (Real.exp (labPhi n A w v c)) := mphi.exp.ennreal_ofReal
      have ma : Measurable fun v => ENNReal.ofReal (Real.exp (labPhi n A w v c)) * X0 (v, c, m) := mp.mul (mX0.comp (f := fun v => (v, c, m)) (by fun_prop))
      have mb' : Measurable fun v => ENNReal.ofReal (Real.exp (labPhi n A w v c)) * X1 (v, c, m) := mp.mul mR
      rw [lintegral_const_mul _ ma, lintegral_const_mul _ mb', ← st]
    · exact fun c _ => (lab_integrand_meas n A w mX1 c).lintegral_prod_right'
    · exact fun c _ => (lab_integrand_meas n A w mX0 c).lintegral_prod_right'
  have s2 : labInt n A w X1 = labInt n A w X2 := by
    rw [labInt_eq hn A w mX1, labInt_eq hn A w mX2]
    refine lintegral_congr fun v => ?_
    have mi : ∀ {X : NetLabels K n.C → ENNReal}, Measurable X → ∀ c : Fin K → Fin n.C, Measurable fun m : Vec ℝ =>
        (∏ k, ENNReal.ofReal (m (c k))) * (ENNReal.ofReal (Real.exp (labPhi n A w v c)) * X (v, c, m)) := fun hX c => (lab_integrand_meas n A w hX c).comp (f := fun m => (v, m)) (by fun_prop)
    rw [← lintegral_finsetSum _ fun c _ => mi mX1 c, ← lintegral_finsetSum _ fun c _ => mi mX2 c]
    refine lintegral_congr_ae ?_
    filter_upwards [dirichlet_simplex (v := n.pi) hpi hC] with m hm
    have := labNew_step Ls huge n hC (w := w) hd (v := v) hm.1 fun c => X2 (v, c, m)
    exact this
  have s3 : labInt n A w X2 = labInt n A w R := by
    rw [labInt_eq hn A w mX2, labInt_eq hn A w hR]
    refine lintegral_congr fun v => sum_congr rfl fun c _ => ?_
    have mR : Measurable fun m => R (v, c, m) := hR.comp (by fun_prop)
    have st := labBlocks_step G n hC hpi c mR
    have e : ∀ (x y z : ENNReal), x * (y * z) = y * (x * z) := fun x y z => by ring
    simp only [e _ (ENNReal.ofReal (Real.exp (labPhi n A w v c)))]
    have mp : Measurable fun m : Vec ℝ => ∏ k, ENNReal.ofReal (m (c k)) := by fun_prop
    have ma : Measurable fun m : Vec ℝ => (∏ k, ENNReal.ofReal (m (c k))) * R (v, c, m) := mp.mul mR
    have mb' : Measurable fun m : Vec ℝ => (∏ k, ENNReal.ofReal (m (c k))) * X2 (v, c, m) := mp.mul (mX2.comp (f := fun m => (v, c, m)) (by fun_prop))
    rw [lintegral_const_mul _ ma, lintegral_const_mul _ mb', ← st]
  rw [e0, s1, s2, s3]

/-- density of the weights of the present edges with respect to scale 1 -/
theorem label_masked (hk : 0 < n.kappa) {A : Pair K → ℝ} (hA : ∀ e, A e = 0 ∨ A e = 1) {η : NetLabels K n.C} (hη : ∀ a, 0 < η.1 a) {Q : (Pair K → ℝ) → ENNReal} (hQ : Measurable Q) :
    ∫⁻ W, (∏ e, gammaPDF n.kappa (labelV η e) (W e)) * Q (fun e => A e * W e) ∂Measure.pi (fun _ => volume)
      = ∫⁻ w, ENNReal.ofReal (Real.exp (labPhi n A w η.1 η.2.1)) * (ENNReal.ofReal (Real.exp (∑ e, A e * w e)) * Q w) ∂Measure.pi fun e => maskLaw n.kappa 1 (A e) := by
  have hs : ∀ e, 0 < labelV η e := fun e => hη _
  have hP1 : ∀ e, IsProbabilityMeasure (maskLaw n.kappa 1 (A e)) := fun e => maskLaw_prob hk one_pos
  rw [weights_masked' A hk hs hQ]
  have e1 : (fun e => maskLaw n.kappa (labelV η e) (A e)) = fun e => (maskLaw n.kappa 1 (A e)).withDensity fun w =>
      ENNReal.ofReal (labelV η e ^ (A e * n.kappa) * Real.exp (-((labelV η e - 1) * (A e * w)))) := by
    funext e; exact maskLaw_tilt hk (hs e) (hA e)
  have hPv' : ∀ e, IsProbabilityMeasure ((maskLaw n.kappa 1 (A e)).withDensity fun w => ENNReal.ofReal (labelV η e ^ (A e * n.kappa) * Real.exp (-((labelV η e - 1) * (A e * w))))) := fun e => by
    rw [← maskLaw_tilt hk (hs e) (hA e)]; exact maskLaw_prob hk (hs e)
  rw [e1, pi_withDensity' _ _ (fun e => by fun_prop), lintegral_withDensity_eq_lintegral_mul _ (by fun_prop) hQ]
  refine lintegral_congr fun w => ?_
  rw [Pi.mul_apply, ← mul_assoc]
  congr 1
  have hn0 : ∀ e ∈ (univ : Finset (Pair K)), 0 ≤ labelV η e ^ (A e * n.kappa) * Real.exp (-((labelV η e - 1) * (A e * w e))) := fun e _ => mul_nonneg (Real.rpow_nonneg (hs e).le _) (Real.exp_pos _).le
  rw [← ENNReal.ofReal_prod_of_nonneg hn0, ← ENNReal.ofReal_mul (Real.exp_pos _).le]
  congr 1
  have e2 : ∀ e, labelV η e ^ (A e * n.kappa) * Real.exp (-((labelV η e - 1) * (A e * w e))) = Real.exp (A e * (n.kappa * Real.log (labelV η e) - labelV η e * w e) + A e * w e) := fun e => by
    rw [Real.rpow_def_of_pos (hs e), ← Real.exp_add]
    congr 1; ring
  simp only [e2]
  rw [← Real.exp_sum, ← Real.exp_add, sum_add_distrib]
  rfl

include hn in
theorem labelNet_ok (hp0 : 0 ≤ n.p 0 0) (hp1 : n.p 0 0 ≤ 1) : (labelNet G Ls huge n hC K).Ok := by
  obtain ⟨-, -, ha, hb, hk, hpi⟩ := hn.hyper
  have hμ := gen_prob G
  have hν := labelPrior_prob (K := K) n hC ha hb hpi
  have hpos := labelPrior_pos (K := K) n hC ha hb hpi
  refine ⟨hk, hν, by unfold labelNet; infer_instance, ?_, ?_, ?_, ?_, labelNet_step_meas G Ls huge n hC, ?_⟩
  · exact measurable_const
  · refine measurable_pi_iff.2 fun e => ?_
    change Measurable fun η : NetLabels K n.C => labelV η e
    have : Measurable fun y : (Fin K → Fin n.C) × (Pair n.C → ℝ) => y.2 (y.1 e.1, y.1 e.2) := measurable_from_prod_countable_right fun c => by
      change Measurable fun y : Pair n.C → ℝ => y (c e.1, c e.2)
      exact measurable_pi_apply _
    exact this.comp (f := fun η : NetLabels K n.C => (η.2.1, η.1)) (by fun_prop)
  · refine Filter.Eventually.of_forall fun η e => ?_
    change 0 ≤ labelP n e ∧ labelP n e ≤ 1
    unfold labelP
    split_ifs
    exacts [⟨le_rfl, zero_le_one⟩, ⟨hp0, hp1⟩]
  · filter_upwards [hpos] with η hη e using hη.1 _
  intro A hA H hH R hR
  set Q := labelNet G Ls huge n hC K with hQ
  set pA : ENNReal := ∏ e, edgePmf (labelP n e) (A e) with hpA
  have hdens : ∀ η W, Q.dens η A W = pA * ∏ e, gammaPDF n.kappa (labelV η e) (W e) := fun _ _ => rfl
  by_cases hd : ∀ k, A (k, k) = 0
  swap
  · push Not at hd
    obtain ⟨k, hk0⟩ := hd
    have hz : pA = 0 := by
      refine prod_eq_zero (mem_univ (k, k)) ?_
      unfold edgePmf labelP
      rw [(hA (k, k)).resolve_left hk0]
      simp
    simp only [hdens, hz, zero_mul, lintegral_zero]
  -- the weights of the absent edges integrated out
  have mstep : Measurable fun x : ((Pair n.C → U) × (Fin K → U) × U) × NetLabels K n.C × (Pair K → ℝ) => R (Q.step x.1 x.2.1 A x.2.2) :=
    hR.comp ((labelNet_step_meas G Ls huge n hC).comp (f := fun x : ((Pair n.C → U) × (Fin K → U) × U) × NetLabels K n.C × (Pair K → ℝ) => (x.1, x.2.1, A, x.2.2)) (by fun_prop))
  have hV : SFinite Q.μV := by rw [hQ]; unfold labelNet; infer_instance
  have mRu : Measurable fun y : NetLabels K n.C × (Pair K → ℝ) => ∫⁻ u, R (Q.step u y.1 A y.2) ∂Q.μV :=
    Measurable.lintegral_prod_right' (f := fun z : (NetLabels K n.C × (Pair K → ℝ)) × ((Pair n.C → U) × (Fin K → U) × U) => R (Q.step z.2 z.1.1 A z.1.2))
      (mstep.comp (f := fun z : (NetLabels K n.C × (Pair K → ℝ)) × ((Pair n.C → U) × (Fin K → U) × U) => (z.2, z.1.1, z.1.2)) (by fun_prop))
  have mE : Measurable fun w : Pair K → ℝ => ENNReal.ofReal (Real.exp (∑ e, A e * w e)) := by fun_prop
  have mPhi : Measurable fun y : NetLabels K n.C × (Pair K → ℝ) => ENNReal.ofReal (Real.exp (labPhi n A y.2 y.1.1 y.1.2.1)) :=
    ((labPhi_meas' n).comp (f := fun y : NetLabels K n.C × (Pair K → ℝ) => ((y.1.1, y.1.2.1), (A, y.2))) (by fun_prop)).exp.ennreal_ofReal
  have hP1 : ∀ e, IsProbabilityMeasure (maskLaw n.kappa 1 (A e)) := fun e => maskLaw_prob hk one_pos
  have key : ∀ X : NetLabels K n.C × (Pair K → ℝ) → ENNReal, Measurable X →
      ∫⁻ η, ∫⁻ W, Q.dens η A W * (H (fun e => A e * W e) * X (η, fun e => A e * W e)) ∂Measure.pi (fun _ => volume) ∂Q.ν
        = pA * ∫⁻ w, (ENNReal.ofReal (Real.exp (∑ e, A e * w e)) * H w) * labInt n A w (fun η => X (η, w)) ∂Measure.pi fun e => maskLaw n.kappa 1 (A e) := by
    intro X hX
    have e1 : ∀ᵐ η ∂Q.ν, ∫⁻ W, Q.dens η A W * (H (fun e => A e * W e) * X (η, fun e => A e * W e)) ∂Measure.pi (fun _ => volume)
        = ∫⁻ w, pA * (ENNReal.ofReal (Real.exp (labPhi n A w η.1 η.2.1)) * (ENNReal.ofReal (Real.exp (∑ e, A e * w e)) * (H w * X (η, w)))) ∂Measure.pi fun e => maskLaw n.kappa 1 (A e) := by
      filter_upwards [hpos] with η hη
      have mQ : Measurable fun w : Pair K → ℝ => H w * X (η, w) := hH.mul (hX.comp (by fun_prop))
      have := label_masked (n := n) hk hA hη.1 mQ
      have m1 : Measurable fun w : Pair K → ℝ => ENNReal.ofReal (Real.exp (labPhi n A w η.1 η.2.1)) * (ENNReal.ofReal (Real.exp (∑ e, A e * w e)) * (H w * X (η, w))) :=
        (mPhi.comp (f := fun w => (η, w)) (by fun_prop)).mul (mE.mul mQ)
      rw [lintegral_const_mul _ m1, ← this]
      have m2 : Measurable fun W : Pair K → ℝ => (∏ e, gammaPDF n.kappa (labelV η e) (W e)) * (H (fun e => A e * W e) * X (η, fun e => A e * W e)) :=
        (Finset.measurable_prod _ fun e _ => (show Measurable (gammaPDF n.kappa (labelV η e)) from (measurable_gammaPDFReal _ _).ennreal_ofReal).comp (measurable_pi_apply e)).mul
          (mQ.comp (f := fun W : Pair K → ℝ => fun e => A e * W e) (by fun_prop))
      rw [← lintegral_const_mul _ m2]
      exact lintegral_congr fun W => by rw [hdens, mul_assoc]
    rw [lintegral_congr_ae e1]
    have mm : Measurable fun y : NetLabels K n.C × (Pair K → ℝ) =>
        pA * (ENNReal.ofReal (Real.exp (labPhi n A y.2 y.1.1 y.1.2.1)) * (ENNReal.ofReal (Real.exp (∑ e, A e * y.2 e)) * (H y.2 * X y))) :=
      (mPhi.mul ((mE.comp measurable_snd).mul ((hH.comp measurable_snd).mul hX))).const_mul _
    have hsf : SFinite Q.ν := by have : IsProbabilityMeasure Q.ν := hν; infer_instance
    rw [lintegral_lintegral_swap mm.aemeasurable]
    have mm2 : Measurable fun y : NetLabels K n.C × (Pair K → ℝ) => ENNReal.ofReal (Real.exp (labPhi n A y.2 y.1.1 y.1.2.1)) * X y := mPhi.mul hX
    have mI : Measurable fun w : Pair K → ℝ => labInt n A w fun η => X (η, w) := by
      unfold labInt
      exact Measurable.lintegral_prod_left' mm2
    have m3 : Measurable fun w : Pair K → ℝ => (ENNReal.ofReal (Real.exp (∑ e, A e * w e)) * H w) * labInt n A w fun η => X (η, w) := (mE.mul hH).mul mI
    rw [← lintegral_const_mul _ m3]
    refine lintegral_congr fun w => ?_
    have m4 : Measurable fun η : NetLabels K n.C => ENNReal.ofReal (Real.exp (labPhi n A w η.1 η.2.1)) * X (η, w) := mm2.comp (f := fun η => (η, w)) (by fun_prop)
    unfold labInt
    rw [← lintegral_const_mul _ m4, ← lintegral_const_mul _ (m4.const_mul _)]
    exact lintegral_congr fun η => by ring
  have eL := key (fun y => ∫⁻ u, R (Q.step u y.1 A y.2) ∂Q.μV) mRu
  have eR := key (fun y => R y.1) (hR.comp measurable_fst)
  have hmask : ∀ η W, ∫⁻ u, R (Q.step u η A W) ∂Q.μV = ∫⁻ u, R (Q.step u η A fun e => A e * W e) ∂Q.μV := fun η W =>
    lintegral_congr fun u => congrArg R (label_step_masked G Ls huge hC hA W u η)
  refine Eq.trans (lintegral_congr fun η => lintegral_congr fun W => by rw [hmask η W]) (eL.trans (Eq.trans ?_ eR.symm))
  congr 1
  refine lintegral_congr_ae ?_
  filter_upwards [pi_ae_all (fun e => maskLaw n.kappa 1 (A e)) (p := fun e w => 0 ≤ w) fun e => maskLaw_nonneg (hA e)] with w hw
  rw [label_core G Ls huge hC hn hA hd hw hR]

/-- **One network update reaches exactly the sets of positive prior probability.** -/
theorem labelNet_pos (hp0 : 0 ≤ n.p 0 0) (hp1 : n.p 0 0 ≤ 1) (hn : SbmOk K n) : (labelNet G Ls huge n hC K).Pos Set.univ := by
  obtain ⟨-, -, ha, hb, hk, hpi⟩ := hn.hyper
  have hμ := gen_prob G
  have hγ := isProbabilityMeasure_gammaMeasure ha hb
  have hD := dirichlet_prob (B := n.C) (v := n.pi) hpi
  refine ⟨MeasurableSet.univ, Filter.Eventually.of_forall fun _ => trivial, fun η _ A W hA hW => ?_⟩
  obtain ⟨v0, c0, m0⟩ := η
  set Q := labelNet G Ls huge n hC K with hQ
  have hA0 : ∀ e, 0 ≤ A e := fun e => by rcases hA e with h | h <;> rw [h] <;> norm_num
  have mstep : Measurable fun u => Q.step u (v0, c0, m0) A W := (labelNet_step_meas G Ls huge n hC).comp (f := fun u => (u, (v0, c0, m0), A, W)) (by fun_prop)
  -- law of the scales
  have hgpos : ∀ a : Pair n.C, 0 < n.alpha + (∑ e, if c0 e.1 = a.1 ∧ c0 e.2 = a.2 then A e else 0) * n.kappa := fun a =>
    add_pos_of_pos_of_nonneg ha (mul_nonneg (sum_nonneg fun e _ => by split_ifs; exacts [hA0 e, le_rfl]) hk.le)
  have hrpos : ∀ a : Pair n.C, 0 < n.beta + ∑ e, if c0 e.1 = a.1 ∧ c0 e.2 = a.2 then (if 0 < A e then W e else 0) else 0 := fun a =>
    add_pos_of_pos_of_nonneg hb (sum_nonneg fun e _ => by split_ifs; exacts [hW e, le_rfl, le_rfl])
  have mv : Measurable fun u => labScale G n A W c0 u := (labScale_meas G n).comp (f := fun u => (A, W, c0, u)) (by fun_prop)
  have lawv : (Measure.pi fun _ : Pair n.C => μ).map (fun u => labScale G n A W c0 u) = Measure.pi fun a => gammaMeasure (n.alpha + (∑ e, if c0 e.1 = a.1 ∧ c0 e.2 = a.2 then A e else 0) * n.kappa)
      (n.beta + ∑ e, if c0 e.1 = a.1 ∧ c0 e.2 = a.2 then (if 0 < A e then W e else 0) else 0) := by
    have hP : ∀ a : Pair n.C, IsProbabilityMeasure (μ.map (G.gam ⟨n.alpha + (∑ e, if c0 e.1 = a.1 ∧ c0 e.2 = a.2 then A e else 0) * n.kappa,
        1 / (n.beta + ∑ e, if c0 e.1 = a.1 ∧ c0 e.2 = a.2 then (if 0 < A e then W e else 0) else 0)⟩)) := fun a => Measure.isProbabilityMeasure_map (gam_measurable G _).aemeasurable
    have := Measure.pi_map_pi (μ := fun _ : Pair n.C => μ) (f := fun a => G.gam ⟨n.alpha + (∑ e, if c0 e.1 = a.1 ∧ c0 e.2 = a.2 then A e else 0) * n.kappa,
        1 / (n.beta + ∑ e, if c0 e.1 = a.1 ∧ c0 e.2 = a.2 then (if 0 < A e then W e else 0) else 0)⟩) fun a => (gam_measurable G _).aemeasurable
    unfold labScale
    rw [this]
    congr 1
    funext a
    rw [G.gam_law _ (hgpos a) (by dsimp only; exact one_div_pos.2 (hrpos a))]
    simp
  have hg2 := fun a => isProbabilityMeasure_gammaMeasure (hgpos a) (hrpos a)
  have iff0 : ∀ F : NetLabels K n.C → ENNReal, Measurable F → (∫⁻ u, F (Q.step u (v0, c0, m0) A W) ∂Q.μV = 0 ↔ ∫⁻ η, F η ∂labelPrior K n = 0) := by
    intro F hF
    set X2 : (Pair n.C → ℝ) → (Fin K → Fin n.C) → ENNReal := fun v c => ∫⁻ u, F (v, c, labBlocks G n c u) ∂μ with hX2
    have mX2 : ∀ c, Measurable fun v => X2 v c := fun c =>
      Measurable.lintegral_prod_right' (f := fun y : (Pair n.C → ℝ) × U => F (y.1, c, labBlocks G n c y.2))
        (hF.comp (measurable_fst.prodMk (measurable_const.prodMk ((labBlocks_meas G n).comp (f := fun y : (Pair n.C → ℝ) × U => (c, y.2)) (by fun_prop)))))
    have m0' : Measurable fun u : (Pair n.C → U) × (Fin K → U) × U => F (Q.step u (v0, c0, m0) A W) := hF.comp mstep
    have eu : ∫⁻ u, F (Q.step u (v0, c0, m0) A W) ∂Q.μV
        = ∫⁻ u, ∫⁻ y, X2 (labScale G n A W c0 u) (labNew Ls huge n hC (labScale G n A W c0 u) m0 A W c0 y) ∂Measure.pi (fun _ => μ) ∂Measure.pi (fun _ => μ) := by
      change ∫⁻ u, F (Q.step u (v0, c0, m0) A W) ∂((Measure.pi fun _ => μ).prod ((Measure.pi fun _ => μ).prod μ)) = _
      rw [lintegral_prod _ m0'.aemeasurable]
      refine lintegral_congr fun u1 => ?_
      have m1 : Measurable fun u : (Fin K → U) × U => F (Q.step (u1, u) (v0, c0, m0) A W) := m0'.comp (f := fun u => (u1, u)) (by fun_prop)
      rw [lintegral_prod _ m1.aemeasurable]
      rfl
    set Y : (Pair n.C → ℝ) → ENNReal := fun v => ∫⁻ y, X2 v (labNew Ls huge n hC v m0 A W c0 y) ∂Measure.pi (fun _ => μ) with hY
    have mX2' : Measurable fun z : (Pair n.C → ℝ) × (Fin K → Fin n.C) => X2 z.1 z.2 := by
      have : Measurable fun z : (Fin K → Fin n.C) × (Pair n.C → ℝ) => X2 z.2 z.1 := measurable_from_prod_countable_right fun c => mX2 c
      exact this.comp (f := fun z : (Pair n.C → ℝ) × (Fin K → Fin n.C) => (z.2, z.1)) (by fun_prop)
    have mY : Measurable Y := Measurable.lintegral_prod_right' (f := fun z : (Pair n.C → ℝ) × (Fin K → U) => X2 z.1 (labNew Ls huge n hC z.1 m0 A W c0 z.2))
      (mX2'.comp (measurable_fst.prodMk ((labNew_meas Ls huge n hC).comp (f := fun z : (Pair n.C → ℝ) × (Fin K → U) => ((z.1, m0, A, W), z.2, c0)) (by fun_prop))))
    rw [eu, ← lintegral_map (μ := Measure.pi fun _ : Pair n.C => μ) (f := Y) (g := fun u => labScale G n A W c0 u) mY mv, lawv,
      lint_zero_iff (pi_ac fun a => gammaMeasure_ac ha hb) (pi_ac fun a => gammaMeasure_ac (hgpos a) (hrpos a)) mY, labelPrior_lintegral n ha hb hpi hF, lintegral_eq_zero_iff mY,
      lintegral_eq_zero_iff]
    · refine Filter.eventually_congr (Filter.Eventually.of_forall fun v => ?_)
      dsimp only [Pi.zero_apply]
      have hl := labels_null Ls hC (labLp huge n v m0 A W) (List.finRange K) (List.nodup_finRange K) (fun c => X2 v c) c0
      have hl' : Y v = 0 ↔ ∀ c', X2 v c' = 0 := hl.trans ⟨fun h c' => h c' fun k hk => absurd (List.mem_finRange k) hk, fun h c' _ => h c'⟩
      rw [hl', sum_eq_zero_iff]
      refine ⟨fun h c _ => ?_, fun h c => ?_⟩
      all_goals
        have mFc : Measurable fun m => F (v, c, m) := hF.comp (by fun_prop)
        set N : ℕ → ℕ := fun b => (univ.filter fun k => (c k : ℕ) = b).card with hN
        have st := dir_step G hC hpi N
        have mf : Measurable fun x : Vec ℝ => ENNReal.ofReal (∏ b ∈ range n.C, x b ^ N b) := by fun_prop
        have hs : (fun u => labBlocks G n c u) = G.dir n.C (arr n.C fun b => n.pi b + N b) := by
          funext u
          unfold labBlocks
          congr 2
          funext b
          rw [hN]
          simp
        have ac := st.ac mf (by
          filter_upwards [dirichlet_simplex (v := n.pi) hpi hC] with x hx
          rw [Ne, ENNReal.ofReal_eq_zero, not_le]
          exact prod_pos fun b hb => pow_pos (hx.1 b (mem_range.1 hb)) _)
        have ez : X2 v c = 0 ↔ ∫⁻ m, F (v, c, m) ∂dirichletLaw n.C n.pi = 0 := by
          have mbl : Measurable fun u => labBlocks G n c u := by rw [hs]; exact dir_measurable G _ _
          have : X2 v c = ∫⁻ m, F (v, c, m) ∂μ.map (fun u => labBlocks G n c u) := (lintegral_map mFc mbl).symm
          rw [this, hs]
          exact lint_zero_iff ac.1 ac.2 mFc
        have ew : ∫⁻ m, (∏ k, ENNReal.ofReal (m (c k))) * F (v, c, m) ∂dirichletLaw n.C n.pi = 0 ↔ ∫⁻ m, F (v, c, m) ∂dirichletLaw n.C n.pi = 0 := by
          have mp : Measurable fun m : Vec ℝ => ∏ k, ENNReal.ofReal (m (c k)) := by fun_prop
          have mpF : Measurable fun m : Vec ℝ => (∏ k, ENNReal.ofReal (m (c k))) * F (v, c, m) := mp.mul mFc
          rw [lintegral_eq_zero_iff mpF, lintegral_eq_zero_iff mFc]
          refine Filter.eventually_congr ?_
          filter_upwards [dirichlet_simplex (v := n.pi) hpi hC] with m hm
          dsimp only [Pi.zero_apply]
          rw [mul_eq_zero, or_iff_right]
          rw [← Ne, Finset.prod_ne_zero_iff]
          intro k _
          rw [Ne, ENNReal.ofReal_eq_zero, not_le]
          exact hm.1 _ (c k).2
      · exact ew.2 (ez.1 (h c))
      · exact ez.2 (ew.1 (h c (mem_univ _)))
    · refine Finset.measurable_sum _ fun c _ => ?_
      refine Measurable.lintegral_prod_right' (f := fun y : (Pair n.C → ℝ) × Vec ℝ => (∏ k, ENNReal.ofReal (y.2 (c k))) * F (y.1, c, y.2)) ?_
      exact Measurable.mul (by fun_prop) (hF.comp (by fun_prop))
  have meas0 : ∀ s : Set (NetLabels K n.C), MeasurableSet s → ((Q.μV.map fun u => Q.step u (v0, c0, m0) A W) s = 0 ↔ labelPrior K n s = 0) := fun s hs => by
    have := iff0 (s.indicator 1) (measurable_one.indicator hs)
    rw [lintegral_indicator_one hs] at this
    rw [← this, ← lintegral_map (measurable_one.indicator hs) mstep, lintegral_indicator_one hs]
  exact ⟨Measure.AbsolutelyContinuous.mk fun s hs h => (meas0 s hs).2 h, Measure.AbsolutelyContinuous.mk fun s hs h => (meas0 s hs).1 h⟩

end

end PyHawkes
