import Verif.Props.MFTilt

/-! # C77: mean-field steps of edges and networks -/
set_option linter.unusedSectionVars false

namespace PyHawkes
open Finset MeasureTheory ProbabilityTheory Spec

/-! ### Edges -/

theorem gamma_integral {a r : ℝ} (ha : 0 < a) (hr : 0 < r) :
    ∫ x in Set.Ioi (0:ℝ), Real.exp ((a - 1) * Real.log x - r * x) = Real.exp (gammaln a - a * Real.log r) := by
  have h : ∀ x ∈ Set.Ioi (0:ℝ), Real.exp ((a - 1) * Real.log x - r * x) = x ^ (a - 1) * Real.exp (-(r * x)) := by
    intro x hx
    rw [sub_eq_add_neg, Real.exp_add, Real.rpow_def_of_pos hx, mul_comm (a - 1)]
  rw [setIntegral_congr_fun measurableSet_Ioi h, Real.integral_rpow_mul_exp_neg_mul_Ioi ha hr, Real.exp_sub, gammaln, Real.exp_log (Real.Gamma_pos_of_pos ha),
    one_div, Real.inv_rpow hr.le, Real.rpow_def_of_pos hr, mul_comm a, div_eq_inv_mul]

theorem evidencePresent_eq (B : ℕ) (dl : List (DParents ℝ)) {frac kappa eV : ℝ} (lnP eLnV : ℝ) (i j : ℕ) (hk : 0 < kappa) (hv : 0 < eV) (hf : 0 < frac)
    (hdl : ∀ D ∈ dl, EZPos D) :
    evidencePresent B dl frac kappa lnP eV eLnV i j = Real.exp (lnP + (kappa * eLnV - gammaln kappa)
      + (gammaln (kappa + (∑ b ∈ range B, expCol dl j (1 + i * B + b)) / frac)
        - (kappa + (∑ b ∈ range B, expCol dl j (1 + i * B + b)) / frac) * Real.log (eV + (dl.map fun D => (D.Ns i : ℝ)).sum / frac))) := by
  set N := ∑ b ∈ range B, expCol dl j (1 + i * B + b) with hN
  have hN0 : 0 ≤ N := sum_nonneg fun b _ => expCol_nonneg hdl _ _
  have hE0 := listNs_nonneg dl i
  set E := (dl.map fun D => (D.Ns i : ℝ)).sum with hE
  have hL : ∀ x, weightLogLik B dl i j x = N * Real.log x - E * x := by intro x; rw [weightLogLik, list_sum_mul_const]
  have h : ∀ x, Real.exp (weightPriorLog kappa eV eLnV x) * Real.exp (weightLogLik B dl i j x / frac)
      = Real.exp (kappa * eLnV - gammaln kappa) * Real.exp ((kappa + N / frac - 1) * Real.log x - (eV + E / frac) * x) := by
    intro x
    rw [← Real.exp_add, ← Real.exp_add, hL, weightPriorLog, gammaln]
    congr 1; ring
  unfold evidencePresent
  simp_rw [h]
  rw [integral_const_mul, gamma_integral (add_pos_of_pos_of_nonneg hk (div_nonneg hN0 hf.le)) (add_pos_of_pos_of_nonneg hv (div_nonneg hE0 hf.le)), ← Real.exp_add,
    ← Real.exp_add]
  congr 1; ring

theorem evidenceAbsent_eq (B : ℕ) (dl : List (DParents ℝ)) {frac kappa0 nu0 : ℝ} (lnNotP : ℝ) (i j : ℕ) (hk : 0 < kappa0) (hv : 0 < nu0) (hf : 0 < frac)
    (hdl : ∀ D ∈ dl, EZPos D) :
    evidenceAbsent B dl frac kappa0 nu0 lnNotP i j = Real.exp (lnNotP + (kappa0 * Real.log nu0 - gammaln kappa0)
      + (gammaln (kappa0 + (∑ b ∈ range B, expCol dl j (1 + i * B + b)) / frac)
        - (kappa0 + (∑ b ∈ range B, expCol dl j (1 + i * B + b)) / frac) * Real.log (nu0 + (dl.map fun D => (D.Ns i : ℝ)).sum / frac))) := by
  rw [← evidencePresent_eq B dl lnNotP (Real.log nu0) i j hk hv hf hdl]
  unfold evidenceAbsent evidencePresent
  congr 1
  refine setIntegral_congr_fun measurableSet_Ioi fun x hx => ?_
  have : Real.exp (weightPriorLog kappa0 nu0 (Real.log nu0) x) = gammaPDFReal kappa0 nu0 x := by
    rw [← Real.exp_log (gammaPDF_pos hk hv hx), log_gammaPDF hk hv hx]
    congr 1
  rw [this]

theorem clip_logistic_eq (x : ℝ) : clipLogistic (.fin x) = clipProb (pyLogistic x 1) := rfl

theorem logistic_diff (a b : ℝ) : pyLogistic (a - b) 1 = Real.exp a / (Real.exp a + Real.exp b) := by
  unfold pyLogistic
  rw [neg_sub, Real.exp_sub]
  have := Real.exp_pos a
  have := Real.exp_pos b
  field_simp

/-- **C77 (edges).** After a coordinate step the probability of each possible edge is its share of the evidence: the exponentiated expected log joint density of edge, weight
and events, with the weight integrated out, restricted to `[1e-8, 1-1e-8]`. (Also with the data scaled by `1/frac`.) -/
theorem C77_edges (K B : ℕ) (net : MFNet) (eV eLnV : Mat ℝ) (hV : net.eV = .ok eV) (hLV : net.eLnV = .ok eLnV) (dl : List (DParents ℝ)) {frac : ℝ} (w w' : MFWeights)
    {i j : ℕ} {lnP lnNotP : ℝ} (hP : net.eLnP i j = .fin lnP) (hNP : net.eLnNotP i j = .fin lnNotP) (hk : 0 < net.kappa) (hv : 0 < eV i j)
    (h00 : 0 < w.kappa0 ∧ 0 < w.nu0) (hdl : ∀ D ∈ dl, EZPos D) (hf : 0 < frac) (hp : 0 < w.mfP i j ∧ w.mfP i j < 1) (h : w.update K B net dl frac 1 = .ok w') :
    let r1 := evidencePresent B dl frac net.kappa lnP (eV i j) (eLnV i j) i j
    let r0 := evidenceAbsent B dl frac w.kappa0 w.nu0 lnNotP i j
    w'.mfP i j = clipProb (r1 / (r1 + r0)) := by
  intro r1 r0
  obtain ⟨e0, e1⟩ := weightStats B dl i j
  unfold MFWeights.update at h
  rw [hV, hLV] at h
  dsimp only at h
  unfold MFWeights.updateP at h
  split_ifs at h with hn
  rw [← Except.ok.inj h]
  dsimp only
  have hh : ((w.updateKappaV B net.kappa eV dl frac 1).logitHat net eLnV 1 i j) = .fin (Real.log r1 - Real.log r0) := by
    have hr1 : r1 = _ := evidencePresent_eq B dl lnP (eLnV i j) i j hk hv hf hdl
    have hr0 : r0 = _ := evidenceAbsent_eq B dl lnNotP i j h00.1 h00.2 hf hdl
    rw [hr1, hr0, Real.log_exp, Real.log_exp]
    have hl : FX.isFinite (FX.log (w.mfP i j) - FX.log (1 - w.mfP i j)) := logOdds_fin hp.1 hp.2
    unfold MFWeights.logitHat MFWeights.logitP MFWeights.updateKappaV
    dsimp only
    rw [e0, e1, hP, hNP, div_one, sub_self]
    cases hx : FX.log (w.mfP i j) - FX.log (1 - w.mfP i j) with
    | fin y =>
      simp only [FX.fin_add, FX.fin_mul, FX.fin_sub]
      congr 1
      ring_nf
    | _ => rw [hx] at hl; exact hl.elim
  rw [hh, clip_logistic_eq, logistic_diff, Real.exp_log, Real.exp_log]
  · rw [show r0 = _ from evidenceAbsent_eq B dl lnNotP i j h00.1 h00.2 hf hdl]; exact Real.exp_pos _
  · rw [show r1 = _ from evidencePresent_eq B dl lnP (eLnV i j) i j hk hv hf hdl]; exact Real.exp_pos _

/-- **C77 (weights, whole update).** The update of edges and weights together leaves the gamma factors as described in `C77_weights`. -/
theorem C77_weights_update (K B : ℕ) (net : MFNet) (eV eLnV : Mat ℝ) (hV : net.eV = .ok eV) (hLV : net.eLnV = .ok eLnV) (dl : List (DParents ℝ)) {frac s : ℝ} (w w' : MFWeights)
    (i j : ℕ) (hk : 0 < net.kappa) (hv : 0 < eV i j) (h00 : 0 < w.kappa0 ∧ 0 < w.nu0)
    (hw : 0 < w.mfKappa0 i j ∧ 0 < w.mfV0 i j ∧ 0 < w.mfKappa1 i j ∧ 0 < w.mfV1 i j) (hdl : ∀ D ∈ dl, EZPos D) (hf : 0 < frac) (h0 : 0 ≤ s) (h1 : s ≤ 1)
    (h : w.update K B net dl frac s = .ok w') :
    Proportional (Set.Ioi 0) (gammaPDFReal (w'.mfKappa1 i j) (w'.mfV1 i j))
      (steppedDensity s frac (gammaPDFReal (w.mfKappa1 i j) (w.mfV1 i j)) (gammaPDFReal net.kappa (eV i j)) (weightLogLik B dl i j)) ∧
    Proportional (Set.Ioi 0) (gammaPDFReal (w'.mfKappa0 i j) (w'.mfV0 i j))
      (steppedDensity s frac (gammaPDFReal (w.mfKappa0 i j) (w.mfV0 i j)) (gammaPDFReal w.kappa0 w.nu0) (weightLogLik B dl i j)) := by
  unfold MFWeights.update at h
  rw [hV, hLV] at h
  dsimp only at h
  unfold MFWeights.updateP at h
  split_ifs at h
  rw [← Except.ok.inj h]
  exact C77_weights B eV dl w i j hk hv h00 hw hdl hf h0 h1

/-- **C77 (edges, stochastic steps).** In general the odds of each edge move geometrically: `odds^(1-s) * target^s`, then clipped, where the target uses the current gamma factors
of the weight (`∫ x^(κ-1) exp(-v x) dx` for the two components). -/
theorem C77_edges_step (K B : ℕ) (net : MFNet) (eV eLnV : Mat ℝ) (hV : net.eV = .ok eV) (hLV : net.eLnV = .ok eLnV) (dl : List (DParents ℝ)) {frac s : ℝ} (w w' : MFWeights)
    {i j : ℕ} {lnP lnNotP : ℝ} (hP : net.eLnP i j = .fin lnP) (hNP : net.eLnNotP i j = .fin lnNotP)
    (hp : 0 < w.mfP i j ∧ w.mfP i j < 1) (h : w.update K B net dl frac s = .ok w')
    (hw' : 0 < w'.mfKappa0 i j ∧ 0 < w'.mfV0 i j ∧ 0 < w'.mfKappa1 i j ∧ 0 < w'.mfV1 i j) :
    let r1 := Real.exp lnP * (Real.exp (net.kappa * eLnV i j - Real.log (Real.Gamma net.kappa)) *
      ∫ x in Set.Ioi (0:ℝ), Real.exp ((w'.mfKappa1 i j - 1) * Real.log x - w'.mfV1 i j * x))
    let r0 := Real.exp lnNotP * (Real.exp (w.kappa0 * Real.log w.nu0 - Real.log (Real.Gamma w.kappa0)) *
      ∫ x in Set.Ioi (0:ℝ), Real.exp ((w'.mfKappa0 i j - 1) * Real.log x - w'.mfV0 i j * x))
    w'.mfP i j = clipProb ((w.mfP i j ^ (1 - s) * r1 ^ s) / (w.mfP i j ^ (1 - s) * r1 ^ s + (1 - w.mfP i j) ^ (1 - s) * r0 ^ s)) := by
  intro r1 r0
  unfold MFWeights.update at h
  rw [hV, hLV] at h
  dsimp only at h
  unfold MFWeights.updateP at h
  split_ifs at h with hn
  have h := (Except.ok.inj h).symm
  have k0 : (w.updateKappaV B net.kappa eV dl frac s).mfKappa0 i j = w'.mfKappa0 i j := by rw [h]
  have k1 : (w.updateKappaV B net.kappa eV dl frac s).mfKappa1 i j = w'.mfKappa1 i j := by rw [h]
  have v0 : (w.updateKappaV B net.kappa eV dl frac s).mfV0 i j = w'.mfV0 i j := by rw [h]
  have v1 : (w.updateKappaV B net.kappa eV dl frac s).mfV1 i j = w'.mfV1 i j := by rw [h]
  have hr1 : r1 = Real.exp (lnP + (net.kappa * eLnV i j - gammaln net.kappa) + (gammaln (w'.mfKappa1 i j) - w'.mfKappa1 i j * Real.log (w'.mfV1 i j))) := by
    simp only [r1]; rw [gamma_integral hw'.2.2.1 hw'.2.2.2, ← Real.exp_add, ← Real.exp_add]; congr 1; simp only [gammaln]; ring
  have hr0 : r0 = Real.exp (lnNotP + (w.kappa0 * Real.log w.nu0 - gammaln w.kappa0) + (gammaln (w'.mfKappa0 i j) - w'.mfKappa0 i j * Real.log (w'.mfV0 i j))) := by
    simp only [r0]; rw [gamma_integral hw'.1 hw'.2.1, ← Real.exp_add, ← Real.exp_add]; congr 1; simp only [gammaln]; ring
  have q1 : 0 < r1 := by rw [hr1]; exact Real.exp_pos _
  have q0 : 0 < r0 := by rw [hr0]; exact Real.exp_pos _
  have hp' : 0 < 1 - w.mfP i j := by linarith [hp.2]
  have hh : ((w.updateKappaV B net.kappa eV dl frac s).logitHat net eLnV s i j)
      = .fin (((1 - s) * Real.log (w.mfP i j) + s * Real.log r1) - ((1 - s) * Real.log (1 - w.mfP i j) + s * Real.log r0)) := by
    rw [hr1, hr0, Real.log_exp, Real.log_exp]
    unfold MFWeights.logitHat MFWeights.logitP
    rw [k0, k1, v0, v1, hP, hNP]
    have a1 : (w.updateKappaV B net.kappa eV dl frac s).mfP i j = w.mfP i j := rfl
    have a2 : (w.updateKappaV B net.kappa eV dl frac s).kappa0 = w.kappa0 := rfl
    have a3 : (w.updateKappaV B net.kappa eV dl frac s).nu0 = w.nu0 := rfl
    rw [a1, a2, a3, div_one]
    have l1 : FX.log (w.mfP i j) = .fin (Real.log (w.mfP i j)) := by rw [FX.log, if_neg (not_lt.2 hp.1.le), if_neg hp.1.ne']
    have l2 : FX.log (1 - w.mfP i j) = .fin (Real.log (1 - w.mfP i j)) := by rw [FX.log, if_neg (not_lt.2 (sub_nonneg.2 hp.2.le)), if_neg (sub_pos.2 hp.2).ne']
    rw [l1, l2]
    simp only [FX.fin_add, FX.fin_mul, FX.fin_sub]
    congr 1
    ring
  have hm : w'.mfP i j = clipLogistic ((w.updateKappaV B net.kappa eV dl frac s).logitHat net eLnV s i j) := by rw [h]
  rw [hm, hh, clip_logistic_eq, logistic_diff, Real.exp_add, Real.exp_add]
  have x1 : Real.exp ((1 - s) * Real.log (w.mfP i j)) = w.mfP i j ^ (1 - s) := by rw [Real.rpow_def_of_pos hp.1, mul_comm]
  have x2 : Real.exp ((1 - s) * Real.log (1 - w.mfP i j)) = (1 - w.mfP i j) ^ (1 - s) := by rw [Real.rpow_def_of_pos hp', mul_comm]
  have x3 : Real.exp (s * Real.log r1) = r1 ^ s := by rw [Real.rpow_def_of_pos q1, mul_comm]
  have x4 : Real.exp (s * Real.log r0) = r0 ^ s := by rw [Real.rpow_def_of_pos q0, mul_comm]
  rw [x1, x2, x3, x4]

/-- **C77 (edges ruled out or forced by the prior).** With positive step size an edge of prior probability 0 gets the smallest probability the code allows, one of prior
probability 1 the largest. -/
theorem C77_edges_certain (K B : ℕ) (net : MFNet) (eV eLnV : Mat ℝ) (hV : net.eV = .ok eV) (hLV : net.eLnV = .ok eLnV) (dl : List (DParents ℝ)) {frac s : ℝ} (w w' : MFWeights)
    {i j : ℕ} (hp : 0 < w.mfP i j ∧ w.mfP i j < 1) (hs : 0 < s) (h : w.update K B net dl frac s = .ok w') :
    (net.eLnP i j = .ninf → (∃ y, net.eLnNotP i j = .fin y) → w'.mfP i j = 1e-8) ∧
    (net.eLnNotP i j = .ninf → (∃ y, net.eLnP i j = .fin y) → w'.mfP i j = 1 - 1e-8) := by
  unfold MFWeights.update at h
  rw [hV, hLV] at h
  dsimp only at h
  unfold MFWeights.updateP at h
  split_ifs at h with hn
  have h := (Except.ok.inj h).symm
  have hm : w'.mfP i j = clipLogistic ((w.updateKappaV B net.kappa eV dl frac s).logitHat net eLnV s i j) := by rw [h]
  rw [hm]
  have a1 : (w.updateKappaV B net.kappa eV dl frac s).mfP i j = w.mfP i j := rfl
  have l1 : FX.log (w.mfP i j) = .fin (Real.log (w.mfP i j)) := by rw [FX.log, if_neg (not_lt.2 hp.1.le), if_neg hp.1.ne']
  have l2 : FX.log (1 - w.mfP i j) = .fin (Real.log (1 - w.mfP i j)) := by rw [FX.log, if_neg (not_lt.2 (sub_nonneg.2 hp.2.le)), if_neg (sub_pos.2 hp.2).ne']
  constructor
  · rintro h1 ⟨y, h2⟩
    unfold MFWeights.logitHat MFWeights.logitP
    rw [a1, div_one, l1, l2, h1, h2]
    show clipLogistic (FX.add (.fin _) (FX.infMul s .ninf .pinf)) = _
    rw [FX.infMul, if_neg hs.ne', if_pos hs]; rfl
  · rintro h1 ⟨y, h2⟩
    unfold MFWeights.logitHat MFWeights.logitP
    rw [a1, div_one, l1, l2, h1, h2]
    show clipLogistic (FX.add (.fin _) (FX.infMul s .pinf .ninf)) = _
    rw [FX.infMul, if_neg hs.ne', if_pos hs]; rfl

end PyHawkes
