import Verif.Props.EvidenceSim
import Verif.Props.MixBlockPosterior
import Verif.Props.MFTiltSBM
import Verif.Props.VLBNetAscent
import Verif.Props.VarNet

/-!
# C103: `get_vlb()` is a lower bound on the log evidence, learned one-block network
-/
set_option linter.unusedSectionVars false
set_option linter.unusedVariables false

namespace PyHawkes
open Finset Spec MeasureTheory ProbabilityTheory

/-- the variational inequality for a beta prior `Beta(α, β)`, a variational distribution `Beta(a, b)` and an exponent that is affine in `log p` and `log (1 - p)` -/
theorem variational_beta {a b α β : ℝ} (ha : 0 < a) (hb : 0 < b) (hα : 0 < α) (hβ : 0 < β) (x y z : ℝ) :
    ENNReal.ofReal (Real.exp (x * (psi a - psi (a + b)) + y * (psi b - psi (a + b)) + z - klBeta a b α β))
      ≤ ∫⁻ p, ENNReal.ofReal (Real.exp (x * Real.log p + y * Real.log (1 - p) + z)) ∂betaMeasure α β := by
  have hP := isProbabilityMeasureBeta ha hb
  have iL : Integrable (fun p => Real.log p) (betaMeasure a b) := (integrable_betaMeasure ha hb _).2 (beta_mean_log ha hb).1
  have iC : Integrable (fun p => Real.log (1 - p)) (betaMeasure a b) := (integrable_betaMeasure ha hb _).2 (beta_mean_log_compl ha hb).1
  have vL : ∫ p, Real.log p ∂betaMeasure a b = psi a - psi (a + b) := (integral_betaMeasure ha hb _).trans (expBeta_log ha hb)
  have vC : ∫ p, Real.log (1 - p) ∂betaMeasure a b = psi b - psi (a + b) := (integral_betaMeasure ha hb _).trans (expBeta_log_compl ha hb)
  let r : ℝ → ℝ := fun p => (lnBeta α β - lnBeta a b) + (a - α) * Real.log p + (b - β) * Real.log (1 - p)
  have mr : Measurable r := by
    show Measurable fun p : ℝ => (lnBeta α β - lnBeta a b) + (a - α) * Real.log p + (b - β) * Real.log (1 - p)
    fun_prop
  have hν : (betaMeasure a b).withDensity (fun p => ENNReal.ofReal (Real.exp (-r p))) ≤ betaMeasure α β := by
    have e : (betaMeasure a b).withDensity (fun p => ENNReal.ofReal (Real.exp (-r p))) = volume.withDensity (betaPDF a b * fun p => ENNReal.ofReal (Real.exp (-r p))) :=
      (withDensity_mul _ (measurable_betaPDFReal a b).ennreal_ofReal (by fun_prop)).symm
    rw [e]
    refine withDensity_mono (Filter.Eventually.of_forall fun p => ?_)
    by_cases h0 : p ≤ 0
    · simp [Pi.mul_apply, betaPDF_eq_zero_of_nonpos h0]
    by_cases h1 : 1 ≤ p
    · simp [Pi.mul_apply, betaPDF_eq_zero_of_one_le h1]
    have hp : p ∈ Set.Ioo (0:ℝ) 1 := ⟨not_le.1 h0, not_le.1 h1⟩
    rw [Pi.mul_apply, betaPDF, betaPDF, ← ENNReal.ofReal_mul (betaPDF_pos ha hb hp).le]
    refine ENNReal.ofReal_le_ofReal (le_of_eq ?_)
    rw [← Real.exp_log (betaPDF_pos ha hb hp), ← Real.exp_add, ← Real.exp_log (betaPDF_pos hα hβ hp), log_betaPDF ha hb hp, log_betaPDF hα hβ hp]
    congr 1
    simp only [r]
    ring
  have this : (fun p => (x * Real.log p + y * Real.log (1 - p) + z) - r p) = fun p => (x - (a - α)) * Real.log p + (y - (b - β)) * Real.log (1 - p) + (z - (lnBeta α β - lnBeta a b)) := by
    funext t; simp only [r]; ring
  have i1 : Integrable (fun t => (x - (a - α)) * Real.log t) (betaMeasure a b) := iL.const_mul _
  have i2 : Integrable (fun t => (y - (b - β)) * Real.log (1 - t)) (betaMeasure a b) := iC.const_mul _
  have i12 : Integrable (fun t => (x - (a - α)) * Real.log t + (y - (b - β)) * Real.log (1 - t)) (betaMeasure a b) := i1.add i2
  have ih : Integrable (fun p => (x * Real.log p + y * Real.log (1 - p) + z) - r p) (betaMeasure a b) := by
    rw [this]
    exact i12.add (integrable_const _)
  refine le_trans (le_of_eq ?_) (variational_le (by fun_prop) mr hν ih)
  congr 2
  rw [this, integral_add i12 (integrable_const _), integral_add i1 i2, integral_const_mul, integral_const_mul, vL, vC, klBeta_eq ha hb hα hβ]
  simp only [integral_const, probReal_univ, smul_eq_mul]
  ring

/-- a beta distributed probability is strictly between 0 and 1 -/
theorem beta_open {a b : ℝ} : ∀ᵐ p ∂betaMeasure a b, 0 < p ∧ p < 1 := by
  unfold betaMeasure
  have m1 : Measurable (betaPDF a b) := (measurable_betaPDFReal a b).ennreal_ofReal
  rw [ae_withDensity_iff m1]
  refine Filter.Eventually.of_forall fun p hp => ?_
  by_contra hc
  rw [not_and_or, not_lt, not_lt] at hc
  rcases hc with h | h
  · exact hp (betaPDF_eq_zero_of_nonpos h)
  · exact hp (betaPDF_eq_zero_of_one_le h)

/-- with one block, the average over labels is the block's value -/
theorem mix_block {n : SBM} (g : SBMGood n) (hC : n.C = 1) (f : Mat ℝ) {i j : ℕ} (hi : i < n.K) (hj : j < n.K) : n.mix f i j = f 0 0 := by
  have h1 := (g.mfM i hi).2
  have h2 := (g.mfM j hj).2
  rw [hC, sum_range_one] at h1 h2
  simp [SBM.mix, hC, h1, h2]

/-- the network contribution of one block is at most minus the divergences of edge probability and weight scale -/
theorem oneBlock_value (huge : ℝ) {n : SBM} (g : SBMGood n) (hC : n.C = 1) :
    n.vlb huge {} ≤ -klBeta (n.mfTau1 0 0) (n.mfTau0 0 0) n.tau1 n.tau0 - klGamma (n.mfAlpha 0 0) (n.mfBeta 0 0) n.alpha n.beta := by
  have h1 : ∑ k ∈ range n.K, labelTerm huge n k ≤ 0 :=
    sum_nonpos fun k hk => labelTerm_nonpos huge n k g.mfPi (g.mfM k (mem_range.1 hk)).1 (g.mfM k (mem_range.1 hk)).2
  have h4 := klDirichlet_nonneg g.C g.mfPi g.pi
  rw [C55_network_value huge n g]
  simp only [if_true]
  rw [hC] at h4 ⊢
  simp only [sum_range_one, mul_one, Nat.cast_one, sub_self, zero_mul]
  linarith

/-- the fixed edge probability `p` in place of the block network: the other variational parameters, including those of the weight scale, unchanged -/
noncomputable def atP (m : SBM) (p : ℝ) : ERFixed := { erOf m p with mf := some (m.mfAlpha 0 0, m.mfBeta 0 0) }

theorem vlb_atP (huge : ℝ) {M : MFModel} {m : SBM} (sn : M.net = .sbm m) (g : SBMGood m) (hC : m.C = 1) (hs : m.allowSelf = true) (hf : m.fixed = false) (hmK : m.K = M.K)
    (hq : ∀ i < M.K, ∀ j < M.K, 0 < M.w.mfP i j ∧ M.w.mfP i j < 1) {p : ℝ} (h0 : 0 < p) (h1 : p < 1) {x : ℝ} (hx : M.vlb huge = .ok (.fin x)) :
    (M.withNet (.er (atP m p))).vlb huge = .ok (.fin (x + (-klGamma (m.mfAlpha 0 0) (m.mfBeta 0 0) m.alpha m.beta - m.vlb huge {})
      + ((∑ i ∈ range M.K, ∑ j ∈ range M.K, M.w.mfP i j) * (Real.log p - m.blkLnP 0 0)
        + (∑ i ∈ range M.K, ∑ j ∈ range M.K, (1 - M.w.mfP i j)) * (Real.log (1 - p) - m.blkLnNotP 0 0)))) := by
  have t := g.mfAB 0 (by omega) 0 (by omega)
  have P : ∀ i j, (atP m p).P i j = p := fun i j => erOf_P m p i j
  have key := vlb_shift_net huge M (.er (atP m p)) (by rw [sn]; exact hs.symm) (by rw [sn]; rfl) hq (by rw [sn]; exact sbm_eV m hf)
    (by rw [sn]; exact sbm_eLnV m hf) (fun i _ j _ => by rw [sn]; exact sbm_logs m hs hf i j) (V' := fun _ _ => m.blkV 0 0) (L' := fun _ _ => m.blkLnV 0 0) rfl rfl
    (lP' := fun _ _ => Real.log p) (lN' := fun _ _ => Real.log (1 - p))
    (fun i _ j _ => by
      refine ⟨?_, ?_⟩
      · show FX.log ((atP m p).P i j) = _
        rw [P, FX.log_pos h0]
      · show FX.log (1 - (atP m p).P i j) = _
        rw [P, FX.log_pos (by linarith)])
    (by rw [sn]; rfl) (show (MFNet.er (atP m p)).vlb huge = .ok (-klGamma (m.mfAlpha 0 0) (m.mfBeta 0 0) m.alpha m.beta) from
      (C55_er_nonpos (atP m p) rfl rfl rfl g.ab.1 g.ab.2 t.1 t.2).1) hx
  rw [key]
  congr 3
  rw [sum_mul, sum_mul, ← sum_add_distrib]
  refine sum_congr rfl fun i hi => ?_
  rw [sum_mul, sum_mul, ← sum_add_distrib]
  refine sum_congr rfl fun j hj => ?_
  have hi := mem_range.1 hi
  have hj := mem_range.1 hj
  rw [← hmK] at hi hj
  simp only [mix_block g hC _ hi hj, sub_self, mul_zero, zero_mul, add_zero]

/-- the settings stay shared along a history -/
theorem sharedStepB {M0 M : MFModel} {c : HawkesState} {n : SBM} (sh : SharedSettingsB M0 c n) (h : MFInv M0 M) : SharedSettingsB M c n := by
  obtain ⟨sK, sB, sa, sb, sg, m, sn, sC, ss, sf, s0, s1, s2, s3, s4⟩ := sh
  have hn := h.net
  rw [sn] at hn
  refine ⟨h.K.trans sK, h.B.trans sB, h.bias.1.trans sa, h.bias.2.1.trans sb, h.gamma.trans sg, ?_⟩
  cases hM : M.net with
  | sbm m' =>
    rw [hM] at hn
    obtain ⟨hh, -⟩ := hn
    exact ⟨m', rfl, hh.C.trans sC, hh.allowSelf.trans ss, hh.fixed.trans sf, hh.tau0.trans s0, hh.tau1.trans s1, hh.alpha.trans s2, hh.beta.trans s3, hh.kappa.trans s4⟩
  | er _ => rw [hM] at hn; exact hn.elim
  | fixedSparsity _ => rw [hM] at hn; exact hn.elim

theorem sharedInteriorB {M : MFModel} {c : HawkesState} {n : SBM} (sh : SharedSettingsB M c n) : Interior M.K M.net ∧ M.net.allowSelf = true ∧ ∀ m, M.net ≠ .fixedSparsity m := by
  obtain ⟨sK, sB, sa, sb, sg, m, sn, sC, ss, sf, -⟩ := sh
  rw [sn]
  refine ⟨⟨ss, fun h => ?_⟩, ss, fun m' => MFNet.noConfusion⟩
  rw [sf] at h
  exact absurd h (by simp)

/-- the evidence bound in every reachable state, with the filtered counts of the likelihood given by `φ` and the price of the guards by `d` -/
theorem reach_leB (huge : ℝ) {M0 M : MFModel} {c : HawkesState} {n : SBM} (g : MFGood M0) (hK : 0 < M0.K) (sh : SharedSettingsB M0 c n) (h : CfgOkB c n) (hdt : c.base.dt ≤ 1)
    (hd : ∀ D ∈ M0.data, D.EZ = none ∧ ∀ t k, D.S t k < 2 ^ 32) (acts : List MFAct) (hl : ∀ a ∈ acts, a.Legal M0) (hc : .coord ∈ acts) (e : runActs acts M0 = .ok M) (hM : MFInv M0 M)
    (φ : Mat ℝ → Mat ℝ) (d : Vec ℝ → Mat ℝ → Mat ℝ) (hφ : ∀ f k b, 0 ≤ f k b → 0 ≤ φ f k b)
    (hall : (∀ f k b, 0 ≤ f k b → 0 < φ f k b) ∨ φ = fun f => f)
    (hdd : ∀ (z : Vec ℝ) (f : Mat ℝ), (∀ j, 0 ≤ z j) → (∀ k b, 0 ≤ f k b) → ∀ k b, (0 < z (1 + k * M.B + b) → 0 < φ f k b) →
      z (1 + k * M.B + b) * Real.log (f k b + 1e-32) ≤ z (1 + k * M.B + b) * Real.log (φ f k b) + d z f k b)
    (hobs : List.Forall₂ SameObs (M0.data.map (mapF φ)) c.data) {x : ℝ} (hx : M.vlb huge = .ok (.fin x)) :
    ENNReal.ofReal (Real.exp (x - (((c.base.K * c.base.K : ℕ) : ℝ) - 1) * lnDirNorm c.base.B c.gamma - (M.data.map (rowSlack c.base.K c.base.B d)).sum))
      ≤ ∫⁻ θ, likelihoodMix c θ.2 ∂priorMixB M0.w.kappa0 M0.w.nu0 c n := by
  obtain ⟨hI, -, -⟩ := sharedInteriorB sh
  have hD0 : ∀ D ∈ M0.data, DataOk D := fun D hD => DataOk.fresh (hd D hD).1 (hd D hD).2 (g.data.2 D hD).2
  have hD := runActs_data e hD0
  have shM := sharedStepB sh hM
  obtain ⟨-, hself, -⟩ := sharedInteriorB shM
  have hsum := runActs_sum M0 g hK hI acts hl (MFInv.refl g) e hD0 (.inl hc)
  have hsup := runActs_sup M0 g hK hI acts hl (MFInv.refl g) e hD0 (.inl hc)
  rw [← hM.K, ← hM.B] at hsum hsup
  have w0 : 0 < M.w.kappa0 ∧ 0 < M.w.nu0 := by rw [hM.w.1, hM.w.2]; exact g.w
  have rowF : ∀ D ∈ M.data, ∀ k2, ∀ r ∈ zRows D k2, ∀ k b, 0 ≤ r.2.2 k b := by
    intro D hD' k2 r hr k b
    rw [zRows_eq] at hr
    obtain ⟨p, _, rfl⟩ := List.mem_map.1 hr
    exact (hD D hD').2.2.2 _ _ _
  have sup : ∀ D ∈ M.data, ∀ k2 < M.K, ∀ r ∈ zRows D k2, ∀ k < M.K, ∀ b < M.B, 0 < r.1 (1 + k * M.B + b) → 0 < φ r.2.2 k b := by
    intro D hD' k2 hk2 r hr k hk b hb hz
    rcases hall with h1 | h1
    · exact h1 _ _ _ (rowF D hD' k2 r hr k b)
    · rw [h1]; exact hsup D hD' k2 hk2 r hr k hk b hb hz
  have obs : List.Forall₂ SameObs (M.data.map (mapF φ)) (M0.data.map (mapF φ)) := by
    rw [List.forall₂_map_left_iff, List.forall₂_map_right_iff]
    exact (SameObs.symm' (runActs_obs e)).imp fun D D' hh => ⟨hh.1, hh.2.1, by show (fun t => φ (D'.F t)) = fun t => φ (D.F t); rw [hh.2.2]⟩
  have sn0 := sh.net
  obtain ⟨sK, sB, sa, sb, sg, m, sn, sC, ss, sf, s0, s1, s2, s3, s4⟩ := shM
  have hg : SBMGood m ∧ m.K = M.K := by
    obtain ⟨m0, e0, -⟩ := sn0
    have hn := hM.net
    have gn := g.net
    rw [e0] at hn gn
    rw [sn] at hn
    exact ⟨SBMInv.good gn.2 hn, hn.1.K.trans (gn.1.trans hM.K.symm)⟩
  obtain ⟨hg, hmK⟩ := hg
  have t0 := hg.mfTau 0 (by omega) 0 (by omega)
  have tA := hg.mfAB 0 (by omega) 0 (by omega)
  have mlik : Measurable fun θ : ThetaB c.base.K => likelihoodMix c θ.2 := (measurable_likelihoodMix h.data).comp measurable_snd
  rw [priorMixB_lintegral M0.w.kappa0 M0.w.nu0 h mlik]
  set Q1 := ∑ i ∈ range M.K, ∑ j ∈ range M.K, M.w.mfP i j with hQ1
  set Q0 := ∑ i ∈ range M.K, ∑ j ∈ range M.K, (1 - M.w.mfP i j) with hQ0
  set kg := klGamma (m.mfAlpha 0 0) (m.mfBeta 0 0) m.alpha m.beta with hkg
  set R := (((c.base.K * c.base.K : ℕ) : ℝ) - 1) * lnDirNorm c.base.B c.gamma + (M.data.map (rowSlack c.base.K c.base.B d)).sum with hR
  have each : ∀ p, 0 < p → p < 1 →
      ENNReal.ofReal (Real.exp (Q1 * Real.log p + Q0 * Real.log (1 - p) + (x + (-kg - m.vlb huge {}) - Q1 * m.blkLnP 0 0 - Q0 * m.blkLnNotP 0 0 - R)))
        ≤ ∫⁻ θ, likelihoodMix c θ ∂priorMix M0.w.kappa0 M0.w.nu0 c (erOf n p) := by
    intro p h0 h1
    have hxp := vlb_atP huge sn hg sC ss sf hmK hM.pOpen h0 h1 hx
    have shp : SharedSettings (M.withNet (.er (atP m p))) c (erOf n p) := by
      refine ⟨sK, sB, sa, sb, sg, atP m p, rfl, ?_, s4, n.alpha, n.beta, m.mfAlpha 0 0, m.mfBeta 0 0, rfl, rfl, ?_, ?_, rfl, ?_, ?_, tA.1, tA.2⟩
      · funext i j
        exact (erOf_P m p i j).trans (erOf_P n p i j).symm
      · show some m.alpha = some n.alpha
        rw [s2]
      · show some m.beta = some n.beta
        rw [s3]
      · rw [← s2]; exact hg.ab.1
      · rw [← s3]; exact hg.ab.2
    have key := vlb_le_evidence huge shp (h.fix h0.le h1.le) rfl hdt (fun i _ j _ => by rw [erOf_P]; exact ⟨h0, h1⟩) (fun k hk => by
        have hk : k < M0.K := hM.K ▸ hk
        have := hM.valid.bias k hk
        have gb := g.bias.2.2.2 k hk
        exact ⟨(lt_min gb.1 g.bias.1).trans_le this.1, (lt_min gb.2 g.bias.2.1).trans_le this.2⟩)
      (fun i hi j hj b hb => by
        have hi : i < M0.K := hM.K ▸ hi
        have hj : j < M0.K := hM.K ▸ hj
        have hb : b < M0.B := hM.B ▸ hb
        have := hM.valid.imp i hi j hj b hb
        have gi := g.imp b hb
        exact (lt_min (gi.2 i hi j hj) gi.1).trans_le this)
      w0 (show ∀ i < M.K, ∀ j < M.K, _ from hM.wPos g) hM.pOpen hD hsum φ d (fun D hD' t k _ b _ => hφ _ _ _ ((hD D hD').2.2.2 t k b)) sup
      (fun D hD' k2 hk2 r hr k hk b hb => hdd r.1 r.2.2 ((hD D hD').1 k2 r.1 (List.of_mem_zip hr).1) (rowF D hD' k2 r hr) k b (sup D hD' k2 hk2 r hr k hk b hb))
      (SameObs.trans' obs hobs) hxp
    have e1 : (M.withNet (.er (atP m p))).K = c.base.K := sK
    have e2 : (M.withNet (.er (atP m p))).B = c.base.B := sB
    have e3 : (M.withNet (.er (atP m p))).imp.gamma = c.gamma := sg
    have e4 : (M.withNet (.er (atP m p))).w.kappa0 = M0.w.kappa0 := hM.w.1
    have e5 : (M.withNet (.er (atP m p))).w.nu0 = M0.w.nu0 := hM.w.2
    rw [e1, e2, e3, e4, e5] at key
    refine le_trans (le_of_eq ?_) key
    congr 2
    rw [hR]
    show _ = _ - (M.data.map (rowSlack c.base.K c.base.B d)).sum
    ring
  have vb := variational_beta t0.2 t0.1 hg.tau.2 hg.tau.1 Q1 Q0 (x + (-kg - m.vlb huge {}) - Q1 * m.blkLnP 0 0 - Q0 * m.blkLnNotP 0 0 - R)
  have ob := oneBlock_value huge hg sC
  refine le_trans (ENNReal.ofReal_le_ofReal (Real.exp_le_exp.2 ?_)) (vb.trans ?_)
  · have p1 : m.blkLnP 0 0 = psi (m.mfTau1 0 0) - psi (m.mfTau1 0 0 + m.mfTau0 0 0) := by rw [SBM.blkLnP, add_comm (m.mfTau1 0 0)]
    have p0 : m.blkLnNotP 0 0 = psi (m.mfTau0 0 0) - psi (m.mfTau1 0 0 + m.mfTau0 0 0) := by rw [SBM.blkLnNotP, add_comm (m.mfTau1 0 0)]
    rw [← p1, ← p0]
    linarith
  · rw [s0, s1]
    refine lintegral_mono_ae ?_
    filter_upwards [beta_open (a := n.tau1) (b := n.tau0)] with p hp
    exact each p hp.1 hp.2

theorem reach_finB (huge : ℝ) {M0 : MFModel} {c : HawkesState} {n : SBM} (g : MFGood M0) (sh : SharedSettingsB M0 c n) (hd : ∀ D ∈ M0.data, D.EZ = none ∧ ∀ t k, D.S t k < 2 ^ 32)
    (acts : List MFAct) (hl : ∀ a ∈ acts, a.Legal M0) : ∃ M x, runActs acts M0 = .ok M ∧ MFInv M0 M ∧ M.vlb huge = .ok (.fin x) := by
  obtain ⟨hI, -, hf⟩ := sharedInteriorB sh
  obtain ⟨M, e, hM⟩ := runActs_inv M0 g acts hl
  have hD0 : ∀ D ∈ M0.data, DataOk D := fun D hD => DataOk.fresh (hd D hD).1 (hd D hD).2 (g.data.2 D hD).2
  obtain ⟨x, hx⟩ := vlb_finite huge g hM hI hf (runActs_data e hD0)
  exact ⟨M, x, e, hM, hx⟩

/-- **C103 (learned one-block network, partial).** Gamma-mixture model with the default block network (`C=1`, self connections allowed): the edge probability and the weight scale are learned,
too. After every history of legal mean-field calls that contains a coordinate step, `get_vlb()` returns a finite number that is at most the log evidence (the likelihood averaged over the prior
of all parameters, edge probability included) plus the same two terms as in `C103_lower_bound_partial`. Missing, because false: without the correction for the impulse weights'
normaliser, longer bins, before the first coordinate step. Several blocks are not covered: there the code counts the normaliser of the beta prior once instead of `C²` times
(`C55_network_violated`). -/
theorem C103_block_lower_bound_partial (huge : ℝ) {M0 : MFModel} {c : HawkesState} {n : SBM} (g : MFGood M0) (hK : 0 < M0.K) (sh : SharedSettingsB M0 c n) (h : CfgOkB c n)
    (hF : FilteredFromEvents c.base.K c.base.B c.data) (hdt : c.base.dt ≤ 1) (hobs : List.Forall₂ SameObs M0.data c.data)
    (hd : ∀ D ∈ M0.data, D.EZ = none ∧ ∀ t k, D.S t k < 2 ^ 32) (acts : List MFAct) (hl : ∀ a ∈ acts, a.Legal M0) (hc : .coord ∈ acts) :
    ∃ M x, runActs acts M0 = .ok M ∧ M.vlb huge = .ok (.fin x) ∧
      x ≤ logEvidenceB M0.w.kappa0 M0.w.nu0 c n + (((c.base.K * c.base.K : ℕ) : ℝ) - 1) * lnDirNorm c.base.B c.gamma + guardSlack c.base.K c.base.B M.data := by
  obtain ⟨M, x, e, hM, hx⟩ := reach_finB huge g sh hd acts hl
  refine ⟨M, x, e, hx, ?_⟩
  have key := reach_leB huge g hK sh h hdt hd acts hl hc e hM (fun f => f) (fun z f k b => 1e-32 * (z (1 + k * M.B + b) / f k b)) (fun _ _ _ h => h) (.inr rfl)
    (fun z f hz hf k b hs => log_guard (hz _) hs) (by rw [show M0.data.map (mapF fun f => f) = M0.data from List.map_id _]; exact hobs) hx
  have hB : M.B = c.base.B := hM.B.trans sh.B
  rw [hB, rowSlack_guard] at key
  have := log_form (C85_block_posterior_proper g.w.1 g.w.2 h hF).2.1 key
  unfold logEvidenceB
  linarith

/-- **C103 (learned one-block network, partial).** The same without any state-dependent allowance: one finite number bounds `get_vlb()` in all histories. -/
theorem C103_block_uniform_bound_partial (huge : ℝ) {M0 : MFModel} {c : HawkesState} {n : SBM} (g : MFGood M0) (hK : 0 < M0.K) (sh : SharedSettingsB M0 c n) (h : CfgOkB c n)
    (hA : AllActive c.base.K c.data) (hdt : c.base.dt ≤ 1) (hobs : List.Forall₂ SameObs M0.data c.data) (hd : ∀ D ∈ M0.data, D.EZ = none ∧ ∀ t k, D.S t k < 2 ^ 32) :
    ∀ acts : List MFAct, (∀ a ∈ acts, a.Legal M0) → .coord ∈ acts → ∃ M x, runActs acts M0 = .ok M ∧ M.vlb huge = .ok (.fin x) ∧
      x ≤ logEvidenceB M0.w.kappa0 M0.w.nu0 { c with data := c.data.map fun D => { D with F := fun t k b => D.F t k b + 1e-32 } } n
        + (((c.base.K * c.base.K : ℕ) : ℝ) - 1) * lnDirNorm c.base.B c.gamma := by
  intro acts hl hc
  obtain ⟨M, x, e, hM, hx⟩ := reach_finB huge g sh hd acts hl
  refine ⟨M, x, e, hx, ?_⟩
  let φ : Mat ℝ → Mat ℝ := fun f k b => f k b + 1e-32
  let c' : HawkesState := { c with data := c.data.map (mapF φ) }
  have h' : CfgOkB c' n := by
    refine ⟨h.B, ?_, ⟨h.hyper.alpha, h.hyper.beta, h.hyper.gamma, h.hyper.dt, h.hyper.basis⟩, h.net, h.one, h.self, h.learned⟩
    intro D hD
    obtain ⟨D', hD', rfl⟩ := List.mem_map.1 hD
    obtain ⟨h1, h2⟩ := h.data D' hD'
    exact ⟨fun t ht k hk b hb => by have := h1 t ht k hk b hb; show 0 ≤ D'.F t k b + 1e-32; positivity, h2⟩
  have sh' : SharedSettingsB M0 c' n := ⟨sh.K, sh.B, sh.alpha, sh.beta, sh.gamma, sh.net⟩
  have hF' : FilteredFromEvents c'.base.K c'.base.B c'.data := by
    intro D _ t _ i hi b _ _
    obtain ⟨D', hD', t', ht', hS⟩ := hA i hi
    exact ⟨mapF φ D', List.mem_map.2 ⟨D', hD', rfl⟩, t', ht', hS⟩
  have key := reach_leB huge g hK sh' h' hdt hd acts hl hc e hM φ (fun _ _ _ _ => 0) (fun f k b hf => by show 0 ≤ f k b + 1e-32; positivity)
    (.inl fun f k b hf => by show 0 < f k b + 1e-32; positivity) (fun z f hz hf k b _ => by show _ ≤ _ * Real.log (f k b + 1e-32) + 0; rw [add_zero])
    (by
      show List.Forall₂ SameObs (M0.data.map (mapF φ)) (c.data.map (mapF φ))
      rw [List.forall₂_map_left_iff, List.forall₂_map_right_iff]
      exact hobs.imp fun D D' hh => ⟨hh.1, hh.2.1, by show (fun t => φ (D'.F t)) = fun t => φ (D.F t); rw [hh.2.2]⟩) hx
  have z : ∀ l : List (DParents ℝ), (l.map (rowSlack c.base.K c.base.B fun _ _ _ _ => 0)).sum = 0 := by
    intro l
    have : rowSlack c.base.K c.base.B (fun _ _ _ _ => (0:ℝ)) = fun _ => 0 := by
      funext D
      simp [rowSlack]
    rw [this]
    simp
  have := log_form (C85_block_posterior_proper g.w.1 g.w.2 h' hF').2.1 key
  rw [z] at this
  show x ≤ logEvidenceB M0.w.kappa0 M0.w.nu0 c' n + _
  unfold logEvidenceB
  linarith

/-- the state `evDemo` with the learned one-block network -/
noncomputable def evBlock : MFModel := { evDemo with net := .sbm demoBlock }

theorem evBlock_good : MFGood evBlock :=
  { evDemo_good with
    net := ⟨rfl, by
      refine ⟨?_, ?_, ?_, ?_, ?_, ?_, ?_, ?_, ?_, ?_, ?_⟩ <;> simp [demoBlock, SBM.P, SBM.V]
      norm_num⟩ }

/-- the hypotheses of the two block theorems are met by a concrete model and history -/
theorem C103_block_demo_partial (huge : ℝ) : ∃ M x, runActs [.coord, .sgd 1 (1 / 2), .coord] evBlock = .ok M ∧ M.vlb huge = .ok (.fin x) ∧
    x ≤ logEvidenceB 1 1 demoChainModel demoBlock + guardSlack 2 1 M.data ∧ AllActive 2 demoChainModel.data := by
  have hl : ∀ a ∈ [MFAct.coord, .sgd 1 (1 / 2), .coord], a.Legal evBlock := by
    intro a ha
    simp only [List.mem_cons, List.not_mem_nil, or_false] at ha
    rcases ha with rfl | rfl | rfl
    · trivial
    · exact ⟨one_pos, by norm_num, by norm_num, fun h => by norm_num at h, rfl⟩
    · trivial
  obtain ⟨M, x, e, hx, hle⟩ := C103_block_lower_bound_partial huge evBlock_good Nat.two_pos ⟨rfl, rfl, rfl, rfl, rfl, demoBlock, rfl, rfl, rfl, rfl, rfl, rfl, rfl, rfl, rfl⟩ demoBlock_ok
    demoChain_ok.2 le_rfl (List.forall₂_same.2 fun _ _ => ⟨rfl, rfl, rfl⟩)
    (fun D hD => by
      rw [List.mem_singleton.1 hD]
      exact ⟨rfl, fun t k => by dsimp only; split_ifs <;> norm_num⟩) _ hl (by simp)
  refine ⟨M, x, e, hx, ?_, fun k hk => ⟨_, List.mem_singleton.2 rfl, k, by change k < 3; omega, by dsimp only; rw [if_pos rfl]; exact one_ne_zero⟩⟩
  have : lnDirNorm demoChainModel.base.B demoChainModel.gamma = 0 := by simp [lnDirNorm, demoChainModel]
  rw [this, mul_zero, add_zero] at hle
  exact hle

end PyHawkes
