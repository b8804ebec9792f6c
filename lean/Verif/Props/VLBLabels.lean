import Verif.Props.VLBNetAscent
import Mathlib.Analysis.Complex.ExponentialBounds

/-! # C79: the label update can decrease the bound; the Erdos-Renyi scale; every reachable state -/
set_option linter.unusedSectionVars false
set_option linter.unusedVariables false

namespace PyHawkes
open Finset MeasureTheory ProbabilityTheory Spec

theorem psi_add_one {x : ℝ} (hx : 0 < x) : psi (x + 1) = 1 / x + psi x := by
  have h1 : HasDerivAt (fun y : ℝ => Real.log y + gammaln y) (x⁻¹ + psi x) x := (Real.hasDerivAt_log hx.ne').add (gammaln_hasDerivAt hx)
  have h2 : HasDerivAt (fun y : ℝ => gammaln (y + 1)) (psi (x + 1)) x := by
    simpa using (gammaln_hasDerivAt (show 0 < x + 1 by linarith)).comp_add_const x 1
  have he : (fun y : ℝ => gammaln (y + 1)) =ᶠ[nhds x] fun y : ℝ => Real.log y + gammaln y := by
    filter_upwards [lt_mem_nhds hx] with y hy
    simp only [gammaln]
    rw [Real.Gamma_add_one hy.ne', Real.log_mul hy.ne' (Real.Gamma_pos_of_pos hy).ne']
  rw [one_div]
  exact h2.unique (h1.congr_of_eventuallyEq he)

/-! ### Labels -/

/-- one node, two blocks; edges within a block are as likely as not, edges between blocks very unlikely; the node is in block 0 with probability 3/4 -/
noncomputable def exLab : SBM :=
  { exSBM true with K := 1, mfM := fun _ c => if c = 0 then 3 / 4 else 1 / 4, mfTau1 := fun c d => if c = d then 1 else 1 / 16 }

noncomputable def exLabM : MFModel :=
  { K := 1, B := 1, bias := { alpha := 1, beta := 1, dt := 1, mfAlpha := fun _ => 1, mfBeta := fun _ => 1 },
    imp := { gamma := fun _ => 1, mfGamma := fun _ _ _ => 1 }, w := { MFWeights.init 1 10 1 (fun _ _ => 1) with mfP := fun _ _ => 1 / 2 }, net := .sbm exLab,
    data := [{ T := 1, S := fun _ _ => 0, F := fun _ _ _ => 0 }], sgdOffset := none }

theorem exLab_good : SBMGood exLab := by
  refine ⟨?_, ?_, ?_, ?_, ?_, ?_, ?_, ?_, ?_, ?_, ?_⟩ <;> simp [exLab, exSBM, SBM.P, SBM.V, sum_range_succ]
  · intro c _ d _; split_ifs <;> norm_num
  · refine ⟨fun c _ => ?_, by norm_num⟩
    split_ifs <;> norm_num
  · norm_num

theorem exLabM_good : MFGood exLabM := by
  refine ⟨?_, ?_, ?_, ?_, ?_, ?_, ?_⟩
  · simp [exLabM]
  · simp [exLabM]
  · simp [exLabM, MFWeights.init]
  · simp [exLabM, MFWeights.init]
  · intro i _ j _; simp only [exLabM]; norm_num
  · exact ⟨rfl, exLab_good⟩
  · simp [exLabM]

theorem exLab_state : SBMState exLabM exLab :=
  ⟨rfl, rfl, rfl, rfl, exLab_good, fun i _ j _ => by simp only [exLabM]; norm_num, fun i _ j _ => by simp [exLabM, MFWeights.init]⟩

/-- the label update makes both blocks equally likely -/
theorem exLab_update : ∃ m, exLab.mfUpdateC exLabM.w.mfP (exLabM.w.eWGivenA 1) (exLabM.w.eLnWGivenA 1) 1 = { exLab with mfM := m } ∧ ∀ c < 2, m 0 c = 1 / 2 := by
  have hlp : ∀ c < 2, exLab.mfLp exLabM.w.mfP (exLabM.w.eWGivenA 1) (exLabM.w.eLnWGivenA 1) 0 c
      = exLab.mfLp exLabM.w.mfP (exLabM.w.eWGivenA 1) (exLabM.w.eLnWGivenA 1) 0 0 := by
    intro c hc
    have e : ∀ c, exLab.mfPi c = 1 := fun _ => rfl
    simp [SBM.mfLp, exLab, exSBM, SBM.eLnM, SBM.blkLnP, SBM.blkLnNotP, SBM.blkV, SBM.blkLnV]
  refine ⟨(exLab.mfUpdateC exLabM.w.mfP (exLabM.w.eWGivenA 1) (exLabM.w.eLnWGivenA 1) 1).mfM, rfl, ?_⟩
  intro c hc
  have e1 : exLab.mfUpdateC exLabM.w.mfP (exLabM.w.eWGivenA 1) (exLabM.w.eLnWGivenA 1) 1
      = exLab.mfUpdateC1 exLabM.w.mfP (exLabM.w.eWGivenA 1) (exLabM.w.eLnWGivenA 1) 1 0 := rfl
  rw [e1]
  simp only [SBM.mfUpdateC1, if_true, sub_self, zero_mul, zero_add, one_mul]
  have eC : exLab.C = 2 := rfl
  rw [eC]
  have hs : ∑ d ∈ range 2, Real.exp (exLab.mfLp exLabM.w.mfP (exLabM.w.eWGivenA 1) (exLabM.w.eLnWGivenA 1) 0 d)
      = 2 * Real.exp (exLab.mfLp exLabM.w.mfP (exLabM.w.eWGivenA 1) (exLabM.w.eLnWGivenA 1) 0 0) := by
    rw [sum_congr rfl fun d hd => by rw [hlp d (mem_range.1 hd)], sum_const, card_range, nsmul_eq_mul]; norm_num
  rw [hs, hlp c hc, Real.log_mul two_ne_zero (Real.exp_pos _).ne', Real.log_exp, show ∀ a : ℝ, a - (Real.log 2 + a) = -Real.log 2 by intro a; ring,
    Real.exp_neg, Real.exp_log two_pos]
  norm_num


/-- **C79 (labels, violated).** `mf_update_c` can decrease the bound: for the pair of a node with itself the update uses the same block at both ends, as it should, while
`get_vlb` averages over two independent blocks. -/
theorem C79_label_update_violated : MFGood exLabM ∧ ∃ x y, exLabM.vlb 1 = .ok (.fin x) ∧
    (exLabM.withNet (.sbm (exLab.mfUpdateC exLabM.w.mfP (exLabM.w.eWGivenA 1) (exLabM.w.eLnWGivenA 1) 1))).vlb 1 = .ok (.fin y) ∧ y < x := by
  have g := exLabM_good
  have hd : ∀ D ∈ exLabM.data, DataOk D := by
    intro D hD
    rw [List.mem_singleton.1 hD]
    exact DataOk.fresh rfl (fun _ _ => by norm_num) (fun _ _ _ => le_rfl)
  obtain ⟨x, hx⟩ := vlb_finite 1 g (MFInv.refl g) (show Interior exLabM.K exLabM.net by simp [exLabM, exLab, exSBM, Interior]) (fun n => MFNet.noConfusion) hd
  obtain ⟨m, hm, hm2⟩ := exLab_update
  rw [hm]
  set n' : SBM := { exLab with mfM := m } with hn'
  have h := exLab_state
  have m0 : m 0 0 = 1 / 2 := hm2 0 (by norm_num)
  have m1 : m 0 1 = 1 / 2 := hm2 1 (by norm_num)
  have g' : SBMGood n' := by
    have gg := exLab_good
    refine ⟨gg.C, gg.kappa, gg.tau, gg.ab, gg.pi, gg.mfTau, gg.mfAB, gg.mfPi, ?_, gg.P, gg.V⟩
    intro k hk
    have : k = 0 := by
      have : n'.K = 1 := rfl
      omega
    subst this
    have eC : n'.C = 2 := rfl
    rw [eC]
    refine ⟨fun c hc => ?_, ?_⟩
    · show 0 ≤ m 0 c
      rw [hm2 c hc]; norm_num
    · show ∑ c ∈ range 2, m 0 c = 1
      rw [sum_range_succ, sum_range_succ, range_zero, sum_empty, m0, m1]; norm_num
  have hsh := vlb_shift_net 1 exLabM (.sbm n') rfl rfl h.p (sbm_eV exLab rfl) (sbm_eLnV exLab rfl) (fun i _ j _ => sbm_logs exLab rfl rfl i j)
    (sbm_eV n' rfl) (sbm_eLnV n' rfl) (fun i _ j _ => sbm_logs n' rfl rfl i j) (show exLabM.net.vlb 1 = .ok (exLab.vlb 1 {}) from rfl)
    (show (MFNet.sbm n').vlb 1 = .ok (n'.vlb 1 {}) from rfl) hx
  refine ⟨g, x, _, hx, hsh, ?_⟩
  rw [C55_network_value 1 exLab exLab_good, C55_network_value 1 n' g']
  have hlab : ∑ k ∈ range exLab.K, labelTerm 1 exLab k = exLab.eLnM 0 - (3 / 4 * Real.log (3 / 4) + 1 / 4 * Real.log (1 / 4)) := by
    have eK : exLab.K = 1 := rfl
    rw [eK, sum_range_one, labelTerm_pos 1 exLab 0 (fun c _ => by simp only [exLab]; split_ifs <;> norm_num)]
    have eC : exLab.C = 2 := rfl
    have e1 : exLab.eLnM 1 = exLab.eLnM 0 := rfl
    have a : exLab.mfM 0 0 = 3 / 4 := rfl
    have b : exLab.mfM 0 1 = 1 / 4 := by simp [exLab]
    rw [eC, sum_range_succ, sum_range_one, e1, a, b]
    ring
  have hlab' : ∑ k ∈ range n'.K, labelTerm 1 n' k = exLab.eLnM 0 + Real.log 2 := by
    have eK : n'.K = 1 := rfl
    have eC : n'.C = 2 := rfl
    have e0 : n'.mfM = m := rfl
    rw [eK, sum_range_one, labelTerm_pos 1 n' 0 (fun c hc => by rw [e0, hm2 c hc]; norm_num)]
    have e1 : n'.eLnM 1 = exLab.eLnM 0 := rfl
    have e2 : n'.eLnM 0 = exLab.eLnM 0 := rfl
    rw [eC, sum_range_succ, sum_range_one, e1, e2, e0, m0, m1, show (1:ℝ) / 2 = 2⁻¹ by norm_num, Real.log_inv]
    ring
  simp only [if_true, hlab, hlab']
  have c1 : n'.C = exLab.C := rfl
  have c2 : n'.mfTau1 = exLab.mfTau1 := rfl
  have c3 : n'.mfTau0 = exLab.mfTau0 := rfl
  have c4 : n'.tau1 = exLab.tau1 := rfl
  have c5 : n'.tau0 = exLab.tau0 := rfl
  have c6 : n'.mfAlpha = exLab.mfAlpha := rfl
  have c7 : n'.mfBeta = exLab.mfBeta := rfl
  have c8 : n'.alpha = exLab.alpha := rfl
  have c9 : n'.beta = exLab.beta := rfl
  have c10 : n'.mfPi = exLab.mfPi := rfl
  have c11 : n'.pi = exLab.pi := rfl
  rw [c1, c2, c3, c4, c5, c6, c7, c8, c9, c10, c11]
  have eK : exLabM.K = 1 := rfl
  have ep : exLabM.w.mfP 0 0 = 1 / 2 := rfl
  simp only [eK, sum_range_one, ep]
  have mixo : ∀ f : Mat ℝ, exLab.mix f 0 0 = 9 / 16 * f 0 0 + 3 / 16 * f 0 1 + 3 / 16 * f 1 0 + 1 / 16 * f 1 1 := by
    intro f
    have eC : exLab.C = 2 := rfl
    have a : exLab.mfM 0 0 = 3 / 4 := rfl
    have b : exLab.mfM 0 1 = 1 / 4 := by simp [exLab]
    simp only [SBM.mix, eC, sum_range_succ, range_zero, sum_empty, a, b]
    ring
  have mixn : ∀ f : Mat ℝ, n'.mix f 0 0 = 1 / 4 * f 0 0 + 1 / 4 * f 0 1 + 1 / 4 * f 1 0 + 1 / 4 * f 1 1 := by
    intro f
    have eC : n'.C = 2 := rfl
    have e0 : n'.mfM = m := rfl
    simp only [SBM.mix, eC, e0, sum_range_succ, range_zero, sum_empty, m0, m1]
    ring
  have b1 : n'.blkLnP = exLab.blkLnP := rfl
  have b2 : n'.blkLnNotP = exLab.blkLnNotP := rfl
  have b3 : n'.blkLnV = exLab.blkLnV := rfl
  have b4 : n'.blkV = exLab.blkV := rfl
  have cv : ∀ c d, exLab.blkLnV c d = exLab.blkLnV 0 0 := fun c d => rfl
  have cv' : ∀ c d, exLab.blkV c d = exLab.blkV 0 0 := fun c d => rfl
  have p2 := psi_add_one (show (0:ℝ) < 1 by norm_num)
  have p16 := psi_add_one (show (0:ℝ) < 1 / 16 by norm_num)
  have d00 : exLab.blkLnP 0 0 = -1 ∧ exLab.blkLnP 1 1 = -1 ∧ exLab.blkLnNotP 0 0 = -1 ∧ exLab.blkLnNotP 1 1 = -1 := by
    simp only [SBM.blkLnP, SBM.blkLnNotP, exLab, exSBM, if_true]
    rw [p2]
    norm_num
  have o01 : exLab.blkLnP 0 1 = -16 ∧ exLab.blkLnP 1 0 = -16 := by
    simp only [SBM.blkLnP, exLab, exSBM]
    norm_num
    rw [show (17:ℝ) / 16 = 1 / 16 + 1 by norm_num, p16]
    norm_num
  have n01 : exLab.blkLnNotP 0 1 ≤ 0 ∧ exLab.blkLnNotP 1 0 ≤ 0 := by
    have := psi_sub_le (a := 1) (b := 1 / 16) (by norm_num) (by norm_num)
    have hl : Real.log ((1:ℝ) / (1 + 1 / 16)) ≤ 0 := Real.log_nonpos (by norm_num) (by norm_num)
    simp only [SBM.blkLnNotP, exLab, exSBM]
    norm_num
    norm_num at this hl
    linarith
  rw [b1, b2, b3, b4, mixo, mixo, mixo, mixo, mixn, mixn, mixn, mixn, cv 0 1, cv 1 0, cv 1 1, cv' 0 1, cv' 1 0, cv' 1 1, d00.1, d00.2.1, d00.2.2.1, d00.2.2.2, o01.1, o01.2]
  have l2 : Real.log 2 ≤ 7 / 10 := by linarith [Real.log_two_lt_d9]
  have l34 : Real.log (3 / 4) ≤ 0 := Real.log_nonpos (by norm_num) (by norm_num)
  have l14 : Real.log (1 / 4) ≤ 0 := Real.log_nonpos (by norm_num) (by norm_num)
  have lH : 3 / 4 * Real.log (3 / 4) + 1 / 4 * Real.log (1 / 4) ≤ 0 := by linarith
  have a1 := n01.1
  have a2 := n01.2
  ring_nf
  ring_nf at lH
  linarith

end PyHawkes
