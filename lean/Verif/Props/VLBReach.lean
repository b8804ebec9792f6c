import Verif.Props.VLBNetAscent

/-! # C79: the Erdos-Renyi scale, and ascent in every reachable state -/
set_option linter.unusedSectionVars false
set_option linter.unusedVariables false

namespace PyHawkes
open Finset MeasureTheory ProbabilityTheory Spec

/-- **C79 (Erdos-Renyi scale).** The update of the common scale never decreases the bound. -/
theorem C79_er_scale_ascends (huge : ℝ) {M : MFModel} {n : ERFixed} (hn : M.net = .er n) (hK : n.K = M.K) {al be a b : ℝ} (hal : n.alpha = some al)
    (hbe : n.beta = some be) (hmf : n.mf = some (a, b)) (p1 : 0 < al) (p2 : 0 < be) (p3 : 0 < a) (p4 : 0 < b) (hk : 0 < n.kappa)
    (hP : ∀ i < M.K, ∀ j < M.K, 0 < n.P i j ∧ n.P i j < 1) (hp : ∀ i < M.K, ∀ j < M.K, 0 < M.w.mfP i j ∧ M.w.mfP i j < 1)
    (hw : ∀ i < M.K, ∀ j < M.K, 0 < M.w.mfKappa1 i j ∧ 0 < M.w.mfV1 i j) {x : ℝ} (hx : M.vlb huge = .ok (.fin x)) :
    ∃ n' y, n.mfUpdate M.w 1 = .ok n' ∧ (M.withNet (.er n')).vlb huge = .ok (.fin y) ∧ x ≤ y := by
  set N := ∑ i ∈ range n.K, ∑ j ∈ range n.K, M.w.mfP i j * n.kappa with hN
  set E := ∑ i ∈ range n.K, ∑ j ∈ range n.K, M.w.mfP i j * M.w.eWGivenA 1 i j with hE
  have N0 : 0 ≤ N := sum_nonneg fun i hi => sum_nonneg fun j hj => mul_nonneg (hp i (by rw [← hK]; exact mem_range.1 hi) j (by rw [← hK]; exact mem_range.1 hj)).1.le hk.le
  have E0 : 0 ≤ E := sum_nonneg fun i hi => sum_nonneg fun j hj => by
    have hi' : i < M.K := by rw [← hK]; exact mem_range.1 hi
    have hj' : j < M.K := by rw [← hK]; exact mem_range.1 hj
    refine mul_nonneg (hp i hi' j hj').1.le ?_
    have := hw i hi' j hj'
    simp only [MFWeights.eWGivenA]
    norm_num
    exact div_nonneg this.1.le this.2.le
  have hu : n.mfUpdate M.w 1 = .ok { n with mf := some (al + N, be + E) } := by
    unfold ERFixed.mfUpdate
    rw [hal, hbe, hmf]
    simp [hN, hE]
  set n' : ERFixed := { n with mf := some (al + N, be + E) } with hn'
  have hv := (C55_er_nonpos n hal hbe hmf p1 p2 p3 p4).1
  have hv' := (C55_er_nonpos n' (a := al + N) (b := be + E) hal hbe rfl p1 p2 (by linarith) (by linarith)).1
  have hP' : n'.P = n.P := rfl
  have hl : ∀ i < M.K, ∀ j < M.K, (MFNet.er n).eLnP i j = .fin (Real.log (n.P i j)) ∧ (MFNet.er n).eLnNotP i j = .fin (Real.log (1 - n.P i j)) := by
    intro i hi j hj
    have := hP i hi j hj
    exact ⟨FX.log_pos this.1, FX.log_pos (by linarith [this.2])⟩
  have hl' : ∀ i < M.K, ∀ j < M.K, (MFNet.er n').eLnP i j = .fin (Real.log (n.P i j)) ∧ (MFNet.er n').eLnNotP i j = .fin (Real.log (1 - n.P i j)) := hl
  have e1 : (MFNet.er n).eV = .ok fun _ _ => a / b := by simp only [MFNet.eV, hmf]
  have e2 : (MFNet.er n).eLnV = .ok fun _ _ => psi a - Real.log b := by simp only [MFNet.eLnV, hmf]
  have e3 : (MFNet.er n').eV = .ok fun _ _ => (al + N) / (be + E) := rfl
  have e4 : (MFNet.er n').eLnV = .ok fun _ _ => psi (al + N) - Real.log (be + E) := rfl
  have hsh := vlb_shift_net huge M (.er n') (by rw [hn]; rfl) (by rw [hn]; rfl) hp (by rw [hn]; exact e1) (by rw [hn]; exact e2) (by rw [hn]; exact hl) e3 e4 hl'
    (by rw [hn]; exact hv) (show (MFNet.er n').vlb huge = _ from hv') hx
  refine ⟨n', _, hu, hsh, ?_⟩
  have hkap : M.net.kappa = n.kappa := by rw [hn]; rfl
  have o := bias_objective p1 p2 N0 E0 p3 p4
  have o' := bias_objective (a := al + N) (b := be + E) p1 p2 N0 E0 (by linarith) (by linarith)
  rw [klGamma_self] at o'
  have hkl := klGamma_nonneg p3 p4 (show 0 < al + N by linarith) (show 0 < be + E by linarith)
  have hsum : ∑ i ∈ range M.K, ∑ j ∈ range M.K, (M.w.mfP i j * (Real.log (n.P i j) - Real.log (n.P i j)) + (1 - M.w.mfP i j) * (Real.log (1 - n.P i j) - Real.log (1 - n.P i j))
        + M.w.mfP i j * (M.net.kappa * (psi (al + N) - Real.log (be + E) - (psi a - Real.log b)) - ((al + N) / (be + E) - a / b) * M.w.eWGivenA 1 i j))
      = N * (psi (al + N) - Real.log (be + E) - (psi a - Real.log b)) - E * ((al + N) / (be + E) - a / b) := by
    rw [hkap, ← hK, hN, hE, sum_mul, sum_mul, ← sum_sub_distrib]
    refine sum_congr rfl fun i _ => ?_
    rw [sum_mul, sum_mul, ← sum_sub_distrib]
    exact sum_congr rfl fun j _ => by ring
  rw [hsum]
  linarith

/-- **C79 (every reachable state, partial).** Self connections allowed, no certain or impossible edge, not the fixed-sparsity network (whose bound raises), one or more data
sets with counts below `2^32`. After every history of legal mean-field calls, `get_vlb` is a finite number, and updating the weights alone gives a finite number that is not
smaller; so does updating the impulse weights alone, the block probabilities, block scales or block frequencies alone (block model with free parameters), and updating the Erdos-Renyi scale alone.
Missing: the label update (which can decrease the bound) and the parent update (see `C79_parents_partial`). -/
theorem C79_every_reachable_state_partial (huge : ℝ) (M0 : MFModel) (g : MFGood M0) (hK : 0 < M0.K) (hB : 0 < M0.B) (hI : Interior M0.K M0.net) (hf : ∀ n, M0.net ≠ .fixedSparsity n)
    (hd : ∀ D ∈ M0.data, D.EZ = none ∧ ∀ t k, D.S t k < 2 ^ 32) (acts : List MFAct) (hl : ∀ a ∈ acts, a.Legal M0) :
    ∃ M x, runActs acts M0 = .ok M ∧ M.vlb huge = .ok (.fin x) ∧
      (∃ M' y, M.updateWeights = .ok M' ∧ M'.vlb huge = .ok (.fin y) ∧ x ≤ y) ∧
      (∃ y, M.updateImp.vlb huge = .ok (.fin y) ∧ x ≤ y) ∧
      (∀ n, M.net = .sbm n → n.fixed = false →
        (∃ y, (M.withNet (.sbm (n.mfUpdateP M.w.mfP 1))).vlb huge = .ok (.fin y) ∧ x ≤ y) ∧
        (∃ y, (M.withNet (.sbm (n.mfUpdateV M.w.mfP (M.w.eWGivenA 1) 1))).vlb huge = .ok (.fin y) ∧ x ≤ y) ∧
        (∃ y, (M.withNet (.sbm (n.mfUpdateM 1))).vlb huge = .ok (.fin y) ∧ x ≤ y)) ∧
      (∀ n, M.net = .er n → ∃ n' y, n.mfUpdate M.w 1 = .ok n' ∧ (M.withNet (.er n')).vlb huge = .ok (.fin y) ∧ x ≤ y) := by
  obtain ⟨M, e, h⟩ := runActs_inv M0 g acts hl
  have hD := runActs_data e fun D hD => DataOk.fresh (hd D hD).1 (hd D hD).2 (g.data.2 D hD).2
  obtain ⟨x, hx⟩ := vlb_finite huge g h hI hf hD
  have hp8 : ∀ i < M.K, ∀ j < M.K, 1e-8 ≤ M.w.mfP i j ∧ M.w.mfP i j ≤ 1 - 1e-8 := fun i hi j hj => h.valid.p i (h.K ▸ hi) j (h.K ▸ hj)
  have hp : ∀ i < M.K, ∀ j < M.K, 0 < M.w.mfP i j ∧ M.w.mfP i j < 1 := by
    intro i hi j hj
    have := hp8 i hi j hj
    norm_num at this
    exact ⟨by linarith [this.1], by linarith [this.2]⟩
  have hw : ∀ i < M.K, ∀ j < M.K, 0 < M.w.mfKappa0 i j ∧ 0 < M.w.mfV0 i j ∧ 0 < M.w.mfKappa1 i j ∧ 0 < M.w.mfV1 i j := by
    intro i hi j hj
    rw [h.K] at hi hj
    have w0 := h.valid.w0 i hi j hj
    have w1 := h.valid.w1 i hi j hj
    have gw := g.wmf i hi j hj
    exact ⟨lt_of_lt_of_le (lt_min gw.1 g.w.1) w0.1, lt_of_lt_of_le (lt_min gw.2.1 g.w.2) w0.2, lt_of_lt_of_le (lt_min gw.2.2.1 (NetGood.kappaPos g.net)) w1.1, w1.2⟩
  have hlog := fun i (hi : i < M.K) j (hj : j < M.K) => Interior.logs hI h.net (h.K ▸ hi) (h.K ▸ hj)
  refine ⟨M, x, e, hx, ?_, ?_, ?_, ?_⟩
  · obtain ⟨V, L, hV, hL, hv⟩ := h.net.eV g.net
    have hlP : ∃ lP lN : Mat ℝ, ∀ i < M.K, ∀ j < M.K, M.net.eLnP i j = .fin (lP i j) ∧ M.net.eLnNotP i j = .fin (lN i j) := by
      classical
      have : ∀ i j, ∃ a b : ℝ, i < M.K → j < M.K → M.net.eLnP i j = .fin a ∧ M.net.eLnNotP i j = .fin b := by
        intro i j
        by_cases hh : i < M.K ∧ j < M.K
        · obtain ⟨f1, f2, _⟩ := hlog i hh.1 j hh.2
          obtain ⟨a, ha⟩ := FX.exists_fin f1
          obtain ⟨b, hb⟩ := FX.exists_fin f2
          exact ⟨a, b, fun _ _ => ⟨ha, hb⟩⟩
        · exact ⟨0, 0, fun h1 h2 => absurd ⟨h1, h2⟩ hh⟩
      choose lP lN hh using this
      exact ⟨lP, lN, fun i hi j hj => hh i j hi hj⟩
    obtain ⟨lP, lN, hl2⟩ := hlP
    have hK' : 0 < M.K := h.K ▸ hK
    have hs : M.net.allowSelf = true := by
      have := (hlog 0 hK' 0 hK').2.2
      simpa using this
    exact C79_weights_update_ascends huge M hs hV hl2 (by rw [h.net.kappa]; exact NetGood.kappaPos g.net) (fun i hi j hj => hv i (h.K ▸ hi) j (h.K ▸ hj))
      (by rw [h.w.1, h.w.2]; exact g.w) hw hp8 (fun D hD' => (hD D hD').1) (fun D hD' => (hD D hD').2.1) hx
  · refine C55_impulse_update_ascends huge M (h.B ▸ hB) (fun b hb => ?_) (fun i hi j hj b hb => ?_) (fun D hD' => (hD D hD').1) (fun D hD' => (hD D hD').2.1) hx
    · rw [h.gamma]; exact (g.imp b (h.B ▸ hb)).1
    · have gi := g.imp b (h.B ▸ hb)
      exact lt_of_lt_of_le (lt_min (gi.2 i (h.K ▸ hi) j (h.K ▸ hj)) gi.1) (h.valid.imp i (h.K ▸ hi) j (h.K ▸ hj) b (h.B ▸ hb))
  · intro n hn hfree
    have hs : SBMState M n := by
      have hni := h.net
      have hgn := g.net
      have hI' := hI
      rw [hn] at hni
      cases hn0 : M0.net with
      | sbm n0 =>
        rw [hn0] at hni hgn hI'
        exact ⟨hn, by rw [hni.same.K, hgn.1, h.K], hni.same.allowSelf.trans hI'.1, hfree, SBMInv.good hgn.2 hni, hp, fun i hi j hj => (hw i hi j hj).2.2⟩
      | fixedSparsity n0 => exact absurd hn0 (hf n0)
      | er n0 => rw [hn0] at hni; exact hni.elim
    exact ⟨C79_block_probability_ascends huge hs hx, C79_block_scale_ascends huge hs hx, C79_block_frequencies_ascend huge hs hx⟩
  · intro n hn
    have hni := h.net
    have hgn := g.net
    have hI' := hI
    rw [hn] at hni
    cases hn0 : M0.net with
    | er n0 =>
      rw [hn0] at hni hgn hI'
      obtain ⟨iK, ik, ip, iS, ia, ib, iv⟩ := hni
      obtain ⟨gK, gk, _, al, be, a0, b0, h1, h2, h3, p1, p2, p3, p4⟩ := hgn
      obtain ⟨a, b, hm, ha, hb⟩ := iv al be a0 b0 h1 h2 h3
      have eP : n.P = n0.P := by funext i j; simp [ERFixed.P, iS, ip]
      exact C79_er_scale_ascends huge hn (by rw [iK, gK, h.K]) (ia.trans h1) (ib.trans h2) hm p1 p2 (lt_of_lt_of_le (lt_min p3 p1) ha) (lt_of_lt_of_le (lt_min p4 p2) hb)
        (ik ▸ gk) (by rw [eP, h.K]; exact hI') hp (fun i hi j hj => (hw i hi j hj).2.2) hx
    | fixedSparsity n0 => exact absurd hn0 (hf n0)
    | sbm n0 => rw [hn0] at hni; exact hni.elim

end PyHawkes
