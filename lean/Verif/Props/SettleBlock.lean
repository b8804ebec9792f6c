import Verif.Props.Settle
import Verif.Props.EvidenceBlock

/-! # C79, C110: the whole coordinate step with the default one-block network -/
set_option linter.unusedSectionVars false
set_option linter.unusedVariables false

namespace PyHawkes
open Finset MeasureTheory ProbabilityTheory Spec Filter

/-- with one block the label update changes nothing -/
theorem updateC_oneBlock (n : SBM) (hC : n.C = 1) (hm : ∀ k < n.K, n.mfM k 0 = 1) (EA EW ELW : Mat ℝ) :
    ∃ m, n.mfUpdateC EA EW ELW 1 = { n with mfM := m } ∧ ∀ i, m i 0 = n.mfM i 0 := by
  unfold SBM.mfUpdateC
  refine forRange_induct (fun _ n' => ∃ m, n' = { n with mfM := m } ∧ ∀ i, m i 0 = n.mfM i 0) n.K _ n ⟨n.mfM, rfl, fun _ => rfl⟩ ?_
  rintro k hk n' ⟨m, rfl, h⟩
  refine ⟨_, rfl, fun i => ?_⟩
  dsimp only
  split_ifs with hi
  · subst hi
    rw [hC, range_one, sum_singleton, Real.log_exp, sub_self, sub_self, Real.exp_zero, hm i hk]
    ring
  · exact h i

/-- the bound does not change with the label update of one block -/
theorem vlb_one_block (huge : ℝ) (M : MFModel) (n : SBM) (hC : n.C = 1) {m : Mat ℝ} (hm : ∀ i, m i 0 = n.mfM i 0) :
    (M.withNet (.sbm { n with mfM := m })).vlb huge = (M.withNet (.sbm n)).vlb huge := by
  set n' : SBM := { n with mfM := m } with hn'
  have hmix : ∀ f, n'.mix f = n.mix f := by
    intro f; funext i j
    simp only [SBM.mix, hn', hC, range_one, sum_singleton, hm]
  have b1 : n'.blkLnP = n.blkLnP := rfl
  have b2 : n'.blkLnNotP = n.blkLnNotP := rfl
  have b3 : n'.blkLnV = n.blkLnV := rfl
  have e1 : (MFNet.sbm n').eV = (MFNet.sbm n).eV := by
    simp only [MFNet.eV, hn', hC, range_one, sum_singleton, hm]; rfl
  have e2 : (MFNet.sbm n').eLnV = (MFNet.sbm n).eLnV := by
    simp only [MFNet.eLnV, hmix, b3]; rfl
  have e3 : (MFNet.sbm n').eLnP = (MFNet.sbm n).eLnP := by
    funext i j; simp only [MFNet.eLnP, hmix, b1]; rfl
  have e4 : (MFNet.sbm n').eLnNotP = (MFNet.sbm n).eLnNotP := by
    funext i j; simp only [MFNet.eLnNotP, hmix, b2]; rfl
  have e5 : n'.vlb huge {} = n.vlb huge {} := by
    have d1 : ∀ k, discreteNegent huge n'.C (n'.mfM k) (fun c => .fin (n'.eLnM c)) = discreteNegent huge n.C (n.mfM k) (fun c => .fin (n.eLnM c)) := by
      intro k
      have : n'.eLnM = n.eLnM := rfl
      rw [this]
      simp [discreteNegent, hn', hC, hm]
    have d2 : ∀ k, discreteNegent huge n'.C (n'.mfM k) (fun c => FX.log (n'.mfM k c)) = discreteNegent huge n.C (n.mfM k) (fun c => FX.log (n.mfM k c)) := by
      intro k
      simp [discreteNegent, hn', hC, hm]
    unfold SBM.vlb
    simp only [d1, d2]
    rfl
  have e6 : ∀ V L, M.w.vlb M.K (.sbm n') V L = M.w.vlb M.K (.sbm n) V L := by
    intro V L
    unfold MFWeights.vlb
    simp only [e3, e4]
    rfl
  have e7 : (M.withNet (.sbm n')).parentsVlb = (M.withNet (.sbm n)).parentsVlb := rfl
  have u : ∀ k : SBM, (M.withNet (.sbm k)).vlb huge = (match (MFNet.sbm k).eV, (MFNet.sbm k).eLnV with
      | .ok V, .ok L => .ok (FX.sum (M.data.map (M.withNet (.sbm k)).parentsVlb) + .fin (M.bias.vlb M.K) + .fin (M.imp.vlb M.K M.B) + M.w.vlb M.K (.sbm k) V L + .fin (k.vlb huge {}))
      | _, _ => .error .attribute) := fun k => rfl
  rw [u, u, e1, e2, e5, e7]
  simp only [e6]

/-- the updates of the coordinate step that follow the parents' update, with one block, in any reachable state -/
theorem block_globals_ascent (huge : ℝ) {M0 M : MFModel} (g : MFGood M0) (hK : 0 < M0.K) (hB : 0 < M0.B) {n0 : SBM} (hn0 : M0.net = .sbm n0) (hC : n0.C = 1)
    (hself : n0.allowSelf = true) (hfree : n0.fixed = false) (hdt : M0.bias.dt = 1) (h : MFInv M0 M) (hD : ∀ D ∈ M.data, DataOk D) {x1 : ℝ}
    (hx1 : { M with data := M.data.map M.updateParents }.vlb huge = .ok (.fin x1)) :
    ∃ M' y, M.coordStep = .ok M' ∧ M'.vlb huge = .ok (.fin y) ∧ x1 ≤ y := by
  have hI : Interior M0.K M0.net := by rw [hn0]; exact ⟨hself, fun hh => by rw [hfree] at hh; cases hh⟩
  obtain ⟨M', e', h'⟩ := coordInv g h
  have hK' : 0 < M.K := h.K ▸ hK
  have hlog := fun i (hi : i < M.K) j (hj : j < M.K) => Interior.logs hI h.net (h.K ▸ hi) (h.K ▸ hj)
  have hs : M.net.allowSelf = true := by
    have := (hlog 0 hK' 0 hK').2.2
    simpa using this
  have hni := h.net
  have hgn := g.net
  rw [hn0] at hni hgn
  cases hn : M.net with
  | er n => rw [hn] at hni; exact hni.elim
  | fixedSparsity n => rw [hn] at hni; exact hni.elim
  | sbm n =>
  rw [hn] at hni
  have hni : SBMInv n0 n := hni
  obtain ⟨gK, gg⟩ := hgn
  set dl := M.data.map M.updateParents with hdl
  have hDl : ∀ D ∈ dl, DataOk D := by
    intro D hD'
    obtain ⟨D', hD'', rfl⟩ := List.mem_map.1 hD'
    exact (hD D' hD'').update M
  -- background
  obtain ⟨x2, hx2, le2⟩ := C55_bias_update_ascends_partial huge { M with data := dl } (h.bias.2.2.trans hdt) (h.bias.1 ▸ g.bias.1) (h.bias.2.1 ▸ g.bias.2.1)
    (fun k hk => by
      have v := h.valid.bias k (h.K ▸ hk)
      have gb := g.bias.2.2.2 k (h.K ▸ hk)
      exact ⟨lt_of_lt_of_le (lt_min gb.1 g.bias.1) v.1, lt_of_lt_of_le (lt_min gb.2 g.bias.2.1) v.2⟩) (fun D hD' => (hDl D hD').1) (fun D hD' => (hDl D hD').2.1) hx1
  -- impulse responses
  obtain ⟨x3, hx3, le3⟩ := C55_impulse_update_ascends huge ({ M with data := dl } : MFModel).updateBias (h.B ▸ hB) (fun b hb => by
      show 0 < M.imp.gamma b
      rw [h.gamma]; exact (g.imp b (h.B ▸ hb)).1) (fun i hi j hj b hb => by
      have gi := g.imp b (h.B ▸ hb)
      exact lt_of_lt_of_le (lt_min (gi.2 i (h.K ▸ hi) j (h.K ▸ hj)) gi.1) (h.valid.imp i (h.K ▸ hi) j (h.K ▸ hj) b (h.B ▸ hb)))
      (fun D hD' => (hDl D hD').1) (fun D hD' => (hDl D hD').2.1) hx2
  -- weights
  have hwp := h.wPos g
  obtain ⟨V, L, hV, hL, hv⟩ := h.net.eV g.net
  have hlp : ∀ i < M.K, ∀ j < M.K, M.net.eLnP i j = .fin (n.mix n.blkLnP i j) ∧ M.net.eLnNotP i j = .fin (n.mix n.blkLnNotP i j) := by
    intro i hi j hj
    rw [hn]
    exact sbm_logs n (hni.same.allowSelf.trans hself) (hni.same.fixed.trans hfree) i j
  obtain ⟨M4, x4, hu4, hx4, le4⟩ := C79_weights_update_ascends huge (({ M with data := dl } : MFModel).updateBias.updateImp) hs hV hlp (by
      show 0 < M.net.kappa
      rw [h.net.kappa]; exact NetGood.kappaPos g.net)
    (fun i hi j hj => hv i (h.K ▸ hi) j (h.K ▸ hj)) (by
      show 0 < M.w.kappa0 ∧ 0 < M.w.nu0
      rw [h.w.1, h.w.2]; exact g.w) hwp (fun i hi j hj => h.valid.p i (h.K ▸ hi) j (h.K ▸ hj)) (fun D hD' => (hDl D hD').1) (fun D hD' => (hDl D hD').2.1) hx3
  have hne : dl ≠ [] := by
    intro hh
    have : M.data.length = 0 := by simpa [hdl] using congrArg List.length hh
    rw [h.len] at this
    exact g.data.1 (List.length_eq_zero_iff.1 this)
  unfold MFModel.updateWeights at hu4
  have hw4 : (({ M with data := dl } : MFModel).updateBias.updateImp).w.update (({ M with data := dl } : MFModel).updateBias.updateImp).K
      (({ M with data := dl } : MFModel).updateBias.updateImp).B (({ M with data := dl } : MFModel).updateBias.updateImp).net
      (({ M with data := dl } : MFModel).updateBias.updateImp).data 1 1 = M.w.update M.K M.B M.net dl 1 1 := rfl
  rw [hw4] at hu4
  cases hw : M.w.update M.K M.B M.net dl 1 1 with
  | error er => rw [hw] at hu4; cases hu4
  | ok w' =>
  rw [hw] at hu4
  have hM4 := Except.ok.inj hu4
  have ecs : M.coordStep = .ok { M with bias := M.bias.update dl 1 1, imp := M.imp.update M.B dl 1 1, w := w', net := .sbm (n.meanfieldupdate w' {}), data := dl } := by
    unfold MFModel.coordStep MFModel.updateGlobals
    rw [← hdl]
    dsimp only
    rw [if_neg hne, hw]
    dsimp only
    rw [hn]
    simp only [MFNet.meanfieldupdate]
  rw [ecs] at e'
  have hM' := Except.ok.inj e'
  have hwM : M'.w = w' := by rw [← hM']
  have hKM : M'.K = M.K := by rw [← hM']
  have hw4' : M4.w = w' := by rw [← hM4]
  have hK4 : M4.K = M.K := by rw [← hM4]; rfl
  have hp4 : ∀ i < M4.K, ∀ j < M4.K, 0 < M4.w.mfP i j ∧ M4.w.mfP i j < 1 := by
    have := h'.pOpen; rw [hwM, hKM] at this; rw [hw4', hK4]; exact this
  have hv4 : ∀ i < M4.K, ∀ j < M4.K, 0 < M4.w.mfKappa1 i j ∧ 0 < M4.w.mfV1 i j := by
    have := h'.wPos g; rw [hwM, hKM] at this; rw [hw4', hK4]; exact fun i hi j hj => (this i hi j hj).2.2
  have eK : n0.K = M4.K := by rw [hK4, h.K, gK]
  have hA : ∀ i < n0.K, ∀ j < n0.K, 0 ≤ w'.mfP i j ∧ w'.mfP i j ≤ 1 := by
    rw [eK, ← hw4']; exact fun i hi j hj => ⟨(hp4 i hi j hj).1.le, (hp4 i hi j hj).2.le⟩
  have hW : ∀ i < n0.K, ∀ j < n0.K, 0 ≤ w'.eWGivenA 1 i j := by
    rw [eK, ← hw4']
    intro i hi j hj
    have := hv4 i hi j hj
    simp only [MFWeights.eWGivenA, one_mul, sub_self, zero_mul, add_zero]
    exact (div_pos this.1 this.2).le
  -- network
  have st : ∀ n1, SBMInv n0 n1 → SBMState (M4.withNet (.sbm n1)) n1 := fun n1 hi =>
    ⟨rfl, hi.same.K.trans eK, hi.same.allowSelf.trans hself, hi.same.fixed.trans hfree, SBMInv.good gg hi, hp4, hv4⟩
  have e4 : M4.withNet (.sbm n) = M4 := by
    rw [← hM4]
    show ({ M with data := dl, bias := _, imp := _, w := w', net := .sbm n } : MFModel) = { M with data := dl, bias := _, imp := _, w := w' }
    rw [← hn]
  have i1 := SBMInv.updateP gg hni zero_le_one le_rfl hA
  have i2 := SBMInv.updateV gg i1 zero_le_one le_rfl hA hW
  have i3 := SBMInv.updateM gg i2 zero_le_one (le_refl (1:ℝ))
  have ww : ∀ a b, (M4.withNet a).withNet b = M4.withNet b := fun _ _ => rfl
  have wN : ∀ a, (M4.withNet a).w = w' := fun _ => hw4'
  obtain ⟨y1, hy1, l1⟩ := C79_block_probability_ascends huge (st n hni) (x := x4) (by rw [e4]; exact hx4)
  rw [ww, wN] at hy1
  obtain ⟨y2, hy2, l2⟩ := C79_block_scale_ascends huge (st _ i1) hy1
  rw [ww, wN] at hy2
  obtain ⟨y3, hy3, l3⟩ := C79_block_frequencies_ascend huge (st _ i2) hy2
  rw [ww] at hy3
  set n3 := ((n.mfUpdateP w'.mfP 1).mfUpdateV w'.mfP (w'.eWGivenA 1) 1).mfUpdateM 1 with hn3
  have hC3 : n3.C = 1 := i3.same.C.trans hC
  obtain ⟨m, hm, hm0⟩ := updateC_oneBlock n3 hC3 (by
    intro k hk
    have := (i3.valid.m k (by rw [← i3.same.K]; exact hk)).2
    rw [hC, range_one, sum_singleton] at this
    exact this) w'.mfP (w'.eWGivenA 1) (w'.eLnWGivenA 1)
  have enet : n.meanfieldupdate w' {} = { n3 with mfM := m } := hm
  refine ⟨M', y3, by rw [ecs, hM'], ?_, by linarith⟩
  rw [← hM', enet]
  have hfin := vlb_one_block huge M4 n3 hC3 hm0
  have : (M4.withNet (.sbm n3)).vlb huge = .ok (.fin y3) := hy3
  rw [this] at hfin
  rw [← hfin, ← hM4]
  rfl

/-- **C79 (whole coordinate step, one block, partial).** The default network: one block, learned, self connections allowed; bins of unit length. After every history of legal mean-field calls that
contains a coordinate step, the next `meanfield_coordinate_descent_step` leaves a finite bound, smaller than before by at most the parents' guard terms of order `1e-32` per event.
Missing: other bin lengths (`C55_bias_update_violated`) and several blocks (`C79_label_update_violated`). -/
theorem C79_one_block_coordinate_step_partial (huge : ℝ) (M0 : MFModel) (g : MFGood M0) (hK : 0 < M0.K) (hB : 0 < M0.B) (n0 : SBM) (hn0 : M0.net = .sbm n0) (hC : n0.C = 1)
    (hself : n0.allowSelf = true) (hfree : n0.fixed = false) (hdt : M0.bias.dt = 1) (hd : ∀ D ∈ M0.data, D.EZ = none ∧ ∀ t k, D.S t k < 2 ^ 32) (acts : List MFAct)
    (hl : ∀ a ∈ acts, a.Legal M0) (hc : .coord ∈ acts) :
    ∃ M M' x y, runActs acts M0 = .ok M ∧ M.coordStep = .ok M' ∧ M.vlb huge = .ok (.fin x) ∧ M'.vlb huge = .ok (.fin y) ∧
      x - (M.data.map (dataLoss M)).sum ≤ y := by
  have hI : Interior M0.K M0.net := by rw [hn0]; exact ⟨hself, fun hh => by rw [hfree] at hh; cases hh⟩
  obtain ⟨M, e, h⟩ := runActs_inv M0 g acts hl
  have hfresh : ∀ D ∈ M0.data, DataOk D := fun D hD => DataOk.fresh (hd D hD).1 (hd D hD).2 (g.data.2 D hD).2
  have hD := runActs_data e hfresh
  have hsum := runActs_sum M0 g hK hI acts hl (MFInv.refl g) e hfresh (.inl hc)
  obtain ⟨x, hx⟩ := vlb_finite huge g h hI (by rw [hn0]; exact fun n => MFNet.noConfusion) hD
  have hs : M.net.allowSelf = true := by
    have := (Interior.logs hI h.net hK hK).2.2
    simpa using this
  obtain ⟨x1, hx1, le1⟩ := C79_parents_update_partial huge M hs hD (by rw [h.K, h.B]; exact hsum) hx
  obtain ⟨M', y, e', hy, le2⟩ := block_globals_ascent huge g hK hB hn0 hC hself hfree hdt h hD hx1
  exact ⟨M, M', x, y, e, e', hx, hy, by linarith⟩

/-- **C110 (one block, partial).** The same for the default network: one block whose edge probability and weight scale are learned, self connections allowed, bins of unit length, data stored by `add_data`.
After every history of legal mean-field calls, calling `meanfield_coordinate_descent_step()` again and again, every call succeeds, `get_vlb()` is a finite number after every call, and the values
eventually stay within any tolerance plus `settleSlack` (the size of the code's guards, of order `1e-32`) of one number, and of each other. Missing: other bin lengths, several blocks. -/
theorem C110_one_block_settles_partial (huge : ℝ) (M0 : MFModel) (g : MFGood M0) (hK : 0 < M0.K) (hB : 0 < M0.B) (n0 : SBM) (hn0 : M0.net = .sbm n0) (hC : n0.C = 1)
    (hself : n0.allowSelf = true) (hfree : n0.fixed = false) (hdt : M0.bias.dt = 1) (hd : ∀ D ∈ M0.data, D.EZ = none ∧ ∀ t k, D.S t k < 2 ^ 32)
    (hF : FilteredFromEvents M0.K M0.B M0.data) (acts : List MFAct) (hl : ∀ a ∈ acts, a.Legal M0) :
    ∃ v : ℕ → ℝ, (∀ j, ∃ M, runActs (acts ++ List.replicate j .coord) M0 = .ok M ∧ M.vlb huge = .ok (.fin (v j))) ∧
      ∃ L, ∀ ε > 0, ∃ N, ∀ j ≥ N, |v j - L| ≤ settleSlack M0.K M0.B M0.data + ε ∧ ∀ i ≥ N, |v j - v i| ≤ settleSlack M0.K M0.B M0.data + ε := by
  have hI : Interior M0.K M0.net := by rw [hn0]; exact ⟨hself, fun hh => by rw [hfree] at hh; cases hh⟩
  have hgn := g.net
  rw [hn0] at hgn
  obtain ⟨gK, gg⟩ := hgn
  let n : SBM := { n0 with c := fun _ => 0, p := fun _ _ => 1 / 2, v := fun _ _ => 1 }
  let c : HawkesState :=
    { base := { K := M0.K, B := M0.B, dt := 1, lam0 := fun _ => 1, Weff := fun _ _ => 1, g := fun _ _ _ => 1, L := 0, basis := fun _ _ => 0 }
      alpha := M0.bias.alpha, beta := M0.bias.beta, gamma := M0.imp.gamma, net := .sbm n, A := fun _ _ => 1, W := fun _ _ => 1, data := M0.data }
  have sh : SharedSettingsB M0 c n := ⟨rfl, rfl, rfl, rfl, rfl, n0, hn0, hC, hself, hfree, rfl, rfl, rfl, rfl, rfl⟩
  have hcfg : CfgOkB c n := by
    refine ⟨hB, fun D hD => ⟨fun t _ k _ b _ => (g.data.2 D hD).2 t k b, fun t _ k _ => (hd D hD).2 t k⟩, ⟨g.bias.1, g.bias.2.1, fun b hb => (g.imp b hb).1, one_pos, fun l hl => absurd hl (Nat.not_lt_zero _)⟩, ?_, hC, hself, hfree⟩
    exact ⟨gK, ⟨gg.tau.1, gg.tau.2, gg.ab.1, gg.ab.2, gg.kappa, gg.pi⟩, fun _ _ => gg.C, fun _ _ _ _ => ⟨by norm_num, by norm_num⟩, fun _ _ _ _ => one_pos⟩
  exact settles_core huge M0 g hK hI (by rw [hn0]; exact fun n => MFNet.noConfusion) hd (fun M x1 h hD hx1 => block_globals_ascent huge g hK hB hn0 hC hself hfree hdt h hD hx1)
    (fun acts hl hc => C103_block_lower_bound_partial huge g hK sh hcfg hF le_rfl (List.forall₂_same.2 fun D _ => ⟨rfl, rfl, rfl⟩) hd acts hl hc) acts hl

/-- the hypotheses are met by a concrete model: two processes with an event each, the learned one-block network, after a coordinate step and a stochastic step -/
theorem C110_one_block_demo_partial : ∃ v : ℕ → ℝ, (∀ j, ∃ M, runActs ([.coord, .sgd 1 (1 / 2)] ++ List.replicate j .coord) evBlock = .ok M ∧ M.vlb 1 = .ok (.fin (v j))) ∧
    ∃ L, ∀ ε > 0, ∃ N, ∀ j ≥ N, |v j - L| ≤ 1e-30 + ε ∧ ∀ i ≥ N, |v j - v i| ≤ 1e-30 + ε := by
  obtain ⟨v, h1, L, h2⟩ := C110_one_block_settles_partial 1 evBlock evBlock_good Nat.two_pos Nat.one_pos demoBlock rfl rfl rfl rfl rfl (fun D hD => by
      rw [List.mem_singleton.1 hD]
      exact ⟨rfl, fun t k => by dsimp only; split_ifs <;> norm_num⟩) demoChain_ok.2 [.coord, .sgd 1 (1 / 2)] (by
    intro a ha
    simp only [List.mem_cons, List.not_mem_nil, or_false] at ha
    rcases ha with rfl | rfl
    · trivial
    · exact ⟨one_pos, by norm_num, by norm_num, fun h => by norm_num at h, rfl⟩)
  have hs : settleSlack evBlock.K evBlock.B evBlock.data ≤ 1e-30 := by
    show settleSlack 2 1 [{ T := 3, S := fun t k => if t = k then 1 else 0, F := fun t k _ => if k < t then 1 else 0 }] ≤ 1e-30
    simp [settleSlack, sum_range_succ]
    norm_num
  refine ⟨v, h1, L, fun ε hε => ?_⟩
  obtain ⟨N, hN⟩ := h2 ε hε
  exact ⟨N, fun j hj => ⟨by linarith [(hN j hj).1], fun i hi => by linarith [(hN j hj).2 i hi]⟩⟩

end PyHawkes
