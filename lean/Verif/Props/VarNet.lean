import Verif.Props.VarWindows

/-! # C51: expected network quantities; C53: stochastic steps and coordinate steps; C54: update flags -/
set_option linter.unusedSectionVars false

namespace PyHawkes
open Finset Spec

/-! ### C51 -/

theorem mix_one (n : SBM) (i j : ℕ) (hi : ∑ c ∈ range n.C, n.mfM i c = 1) (hj : ∑ c ∈ range n.C, n.mfM j c = 1) :
    ∑ c1 ∈ range n.C, ∑ c2 ∈ range n.C, n.mfM i c1 * n.mfM j c2 = 1 := by
  simp_rw [← mul_sum, hj, mul_one, hi]

theorem SBM_eP_mem (n : SBM) (g : SBMGood n) {i j : ℕ} (hi : i < n.K) (hj : j < n.K) : 0 ≤ n.eP i j ∧ n.eP i j ≤ 1 := by
  unfold SBM.eP
  split_ifs
  · exact g.P i hi j hj
  · norm_num
  · have hm := mix_one n i j (g.mfM i hi).2 (g.mfM j hj).2
    have h0 : ∀ c1 ∈ range n.C, ∀ c2 ∈ range n.C, 0 ≤ n.mfM i c1 * n.mfM j c2 := fun c1 h1 c2 h2 =>
      mul_nonneg ((g.mfM i hi).1 _ (mem_range.1 h1)) ((g.mfM j hj).1 _ (mem_range.1 h2))
    have ht : ∀ c1 ∈ range n.C, ∀ c2 ∈ range n.C, 0 < n.mfTau0 c1 c2 ∧ 0 < n.mfTau1 c1 c2 := fun c1 h1 c2 h2 =>
      g.mfTau _ (mem_range.1 h1) _ (mem_range.1 h2)
    constructor
    · refine sum_nonneg fun c1 h1 => sum_nonneg fun c2 h2 => div_nonneg (mul_nonneg (h0 c1 h1 c2 h2) (ht c1 h1 c2 h2).2.le) ?_
      linarith [(ht c1 h1 c2 h2).1, (ht c1 h1 c2 h2).2]
    · rw [← hm]
      refine sum_le_sum fun c1 h1 => sum_le_sum fun c2 h2 => ?_
      obtain ⟨t0, t1⟩ := ht c1 h1 c2 h2
      rw [div_le_iff₀ (by linarith)]
      exact mul_le_mul_of_nonneg_left (by linarith) (h0 c1 h1 c2 h2)

theorem SBM_P_diag (n : SBM) (h : n.allowSelf = false) (i : ℕ) : n.P i i = 0 := by simp [SBM.P, h]

theorem SBM_eP_diag (n : SBM) (h : n.allowSelf = false) (i : ℕ) : n.eP i i = 0 := by
  unfold SBM.eP
  split_ifs with c1 c2
  · exact SBM_P_diag n h i
  · rfl
  · simp [h] at c2

/-- **C51.** For every legal network state (every state reachable by mean-field steps is legal, `C51_reachable_legal`) with any of the three network classes:
expected edge probabilities lie in `[0,1]`, are zero on the diagonal when self connections are disallowed, and add up to one with the probabilities of no
edge; the expected scales exist and are positive. -/
theorem C51_expectations (K : ℕ) (net : MFNet) (g : NetGood K net) {i j : ℕ} (hi : i < K) (hj : j < K) :
    0 ≤ net.eP i j ∧ net.eP i j ≤ 1 ∧ net.eP i j + net.eNotP i j = 1 ∧ (net.allowSelf = false → net.eP i i = 0) ∧
    ∃ V, net.eV = .ok V ∧ 0 < V i j := by
  obtain ⟨V, L, hV, hL, hpos⟩ := (NetInv.refl g).eV g
  have hmem : 0 ≤ net.eP i j ∧ net.eP i j ≤ 1 := by
    cases net with
    | sbm n => exact SBM_eP_mem n g.2 (g.1.symm ▸ hi) (g.1.symm ▸ hj)
    | fixedSparsity n => exact g.2.P i (g.1.symm ▸ hi) j (g.1.symm ▸ hj)
    | er n => exact g.2.2.1 i hi j hj
  refine ⟨hmem.1, hmem.2, by unfold MFNet.eNotP; ring, fun ha => ?_, V, hV, hpos i hi j hj⟩
  cases net with
  | sbm n => exact SBM_eP_diag n ha i
  | fixedSparsity n => exact SBM_P_diag n ha i
  | er n => simp only [MFNet.allowSelf] at ha; simp [MFNet.eP, ERFixed.P, ha]

/-- **C51 (blocks).** The expected block probabilities are positive and sum to one. -/
theorem C51_blocks (n : SBM) (g : SBMGood n) : (∀ c < n.C, 0 < n.eM c) ∧ ∑ c ∈ range n.C, n.eM c = 1 := by
  have hS : 0 < ∑ c ∈ range n.C, n.mfPi c := sum_pos (fun c hc => g.mfPi c (mem_range.1 hc)) ⟨0, mem_range.2 g.C⟩
  refine ⟨fun c hc => div_pos (g.mfPi c hc) hS, ?_⟩
  unfold SBM.eM
  rw [← sum_div, div_self hS.ne']

theorem SBMInv.good {n0 n : SBM} (g : SBMGood n0) (h : SBMInv n0 n) : SBMGood n := by
  have s := h.same
  refine ⟨s.C ▸ g.C, s.kappa ▸ g.kappa, by rw [s.tau0, s.tau1]; exact g.tau, by rw [s.alpha, s.beta]; exact g.ab, by rw [s.C, s.pi]; exact g.pi, ?_, ?_, ?_, ?_, ?_, ?_⟩
  · rw [s.C]; exact fun c hc d hd => h.tauPos g hc hd
  · rw [s.C]; exact fun c hc d hd => h.abPos g hc hd
  · rw [s.C]; exact fun c hc => h.piPos g hc
  · rw [s.C, s.K]; exact h.valid.m
  · rw [s.K, s.P]; exact g.P
  · rw [s.K, s.V]; exact g.V

theorem NetInv.good {K : ℕ} {a b : MFNet} (g : NetGood K a) (h : NetInv a b) : NetGood K b := by
  cases a with
  | sbm n0 => cases b with
    | sbm n => exact ⟨(SBMInv.same h).K.trans g.1, SBMInv.good g.2 h⟩
    | fixedSparsity n => exact h.elim
    | er n => exact h.elim
  | fixedSparsity n0 => cases b with
    | fixedSparsity n => exact ⟨(SBMInv.same h).K.trans g.1, SBMInv.good g.2 h⟩
    | sbm n => exact h.elim
    | er n => exact h.elim
  | er n0 => cases b with
    | er n =>
      obtain ⟨hK, hk, hP, al, be, a0, b0, e1, e2, e3, p1, p2, p3, p4⟩ := g
      obtain ⟨iK, ik, ip, iS, ia, ib, iv⟩ := h
      obtain ⟨a, b, hm, ha, hb⟩ := iv al be a0 b0 e1 e2 e3
      have e : n.P = n0.P := by funext i j; simp [ERFixed.P, iS, ip]
      exact ⟨iK.trans hK, ik ▸ hk, e ▸ hP, al, be, a, b, ia.trans e1, ib.trans e2, hm, p1, p2, (lt_min p3 p1).trans_le ha, (lt_min p4 p2).trans_le hb⟩
    | sbm n => exact h.elim
    | fixedSparsity n => exact h.elim

/-- every history of legal steps from a legal start runs to a state with the full invariant -/
theorem runActs_inv (M0 : MFModel) (g : MFGood M0) (acts : List MFAct) (hl : ∀ a ∈ acts, a.Legal M0) :
    ∃ M, runActs acts M0 = .ok M ∧ MFInv M0 M := by
  suffices H : ∀ M, MFInv M0 M → ∃ M', runActs acts M = .ok M' ∧ MFInv M0 M' from H M0 (MFInv.refl g)
  induction acts with
  | nil => exact fun M h => ⟨M, rfl, h⟩
  | cons a as ih =>
    intro M h
    have hstep : ∃ M', a.run M = .ok M' ∧ MFInv M0 M' := by
      have hla := hl a List.mem_cons_self
      cases a with
      | coord => exact coordInv g h
      | sgd mb s => exact sgdInv g h hla.1 hla.2.1 hla.2.2.1 hla.2.2.2.1 hla.2.2.2.2
    obtain ⟨M1, e1, h1⟩ := hstep
    obtain ⟨M2, e2, h2⟩ := ih (fun b hb => hl b (List.mem_cons_of_mem _ hb)) M1 h1
    exact ⟨M2, by simp only [runActs, e1, e2], h2⟩

/-- **C51 (reachable states).** Every network state reached by a history of legal mean-field steps from a legal start is legal. -/
theorem C51_reachable_legal (M0 : MFModel) (g : MFGood M0) (acts : List MFAct) (hl : ∀ a ∈ acts, a.Legal M0) (M : MFModel)
    (hrun : runActs acts M0 = .ok M) : NetGood M0.K M.net := by
  obtain ⟨M', e, h⟩ := runActs_inv M0 g acts hl
  rw [hrun] at e
  cases e
  exact h.net.good g.net

example : 0 ≤ (MFNet.sbm (exSBM false)).eP 0 1 ∧ (MFNet.sbm (exSBM false)).eP 0 0 = 0 :=
  have h := C51_expectations 2 (.sbm (exSBM false)) ⟨rfl, exSBM_good false⟩ (i := 0) (j := 1) (by norm_num) (by norm_num)
  ⟨h.1, h.2.2.2.1 rfl⟩

/-! ### C53 -/

theorem mfUpdateC_frame (EA EW ELW : Mat ℝ) (s : ℝ) (n : SBM) :
    (n.mfUpdateC EA EW ELW s).mfTau0 = n.mfTau0 ∧ (n.mfUpdateC EA EW ELW s).mfTau1 = n.mfTau1 ∧ (n.mfUpdateC EA EW ELW s).mfAlpha = n.mfAlpha ∧
    (n.mfUpdateC EA EW ELW s).mfBeta = n.mfBeta ∧ (n.mfUpdateC EA EW ELW s).mfPi = n.mfPi := by
  unfold SBM.mfUpdateC
  exact forRange_induct (fun (_ : ℕ) (m : SBM) => m.mfTau0 = n.mfTau0 ∧ m.mfTau1 = n.mfTau1 ∧ m.mfAlpha = n.mfAlpha ∧ m.mfBeta = n.mfBeta ∧ m.mfPi = n.mfPi) n.K _ n
    ⟨rfl, rfl, rfl, rfl, rfl⟩ fun _ _ _ hm => hm


/-- **C53 (network).** For the block model and for the Erdos-Renyi network a stochastic step with step size one is the coordinate update. -/
theorem C53_network_full_step (w : MFWeights) (net : MFNet) (h : ∀ n, net ≠ .fixedSparsity n) : net.sgdstep w 1 = net.meanfieldupdate w := by
  cases net with
  | sbm n => rfl
  | er n => rfl
  | fixedSparsity n => exact absurd rfl (h n)

/-- the same for the fixed-sparsity network is false: the coordinate update changes the variational parameters of `p`, the stochastic step does not -/
theorem C53_fixed_sparsity_violated : ∃ w n, (MFNet.fixedSparsity n).sgdstep w 1 ≠ (MFNet.fixedSparsity n).meanfieldupdate w := by
  refine ⟨MFWeights.init 1 1 1 (fun _ _ => 1), exSBM true, fun h => ?_⟩
  simp only [MFNet.sgdstep, MFNet.meanfieldupdate, Except.ok.injEq, MFNet.fixedSparsity.injEq] at h
  have h1 := congrArg (fun n => n.mfTau1 0 0) h
  simp only [SBM.sgdstep, SBM.meanfieldupdate, if_true, (mfUpdateC_frame _ _ _ _ _).2.1, SBM.mfUpdateM, SBM.mfUpdateV, SBM.mfUpdateP] at h1
  simp [exSBM, MFWeights.init] at h1
  norm_num at h1

/-- **C53 (whole model, full batch).** On a model with one data set whose network is not of the fixed-sparsity class, `sgd_step(minibatchsize, 1)` with a minibatch that covers
all bins does to the bias, impulse, weight and network parameters exactly what `meanfield_coordinate_descent_step()` does. -/
theorem C53_full_batch_is_coordinate_step (M : MFModel) (D : DParents ℝ) (hD : M.data = [D]) (hT : 0 < D.T) (hnet : ∀ n, M.net ≠ .fixedSparsity n)
    {mb : ℕ} (hmb : D.T ≤ mb) :
    (M.sgdStep mb 1).map (fun M : MFModel => (M.bias, M.imp, M.w, M.net)) =
      M.coordStep.map (fun M : MFModel => (M.bias, M.imp, M.w, M.net)) := by
  have hwin : sgdWindow D.T mb M.sgdOffset = (0, D.T) := by
    unfold sgdWindow
    cases M.sgdOffset with
    | none => simp [hmb]
    | some o => simp only; rw [if_pos (by omega)]; simp [hmb]
  have hsl : sliceData D.S D.F 0 D.T = { T := D.T, S := D.S, F := D.F } := by simp [sliceData]
  have hup : M.updateParents { T := D.T, S := D.S, F := D.F } = { M.updateParents D with Z := none } := rfl
  have hss : ∀ fr s upd, (M.updateGlobals [{ M.updateParents D with Z := none }] fr s upd) = M.updateGlobals [M.updateParents D] fr s upd := by
    intro fr s upd
    rfl
  have hT' : ((D.T : ℝ)) ≠ 0 := Nat.cast_ne_zero.2 hT.ne'
  simp only [MFModel.sgdStep, MFModel.coordStep, hD, hwin, List.map_cons, List.map_nil, hsl, hup, hss, div_self hT']
  have hupd : M.updateGlobals [M.updateParents D] 1 1 (fun w => MFNet.sgdstep w 1) = M.updateGlobals [M.updateParents D] 1 1 MFNet.meanfieldupdate := by
    simp only [MFModel.updateGlobals, C53_network_full_step _ M.net hnet]
  rw [hupd]
  cases M.updateGlobals [M.updateParents D] 1 1 MFNet.meanfieldupdate <;> rfl

example : (((exMF true).sgdStep 5 1).map fun M : MFModel => (M.bias, M.imp, M.w, M.net)) = (exMF true).coordStep.map fun M : MFModel => (M.bias, M.imp, M.w, M.net) :=
  C53_full_batch_is_coordinate_step (exMF true) _ rfl (by norm_num) (fun n h => MFNet.noConfusion h) (by norm_num)

theorem logistic_logit {p : ℝ} (h0 : 0 < p) (h1 : p < 1) : pyLogistic (Real.log p - Real.log (1 - p)) 1 = p := by
  unfold pyLogistic
  have h2 : 0 < 1 - p := by linarith
  rw [neg_sub, Real.exp_sub, Real.exp_log h2, Real.exp_log h0]
  field_simp
  ring

/-- **C53 (step size zero).** With step size zero, a legal state and no edge of prior probability 0 or 1, a stochastic step changes no variational parameter. -/
theorem C53_step_zero (M : MFModel) (g : MFGood M) (hI : Interior M.K M.net) (hl : M.data.length = 1) (mb : ℕ) :
    ∃ M', M.sgdStep mb 0 = .ok M' ∧ M'.bias = M.bias ∧ M'.imp = M.imp ∧ M'.net = M.net ∧ M'.data = M.data ∧
      M'.w.mfKappa0 = M.w.mfKappa0 ∧ M'.w.mfV0 = M.w.mfV0 ∧ M'.w.mfKappa1 = M.w.mfKappa1 ∧ M'.w.mfV1 = M.w.mfV1 ∧
      ∀ i < M.K, ∀ j < M.K, M'.w.mfP i j = M.w.mfP i j := by
  obtain ⟨D, hD⟩ := List.length_eq_one_iff.1 hl
  have hgood := g
  obtain ⟨V, L, hV, hL, _⟩ := (NetInv.refl g.net).eV g.net
  set dl := [M.updateParents (sliceData D.S D.F (sgdWindow D.T mb M.sgdOffset).1 (sgdWindow D.T mb M.sgdOffset).2)] with hdl
  set fr : ℝ := ((sliceData D.S D.F (sgdWindow D.T mb M.sgdOffset).1 (sgdWindow D.T mb M.sgdOffset).2).T : ℝ) / D.T with hfr
  have hw1 : M.w.updateKappaV M.B M.net.kappa V dl fr 0 = M.w := by simp [MFWeights.updateKappaV]
  have hp : ∀ i < M.K, ∀ j < M.K, 0 < M.w.mfP i j ∧ M.w.mfP i j < 1 := by
    intro i hi j hj
    have := g.p i hi j hj
    norm_num at this
    constructor <;> linarith [this.1, this.2]
  have hfin : ∀ i < M.K, ∀ j < M.K, M.w.logitHat M.net L 0 i j = .fin (Real.log (M.w.mfP i j) - Real.log (1 - M.w.mfP i j)) := by
    intro i hi j hj
    have hf := ((NetInv.refl g.net).logOdds g.net hi hj).2 hI
    have hf' : (M.w.logitP M.net L i j).isFinite :=
      FX.add_fin_isFinite (FX.add_fin_isFinite (FX.add_fin_isFinite (FX.add_fin_isFinite hf _) _) _) _
    unfold MFWeights.logitHat
    cases hx : M.w.logitP M.net L i j with
    | fin x =>
      rw [div_one, FX.log_pos (hp i hi j hj).1, FX.log_pos (by linarith [(hp i hi j hj).2])]
      simp
    | nan => rw [hx] at hf'; exact hf'.elim
    | ninf => rw [hx] at hf'; exact hf'.elim
    | pinf => rw [hx] at hf'; exact hf'.elim
  have hnan : ¬ ∃ i < M.K, ∃ j < M.K, M.w.logitHat M.net L 0 i j = .nan := by
    rintro ⟨i, hi, j, hj, h⟩
    rw [hfin i hi j hj] at h
    exact FX.noConfusion h
  have eW : M.w.update M.K M.B M.net dl fr 0 = .ok { M.w with mfP := fun i j => clipLogistic (M.w.logitHat M.net L 0 i j) } := by
    simp only [MFWeights.update, hV, hL]
    rw [hw1]
    unfold MFWeights.updateP
    rw [if_neg hnan]
  have hsbm : ∀ (w : MFWeights) (f : NetFlags) (n : SBM), n.sgdstep w 0 f = n := by
    intro w f n
    have c1 : ∀ n : SBM, n.mfUpdateP w.mfP 0 = n := fun n => by simp [SBM.mfUpdateP]
    have c2 : ∀ n : SBM, n.mfUpdateV w.mfP (w.eWGivenA 1) 0 = n := fun n => by simp [SBM.mfUpdateV]
    have c3 : ∀ n : SBM, n.mfUpdateM 0 = n := fun n => by simp [SBM.mfUpdateM]
    have c4 : ∀ n : SBM, n.mfUpdateC w.mfP (w.eWGivenA 1) (w.eLnWGivenA 1) 0 = n := by
      intro n
      refine forRange_induct (fun _ m => m = n) n.K _ n rfl fun k _ m hm => ?_
      subst hm
      have : (fun i c => if i = k then (1 - 0) * m.mfM k c + 0 * Real.exp (m.mfLp w.mfP (w.eWGivenA 1) (w.eLnWGivenA 1) k c
          - Real.log (∑ c ∈ range m.C, Real.exp (m.mfLp w.mfP (w.eWGivenA 1) (w.eLnWGivenA 1) k c))) else m.mfM i c) = m.mfM := by
        funext i c
        split_ifs with h
        · rw [h]; ring
        · rfl
      simp only [SBM.mfUpdateC1, this]
    unfold SBM.sgdstep
    simp only [c1, c2, c3, c4, ite_self]
  have hnet : ∀ w, M.net.sgdstep w 0 = .ok M.net := by
    intro w
    have gn := g.net
    cases hn : M.net with
    | sbm n => simp only [MFNet.sgdstep, hsbm]
    | fixedSparsity n => simp only [MFNet.sgdstep, hsbm]
    | er n =>
      rw [hn] at gn
      obtain ⟨_, _, _, al, be, a0, b0, e1, e2, e3, _⟩ := gn
      simp only [MFNet.sgdstep, ERFixed.mfUpdate, e1, e2, e3]
      simp only [sub_zero, one_mul, zero_mul, add_zero]
      rw [← e1, ← e2, ← e3]
  refine ⟨{ M with w := { M.w with mfP := fun i j => clipLogistic (M.w.logitHat M.net L 0 i j) },
                   sgdOffset := some (sgdWindow D.T mb M.sgdOffset).1 }, ?_, rfl, rfl, rfl, rfl, rfl, rfl, rfl, rfl, ?_⟩
  · have hb : M.bias.update dl fr 0 = M.bias := by simp [MFBias.update]
    have hi : M.imp.update M.B dl fr 0 = M.imp := by simp [MFImp.update]
    simp only [MFModel.sgdStep, hD, MFModel.updateGlobals, ← hdl, ← hfr, hb, hi, eW, hnet]
    rw [if_neg (by rw [hdl]; exact List.cons_ne_nil _ _)]
  · intro i hi j hj
    show clipLogistic (M.w.logitHat M.net L 0 i j) = M.w.mfP i j
    rw [hfin i hi j hj]
    simp only [clipLogistic]
    rw [logistic_logit (hp i hi j hj).1 (hp i hi j hj).2, max_eq_left (g.p i hi j hj).1, min_eq_left (g.p i hi j hj).2]

example : ∃ M', (exMF true).sgdStep 2 0 = .ok M' ∧ M'.bias = (exMF true).bias := by
  obtain ⟨M', h, hb, _⟩ := C53_step_zero (exMF true) (exMF_good true) ⟨rfl, fun h => Bool.noConfusion h⟩ rfl 2
  exact ⟨M', h, hb⟩

/-- Without that restriction the claim fails: with self connections disallowed a step of size zero stores `nan` in the edge probabilities. -/
theorem C53_step_zero_violated : MFGood (exMF false) ∧ (exMF false).sgdStep 2 0 = .error .silentNan :=
  ⟨exMF_good false, C50_step_zero_nan_violated 2⟩

/-! ### C54 -/

/-- **C54 is false of the code.** `meanfieldupdate(update_p=False)` of a block model, and in particular the update of the fixed-sparsity network, changes the
variational parameters of `p`: the code tests `update_c` before calling `mf_update_p`. -/
theorem C54_update_p_ignored_violated :
    ∃ (w : MFWeights) (n : SBM), SBMGood n ∧ (n.meanfieldupdate w { p := false }).mfTau1 0 0 ≠ n.mfTau1 0 0 ∧
      (∃ n', (MFNet.fixedSparsity n).meanfieldupdate w = .ok (.fixedSparsity n') ∧ n'.mfTau1 0 0 ≠ n.mfTau1 0 0) := by
  have key : ((exSBM true).meanfieldupdate (MFWeights.init 1 1 1 (fun _ _ => 1)) { p := false }).mfTau1 0 0 ≠ (exSBM true).mfTau1 0 0 := by
    simp only [SBM.meanfieldupdate, if_true, (mfUpdateC_frame _ _ _ _ _).2.1, SBM.mfUpdateM, SBM.mfUpdateV, SBM.mfUpdateP]
    simp [exSBM, MFWeights.init]
    norm_num
  exact ⟨MFWeights.init 1 1 1 (fun _ _ => 1), exSBM true, exSBM_good true, key, _, rfl, key⟩

/-- **C54 (partial).** What does hold. Stochastic steps respect all four flags (so the stochastic step of the fixed-sparsity network never changes the parameters of
`p`); coordinate updates respect `update_v`, `update_m` and `update_c`, and do not change the parameters of `p` if `update_c` is false. Missing: coordinate updates with
`update_p` false and `update_c` true, for which the claim is false. -/
theorem C54_flags_partial (w : MFWeights) (n : SBM) (f : NetFlags) (s : ℝ) :
    (f.p = false → (n.sgdstep w s f).mfTau0 = n.mfTau0 ∧ (n.sgdstep w s f).mfTau1 = n.mfTau1) ∧
    (f.v = false → (n.sgdstep w s f).mfAlpha = n.mfAlpha ∧ (n.sgdstep w s f).mfBeta = n.mfBeta ∧
      (n.meanfieldupdate w f).mfAlpha = n.mfAlpha ∧ (n.meanfieldupdate w f).mfBeta = n.mfBeta) ∧
    (f.m = false → (n.sgdstep w s f).mfPi = n.mfPi ∧ (n.meanfieldupdate w f).mfPi = n.mfPi) ∧
    (f.c = false → (n.sgdstep w s f).mfM = n.mfM ∧ (n.meanfieldupdate w f).mfM = n.mfM ∧
      (n.meanfieldupdate w f).mfTau0 = n.mfTau0 ∧ (n.meanfieldupdate w f).mfTau1 = n.mfTau1) := by
  have c1 := fun EA EW ELW s (n : SBM) => (mfUpdateC_frame EA EW ELW s n).1
  have c2 := fun EA EW ELW s (n : SBM) => (mfUpdateC_frame EA EW ELW s n).2.1
  have c3 := fun EA EW ELW s (n : SBM) => (mfUpdateC_frame EA EW ELW s n).2.2.1
  have c4 := fun EA EW ELW s (n : SBM) => (mfUpdateC_frame EA EW ELW s n).2.2.2.1
  have c5 := fun EA EW ELW s (n : SBM) => (mfUpdateC_frame EA EW ELW s n).2.2.2.2
  obtain ⟨fp, fv, fm, fc⟩ := f
  cases fp <;> cases fv <;> cases fm <;> cases fc <;>
    simp [SBM.sgdstep, SBM.meanfieldupdate, c1, c2, c3, c4, c5, SBM.mfUpdateP, SBM.mfUpdateV, SBM.mfUpdateM]

example : ((exSBM false).sgdstep (MFWeights.init 1 1 1 (fun _ _ => 1)) (1 / 2) { p := false }).mfTau0 = (exSBM false).mfTau0 :=
  ((C54_flags_partial _ _ _ _).1 rfl).1

end PyHawkes
