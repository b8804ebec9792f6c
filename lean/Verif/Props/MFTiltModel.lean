import Verif.Props.MFUnbiased
import Verif.Props.VarNet
import Verif.Props.VarWindows

/-! # C77 for whole steps of the model, from every reachable state -/
set_option linter.unusedSectionVars false
set_option linter.unusedVariables false

namespace PyHawkes
open Finset Spec ProbabilityTheory

/-- the new background, impulse and weight factors `M'` are the natural-gradient step of size `s` from the old ones `M` towards prior times likelihood of the
data sets `dl`, a fraction `frac` of all data -/
def GlobalTilt (M M' : MFModel) (dl : List (DParents ℝ)) (frac s : ℝ) : Prop :=
  (∀ k < M.K, Proportional (Set.Ioi 0) (gammaPDFReal (M'.bias.mfAlpha k) (M'.bias.mfBeta k))
      (steppedDensity s frac (gammaPDFReal (M.bias.mfAlpha k) (M.bias.mfBeta k)) (gammaPDFReal M.bias.alpha M.bias.beta) (bgLogLik dl M.bias.dt k))) ∧
  (∀ i < M.K, ∀ j < M.K, Proportional {x : ℕ → ℝ | ∀ b < M.B, 0 < x b} (dirichletPdf M.B (M'.imp.mfGamma i j))
      (steppedDensity s frac (dirichletPdf M.B (M.imp.mfGamma i j)) (dirichletPdf M.B M.imp.gamma) (impLogLik M.B dl i j))) ∧
  (∃ eV, M.net.eV = .ok eV ∧ ∀ i < M.K, ∀ j < M.K,
    Proportional (Set.Ioi 0) (gammaPDFReal (M'.w.mfKappa1 i j) (M'.w.mfV1 i j))
      (steppedDensity s frac (gammaPDFReal (M.w.mfKappa1 i j) (M.w.mfV1 i j)) (gammaPDFReal M.net.kappa (eV i j)) (weightLogLik M.B dl i j)) ∧
    Proportional (Set.Ioi 0) (gammaPDFReal (M'.w.mfKappa0 i j) (M'.w.mfV0 i j))
      (steppedDensity s frac (gammaPDFReal (M.w.mfKappa0 i j) (M.w.mfV0 i j)) (gammaPDFReal M.w.kappa0 M.w.nu0) (weightLogLik M.B dl i j)))

/-- after a full coordinate step the edge probabilities are those of the optimal factor, restricted to `[1e-8, 1-1e-8]` -/
def EdgeOptimal (M M' : MFModel) (dl : List (DParents ℝ)) : Prop :=
  ∃ eV eLnV, M.net.eV = .ok eV ∧ M.net.eLnV = .ok eLnV ∧ ∀ i < M.K, ∀ j < M.K, ∀ lnP lnNotP, M.net.eLnP i j = .fin lnP → M.net.eLnNotP i j = .fin lnNotP →
    let r1 := evidencePresent M.B dl 1 M.net.kappa lnP (eV i j) (eLnV i j) i j
    let r0 := evidenceAbsent M.B dl 1 M.w.kappa0 M.w.nu0 lnNotP i j
    M'.w.mfP i j = clipProb (r1 / (r1 + r0))

theorem globals_tilt {M0 M : MFModel} (g : MFGood M0) (h : MFInv M0 M) (hB : 0 < M0.B) (hdt : 0 < M0.bias.dt) {dl : List (DParents ℝ)} (hd : ∀ D ∈ dl, EZPos D)
    {frac s : ℝ} (hf : 0 < frac) (h0 : 0 ≤ s) (h1 : s ≤ 1) {upd : MFWeights → MFNet → Except PyErr MFNet} {M' : MFModel}
    (e : M.updateGlobals dl frac s upd = .ok M') :
    GlobalTilt M M' dl frac s ∧ (frac = 1 → s = 1 → EdgeOptimal M M' dl) := by
  obtain ⟨V, L, eV, eL, hV⟩ := h.net.eV g.net
  have hkap : 0 < M.net.kappa := h.net.kappa ▸ NetGood.kappaPos g.net
  unfold MFModel.updateGlobals at e
  split_ifs at e
  dsimp only at e
  cases hw : M.w.update M.K M.B M.net dl frac s with
  | error x => rw [hw] at e; cases e
  | ok w' =>
    rw [hw] at e
    dsimp only at e
    cases hu : upd w' M.net with
    | error x => rw [hu] at e; cases e
    | ok n' =>
      rw [hu] at e
      have e := (Except.ok.inj e).symm
      subst e
      have hwpos : ∀ i < M.K, ∀ j < M.K, 0 < M.w.mfKappa0 i j ∧ 0 < M.w.mfV0 i j ∧ 0 < M.w.mfKappa1 i j ∧ 0 < M.w.mfV1 i j := by
        intro i hi j hj
        rw [h.K] at hi hj
        obtain ⟨a0, b0, a1, b1⟩ := g.wmf i hi j hj
        exact ⟨(lt_min a0 g.w.1).trans_le (h.valid.w0 i hi j hj).1, (lt_min b0 g.w.2).trans_le (h.valid.w0 i hi j hj).2,
          (lt_min a1 (NetGood.kappaPos g.net)).trans_le (h.valid.w1 i hi j hj).1, (h.valid.w1 i hi j hj).2⟩
      refine ⟨⟨?_, ?_, V, eV, ?_⟩, ?_⟩
      · intro k hk
        rw [h.K] at hk
        have hb := g.bias.2.2.2 k hk
        exact C77_background M.bias dl k (h.bias.1 ▸ g.bias.1) (h.bias.2.1 ▸ g.bias.2.1)
          ⟨(lt_min hb.1 g.bias.1).trans_le (h.valid.bias k hk).1, (lt_min hb.2 g.bias.2.1).trans_le (h.valid.bias k hk).2⟩ (h.bias.2.2 ▸ hdt) hd hf h0 h1
      · intro i hi j hj
        rw [h.K] at hi hj
        refine C77_impulse M.B (h.B ▸ hB) M.imp dl i j (fun b hb => ?_) (fun b hb => ?_) hd hf h0 h1
        · rw [h.gamma]; exact (g.imp b (h.B ▸ hb)).1
        · rw [h.B] at hb
          exact (lt_min ((g.imp b hb).2 i hi j hj) (g.imp b hb).1).trans_le (h.valid.imp i hi j hj b hb)
      · intro i hi j hj
        exact C77_weights_update M.K M.B M.net V L eV eL dl M.w w' i j hkap (hV i (h.K ▸ hi) j (h.K ▸ hj)) ⟨h.w.1 ▸ g.w.1, h.w.2 ▸ g.w.2⟩
          (hwpos i hi j hj) hd hf h0 h1 hw
      · rintro rfl rfl
        refine ⟨V, L, eV, eL, fun i hi j hj lnP lnNotP hP hNP => ?_⟩
        have hp := h.valid.p i (h.K ▸ hi) j (h.K ▸ hj)
        norm_num at hp
        exact C77_edges M.K M.B M.net V L eV eL dl M.w w' hP hNP hkap (hV i (h.K ▸ hi) j (h.K ▸ hj)) ⟨h.w.1 ▸ g.w.1, h.w.2 ▸ g.w.2⟩ hd one_pos
          ⟨by linarith [hp.1], by linarith [hp.2]⟩ hw

/-- **C77 (coordinate steps of the model).** After every history of legal steps from a legal start, `meanfield_coordinate_descent_step` first recomputes the expected
parents of every data set, then replaces the background, impulse and weight factors by the optimal ones for these parents, and the edge probabilities by the optimal
ones restricted to `[1e-8, 1-1e-8]`. -/
theorem C77_coordinate_step (M0 : MFModel) (g : MFGood M0) (hB : 0 < M0.B) (hdt : 0 < M0.bias.dt) (acts : List MFAct) (hl : ∀ a ∈ acts, a.Legal M0)
    (M M' : MFModel) (hrun : runActs acts M0 = .ok M) (hstep : M.coordStep = .ok M') :
    M'.data = M.data.map M.updateParents ∧ GlobalTilt M M' M'.data 1 1 ∧ EdgeOptimal M M' M'.data := by
  obtain ⟨Mx, ex, h⟩ := runActs_inv M0 g acts hl
  rw [hrun] at ex
  cases ex
  unfold MFModel.coordStep at hstep
  dsimp only at hstep
  cases hg : M.updateGlobals (M.data.map M.updateParents) 1 1 MFNet.meanfieldupdate with
  | error x => rw [hg] at hstep; cases hstep
  | ok Mg =>
    rw [hg] at hstep
    have := (Except.ok.inj hstep).symm
    subst this
    have hpos : ∀ D ∈ M.data.map M.updateParents, EZPos D := by
      intro D hD
      obtain ⟨D', hD', rfl⟩ := List.mem_map.1 hD
      exact EZPos_update M D' (h.data D' hD').2
    obtain ⟨a, b⟩ := globals_tilt g h hB hdt hpos one_pos zero_le_one le_rfl hg
    exact ⟨rfl, a, b rfl rfl⟩

/-- **C77 (stochastic steps of the model).** Likewise `sgd_step` with a legal minibatch size and step size: the expected parents of the bins of the next window are
computed, and the background, impulse and weight factors take the natural-gradient step with the window standing for its share of the data. -/
theorem C77_stochastic_step (M0 : MFModel) (g : MFGood M0) (hB : 0 < M0.B) (hdt : 0 < M0.bias.dt) (acts : List MFAct) (hl : ∀ a ∈ acts, a.Legal M0)
    (M M' : MFModel) (hrun : runActs acts M0 = .ok M) (D : DParents ℝ) (hD : M.data = [D]) {mb : ℕ} {s : ℝ} (hm : 0 < mb) (h0 : 0 ≤ s) (h1 : s ≤ 1)
    (hstep : M.sgdStep mb s = .ok M') :
    ∃ lo hi, lo < hi ∧ hi ≤ D.T ∧ hi - lo ≤ mb ∧ M'.sgdOffset = some lo ∧ M'.data = M.data ∧
      GlobalTilt M M' [M.updateParents (sliceData D.S D.F lo hi)] (((hi - lo : ℕ) : ℝ) / D.T) s := by
  obtain ⟨Mx, ex, h⟩ := runActs_inv M0 g acts hl
  rw [hrun] at ex
  cases ex
  have hDok := h.data D (by rw [hD]; exact List.mem_singleton.2 rfl)
  obtain ⟨w1, w2, w3⟩ := sgdWindow_pos hDok.1 hm M.sgdOffset
  unfold MFModel.sgdStep at hstep
  rw [hD] at hstep
  dsimp only at hstep
  set win := sgdWindow D.T mb M.sgdOffset with hw
  have hle : win.2 - win.1 ≤ mb := by
    have : win.2 ≤ win.1 + mb := min_le_left _ _
    omega
  cases hg : M.updateGlobals [M.updateParents (sliceData D.S D.F win.1 win.2)] (((sliceData D.S D.F win.1 win.2).T : ℝ) / D.T) s (fun w => MFNet.sgdstep w s) with
  | error x => rw [hg] at hstep; cases hstep
  | ok Mg =>
    rw [hg] at hstep
    have e := (Except.ok.inj hstep).symm
    subst e
    have hpos : ∀ D' ∈ [M.updateParents (sliceData D.S D.F win.1 win.2)], EZPos D' := by
      intro D' hD'
      rw [List.mem_singleton.1 hD']
      exact EZPos_update M _ (fun t k b => hDok.2 _ _ _)
    have hfr : (0:ℝ) < ((sliceData D.S D.F win.1 win.2).T : ℝ) / D.T := by
      refine div_pos ?_ (Nat.cast_pos.2 hDok.1)
      show (0:ℝ) < ((win.2 - win.1 : ℕ) : ℝ)
      exact Nat.cast_pos.2 (by omega)
    obtain ⟨a, -⟩ := globals_tilt g h hB hdt hpos hfr h0 h1 hg
    refine ⟨win.1, win.2, w2, w3, hle, rfl, ?_, a⟩
    unfold MFModel.updateGlobals at hg
    rw [if_neg (List.cons_ne_nil _ _)] at hg
    dsimp only at hg
    split at hg
    · cases hg
    · split at hg
      · cases hg
      · rw [← Except.ok.inj hg]

/-- the hypotheses are met: a model with one data set, after a coordinate step and a stochastic step -/
example : ∃ M M', runActs [.coord, .sgd 2 (1 / 2)] (exMF true) = .ok M ∧ M.coordStep = .ok M' ∧ GlobalTilt M M' M'.data 1 1 ∧ EdgeOptimal M M' M'.data := by
  have hl : ∀ a ∈ [MFAct.coord, .sgd 2 (1 / 2)], a.Legal (exMF true) := by
    intro a ha
    have h : (exMF true).data.length = 1 := rfl
    simp only [List.mem_cons, List.not_mem_nil, or_false] at ha
    rcases ha with rfl | rfl
    · trivial
    · exact ⟨by norm_num, by norm_num, by norm_num, fun h => by norm_num at h, h⟩
  obtain ⟨M, e, h⟩ := runActs_inv _ (exMF_good true) _ hl
  obtain ⟨M', e', -⟩ := coordInv (exMF_good true) h
  exact ⟨M, M', e, e', (C77_coordinate_step _ (exMF_good true) one_pos one_pos _ hl M M' e e').2⟩

end PyHawkes
