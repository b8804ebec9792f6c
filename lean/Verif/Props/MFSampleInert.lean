import Verif.Props.MFSample
import Verif.Props.VLBFinite

/-! # C82: drawing from the variational distribution does not disturb inference -/
set_option linter.unusedSectionVars false
set_option linter.unusedVariables false

namespace PyHawkes
open Finset Spec

/-- values for the sampled network parameters -/
structure NetPaint where
  m : Vec ℝ
  p : Mat ℝ
  v : Mat ℝ
  c : ℕ → ℕ
  ev : ℝ

def SBM.paint (q : NetPaint) (n : SBM) : SBM := { n with m := q.m, p := q.p, v := q.v, c := q.c }

def MFNet.paint (q : NetPaint) : MFNet → MFNet
  | .sbm n => .sbm (n.paint q)
  | .fixedSparsity n => .fixedSparsity n
  | .er n => .er { n with v := q.ev }

def MFModel.paint (q : NetPaint) (M : MFModel) : MFModel := { M with net := M.net.paint q }

theorem paint_updateC (q : NetPaint) (EA EW ELW : Mat ℝ) (s : ℝ) (n : SBM) : (n.paint q).mfUpdateC EA EW ELW s = (n.mfUpdateC EA EW ELW s).paint q := by
  unfold SBM.mfUpdateC
  have hK : (n.paint q).K = n.K := rfl
  rw [hK]
  generalize n.K = K
  induction K with
  | zero => rfl
  | succ k ih => rw [forRange_succ, forRange_succ, ih]; rfl

theorem paint_meanfieldupdate (q : NetPaint) (w : MFWeights) (n : SBM) : (n.paint q).meanfieldupdate w {} = (n.meanfieldupdate w {}).paint q := by
  simp only [SBM.meanfieldupdate, if_true]
  exact paint_updateC q _ _ _ _ (((n.mfUpdateP _ 1).mfUpdateV _ _ 1).mfUpdateM 1)

theorem paint_sgdstep (q : NetPaint) (w : MFWeights) (s : ℝ) (n : SBM) : (n.paint q).sgdstep w s {} = (n.sgdstep w s {}).paint q := by
  simp only [SBM.sgdstep, if_true]
  exact paint_updateC q _ _ _ _ (((n.mfUpdateP _ s).mfUpdateV _ _ s).mfUpdateM s)

section
variable {net : MFNet} (hL : Learned net) (q : NetPaint)
include hL

theorem paint_eV : (net.paint q).eV = net.eV := by
  cases net with
  | sbm n => have h : n.fixed = false := hL; simp only [MFNet.paint, MFNet.eV, SBM.paint, h, Bool.false_eq_true, if_false]
  | fixedSparsity n => exact hL.elim
  | er n => rfl

theorem paint_eLnV : (net.paint q).eLnV = net.eLnV := by
  cases net with
  | sbm n => have h : n.fixed = false := hL; simp only [MFNet.paint, MFNet.eLnV, SBM.paint, SBM.mix, SBM.blkLnV, h, Bool.false_eq_true, if_false]
  | fixedSparsity n => exact hL.elim
  | er n => rfl

theorem paint_eLnP : (net.paint q).eLnP = net.eLnP := by
  cases net with
  | sbm n =>
    have h : n.fixed = false := hL
    funext i j
    simp only [MFNet.paint, MFNet.eLnP, SBM.paint, SBM.mix, SBM.blkLnP, h, Bool.false_eq_true, if_false]
  | fixedSparsity n => exact hL.elim
  | er n => rfl

theorem paint_eLnNotP : (net.paint q).eLnNotP = net.eLnNotP := by
  cases net with
  | sbm n =>
    have h : n.fixed = false := hL
    funext i j
    simp only [MFNet.paint, MFNet.eLnNotP, SBM.paint, SBM.mix, SBM.blkLnNotP, h, Bool.false_eq_true, if_false]
  | fixedSparsity n => exact hL.elim
  | er n => rfl

theorem paint_kappa : (net.paint q).kappa = net.kappa := by cases net <;> rfl
theorem paint_allowSelf : (net.paint q).allowSelf = net.allowSelf := by cases net <;> rfl

theorem paint_vlb (huge : ℝ) : (net.paint q).vlb huge = net.vlb huge := by cases net <;> rfl

theorem paint_weights (K B : ℕ) (dl : List (DParents ℝ)) (frac s : ℝ) (w : MFWeights) : w.update K B (net.paint q) dl frac s = w.update K B net dl frac s := by
  have e : ∀ (w : MFWeights) L i j, w.logitHat (net.paint q) L s i j = w.logitHat net L s i j := by
    intro w L i j
    simp only [MFWeights.logitHat, MFWeights.logitP, paint_eLnP hL, paint_eLnNotP hL, paint_kappa hL]
  have e2 : ∀ (w : MFWeights) L, w.updateP K (net.paint q) L s = w.updateP K net L s := by
    intro w L
    have e' : w.logitHat (net.paint q) L s = w.logitHat net L s := by funext i j; exact e w L i j
    unfold MFWeights.updateP
    rw [e']
  simp only [MFWeights.update, paint_eV hL, paint_eLnV hL, paint_kappa hL, e2]

theorem paint_netUpdate (w : MFWeights) : (net.paint q).meanfieldupdate w = (net.meanfieldupdate w).map (MFNet.paint q) := by
  cases net with
  | sbm n => simp only [MFNet.paint, MFNet.meanfieldupdate, paint_meanfieldupdate]; rfl
  | fixedSparsity n => exact hL.elim
  | er n =>
    simp only [MFNet.paint, MFNet.meanfieldupdate, ERFixed.mfUpdate]
    rcases n.mf with _ | ⟨a, b⟩ <;> rcases n.alpha with _ | al <;> rcases n.beta with _ | be <;> rfl

theorem paint_netSgd (w : MFWeights) (s : ℝ) : (net.paint q).sgdstep w s = (net.sgdstep w s).map (MFNet.paint q) := by
  cases net with
  | sbm n => simp only [MFNet.paint, MFNet.sgdstep, paint_sgdstep]; rfl
  | fixedSparsity n => exact hL.elim
  | er n =>
    simp only [MFNet.paint, MFNet.sgdstep, ERFixed.mfUpdate]
    rcases n.mf with _ | ⟨a, b⟩ <;> rcases n.alpha with _ | al <;> rcases n.beta with _ | be <;> rfl

theorem paint_sample (d : MFDraws) : (net.paint q).sample d = net.sample d := by
  cases net with
  | sbm n => rfl
  | fixedSparsity n => exact hL.elim
  | er n =>
    simp only [MFNet.paint, MFNet.sample, ERFixed.sampleMf]

end

section
variable {M : MFModel} (hL : Learned M.net) (q : NetPaint)
include hL

theorem paint_updateParents : (M.paint q).updateParents = M.updateParents := by
  funext D
  simp only [MFModel.updateParents, MFModel.paint, paint_allowSelf hL]

theorem paint_globals (dl : List (DParents ℝ)) (frac s : ℝ) (U : MFWeights → MFNet → Except PyErr MFNet) (hU : ∀ w, U w (M.net.paint q) = (U w M.net).map (MFNet.paint q)) :
    (M.paint q).updateGlobals dl frac s U = (M.updateGlobals dl frac s U).map (MFModel.paint q) := by
  unfold MFModel.updateGlobals
  by_cases h : dl = []
  · rw [if_pos h, if_pos h]; rfl
  rw [if_neg h, if_neg h]
  dsimp only [MFModel.paint]
  rw [paint_weights hL]
  rcases M.w.update M.K M.B M.net dl frac s with e | w
  · rfl
  · dsimp only
    rw [hU]
    rcases U w M.net with e | n <;> rfl

theorem paint_act (a : MFAct) : a.run (M.paint q) = (a.run M).map (MFModel.paint q) := by
  cases a with
  | coord =>
    simp only [MFAct.run, MFModel.coordStep, paint_updateParents hL]
    have e : (M.paint q).data = M.data := rfl
    rw [e, paint_globals hL q _ 1 1 _ (fun w => paint_netUpdate hL q w)]
    rcases M.updateGlobals (M.data.map M.updateParents) 1 1 MFNet.meanfieldupdate with e | M' <;> rfl
  | sgd mb s =>
    simp only [MFAct.run, MFModel.sgdStep, paint_updateParents hL]
    have e : (M.paint q).data = M.data := rfl
    have e2 : (M.paint q).sgdOffset = M.sgdOffset := rfl
    rw [e, e2]
    rcases M.data with _ | ⟨D, _ | ⟨D', ds⟩⟩
    · rfl
    · dsimp only
      rw [paint_globals hL q _ _ s _ (fun w => paint_netSgd hL q w s)]
      rcases M.updateGlobals _ _ s (fun w => MFNet.sgdstep w s) with e | M' <;> rfl
    · rfl

theorem paint_bound (huge : ℝ) : (M.paint q).vlb huge = M.vlb huge := by
  have e1 : (M.paint q).parentsVlb = M.parentsVlb := by
    funext D
    simp only [MFModel.parentsVlb, MFModel.paint, paint_allowSelf hL]
  have e2 : ∀ V L, M.w.vlb M.K (M.net.paint q) V L = M.w.vlb M.K M.net V L := by
    intro V L
    simp only [MFWeights.vlb, paint_eLnP hL, paint_eLnNotP hL, paint_kappa hL]
  have e3 : (M.paint q).data = M.data := rfl
  have e4 : (M.paint q).net = M.net.paint q := rfl
  simp only [MFModel.vlb, e1, e3, e4, paint_eV hL, paint_eLnV hL, paint_vlb hL]
  dsimp only [MFModel.paint]
  simp only [e2]

theorem paint_draw (d : MFDraws) : (M.paint q).resampleFromMf d = M.resampleFromMf d := by
  have e4 : (M.paint q).net = M.net.paint q := rfl
  unfold MFModel.resampleFromMf
  rw [e4, paint_sample hL]
  rfl

end

theorem NetInv.learned {a b : MFNet} (h : NetInv a b) (hL : Learned a) : Learned b := by
  cases a with
  | sbm n0 => cases b with
    | sbm n => exact (SBMInv.same h).fixed.trans hL
    | fixedSparsity n => exact h.elim
    | er n => exact h.elim
  | fixedSparsity n0 => exact hL.elim
  | er n0 => cases b with
    | er n => trivial
    | sbm n => exact h.elim
    | fixedSparsity n => exact h.elim

/-- any network that differs from `net` in sampled parameters only is a painted one -/
theorem exists_paint {net net' : MFNet} (hL : Learned net) (h : OnlySampled net net') : ∃ q, net' = net.paint q := by
  cases net with
  | sbm n => cases net' with
    | sbm n' => obtain ⟨m, p, v, c, rfl⟩ := h; exact ⟨⟨m, p, v, c, 0⟩, rfl⟩
    | fixedSparsity n => exact h.elim
    | er n => exact h.elim
  | fixedSparsity n0 => exact hL.elim
  | er n => cases net' with
    | er n' => obtain ⟨v, rfl⟩ := h; exact ⟨⟨fun _ => 0, fun _ _ => 0, fun _ _ => 0, fun _ => 0, v⟩, rfl⟩
    | sbm n => exact h.elim
    | fixedSparsity n => exact h.elim

theorem paint_onlySampled {net : MFNet} (hL : Learned net) (q : NetPaint) : OnlySampled net (net.paint q) := by
  cases net with
  | sbm n => exact ⟨_, _, _, _, rfl⟩
  | fixedSparsity n => exact hL.elim
  | er n => exact ⟨_, rfl⟩

theorem paint_paint (net : MFNet) (q q' : NetPaint) : (net.paint q).paint q' = net.paint q' := by cases net <;> rfl

/-- **C82 (inert).** In every loop that mixes mean-field steps, `resample_from_mf` and `get_vlb` in any order — for a model whose network parameters are learned — the bounds that are read,
and at the end all variational parameters and data, are those of the same loop without the draws; the two final states differ in the drawn network parameters only. All draws along the way are valid. -/
theorem C82_inert (huge : ℝ) (M0 : MFModel) (g : MFGood M0) (hL : Learned M0.net) (ops : List MFOp) (hl : ∀ a, .act a ∈ ops → a.Legal M0)
    (hd : ∀ d, .sample d ∈ ops → MFDrawsOk M0.B (mfBlocks M0.net) d) :
    ∃ M M' S vs, runOps huge (ops.filter fun o => !o.isSample) M0 = .ok (M, [], vs) ∧ runOps huge ops M0 = .ok (M', S, vs) ∧
      M' = { M with net := M'.net } ∧ OnlySampled M.net M'.net ∧ S.length = (ops.filter MFOp.isSample).length ∧
      ∀ s ∈ S, (∀ k < M0.K, 0 < s.lam0 k) ∧ ∀ i < M0.K, ∀ j < M0.K, (s.A i j = 0 ∨ s.A i j = 1) ∧ 0 < s.W i j ∧ IsProb M0.B (s.g i j) := by
  suffices H : ∀ (M : MFModel) (q : NetPaint), MFInv M0 M → ∃ M1 q1 S vs, runOps huge (ops.filter fun o => !o.isSample) M = .ok (M1, [], vs) ∧
      runOps huge ops (M.paint q) = .ok (M1.paint q1, S, vs) ∧ MFInv M0 M1 ∧ S.length = (ops.filter MFOp.isSample).length ∧
      ∀ s ∈ S, (∀ k < M0.K, 0 < s.lam0 k) ∧ ∀ i < M0.K, ∀ j < M0.K, (s.A i j = 0 ∨ s.A i j = 1) ∧ 0 < s.W i j ∧ IsProb M0.B (s.g i j) by
    have h0 : ∃ q, M0 = M0.paint q := by
      have ho : OnlySampled M0.net M0.net := by
        cases h : M0.net with
        | sbm n => exact ⟨_, _, _, _, rfl⟩
        | fixedSparsity n => rw [h] at hL; exact hL.elim
        | er n => exact ⟨_, rfl⟩
      obtain ⟨q, hq⟩ := exists_paint hL ho
      exact ⟨q, by rw [MFModel.paint, ← hq]⟩
    obtain ⟨q, hq⟩ := h0
    obtain ⟨M1, q1, S, vs, h1, h2, h3, h4, h5⟩ := H M0 q (MFInv.refl g)
    rw [← hq] at h2
    exact ⟨M1, M1.paint q1, S, vs, h1, h2, rfl, paint_onlySampled (NetInv.learned h3.net hL) q1, h4, h5⟩
  induction ops with
  | nil => exact fun M q h => ⟨M, q, [], [], rfl, rfl, h, rfl, by simp⟩
  | cons o ops ih =>
    intro M q hI
    have ih := ih (fun a ha => hl a (List.mem_cons_of_mem _ ha)) (fun d hd' => hd d (List.mem_cons_of_mem _ hd'))
    have hLM := NetInv.learned hI.net hL
    cases o with
    | act a =>
      obtain ⟨M', h1, h2⟩ := runActs_step g hI (hl a List.mem_cons_self)
      obtain ⟨M1, q1, S, vs, i1, i2, i3, i4, i5⟩ := ih M' q h2
      refine ⟨M1, q1, S, vs, ?_, ?_, i3, ?_, i5⟩
      · rw [List.filter_cons_of_pos rfl]
        simp only [runOps, h1]; exact i1
      · simp only [runOps, paint_act hLM, h1, Except.map]; exact i2
      · rw [List.filter_cons_of_neg (by simp [MFOp.isSample])]; exact i4
    | sample d =>
      have gM := MFInv.good g hI
      have hok := hd d List.mem_cons_self
      have hC : mfBlocks M.net = mfBlocks M0.net := by
        have hn := hI.net
        cases h0 : M0.net with
        | sbm n0 => cases h1 : M.net with
          | sbm n => rw [h0, h1] at hn; exact (SBMInv.same hn).C
          | fixedSparsity n => rw [h0, h1] at hn; exact hn.elim
          | er n => rw [h0, h1] at hn; exact hn.elim
        | fixedSparsity n0 => rw [h0] at hL; exact hL.elim
        | er n0 => cases h1 : M.net with
          | er n => rfl
          | sbm n => rw [h0, h1] at hn; exact hn.elim
          | fixedSparsity n => rw [h0, h1] at hn; exact hn.elim
      have hok' : MFDrawsOk M.B (mfBlocks M.net) d := by rw [hC, hI.B]; exact hok
      obtain ⟨n1, n2⟩ := sampledNet_ok gM.net hok'
      obtain ⟨q', hq'⟩ := exists_paint hLM n1
      obtain ⟨M1, q1, S, vs, i1, i2, i3, i4, i5⟩ := ih M q' hI
      refine ⟨M1, q1, sampledParams d M :: S, vs, ?_, ?_, i3, ?_, ?_⟩
      · rw [List.filter_cons_of_neg (by simp [MFOp.isSample])]; exact i1
      · have e : M.paint q' = { M with net := sampledNet d M.net } := by rw [MFModel.paint, ← hq']
        rw [e] at i2
        simp only [runOps, paint_draw hLM, resampleFromMf_eq d M gM, i2]
      · rw [List.filter_cons_of_pos rfl, List.length_cons, List.length_cons, i4]
      · intro s hs
        rcases List.mem_cons.1 hs with rfl | hs
        · refine ⟨fun k hk => ?_, fun i hi j hj => ⟨?_, ?_, ?_⟩⟩
          · have b := gM.bias.2.2.2 k (hI.K ▸ hk)
            exact hok.lam k _ b.1 (one_div_pos.2 b.2)
          · simp only [sampledParams]; split_ifs <;> simp
          · have w := gM.wmf i (hI.K ▸ hi) j (hI.K ▸ hj)
            simp only [sampledParams]
            split_ifs
            · exact hok.slab i j _ w.2.2.1 (one_div_pos.2 w.2.2.2)
            · exact hok.spike i j _ w.1 (one_div_pos.2 w.2.1)
          · exact hok.dir i j _ fun b hb => (gM.imp b (hI.B ▸ hb)).2 i (hI.K ▸ hi) j (hI.K ▸ hj)
        · exact i5 s hs
    | bound =>
      obtain ⟨V, L, e1, e2, -⟩ := NetInv.eV g.net hI.net
      obtain ⟨y, hy⟩ := sbm_or_er_vlb_ok huge g.net hI.net (fun n hn => by rw [hn] at hL; exact hL)
      have hv : ∃ v, M.vlb huge = .ok v := by
        simp only [MFModel.vlb, e1, e2, hy]; exact ⟨_, rfl⟩
      obtain ⟨v, hv⟩ := hv
      obtain ⟨M1, q1, S, vs, i1, i2, i3, i4, i5⟩ := ih M q hI
      refine ⟨M1, q1, S, v :: vs, ?_, ?_, i3, ?_, i5⟩
      · rw [List.filter_cons_of_pos rfl]
        simp only [runOps, hv, i1]
      · simp only [runOps, paint_bound hLM, hv, i2]
      · rw [List.filter_cons_of_neg (by simp [MFOp.isSample])]; exact i4

/-- the hypotheses are met by this loop -/
example : ∃ M M' S vs, runOps 1 [.act .coord, .bound, .act .coord, .bound] (exMF false) = .ok (M, [], vs) ∧
    runOps 1 [.act .coord, .bound, .sample demoMFDraws, .act .coord, .bound, .sample demoMFDraws] (exMF false) = .ok (M', S, vs) ∧ S.length = 2 := by
  obtain ⟨M, M', S, vs, h1, h2, _, _, h3, _⟩ := C82_inert 1 (exMF false) (exMF_good false) rfl
    [.act .coord, .bound, .sample demoMFDraws, .act .coord, .bound, .sample demoMFDraws]
    (by intro a ha; simp at ha; subst ha; trivial) (by intro d hd; simp at hd; subst hd; exact demoMFDraws_ok (B := 1) one_pos)
  exact ⟨M, M', S, vs, h1, h2, h3⟩

end PyHawkes
