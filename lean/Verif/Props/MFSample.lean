import Verif.Spec.MFSample
import Verif.Props.VLBParents
import Verif.Props.DirichletLaw

/-! # C82: sampling the parameters from the variational distribution -/
set_option linter.unusedSectionVars false
set_option linter.unusedVariables false

namespace PyHawkes
open Finset Spec

/-- every state reached by legal mean-field steps is itself a legal start -/
theorem MFInv.good {M0 M : MFModel} (g : MFGood M0) (h : MFInv M0 M) : MFGood M := by
  refine ⟨?_, ?_, ?_, MFInv.wPos g h, ?_, h.K ▸ NetInv.good g.net h.net, ?_, h.data⟩
  · rw [h.bias.1, h.bias.2.1, h.bias.2.2, h.K]
    refine ⟨g.bias.1, g.bias.2.1, g.bias.2.2.1, fun k hk => ?_⟩
    exact ⟨(lt_min (g.bias.2.2.2 k hk).1 g.bias.1).trans_le (h.valid.bias k hk).1, (lt_min (g.bias.2.2.2 k hk).2 g.bias.2.1).trans_le (h.valid.bias k hk).2⟩
  · rw [h.B, h.K, h.gamma]
    exact fun b hb => ⟨(g.imp b hb).1, fun i hi j hj => (lt_min ((g.imp b hb).2 i hi j hj) (g.imp b hb).1).trans_le (h.valid.imp i hi j hj b hb)⟩
  · rw [h.w.1, h.w.2]; exact g.w
  · rw [h.K]; exact h.valid.p
  · intro h0
    have := h.len
    rw [h0] at this
    exact g.data.1 (List.length_eq_zero_iff.1 this.symm)

/-! ### The call succeeds; its result -/

/-- the network after the call -/
noncomputable def sampledNet (d : MFDraws) : MFNet → MFNet
  | .sbm n => .sbm { n with
      m := d.net.dirichlet n.mfPi
      p := fun c e => d.net.beta c e ⟨n.mfTau1 c e, n.mfTau0 c e⟩
      v := fun c e => d.net.gamma c e ⟨n.mfAlpha c e, 1 / n.mfBeta c e⟩
      c := fun k => d.net.label k (n.mfM k) }
  | .fixedSparsity n => .fixedSparsity { n with
      m := d.net.dirichlet n.mfPi
      v := fun c e => d.net.gamma c e ⟨n.mfAlpha c e, 1 / n.mfBeta c e⟩
      c := fun k => d.net.label k (n.mfM k) }
  | .er n => match n.mf with
    | some (a, b) => .er { n with v := d.erGamma ⟨a, 1 / b⟩ }
    | none => .er n

open Classical in
/-- the other parameters after the call -/
noncomputable def sampledParams (d : MFDraws) (M : MFModel) : MFSample where
  lam0 := fun k => d.lam k ⟨M.bias.mfAlpha k, 1 / M.bias.mfBeta k⟩
  A := fun i j => if d.u i j < M.w.mfP i j then 1 else 0
  W := fun i j => if d.u i j < M.w.mfP i j then d.slab i j ⟨M.w.mfKappa1 i j, 1 / M.w.mfV1 i j⟩ else d.spike i j ⟨M.w.mfKappa0 i j, 1 / M.w.mfV0 i j⟩
  g := fun i j => d.dir i j (M.imp.mfGamma i j)

theorem accepted_of_pos {a b : ℝ} (ha : 0 < a) (hb : 0 < b) : GammaArgs.accepted ⟨a, 1 / b⟩ := ⟨ha.le, (one_div_pos.2 hb).le⟩

theorem choiceAccepts_of_prob {C : ℕ} {p : Vec ℝ} (h : (∀ c < C, 0 ≤ p c) ∧ ∑ c ∈ range C, p c = 1) : choiceAccepts C p := by
  refine ⟨h.1, ?_⟩
  rw [h.2, sub_self, abs_zero]
  positivity

theorem sampleMf_ok (withP : Bool) (o : SBMOracle) (n : SBM) (g : SBMGood n) :
    n.sampleMf withP o = .ok { n with
      m := o.dirichlet n.mfPi
      p := if withP then fun c e => o.beta c e ⟨n.mfTau1 c e, n.mfTau0 c e⟩ else n.p
      v := fun c e => o.gamma c e ⟨n.mfAlpha c e, 1 / n.mfBeta c e⟩
      c := fun k => o.label k (n.mfM k) } := by
  unfold SBM.sampleMf
  rw [if_pos g.mfPi]
  dsimp only
  rw [if_pos (fun _ c hc e he => ⟨(g.mfTau c hc e he).2, (g.mfTau c hc e he).1⟩)]
  have hg : ∀ c < n.C, ∀ e < n.C, GammaArgs.accepted ⟨n.mfAlpha c e, 1 / n.mfBeta c e⟩ := fun c hc e he => accepted_of_pos (g.mfAB c hc e he).1 (g.mfAB c hc e he).2
  have hc : ∀ k < n.K, choiceAccepts n.C (n.mfM k) := fun k hk => choiceAccepts_of_prob (g.mfM k hk)
  rw [if_pos hg, if_pos hc]

theorem netSample_ok {K : ℕ} (d : MFDraws) (net : MFNet) (g : NetGood K net) : net.sample d = .ok (sampledNet d net) := by
  cases net with
  | sbm n => simp only [MFNet.sample, sampleMf_ok true d.net n g.2, sampledNet, if_true]
  | fixedSparsity n => simp only [MFNet.sample, sampleMf_ok false d.net n g.2, sampledNet, Bool.false_eq_true, if_false]
  | er n =>
    obtain ⟨_, _, _, al, be, a, b, _, _, hmf, _, _, ha, hb⟩ := g
    simp only [MFNet.sample, ERFixed.sampleMf, sampledNet, hmf, if_pos (accepted_of_pos ha hb)]

/-- the call succeeds in every legal state, and this is its result -/
theorem resampleFromMf_eq (d : MFDraws) (M : MFModel) (g : MFGood M) :
    M.resampleFromMf d = .ok (sampledParams d M, { M with net := sampledNet d M.net }) := by
  unfold MFModel.resampleFromMf MFBias.sample MFWeights.sample MFImp.sample
  have hb : ∀ k < M.K, (M.bias.sampleArgs k).accepted := fun k hk => accepted_of_pos (g.bias.2.2.2 k hk).1 (g.bias.2.2.2 k hk).2
  rw [if_pos hb]
  have hs : ∀ i < M.K, ∀ j < M.K, (M.w.spikeArgs i j).accepted := fun i hi j hj => accepted_of_pos (g.wmf i hi j hj).1 (g.wmf i hi j hj).2.1
  have hl : ∀ i < M.K, ∀ j < M.K, (M.w.slabArgs i j).accepted := fun i hi j hj => accepted_of_pos (g.wmf i hi j hj).2.2.1 (g.wmf i hi j hj).2.2.2
  have hi : ∀ i < M.K, ∀ j < M.K, ∀ b < M.B, 0 < M.imp.mfGamma i j b := fun i hi j hj b hb => (g.imp b hb).2 i hi j hj
  dsimp only
  rw [if_pos hs, if_pos hl]
  dsimp only
  rw [if_pos hi]
  dsimp only
  rw [netSample_ok d M.net g.net]
  dsimp only
  congr 2
  unfold sampledParams MFBias.sampleArgs MFWeights.spikeArgs MFWeights.slabArgs
  congr 1
  funext i j
  split_ifs <;> ring

/-! ### Validity -/

/-- the network's variational parameters, hyperparameters and (in the fixed-sparsity classes) connection probabilities are untouched -/
def OnlySampled : MFNet → MFNet → Prop
  | .sbm n, .sbm n' => ∃ m p v c, n' = { n with m := m, p := p, v := v, c := c }
  | .fixedSparsity n, .fixedSparsity n' => ∃ m v c, n' = { n with m := m, v := v, c := c }
  | .er n, .er n' => ∃ v, n' = { n with v := v }
  | _, _ => False

/-- the sampled network parameters are valid: block frequencies and probabilities are probabilities, scales are positive, labels are blocks that have positive
probability -/
def NetSampleOk (K : ℕ) : MFNet → Prop
  | .sbm n => IsProb n.C n.m ∧ (∀ c < n.C, ∀ e < n.C, 0 ≤ n.p c e ∧ n.p c e ≤ 1 ∧ 0 < n.v c e) ∧ ∀ k < K, n.c k < n.C ∧ 0 < n.mfM k (n.c k)
  | .fixedSparsity n => IsProb n.C n.m ∧ (∀ c < n.C, ∀ e < n.C, 0 < n.v c e) ∧ ∀ k < K, n.c k < n.C ∧ 0 < n.mfM k (n.c k)
  | .er n => 0 < n.v

theorem sampledNet_ok {K B : ℕ} {d : MFDraws} {net : MFNet} (g : NetGood K net) (hd : MFDrawsOk B (mfBlocks net) d) :
    OnlySampled net (sampledNet d net) ∧ NetSampleOk K (sampledNet d net) := by
  cases net with
  | sbm n =>
    obtain ⟨hK, g⟩ := g
    refine ⟨⟨_, _, _, _, rfl⟩, hd.netDir _ g.mfPi, fun c hc e he => ?_, fun k hk => hd.label k _ (g.mfM k (hK.symm ▸ hk))⟩
    have t := g.mfTau c hc e he
    have a := g.mfAB c hc e he
    exact ⟨(hd.beta c e _ t.2 t.1).1, (hd.beta c e _ t.2 t.1).2, hd.gamma c e _ a.1 (one_div_pos.2 a.2)⟩
  | fixedSparsity n =>
    obtain ⟨hK, g⟩ := g
    refine ⟨⟨_, _, _, rfl⟩, hd.netDir _ g.mfPi, fun c hc e he => ?_, fun k hk => hd.label k _ (g.mfM k (hK.symm ▸ hk))⟩
    have a := g.mfAB c hc e he
    exact hd.gamma c e _ a.1 (one_div_pos.2 a.2)
  | er n =>
    obtain ⟨_, _, _, al, be, a, b, _, _, hmf, _, _, ha, hb⟩ := g
    have e : sampledNet d (.er n) = .er { n with v := d.erGamma ⟨a, 1 / b⟩ } := by simp only [sampledNet, hmf]
    rw [e]
    exact ⟨⟨_, rfl⟩, hd.erGamma _ ha (one_div_pos.2 hb)⟩

/-- **C82 (valid).** After every history of legal mean-field steps from a legal start, `resample_from_mf` succeeds, whatever the generators return. Background rates and weights
are positive, `A` is 0/1, impulse weights are probability vectors, network parameters are valid, and apart from the sampled parameters nothing changes:
the variational parameters, the hyperparameters and the data are those from before the call. -/
theorem C82_valid (M0 : MFModel) (g : MFGood M0) (acts : List MFAct) (hl : ∀ a ∈ acts, a.Legal M0) (d : MFDraws) (hd : MFDrawsOk M0.B (mfBlocks M0.net) d) :
    ∃ M s net', runActs acts M0 = .ok M ∧ M.resampleFromMf d = .ok (s, { M with net := net' }) ∧
      (∀ k < M.K, 0 < s.lam0 k) ∧
      (∀ i < M.K, ∀ j < M.K, (s.A i j = 0 ∨ s.A i j = 1) ∧ 0 < s.W i j ∧ IsProb M.B (s.g i j)) ∧
      OnlySampled M.net net' ∧ NetSampleOk M.K net' := by
  obtain ⟨M, hM, hI⟩ := runActs_inv M0 g acts hl
  have gM := MFInv.good g hI
  have hC : mfBlocks M.net = mfBlocks M0.net := by
    have hn := hI.net
    cases h0 : M0.net with
    | sbm n0 => cases h1 : M.net with
      | sbm n => rw [h0, h1] at hn; exact (SBMInv.same hn).C
      | fixedSparsity n => rw [h0, h1] at hn; exact hn.elim
      | er n => rw [h0, h1] at hn; exact hn.elim
    | fixedSparsity n0 => cases h1 : M.net with
      | fixedSparsity n => rw [h0, h1] at hn; exact (SBMInv.same hn).C
      | sbm n => rw [h0, h1] at hn; exact hn.elim
      | er n => rw [h0, h1] at hn; exact hn.elim
    | er n0 => cases h1 : M.net with
      | er n => rfl
      | sbm n => rw [h0, h1] at hn; exact hn.elim
      | fixedSparsity n => rw [h0, h1] at hn; exact hn.elim
  rw [← hC, ← hI.B] at hd
  obtain ⟨n1, n2⟩ := sampledNet_ok gM.net hd
  refine ⟨M, _, _, hM, resampleFromMf_eq d M gM, fun k hk => ?_, fun i hi j hj => ⟨?_, ?_, ?_⟩, n1, n2⟩
  · exact hd.lam k _ (gM.bias.2.2.2 k hk).1 (one_div_pos.2 (gM.bias.2.2.2 k hk).2)
  · simp only [sampledParams]; split_ifs <;> simp
  · have w := gM.wmf i hi j hj
    simp only [sampledParams]
    split_ifs
    · exact hd.slab i j _ w.2.2.1 (one_div_pos.2 w.2.2.2)
    · exact hd.spike i j _ w.1 (one_div_pos.2 w.2.1)
  · exact hd.dir i j _ fun b hb => (gM.imp b hb).2 i hi j hj

/-- draws that always return the middle of the road -/
noncomputable def demoMFDraws : MFDraws where
  lam := fun _ _ => 1
  u := fun _ _ => 1 / 2
  spike := fun _ _ _ => 1
  slab := fun _ _ _ => 2
  dir := fun _ _ _ b => if b = 0 then 1 else 0
  net := { beta := fun _ _ _ => 1 / 2, gamma := fun _ _ _ => 1, label := fun _ p => if 0 < p 0 then 0 else 1, dirichlet := fun _ b => if b = 0 then 1 else 0 }
  erGamma := fun _ => 1

theorem demoMFDraws_ok {B : ℕ} (hB : 0 < B) : MFDrawsOk B 2 demoMFDraws := by
  have hp : ∀ n, 0 < n → IsProb n (fun b => if b = 0 then (1:ℝ) else 0) := fun n hn =>
    ⟨fun c _ => by dsimp only; split_ifs <;> norm_num, by rw [sum_ite_eq' (range n) 0 (fun _ => (1:ℝ)), if_pos (mem_range.2 hn)]⟩
  refine ⟨?_, ?_, ?_, ?_, ?_, ?_, ?_, ?_, ?_⟩
  · intros; exact one_pos
  · intros; exact one_pos
  · intros; exact two_pos
  · intros; exact hp B hB
  · intros; simp only [demoMFDraws]; norm_num
  · intros; exact one_pos
  · intro k p hp
    simp only [demoMFDraws]
    split_ifs with h
    · exact ⟨two_pos, h⟩
    · refine ⟨one_lt_two, ?_⟩
      have := hp.2
      rw [sum_range_succ, sum_range_one] at this
      linarith
  · intros; exact hp 2 two_pos
  · intros; exact one_pos

/-- the hypotheses of `C82_valid` are met by this model, history and draws -/
example : ∃ M s net', runActs [.coord, .sgd 2 (1 / 2)] (exMF false) = .ok M ∧ M.resampleFromMf demoMFDraws = .ok (s, { M with net := net' }) ∧ ∀ k < M.K, 0 < s.lam0 k := by
  have hl : ∀ a ∈ [MFAct.coord, .sgd 2 (1 / 2)], a.Legal (exMF false) := by
    intro a ha
    have h : (exMF false).data.length = 1 := rfl
    simp only [List.mem_cons, List.not_mem_nil, or_false] at ha
    rcases ha with rfl | rfl
    · trivial
    · exact ⟨by norm_num, by norm_num, by norm_num, fun h => by norm_num at h, h⟩
  obtain ⟨M, s, n, h1, h2, h3, _⟩ := C82_valid (exMF false) (exMF_good false) _ hl demoMFDraws (demoMFDraws_ok (B := 1) one_pos)
  exact ⟨M, s, n, h1, h2, h3⟩

end PyHawkes
