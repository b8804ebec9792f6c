import Verif.Props.MFSampleExists
import Verif.Props.MFSampleInert

/-! # C82: what the draws get wrong -/
set_option linter.unusedSectionVars false
set_option linter.unusedVariables false

namespace PyHawkes
open Finset Spec MeasureTheory ProbabilityTheory

/-- **C82 (self edges, violated).** With self connections disallowed the drawn weight of EVERY self pair is positive, in every state and for all draws, although `expected_W` is 0 there; and a draw can put an edge there. -/
theorem C82_self_edges_violated :
    (∀ (M0 : MFModel) (g : MFGood M0) (hs : M0.net.allowSelf = false) (acts : List MFAct) (hl : ∀ a ∈ acts, a.Legal M0) (d : MFDraws) (hd : MFDrawsOk M0.B (mfBlocks M0.net) d),
      ∃ M s M', runActs acts M0 = .ok M ∧ M.resampleFromMf d = .ok (s, M') ∧ ∀ i < M.K, 0 < s.W i i ∧ M.w.eW M.net.allowSelf i i = 0) ∧
    MFGood (exMF false) ∧ MFDrawsOk (exMF false).B (mfBlocks (exMF false).net) demoMFDraws ∧
      ∃ s M', (exMF false).resampleFromMf demoMFDraws = .ok (s, M') ∧ s.A 0 0 = 1 ∧ (exMF false).net.P 0 0 = 0 := by
  refine ⟨fun M0 g hs acts hl d hd => ?_, exMF_good false, demoMFDraws_ok one_pos, ?_⟩
  · obtain ⟨M, s, n, h1, h2, h3, h4, _⟩ := C82_valid M0 g acts hl d hd
    refine ⟨M, s, _, h1, h2, fun i hi => ⟨(h4 i hi i hi).2.1, ?_⟩⟩
    obtain ⟨M', h1', hI⟩ := runActs_inv M0 g acts hl
    obtain rfl : M = M' := Except.ok.inj (h1.symm.trans h1')
    have e : M.net.allowSelf = false := by
      have hn := hI.net
      cases h0 : M0.net with
      | sbm n0 => cases h1 : M.net with
        | sbm n => rw [h0, h1] at hn; rw [h0] at hs; exact (SBMInv.same hn).allowSelf.trans hs
        | fixedSparsity n => rw [h0, h1] at hn; exact hn.elim
        | er n => rw [h0, h1] at hn; exact hn.elim
      | fixedSparsity n0 => cases h1 : M.net with
        | fixedSparsity n => rw [h0, h1] at hn; rw [h0] at hs; exact (SBMInv.same hn).allowSelf.trans hs
        | sbm n => rw [h0, h1] at hn; exact hn.elim
        | er n => rw [h0, h1] at hn; exact hn.elim
      | er n0 => cases h1 : M.net with
        | er n => rw [h0, h1] at hn; rw [h0] at hs; exact hn.2.2.2.1.trans hs
        | sbm n => rw [h0, h1] at hn; exact hn.elim
        | fixedSparsity n => rw [h0, h1] at hn; exact hn.elim
    simp [MFWeights.eW, e]
  · refine ⟨_, _, resampleFromMf_eq demoMFDraws (exMF false) (exMF_good false), ?_, ?_⟩
    · have h : demoMFDraws.u 0 0 < (exMF false).w.mfP 0 0 := by
        simp only [demoMFDraws, exMF, MFWeights.init]; norm_num
      simp only [sampledParams, if_pos h]
    · simp [exMF, exSBM, MFNet.P, SBM.P]

/-- a model with a block network of given labels, probabilities and scales -/
noncomputable def exGiven : MFModel := { exMF true with net := .sbm { exSBM true with fixed := true, p := fun c e => if c = e then 3 / 4 else 1 / 4 } }

/-- the same, as fixed-sparsity network -/
noncomputable def exSparse : MFModel := { exMF true with net := .fixedSparsity { exSBM true with p := fun c e => if c = e then 3 / 4 else 1 / 4 } }

theorem exGivenSBM_good (b : Bool) : SBMGood { exSBM true with fixed := b, p := fun c e => if c = e then 3 / 4 else 1 / 4 } := by
  have g := exSBM_good true
  refine ⟨g.C, g.kappa, g.tau, g.ab, g.pi, g.mfTau, g.mfAB, g.mfPi, g.mfM, ?_, ?_⟩
  · intro i _ j _
    simp only [SBM.P, exSBM]
    norm_num
    split_ifs <;> norm_num
  · intro i _ j _
    simp [SBM.V, exSBM]

/-- **C82 (given network, violated).** `resample_from_mf` overwrites connection probabilities, scales and labels that were GIVEN to the block network as known:
afterwards `expected_p` reports other values, and the next mean-field step uses them. -/
theorem C82_given_network_violated :
    MFGood exGiven ∧ MFDrawsOk exGiven.B (mfBlocks exGiven.net) demoMFDraws ∧
      ∃ s M', exGiven.resampleFromMf demoMFDraws = .ok (s, M') ∧ exGiven.net.eP 0 1 = 1 / 4 ∧ M'.net.eP 0 1 = 1 / 2 := by
  have g := exMF_good true
  have gG : MFGood exGiven := ⟨g.bias, g.imp, g.w, g.wmf, g.p, ⟨rfl, exGivenSBM_good true⟩, g.data⟩
  refine ⟨gG, demoMFDraws_ok one_pos, _, _, resampleFromMf_eq demoMFDraws exGiven gG, ?_, ?_⟩
  · simp [exGiven, MFNet.eP, SBM.eP, SBM.P, exSBM]
  · simp [exGiven, MFNet.eP, SBM.eP, SBM.P, exSBM, sampledNet, demoMFDraws]

/-- **C82 (fixed sparsity, violated).** In the fixed-sparsity block network `resample_from_mf` redraws the labels, which changes the "fixed" connection probabilities that `expected_p` reports
and that the next mean-field step uses. -/
theorem C82_fixed_sparsity_violated :
    MFGood exSparse ∧ MFDrawsOk exSparse.B (mfBlocks exSparse.net) demoMFDraws ∧
      ∃ s M', exSparse.resampleFromMf demoMFDraws = .ok (s, M') ∧ exSparse.net.eP 0 1 = 1 / 4 ∧ M'.net.eP 0 1 = 3 / 4 := by
  have g := exMF_good true
  have gG : MFGood exSparse := ⟨g.bias, g.imp, g.w, g.wmf, g.p, ⟨rfl, exGivenSBM_good false⟩, g.data⟩
  refine ⟨gG, demoMFDraws_ok one_pos, _, _, resampleFromMf_eq demoMFDraws exSparse gG, ?_, ?_⟩
  · simp [exSparse, MFNet.eP, SBM.P, exSBM]
  · simp [exSparse, MFNet.eP, SBM.P, exSBM, sampledNet, demoMFDraws]

/-- **C82 (Erdos-Renyi with given scale, violated).** A network built with a given weight scale instead of a gamma prior has no variational parameters: `resample_from_mf` raises `AttributeError`
after it has already replaced background rates, weights and impulse responses. -/
theorem C82_given_scale_violated (d : MFDraws) (n : ERFixed) (h : n.mf = none) (M : MFModel) (g : MFGood M) :
    { M with net := .er n }.resampleFromMf d = .error .attribute := by
  have h1 : ∀ lam0 A W gg, M.bias.sample M.K d.lam = .ok lam0 → M.w.sample M.K d = .ok (A, W) → M.imp.sample M.K M.B d.dir = .ok gg →
      { M with net := .er n }.resampleFromMf d = .error .attribute := by
    intro lam0 A W gg e1 e2 e3
    simp only [MFModel.resampleFromMf, e1, e2, e3, MFNet.sample, ERFixed.sampleMf, h]
  have h2 := resampleFromMf_eq d M g
  unfold MFModel.resampleFromMf at h2
  rcases e1 : M.bias.sample M.K d.lam with e | lam0
  · rw [e1] at h2; cases h2
  rw [e1] at h2
  rcases e2 : M.w.sample M.K d with e | ⟨A, W⟩
  · rw [e2] at h2; cases h2
  rw [e2] at h2
  rcases e3 : M.imp.sample M.K M.B d.dir with e | gg
  · rw [e3] at h2; cases h2
  exact h1 _ _ _ _ e1 e2 e3

/-! ### Self pairs -/

section
variable {Ω : Type*} [MeasurableSpace Ω] {P : Measure Ω} [IsProbabilityMeasure P] {d : Ω → MFDraws}

/-- mean of the drawn connection probability of a self pair: one label, used twice -/
theorem selfP_mean {B : ℕ} (n : SBM) (g : SBMGood n) (hl : MFLaws P B n.C d) (hind : Independent P d) {i : ℕ} (hi : i < n.K) :
    ∫ ω, (d ω).net.beta ((d ω).net.label i (n.mfM i)) ((d ω).net.label i (n.mfM i))
        ⟨n.mfTau1 ((d ω).net.label i (n.mfM i)) ((d ω).net.label i (n.mfM i)), n.mfTau0 ((d ω).net.label i (n.mfM i)) ((d ω).net.label i (n.mfM i))⟩ ∂P
      = ∑ c ∈ range n.C, n.mfM i c * (n.mfTau1 c c / (n.mfTau1 c c + n.mfTau0 c c)) := by
  have I := hind (netArgs n)
  have li : (netArgs n).label i = n.mfM i := by simp [netArgs, hi]
  have ll := hl.label i _ (g.mfM i hi)
  have hlaw : ∀ c < n.C, HasLaw (fun ω => (d ω).net.beta c c ⟨n.mfTau1 c c, n.mfTau0 c c⟩) (betaMeasure (n.mfTau1 c c) (n.mfTau0 c c)) P :=
    fun c hc => hl.beta c c _ (g.mfTau c hc c hc).2 (g.mfTau c hc c hc).1
  have hint : ∀ c < n.C, Integrable (fun ω => (d ω).net.beta c c ⟨n.mfTau1 c c, n.mfTau0 c c⟩) P := by
    intro c hc
    have h := betaId_integrable (g.mfTau c hc c hc).2 (g.mfTau c hc c hc).1
    rw [← integrable_betaMeasure (g.mfTau c hc c hc).2 (g.mfTau c hc c hc).1, ← (hlaw c hc).map_eq] at h
    exact h.comp_aemeasurable (hlaw c hc).aemeasurable
  have mI : ∀ c : ℕ, Measurable fun x : ℕ => if x = c then (1:ℝ) else 0 := fun c => measurable_of_countable _
  have term : ∀ c < n.C, Integrable (fun ω => (if (d ω).net.label i (n.mfM i) = c then (1:ℝ) else 0) * (d ω).net.beta c c ⟨n.mfTau1 c c, n.mfTau0 c c⟩) P ∧
      ∫ ω, (if (d ω).net.label i (n.mfM i) = c then (1:ℝ) else 0) * (d ω).net.beta c c ⟨n.mfTau1 c c, n.mfTau0 c c⟩ ∂P
        = n.mfM i c * (n.mfTau1 c c / (n.mfTau1 c c + n.mfTau0 c c)) := by
    intro c hc
    obtain ⟨i1, v1⟩ := label_mean (g.mfM i hi) ll hc
    have h1 : IndepFun (fun ω => (d ω).net.label i (n.mfM i)) (fun ω => (d ω).net.beta c c ⟨n.mfTau1 c c, n.mfTau0 c c⟩) P := by
      have h := I.indepFun (i := .label i) (j := .blockP c c) (by simp)
      simp only [MFDraws.value, netArgs, if_pos (And.intro hc hc), if_pos hi] at h
      exact h
    have h2 : IndepFun (fun ω => if (d ω).net.label i (n.mfM i) = c then (1:ℝ) else 0) (fun ω => (d ω).net.beta c c ⟨n.mfTau1 c c, n.mfTau0 c c⟩) P := h1.comp (mI c) measurable_id
    refine ⟨h2.integrable_mul i1 (hint c hc), ?_⟩
    rw [h2.integral_fun_mul_eq_mul_integral i1.aestronglyMeasurable (hint c hc).aestronglyMeasurable, v1]
    congr 1
    have t := g.mfTau c hc c hc
    rw [← expBeta_id t.2 t.1, ← integral_betaMeasure t.2 t.1]
    exact (hlaw c hc).integral_comp (f := fun x => x) measurable_id.aestronglyMeasurable
  have e : (fun ω => (d ω).net.beta ((d ω).net.label i (n.mfM i)) ((d ω).net.label i (n.mfM i))
        ⟨n.mfTau1 ((d ω).net.label i (n.mfM i)) ((d ω).net.label i (n.mfM i)), n.mfTau0 ((d ω).net.label i (n.mfM i)) ((d ω).net.label i (n.mfM i))⟩)
      =ᵐ[P] fun ω => ∑ c ∈ range n.C, (if (d ω).net.label i (n.mfM i) = c then (1:ℝ) else 0) * (d ω).net.beta c c ⟨n.mfTau1 c c, n.mfTau0 c c⟩ := by
    filter_upwards [label_range hl (k := i) (g.mfM i hi)] with ω h1
    rw [sum_eq_single_of_mem _ (mem_range.2 h1) fun c _ hc => ?_]
    · simp
    · rw [if_neg (Ne.symm hc), zero_mul]
  rw [integral_congr_ae e, integral_finsetSum _ fun c hc => (term c (mem_range.1 hc)).1]
  exact sum_congr rfl fun c hc => (term c (mem_range.1 hc)).2

end

/-- two blocks, connections within blocks more likely -/
noncomputable def exSelf : MFModel := { exMF true with net := .sbm { exSBM true with mfTau1 := fun c e => if c = e then 3 else 1 } }

theorem exSelf_good : MFGood exSelf := by
  have g := exMF_good true
  have gs := exSBM_good true
  refine ⟨g.bias, g.imp, g.w, g.wmf, g.p, ⟨rfl, gs.C, gs.kappa, gs.tau, gs.ab, gs.pi, ?_, gs.mfAB, gs.mfPi, gs.mfM, gs.P, gs.V⟩, g.data⟩
  intro c _ e _
  refine ⟨one_pos, ?_⟩
  dsimp only
  split_ifs <;> norm_num

/-- **C82 (self pairs).** For a self pair `expected_p` is NOT the mean of the drawn connection probability: the code averages over two independent labels, but a self pair has one label.
In this two-block example the drawn probability has mean 3/4, `expected_p` reports 5/8. -/
theorem C82_self_pair_disagrees {Ω : Type*} [MeasurableSpace Ω] {P : Measure Ω} [IsProbabilityMeasure P] {d : Ω → MFDraws}
    (hl : MFLaws P exSelf.B (mfBlocks exSelf.net) d) (hind : Independent P d) :
    MFGood exSelf ∧ exSelf.net.allowSelf = true ∧ ∃ (S : Ω → MFSample) (N : Ω → MFNet), (∀ ω, exSelf.resampleFromMf (d ω) = .ok (S ω, { exSelf with net := N ω })) ∧
      ∫ ω, (N ω).P 0 0 ∂P = 3 / 4 ∧ exSelf.net.eP 0 0 = 5 / 8 := by
  refine ⟨exSelf_good, rfl, fun ω => sampledParams (d ω) exSelf, fun ω => sampledNet (d ω) exSelf.net, fun ω => resampleFromMf_eq (d ω) exSelf exSelf_good, ?_, ?_⟩
  · have h := selfP_mean _ exSelf_good.net.2 hl hind (i := 0) two_pos
    have e : (fun ω => (sampledNet (d ω) exSelf.net).P 0 0) = fun ω => (d ω).net.beta ((d ω).net.label 0 ((exSBM true).mfM 0)) ((d ω).net.label 0 ((exSBM true).mfM 0))
        ⟨if (d ω).net.label 0 ((exSBM true).mfM 0) = (d ω).net.label 0 ((exSBM true).mfM 0) then 3 else 1, (exSBM true).mfTau0 ((d ω).net.label 0 ((exSBM true).mfM 0)) ((d ω).net.label 0 ((exSBM true).mfM 0))⟩ := by
      funext ω
      simp [exSelf, sampledNet, MFNet.P, SBM.P, exSBM]
    rw [e]
    refine Eq.trans h ?_
    simp [exSBM]
    norm_num
  · simp [exSelf, exSBM, MFNet.eP, SBM.eP, sum_range_succ]
    norm_num

end PyHawkes
