import Verif.Props.Network
import Verif.Props.Sampler

/-! # C22: a whole Gibbs sweep over the parameters of a block model -/
set_option linter.unusedSectionVars false
set_option linter.unusedVariables false

namespace PyHawkes
open Finset ProbabilityTheory Spec

/-- the label vectors visited by `resample_c`: one node changes at a time -/
theorem resampleC_trace (huge : ℝ) (o : SBMOracle) (A W : Mat ℝ) (n : SBM) (hC : n.C ≠ 1) :
    ∃ c : ℕ → ℕ → ℕ, c 0 = n.c ∧ sbmResampleC huge o A W n = { n with c := c n.K } ∧
      ∀ k, c (k + 1) = Vec.set (c k) k (o.label k (sbmLp huge { n with c := c k } A W k)) := by
  unfold sbmResampleC
  rw [if_neg hC]
  set f : ℕ → SBM → SBM := fun k n => { n with c := Vec.set n.c k (o.label k (sbmLp huge n A W k)) } with hf
  have h : ∀ k, forRange k f n = { n with c := (forRange k f n).c } := by
    intro k
    induction k with
    | zero => rfl
    | succ k ih =>
      rw [forRange_succ]
      conv_lhs => rw [ih]
      conv_rhs => rw [ih]
  refine ⟨fun k => (forRange k f n).c, rfl, h n.K, fun k => ?_⟩
  show (forRange (k + 1) f n).c = _
  rw [forRange_succ, h k]

/-- **C22 (sweep), partial.** One `resample` of a block model that is not fixed, with two or more blocks, draws in this order: every block probability from its conditional given the
labels and edges, every block scale from its conditional given the labels, edges and weights, then for each node in turn its label, given the labels already redrawn and the *new* block probabilities and
scales, with weights equal to the joint probability of label, edges and weights — times the self-pair factor once more —, and last the class frequencies from their conditional given the new labels. Nothing
else changes. Missing (and false): the own block probability with self connections disallowed and the extra self-pair factor, see `C22_block_probability_violated` and `C22_labels_violated`. -/
theorem C22_sweep_partial (huge : ℝ) (o : SBMOracle) (eg : GammaArgs → ℝ) (A W : Mat ℝ) (n : SBM) (hn : SbmOk n.K n) (hfix : n.fixed = false) (hC : n.C ≠ 1) (hd : NetDrawsOk n.C o eg)
    (hbeta : ∀ i j a, 0 < a.a → 0 < a.b → 0 < o.beta i j a ∧ o.beta i j a < 1) (hm : ∀ b < n.C, 0 < n.m b)
    (hA : ∀ i < n.K, ∀ j < n.K, A i j = 0 ∨ A i j = 1) (hW : ∀ i < n.K, ∀ j < n.K, 0 < W i j) :
    let n' := sbmResample huge o A W n
    (∀ c1 < n.C, ∀ c2 < n.C, ∃ a, n'.p c1 c2 = o.beta c1 c2 a ∧ ((n.allowSelf = true ∨ c1 ≠ c2) →
      Spec.IsPosteriorOn (Set.Ioo 0 1) (betaPDFReal a.a a.b) (betaPDFReal n.tau1 n.tau0)
        (fun q => ∏ i ∈ range n.K, ∏ j ∈ range n.K, if n.c i = c1 ∧ n.c j = c2 ∧ (n.allowSelf = true ∨ i ≠ j) then Spec.bernoulliPmf q (decide (A i j = 1)) else 1))) ∧
    (∀ c1 < n.C, ∀ c2 < n.C, ∃ a, n'.v c1 c2 = o.gamma c1 c2 a ∧ 0 < a.shape ∧ 0 < a.scale ∧
      Spec.IsPosterior (Spec.npGammaPdf a.shape a.scale) (gammaPDFReal n.alpha n.beta)
        (fun v => ∏ i ∈ range n.K, ∏ j ∈ range n.K, if n.c i = c1 ∧ n.c j = c2 ∧ A i j = 1 then gammaPDFReal n.kappa v (W i j) else 1)) ∧
    (∃ c : ℕ → ℕ → ℕ, c 0 = n.c ∧ n'.c = c n.K ∧ ∀ k < n.K, (∀ j, j ≠ k → c (k + 1) j = c k j) ∧
      ∃ lp, c (k + 1) k = o.label k lp ∧ ∀ b < n.C, Real.exp (lp b) =
        labelJoint { n with p := n'.p, v := n'.v, c := c k } A W k b * pairLik n.kappa (n'.p b b) (n'.v b b) (A k k) (W k k)) ∧
    (∃ a : Vec ℝ, n'.m = o.dirichlet a ∧ ∀ x : Vec ℝ, (∀ b < n.C, 0 < x b) →
      ∏ b ∈ range n.C, x b ^ (a b - 1) = (∏ b ∈ range n.C, x b ^ (n.pi b - 1)) * ∏ k ∈ range n.K, x (n'.c k)) ∧
    n' = { n with p := n'.p, v := n'.v, c := n'.c, m := n'.m } := by
  intro n'
  have hW1 : ∀ i < n.K, ∀ j < n.K, A i j = 1 → 0 < W i j := fun i hi j hj _ => hW i hi j hj
  obtain ⟨ht0, ht1, ha, hb, hk, hpi⟩ := hn.hyper
  have ok1 := sbmResampleP_ok hd hA hn
  have ok2 := sbmResampleV_ok hd hA hW ok1
  set n2 := sbmResampleV o A W (sbmResampleP o A n) with hn2
  have ok3 := (sbmResampleC_ok (K := n.K) (n := n2) huge (A := A) (W := W) hd ok2).1
  obtain ⟨c, hc0, hcK, hcs⟩ := resampleC_trace huge o A W n2 (show n2.C ≠ 1 from hC)
  have hn' : n' = sbmResampleM o { n2 with c := c n.K } := by
    show sbmResample huge o A W n = _
    unfold sbmResample
    rw [if_neg (by rw [hfix]; decide), ← hn2, hcK]; rfl
  rw [hcK] at ok3
  have lab : ∀ k, k ≤ n.K → ∀ j < n.K, c k j < n.C := by
    intro k
    induction k with
    | zero => intro _ j hj; rw [hc0]; exact hn.labels j hj
    | succ k ih =>
      intro hk' j hj
      rw [hcs k]
      unfold Vec.set
      split_ifs
      · exact hd.netLabel _ _
      · exact ih (by omega) j hj
  have ep : n'.p = n2.p := by rw [hn']; rfl
  have ev : n'.v = n2.v := by rw [hn']; rfl
  have ec : n'.c = c n.K := by rw [hn']; rfl
  have pin : ∀ b < n.C, ∀ b' < n.C, 0 < n2.p b b' ∧ n2.p b b' < 1 := by
    intro b hb' b' hb''
    show 0 < (if b < n.C ∧ b' < n.C then _ else _) ∧ (if b < n.C ∧ b' < n.C then _ else _) < (1:ℝ)
    rw [if_pos ⟨hb', hb''⟩]
    have hnn : ∀ f : ℕ → ℕ → ℝ, (∀ i < n.K, ∀ j < n.K, 0 ≤ f i j) → 0 ≤ blockSum n b b' f := fun f hf => blockSum_nonneg n b b' f hf
    refine hbeta _ _ _ (add_pos_of_pos_of_nonneg ht1 (hnn _ fun i hi j hj => ?_)) (add_pos_of_pos_of_nonneg ht0 (hnn _ fun i hi j hj => ?_))
    · rcases hA i hi j hj with h | h <;> rw [h] <;> norm_num
    · rcases hA i hi j hj with h | h <;> rw [h] <;> norm_num
  refine ⟨fun c1 h1 c2 h2 => ⟨sbmPArgs n A c1 c2, ?_, C22_block_probability_partial n A hA ht1 ht0 c1 c2⟩, fun c1 h1 c2 h2 => ⟨sbmVArgs n A W c1 c2, ?_, ?_⟩,
    ⟨c, hc0, ec, fun k hk' => ⟨fun j hj => ?_, sbmLp huge { n2 with c := c k } A W k, ?_, fun b hb' => ?_⟩⟩, ⟨sbmMArgs { n2 with c := c n.K }, ?_, fun x hx => ?_⟩, ?_⟩
  · rw [ep]
    exact if_pos ⟨h1, h2⟩
  · rw [ev]
    exact if_pos ⟨h1, h2⟩
  · exact C22_block_scale n A W hA hW1 ha hb hk c1 c2
  · rw [hcs k]; simp [Vec.set, hj]
  · rw [hcs k]; simp [Vec.set]
  · rw [sbmLp_eq huge { n2 with c := c k } A W k b hk' hb' (lab k hk'.le) hk hm pin ok2.v hA hW1, ep, ev]
    rfl
  · rw [hn']; rfl
  · rw [ec]
    exact C22_block_weights { n2 with c := c n.K } (lab n.K le_rfl) x hx
  · rw [hn']; rfl

/-- **C22 (sweep, fixed sparsity), partial.** The same for the block model with given connection probabilities: the scales, labels and class frequencies are redrawn from their conditionals,
with the given probabilities throughout. Missing: as for `C22_sweep_partial`, the self pair is counted twice in the label weights. -/
theorem C22_sweep_fixed_sparsity_partial (huge : ℝ) (o : SBMOracle) (eg : GammaArgs → ℝ) (A W : Mat ℝ) (n : SBM) (hn : SbmOk n.K n) (hfix : n.fixed = false) (hC : n.C ≠ 1) (hd : NetDrawsOk n.C o eg)
    (hp : ∀ b < n.C, ∀ b' < n.C, 0 < n.p b b' ∧ n.p b b' < 1) (hm : ∀ b < n.C, 0 < n.m b)
    (hA : ∀ i < n.K, ∀ j < n.K, A i j = 0 ∨ A i j = 1) (hW : ∀ i < n.K, ∀ j < n.K, 0 < W i j) :
    let n' := sbmFixedResample huge o A W n
    (∀ c1 < n.C, ∀ c2 < n.C, ∃ a, n'.v c1 c2 = o.gamma c1 c2 a ∧ 0 < a.shape ∧ 0 < a.scale ∧
      Spec.IsPosterior (Spec.npGammaPdf a.shape a.scale) (gammaPDFReal n.alpha n.beta)
        (fun v => ∏ i ∈ range n.K, ∏ j ∈ range n.K, if n.c i = c1 ∧ n.c j = c2 ∧ A i j = 1 then gammaPDFReal n.kappa v (W i j) else 1)) ∧
    (∃ c : ℕ → ℕ → ℕ, c 0 = n.c ∧ n'.c = c n.K ∧ ∀ k < n.K, (∀ j, j ≠ k → c (k + 1) j = c k j) ∧
      ∃ lp, c (k + 1) k = o.label k lp ∧ ∀ b < n.C, Real.exp (lp b) =
        labelJoint { n with v := n'.v, c := c k } A W k b * pairLik n.kappa (n.p b b) (n'.v b b) (A k k) (W k k)) ∧
    (∃ a : Vec ℝ, n'.m = o.dirichlet a ∧ ∀ x : Vec ℝ, (∀ b < n.C, 0 < x b) →
      ∏ b ∈ range n.C, x b ^ (a b - 1) = (∏ b ∈ range n.C, x b ^ (n.pi b - 1)) * ∏ k ∈ range n.K, x (n'.c k)) ∧
    n' = { n with v := n'.v, c := n'.c, m := n'.m } := by
  intro n'
  have hW1 : ∀ i < n.K, ∀ j < n.K, A i j = 1 → 0 < W i j := fun i hi j hj _ => hW i hi j hj
  obtain ⟨ht0, ht1, ha, hb, hk, hpi⟩ := hn.hyper
  have ok2 := sbmResampleV_ok hd hA hW hn
  set n2 := sbmResampleV o A W n with hn2
  obtain ⟨c, hc0, hcK, hcs⟩ := resampleC_trace huge o A W n2 (show n2.C ≠ 1 from hC)
  have hn' : n' = sbmResampleM o { n2 with c := c n.K } := by
    show sbmFixedResample huge o A W n = _
    unfold sbmFixedResample
    rw [if_neg (by rw [hfix]; decide), ← hn2, hcK]; rfl
  have lab : ∀ k, k ≤ n.K → ∀ j < n.K, c k j < n.C := by
    intro k
    induction k with
    | zero => intro _ j hj; rw [hc0]; exact hn.labels j hj
    | succ k ih =>
      intro hk' j hj
      rw [hcs k]
      unfold Vec.set
      split_ifs
      · exact hd.netLabel _ _
      · exact ih (by omega) j hj
  have ev : n'.v = n2.v := by rw [hn']; rfl
  have ec : n'.c = c n.K := by rw [hn']; rfl
  refine ⟨fun c1 h1 c2 h2 => ⟨sbmVArgs n A W c1 c2, ?_, ?_⟩,
    ⟨c, hc0, ec, fun k hk' => ⟨fun j hj => ?_, sbmLp huge { n2 with c := c k } A W k, ?_, fun b hb' => ?_⟩⟩, ⟨sbmMArgs { n2 with c := c n.K }, ?_, fun x hx => ?_⟩, ?_⟩
  · rw [ev]
    exact if_pos ⟨h1, h2⟩
  · exact C22_block_scale n A W hA hW1 ha hb hk c1 c2
  · rw [hcs k]; simp [Vec.set, hj]
  · rw [hcs k]; simp [Vec.set]
  · rw [sbmLp_eq huge { n2 with c := c k } A W k b hk' hb' (lab k hk'.le) hk hm hp ok2.v hA hW1, ev]
    rfl
  · rw [hn']; rfl
  · rw [ec]
    exact C22_block_weights { n2 with c := c n.K } (lab n.K le_rfl) x hx
  · rw [hn']; rfl

/-- draws that satisfy the contracts for two blocks -/
noncomputable def sweepDraws : SBMOracle := ⟨fun _ _ _ => 1 / 2, fun _ _ _ => 1, fun k _ => k % 2, fun _ _ => 1 / 2⟩

/-- the hypotheses hold for three nodes in two blocks with an edge -/
example : let n : SBM := { twoBlocks with K := 3, c := fun k => k % 2 }
    SbmOk n.K n ∧ n.fixed = false ∧ n.C ≠ 1 ∧ NetDrawsOk n.C sweepDraws (fun _ => 1) ∧ (∀ i j a, 0 < a.a → 0 < a.b → 0 < sweepDraws.beta i j a ∧ sweepDraws.beta i j a < 1) ∧
      (∀ b < n.C, ∀ b' < n.C, 0 < n.p b b' ∧ n.p b b' < 1) ∧ (∀ b < n.C, 0 < n.m b) := by
  have hp : ∀ b b' : ℕ, 0 < twoBlocks.p b b' ∧ twoBlocks.p b b' < 1 := by
    intro b b'
    simp only [twoBlocks]
    split_ifs <;> norm_num
  refine ⟨⟨rfl, by simp [twoBlocks], fun k _ => Nat.mod_lt _ (by norm_num), fun i _ j _ => ⟨(hp i j).1.le, (hp i j).2.le⟩, by simp [twoBlocks]⟩, rfl, by simp [twoBlocks], ?_, ?_, fun b _ b' _ => hp b b', by simp [twoBlocks]⟩
  · refine ⟨by simp, by simp [sweepDraws], fun _ _ _ _ _ => by norm_num [sweepDraws], fun k v => Nat.mod_lt _ (by norm_num), fun v _ => ?_⟩
    constructor
    · intro b hb; norm_num [sweepDraws]
    · norm_num [sweepDraws, twoBlocks]
  · intro _ _ _ _ _; norm_num [sweepDraws]

end PyHawkes
