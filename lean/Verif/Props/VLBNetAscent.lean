import Verif.Props.VLBWeights

/-! # C79: coordinate updates of the network never decrease the bound, except the labels' -/
set_option linter.unusedSectionVars false
set_option linter.unusedVariables false

namespace PyHawkes
open Finset MeasureTheory ProbabilityTheory Spec

/-- with self connections allowed before and after, the data term does not depend on the network -/
theorem parentsVlb_net (M : MFModel) (n' : MFNet) (h : n'.allowSelf = M.net.allowSelf) : (M.withNet n').parentsVlb = M.parentsVlb := by
  funext D
  simp only [MFModel.parentsVlb, MFModel.withNet, h]

/-- change of the bound under a change of the network -/
theorem vlb_shift_net (huge : ℝ) (M : MFModel) (n' : MFNet) (hs : n'.allowSelf = M.net.allowSelf) (hk : n'.kappa = M.net.kappa)
    {V L lP lN V' L' lP' lN' : Mat ℝ} {y y' : ℝ} (hp : ∀ i < M.K, ∀ j < M.K, 0 < M.w.mfP i j ∧ M.w.mfP i j < 1)
    (hV : M.net.eV = .ok V) (hL : M.net.eLnV = .ok L) (hl : ∀ i < M.K, ∀ j < M.K, M.net.eLnP i j = .fin (lP i j) ∧ M.net.eLnNotP i j = .fin (lN i j))
    (hV' : n'.eV = .ok V') (hL' : n'.eLnV = .ok L') (hl' : ∀ i < M.K, ∀ j < M.K, n'.eLnP i j = .fin (lP' i j) ∧ n'.eLnNotP i j = .fin (lN' i j))
    (hy : M.net.vlb huge = .ok y) (hy' : n'.vlb huge = .ok y') {x : ℝ} (hx : M.vlb huge = .ok (.fin x)) :
    (M.withNet n').vlb huge = .ok (.fin (x + (y' - y) + ∑ i ∈ range M.K, ∑ j ∈ range M.K,
      (M.w.mfP i j * (lP' i j - lP i j) + (1 - M.w.mfP i j) * (lN' i j - lN i j)
        + M.w.mfP i j * (M.net.kappa * (L' i j - L i j) - (V' i j - V i j) * M.w.eWGivenA 1 i j)))) := by
  obtain ⟨V0, L0, y0, s, u, h1, h2, h3, h4, h5, rfl⟩ := vlb_parts huge M hx
  rw [hV] at h1; cases h1
  rw [hL] at h2; cases h2
  rw [hy] at h3; cases h3
  have hwo := wVlb_value M.K M.net V L lP lN M.w hp hl
  rw [h5] at hwo
  have hwo := FX.fin.inj hwo
  have hwv := wVlb_value M.K n' V' L' lP' lN' M.w hp hl'
  have h4' : (M.data.map (M.withNet n').parentsVlb).sum = .fin s := by rw [parentsVlb_net M n' hs]; exact h4
  have := vlb_of_parts huge (M.withNet n') (V := V') (L := L') (y := y') (s := s) hV' hL' hy' h4' hwv
  rw [this]
  congr 2
  have : ∑ i ∈ range M.K, ∑ j ∈ range M.K, wEntry n'.kappa (V' i j) (L' i j) (lP' i j) (lN' i j) M.w i j = u + ∑ i ∈ range M.K, ∑ j ∈ range M.K,
      (M.w.mfP i j * (lP' i j - lP i j) + (1 - M.w.mfP i j) * (lN' i j - lN i j)
        + M.w.mfP i j * (M.net.kappa * (L' i j - L i j) - (V' i j - V i j) * M.w.eWGivenA 1 i j)) := by
    rw [hwo, ← sum_add_distrib]
    refine sum_congr rfl fun i _ => ?_
    rw [← sum_add_distrib]
    refine sum_congr rfl fun j _ => ?_
    rw [hk]
    simp only [wEntry, gammaNegent]
    ring
  rw [this]
  show s + M.bias.vlb M.K + M.imp.vlb M.K M.B + _ + y' = _
  ring

/-! ### Block model -/

/-- weighted number of pairs -/
noncomputable def pairSum (n : SBM) (f : Mat ℝ) (c d : ℕ) : ℝ := ∑ i ∈ range n.K, ∑ j ∈ range n.K, n.mfM i c * n.mfM j d * f i j

/-- a sum over pairs of nodes of a block average is a sum over pairs of blocks -/
theorem sum_mix (n : SBM) (a f : Mat ℝ) :
    ∑ i ∈ range n.K, ∑ j ∈ range n.K, a i j * n.mix f i j = ∑ c ∈ range n.C, ∑ d ∈ range n.C, pairSum n a c d * f c d := by
  have : ∀ i j, a i j * n.mix f i j = ∑ c ∈ range n.C, ∑ d ∈ range n.C, n.mfM i c * n.mfM j d * a i j * f c d := by
    intro i j
    rw [SBM.mix, mul_sum]
    refine sum_congr rfl fun c _ => ?_
    rw [mul_sum]
    exact sum_congr rfl fun d _ => by ring
  simp only [this, pairSum, sum_mul]
  have e1 : ∀ i, ∑ j ∈ range n.K, ∑ c ∈ range n.C, ∑ d ∈ range n.C, n.mfM i c * n.mfM j d * a i j * f c d
      = ∑ c ∈ range n.C, ∑ d ∈ range n.C, ∑ j ∈ range n.K, n.mfM i c * n.mfM j d * a i j * f c d := by
    intro i
    rw [sum_comm]
    exact sum_congr rfl fun c _ => sum_comm
  simp only [e1]
  rw [sum_comm]
  exact sum_congr rfl fun c _ => sum_comm

/-- the expected logs of a block model with self connections and without fixed parameters are finite -/
theorem sbm_logs (n : SBM) (hs : n.allowSelf = true) (hf : n.fixed = false) (i j : ℕ) :
    (MFNet.sbm n).eLnP i j = .fin (n.mix n.blkLnP i j) ∧ (MFNet.sbm n).eLnNotP i j = .fin (n.mix n.blkLnNotP i j) := by
  simp [MFNet.eLnP, MFNet.eLnNotP, hs, hf]

theorem sbm_eLnV (n : SBM) (hf : n.fixed = false) : (MFNet.sbm n).eLnV = .ok (n.mix n.blkLnV) := by
  simp only [MFNet.eLnV, hf]; rfl

theorem sbm_eV (n : SBM) (hf : n.fixed = false) : (MFNet.sbm n).eV = .ok (n.mix n.blkV) := by
  simp only [MFNet.eV, hf]
  congr 1
  funext i j
  simp only [SBM.mix, SBM.blkV, Bool.false_eq_true, if_false]
  exact sum_congr rfl fun c _ => sum_congr rfl fun d _ => by ring

/-- sum over node pairs of the terms of the bound that involve the network, as a sum over block pairs -/
theorem sbm_delta (n n' : SBM) (hK : n'.K = n.K) (hC : n'.C = n.C) (hM : n'.mfM = n.mfM) (p e : Mat ℝ) (κ : ℝ) :
    ∑ i ∈ range n.K, ∑ j ∈ range n.K, (p i j * (n'.mix n'.blkLnP i j - n.mix n.blkLnP i j) + (1 - p i j) * (n'.mix n'.blkLnNotP i j - n.mix n.blkLnNotP i j)
        + p i j * (κ * (n'.mix n'.blkLnV i j - n.mix n.blkLnV i j) - (n'.mix n'.blkV i j - n.mix n.blkV i j) * e i j))
      = ∑ c ∈ range n.C, ∑ d ∈ range n.C, (pairSum n p c d * (n'.blkLnP c d - n.blkLnP c d) + pairSum n (fun i j => 1 - p i j) c d * (n'.blkLnNotP c d - n.blkLnNotP c d)
        + κ * pairSum n p c d * (n'.blkLnV c d - n.blkLnV c d) - pairSum n (fun i j => p i j * e i j) c d * (n'.blkV c d - n.blkV c d)) := by
  have hm : ∀ f : Mat ℝ, n'.mix f = n.mix f := by
    intro f; funext i j; simp only [SBM.mix, hC, hM]
  simp only [hm]
  have e1 := sum_mix n p (fun c d => n'.blkLnP c d - n.blkLnP c d)
  have e2 := sum_mix n (fun i j => 1 - p i j) (fun c d => n'.blkLnNotP c d - n.blkLnNotP c d)
  have e3 := sum_mix n p (fun c d => κ * (n'.blkLnV c d - n.blkLnV c d))
  have e4 := sum_mix n (fun i j => p i j * e i j) (fun c d => n'.blkV c d - n.blkV c d)
  have sub : ∀ (f g : Mat ℝ) i j, n.mix (fun c d => f c d - g c d) i j = n.mix f i j - n.mix g i j := by
    intro f g i j
    simp only [SBM.mix, mul_sub, sum_sub_distrib]
  have mul : ∀ (f : Mat ℝ) i j, n.mix (fun c d => κ * f c d) i j = κ * n.mix f i j := by
    intro f i j
    simp only [SBM.mix, mul_sum]
    exact sum_congr rfl fun c _ => sum_congr rfl fun d _ => by ring
  simp only [sub] at e1 e2 e4
  simp only [mul (fun c d => n'.blkLnV c d - n.blkLnV c d), sub] at e3
  have lhs : ∀ i j, (p i j * (n.mix n'.blkLnP i j - n.mix n.blkLnP i j) + (1 - p i j) * (n.mix n'.blkLnNotP i j - n.mix n.blkLnNotP i j)
        + p i j * (κ * (n.mix n'.blkLnV i j - n.mix n.blkLnV i j) - (n.mix n'.blkV i j - n.mix n.blkV i j) * e i j))
      = p i j * (n.mix n'.blkLnP i j - n.mix n.blkLnP i j) + (1 - p i j) * (n.mix n'.blkLnNotP i j - n.mix n.blkLnNotP i j)
        + p i j * (κ * (n.mix n'.blkLnV i j - n.mix n.blkLnV i j)) - p i j * e i j * (n.mix n'.blkV i j - n.mix n.blkV i j) := fun i j => by ring
  have rhs : ∀ c d, κ * pairSum n p c d * (n'.blkLnV c d - n.blkLnV c d) = pairSum n p c d * (κ * (n'.blkLnV c d - n.blkLnV c d)) := fun c d => by ring
  simp only [lhs, rhs, sum_add_distrib, sum_sub_distrib]
  rw [e1, e2, e3, e4]

theorem pairSum_nonneg {n : SBM} (g : SBMGood n) {f : Mat ℝ} (hf : ∀ i < n.K, ∀ j < n.K, 0 ≤ f i j) {c d : ℕ} (hc : c < n.C) (hd : d < n.C) : 0 ≤ pairSum n f c d :=
  sum_nonneg fun i hi => sum_nonneg fun j hj => mul_nonneg (mul_nonneg ((g.mfM i (mem_range.1 hi)).1 c hc) ((g.mfM j (mem_range.1 hj)).1 d hd))
    (hf i (mem_range.1 hi) j (mem_range.1 hj))

theorem beta_objective {t1 t0 N1 N0 a b : ℝ} (h1 : 0 < t1) (h0 : 0 < t0) (hN1 : 0 ≤ N1) (hN0 : 0 ≤ N0) (ha : 0 < a) (hb : 0 < b) :
    N1 * (psi a - psi (b + a)) + N0 * (psi b - psi (b + a)) - klBeta a b t1 t0 = -klBeta a b (t1 + N1) (t0 + N0) + (lnBeta (t1 + N1) (t0 + N0) - lnBeta t1 t0) := by
  rw [klBeta_eq ha hb h1 h0, klBeta_eq ha hb (by linarith) (by linarith), add_comm b a]
  ring

/-- the hypotheses shared by the network theorems: a block model with self connections allowed, whose parameters are not fixed, in a valid state -/
structure SBMState (M : MFModel) (n : SBM) : Prop where
  net : M.net = .sbm n
  K : n.K = M.K
  self : n.allowSelf = true
  free : n.fixed = false
  good : SBMGood n
  p : ∀ i < M.K, ∀ j < M.K, 0 < M.w.mfP i j ∧ M.w.mfP i j < 1
  w : ∀ i < M.K, ∀ j < M.K, 0 < M.w.mfKappa1 i j ∧ 0 < M.w.mfV1 i j

theorem sbm_shift (huge : ℝ) {M : MFModel} {n n' : SBM} (h : SBMState M n) (hK : n'.K = n.K) (hC : n'.C = n.C) (hM : n'.mfM = n.mfM) (hs : n'.allowSelf = n.allowSelf)
    (hf : n'.fixed = n.fixed) (hk : n'.kappa = n.kappa) {x : ℝ} (hx : M.vlb huge = .ok (.fin x)) :
    (M.withNet (.sbm n')).vlb huge = .ok (.fin (x + (n'.vlb huge {} - n.vlb huge {}) + ∑ c ∈ range n.C, ∑ d ∈ range n.C,
      (pairSum n M.w.mfP c d * (n'.blkLnP c d - n.blkLnP c d) + pairSum n (fun i j => 1 - M.w.mfP i j) c d * (n'.blkLnNotP c d - n.blkLnNotP c d)
        + n.kappa * pairSum n M.w.mfP c d * (n'.blkLnV c d - n.blkLnV c d) - pairSum n (fun i j => M.w.mfP i j * M.w.eWGivenA 1 i j) c d * (n'.blkV c d - n.blkV c d)))) := by
  have e := sbm_delta n n' hK hC hM M.w.mfP (M.w.eWGivenA 1) n.kappa
  rw [h.K] at e
  have hf' : n'.fixed = false := hf.trans h.free
  have hs' : n'.allowSelf = true := hs.trans h.self
  have := vlb_shift_net huge M (.sbm n') (by rw [h.net]; exact hs) (by rw [h.net]; exact hk) h.p (by rw [h.net]; exact sbm_eV n h.free)
    (by rw [h.net]; exact sbm_eLnV n h.free) (fun i _ j _ => by rw [h.net]; exact sbm_logs n h.self h.free i j) (sbm_eV n' hf') (sbm_eLnV n' hf')
    (fun i _ j _ => sbm_logs n' hs' hf' i j) (by rw [h.net]; rfl) (show (MFNet.sbm n').vlb huge = .ok (n'.vlb huge {}) from rfl) hx
  rw [this, ← e]
  have hkap : M.net.kappa = n.kappa := by rw [h.net]; rfl
  rw [hkap]

/-- **C79 (block probabilities).** Self connections allowed: `mf_update_p` never decreases a finite bound. -/
theorem C79_block_probability_ascends (huge : ℝ) {M : MFModel} {n : SBM} (h : SBMState M n) {x : ℝ} (hx : M.vlb huge = .ok (.fin x)) :
    ∃ y, (M.withNet (.sbm (n.mfUpdateP M.w.mfP 1))).vlb huge = .ok (.fin y) ∧ x ≤ y := by
  refine ⟨_, sbm_shift huge h (n' := n.mfUpdateP M.w.mfP 1) rfl rfl rfl rfl rfl rfl hx, ?_⟩
  set n' := n.mfUpdateP M.w.mfP 1 with hn'
  have g := h.good
  have e1 : ∀ c d, n'.mfTau1 c d = n.tau1 + pairSum n M.w.mfP c d := by intro c d; simp [hn', SBM.mfUpdateP, pairSum]
  have e0 : ∀ c d, n'.mfTau0 c d = n.tau0 + pairSum n (fun i j => 1 - M.w.mfP i j) c d := by intro c d; simp [hn', SBM.mfUpdateP, pairSum]
  have hN1 : ∀ c < n.C, ∀ d < n.C, 0 ≤ pairSum n M.w.mfP c d := fun c hc d hd =>
    pairSum_nonneg g (fun i hi j hj => (h.p i (h.K ▸ hi) j (h.K ▸ hj)).1.le) hc hd
  have hN0 : ∀ c < n.C, ∀ d < n.C, 0 ≤ pairSum n (fun i j => 1 - M.w.mfP i j) c d := fun c hc d hd =>
    pairSum_nonneg g (fun i hi j hj => by linarith [(h.p i (h.K ▸ hi) j (h.K ▸ hj)).2]) hc hd
  have g' : SBMGood n' := ⟨g.C, g.kappa, g.tau, g.ab, g.pi, fun c hc d hd => by
    rw [e1, e0]; exact ⟨add_pos_of_pos_of_nonneg g.tau.1 (hN0 c hc d hd), add_pos_of_pos_of_nonneg g.tau.2 (hN1 c hc d hd)⟩, g.mfAB, g.mfPi, g.mfM, g.P, g.V⟩
  rw [C55_network_value huge n g, C55_network_value huge n' g']
  have hlab : ∀ k, labelTerm huge n' k = labelTerm huge n k := fun k => rfl
  have hv : ∀ c d, n'.blkLnV c d = n.blkLnV c d ∧ n'.blkV c d = n.blkV c d := fun c d => ⟨rfl, rfl⟩
  simp only [if_true, hlab, (hv _ _).1, (hv _ _).2, sub_self, mul_zero, sub_zero, add_zero]
  have ec : n'.C = n.C := rfl
  have t1 : n'.tau1 = n.tau1 := rfl
  have t0 : n'.tau0 = n.tau0 := rfl
  have ea : n'.mfAlpha = n.mfAlpha := rfl
  have eb : n'.mfBeta = n.mfBeta := rfl
  have al : n'.alpha = n.alpha := rfl
  have be : n'.beta = n.beta := rfl
  have ep : n'.mfPi = n.mfPi := rfl
  have epi : n'.pi = n.pi := rfl
  have eK : n'.K = n.K := rfl
  rw [ec, t1, t0, ea, eb, al, be, ep, epi, eK]
  have key : ∑ c ∈ range n.C, ∑ d ∈ range n.C, klBeta (n'.mfTau1 c d) (n'.mfTau0 c d) n.tau1 n.tau0
      ≤ ∑ c ∈ range n.C, ∑ d ∈ range n.C, klBeta (n.mfTau1 c d) (n.mfTau0 c d) n.tau1 n.tau0 + ∑ c ∈ range n.C, ∑ d ∈ range n.C,
        (pairSum n M.w.mfP c d * (n'.blkLnP c d - n.blkLnP c d) + pairSum n (fun i j => 1 - M.w.mfP i j) c d * (n'.blkLnNotP c d - n.blkLnNotP c d)) := by
    rw [← sum_add_distrib]
    refine sum_le_sum fun c hc => ?_
    rw [← sum_add_distrib]
    refine sum_le_sum fun d hd => ?_
    have hc := mem_range.1 hc
    have hd := mem_range.1 hd
    have o1 := beta_objective g.tau.2 g.tau.1 (hN1 c hc d hd) (hN0 c hc d hd) (g.mfTau c hc d hd).2 (g.mfTau c hc d hd).1
    have o2 := beta_objective g.tau.2 g.tau.1 (hN1 c hc d hd) (hN0 c hc d hd) (g'.mfTau c hc d hd).2 (g'.mfTau c hc d hd).1
    rw [e1, e0, klBeta_self] at o2
    have kl := klBeta_nonneg (g.mfTau c hc d hd).2 (g.mfTau c hc d hd).1 (add_pos_of_pos_of_nonneg g.tau.2 (hN1 c hc d hd))
      (add_pos_of_pos_of_nonneg g.tau.1 (hN0 c hc d hd))
    simp only [SBM.blkLnP, SBM.blkLnNotP, e1, e0]
    linarith
  linarith

/-- **C79 (block scales).** Self connections allowed: `mf_update_v` never decreases a finite bound. -/
theorem C79_block_scale_ascends (huge : ℝ) {M : MFModel} {n : SBM} (h : SBMState M n) {x : ℝ} (hx : M.vlb huge = .ok (.fin x)) :
    ∃ y, (M.withNet (.sbm (n.mfUpdateV M.w.mfP (M.w.eWGivenA 1) 1))).vlb huge = .ok (.fin y) ∧ x ≤ y := by
  refine ⟨_, sbm_shift huge h (n' := n.mfUpdateV M.w.mfP (M.w.eWGivenA 1) 1) rfl rfl rfl rfl rfl rfl hx, ?_⟩
  set n' := n.mfUpdateV M.w.mfP (M.w.eWGivenA 1) 1 with hn'
  have g := h.good
  have e1 : ∀ c d, n'.mfAlpha c d = n.alpha + n.kappa * pairSum n M.w.mfP c d := by
    intro c d
    simp only [hn', SBM.mfUpdateV, pairSum, sub_self, zero_mul, zero_add, one_mul, mul_sum]
    congr 1
    exact sum_congr rfl fun i _ => sum_congr rfl fun j _ => by ring
  have e0 : ∀ c d, n'.mfBeta c d = n.beta + pairSum n (fun i j => M.w.mfP i j * M.w.eWGivenA 1 i j) c d := by
    intro c d
    simp only [hn', SBM.mfUpdateV, pairSum, sub_self, zero_mul, zero_add, one_mul]
    congr 1
    exact sum_congr rfl fun i _ => sum_congr rfl fun j _ => by ring
  have hW : ∀ i < n.K, ∀ j < n.K, 0 ≤ M.w.eWGivenA 1 i j := by
    intro i hi j hj
    have := h.w i (h.K ▸ hi) j (h.K ▸ hj)
    have : 0 < M.w.mfKappa1 i j / M.w.mfV1 i j := div_pos this.1 this.2
    simp only [MFWeights.eWGivenA, one_mul, sub_self, zero_mul, add_zero]
    exact this.le
  have hN1 : ∀ c < n.C, ∀ d < n.C, 0 ≤ n.kappa * pairSum n M.w.mfP c d := fun c hc d hd =>
    mul_nonneg g.kappa.le (pairSum_nonneg g (fun i hi j hj => (h.p i (h.K ▸ hi) j (h.K ▸ hj)).1.le) hc hd)
  have hN0 : ∀ c < n.C, ∀ d < n.C, 0 ≤ pairSum n (fun i j => M.w.mfP i j * M.w.eWGivenA 1 i j) c d := fun c hc d hd =>
    pairSum_nonneg g (fun i hi j hj => mul_nonneg (h.p i (h.K ▸ hi) j (h.K ▸ hj)).1.le (hW i hi j hj)) hc hd
  have g' : SBMGood n' := ⟨g.C, g.kappa, g.tau, g.ab, g.pi, g.mfTau, fun c hc d hd => by
    rw [e1, e0]; exact ⟨add_pos_of_pos_of_nonneg g.ab.1 (hN1 c hc d hd), add_pos_of_pos_of_nonneg g.ab.2 (hN0 c hc d hd)⟩, g.mfPi, g.mfM, g.P, g.V⟩
  rw [C55_network_value huge n g, C55_network_value huge n' g']
  have hlab : ∀ k, labelTerm huge n' k = labelTerm huge n k := fun k => rfl
  have hv : ∀ c d, n'.blkLnP c d = n.blkLnP c d ∧ n'.blkLnNotP c d = n.blkLnNotP c d := fun c d => ⟨rfl, rfl⟩
  simp only [if_true, hlab, (hv _ _).1, (hv _ _).2, sub_self, mul_zero, zero_add]
  have ec : n'.C = n.C := rfl
  have t1 : n'.tau1 = n.tau1 := rfl
  have t0 : n'.tau0 = n.tau0 := rfl
  have ea : n'.mfTau1 = n.mfTau1 := rfl
  have eb : n'.mfTau0 = n.mfTau0 := rfl
  have al : n'.alpha = n.alpha := rfl
  have be : n'.beta = n.beta := rfl
  have ep : n'.mfPi = n.mfPi := rfl
  have epi : n'.pi = n.pi := rfl
  have eK : n'.K = n.K := rfl
  rw [ec, t1, t0, ea, eb, al, be, ep, epi, eK]
  have key : ∑ c ∈ range n.C, ∑ d ∈ range n.C, klGamma (n'.mfAlpha c d) (n'.mfBeta c d) n.alpha n.beta
      ≤ ∑ c ∈ range n.C, ∑ d ∈ range n.C, klGamma (n.mfAlpha c d) (n.mfBeta c d) n.alpha n.beta + ∑ c ∈ range n.C, ∑ d ∈ range n.C,
        (n.kappa * pairSum n M.w.mfP c d * (n'.blkLnV c d - n.blkLnV c d)
          - pairSum n (fun i j => M.w.mfP i j * M.w.eWGivenA 1 i j) c d * (n'.blkV c d - n.blkV c d)) := by
    rw [← sum_add_distrib]
    refine sum_le_sum fun c hc => ?_
    rw [← sum_add_distrib]
    refine sum_le_sum fun d hd => ?_
    have hc := mem_range.1 hc
    have hd := mem_range.1 hd
    have o1 := bias_objective g.ab.1 g.ab.2 (hN1 c hc d hd) (hN0 c hc d hd) (g.mfAB c hc d hd).1 (g.mfAB c hc d hd).2
    have o2 := bias_objective g.ab.1 g.ab.2 (hN1 c hc d hd) (hN0 c hc d hd) (g'.mfAB c hc d hd).1 (g'.mfAB c hc d hd).2
    rw [e1, e0, klGamma_self] at o2
    have kl := klGamma_nonneg (g.mfAB c hc d hd).1 (g.mfAB c hc d hd).2 (add_pos_of_pos_of_nonneg g.ab.1 (hN1 c hc d hd))
      (add_pos_of_pos_of_nonneg g.ab.2 (hN0 c hc d hd))
    simp only [SBM.blkLnV, SBM.blkV, e1, e0]
    linarith
  linarith

/-- the label term as a linear function of the expected log frequencies -/
theorem labelTerm_linear (huge : ℝ) (n n' : SBM) (hC : n'.C = n.C) (hM : n'.mfM = n.mfM) (k : ℕ) :
    labelTerm huge n' k - labelTerm huge n k = ∑ c ∈ range n.C, n.mfM k c * (n'.eLnM c - n.eLnM c) := by
  unfold labelTerm
  rw [hC, hM]
  have e : ∀ f : Vec ℝ, discreteNegent huge n.C (n.mfM k) (fun c => .fin (f c)) = ∑ c ∈ range n.C, n.mfM k c * f c := by
    intro f
    unfold discreteNegent
    simp only [FX.fin_mul, sum_map_range_fin, FX.nanToNum]
  rw [e, e, sub_sub_sub_cancel_right, ← sum_sub_distrib]
  exact sum_congr rfl fun c _ => by ring

/-- **C79 (block frequencies).** `mf_update_m` never decreases a finite bound. -/
theorem C79_block_frequencies_ascend (huge : ℝ) {M : MFModel} {n : SBM} (h : SBMState M n) {x : ℝ} (hx : M.vlb huge = .ok (.fin x)) :
    ∃ y, (M.withNet (.sbm (n.mfUpdateM 1))).vlb huge = .ok (.fin y) ∧ x ≤ y := by
  refine ⟨_, sbm_shift huge h (n' := n.mfUpdateM 1) rfl rfl rfl rfl rfl rfl hx, ?_⟩
  set n' := n.mfUpdateM 1 with hn'
  have g := h.good
  set Z : Vec ℝ := fun c => ∑ k ∈ range n.K, n.mfM k c with hZ
  have e1 : n'.mfPi = fun c => n.pi c + Z c := by funext c; simp [hn', SBM.mfUpdateM, hZ]
  have hZ0 : ∀ c < n.C, 0 ≤ Z c := fun c hc => sum_nonneg fun k hk => (g.mfM k (mem_range.1 hk)).1 c hc
  have hpi : ∀ c < n.C, 0 < n.pi c + Z c := fun c hc => add_pos_of_pos_of_nonneg (g.pi c hc) (hZ0 c hc)
  have g' : SBMGood n' := ⟨g.C, g.kappa, g.tau, g.ab, g.pi, g.mfTau, g.mfAB, fun c hc => by rw [e1]; exact hpi c hc, g.mfM, g.P, g.V⟩
  rw [C55_network_value huge n g, C55_network_value huge n' g']
  have hv : ∀ c d, n'.blkLnP c d = n.blkLnP c d ∧ n'.blkLnNotP c d = n.blkLnNotP c d ∧ n'.blkLnV c d = n.blkLnV c d ∧ n'.blkV c d = n.blkV c d :=
    fun c d => ⟨rfl, rfl, rfl, rfl⟩
  simp only [if_true, (hv _ _).1, (hv _ _).2.1, (hv _ _).2.2.1, (hv _ _).2.2.2, sub_self, mul_zero, add_zero, sum_const_zero]
  have ec : n'.C = n.C := rfl
  have t1 : n'.tau1 = n.tau1 := rfl
  have t0 : n'.tau0 = n.tau0 := rfl
  have ea : n'.mfTau1 = n.mfTau1 := rfl
  have eb : n'.mfTau0 = n.mfTau0 := rfl
  have al : n'.alpha = n.alpha := rfl
  have be : n'.beta = n.beta := rfl
  have ea' : n'.mfAlpha = n.mfAlpha := rfl
  have eb' : n'.mfBeta = n.mfBeta := rfl
  have epi : n'.pi = n.pi := rfl
  have eK : n'.K = n.K := rfl
  rw [ec, t1, t0, ea, eb, al, be, ea', eb', epi, eK]
  have hlab : ∑ k ∈ range n.K, labelTerm huge n' k = ∑ k ∈ range n.K, labelTerm huge n k + ∑ c ∈ range n.C, Z c * (n'.eLnM c - n.eLnM c) := by
    have : ∀ k, labelTerm huge n' k = labelTerm huge n k + ∑ c ∈ range n.C, n.mfM k c * (n'.eLnM c - n.eLnM c) := by
      intro k; rw [← labelTerm_linear huge n n' rfl rfl k]; ring
    simp only [this, sum_add_distrib]
    congr 1
    rw [sum_comm]
    exact sum_congr rfl fun c _ => by rw [hZ, sum_mul]
  have o1 := imp_objective n.C n.pi Z n.mfPi
  have o2 := imp_objective n.C n.pi Z (fun c => n.pi c + Z c)
  rw [klDirichlet_self] at o2
  have kl := klDirichlet_nonneg g.C g.mfPi (p := fun c => n.pi c + Z c) hpi
  have ex : ∑ c ∈ range n.C, Z c * (n'.eLnM c - n.eLnM c)
      = ∑ c ∈ range n.C, Z c * (psi (n.pi c + Z c) - psi (∑ c ∈ range n.C, (n.pi c + Z c))) - ∑ c ∈ range n.C, Z c * (psi (n.mfPi c) - psi (∑ c ∈ range n.C, n.mfPi c)) := by
    rw [← sum_sub_distrib]
    refine sum_congr rfl fun c _ => ?_
    simp only [SBM.eLnM, e1, ec]
    ring
  rw [hlab, ex, e1]
  linarith

end PyHawkes
