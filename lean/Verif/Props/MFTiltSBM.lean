import Verif.Props.MFTiltNet
import Verif.Props.Network
import Verif.Props.VarWindows

/-! # C77: mean-field steps of the networks; C51: the expectations used are expectations -/
set_option linter.unusedSectionVars false

namespace PyHawkes
open Finset MeasureTheory ProbabilityTheory Spec

/-! ### Expectations are integrals -/

theorem expGamma_log {a b : ℝ} (ha : 0 < a) (hb : 0 < b) : expGamma a b Real.log = psi a - Real.log b := (gamma_mean_log ha hb).2
theorem expGamma_id {a b : ℝ} (ha : 0 < a) (hb : 0 < b) : expGamma a b (fun x => x) = a / b := (gamma_mean ha hb).2
theorem expBeta_log {a b : ℝ} (ha : 0 < a) (hb : 0 < b) : expBeta a b Real.log = psi a - psi (a + b) := (beta_mean_log ha hb).2
theorem expBeta_log_compl {a b : ℝ} (ha : 0 < a) (hb : 0 < b) : expBeta a b (fun x => Real.log (1 - x)) = psi b - psi (a + b) := (beta_mean_log_compl ha hb).2

theorem expGamma_affine {a b : ℝ} (ha : 0 < a) (hb : 0 < b) (u v c : ℝ) :
    expGamma a b (fun x => u * Real.log x + c - x * v) = u * (psi a - Real.log b) + c - a / b * v := by
  obtain ⟨i1, v1⟩ := gamma_mean ha hb
  obtain ⟨i2, v2⟩ := gamma_mean_log ha hb
  have i0 := gammaPDF_integrable ha hb
  have v0 := gammaPDF_integral ha hb
  have j0 : IntegrableOn (fun x => c * gammaPDFReal a b x) (Set.Ioi 0) volume := i0.const_mul _
  have j1 : IntegrableOn (fun x => v * (gammaPDFReal a b x * x)) (Set.Ioi 0) volume := i1.const_mul _
  have j2 : IntegrableOn (fun x => u * (gammaPDFReal a b x * Real.log x)) (Set.Ioi 0) volume := i2.const_mul _
  have j02 : IntegrableOn (fun x => u * (gammaPDFReal a b x * Real.log x) + c * gammaPDFReal a b x) (Set.Ioi 0) volume := j2.add j0
  unfold expGamma
  have h : ∀ x, gammaPDFReal a b x * (u * Real.log x + c - x * v) = (u * (gammaPDFReal a b x * Real.log x) + c * gammaPDFReal a b x) - v * (gammaPDFReal a b x * x) := by
    intro x; ring
  simp_rw [h]
  rw [integral_sub j02 j1, integral_add j2 j0, integral_const_mul, integral_const_mul, integral_const_mul, v0, v1, v2]
  ring

theorem expBeta_id {a b : ℝ} (ha : 0 < a) (hb : 0 < b) : expBeta a b (fun x => x) = a / (a + b) := by
  have h : ∀ x ∈ Set.Ioo (0:ℝ) 1, betaPDFReal a b x * x = a / (a + b) * betaPDFReal (a + 1) b x := by
    intro x hx
    have hs : Real.Gamma (a + b + 1) = (a + b) * Real.Gamma (a + b) := Real.Gamma_add_one (by positivity)
    have ha1 : Real.Gamma (a + 1) = a * Real.Gamma a := Real.Gamma_add_one ha.ne'
    have g1 := Real.Gamma_pos_of_pos ha
    have g2 := Real.Gamma_pos_of_pos hb
    have g3 := Real.Gamma_pos_of_pos (add_pos ha hb)
    rw [betaPDFReal, if_pos ⟨hx.1, hx.2⟩, betaPDFReal, if_pos ⟨hx.1, hx.2⟩, beta, beta, add_right_comm a 1 b, hs, ha1, show a + 1 - 1 = (a - 1) + 1 by ring,
      Real.rpow_add_one hx.1.ne']
    have : a + b ≠ 0 := by positivity
    field_simp
  unfold expBeta
  rw [setIntegral_congr_fun measurableSet_Ioo h, integral_const_mul, betaPDF_integral (by linarith) hb, mul_one]

/-- **C51 (expectations).** The expectations the updates use are expectations under the variational factors: of the background rate and its logarithm, of the weight and its
logarithm given presence or absence of the edge, and of edge probability, scale and their logarithms for a pair of nodes whose blocks are drawn independently. -/
theorem C51_are_expectations (b : MFBias) (w : MFWeights) (n : SBM) (i j k : ℕ) (hb : 0 < b.mfAlpha k ∧ 0 < b.mfBeta k)
    (hw : 0 < w.mfKappa0 i j ∧ 0 < w.mfV0 i j ∧ 0 < w.mfKappa1 i j ∧ 0 < w.mfV1 i j) (g : SBMGood n) (hf : n.fixed = false) (hs : n.allowSelf = true ∨ i ≠ j) :
    b.eLam k = expGamma (b.mfAlpha k) (b.mfBeta k) (fun x => x) ∧ b.eLnLam k = expGamma (b.mfAlpha k) (b.mfBeta k) Real.log ∧
    w.eWGivenA 1 i j = expGamma (w.mfKappa1 i j) (w.mfV1 i j) (fun x => x) ∧ w.eWGivenA 0 i j = expGamma (w.mfKappa0 i j) (w.mfV0 i j) (fun x => x) ∧
    w.eLnWGivenA 1 i j = expGamma (w.mfKappa1 i j) (w.mfV1 i j) Real.log ∧ w.eLnWGivenA 0 i j = expGamma (w.mfKappa0 i j) (w.mfV0 i j) Real.log ∧
    w.eW n.allowSelf i j = w.mfP i j * expGamma (w.mfKappa1 i j) (w.mfV1 i j) (fun x => x) + (1 - w.mfP i j) * expGamma (w.mfKappa0 i j) (w.mfV0 i j) (fun x => x) ∧
    w.eLnW n.allowSelf i j = .fin (w.mfP i j * expGamma (w.mfKappa1 i j) (w.mfV1 i j) Real.log + (1 - w.mfP i j) * expGamma (w.mfKappa0 i j) (w.mfV0 i j) Real.log) ∧
    n.eP i j = ∑ c ∈ range n.C, ∑ d ∈ range n.C, n.mfM i c * n.mfM j d * expBeta (n.mfTau1 c d) (n.mfTau0 c d) (fun x => x) ∧
    (MFNet.sbm n).eLnP i j = .fin (∑ c ∈ range n.C, ∑ d ∈ range n.C, n.mfM i c * n.mfM j d * expBeta (n.mfTau1 c d) (n.mfTau0 c d) Real.log) ∧
    (MFNet.sbm n).eLnNotP i j = .fin (∑ c ∈ range n.C, ∑ d ∈ range n.C, n.mfM i c * n.mfM j d * expBeta (n.mfTau1 c d) (n.mfTau0 c d) (fun x => Real.log (1 - x))) ∧
    (∃ eV, (MFNet.sbm n).eV = .ok eV ∧ eV i j = ∑ c ∈ range n.C, ∑ d ∈ range n.C, n.mfM i c * n.mfM j d * expGamma (n.mfAlpha c d) (n.mfBeta c d) (fun x => x)) ∧
    ∃ eLnV, (MFNet.sbm n).eLnV = .ok eLnV ∧ eLnV i j = ∑ c ∈ range n.C, ∑ d ∈ range n.C, n.mfM i c * n.mfM j d * expGamma (n.mfAlpha c d) (n.mfBeta c d) Real.log := by
  have hs' : ¬ (!n.allowSelf ∧ i = j) := by
    rintro ⟨h1, h2⟩
    rcases hs with h | h
    · simp [h] at h1
    · exact h h2
  have s2 : ∀ {f h : ℕ → ℕ → ℝ}, (∀ c < n.C, ∀ d < n.C, f c d = h c d) → ∑ c ∈ range n.C, ∑ d ∈ range n.C, f c d = ∑ c ∈ range n.C, ∑ d ∈ range n.C, h c d :=
    fun hh => sum_congr rfl fun c hc => sum_congr rfl fun d hd => hh c (mem_range.1 hc) d (mem_range.1 hd)
  obtain ⟨w1, w2, w3, w4⟩ := hw
  refine ⟨(expGamma_id hb.1 hb.2).symm, (expGamma_log hb.1 hb.2).symm, ?_, ?_, ?_, ?_, ?_, ?_, ?_, ?_, ?_, ⟨_, rfl, ?_⟩, ⟨_, rfl, ?_⟩⟩
  · rw [expGamma_id w3 w4]; simp [MFWeights.eWGivenA]
  · rw [expGamma_id w1 w2]; simp [MFWeights.eWGivenA]
  · rw [expGamma_log w3 w4]; simp [MFWeights.eLnWGivenA]
  · rw [expGamma_log w1 w2]; simp [MFWeights.eLnWGivenA]
  · rw [expGamma_id w3 w4, expGamma_id w1 w2, MFWeights.eW, if_neg hs']; simp [MFWeights.eWGivenA]
  · rw [expGamma_log w3 w4, expGamma_log w1 w2, MFWeights.eLnW, if_neg hs']; simp [MFWeights.eLnWGivenA]
  · rw [SBM.eP, hf, if_neg (by simp), if_neg hs']
    refine s2 fun c hc d hd => ?_
    have := g.mfTau c hc d hd
    rw [expBeta_id this.2 this.1, add_comm (n.mfTau1 c d)]; ring
  · show (if _ then _ else if _ then _ else _) = _
    rw [if_neg hs', hf, if_neg (by simp), SBM.mix]
    congr 1
    refine s2 fun c hc d hd => ?_
    have := g.mfTau c hc d hd
    rw [expBeta_log this.2 this.1, SBM.blkLnP, add_comm (n.mfTau1 c d)]
  · show (if _ then _ else if _ then _ else _) = _
    rw [if_neg hs', hf, if_neg (by simp), SBM.mix]
    congr 1
    refine s2 fun c hc d hd => ?_
    have := g.mfTau c hc d hd
    rw [expBeta_log_compl this.2 this.1, SBM.blkLnNotP, add_comm (n.mfTau1 c d)]
  · rw [hf, if_neg (by simp)]
    refine s2 fun c hc d hd => ?_
    have := g.mfAB c hc d hd
    rw [expGamma_id this.1 this.2]; ring
  · rw [hf, if_neg (by simp), SBM.mix]
    refine s2 fun c hc d hd => ?_
    have := g.mfAB c hc d hd
    rw [expGamma_log this.1 this.2, SBM.blkLnV]

/-! ### Block model -/

/-- the pairs that are not possible edges contribute nothing when no node can be in both blocks -/
theorem possible_sum (n : SBM) (c1 c2 : ℕ) (hself : n.allowSelf = true ∨ ∀ i < n.K, n.mfM i c1 * n.mfM i c2 = 0) (f : ℕ → ℕ → ℝ)
    [∀ i j, Decidable (possible n i j)] :
    (∑ i ∈ range n.K, ∑ j ∈ range n.K, if possible n i j then n.mfM i c1 * n.mfM j c2 * f i j else 0)
      = ∑ i ∈ range n.K, ∑ j ∈ range n.K, n.mfM i c1 * n.mfM j c2 * f i j := by
  refine sum_congr rfl fun i hi => sum_congr rfl fun j _ => ?_
  split_ifs with h
  · rfl
  · unfold possible at h
    push Not at h
    rcases hself with h' | h'
    · exact absurd h' h.1
    · rw [← h.2, h' i (mem_range.1 hi), zero_mul]

/-- **C77 (block model: edge probabilities), partial.** The step of the beta factor of each block probability. Missing, and false: a block's own probability when self connections
are disallowed, see `C77_block_probability_violated`. -/
theorem C77_block_probability_partial (n : SBM) (g : SBMGood n) (EA : Mat ℝ) (hA : ∀ i < n.K, ∀ j < n.K, 0 ≤ EA i j ∧ EA i j ≤ 1) {s : ℝ} (h0 : 0 ≤ s) (h1 : s ≤ 1)
    {c1 c2 : ℕ} (hc1 : c1 < n.C) (hc2 : c2 < n.C) (hself : n.allowSelf = true ∨ ∀ i < n.K, n.mfM i c1 * n.mfM i c2 = 0) :
    Proportional (Set.Ioo 0 1) (betaPDFReal ((n.mfUpdateP EA s).mfTau1 c1 c2) ((n.mfUpdateP EA s).mfTau0 c1 c2))
      (steppedDensity s 1 (betaPDFReal (n.mfTau1 c1 c2) (n.mfTau0 c1 c2)) (betaPDFReal n.tau1 n.tau0) (blockPLogLik n EA c1 c2)) := by
  have hm : ∀ i ∈ range n.K, ∀ j ∈ range n.K, 0 ≤ n.mfM i c1 * n.mfM j c2 := fun i hi j hj =>
    mul_nonneg ((g.mfM i (mem_range.1 hi)).1 c1 hc1) ((g.mfM j (mem_range.1 hj)).1 c2 hc2)
  have e1 : (n.mfUpdateP EA s).mfTau1 c1 c2 = (1 - s) * n.mfTau1 c1 c2 + s * (n.tau1 + (∑ i ∈ range n.K, ∑ j ∈ range n.K, n.mfM i c1 * n.mfM j c2 * EA i j) / 1) := by
    rw [div_one]; rfl
  have e0 : (n.mfUpdateP EA s).mfTau0 c1 c2 = (1 - s) * n.mfTau0 c1 c2 + s * (n.tau0 + (∑ i ∈ range n.K, ∑ j ∈ range n.K, n.mfM i c1 * n.mfM j c2 * (1 - EA i j)) / 1) := by
    rw [div_one]; rfl
  rw [e1, e0]
  have ht := g.mfTau c1 hc1 c2 hc2
  refine beta_step ht.2 ht.1 g.tau.2 g.tau.1
    (sum_nonneg fun i hi => sum_nonneg fun j hj => mul_nonneg (hm i hi j hj) (hA i (mem_range.1 hi) j (mem_range.1 hj)).1)
    (sum_nonneg fun i hi => sum_nonneg fun j hj => mul_nonneg (hm i hi j hj) (by linarith [(hA i (mem_range.1 hi) j (mem_range.1 hj)).2])) one_pos h0 h1 fun q _ => ?_
  rw [blockPLogLik, possible_sum n c1 c2 hself, sum_mul, sum_mul, ← sum_add_distrib]
  refine sum_congr rfl fun i _ => ?_
  rw [sum_mul, sum_mul, ← sum_add_distrib]
  exact sum_congr rfl fun j _ => by ring

/-- **C77 (block model: scales), partial.** The step of the gamma factor of each block scale. Missing, as for the probabilities: a block's own scale when self connections are
disallowed. -/
theorem C77_block_scale_partial (n : SBM) (g : SBMGood n) (EA EW : Mat ℝ) (hA : ∀ i < n.K, ∀ j < n.K, 0 ≤ EA i j) (hW : ∀ i < n.K, ∀ j < n.K, 0 ≤ EW i j) {s : ℝ}
    (h0 : 0 ≤ s) (h1 : s ≤ 1) {c1 c2 : ℕ} (hc1 : c1 < n.C) (hc2 : c2 < n.C) (hself : n.allowSelf = true ∨ ∀ i < n.K, n.mfM i c1 * n.mfM i c2 = 0) :
    Proportional (Set.Ioi 0) (gammaPDFReal ((n.mfUpdateV EA EW s).mfAlpha c1 c2) ((n.mfUpdateV EA EW s).mfBeta c1 c2))
      (steppedDensity s 1 (gammaPDFReal (n.mfAlpha c1 c2) (n.mfBeta c1 c2)) (gammaPDFReal n.alpha n.beta) (blockVLogLik n EA EW c1 c2)) := by
  have hm : ∀ i ∈ range n.K, ∀ j ∈ range n.K, 0 ≤ n.mfM i c1 * n.mfM j c2 := fun i hi j hj =>
    mul_nonneg ((g.mfM i (mem_range.1 hi)).1 c1 hc1) ((g.mfM j (mem_range.1 hj)).1 c2 hc2)
  have e1 : (n.mfUpdateV EA EW s).mfAlpha c1 c2
      = (1 - s) * n.mfAlpha c1 c2 + s * (n.alpha + (∑ i ∈ range n.K, ∑ j ∈ range n.K, n.mfM i c1 * n.mfM j c2 * EA i j * n.kappa) / 1) := by
    rw [div_one]; rfl
  have e0 : (n.mfUpdateV EA EW s).mfBeta c1 c2
      = (1 - s) * n.mfBeta c1 c2 + s * (n.beta + (∑ i ∈ range n.K, ∑ j ∈ range n.K, n.mfM i c1 * n.mfM j c2 * EA i j * EW i j) / 1) := by
    rw [div_one]; rfl
  rw [e1, e0]
  have ht := g.mfAB c1 hc1 c2 hc2
  refine gamma_step 0 ht.1 ht.2 g.ab.1 g.ab.2
    (sum_nonneg fun i hi => sum_nonneg fun j hj => mul_nonneg (mul_nonneg (hm i hi j hj) (hA i (mem_range.1 hi) j (mem_range.1 hj))) g.kappa.le)
    (sum_nonneg fun i hi => sum_nonneg fun j hj => mul_nonneg (mul_nonneg (hm i hi j hj) (hA i (mem_range.1 hi) j (mem_range.1 hj))) (hW i (mem_range.1 hi) j (mem_range.1 hj)))
    one_pos h0 h1 fun v _ => ?_
  classical
  have : blockVLogLik n EA EW c1 c2 v = ∑ i ∈ range n.K, ∑ j ∈ range n.K, n.mfM i c1 * n.mfM j c2 * (EA i j * (n.kappa * Real.log v - v * EW i j)) := by
    rw [← possible_sum n c1 c2 hself, blockVLogLik]
    exact sum_congr rfl fun i _ => sum_congr rfl fun j _ => by split_ifs <;> ring
  rw [this, add_zero, sum_mul, sum_mul, ← sum_sub_distrib]
  refine sum_congr rfl fun i _ => ?_
  rw [sum_mul, sum_mul, ← sum_sub_distrib]
  exact sum_congr rfl fun j _ => by ring

/-- **C77 (block model: block frequencies).** The step of the Dirichlet factor of the block frequencies. -/
theorem C77_block_frequencies (n : SBM) (g : SBMGood n) {s : ℝ} (h0 : 0 ≤ s) (h1 : s ≤ 1) :
    Proportional {x : ℕ → ℝ | ∀ c < n.C, 0 < x c} (dirichletPdf n.C (n.mfUpdateM s).mfPi)
      (steppedDensity s 1 (dirichletPdf n.C n.mfPi) (dirichletPdf n.C n.pi) (blockMLogLik n)) := by
  have e : blockMLogLik n = fun x => ∑ b ∈ range n.C, (∑ k ∈ range n.K, n.mfM k b) * Real.log (x b) := by
    funext x
    rw [blockMLogLik, sum_comm]
    exact sum_congr rfl fun b _ => (sum_mul _ _ _).symm
  rw [e]
  exact dirichlet_step g.C g.mfPi g.pi (fun b hb => sum_nonneg fun k hk => (g.mfM k (mem_range.1 hk)).1 b hb) one_pos h0 h1 fun b _ => by rw [div_one]; rfl

/-! ### Labels -/

theorem pairExpLog_eq (n : SBM) (g : SBMGood n) (EA EW ELW : Mat ℝ) {c1 c2 : ℕ} (h1 : c1 < n.C) (h2 : c2 < n.C) (i j : ℕ) :
    pairExpLog n EA EW ELW c1 c2 i j = EA i j * n.blkLnP c1 c2 + (1 - EA i j) * n.blkLnNotP c1 c2
      + EA i j * (n.kappa * n.blkLnV c1 c2 - gammaln n.kappa + (n.kappa - 1) * ELW i j - n.blkV c1 c2 * EW i j) := by
  have ht := g.mfTau c1 h1 c2 h2
  have hv := g.mfAB c1 h1 c2 h2
  have e : (fun v => n.kappa * Real.log v - Real.log (Real.Gamma n.kappa) + (n.kappa - 1) * ELW i j - v * EW i j)
      = fun v => n.kappa * Real.log v + (-Real.log (Real.Gamma n.kappa) + (n.kappa - 1) * ELW i j) - v * EW i j := by funext v; ring
  rw [pairExpLog, expBeta_log ht.2 ht.1, expBeta_log_compl ht.2 ht.1, e, expGamma_affine hv.1 hv.2, SBM.blkLnP, SBM.blkLnNotP, SBM.blkLnV, SBM.blkV, gammaln,
    add_comm (n.mfTau1 c1 c2)]
  ring

/-- averaging over the block of the other node -/
theorem avg_pair (n : SBM) (EA EW ELW : Mat ℝ) (x y j : ℕ) (hj : ∑ c ∈ range n.C, n.mfM j c = 1) (P Q V L : ℕ → ℝ) :
    EA x y * (∑ c ∈ range n.C, n.mfM j c * P c) + (1 - EA x y) * (∑ c ∈ range n.C, n.mfM j c * Q c)
      + EA x y * gammaNegent n.kappa (∑ c ∈ range n.C, n.mfM j c * V c) (∑ c ∈ range n.C, n.mfM j c * L c) (EW x y) (ELW x y)
    = ∑ c ∈ range n.C, n.mfM j c * (EA x y * P c + (1 - EA x y) * Q c + EA x y * (n.kappa * L c - gammaln n.kappa + (n.kappa - 1) * ELW x y - V c * EW x y)) := by
  have h : ∀ c, n.mfM j c * (EA x y * P c + (1 - EA x y) * Q c + EA x y * (n.kappa * L c - gammaln n.kappa + (n.kappa - 1) * ELW x y - V c * EW x y))
      = EA x y * (n.mfM j c * P c) + (1 - EA x y) * (n.mfM j c * Q c) + EA x y * n.kappa * (n.mfM j c * L c) - EA x y * EW x y * (n.mfM j c * V c)
        + EA x y * ((n.kappa - 1) * ELW x y - gammaln n.kappa) * n.mfM j c := by intro c; ring
  simp_rw [h]
  rw [sum_add_distrib, sum_sub_distrib, sum_add_distrib, sum_add_distrib, ← mul_sum, ← mul_sum, ← mul_sum, ← mul_sum, ← mul_sum, hj, gammaNegent]
  ring

/-- the log weights computed by the code are the expected log joint densities -/
theorem mfLp_eq (n : SBM) (g : SBMGood n) (EA EW ELW : Mat ℝ) {k ck : ℕ} (hck : ck < n.C) (hC : 1 < n.C) :
    n.mfLp EA EW ELW k ck = labelExpLog n EA EW ELW k ck := by
  have hm : n.eLnM ck = expBeta (n.mfPi ck) (∑ c ∈ (range n.C).erase ck, n.mfPi c) Real.log := by
    have hpos : 0 < ∑ c ∈ (range n.C).erase ck, n.mfPi c := by
      refine sum_pos (fun c hc => g.mfPi c (mem_range.1 (mem_of_mem_erase hc))) ?_
      rw [← card_pos, card_erase_of_mem (mem_range.2 hck), card_range]; omega
    rw [expBeta_log (g.mfPi ck hck) hpos, SBM.eLnM, add_sum_erase _ _ (mem_range.2 hck)]
  have hrow : ∀ j ∈ (range n.K).erase k, ∑ c ∈ range n.C, n.mfM j c = 1 := fun j hj => (g.mfM j (mem_range.1 (mem_of_mem_erase hj))).2
  have hsum : ∑ j ∈ (range n.K).erase k, ∑ c ∈ range n.C, n.mfM j c * (pairExpLog n EA EW ELW ck c k j + pairExpLog n EA EW ELW c ck j k)
      = ∑ j ∈ (range n.K).erase k, ((EA k j * (∑ c ∈ range n.C, n.mfM j c * n.blkLnP ck c) + (1 - EA k j) * (∑ c ∈ range n.C, n.mfM j c * n.blkLnNotP ck c)
          + EA k j * gammaNegent n.kappa (∑ c ∈ range n.C, n.mfM j c * n.blkV ck c) (∑ c ∈ range n.C, n.mfM j c * n.blkLnV ck c) (EW k j) (ELW k j))
        + (EA j k * (∑ c ∈ range n.C, n.mfM j c * n.blkLnP c ck) + (1 - EA j k) * (∑ c ∈ range n.C, n.mfM j c * n.blkLnNotP c ck)
          + EA j k * gammaNegent n.kappa (∑ c ∈ range n.C, n.mfM j c * n.blkV c ck) (∑ c ∈ range n.C, n.mfM j c * n.blkLnV c ck) (EW j k) (ELW j k))) := by
    refine sum_congr rfl fun j hj => ?_
    rw [avg_pair n EA EW ELW k j j (hrow j hj), avg_pair n EA EW ELW j k j (hrow j hj), ← sum_add_distrib]
    refine sum_congr rfl fun c hc => ?_
    rw [pairExpLog_eq n g EA EW ELW hck (mem_range.1 hc), pairExpLog_eq n g EA EW ELW (mem_range.1 hc) hck]
    ring
  rw [labelExpLog, hsum, ← hm, SBM.mfLp]
  simp only [sum_add_distrib]
  by_cases ha : n.allowSelf = true
  · rw [if_pos ha, if_pos ha, pairExpLog_eq n g EA EW ELW hck hck, gammaNegent]
    ring
  · rw [if_neg ha, if_neg ha]
    ring

/-- the share of block `c` among the exponentiated log weights -/
theorem mk_share (n : SBM) (g : SBMGood n) (EA EW ELW : Mat ℝ) (k : ℕ) {c : ℕ} (hc : c < n.C) :
    Real.exp (n.mfLp EA EW ELW k c - Real.log (∑ c ∈ range n.C, Real.exp (n.mfLp EA EW ELW k c)))
      = normalised n.C (fun c => Real.exp (labelExpLog n EA EW ELW k c)) c := by
  have hS : 0 < ∑ c ∈ range n.C, Real.exp (n.mfLp EA EW ELW k c) := sum_pos (fun _ _ => Real.exp_pos _) ⟨0, mem_range.2 g.C⟩
  rw [Real.exp_sub, Real.exp_log hS, normalised]
  by_cases hC : 1 < n.C
  · rw [mfLp_eq n g EA EW ELW hc hC, sum_congr rfl fun c hc => by rw [mfLp_eq n g EA EW ELW (mem_range.1 hc) hC]]
  · have h1 : n.C = 1 := by have := g.C; omega
    have h0 : c = 0 := by omega
    rw [h1, h0]
    simp

/-- **C77 (block model: labels).** One node: the new membership probabilities of node `k` are `(1-s)` times the old plus `s` times the optimal ones, proportional to the exponentiated
expected log joint density; the other nodes keep theirs. -/
theorem C77_label (n : SBM) (g : SBMGood n) (EA EW ELW : Mat ℝ) (s : ℝ) (k : ℕ) {c : ℕ} (hc : c < n.C) :
    (n.mfUpdateC1 EA EW ELW s k).mfM k c = (1 - s) * n.mfM k c + s * normalised n.C (fun c => Real.exp (labelExpLog n EA EW ELW k c)) c ∧
    ∀ i ≠ k, (n.mfUpdateC1 EA EW ELW s k).mfM i c = n.mfM i c := by
  constructor
  · simp only [SBM.mfUpdateC1, if_pos]
    rw [mk_share n g EA EW ELW k hc]
  · intro i hi
    simp only [SBM.mfUpdateC1, if_neg hi]

/-- the state in which node `k` is updated: nodes before `k` have their new probabilities -/
def midSweep (n n' : SBM) (k : ℕ) : SBM := { n with mfM := fun i c => if i < k then n'.mfM i c else n.mfM i c }

theorem SBMGood.rows {n : SBM} (g : SBMGood n) {m : Mat ℝ} (hm : ∀ k < n.K, (∀ c < n.C, 0 ≤ m k c) ∧ ∑ c ∈ range n.C, m k c = 1) : SBMGood { n with mfM := m } :=
  ⟨g.C, g.kappa, g.tau, g.ab, g.pi, g.mfTau, g.mfAB, g.mfPi, hm, g.P, g.V⟩

/-- the sweep changes memberships only, row `k` in step `k` -/
theorem sweep_state (n : SBM) (EA EW ELW : Mat ℝ) (s : ℝ) (K : ℕ) :
    ∃ m, forRange K (fun k n => n.mfUpdateC1 EA EW ELW s k) n = { n with mfM := m } ∧ ∀ i, K ≤ i → m i = n.mfM i := by
  induction K with
  | zero => exact ⟨n.mfM, rfl, fun _ _ => rfl⟩
  | succ K ih =>
    obtain ⟨m, hm, hi⟩ := ih
    rw [forRange_succ, hm]
    refine ⟨_, rfl, fun i h => ?_⟩
    funext c
    dsimp only
    rw [if_neg (by omega), hi i (by omega)]

theorem sweep_row (n : SBM) (EA EW ELW : Mat ℝ) (s : ℝ) (K i : ℕ) (h : i < K) :
    (forRange K (fun k n => n.mfUpdateC1 EA EW ELW s k) n).mfM i = (forRange (i + 1) (fun k n => n.mfUpdateC1 EA EW ELW s k) n).mfM i := by
  induction K with
  | zero => omega
  | succ K ih =>
    rcases Nat.lt_succ_iff_lt_or_eq.1 h with h | rfl
    · rw [← ih h, forRange_succ]
      funext c
      simp only [SBM.mfUpdateC1, if_neg h.ne]
    · rfl

/-- **C77 (block model: label sweep).** The nodes are updated one after the other, each from the expected log joint density at that moment: earlier nodes already have their new
membership probabilities, later ones their old ones. -/
theorem C77_label_sweep (n : SBM) (g : SBMGood n) (EA EW ELW : Mat ℝ) {s : ℝ} (h0 : 0 ≤ s) (h1 : s ≤ 1) {k c : ℕ} (hk : k < n.K) (hc : c < n.C) :
    let n' := n.mfUpdateC EA EW ELW s
    n'.mfM k c = (1 - s) * n.mfM k c + s * normalised n.C (fun c => Real.exp (labelExpLog (midSweep n n' k) EA EW ELW k c)) c := by
  intro n'
  obtain ⟨m, hm, hi⟩ := sweep_state n EA EW ELW s k
  have hmid : forRange k (fun k n => n.mfUpdateC1 EA EW ELW s k) n = midSweep n n' k := by
    rw [hm, midSweep]
    congr 1
    funext i c
    by_cases h : i < k
    · rw [if_pos h]
      have e1 : m i = (forRange k (fun k n => n.mfUpdateC1 EA EW ELW s k) n).mfM i := by rw [hm]
      rw [e1, sweep_row n EA EW ELW s k i h]
      exact (congrFun (sweep_row n EA EW ELW s n.K i (by omega)) c).symm
    · rw [if_neg h, hi i (by omega)]
  have hn' : n'.mfM k = (forRange (k + 1) (fun k n => n.mfUpdateC1 EA EW ELW s k) n).mfM k := sweep_row n EA EW ELW s n.K k hk
  have inv : SBMInv n (forRange k (fun k n => n.mfUpdateC1 EA EW ELW s k) n) :=
    forRange_induct (fun _ m => SBMInv n m) k _ n ⟨SameHyper.refl n, SBMValid.refl g⟩ fun k _ _ hn => SBMInv.updateC1 g hn h0 h1 k
  have gm : SBMGood (midSweep n n' k) := by rw [← hmid]; exact SBMInv.good g inv
  rw [hn', forRange_succ, hmid]
  have := (C77_label (midSweep n n' k) gm EA EW ELW s k (c := c) hc).1
  rw [this]
  have hold : (midSweep n n' k).mfM k c = n.mfM k c := by simp [midSweep]
  rw [hold]
  rfl

/-! ### The whole network step -/

/-- **C77 (block model: whole step), partial.** `meanfield_sgdstep(weight_model, frac, s)`, and with `s = 1` `meanfieldupdate(weight_model)`: probabilities, scales and frequencies
step as described, from the old membership probabilities, and then the labels are swept with the new ones. Missing, as above: a block's own probability and scale when self
connections are disallowed. -/
theorem C77_block_model_step_partial (n : SBM) (g : SBMGood n) (w : MFWeights) (hA : ∀ i < n.K, ∀ j < n.K, 0 ≤ w.mfP i j ∧ w.mfP i j ≤ 1)
    (hW : ∀ i < n.K, ∀ j < n.K, 0 ≤ w.eWGivenA 1 i j) {s : ℝ} (h0 : 0 ≤ s) (h1 : s ≤ 1) :
    let n' := n.sgdstep w s {}
    (∀ c1 < n.C, ∀ c2 < n.C, (n.allowSelf = true ∨ ∀ i < n.K, n.mfM i c1 * n.mfM i c2 = 0) →
      Proportional (Set.Ioo 0 1) (betaPDFReal (n'.mfTau1 c1 c2) (n'.mfTau0 c1 c2))
        (steppedDensity s 1 (betaPDFReal (n.mfTau1 c1 c2) (n.mfTau0 c1 c2)) (betaPDFReal n.tau1 n.tau0) (blockPLogLik n w.mfP c1 c2)) ∧
      Proportional (Set.Ioi 0) (gammaPDFReal (n'.mfAlpha c1 c2) (n'.mfBeta c1 c2))
        (steppedDensity s 1 (gammaPDFReal (n.mfAlpha c1 c2) (n.mfBeta c1 c2)) (gammaPDFReal n.alpha n.beta) (blockVLogLik n w.mfP (w.eWGivenA 1) c1 c2))) ∧
    Proportional {x : ℕ → ℝ | ∀ c < n.C, 0 < x c} (dirichletPdf n.C n'.mfPi)
      (steppedDensity s 1 (dirichletPdf n.C n.mfPi) (dirichletPdf n.C n.pi) (blockMLogLik n)) ∧
    ∀ k < n.K, ∀ c < n.C, n'.mfM k c = (1 - s) * n.mfM k c
      + s * normalised n.C (fun c => Real.exp (labelExpLog (midSweep { n' with mfM := n.mfM } n' k) w.mfP (w.eWGivenA 1) (w.eLnWGivenA 1) k c)) c := by
  intro n'
  set n3 : SBM := ((n.mfUpdateP w.mfP s).mfUpdateV w.mfP (w.eWGivenA 1) s).mfUpdateM s with hn3
  have hn' : n' = n3.mfUpdateC w.mfP (w.eWGivenA 1) (w.eLnWGivenA 1) s := rfl
  obtain ⟨f1, f2, f3, f4, f5⟩ := mfUpdateC_frame w.mfP (w.eWGivenA 1) (w.eLnWGivenA 1) s n3
  have inv0 : SBMInv n n := ⟨SameHyper.refl n, SBMValid.refl g⟩
  have inv3 : SBMInv n n3 := SBMInv.updateM g (SBMInv.updateV g (SBMInv.updateP g inv0 h0 h1 hA) h0 h1 hA hW) h0 h1
  have g3 : SBMGood n3 := SBMInv.good g inv3
  refine ⟨fun c1 hc1 c2 hc2 hs => ⟨?_, ?_⟩, ?_, fun k hk c hc => ?_⟩
  · rw [hn', f1, f2]; exact C77_block_probability_partial n g w.mfP hA h0 h1 hc1 hc2 hs
  · rw [hn', f3, f4]; exact C77_block_scale_partial n g w.mfP (w.eWGivenA 1) (fun i hi j hj => (hA i hi j hj).1) hW h0 h1 hc1 hc2 hs
  · rw [hn', f5]; exact C77_block_frequencies n g h0 h1
  · have := C77_label_sweep n3 g3 w.mfP (w.eWGivenA 1) (w.eLnWGivenA 1) h0 h1 (k := k) (c := c) hk hc
    dsimp only at this
    rw [← hn'] at this
    rw [this]
    obtain ⟨m, hm, -⟩ := sweep_state n3 w.mfP (w.eWGivenA 1) (w.eLnWGivenA 1) s n3.K
    have e : ({ n' with mfM := n.mfM } : SBM) = n3 := by
      have hh : n' = { n3 with mfM := m } := hm
      rw [hh]; rfl
    rw [e]
    rfl

/-- **C77 (block model), violated.** With self connections disallowed a block's own probability does not step towards its conditional: in the one-node network there is no possible edge,
so nothing should be learned about `p`, but the coordinate update counts the forbidden self edge and leaves a different density. -/
theorem C77_block_probability_violated :
    let EA : Mat ℝ := fun _ _ => 1 / 2
    ¬ Proportional (Set.Ioo 0 1) (betaPDFReal ((loneNode.mfUpdateP EA 1).mfTau1 0 0) ((loneNode.mfUpdateP EA 1).mfTau0 0 0))
      (steppedDensity 1 1 (betaPDFReal (loneNode.mfTau1 0 0) (loneNode.mfTau0 0 0)) (betaPDFReal loneNode.tau1 loneNode.tau0) (blockPLogLik loneNode EA 0 0)) := by
  intro EA
  have e1 : (loneNode.mfUpdateP EA 1).mfTau1 0 0 = 3 / 2 := by simp [SBM.mfUpdateP, loneNode, EA]; norm_num
  have e0 : (loneNode.mfUpdateP EA 1).mfTau0 0 0 = 3 / 2 := by simp [SBM.mfUpdateP, loneNode, EA]; norm_num
  have hb : ∀ x ∈ Set.Ioo (0:ℝ) 1, steppedDensity 1 1 (betaPDFReal (loneNode.mfTau1 0 0) (loneNode.mfTau0 0 0)) (betaPDFReal loneNode.tau1 loneNode.tau0)
      (blockPLogLik loneNode EA 0 0) x = 1 := by
    intro x hx
    have h1 : betaPDFReal loneNode.tau1 loneNode.tau0 x = 1 := by
      show betaPDFReal 1 1 x = 1
      rw [betaPDFReal, if_pos ⟨hx.1, hx.2⟩, beta]; norm_num
    have h2 : blockPLogLik loneNode EA 0 0 x = 0 := by simp [blockPLogLik, possible, loneNode]
    rw [steppedDensity, h1, h2]; simp
  rw [e1, e0]
  rintro ⟨c, -, h⟩
  have ha := h (1 / 2) (by norm_num)
  have hq := h (1 / 4) (by norm_num)
  rw [hb _ (by norm_num), mul_one] at ha hq
  have hl := congrArg Real.log (ha.trans hq.symm)
  rw [log_betaPDF (by norm_num) (by norm_num) (by norm_num), log_betaPDF (by norm_num) (by norm_num) (by norm_num)] at hl
  have l4 : Real.log (1 / 4) = 2 * Real.log (1 / 2) := by rw [show (1:ℝ) / 4 = (1 / 2) ^ 2 by norm_num, Real.log_pow]; norm_num
  have l34 : Real.log (1 - 1 / 4) = Real.log 3 + 2 * Real.log (1 / 2) := by
    rw [show (1:ℝ) - 1 / 4 = 3 * (1 / 4) by norm_num, Real.log_mul (by norm_num) (by norm_num), l4]
  rw [l4, l34, show (1:ℝ) - 1 / 2 = 1 / 2 by norm_num, one_div, Real.log_inv] at hl
  have l3 : Real.log 3 < Real.log (2 ^ 2) := Real.log_lt_log (by norm_num) (by norm_num)
  rw [Real.log_pow] at l3
  push_cast at l3
  linarith

/-! ### Erdos-Renyi network -/

open Classical in
/-- expected log density of the weights of present edges as a function of their common rate `v` -/
noncomputable def erVLogLik (n : ERFixed) (EA EW : Mat ℝ) (v : ℝ) : ℝ :=
  ∑ i ∈ range n.K, ∑ j ∈ range n.K, if n.allowSelf = true ∨ i ≠ j then EA i j * (n.kappa * Real.log v - v * EW i j) else 0

/-- **C77 (Erdos-Renyi network), partial.** The step of the gamma factor of the common scale, when self connections are allowed or their probabilities are 0. (The code's own
edge probabilities are at least `1e-8`, so with self connections disallowed the diagonal adds `1e-8` per node.) -/
theorem C77_er_scale_partial (n : ERFixed) (w : MFWeights) {al be a b : ℝ} (hal : n.alpha = some al) (hbe : n.beta = some be) (hmf : n.mf = some (a, b)) (p1 : 0 < al) (p2 : 0 < be)
    (p3 : 0 < a) (p4 : 0 < b) (hk : 0 < n.kappa) (hA : ∀ i < n.K, ∀ j < n.K, 0 ≤ w.mfP i j) (hW : ∀ i < n.K, ∀ j < n.K, 0 ≤ w.eWGivenA 1 i j)
    (hself : n.allowSelf = true ∨ ∀ i < n.K, w.mfP i i = 0) {s : ℝ} (h0 : 0 ≤ s) (h1 : s ≤ 1) :
    ∃ n' a' b', n.mfUpdate w s = .ok n' ∧ n'.mf = some (a', b') ∧
      Proportional (Set.Ioi 0) (gammaPDFReal a' b') (steppedDensity s 1 (gammaPDFReal a b) (gammaPDFReal al be) (erVLogLik n w.mfP (w.eWGivenA 1))) := by
  classical
  unfold ERFixed.mfUpdate
  rw [hal, hbe, hmf]
  refine ⟨_, _, _, rfl, rfl, ?_⟩
  have := gamma_step (s := s) (frac := 1) (L := erVLogLik n w.mfP (w.eWGivenA 1)) (N := ∑ i ∈ range n.K, ∑ j ∈ range n.K, w.mfP i j * n.kappa)
    (E := ∑ i ∈ range n.K, ∑ j ∈ range n.K, w.mfP i j * w.eWGivenA 1 i j) 0 p3 p4 p1 p2
    (sum_nonneg fun i hi => sum_nonneg fun j hj => mul_nonneg (hA i (mem_range.1 hi) j (mem_range.1 hj)) hk.le)
    (sum_nonneg fun i hi => sum_nonneg fun j hj => mul_nonneg (hA i (mem_range.1 hi) j (mem_range.1 hj)) (hW i (mem_range.1 hi) j (mem_range.1 hj)))
    one_pos h0 h1 (fun v _ => ?_)
  · simpa only [div_one] using this
  · rw [erVLogLik, add_zero, sum_mul, sum_mul, ← sum_sub_distrib]
    refine sum_congr rfl fun i hi => ?_
    rw [sum_mul, sum_mul, ← sum_sub_distrib]
    refine sum_congr rfl fun j _ => ?_
    split_ifs with h
    · ring
    · push Not at h
      rcases hself with h' | h'
      · exact absurd h' h.1
      · rw [← h.2, h' i (mem_range.1 hi)]; ring

/-! non-vacuity: the example model with self connections meets the hypotheses, and a step changes it -/
example : SBMGood (exSBM true) ∧ (exSBM true).allowSelf = true ∧ ((exSBM true).mfUpdateP (exMF true).w.mfP (1 / 2)).mfTau1 0 1 ≠ (exSBM true).mfTau1 0 1 := by
  refine ⟨exSBM_good true, rfl, ?_⟩
  simp [SBM.mfUpdateP, exSBM, exMF, MFWeights.init]
  norm_num

end PyHawkes
