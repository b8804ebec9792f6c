import Verif.Props.VLBPrior

/-! # C55: the network's part of the variational bound -/
set_option linter.unusedSectionVars false

namespace PyHawkes
open Finset MeasureTheory ProbabilityTheory Spec

/-- the contribution of the label of one node -/
noncomputable def labelTerm (huge : ℝ) (n : SBM) (k : ℕ) : ℝ :=
  discreteNegent huge n.C (n.mfM k) (fun c => .fin (n.eLnM c)) - discreteNegent huge n.C (n.mfM k) (fun c => FX.log (n.mfM k c))

/-- with positive memberships the label term is the expected log prior minus the expected log membership -/
theorem labelTerm_pos (huge : ℝ) (n : SBM) (k : ℕ) (h : ∀ c < n.C, 0 < n.mfM k c) :
    labelTerm huge n k = ∑ c ∈ range n.C, n.mfM k c * (n.eLnM c - Real.log (n.mfM k c)) := by
  have e2 : ((List.range n.C).map fun i => FX.fin (n.mfM k i) * FX.log (n.mfM k i)) = (List.range n.C).map fun i => FX.fin (n.mfM k i * Real.log (n.mfM k i)) := by
    refine List.map_congr_left fun i hi => ?_
    rw [FX.log_pos (h i (List.mem_range.1 hi)), FX.fin_mul]
  unfold labelTerm discreteNegent
  rw [e2]
  simp only [FX.fin_mul, sum_map_range_fin, FX.nanToNum]
  rw [← sum_sub_distrib]
  exact sum_congr rfl fun c _ => by ring

/-- a zero membership makes the entropy `0 * -inf = nan`, which `nan_to_num` turns into 0 -/
theorem labelTerm_zero (huge : ℝ) (n : SBM) (k : ℕ) {c : ℕ} (hc : c < n.C) (h : n.mfM k c = 0) :
    labelTerm huge n k = ∑ c ∈ range n.C, n.mfM k c * n.eLnM c := by
  have hbad : FX.nanToNum huge (FX.sum ((List.range n.C).map fun i => FX.fin (n.mfM k i) * FX.log (n.mfM k i))) = 0 := by
    have hnan : ∀ (l : List FX), FX.nan ∈ l → FX.sum l = FX.nan := by
      intro l hl
      rw [FX.sum_eq]
      induction l with
      | nil => cases hl
      | cons x l ih =>
        rw [List.sum_cons]
        rcases List.mem_cons.1 hl with rfl | hl
        · generalize l.sum = z; cases z <;> rfl
        · rw [ih hl]; cases x <;> rfl
    rw [hnan]
    · rfl
    · refine List.mem_map.2 ⟨c, List.mem_range.2 hc, ?_⟩
      rw [h, FX.log_zero]
      show FX.infMul 0 _ _ = _
      simp [FX.infMul]
  unfold labelTerm discreteNegent
  rw [hbad]
  simp only [FX.fin_mul, sum_map_range_fin, FX.nanToNum, sub_zero]

/-- expected log memberships lie below the log of the expected memberships -/
theorem eLnM_le (n : SBM) (hp : ∀ c < n.C, 0 < n.mfPi c) {c : ℕ} (hc : c < n.C) : n.eLnM c ≤ Real.log (n.eM c) := by
  unfold SBM.eLnM SBM.eM
  have hmem : c ∈ range n.C := mem_range.2 hc
  rw [← add_sum_erase _ _ hmem]
  rcases ((range n.C).erase c).eq_empty_or_nonempty with h | h
  · rw [h, sum_empty, add_zero, sub_self, div_self (hp c hc).ne', Real.log_one]
  · exact psi_sub_le (hp c hc) (sum_pos (fun i hi => hp i (mem_range.1 (mem_of_mem_erase hi))) h)

theorem labelTerm_nonpos (huge : ℝ) (n : SBM) (k : ℕ) (hp : ∀ c < n.C, 0 < n.mfPi c) (h0 : ∀ c < n.C, 0 ≤ n.mfM k c) (h1 : ∑ c ∈ range n.C, n.mfM k c = 1) :
    labelTerm huge n k ≤ 0 := by
  have hC : 0 < n.C := by
    rcases Nat.eq_zero_or_pos n.C with h | h
    · rw [h] at h1; simp at h1
    · exact h
  have hS : 0 < ∑ c ∈ range n.C, n.mfPi c := sum_pos (fun i hi => hp i (mem_range.1 hi)) ⟨0, mem_range.2 hC⟩
  have hM : ∀ c < n.C, 0 < n.eM c := fun c hc => div_pos (hp c hc) hS
  have hM1 : ∑ c ∈ range n.C, n.eM c = 1 := by
    unfold SBM.eM; rw [← sum_div, div_self hS.ne']
  by_cases hall : ∀ c < n.C, 0 < n.mfM k c
  · rw [labelTerm_pos huge n k hall]
    have : ∀ c ∈ range n.C, n.mfM k c * (n.eLnM c - Real.log (n.mfM k c)) ≤ n.eM c - n.mfM k c := by
      intro c hc
      have hc := mem_range.1 hc
      have g := gibbs_pointwise (hM c hc) (hall c hc)
      have l := mul_le_mul_of_nonneg_left (eLnM_le n hp hc) (hall c hc).le
      nlinarith
    refine (sum_le_sum this).trans ?_
    rw [sum_sub_distrib, hM1, h1, sub_self]
  · push Not at hall
    obtain ⟨c, hc, hle⟩ := hall
    rw [labelTerm_zero huge n k hc (le_antisymm hle (h0 c hc))]
    refine sum_nonpos fun d hd => ?_
    have hd := mem_range.1 hd
    refine mul_nonpos_of_nonneg_of_nonpos (h0 d hd) ((eLnM_le n hp hd).trans (Real.log_nonpos (hM d hd).le ?_))
    rw [← hM1]
    exact single_le_sum (f := n.eM) (fun i hi => (hM i (mem_range.1 hi)).le) (mem_range.2 hd)

/-- **C55 (network).** For every combination of flags the network's contribution is the label terms, minus the divergences of the block probabilities, scales
and memberships from their priors, plus `C²-1` times the log normaliser of the beta prior, which the code counts once instead of once per block pair. -/
theorem C55_network_value (huge : ℝ) (n : SBM) (g : SBMGood n) (f : NetFlags) :
    n.vlb huge f = (if f.c then ∑ k ∈ range n.K, labelTerm huge n k else 0)
      + (if f.p then -(∑ c ∈ range n.C, ∑ d ∈ range n.C, klBeta (n.mfTau1 c d) (n.mfTau0 c d) n.tau1 n.tau0)
          + (((n.C * n.C : ℕ) : ℝ) - 1) * Real.log (beta n.tau1 n.tau0) else 0)
      + (if f.v then -(∑ c ∈ range n.C, ∑ d ∈ range n.C, klGamma (n.mfAlpha c d) (n.mfBeta c d) n.alpha n.beta) else 0)
      + (if f.m then -klDirichlet n.C n.mfPi n.pi else 0) := by
  have hc : forRange n.K (fun k v =>
      v + discreteNegent huge n.C (n.mfM k) (fun c => .fin (n.eLnM c)) - discreteNegent huge n.C (n.mfM k) (fun c => FX.log (n.mfM k c))) 0
        = ∑ k ∈ range n.K, labelTerm huge n k := by
    have := forRange_add n.K (labelTerm huge n) 0
    rw [zero_add] at this
    rw [← this]
    congr 1
    funext k v
    unfold labelTerm
    ring
  have hp : dirNegent 1 (n.C * n.C) 2 (fun _ i => if i = 0 then n.tau1 else n.tau0)
        (fun r i => if i = 0 then n.blkLnP (r / n.C) (r % n.C) else n.blkLnNotP (r / n.C) (r % n.C))
      - dirNegent (n.C * n.C) (n.C * n.C) 2 (fun r i => if i = 0 then n.mfTau1 (r / n.C) (r % n.C) else n.mfTau0 (r / n.C) (r % n.C))
        (fun r i => if i = 0 then n.blkLnP (r / n.C) (r % n.C) else n.blkLnNotP (r / n.C) (r % n.C))
      = -(∑ c ∈ range n.C, ∑ d ∈ range n.C, klBeta (n.mfTau1 c d) (n.mfTau0 c d) n.tau1 n.tau0)
          + (((n.C * n.C : ℕ) : ℝ) - 1) * Real.log (beta n.tau1 n.tau0) := by
    rw [dir_vlb (n.C * n.C) 2 (fun i => if i = 0 then n.tau1 else n.tau0)]
    · congr 1
      · rw [sum_flat]
        congr 1
        refine sum_congr rfl fun c hc => sum_congr rfl fun d hd => ?_
        have t := g.mfTau c (mem_range.1 hc) d (mem_range.1 hd)
        simp only [flat_div _ (mem_range.1 hd), flat_mod _ (mem_range.1 hd)]
        exact klDirichlet_two t.2 t.1 g.tau.2 g.tau.1
      · rw [log_beta g.tau.2 g.tau.1]
        simp [lnDirNorm, lnBeta, gammaln, sum_range_succ]
    · intro r _ i hi
      have : i = 0 ∨ i = 1 := by omega
      rcases this with rfl | rfl
      · simp [SBM.blkLnP, sum_range_succ, add_comm]
      · simp [SBM.blkLnNotP, sum_range_succ, add_comm]
  have hv : ∑ c1 ∈ range n.C, ∑ c2 ∈ range n.C, gammaNegent n.alpha n.beta (Real.log n.beta) (n.blkV c1 c2) (n.blkLnV c1 c2)
        - ∑ c1 ∈ range n.C, ∑ c2 ∈ range n.C, gammaNegentDefault (n.mfAlpha c1 c2) (n.mfBeta c1 c2)
      = -(∑ c ∈ range n.C, ∑ d ∈ range n.C, klGamma (n.mfAlpha c d) (n.mfBeta c d) n.alpha n.beta) := by
    rw [← sum_sub_distrib, ← sum_neg_distrib]
    refine sum_congr rfl fun c hc => ?_
    rw [← sum_sub_distrib, ← sum_neg_distrib]
    refine sum_congr rfl fun d hd => ?_
    have t := g.mfAB c (mem_range.1 hc) d (mem_range.1 hd)
    rw [klGamma_eq t.1 t.2 g.ab.1 g.ab.2, SBM.blkV, SBM.blkLnV]
    ring
  have hm : dirNegent 1 1 n.C (fun _ => n.pi) (fun _ => n.eLnM) - dirNegent 1 1 n.C (fun _ => n.mfPi) (fun _ => n.eLnM) = -klDirichlet n.C n.mfPi n.pi := by
    rw [dir_vlb 1 n.C n.pi (fun _ => n.mfPi) (fun _ => n.eLnM) (fun _ _ i _ => rfl)]
    simp
  unfold SBM.vlb
  dsimp only
  rw [hc, ← hp, ← hv, ← hm]
  cases f.c <;> cases f.p <;> cases f.v <;> cases f.m <;> simp <;> ring

/-- **C55 (network, partial).** The network's contribution never exceeds `C²-1` times the log normaliser of the beta prior; so it is never positive
for a single block, without the `p` part, or when that normaliser is at most 1 (for instance `tau0 = tau1 = 1`). -/
theorem C55_network_bound_partial (huge : ℝ) (n : SBM) (g : SBMGood n) (f : NetFlags) :
    n.vlb huge f ≤ (if f.p then (((n.C * n.C : ℕ) : ℝ) - 1) * Real.log (beta n.tau1 n.tau0) else 0) ∧
    (n.C = 1 ∨ f.p = false ∨ beta n.tau1 n.tau0 ≤ 1 → n.vlb huge f ≤ 0) := by
  have h1 : (if f.c then ∑ k ∈ range n.K, labelTerm huge n k else 0) ≤ 0 := by
    split_ifs
    · exact sum_nonpos fun k hk => labelTerm_nonpos huge n k g.mfPi (g.mfM k (mem_range.1 hk)).1 (g.mfM k (mem_range.1 hk)).2
    · exact le_rfl
  have h2 : 0 ≤ ∑ c ∈ range n.C, ∑ d ∈ range n.C, klBeta (n.mfTau1 c d) (n.mfTau0 c d) n.tau1 n.tau0 :=
    sum_nonneg fun c hc => sum_nonneg fun d hd => by
      have t := g.mfTau c (mem_range.1 hc) d (mem_range.1 hd)
      exact klBeta_nonneg t.2 t.1 g.tau.2 g.tau.1
  have h3 : (if f.v then -(∑ c ∈ range n.C, ∑ d ∈ range n.C, klGamma (n.mfAlpha c d) (n.mfBeta c d) n.alpha n.beta) else 0) ≤ 0 := by
    split_ifs
    · refine neg_nonpos.2 (sum_nonneg fun c hc => sum_nonneg fun d hd => ?_)
      have t := g.mfAB c (mem_range.1 hc) d (mem_range.1 hd)
      exact klGamma_nonneg t.1 t.2 g.ab.1 g.ab.2
    · exact le_rfl
  have h4 : (if f.m then -klDirichlet n.C n.mfPi n.pi else 0) ≤ 0 := by
    split_ifs
    · exact neg_nonpos.2 (klDirichlet_nonneg g.C g.mfPi g.pi)
    · exact le_rfl
  have hmain : n.vlb huge f ≤ (if f.p then (((n.C * n.C : ℕ) : ℝ) - 1) * Real.log (beta n.tau1 n.tau0) else 0) := by
    rw [C55_network_value huge n g f]
    split_ifs at * <;> linarith
  refine ⟨hmain, fun h => hmain.trans ?_⟩
  split_ifs with hp
  · rcases h with h | h | h
    · rw [h]; simp
    · rw [h] at hp; exact absurd hp (by simp)
    · refine mul_nonpos_of_nonneg_of_nonpos ?_ (Real.log_nonpos (beta_pos g.tau.2 g.tau.1).le h)
      have : 1 ≤ n.C * n.C := Nat.mul_pos g.C g.C
      have : (1:ℝ) ≤ ((n.C * n.C : ℕ) : ℝ) := by exact_mod_cast this
      linarith
  · exact le_rfl

example : (exSBM false).vlb 1 {} ≤ 0 :=
  (C55_network_bound_partial 1 (exSBM false) (exSBM_good false) {}).2 (Or.inr (Or.inr (by norm_num [exSBM, beta])))

/-- the default prior of the block model, `tau0 = tau1 = 0.1` replaced by 1/2 for which the beta function is known: two blocks, at the prior -/
noncomputable def exSBMHalf : SBM := { exSBM false with tau0 := 1 / 2, tau1 := 1 / 2, mfTau0 := fun _ _ => 1 / 2, mfTau1 := fun _ _ => 1 / 2 }

/-- **C55 (network, violated).** With two blocks and `tau0 = tau1 = 1/2` the contribution of the block probabilities at the prior is `3 log π > 0`. -/
theorem C55_network_violated :
    SBMGood exSBMHalf ∧ exSBMHalf.vlb 1 { p := true, v := false, m := false, c := false } = 3 * Real.log Real.pi ∧ 0 < 3 * Real.log Real.pi := by
  have hg : SBMGood exSBMHalf := by
    refine ⟨?_, ?_, ?_, ?_, ?_, ?_, ?_, ?_, ?_, ?_, ?_⟩ <;> simp [exSBMHalf, exSBM, SBM.P, SBM.V]
    intro i _ j _
    split_ifs <;> norm_num
  refine ⟨hg, ?_, C55_impulse_violated.2⟩
  rw [C55_network_value 1 _ hg]
  have hb : beta (1 / 2) (1 / 2) = Real.pi := by
    rw [beta, Real.Gamma_one_half_eq, Real.mul_self_sqrt Real.pi_pos.le]; norm_num
  simp only [exSBMHalf, exSBM, klBeta_self, sum_const_zero, hb]
  norm_num

/-- **C55 (Erdos-Renyi network).** With a gamma prior the contribution is minus the divergence of the scale from its prior. -/
theorem C55_er_nonpos (n : ERFixed) {al be a b : ℝ} (h1 : n.alpha = some al) (h2 : n.beta = some be) (h3 : n.mf = some (a, b)) (p1 : 0 < al) (p2 : 0 < be)
    (p3 : 0 < a) (p4 : 0 < b) :
    n.vlb = .ok (-klGamma a b al be) ∧ -klGamma a b al be ≤ 0 ∧ (a = al → b = be → -klGamma a b al be = 0) := by
  refine ⟨?_, neg_nonpos.2 (klGamma_nonneg p3 p4 p1 p2), ?_⟩
  · rw [ERFixed.vlb, h1, h2, h3]
    dsimp only
    rw [klGamma_eq p3 p4 p1 p2]
    congr 1
    ring
  · rintro rfl rfl
    rw [klGamma_self, neg_zero]

end PyHawkes
