import Verif.Props.VLBAscent
import Mathlib.Analysis.Complex.ExponentialBounds

/-! # C56: when the variational bound is a finite number -/
set_option linter.unusedSectionVars false

namespace PyHawkes
open Finset MeasureTheory ProbabilityTheory Spec

theorem FX.isFinite_add' {a b : FX} : (a + b).isFinite ↔ a.isFinite ∧ b.isFinite := FX.isFinite_add
theorem FX.isFinite_sub' {a b : FX} : (a - b).isFinite ↔ a.isFinite ∧ b.isFinite := by
  show (FX.add a (FX.neg b)).isFinite ↔ _
  rw [FX.isFinite_add, FX.isFinite_neg]

theorem FX.isFinite_finsum (n : ℕ) (f : ℕ → FX) : (∑ i ∈ range n, f i).isFinite ↔ ∀ i < n, (f i).isFinite := by
  induction n with
  | zero => simp [FX.zero_def]
  | succ n ih =>
    rw [sum_range_succ, FX.isFinite_add', ih]
    constructor
    · rintro ⟨h1, h2⟩ i hi
      rcases Nat.lt_succ_iff_lt_or_eq.1 hi with h | rfl
      · exact h1 i h
      · exact h2
    · exact fun h => ⟨fun i hi => h i (by omega), h n (by omega)⟩

theorem logRatio_finite {z : ℝ} {s : ℕ} (hz : 0 ≤ z) (hs : s ≠ 0) : (logRatio z s).isFinite := by
  unfold logRatio
  rw [if_neg hs, FX.log_pos (by positivity)]
  trivial

/-- the counts of a data set fit in 32 bits -/
def Fits (D : DParents ℝ) : Prop := ∀ t k, D.S t k < 2 ^ 32

theorem Ss_ne_zero {D : DParents ℝ} (h : Fits D) {k s : ℕ} (hs : s ∈ D.Ss k) : s ≠ 0 := by
  simp only [DParents.Ss, DParents.ts, List.mem_map, List.mem_filter] at hs
  obtain ⟨t, ⟨_, ht⟩, rfl⟩ := hs
  have : toU32 (D.S t k) = D.S t k := Nat.mod_eq_of_lt (h t k)
  rw [this]
  simpa using ht

/-- the bound of one data set is a finite number when the expected log weights are -/
theorem parentsVlb_finite (M : MFModel) (D : DParents ℝ) (hE : EZPos D) (hF : ∀ t k b, 0 ≤ D.F t k b) (hfit : Fits D)
    (hW : ∀ i < M.K, ∀ j < M.K, (M.w.eLnW M.net.allowSelf i j).isFinite) : (M.parentsVlb D).isFinite := by
  unfold MFModel.parentsVlb
  rw [FX.isFinite_sum]
  intro x hx
  obtain ⟨k, hk, rfl⟩ := List.mem_map.1 hx
  have hk := List.mem_range.1 hk
  unfold mfVlbFX
  refine FX.isFinite_add'.2 ⟨trivial, ?_⟩
  rw [FX.isFinite_sum]
  intro y hy
  obtain ⟨r, hr, rfl⟩ := List.mem_map.1 hy
  have hz := hE k r.1 (List.of_mem_zip hr).1
  have hr2 := (List.of_mem_zip hr).2
  have hs := Ss_ne_zero hfit (List.of_mem_zip hr2).1
  have hf := (List.of_mem_zip hr2).2
  simp only [DParents.Fs, List.mem_map] at hf
  obtain ⟨t, _, hf⟩ := hf
  rw [mfVlbRow_eq]
  refine FX.isFinite_add'.2 ⟨FX.isFinite_add'.2 ⟨trivial, FX.fin_mul_isFinite (logRatio_finite (hz 0) hs) _⟩, ?_⟩
  rw [FX.isFinite_finsum]
  intro k1 h1
  rw [FX.isFinite_finsum]
  intro b _
  refine FX.isFinite_add'.2 ⟨FX.fin_mul_isFinite (FX.isFinite_add'.2 ⟨FX.isFinite_add'.2 ⟨?_, hW k1 h1 k hk⟩, FX.isFinite_fin _⟩) _, FX.fin_mul_isFinite (logRatio_finite (hz _) hs) _⟩
  have := hF t k1 b
  rw [← hf, FX.log_pos (by positivity)]
  trivial

/-- the edges' part of the bound is finite exactly when the expected log edge probabilities allow it -/
theorem wVlb_finite (K : ℕ) (net : MFNet) (V L : Mat ℝ) (w : MFWeights) (hp : ∀ i < K, ∀ j < K, 0 < w.mfP i j ∧ w.mfP i j < 1)
    (hn : ∀ i < K, ∀ j < K, (net.eLnP i j).isFinite ∧ (net.eLnNotP i j).isFinite) : (w.vlb K net V L).isFinite := by
  have hS : ∀ f : ℕ → FX, (∀ r, r / K < K → r % K < K → (f r).isFinite) → (FX.sum ((List.range (K * K)).map f)).isFinite := by
    intro f hf
    rw [FX.isFinite_sum]
    intro x hx
    obtain ⟨r, hr, rfl⟩ := List.mem_map.1 hx
    have hr := List.mem_range.1 hr
    have hK : 0 < K := by
      rcases Nat.eq_zero_or_pos K with h | h
      · subst h; simp at hr
      · exact h
    exact hf r (Nat.div_lt_of_lt_mul hr) (Nat.mod_lt _ hK)
  unfold MFWeights.vlb
  dsimp only
  refine FX.isFinite_sub'.2 ⟨FX.isFinite_sub'.2 ⟨FX.isFinite_sub'.2 ⟨FX.isFinite_add'.2 ⟨FX.isFinite_add'.2 ⟨FX.isFinite_add'.2 ⟨trivial, hS _ ?_⟩, hS _ ?_⟩, hS _ ?_⟩, hS _ ?_⟩, hS _ ?_⟩, hS _ ?_⟩
  · intro r hi hj
    exact FX.isFinite_add'.2 ⟨FX.fin_mul_isFinite (hn _ hi _ hj).1 _, FX.fin_mul_isFinite (hn _ hi _ hj).2 _⟩
  · exact fun _ _ _ => trivial
  · exact fun _ _ _ => trivial
  · intro r hi hj
    have := hp _ hi _ hj
    unfold bernNegent
    rw [FX.log_pos this.1, FX.log_pos (by linarith : 0 < 1 - w.mfP (r / K) (r % K))]
    trivial
  · exact fun _ _ _ => trivial
  · exact fun _ _ _ => trivial

theorem Interior.logs {K : ℕ} {a b : MFNet} (hI : Interior K a) (h : NetInv a b) {i j : ℕ} (hi : i < K) (hj : j < K) :
    (b.eLnP i j).isFinite ∧ (b.eLnNotP i j).isFinite ∧ ¬ (b.allowSelf = false ∧ i = j) := by
  have two : ∀ p : ℝ, 0 < p ∧ p < 1 → (FX.log p).isFinite ∧ (FX.log (1 - p)).isFinite := by
    intro p hp
    rw [FX.log_pos hp.1, FX.log_pos (by linarith)]; exact ⟨trivial, trivial⟩
  cases a with
  | sbm n0 => cases b with
    | sbm n =>
      have hs : n.allowSelf = true := h.same.allowSelf.trans hI.1
      simp only [MFNet.eLnP, MFNet.eLnNotP, MFNet.allowSelf, hs]
      refine ⟨?_, ?_, by simp⟩
      · simp only [Bool.not_true, Bool.false_eq_true, false_and, if_false]
        split_ifs with c
        · rw [h.same.P]; exact (two _ (hI.2 (h.same.fixed ▸ c) i hi j hj)).1
        · trivial
      · simp only [Bool.not_true, Bool.false_eq_true, false_and, if_false]
        split_ifs with c
        · rw [h.same.P]; exact (two _ (hI.2 (h.same.fixed ▸ c) i hi j hj)).2
        · trivial
    | fixedSparsity n => exact h.elim
    | er n => exact h.elim
  | fixedSparsity n0 => cases b with
    | fixedSparsity n =>
      have hs : n.allowSelf = true := h.same.allowSelf.trans hI.1
      simp only [MFNet.eLnP, MFNet.eLnNotP, MFNet.allowSelf, hs, h.same.P]
      have := two _ (hI.2 i hi j hj)
      refine ⟨by simpa using this.1, by simpa using this.2, by simp⟩
    | sbm n => exact h.elim
    | er n => exact h.elim
  | er n0 => cases b with
    | er n =>
      have hP : n.P = n0.P := by
        funext x y
        simp only [NetInv] at h
        simp [ERFixed.P, h]
      have hI' := hI i hi j hj
      simp only [MFNet.eLnP, MFNet.eLnNotP, MFNet.allowSelf, hP]
      have := two _ hI'
      refine ⟨this.1, this.2, ?_⟩
      rintro ⟨hs, rfl⟩
      rw [← hP] at hI'
      simp [ERFixed.P, hs] at hI'
    | sbm n => exact h.elim
    | fixedSparsity n => exact h.elim

theorem sbm_or_er_vlb_ok (huge : ℝ) {K : ℕ} {a b : MFNet} (g : NetGood K a) (h : NetInv a b) (hf : ∀ n, a ≠ .fixedSparsity n) :
    ∃ x, b.vlb huge = .ok x := by
  cases a with
  | sbm n0 => cases b with
    | sbm n => exact ⟨_, rfl⟩
    | fixedSparsity n => exact h.elim
    | er n => exact h.elim
  | fixedSparsity n0 => exact absurd rfl (hf n0)
  | er n0 => cases b with
    | er n =>
      obtain ⟨_, _, _, al, be, a0, b0, h1, h2, h3, p1, p2, p3, p4⟩ := g
      obtain ⟨a, b, hm, ha, hb⟩ := h.2.2.2.2.2.2 al be a0 b0 h1 h2 h3
      refine ⟨0 + gammaNegent al be (Real.log be) (a / b) (psi a - Real.log b) - gammaNegentDefault a b, ?_⟩
      simp only [MFNet.vlb, ERFixed.vlb, hm, h.2.2.2.2.1, h.2.2.2.2.2.1, h1, h2]
    | sbm n => exact h.elim
    | fixedSparsity n => exact h.elim

/-- data of a state: unchanged counts and filtered counts, nonnegative expected parents, right shape -/
def DataOk (D : DParents ℝ) : Prop := EZPos D ∧ EZShape D ∧ Fits D ∧ ∀ t k b, 0 ≤ D.F t k b

theorem DataOk.update (M : MFModel) {D : DParents ℝ} (h : DataOk D) : DataOk (M.updateParents D) := by
  refine ⟨EZPos_update M D h.2.2.2, ?_, h.2.2.1, h.2.2.2⟩
  intro k
  have e : (M.updateParents D).ts k = D.ts k := rfl
  rw [e]
  simp [MFModel.updateParents, mfUpdateParents, DParents.getEZ, DParents.Ss, DParents.Fs]

theorem globals_data {M M' : MFModel} {dl : List (DParents ℝ)} {fr s : ℝ} {u : MFWeights → MFNet → Except PyErr MFNet}
    (h : M.updateGlobals dl fr s u = .ok M') : M'.data = M.data := by
  unfold MFModel.updateGlobals at h
  split at h
  · cases h
  · dsimp only at h
    split at h
    · cases h
    · split at h
      · cases h
      · cases h; rfl

theorem run_data {M M' : MFModel} {a : MFAct} (h : a.run M = .ok M') (hd : ∀ D ∈ M.data, DataOk D) : ∀ D ∈ M'.data, DataOk D := by
  cases a with
  | coord =>
    simp only [MFAct.run, MFModel.coordStep] at h
    split at h
    · cases h
    · cases h
      intro D hD
      obtain ⟨D', hD', rfl⟩ := List.mem_map.1 hD
      exact (hd D' hD').update M
  | sgd mb s =>
    simp only [MFAct.run, MFModel.sgdStep] at h
    split at h
    · split at h
      · cases h
      · rename_i e
        cases h
        intro D hD
        have := globals_data e
        exact hd D (by rw [← this]; exact hD)
    · cases h

theorem runActs_data {acts : List MFAct} {M M' : MFModel} (h : runActs acts M = .ok M') (hd : ∀ D ∈ M.data, DataOk D) : ∀ D ∈ M'.data, DataOk D := by
  induction acts generalizing M with
  | nil => cases h; exact hd
  | cons a as ih =>
    simp only [runActs] at h
    split at h
    · cases h
    · rename_i e
      exact ih h (run_data e hd)

theorem DataOk.fresh {D : DParents ℝ} (h : D.EZ = none) (hf : Fits D) (hF : ∀ t k b, 0 ≤ D.F t k b) : DataOk D := by
  refine ⟨?_, ?_, hf, hF⟩
  · intro k z hz j
    simp only [DParents.getEZ, h, List.mem_map] at hz
    obtain ⟨_, _, rfl⟩ := hz
    exact le_rfl
  · intro k
    simp [DParents.getEZ, h]

/-- the bound is finite in every state that satisfies the invariant -/
theorem vlb_finite {M0 M : MFModel} (huge : ℝ) (g : MFGood M0) (h : MFInv M0 M) (hI : Interior M0.K M0.net) (hf : ∀ n, M0.net ≠ .fixedSparsity n)
    (hd : ∀ D ∈ M.data, DataOk D) : ∃ x, M.vlb huge = .ok (.fin x) := by
  obtain ⟨V, L, e1, e2, _⟩ := h.net.eV g.net
  obtain ⟨y, e3⟩ := sbm_or_er_vlb_ok huge g.net h.net hf
  have hfin : (FX.sum (M.data.map M.parentsVlb) + .fin (M.bias.vlb M.K) + .fin (M.imp.vlb M.K M.B) + M.w.vlb M.K M.net V L + .fin y).isFinite := by
    refine FX.isFinite_add'.2 ⟨FX.isFinite_add'.2 ⟨FX.isFinite_add'.2 ⟨FX.isFinite_add'.2 ⟨?_, trivial⟩, trivial⟩, ?_⟩, trivial⟩
    · rw [FX.isFinite_sum]
      intro x hx
      obtain ⟨D, hD, rfl⟩ := List.mem_map.1 hx
      obtain ⟨h1, _, h3, h4⟩ := hd D hD
      refine parentsVlb_finite M D h1 h4 h3 fun i hi j hj => ?_
      have := (Interior.logs hI h.net (h.K ▸ hi) (h.K ▸ hj)).2.2
      unfold MFWeights.eLnW
      rw [if_neg (by simpa using this)]
      trivial
    · refine wVlb_finite M.K M.net V L M.w (fun i hi j hj => ?_) (fun i hi j hj => ?_)
      · have := h.valid.p i (h.K ▸ hi) j (h.K ▸ hj)
        norm_num at this
        exact ⟨by linarith [this.1], by linarith [this.2]⟩
      · have := Interior.logs hI h.net (h.K ▸ hi) (h.K ▸ hj)
        exact ⟨this.1, this.2.1⟩
  obtain ⟨x, hx⟩ := FX.exists_fin hfin
  refine ⟨x, ?_⟩
  unfold MFModel.vlb
  rw [e1, e2, e3]
  dsimp only
  rw [hx]

/-- **C56 (partial).** With self connections allowed, no certain or impossible edges, and a block-model or Erdos-Renyi (with gamma prior) network,
`get_vlb()` returns a finite number after every history of legal mean-field steps. -/
theorem C56_bound_finite_partial (huge : ℝ) (M0 : MFModel) (g : MFGood M0) (hI : Interior M0.K M0.net) (hf : ∀ n, M0.net ≠ .fixedSparsity n)
    (hd : ∀ D ∈ M0.data, D.EZ = none ∧ ∀ t k, D.S t k < 2 ^ 32) (acts : List MFAct) (hl : ∀ a ∈ acts, a.Legal M0) :
    ∃ M x, runActs acts M0 = .ok M ∧ M.vlb huge = .ok (.fin x) := by
  obtain ⟨M, e, h⟩ := runActs_inv M0 g acts hl
  obtain ⟨x, hx⟩ := vlb_finite huge g h hI hf (runActs_data e fun D hD => DataOk.fresh (hd D hD).1 (hd D hD).2 (g.data.2 D hD).2)
  exact ⟨M, x, e, hx⟩

/-- a version of the example model with small counts -/
noncomputable def exMF' (dt : ℝ) (self : Bool) : MFModel :=
  { exMF self with
    bias := { alpha := 1, beta := 1, dt := dt, mfAlpha := fun _ => 1, mfBeta := fun _ => 1 }
    data := [{ T := 1, S := fun _ _ => 0, F := fun _ _ _ => 0 }] }

theorem exMF'_good {dt : ℝ} (h : 0 ≤ dt) (self : Bool) : MFGood (exMF' dt self) := by
  have g := exMF_good self
  refine ⟨?_, g.imp, g.w, g.wmf, g.p, g.net, ?_⟩
  · simp [exMF', h]
  · simp [exMF']

theorem exMF'_interior (dt : ℝ) : Interior (exMF' dt true).K (exMF' dt true).net := by
  simp [exMF', exMF, exSBM, Interior]

example : ∃ M x, runActs [.coord, .sgd 1 (1 / 2), .coord] (exMF' 1 true) = .ok M ∧ M.vlb 1 = .ok (.fin x) :=
  C56_bound_finite_partial 1 _ (exMF'_good zero_le_one true) (exMF'_interior 1) (fun n => MFNet.noConfusion) (by
    intro D hD
    rw [List.mem_singleton.1 hD]
    exact ⟨rfl, fun _ _ => by norm_num⟩) _ (by
    intro a ha
    have h : (exMF' 1 true).data.length = 1 := rfl
    simp only [List.mem_cons, List.not_mem_nil, or_false] at ha
    rcases ha with rfl | rfl | rfl
    · trivial
    · exact ⟨by norm_num, by norm_num, by norm_num, fun h => by norm_num at h, h⟩
    · trivial)

/-- **C56 (violated: self connections disallowed).** In a block model without self connections the bound is not a finite number in ANY state. -/
theorem C56_no_self_connections_violated (huge : ℝ) (M : MFModel) (n : SBM) (hn : M.net = .sbm n) (hs : n.allowSelf = false) (hK : 0 < M.K) :
    ∀ v, M.vlb huge = .ok v → ¬ v.isFinite := by
  intro v hv hfin
  unfold MFModel.vlb at hv
  rw [hn] at hv
  simp only [MFNet.eV, MFNet.eLnV, MFNet.vlb] at hv
  cases hv
  have hw := (FX.isFinite_add'.1 (FX.isFinite_add'.1 hfin).1).2
  unfold MFWeights.vlb at hw
  dsimp only at hw
  have h1 := (FX.isFinite_add'.1 (FX.isFinite_add'.1 (FX.isFinite_add'.1 (FX.isFinite_sub'.1 (FX.isFinite_sub'.1 (FX.isFinite_sub'.1 hw).1).1).1).1).1).2
  rw [FX.isFinite_sum] at h1
  have h2 := h1 _ (List.mem_map.2 ⟨0, List.mem_range.2 (Nat.mul_pos hK hK), rfl⟩)
  simp only [Nat.zero_div, Nat.zero_mod] at h2
  have h3 := (FX.isFinite_add'.1 h2).1
  have e : (MFNet.sbm n).eLnP 0 0 = .ninf := by simp [MFNet.eLnP, hs]
  rw [e] at h3
  change (FX.infMul _ _ _).isFinite at h3
  unfold FX.infMul at h3
  split_ifs at h3 <;> exact h3

/-- **C56 (violated: fixed-sparsity network).** `get_vlb()` always raises, because the network's `get_vlb` returns `None`. -/
theorem C56_fixed_sparsity_violated (huge : ℝ) (M : MFModel) (n : SBM) (hn : M.net = .fixedSparsity n) : M.vlb huge = .error .type := by
  unfold MFModel.vlb
  rw [hn]
  simp only [MFNet.eV, MFNet.eLnV, MFNet.vlb]

/-- **C56 (violated: certain absence).** In a fixed-sparsity network without self connections a self connection is certainly absent, so the logarithm of that probability is 0; `expected_log_notp` returns
`+inf`, and every bound that uses it is infinite or not a number. -/
theorem C56_certain_absence_violated (n : SBM) (hs : n.allowSelf = false) (i : ℕ) :
    (MFNet.fixedSparsity n).eP i i = 0 ∧ (MFNet.fixedSparsity n).eNotP i i = 1 ∧ (MFNet.fixedSparsity n).eLnNotP i i = .pinf ∧ FX.log ((MFNet.fixedSparsity n).eNotP i i) = .fin 0 := by
  have h0 : (MFNet.fixedSparsity n).eP i i = 0 := SBM_P_diag n hs i
  have h1 : (MFNet.fixedSparsity n).eNotP i i = 1 := by unfold MFNet.eNotP; rw [h0, sub_zero]
  refine ⟨h0, h1, by simp [MFNet.eLnNotP, hs], ?_⟩
  rw [h1]
  simp [FX.log]

/-- **C51 (fixed edge probabilities).** When the edge probabilities are fixed (fixed-sparsity block model, Erdos-Renyi network) the expected log probabilities of an edge that is allowed are the logarithms of
`P` and of `1 - P`. -/
theorem C51_log_fixed_probabilities (n : SBM) (m : ERFixed) {i j : ℕ} (hs : n.allowSelf = true ∨ i ≠ j) :
    (MFNet.fixedSparsity n).eLnP i j = FX.log (n.P i j) ∧ (MFNet.fixedSparsity n).eLnNotP i j = FX.log (1 - n.P i j) ∧ (MFNet.er m).eLnP i j = FX.log (m.P i j) ∧ (MFNet.er m).eLnNotP i j = FX.log (1 - m.P i j) := by
  have : ¬ ((!n.allowSelf) = true ∧ i = j) := by
    rintro ⟨h1, h2⟩
    rcases hs with h | h
    · simp [h] at h1
    · exact h h2
  exact ⟨if_neg this, if_neg this, rfl, rfl⟩

/-- **C56 (violated: default network).** An Erdos-Renyi network without a gamma prior has no variational parameters: `get_vlb()` raises. -/
theorem C56_er_without_prior_violated (huge : ℝ) (M : MFModel) (n : ERFixed) (hn : M.net = .er n) (hmf : n.mf = none) : M.vlb huge = .error .attribute := by
  unfold MFModel.vlb
  rw [hn]
  simp only [MFNet.eV, hmf]

/-! ### C55: the bias update can decrease the bound when bins are not of unit length -/

/-- **C55 (violated).** With bins of length 10, one bin and no events, the background update lowers the bound. -/
theorem C55_bias_update_violated : MFGood (exMF' 10 true) ∧
    ∃ x y, (exMF' 10 true).vlb 1 = .ok (.fin x) ∧ (exMF' 10 true).updateBias.vlb 1 = .ok (.fin y) ∧ y < x := by
  have g := exMF'_good (show (0:ℝ) ≤ 10 by norm_num) true
  have hd : ∀ D ∈ (exMF' 10 true).data, DataOk D := by
    intro D hD
    rw [List.mem_singleton.1 hD]
    exact DataOk.fresh rfl (fun _ _ => by norm_num) (fun _ _ _ => le_rfl)
  obtain ⟨x, hx⟩ := vlb_finite 1 g (MFInv.refl g) (exMF'_interior 10) (fun n => MFNet.noConfusion) hd
  refine ⟨g, x, _, hx, bias_update_delta 1 _ (fun D h => (hd D h).2.1) hx, ?_⟩
  have hZ : ∀ k, expSum (exMF' 10 true).data (fun D => expBkgdSS0 D k) = 0 := by
    intro k
    simp [expSum, exMF', expBkgdSS0, DParents.getEZ, DParents.ts]
  have hT : expSum (exMF' 10 true).data (fun D => (D.T : ℝ)) = 1 := by simp [expSum, exMF']
  have e1 : ∀ k, ((exMF' 10 true).bias.update (exMF' 10 true).data 1 1).mfAlpha k = 1 := by
    intro k; simp only [MFBias.update, hZ]; simp [exMF']
  have e2 : ∀ k, ((exMF' 10 true).bias.update (exMF' 10 true).data 1 1).mfBeta k = 11 := by
    intro k; simp [MFBias.update, expSum, exMF', bkgdSS1]; norm_num
  have ea : ((exMF' 10 true).bias.update (exMF' 10 true).data 1 1).alpha = 1 := rfl
  have eb : ((exMF' 10 true).bias.update (exMF' 10 true).data 1 1).beta = 1 := rfl
  have f1 : (exMF' 10 true).bias = { alpha := 1, beta := 1, dt := 10, mfAlpha := fun _ => 1, mfBeta := fun _ => 1 } := rfl
  have hv : (exMF' 10 true).bias.vlb (exMF' 10 true).K = 0 :=
    (C55_bias_nonpos _ _ (by simp [f1]) (by simp [f1]) (fun k _ => by simp [f1])).2 (fun k _ => by simp [f1])
  have hv' : ((exMF' 10 true).bias.update (exMF' 10 true).data 1 1).vlb (exMF' 10 true).K = 2 * (1 - 1 / 11 - Real.log 11) := by
    rw [C55_bias_minus_kl _ _ (by rw [ea]; norm_num) (by rw [eb]; norm_num) (fun k _ => by rw [e1, e2]; norm_num)]
    have hK : (exMF' 10 true).K = 2 := rfl
    rw [hK]
    simp only [e1, e2, ea, eb]
    rw [klGamma_eq one_pos (by norm_num) one_pos one_pos]
    simp [gammaNegentDefault, gammaNegent, sum_range_succ]
    ring
  rw [hv, hv', hT]
  simp only [hZ, zero_mul, zero_sub, one_mul, MFBias.eLam, e1, e2]
  have hK : (exMF' 10 true).K = 2 := rfl
  have fa : ∀ k, (exMF' 10 true).bias.mfAlpha k / (exMF' 10 true).bias.mfBeta k = 1 := by intro k; simp [f1]
  simp only [fa, hK, sum_const, card_range]
  norm_num
  have : (2:ℝ) < Real.log 11 := by
    rw [Real.lt_log_iff_exp_lt (by norm_num)]
    have h := Real.exp_one_lt_d9
    have h0 := Real.exp_pos 1
    rw [show (2:ℝ) = 1 + 1 by norm_num, Real.exp_add]
    nlinarith
  linarith

end PyHawkes
