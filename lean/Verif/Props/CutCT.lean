import Verif.Props.CutCTOrigin
import Verif.Props.CTAdjacency
set_option linter.unusedSectionVars false
set_option linter.unusedVariables false
/-! # C112: cutting a continuous-time recording at a silence -/
namespace PyHawkes
open Finset Spec

variable {P : CTParams} {D1 D2 J : CTData}

theorem joined_lag1 (h : Joined D1 D2 J) {n m : ℕ} (hn : n < D1.N) (hm : m < D1.N) : J.S n - J.S m = D1.S n - D1.S m := by
  rw [h.S1 n hn, h.S1 m hm]

theorem joined_lag2 (h : Joined D1 D2 J) {n m : ℕ} (hn : n < D2.N) (hm : m < D2.N) : J.S (D1.N + n) - J.S (D1.N + m) = D2.S n - D2.S m := by
  rw [h.S2 n hn, h.S2 m hm, add_sub_add_left_eq_sub]

theorem joined_lag12 (h : Joined D1 D2 J) (hs : SilenceBetween P.dtMax D1 D2) {n m : ℕ} (hn : n < D2.N) (hm : m < D1.N) : P.dtMax ≤ J.S (D1.N + n) - J.S m := by
  rw [h.S2 n hn, h.S1 m hm]; exact hs m hm n hn

theorem joined_parWeight1 (h : Joined D1 D2 J) {n m : ℕ} (hn : n < D1.N) (hm : m < D1.N) : parWeight P J n m = parWeight P D1 n m := by
  unfold parWeight; rw [joined_lag1 h hn hm, h.C1 n hn, h.C1 m hm]

theorem joined_parWeight2 (h : Joined D1 D2 J) {n m : ℕ} (hn : n < D2.N) (hm : m < D2.N) : parWeight P J (D1.N + n) (D1.N + m) = parWeight P D2 n m := by
  unfold parWeight; rw [joined_lag2 h hn hm, h.C2 n hn, h.C2 m hm]

theorem joined_rateScan1 (h : Joined D1 D2 J) {n : ℕ} (hn : n < D1.N) (m : ℕ) (hm : m ≤ n) (l : ℝ) : rateScan P J n m l = rateScan P D1 n m l := by
  induction m generalizing l with
  | zero => rfl
  | succ m ih =>
    have hm' : m < D1.N := by omega
    unfold rateScan
    dsimp only
    rw [joined_lag1 h hn hm', joined_parWeight1 h hn hm', ih (by omega), ih (by omega), h.C1 n hn, h.C1 m hm']

theorem joined_rateScan_far (h : Joined D1 D2 J) (hs : SilenceBetween P.dtMax D1 D2) {n : ℕ} (hn : n < D2.N) (m : ℕ) (hm : m ≤ D1.N) (l : ℝ) :
    rateScan P J (D1.N + n) m l = l := by
  induction m generalizing l with
  | zero => rfl
  | succ m ih =>
    have := joined_lag12 h hs hn (show m < D1.N by omega)
    unfold rateScan
    dsimp only
    split_ifs with a b
    · exact ih (by omega) l
    · rfl
    · exfalso; have : (0:ℝ) < 1e-8 := by norm_num
      linarith
    · exfalso; have : (0:ℝ) < 1e-8 := by norm_num
      linarith

theorem joined_rateScan2 (h : Joined D1 D2 J) (hs : SilenceBetween P.dtMax D1 D2) {n : ℕ} (hn : n < D2.N) (m : ℕ) (hm : m ≤ n) (l : ℝ) :
    rateScan P J (D1.N + n) (D1.N + m) l = rateScan P D2 n m l := by
  induction m generalizing l with
  | zero => rw [Nat.add_zero, joined_rateScan_far h hs hn _ le_rfl]; rfl
  | succ m ih =>
    have hm' : m < D2.N := by omega
    rw [← Nat.add_assoc]
    unfold rateScan
    dsimp only
    rw [joined_lag2 h hn hm', joined_parWeight2 h hn hm', ih (by omega), ih (by omega), h.C2 n hn, h.C2 m hm']

theorem joined_irScan1 (h : Joined D1 D2 J) {n : ℕ} (hn : n < D1.N) (m : ℕ) (hm : m ≤ n) (l : Vec ℝ) : irScan P J n m l = irScan P D1 n m l := by
  induction m generalizing l with
  | zero => rfl
  | succ m ih =>
    have hm' : m < D1.N := by omega
    unfold irScan
    dsimp only
    rw [joined_lag1 h hn hm', ih (by omega), ih (by omega), h.C1 n hn, h.C1 m hm']

theorem joined_irScan_far (h : Joined D1 D2 J) (hs : SilenceBetween P.dtMax D1 D2) {n : ℕ} (hn : n < D2.N) (m : ℕ) (hm : m ≤ D1.N) (l : Vec ℝ) :
    irScan P J (D1.N + n) m l = l := by
  induction m generalizing l with
  | zero => rfl
  | succ m ih =>
    have := joined_lag12 h hs hn (show m < D1.N by omega)
    unfold irScan
    dsimp only
    split_ifs with a b
    · exact ih (by omega) l
    · rfl
    · exfalso; have : (0:ℝ) < 1e-8 := by norm_num
      linarith

theorem joined_irScan2 (h : Joined D1 D2 J) (hs : SilenceBetween P.dtMax D1 D2) {n : ℕ} (hn : n < D2.N) (m : ℕ) (hm : m ≤ n) (l : Vec ℝ) :
    irScan P J (D1.N + n) (D1.N + m) l = irScan P D2 n m l := by
  induction m generalizing l with
  | zero => rw [Nat.add_zero, joined_irScan_far h hs hn _ le_rfl]; rfl
  | succ m ih =>
    have hm' : m < D2.N := by omega
    rw [← Nat.add_assoc]
    unfold irScan
    dsimp only
    rw [joined_lag2 h hn hm', ih (by omega), ih (by omega), h.C2 n hn, h.C2 m hm']

theorem joined_rate1 (h : Joined D1 D2 J) {n : ℕ} (hn : n < D1.N) : rateAtEvents P J n = rateAtEvents P D1 n := by
  unfold rateAtEvents; rw [joined_rateScan1 h hn n le_rfl, h.C1 n hn]

theorem joined_rate2 (h : Joined D1 D2 J) (hs : SilenceBetween P.dtMax D1 D2) {n : ℕ} (hn : n < D2.N) : rateAtEvents P J (D1.N + n) = rateAtEvents P D2 n := by
  unfold rateAtEvents; rw [joined_rateScan2 h hs hn n le_rfl, h.C2 n hn]

theorem joined_imp1 (h : Joined D1 D2 J) {n : ℕ} (hn : n < D1.N) : weightedImpulses P J n = weightedImpulses P D1 n := joined_irScan1 h hn n le_rfl _

theorem joined_imp2 (h : Joined D1 D2 J) (hs : SilenceBetween P.dtMax D1 D2) {n : ℕ} (hn : n < D2.N) : weightedImpulses P J (D1.N + n) = weightedImpulses P D2 n :=
  joined_irScan2 h hs hn n le_rfl _

theorem joined_Ns (h : Joined D1 D2 J) (k : ℕ) : J.Ns k = D1.Ns k + D2.Ns k := by
  simp only [CTData.Ns_eq_card, card_filter, h.N, sum_range_add]
  congr 1
  · exact sum_congr rfl fun n hn => by rw [h.C1 n (mem_range.1 hn)]
  · exact sum_congr rfl fun n hn => by rw [h.C2 n (mem_range.1 hn)]

/-- **C112 (cutting at a silence, likelihood).** Replacing a recording by its two parts, cut at a silence at least as long as the window, changes neither the log likelihood of the data nor the
likelihoods that the edge updates use. -/
theorem C112_cut_likelihood_partial (P : CTParams) (h : Joined D1 D2 J) (hs : SilenceBetween P.dtMax D1 D2) (a b : List CTData) :
    ctLogLik P (a ++ J :: b) = ctLogLik P (a ++ D1 :: D2 :: b) ∧ ∀ k col, ctLLCol P (a ++ J :: b) k col = ctLLCol P (a ++ D1 :: D2 :: b) k col := by
  refine ⟨?_, fun k col => ?_⟩
  · simp only [ctLogLik_sum, List.map_append, List.map_cons, List.sum_append, List.sum_cons]
    rw [← add_assoc (_ + _) (_ + _) (List.sum _)]
    congr 2
    rw [h.N, sum_range_add, sum_congr (s₁ := range D1.N) rfl fun n hn => by rw [joined_rate1 h (mem_range.1 hn)],
      sum_congr (s₁ := range D2.N) rfl fun n hn => by rw [joined_rate2 h hs (mem_range.1 hn)]]
    have e : ∑ k ∈ range P.K, integratedRate P J k = ∑ k ∈ range P.K, integratedRate P D1 k + ∑ k ∈ range P.K, integratedRate P D2 k := by
      rw [← sum_add_distrib]
      refine sum_congr rfl fun k _ => ?_
      unfold integratedRate
      rw [h.T]
      simp only [joined_Ns h, Nat.cast_add, mul_add, sum_add_distrib]
      ring
    rw [e]; ring
  · simp only [ctLLCol_sum, List.map_append, List.map_cons, List.sum_append, List.sum_cons]
    rw [← add_assoc (_ + _) (_ + _) (List.sum _)]
    congr 2
    rw [h.N, sum_range_add, sum_congr (s₁ := range D1.N) rfl fun n hn => by rw [joined_imp1 h (mem_range.1 hn), h.C1 n (mem_range.1 hn)],
      sum_congr (s₁ := range D2.N) rfl fun n hn => by rw [joined_imp2 h hs (mem_range.1 hn), h.C2 n (mem_range.1 hn)], h.T]
    simp only [joined_Ns h, Nat.cast_add, mul_add, sum_add_distrib]
    ring

/-- **C112 (cutting at a silence, adjacency).** Both sweeps over the adjacency matrix return the same matrix whether or not the recording is cut. -/
theorem C112_cut_adjacency_partial (P : CTParams) (h : Joined D1 D2 J) (hs : SilenceBetween P.dtMax D1 D2) (a b : List CTData) (p u : Mat ℝ) (order : List ℕ) (A : Mat ℝ) :
    ctSerialSweep P p u (a ++ J :: b) A = ctSerialSweep P p u (a ++ D1 :: D2 :: b) A ∧
    ctParallelSweep P p u (a ++ J :: b) order A = ctParallelSweep P p u (a ++ D1 :: D2 :: b) order A := by
  have hl := (C112_cut_likelihood_partial P h hs a b).2
  exact ⟨serialSweep_of_llCol P p u _ _ hl A, parallelSweep_of_llCol P p u _ _ (by simp) hl order A⟩

/-! ### parents -/

theorem joined_contribution1 (h : Joined D1 D2 J) {n m : ℕ} (hn : n < D1.N) (hm : m < D1.N) : contribution P J n m = contribution P D1 n m := by
  unfold contribution; rw [joined_lag1 h hn hm, h.C1 n hn, h.C1 m hm]

theorem joined_contribution2 (h : Joined D1 D2 J) {n m : ℕ} (hn : n < D2.N) (hm : m < D2.N) : contribution P J (D1.N + n) (D1.N + m) = contribution P D2 n m := by
  unfold contribution; rw [joined_lag2 h hn hm, h.C2 n hn, h.C2 m hm]

theorem joined_contribution12 (h : Joined D1 D2 J) (hs : SilenceBetween P.dtMax D1 D2) {n m : ℕ} (hn : n < D2.N) (hm : m < D1.N) : contribution P J (D1.N + n) m = 0 := by
  have := joined_lag12 h hs hn hm
  have h8 : (0:ℝ) < 1e-8 := by norm_num
  unfold contribution
  dsimp only
  rw [if_neg (by rintro ⟨-, b⟩; linarith)]

theorem joined_partial1 (h : Joined D1 D2 J) {n : ℕ} (hn : n < D1.N) (m : ℕ) (hm : m ≤ n) : ∑ j ∈ range m, contribution P J n j = ∑ j ∈ range m, contribution P D1 n j :=
  sum_congr rfl fun j hj => joined_contribution1 h hn (by have := mem_range.1 hj; omega)

theorem joined_partial2 (h : Joined D1 D2 J) (hs : SilenceBetween P.dtMax D1 D2) {n : ℕ} (hn : n < D2.N) (m : ℕ) (hm : m ≤ n) :
    ∑ j ∈ range (D1.N + m), contribution P J (D1.N + n) j = ∑ j ∈ range m, contribution P D2 n j := by
  rw [sum_range_add, sum_eq_zero fun j hj => joined_contribution12 h hs hn (mem_range.1 hj), zero_add]
  exact sum_congr rfl fun j hj => joined_contribution2 h hn (by have := mem_range.1 hj; omega)

theorem joined_cumProb1 (h : Joined D1 D2 J) {n : ℕ} (hn : n < D1.N) (m : ℕ) (hm : m ≤ n) : cumProb P J n m = cumProb P D1 n m := by
  unfold cumProb totalRate
  rw [joined_partial1 h hn m hm, joined_partial1 h hn n le_rfl, h.C1 n hn]

theorem joined_cumProb2 (h : Joined D1 D2 J) (hs : SilenceBetween P.dtMax D1 D2) {n : ℕ} (hn : n < D2.N) (m : ℕ) (hm : m ≤ n) :
    cumProb P J (D1.N + n) (D1.N + m) = cumProb P D2 n m := by
  unfold cumProb totalRate
  rw [joined_partial2 h hs hn m hm, joined_partial2 h hs hn n le_rfl, h.C2 n hn]

theorem joined_cumProb2_bg (h : Joined D1 D2 J) (hs : SilenceBetween P.dtMax D1 D2) {n : ℕ} (hn : n < D2.N) :
    cumProb P J (D1.N + n) 0 = cumProb P D2 n 0 := by
  unfold cumProb totalRate
  rw [joined_partial2 h hs hn n le_rfl, h.C2 n hn, sum_range_zero, sum_range_zero]

theorem joined_labels {K : ℕ} (h : Joined D1 D2 J) (h1 : LabelsOk K D1) (h2 : LabelsOk K D2) : LabelsOk K J := by
  intro n hn
  rw [h.N] at hn
  by_cases hc : n < D1.N
  · rw [h.C1 n hc]; exact h1 n hc
  · have := h.C2 (n - D1.N) (by omega)
    rw [show D1.N + (n - D1.N) = n by omega] at this
    rw [this]; exact h2 _ (by omega)

theorem joined_sorted {d : ℝ} (hd : 0 ≤ d) (h : Joined D1 D2 J) (hs : SilenceBetween d D1 D2) (h1 : SortedTimes D1) (h2 : SortedTimes D2) : SortedTimes J := by
  intro i j hij hj
  rw [h.N] at hj
  by_cases hcj : j < D1.N
  · rw [h.S1 j hcj, h.S1 i (by omega)]; exact h1 i j hij hcj
  · obtain ⟨b, rfl⟩ : ∃ b, j = D1.N + b := ⟨j - D1.N, by omega⟩
    rw [h.S2 b (by omega)]
    by_cases hci : i < D1.N
    · rw [h.S1 i hci]; linarith [hs i hci b (by omega)]
    · obtain ⟨a, rfl⟩ : ∃ a, i = D1.N + a := ⟨i - D1.N, by omega⟩
      rw [h.S2 a (by omega)]
      linarith [h2 a b (by omega) (by omega)]

theorem joined_sel1 (hP : CTOk P) (h : Joined D1 D2 J) (hL1 : LabelsOk P.K D1) (hLJ : LabelsOk P.K J) (hS1 : SortedTimes D1) (hSJ : SortedTimes J) {n : ℕ} (hn : n < D1.N) {x : ℝ} (hx : x < 1) :
    selParent P J n x = selParent P D1 n x := by
  have hnJ : n < J.N := by rw [h.N]; omega
  rcases sel_valid P D1 hP hL1 hS1 n hn x hx with hv | ⟨m, hv, hm, -⟩
  · rw [hv]
    rw [sel_bkgd_iff P D1 hP hL1 hS1 n hn x hx] at hv
    rw [sel_bkgd_iff P J hP hLJ hSJ n hnJ x hx, joined_cumProb1 h hn 0 (Nat.zero_le _)]
    exact hv
  · rw [hv]
    rw [sel_parent_iff P D1 hP hL1 hS1 n hn x hx m hm] at hv
    rw [sel_parent_iff P J hP hLJ hSJ n hnJ x hx m hm, joined_cumProb1 h hn m hm.le, joined_cumProb1 h hn (m + 1) hm]
    exact hv

theorem joined_sel2_bg (hP : CTOk P) (h : Joined D1 D2 J) (hs : SilenceBetween P.dtMax D1 D2) (hL2 : LabelsOk P.K D2) (hLJ : LabelsOk P.K J) (hS2 : SortedTimes D2) (hSJ : SortedTimes J)
    {n : ℕ} (hn : n < D2.N) {x : ℝ} (hx : x < 1) (hv : selParent P D2 n x = -1) : selParent P J (D1.N + n) x = -1 := by
  rw [sel_bkgd_iff P D2 hP hL2 hS2 n hn x hx] at hv
  rw [sel_bkgd_iff P J hP hLJ hSJ _ (by rw [h.N]; omega) x hx, joined_cumProb2_bg h hs hn]
  exact hv

theorem joined_sel2_par (hP : CTOk P) (h : Joined D1 D2 J) (hs : SilenceBetween P.dtMax D1 D2) (hL2 : LabelsOk P.K D2) (hLJ : LabelsOk P.K J) (hS2 : SortedTimes D2) (hSJ : SortedTimes J)
    {n : ℕ} (hn : n < D2.N) {x : ℝ} (hx : x < 1) (m : ℕ) (hv : selParent P D2 n x = m) : selParent P J (D1.N + n) x = (D1.N + m : ℕ) := by
  have hm : m < n := by
    rcases sel_valid P D2 hP hL2 hS2 n hn x hx with h1 | ⟨i, h1, hi, -⟩
    · rw [h1] at hv; omega
    · rw [h1] at hv; omega
  rw [sel_parent_iff P D2 hP hL2 hS2 n hn x hx m hm] at hv
  rw [sel_parent_iff P J hP hLJ hSJ _ (by rw [h.N]; omega) x hx _ (by omega), joined_cumProb2 h hs hn m hm.le, Nat.add_assoc, joined_cumProb2 h hs hn (m + 1) hm]
  exact hv

/-! ### statistics -/

theorem joined_children_sum {K : ℕ} {d : ℝ} (h : Joined D1 D2 J) (hz : JoinedParents D1 D2 J) (h1 : CTDataOk K d D1) (h2 : CTDataOk K d D2) (k1 k2 : ℕ) (f : ℕ → ℝ) :
    ∑ n ∈ children J J.Z k1 k2, f n = ∑ n ∈ children D1 D1.Z k1 k2, f n + ∑ n ∈ children D2 D2.Z k1 k2, f (D1.N + n) := by
  rw [← sum_children, ← sum_children, ← sum_children D2 D2.Z k1 k2 fun n => f (D1.N + n), h.N, sum_range_add]
  congr 1
  · refine sum_congr rfl fun n hn => ?_
    have hn := mem_range.1 hn
    obtain ⟨-, p2, -⟩ := h1.parents n hn
    rw [hz.Z1 n hn, h.C1 n hn]
    by_cases h0 : 0 ≤ D1.Z n
    · rw [h.C1 _ (show (D1.Z n).toNat < D1.N by omega)]
    · simp [h0]
  · refine sum_congr rfl fun n hn => ?_
    have hn := mem_range.1 hn
    obtain ⟨p1, p2, -⟩ := h2.parents n hn
    rw [h.C2 n hn]
    by_cases h0 : 0 ≤ D2.Z n
    · have e := hz.par n hn (D2.Z n).toNat (by omega)
      rw [e, Int.toNat_natCast, h.C2 _ (show (D2.Z n).toNat < D2.N by omega)]
      simp only [h0, Int.natCast_nonneg, true_and]
    · rw [hz.bg n hn (by omega)]
      simp [h0]

theorem joined_lags1 {K : ℕ} {d : ℝ} (h : Joined D1 D2 J) (hz : JoinedParents D1 D2 J) (h1 : CTDataOk K d D1) {k1 k2 n : ℕ} (hn : n ∈ children D1 D1.Z k1 k2) :
    childLag J d J.Z n = childLag D1 d D1.Z n := by
  simp only [children, mem_filter, mem_range] at hn
  have := (h1.parents n hn.1).2.1
  unfold childLag
  rw [hz.Z1 n hn.1, joined_lag1 h hn.1 (by omega)]

theorem joined_lags2 {K : ℕ} {d : ℝ} (h : Joined D1 D2 J) (hz : JoinedParents D1 D2 J) (h2 : CTDataOk K d D2) {k1 k2 n : ℕ} (hn : n ∈ children D2 D2.Z k1 k2) :
    childLag J d J.Z (D1.N + n) = childLag D2 d D2.Z n := by
  simp only [children, mem_filter, mem_range] at hn
  have := (h2.parents n hn.1).2.1
  unfold childLag
  rw [hz.par n hn.1 (D2.Z n).toNat (by omega), Int.toNat_natCast, joined_lag2 h hn.1 (by omega)]

theorem joined_bkgd (h : Joined D1 D2 J) (hz : JoinedParents D1 D2 J) {K : ℕ} {d : ℝ} (h2 : CTDataOk K d D2) (k : ℕ) : bkgdCount J J.Z k = bkgdCount D1 D1.Z k + bkgdCount D2 D2.Z k := by
  unfold bkgdCount
  simp only [card_filter, h.N, sum_range_add]
  congr 1
  · refine sum_congr rfl fun n hn => ?_
    have hn := mem_range.1 hn
    rw [hz.Z1 n hn, h.C1 n hn]
  · refine sum_congr rfl fun n hn => ?_
    have hn := mem_range.1 hn
    rw [h.C2 n hn]
    by_cases h0 : D2.Z n = -1
    · rw [hz.bg n hn h0, h0]
    · have := (h2.parents n hn).1
      rw [hz.par n hn (D2.Z n).toNat (by omega), if_neg (by omega), if_neg (by omega)]

theorem joined_stats {K : ℕ} {d : ℝ} (h : Joined D1 D2 J) (hz : JoinedParents D1 D2 J) (h1 : CTDataOk K d D1) (h2 : CTDataOk K d D2) (hJ : CTDataOk K d J) :
    (∀ k, J.bkgd k = D1.bkgd k + D2.bkgd k) ∧ (∀ i j, J.weight i j = D1.weight i j + D2.weight i j) ∧ (∀ i j, J.imp0 i j = D1.imp0 i j + D2.imp0 i j) ∧
    (∀ i j, J.imp1 i j = D1.imp1 i j + D2.imp1 i j) := by
  have hc : ∀ i j, ((children J J.Z i j).card : ℝ) = (children D1 D1.Z i j).card + (children D2 D2.Z i j).card := by
    intro i j
    have := joined_children_sum h hz h1 h2 i j fun _ => 1
    simpa using this
  refine ⟨fun k => ?_, fun i j => ?_, fun i j => ?_, fun i j => ?_⟩
  · rw [hJ.bkgd, h1.bkgd, h2.bkgd, joined_bkgd h hz h2, Nat.cast_add]
  · rw [hJ.weight, h1.weight, h2.weight, hc]
  · rw [hJ.imp0, h1.imp0, h2.imp0, hc]
  · rw [hJ.imp1, h1.imp1, h2.imp1, joined_children_sum h hz h1 h2, sum_congr rfl fun n hn => joined_lags1 h hz h1 hn,
      sum_congr (s₁ := children D2 D2.Z i j) rfl fun n hn => joined_lags2 h hz h2 hn]

/-- **C112 (cutting at a silence, parents).** Resampling the parents of the whole recording and of its two parts with the same uniform draws, under any complete schedules, gives the same parents; hence the
same numbers of background events and of children, the same impulse counts and sums of scaled lags. -/
theorem C112_cut_parents_partial (hP : CTOk P) (h : Joined D1 D2 J) (hs : SilenceBetween P.dtMax D1 D2) (hL1 : LabelsOk P.K D1) (hL2 : LabelsOk P.K D2) (hS1 : SortedTimes D1) (hS2 : SortedTimes D2)
    (u1 u2 u : Vec ℝ) (hu : JoinedUniforms D1 D2 u1 u2 u) (hu1 : ∀ n < D1.N, 0 ≤ u1 n ∧ u1 n < 1) (hu2 : ∀ n < D2.N, 0 ≤ u2 n ∧ u2 n < 1)
    (s1 s2 s : List ℕ) (hs1 : CompleteSchedule D1.N s1) (hs2 : CompleteSchedule D2.N s2) (hsJ : CompleteSchedule J.N s) :
    ∃ D1' D2' J', ctResample P u1 s1 D1 = .ok D1' ∧ ctResample P u2 s2 D2 = .ok D2' ∧ ctResample P u s J = .ok J' ∧
      Joined D1' D2' J' ∧ JoinedParents D1' D2' J' ∧ CTDataOk P.K P.dtMax D1' ∧ CTDataOk P.K P.dtMax D2' ∧ CTDataOk P.K P.dtMax J' ∧
      (∀ k, J'.bkgd k = D1'.bkgd k + D2'.bkgd k) ∧ (∀ i j, J'.weight i j = D1'.weight i j + D2'.weight i j) ∧ (∀ i j, J'.imp0 i j = D1'.imp0 i j + D2'.imp0 i j) ∧
      (∀ i j, J'.imp1 i j = D1'.imp1 i j + D2'.imp1 i j) := by
  have hLJ := joined_labels h hL1 hL2
  have hSJ := joined_sorted hP.dtMax.le h hs hS1 hS2
  have huJ : ∀ n < J.N, 0 ≤ u n ∧ u n < 1 := by
    intro n hn
    rw [h.N] at hn
    by_cases hc : n < D1.N
    · rw [hu.1 n hc]; exact hu1 n hc
    · have := hu.2 (n - D1.N) (by omega)
      rw [show D1.N + (n - D1.N) = n by omega] at this
      rw [this]; exact hu2 _ (by omega)
  obtain ⟨D1', e1, n1, a1, b1, t1, -, ok1⟩ := C26_resample_succeeds P D1 hP hL1 hS1 u1 hu1 s1 hs1
  obtain ⟨D2', e2, n2, a2, b2, t2, -, ok2⟩ := C26_resample_succeeds P D2 hP hL2 hS2 u2 hu2 s2 hs2
  obtain ⟨J', eJ, nJ, aJ, bJ, tJ, -, okJ⟩ := C26_resample_succeeds P J hP hLJ hSJ u huJ s hsJ
  have z : ∀ {D D' : CTData} {v : Vec ℝ} {sc : List ℕ}, LabelsOk P.K D → SortedTimes D → (∀ n < D.N, 0 ≤ v n ∧ v n < 1) → CompleteSchedule D.N sc → ctResample P v sc D = .ok D' →
      ∀ n < D.N, D'.Z n = selParent P D n (v n) := by
    intro D D' v sc hL hS hv hsc e n hn
    obtain ⟨Z, f1, f2, -⟩ := ctResamplePar_eq P D hP hL hS v (fun n hn => (hv n hn).2) sc hsc D.Z
    have e' : ctResamplePar P D v sc D.Z = .ok D'.Z := by
      unfold ctResample at e
      rw [f1] at e ⊢
      dsimp only at e
      split_ifs at e
      cases hst : ctSuffStats D P.dtMax Z with
      | error x => rw [hst] at e; cases e
      | ok st =>
        rw [hst] at e
        dsimp only at e
        split_ifs at e
        cases e
        rfl
    rw [f1] at e'
    rw [← Except.ok.inj e']
    exact f2 n hn
  have z1 := z hL1 hS1 hu1 hs1 e1
  have z2 := z hL2 hS2 hu2 hs2 e2
  have zJ := z hLJ hSJ huJ hsJ eJ
  have hj : Joined D1' D2' J' := ⟨by rw [nJ, n1, n2, h.N], by rw [tJ, t1, t2, h.T], by rw [n1, aJ, a1]; exact h.S1, by rw [n1, bJ, b1]; exact h.C1,
    by rw [n1, n2, aJ, a2, t1]; exact h.S2, by rw [n1, n2, bJ, b2]; exact h.C2⟩
  have hz : JoinedParents D1' D2' J' := by
    refine ⟨fun n hn => ?_, fun n hn hb => ?_, fun n hn m hm => ?_⟩
    · rw [n1] at hn
      rw [zJ n (by rw [h.N]; omega), z1 n hn, hu.1 n hn]
      exact joined_sel1 hP h hL1 hLJ hS1 hSJ hn (hu1 n hn).2
    · rw [n2] at hn
      rw [z2 n hn] at hb
      rw [n1, zJ _ (by rw [h.N]; omega), hu.2 n hn]
      exact joined_sel2_bg hP h hs hL2 hLJ hS2 hSJ hn (hu2 n hn).2 hb
    · rw [n2] at hn
      rw [z2 n hn] at hm
      rw [n1, zJ _ (by rw [h.N]; omega), hu.2 n hn]
      exact joined_sel2_par hP h hs hL2 hLJ hS2 hSJ hn (hu2 n hn).2 m hm
  obtain ⟨q1, q2, q3, q4⟩ := joined_stats hj hz ok1 ok2 okJ
  exact ⟨D1', D2', J', e1, e2, eJ, hj, hz, ok1, ok2, okJ, q1, q2, q3, q4⟩

/-! ### the parameter draws -/

/-- **C112 (cutting at a silence, weights).** The weights are drawn from the same distribution whether or not the recording is cut. -/
theorem C112_cut_weights_partial {K : ℕ} {d : ℝ} (h : Joined D1 D2 J) (hz : JoinedParents D1 D2 J) (h1 : CTDataOk K d D1) (h2 : CTDataOk K d D2) (hJ : CTDataOk K d J) (a b : List CTData)
    (kappa : ℝ) (V A : Mat ℝ) (i j : ℕ) : ctWeightArgs kappa V A (a ++ J :: b) i j = ctWeightArgs kappa V A (a ++ D1 :: D2 :: b) i j := by
  obtain ⟨-, q, -⟩ := joined_stats h hz h1 h2 hJ
  unfold ctWeightArgs
  simp only [foldl_add_eq, List.map_append, List.map_cons, List.sum_append, List.sum_cons, q, joined_Ns h, Nat.cast_add, add_assoc]

/-- **C112 violated (background rates).** If the recording is the last one in the list, the background rate of process `k` is drawn given the background events and the duration of the whole recording, and after
cutting it given those of the second part only: the shape loses the background events of the first part and the rate its duration. -/
theorem C112_background_violated {K : ℕ} {d : ℝ} (h : Joined D1 D2 J) (hz : JoinedParents D1 D2 J) (h1 : CTDataOk K d D1) (h2 : CTDataOk K d D2) (hJ : CTDataOk K d J) (a : List CTData)
    (alpha beta : ℝ) (k : ℕ) :
    ctBiasArgs alpha beta (a ++ [J]) k = ⟨alpha + (bkgdCount D1 D1.Z k + bkgdCount D2 D2.Z k), 1 / (beta + (D1.T + D2.T))⟩ ∧
    ctBiasArgs alpha beta (a ++ [D1, D2]) k = ⟨alpha + bkgdCount D2 D2.Z k, 1 / (beta + D2.T)⟩ ∧
    (0 < D1.T → 0 < beta + D2.T → ctBiasArgs alpha beta (a ++ [D1, D2]) k ≠ ctBiasArgs alpha beta (a ++ [J]) k) := by
  obtain ⟨q, -⟩ := joined_stats h hz h1 h2 hJ
  have e1 : ctBiasArgs alpha beta (a ++ [J]) k = ⟨alpha + (bkgdCount D1 D1.Z k + bkgdCount D2 D2.Z k), 1 / (beta + (D1.T + D2.T))⟩ := by
    unfold ctBiasArgs
    rw [List.foldl_append]
    simp only [List.foldl_cons, List.foldl_nil]
    rw [q, h1.bkgd, h2.bkgd, h.T]
  have e2 : ctBiasArgs alpha beta (a ++ [D1, D2]) k = ⟨alpha + bkgdCount D2 D2.Z k, 1 / (beta + D2.T)⟩ := by
    unfold ctBiasArgs
    rw [List.foldl_append]
    simp only [List.foldl_cons, List.foldl_nil]
    rw [h2.bkgd]
  refine ⟨e1, e2, fun hT hb he => ?_⟩
  rw [e1, e2] at he
  have := congrArg GammaArgs.scale he
  dsimp only at this
  have h3 : beta + D2.T = beta + (D1.T + D2.T) := by
    have h4 := congrArg (fun x => 1 / x) this
    simpa using h4
  linarith

/-- two groups of observations: the sum of squares around the joint mean exceeds the sums around the group means -/
theorem two_groups (n1 n2 s1 s2 q1 q2 : ℝ) (h1 : 0 ≤ n1) (h2 : 0 ≤ n2) (z1 : n1 = 0 → s1 = 0) (z2 : n2 = 0 → s2 = 0) :
    q1 + q2 - (s1 + s2) ^ 2 / (n1 + n2) = (q1 - s1 ^ 2 / n1) + (q2 - s2 ^ 2 / n2) + n1 * n2 / (n1 + n2) * (s1 / n1 - s2 / n2) ^ 2 := by
  rcases h1.eq_or_lt with e1 | p1
  · subst e1
    rw [z1 rfl]; simp; ring
  · rcases h2.eq_or_lt with e2 | p2
    · subst e2
      rw [z2 rfl]; simp; ring
    · have : n1 + n2 ≠ 0 := by linarith
      field_simp
      ring

theorem sumsq {α : Type*} (s : Finset α) (f : α → ℝ) : ∑ n ∈ s, (f n - (∑ i ∈ s, f i) / s.card) ^ 2 = ∑ n ∈ s, f n ^ 2 - (∑ n ∈ s, f n) ^ 2 / s.card := by
  rcases s.eq_empty_or_nonempty with rfl | hne
  · simp
  · have hc : (s.card : ℝ) ≠ 0 := by have := hne.card_pos; positivity
    simp only [sub_sq, sum_add_distrib, sum_sub_distrib, sum_const, nsmul_eq_mul, ← sum_mul, ← mul_sum]
    field_simp
    ring

/-- **C112 violated (impulse responses).** Cutting leaves shape, mean and count of the normal-gamma draw for the impulse response from `k1` to `k2` alone but lowers its rate parameter by half the sum of squares between the
mean scaled lags `m1`, `m2` of the two parts, `n1 n2 / (n1 + n2) (m1 - m2)²`. -/
theorem C112_impulse_violated {K : ℕ} {d : ℝ} (h : Joined D1 D2 J) (hz : JoinedParents D1 D2 J) (h1 : CTDataOk K d D1) (h2 : CTDataOk K d D2) (hJ : CTDataOk K d J) (a b : List CTData)
    (prior : NigArgs) (k1 k2 : ℕ) :
    let n1 : ℝ := (children D1 D1.Z k1 k2).card
    let n2 : ℝ := (children D2 D2.Z k1 k2).card
    let m1 := (∑ n ∈ children D1 D1.Z k1 k2, childLag D1 d D1.Z n) / n1
    let m2 := (∑ n ∈ children D2 D2.Z k1 k2, childLag D2 d D2.Z n) / n2
    let whole := ctImpulseArgs prior (a ++ J :: b) k1 k2
    let cut := ctImpulseArgs prior (a ++ D1 :: D2 :: b) k1 k2
    cut = { whole with beta := whole.beta - n1 * n2 / (n1 + n2) * (m1 - m2) ^ 2 / 2 } ∧ (0 < n1 → 0 < n2 → m1 ≠ m2 → cut ≠ whole) := by
  intro n1 n2 m1 m2 whole cut
  obtain ⟨-, -, q0, q1⟩ := joined_stats h hz h1 h2 hJ
  have hc : ((children J J.Z k1 k2).card : ℝ) = n1 + n2 := by
    have := joined_children_sum h hz h1 h2 k1 k2 fun _ => 1
    simpa using this
  have q2 : J.imp2 k1 k2 = D1.imp2 k1 k2 + D2.imp2 k1 k2 + n1 * n2 / (n1 + n2) * (m1 - m2) ^ 2 := by
    rw [hJ.imp2, h1.imp2, h2.imp2, sumsq, sumsq, sumsq, joined_children_sum h hz h1 h2, joined_children_sum h hz h1 h2, hc,
      sum_congr rfl fun n hn => by rw [joined_lags1 h hz h1 hn], sum_congr (s₁ := children D2 D2.Z k1 k2) rfl fun n hn => by rw [joined_lags2 h hz h2 hn],
      sum_congr (s₁ := children D1 D1.Z k1 k2) (f := childLag J d J.Z) rfl fun n hn => joined_lags1 h hz h1 hn,
      sum_congr (s₁ := children D2 D2.Z k1 k2) (f := fun n => childLag J d J.Z (D1.N + n)) rfl fun n hn => joined_lags2 h hz h2 hn]
    refine two_groups n1 n2 _ _ _ _ (Nat.cast_nonneg _) (Nat.cast_nonneg _) (fun hn => ?_) (fun hn => ?_)
    · rw [card_eq_zero.1 (Nat.cast_eq_zero.1 hn : (children D1 D1.Z k1 k2).card = 0), sum_empty]
    · rw [card_eq_zero.1 (Nat.cast_eq_zero.1 hn : (children D2 D2.Z k1 k2).card = 0), sum_empty]
  have e : cut = { whole with beta := whole.beta - n1 * n2 / (n1 + n2) * (m1 - m2) ^ 2 / 2 } := by
    simp only [cut, whole, ctImpulseArgs, foldl_add_eq, List.map_append, List.map_cons, List.sum_append, List.sum_cons, q0, q1, q2, NigArgs.mk.injEq]
    refine ⟨?_, ?_, ?_, ?_⟩
    · ring_nf
    · ring_nf
    · ring_nf
    · norm_num; ring_nf
  refine ⟨e, fun p1 p2 hm he => ?_⟩
  have hb := congrArg NigArgs.beta he
  rw [e] at hb
  dsimp only at hb
  have : 0 < n1 * n2 / (n1 + n2) * (m1 - m2) ^ 2 := by
    have := sub_ne_zero.2 hm
    positivity
  linarith

/-! ### a concrete case -/

/-- two pairs of parent and child, lags 1/4 and 1/2 of the window, the second pair starting at time 10 -/
noncomputable def twoPairs : CTData :=
  withStats 1 { N := 4, S := fun n => if n < 2 then (pairData (1/4)).S n else 10 + (pairData (1/2)).S (n - 2), C := fun _ => 0, T := 20, bkgd := fun _ => 0,
                Z := fun n => if n = 1 then 0 else if n = 3 then 2 else -1 }

theorem twoPairs_joined : Joined (pairData (1/4)) (pairData (1/2)) twoPairs := by
  refine ⟨rfl, by norm_num [twoPairs, pairData, withStats], fun n hn => ?_, fun n hn => rfl, fun n hn => ?_, fun n hn => rfl⟩
  · exact if_pos hn
  · have e : (pairData (1/4)).N = 2 := rfl
    have : ¬ (2 + n < 2) := by omega
    simp [twoPairs, withStats, pairData]
    omega

theorem twoPairs_parents : JoinedParents (pairData (1/4)) (pairData (1/2)) twoPairs := by
  refine ⟨fun n hn => ?_, fun n hn h => ?_, fun n hn m hm => ?_⟩
  · have : n < 2 := hn
    interval_cases n <;> simp [twoPairs, withStats, pairData]
  · have : n < 2 := hn
    interval_cases n
    · simp [twoPairs, withStats, pairData]
    · simp [withStats, pairData] at h
  · have : n < 2 := hn
    interval_cases n
    · simp [withStats, pairData] at hm
    · simp [withStats, pairData] at hm
      simp [twoPairs, withStats, pairData, ← hm]

theorem twoPairs_silence : SilenceBetween 1 (pairData (1/4)) (pairData (1/2)) := by
  intro m hm n hn
  have : m < 2 := hm
  have : n < 2 := hn
  interval_cases m <;> interval_cases n <;> norm_num [pairData, withStats]

theorem twoPairs_ok : CTDataOk 1 1 twoPairs := by
  refine ⟨joined_sorted zero_le_one twoPairs_joined twoPairs_silence (pairData_ok _ (by norm_num) (by norm_num)).sorted (pairData_ok _ (by norm_num) (by norm_num)).sorted,
    fun n _ => by simp [twoPairs, withStats], fun n hn => ?_, fun _ => rfl, fun _ _ => rfl, fun _ _ => rfl, fun _ _ => rfl, fun _ _ => rfl⟩
  have : n < 4 := hn
  interval_cases n <;> norm_num [twoPairs, withStats, pairData]

/-- **C112 violated (a concrete case).** Two pairs with lags 1/4 and 1/2, ten windows apart, as one recording or as two: all hypotheses of the cut theorems hold, and both the background rate and the impulse response are drawn
from different distributions. -/
theorem C112_cut_violated_concretely : Joined (pairData (1/4)) (pairData (1/2)) twoPairs ∧ SilenceBetween 1 (pairData (1/4)) (pairData (1/2)) ∧
    JoinedParents (pairData (1/4)) (pairData (1/2)) twoPairs ∧ CTDataOk 1 1 (pairData (1/4)) ∧ CTDataOk 1 1 (pairData (1/2)) ∧ CTDataOk 1 1 twoPairs ∧
    ctBiasArgs 1 1 [pairData (1/4), pairData (1/2)] 0 ≠ ctBiasArgs 1 1 [twoPairs] 0 ∧
    ctImpulseArgs ⟨0, 1, 1, 1⟩ [pairData (1/4), pairData (1/2)] 0 0 ≠ ctImpulseArgs ⟨0, 1, 1, 1⟩ [twoPairs] 0 0 := by
  have h1 : CTDataOk 1 1 (pairData (1/4)) := pairData_ok _ (by norm_num) (by norm_num)
  have h2 : CTDataOk 1 1 (pairData (1/2)) := pairData_ok _ (by norm_num) (by norm_num)
  refine ⟨twoPairs_joined, twoPairs_silence, twoPairs_parents, h1, h2, twoPairs_ok, ?_, ?_⟩
  · exact (C112_background_violated twoPairs_joined twoPairs_parents h1 h2 twoPairs_ok [] 1 1 0).2.2 (by norm_num [pairData, withStats]) (by norm_num [pairData, withStats])
  · refine (C112_impulse_violated twoPairs_joined twoPairs_parents h1 h2 twoPairs_ok [] [] ⟨0, 1, 1, 1⟩ 0 0).2 ?_ ?_ ?_
    · rw [pairData_children]; simp
    · rw [pairData_children]; simp
    · simp only [pairData_children, sum_singleton, card_singleton, Nat.cast_one, div_one]
      simp only [childLag, pairData, withStats]
      norm_num
      have : Real.log (1/4) < Real.log (3/4) := Real.log_lt_log (by norm_num) (by norm_num)
      norm_num at this
      intro h; linarith

end PyHawkes
