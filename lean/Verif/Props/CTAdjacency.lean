import Verif.Props.CTStats
import Verif.Props.Adjacency
import Verif.Props.CTGibbs
/-!
# C67: continuous time, conditionals of edges and weights
-/
set_option linter.unusedSectionVars false

namespace PyHawkes
open Finset MeasureTheory ProbabilityTheory Spec

theorem irScan_A (P : CTParams) (A : Mat ℝ) (D : CTData) (n m : ℕ) (v : Vec ℝ) : irScan { P with A := A } D n m v = irScan P D n m v := by
  induction m generalizing v with
  | zero => rfl
  | succ m ih =>
    unfold irScan
    dsimp only
    split_ifs <;> first | rfl | exact ih _

/-- 0/1 entries -/
def Bin (K : ℕ) (A : Mat ℝ) : Prop := ∀ i < K, ∀ j < K, A i j = 0 ∨ A i j = 1

theorem Bin.set {K : ℕ} {A : Mat ℝ} (h : Bin K A) (a b : ℕ) (x : ℝ) (hx : x = 0 ∨ x = 1) : Bin K (Mat.set A a b x) := by
  intro i hi j hj
  unfold Mat.set
  split_ifs
  · exact hx
  · exact h i hi j hj

/-- the log likelihood of the data given adjacency matrix `A` -/
noncomputable def ctLik (P : CTParams) (dl : List CTData) (A : Mat ℝ) : ℝ := Real.exp (ctLogLik { P with A := A } dl)

theorem ctLLCol_sum (P : CTParams) (dl : List CTData) (k : ℕ) (col : Vec ℝ) :
    ctLLCol P dl k col = (dl.map fun d => -(P.lam0 k * d.T) - ∑ k1 ∈ range P.K, col k1 * P.W k1 k * (d.Ns k1 : ℝ) +
      ∑ n ∈ range d.N, if d.C n = k then Real.log (P.lam0 k + ∑ k1 ∈ range P.K, col k1 * weightedImpulses P d n k1) else 0).sum := by
  have h : ∀ d : CTData, (((List.range d.N).filter fun n => d.C n = k).map fun n =>
      Real.log (P.lam0 k + ∑ k1 ∈ range P.K, col k1 * weightedImpulses P d n k1)).sum
      = ∑ n ∈ range d.N, if d.C n = k then Real.log (P.lam0 k + ∑ k1 ∈ range P.K, col k1 * weightedImpulses P d n k1) else 0 := by
    intro d
    induction d.N with
    | zero => simp
    | succ N ih =>
      rw [List.range_succ, List.filter_append, List.map_append, List.sum_append, ih, sum_range_succ]
      by_cases hc : d.C N = k <;> simp [hc]
  unfold ctLLCol
  simp only [h]
  rw [show (fun (ll : ℝ) (d : CTData) => ll - P.lam0 k * d.T - ∑ k1 ∈ range P.K, col k1 * P.W k1 k * (d.Ns k1 : ℝ) +
      ∑ n ∈ range d.N, if d.C n = k then Real.log (P.lam0 k + ∑ k1 ∈ range P.K, col k1 * weightedImpulses P d n k1) else 0)
    = fun ll d => ll + (-(P.lam0 k * d.T) - ∑ k1 ∈ range P.K, col k1 * P.W k1 k * (d.Ns k1 : ℝ) +
      ∑ n ∈ range d.N, if d.C n = k then Real.log (P.lam0 k + ∑ k1 ∈ range P.K, col k1 * weightedImpulses P d n k1) else 0) from by
    funext ll d; ring]
  rw [foldl_add_eq, zero_add]

theorem ctLogLik_sum (P : CTParams) (dl : List CTData) :
    ctLogLik P dl = (dl.map fun d => -(∑ k ∈ range P.K, integratedRate P d k) + ∑ n ∈ range d.N, Real.log (rateAtEvents P d n)).sum := by
  unfold ctLogLik
  rw [show (fun (ll : ℝ) (d : CTData) => (ll - ∑ k ∈ range P.K, integratedRate P d k) + ∑ n ∈ range d.N, Real.log (rateAtEvents P d n))
    = fun ll d => ll + (-(∑ k ∈ range P.K, integratedRate P d k) + ∑ n ∈ range d.N, Real.log (rateAtEvents P d n)) from by funext ll d; ring]
  rw [foldl_add_eq, zero_add]

/-- the log likelihood is the sum of the column log likelihoods the edge updates use -/
theorem ctLogLik_cols (P : CTParams) (dl : List CTData) (A : Mat ℝ) (hA : Bin P.K A) (hW : ∀ i < P.K, ∀ j < P.K, 0 ≤ P.W i j) (hL : ∀ D ∈ dl, LabelsOk P.K D) :
    ctLogLik { P with A := A } dl = ∑ k ∈ range P.K, ctLLCol P dl k (fun i => A i k) := by
  rw [ctLogLik_sum]
  simp only [ctLLCol_sum]
  rw [← list_sum_finset_sum]
  congr 1
  refine List.map_congr_left fun d hd => ?_
  rw [sum_add_distrib, sum_comm]
  congr 1
  · rw [← sum_neg_distrib]
    refine sum_congr rfl fun k _ => ?_
    unfold integratedRate CTParams.Weff
    ring
  · refine sum_congr rfl fun n hn => ?_
    have hC := hL d hd n (mem_range.1 hn)
    rw [sum_ite_eq, if_pos (mem_range.2 hC)]
    rw [C29_rates_agree { P with A := A } d hA hW (hL d hd) n (mem_range.1 hn)]
    congr 2
    refine sum_congr rfl fun k1 _ => ?_
    congr 1
    unfold weightedImpulses
    rw [irScan_A]

theorem ctBernPost_col (P : CTParams) (dl : List CTData) (A : Mat ℝ) (k1 k2 : ℕ) (hk2 : k2 < P.K) (p : ℝ)
    (hA : Bin P.K A) (hW : ∀ i < P.K, ∀ j < P.K, 0 ≤ P.W i j) (hL : ∀ D ∈ dl, LabelsOk P.K D) :
    bernPost p (ctLik P dl (Mat.set A k1 k2 0)) (ctLik P dl (Mat.set A k1 k2 1))
      = bernPost p (Real.exp (ctLLCol P dl k2 (Vec.set (fun i => A i k2) k1 0))) (Real.exp (ctLLCol P dl k2 (Vec.set (fun i => A i k2) k1 1))) := by
  have key : ∀ x, (x = 0 ∨ x = 1) → ctLik P dl (Mat.set A k1 k2 x)
      = Real.exp (∑ k ∈ (range P.K).erase k2, ctLLCol P dl k (fun i => A i k)) * Real.exp (ctLLCol P dl k2 (Vec.set (fun i => A i k2) k1 x)) := by
    intro x hx
    unfold ctLik
    rw [ctLogLik_cols P dl _ (hA.set k1 k2 x hx) hW hL, ← add_sum_erase _ _ (mem_range.2 hk2), add_comm, Real.exp_add, setcol, if_pos rfl]
    congr 2
    refine sum_congr rfl fun k hk => ?_
    rw [setcol, if_neg (mem_erase.1 hk).1]
  rw [key 0 (Or.inl rfl), key 1 (Or.inr rfl), bernPost_scale _ _ _ _ (Real.exp_pos _).ne']

theorem ctSerialSite_col (P : CTParams) (p u : Mat ℝ) (dl : List CTData) (k1 k2 : ℕ) (A : Mat ℝ) (hp : 0 ≤ p k1 k2 ∧ p k1 k2 ≤ 1) (hu : 0 ≤ u k1 k2 ∧ u k1 k2 < 1) :
    ctSerialSite P p u dl k1 k2 A = Mat.set A k1 k2 (if u k1 k2 < bernPost (p k1 k2) (Real.exp (ctLLCol P dl k2 (Vec.set (fun i => A i k2) k1 0)))
      (Real.exp (ctLLCol P dl k2 (Vec.set (fun i => A i k2) k1 1))) then 1 else 0) := by
  unfold ctSerialSite
  dsimp only
  split_ifs with h0 h1 h2 h3 h4
  · exfalso
    rw [h0, bernPost, zero_mul, zero_div] at h1
    linarith
  · rfl
  · rfl
  · exfalso
    rw [h2, bernPost, sub_self, zero_mul, add_zero, one_mul, div_self (Real.exp_pos _).ne'] at h3
    exact h3 hu.2
  · simp only [Mat.set_set, setcol, if_true, edgeDraw_eq _ _ _ _ hp.1 hp.2 hu.1 hu.2, if_pos h4]
  · simp only [Mat.set_set, setcol, if_true, edgeDraw_eq _ _ _ _ hp.1 hp.2 hu.1 hu.2, if_neg h4]

theorem forRange_congr_inv {σ : Type*} (I : σ → Prop) (n : ℕ) (f g : ℕ → σ → σ) (s : σ) (hs : I s) (hI : ∀ i < n, ∀ s, I s → I (f i s))
    (h : ∀ i < n, ∀ s, I s → f i s = g i s) : forRange n f s = forRange n g s ∧ I (forRange n f s) := by
  induction n with
  | zero => exact ⟨rfl, hs⟩
  | succ n ih =>
    obtain ⟨h1, h2⟩ := ih (fun i hi => hI i (Nat.lt_succ_of_lt hi)) fun i hi => h i (Nat.lt_succ_of_lt hi)
    rw [forRange_succ, forRange_succ, ← h1]
    exact ⟨h n (Nat.lt_succ_self n) _ h2, hI n (Nat.lt_succ_self n) _ h2⟩

theorem ctSerialSite_bin (P : CTParams) (p u : Mat ℝ) (dl : List CTData) (k1 k2 : ℕ) (A : Mat ℝ) (hp : 0 ≤ p k1 k2 ∧ p k1 k2 ≤ 1) (hu : 0 ≤ u k1 k2 ∧ u k1 k2 < 1)
    (hA : Bin P.K A) : Bin P.K (ctSerialSite P p u dl k1 k2 A) := by
  rw [ctSerialSite_col P p u dl k1 k2 A hp hu]
  exact hA.set _ _ _ (by split_ifs <;> simp)

/-- **C67 (edges).** For prior edge probabilities in [0,1], uniform draws in [0,1), nonnegative weights and a 0/1 matrix, resampling the adjacency matrix of a continuous-time model is a systematic
Gibbs sweep: each entry in turn is set to 1 exactly when its draw is below the conditional probability of the edge under the prior and the likelihood (`log_likelihood`) of all data sets. -/
theorem C67_sweep_is_gibbs (P : CTParams) (p u : Mat ℝ) (dl : List CTData) (A : Mat ℝ) (hA : Bin P.K A) (hW : ∀ i < P.K, ∀ j < P.K, 0 ≤ P.W i j)
    (hL : ∀ D ∈ dl, LabelsOk P.K D) (hp : ∀ i < P.K, ∀ j < P.K, 0 ≤ p i j ∧ p i j ≤ 1) (hu : ∀ i < P.K, ∀ j < P.K, 0 ≤ u i j ∧ u i j < 1) :
    ctSerialSweep P p u dl A = gibbsSweep P.K p u (ctLik P dl) A ∧ Bin P.K (ctSerialSweep P p u dl A) := by
  have hin : ∀ k1 < P.K, ∀ A, Bin P.K A → forRange P.K (fun k2 A => ctSerialSite P p u dl k1 k2 A) A
      = forRange P.K (fun k2 A => gibbsEdge (p k1 k2) (u k1 k2) (ctLik P dl) k1 k2 A) A ∧ Bin P.K (forRange P.K (fun k2 A => ctSerialSite P p u dl k1 k2 A) A) := by
    intro k1 h1 A hA
    refine forRange_congr_inv (Bin P.K) _ _ _ _ hA (fun k2 h2 A hA => ctSerialSite_bin P p u dl k1 k2 A (hp k1 h1 k2 h2) (hu k1 h1 k2 h2) hA) fun k2 h2 A hA => ?_
    rw [ctSerialSite_col P p u dl k1 k2 A (hp k1 h1 k2 h2) (hu k1 h1 k2 h2), ← ctBernPost_col P dl A k1 k2 h2 _ hA hW hL]
    rfl
  exact forRange_congr_inv (Bin P.K) _ _ _ _ hA (fun k1 h1 A hA => (hin k1 h1 A hA).2) fun k1 h1 A hA => (hin k1 h1 A hA).1

/-- **C67 (probability of an edge).** The uniform draws that set an entry to 1 have total probability equal to the conditional probability of the edge. -/
theorem C67_edge_probability (P : CTParams) (p u : Mat ℝ) (dl : List CTData) (A : Mat ℝ) (k1 k2 : ℕ) (hk2 : k2 < P.K) (hA : Bin P.K A)
    (hW : ∀ i < P.K, ∀ j < P.K, 0 ≤ P.W i j) (hL : ∀ D ∈ dl, LabelsOk P.K D) (hp : 0 ≤ p k1 k2 ∧ p k1 k2 ≤ 1) :
    volume {x : ℝ | 0 ≤ x ∧ x < 1 ∧ ctSerialSite P p (Mat.set u k1 k2 x) dl k1 k2 A k1 k2 = 1}
      = ENNReal.ofReal (bernPost (p k1 k2) (ctLik P dl (Mat.set A k1 k2 0)) (ctLik P dl (Mat.set A k1 k2 1))) := by
  rw [← volume_uniform (bernPost (p k1 k2) (ctLik P dl (Mat.set A k1 k2 0)) (ctLik P dl (Mat.set A k1 k2 1)))
    (bernPost_mem hp.1 hp.2 (Real.exp_pos _) (Real.exp_pos _)).2]
  congr 1
  ext x
  simp only [Set.mem_ofPred_eq]
  refine and_congr_right fun h0 => and_congr_right fun h1 => ?_
  rw [ctSerialSite_col P p (Mat.set u k1 k2 x) dl k1 k2 A hp (by simpa [Mat.set] using ⟨h0, h1⟩), ← ctBernPost_col P dl A k1 k2 hk2 _ hA hW hL]
  simp only [Mat.set, and_self, if_true]
  split_ifs with h <;> simp [h]

theorem ct_serial_columns (P : CTParams) (p u : Mat ℝ) (dl : List CTData) (A : Mat ℝ)
    (hp : ∀ i < P.K, ∀ j < P.K, 0 ≤ p i j ∧ p i j ≤ 1) (hu : ∀ i < P.K, ∀ j < P.K, 0 ≤ u i j ∧ u i j < 1) (j : ℕ) (hj : j < P.K) :
    (fun i => ctSerialSweep P p u dl A i j) = ctResampleColumn P p u dl A j := by
  unfold ctResampleColumn
  have hsite : ∀ k1 < P.K, ∀ k2 < P.K, ∀ A : Mat ℝ, (fun i => ctSerialSite P p u dl k1 k2 A i j)
      = if j = k2 then colSite (ctLLCol P dl j) (fun k1 => p k1 j) (fun k1 => u k1 j) k1 (fun i => A i j) else fun i => A i j := by
    intro k1 h1 k2 h2 A
    rw [ctSerialSite_col P p u dl k1 k2 A (hp k1 h1 k2 h2) (hu k1 h1 k2 h2), setcol]
    by_cases h : j = k2
    · subst h
      rw [if_pos rfl, if_pos rfl, colSite_eq (ctLLCol P dl j) (fun k1 => p k1 j) (fun k1 => u k1 j) k1 _ (hp k1 h1 _ h2) (hu k1 h1 _ h2)]
    · rw [if_neg h, if_neg h]
  have hinner : ∀ k1 < P.K, ∀ n ≤ P.K, ∀ A : Mat ℝ,
      (fun i => forRange n (fun k2 A => ctSerialSite P p u dl k1 k2 A) A i j)
        = if j < n then colSite (ctLLCol P dl j) (fun k1 => p k1 j) (fun k1 => u k1 j) k1 (fun i => A i j) else fun i => A i j := by
    intro k1 h1 n hn A
    induction n with
    | zero => simp
    | succ n ih =>
      simp only [forRange_succ]
      rw [hsite k1 h1 n hn, ih (by omega)]
      by_cases h : j = n
      · subst h; simp
      · have : (j < n + 1) = (j < n) := by rw [eq_iff_iff]; omega
        simp [h, this]
  unfold ctSerialSweep
  have houter : ∀ n ≤ P.K,
      (fun i => forRange n (fun k1 A => forRange P.K (fun k2 A => ctSerialSite P p u dl k1 k2 A) A) A i j)
        = forRange n (colSite (ctLLCol P dl j) (fun k1 => p k1 j) (fun k1 => u k1 j)) (fun i => A i j) := by
    intro n hn
    induction n with
    | zero => rfl
    | succ n ih => rw [forRange_succ, forRange_succ, hinner n hn P.K le_rfl, if_pos hj, ih (by omega)]
  exact houter P.K le_rfl

/-- **C67 (parallel).** For every completion order of the workers the parallel sweep gives the matrix of the serial loop fed the same draws, for any number of data sets including none. -/
theorem C67_parallel_eq_serial (P : CTParams) (p u : Mat ℝ) (dl : List CTData) (A : Mat ℝ) (order : List ℕ) (horder : order.Perm (List.range P.K))
    (hp : ∀ i < P.K, ∀ j < P.K, 0 ≤ p i j ∧ p i j ≤ 1) (hu : ∀ i < P.K, ∀ j < P.K, 0 ≤ u i j ∧ u i j < 1) :
    ∀ i < P.K, ∀ j < P.K, ctParallelSweep P p u dl order A i j = ctSerialSweep P p u dl A i j := by
  intro i hi j hj
  have hser := congrFun (ct_serial_columns P p u dl A hp hu j hj) i
  rw [hser]
  unfold ctParallelSweep
  split_ifs with h h2
  · have : dl = [] := List.length_eq_zero_iff.1 h
    subst this
    obtain hx := forRange_induct (fun n (c : Vec ℝ) => ∀ i < n, c i = if u i j < p i j then 1 else 0) P.K
      (colSite (ctLLCol P [] j) (fun k1 => p k1 j) (fun k1 => u k1 j)) (fun k1 => A k1 j) (by simp) (by
        intro k hk c hc i hi
        rw [colSite_eq (ctLLCol P [] j) (fun k1 => p k1 j) (fun k1 => u k1 j) k c (hp k hk j hj) (hu k hk j hj)]
        have hb : bernPost (p k j) (Real.exp 0) (Real.exp 0) = p k j := by simp [bernPost]
        have hz : ∀ c, ctLLCol P [] j c = 0 := fun _ => rfl
        rw [hz, hz, hb]
        unfold Vec.set
        by_cases h : i = k
        · subst h; rw [if_pos rfl]
        · rw [if_neg h]; exact hc i (by omega))
    unfold ctResampleColumn
    rw [hx i hi]
  · dsimp only
    rw [slots_eq, if_pos (horder.mem_iff.2 (List.mem_range.2 hj))]

/-- **C67 (certain edges).** After a sweep every entry is 0 or 1; entries of prior probability 0 are absent and entries of prior probability 1 present, whatever the data. -/
theorem C67_certain_edges (P : CTParams) (p u : Mat ℝ) (dl : List CTData) (A : Mat ℝ)
    (hp : ∀ i < P.K, ∀ j < P.K, 0 ≤ p i j ∧ p i j ≤ 1) (hu : ∀ i < P.K, ∀ j < P.K, 0 ≤ u i j ∧ u i j < 1) :
    ∀ i < P.K, ∀ j < P.K, (ctSerialSweep P p u dl A i j = 0 ∨ ctSerialSweep P p u dl A i j = 1) ∧
      (p i j = 0 → ctSerialSweep P p u dl A i j = 0) ∧ (p i j = 1 → ctSerialSweep P p u dl A i j = 1) := by
  intro i hi j hj
  have hser := congrFun (ct_serial_columns P p u dl A hp hu j hj) i
  obtain ⟨l0, l1, h0, h1, h⟩ := column_entry (ctLLCol P dl j)
    (fun k1 => p k1 j) (fun k1 => u k1 j) P.K (fun k1 => A k1 j) (fun i hi => hp i hi j hj) (fun i hi => hu i hi j hj) i hi
  have hval : ctSerialSweep P p u dl A i j = if u i j < bernPost (p i j) l0 l1 then 1 else 0 := hser.trans h
  rw [hval]
  refine ⟨by split_ifs <;> simp, fun hp0 => ?_, fun hp1 => ?_⟩
  · rw [hp0, bernPost, zero_mul, zero_div, if_neg (not_lt.2 (hu i hi j hj).1)]
  · rw [hp1, bernPost, sub_self, zero_mul, add_zero, one_mul, div_self h1.ne', if_pos (hu i hi j hj).2]

/-! ### weights -/

theorem CTData.Ns_eq_card (D : CTData) (k : ℕ) : D.Ns k = ((range D.N).filter fun n => D.C n = k).card := by
  unfold CTData.Ns
  rw [Finset.card_def]
  simp
  rfl

/-- a child of process `k1` needs an event of `k1` -/
theorem children_zero (K : ℕ) (dtMax : ℝ) (D : CTData) (hD : CTDataOk K dtMax D) (k1 k2 : ℕ) (h : D.Ns k1 = 0) : (children D D.Z k1 k2).card = 0 := by
  rw [CTData.Ns_eq_card] at h
  rw [card_eq_zero] at h ⊢
  unfold children
  rw [filter_eq_empty_iff] at h ⊢
  rintro n hn ⟨h0, h1, h2⟩
  have hp := hD.parents n (mem_range.1 hn)
  refine h (x := (D.Z n).toNat) (mem_range.2 ?_) h1
  have := mem_range.1 hn
  omega

/-- **C68.** Given adjacency and parents such that absent edges have no children (as the parent update guarantees, see `C68_absent_edges_childless`), the weight of each edge is drawn from the
Bayes posterior of a gamma prior when the children of each data set are Poisson with mean weight times adjacency times number of parent events; an absent edge's weight is drawn from the prior. -/
theorem C68_weight_conditional (K : ℕ) (dtMax kappa : ℝ) (V A : Mat ℝ) (dl : List CTData) (k1 k2 : ℕ) (hk : 0 < kappa) (hv : 0 < V k1 k2)
    (hA : A k1 k2 = 0 ∨ A k1 k2 = 1) (hD : ∀ D ∈ dl, CTDataOk K dtMax D) (h0 : A k1 k2 = 0 → ∀ D ∈ dl, (children D D.Z k1 k2).card = 0) :
    0 < (ctWeightArgs kappa V A dl k1 k2).shape ∧ 0 < (ctWeightArgs kappa V A dl k1 k2).scale ∧
    IsPosterior (npGammaPdf (ctWeightArgs kappa V A dl k1 k2).shape (ctWeightArgs kappa V A dl k1 k2).scale) (gammaPDFReal kappa (V k1 k2))
      (fun w => (dl.map fun D => poissonPmf (w * (A k1 k2 * ((range D.N).filter fun n => D.C n = k1).card)) (children D D.Z k1 k2).card).prod) ∧
    (A k1 k2 = 0 → ctWeightArgs kappa V A dl k1 k2 = ⟨kappa, 1 / V k1 k2⟩) := by
  have hA0 : 0 ≤ A k1 k2 := by rcases hA with h | h <;> rw [h]; norm_num
  have hZ : dl.foldl (fun acc d => acc + d.weight k1 k2) 0 = (dl.map fun D => ((children D D.Z k1 k2).card : ℝ)).sum := by
    rw [foldl_add_eq, zero_add]
    congr 1
    exact List.map_congr_left fun D hD' => (hD D hD').weight k1 k2
  have hN : dl.foldl (fun acc d => acc + (d.Ns k1 : ℝ)) 0 = (dl.map fun D => (D.Ns k1 : ℝ)).sum := by
    rw [foldl_add_eq, zero_add]
  have hZ0 : 0 ≤ (dl.map fun D => ((children D D.Z k1 k2).card : ℝ)).sum := List.sum_nonneg (by intro x hx; obtain ⟨D, -, rfl⟩ := List.mem_map.1 hx; positivity)
  have hN0 : 0 ≤ (dl.map fun D => (D.Ns k1 : ℝ)).sum := List.sum_nonneg (by intro x hx; obtain ⟨D, -, rfl⟩ := List.mem_map.1 hx; positivity)
  have hpos : 0 < V k1 k2 + (dl.map fun D => (D.Ns k1 : ℝ)).sum * A k1 k2 := by
    have := mul_nonneg hN0 hA0
    linarith
  have hargs : ctWeightArgs kappa V A dl k1 k2 = ⟨kappa + (dl.map fun D => ((children D D.Z k1 k2).card : ℝ)).sum, 1 / (V k1 k2 + (dl.map fun D => (D.Ns k1 : ℝ)).sum * A k1 k2)⟩ := by
    unfold ctWeightArgs
    dsimp only
    rw [hZ, hN]
  rw [hargs]
  refine ⟨by dsimp only; linarith, by dsimp only; positivity, ?_, fun h => ?_⟩
  · have := gamma_poisson hk hv (dl.map fun D => ((children D D.Z k1 k2).card, A k1 k2 * (D.Ns k1 : ℝ))) (by
      intro q hq; obtain ⟨D, -, rfl⟩ := List.mem_map.1 hq; exact mul_nonneg hA0 (Nat.cast_nonneg _)) (by
      intro q hq hq0
      obtain ⟨D, hD', rfl⟩ := List.mem_map.1 hq
      rcases mul_eq_zero.1 hq0 with h | h
      · exact h0 h D hD'
      · exact children_zero K dtMax D (hD D hD') k1 k2 (by exact_mod_cast h))
    simp only [List.map_map, Function.comp_def] at this
    unfold npGammaPdf
    dsimp only
    rw [one_div_one_div, mul_comm ((dl.map fun D => (D.Ns k1 : ℝ)).sum), ← List.sum_map_mul_left]
    simpa only [CTData.Ns_eq_card] using this
  · rw [h, mul_zero, add_zero]
    congr 1
    rw [List.sum_eq_zero, add_zero]
    intro x hx
    obtain ⟨D, hD', rfl⟩ := List.mem_map.1 hx
    rw [h0 h D hD', Nat.cast_zero]

/-- **C68 (absent edges have no children).** After resampling the parents under adjacency `A`, no event has a parent along an absent edge. -/
theorem C68_absent_edges_childless (P : CTParams) (D D' : CTData) (hP : CTOk P) (hL : LabelsOk P.K D) (hS : SortedTimes D) (u : Vec ℝ) (hu : ∀ n < D.N, 0 ≤ u n ∧ u n < 1)
    (sched : List ℕ) (hs : CompleteSchedule D.N sched) (h : ctResample P u sched D = .ok D') (k1 k2 : ℕ) (hA : P.A k1 k2 = 0) :
    (children D' D'.Z k1 k2).card = 0 := by
  obtain ⟨D'', h1, h2, h3, h4, h5, h6, h7⟩ := C26_resample_succeeds P D hP hL hS u hu sched hs
  rw [h] at h1
  cases h1
  rw [card_eq_zero]
  unfold children
  rw [filter_eq_empty_iff]
  rintro n hn ⟨hz, hc1, hc2⟩
  have hn' := mem_range.1 hn
  rw [h2] at hn'
  rcases h6 n hn' with e | ⟨m, e, hm, -, -, hpos⟩
  · omega
  · rw [e] at hc1
    rw [h4] at hc1 hc2
    simp only [Int.toNat_natCast] at hc1
    rw [hc1, hc2, hA, zero_mul] at hpos
    exact lt_irrefl _ hpos

/-- non-vacuity: the demo events with a 0/1 matrix meet the hypotheses -/
example : Bin demoParams.K (fun _ _ => 1) ∧ (∀ i < demoParams.K, ∀ j < demoParams.K, 0 ≤ demoParams.W i j) ∧ (∀ D ∈ [demoEvents, demoEvents], LabelsOk demoParams.K D) ∧
    CTDataOk demoParams.K demoParams.dtMax (pairData (1/4)) := by
  refine ⟨fun _ _ _ _ => Or.inr rfl, fun _ _ _ _ => by norm_num [demoParams], ?_, C33_violated.1 _ (by simp)⟩
  intro D hD n _
  have : D = demoEvents := by simpa using hD
  subst this
  norm_num [demoParams, demoEvents]

end PyHawkes
