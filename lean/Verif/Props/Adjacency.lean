import Verif.Props.Gibbs
import Verif.Spec.Edges

/-!
# C19, C20: resampling the adjacency matrix
-/
set_option linter.unusedSectionVars false

namespace PyHawkes
open Finset MeasureTheory

theorem forRange_congr {σ : Type*} (n : ℕ) (f g : ℕ → σ → σ) (s : σ) (h : ∀ i < n, ∀ s, f i s = g i s) :
    forRange n f s = forRange n g s := by
  induction n with
  | zero => rfl
  | succ n ih =>
    rw [forRange_succ, forRange_succ, ih fun i hi => h i (Nat.lt_succ_of_lt hi), h n (Nat.lt_succ_self n)]

theorem Mat.set_set (A : Mat ℝ) (i j : ℕ) (x y : ℝ) : Mat.set (Mat.set A i j x) i j y = Mat.set A i j y := by
  funext a b; unfold Mat.set; split_ifs <;> rfl

theorem Vec.set_set (v : Vec ℝ) (i : ℕ) (x y : ℝ) : Vec.set (Vec.set v i x) i y = Vec.set v i y := by
  funext a; unfold Vec.set; split_ifs <;> rfl

/-- log likelihood of column `k2` over all data sets, as a function of the adjacency column -/
noncomputable def colLL (P : NetParams ℝ) (W : Mat ℝ) (dl : List (DParents ℝ)) (k2 : ℕ) (Acol : Vec ℝ) : ℝ :=
  (dl.map fun d => llSinglePar P d k2 (fun k1 => Acol k1 * W k1 k2)).sum

theorem colLL_eq (P : NetParams ℝ) (W : Mat ℝ) (dl : List (DParents ℝ)) (k2 : ℕ) (A : Mat ℝ) :
    (dl.map fun d => llSingle (withA P W A) d k2).sum = colLL P W dl k2 (fun k1 => A k1 k2) := rfl

theorem bernPost_scale (p l0 l1 c : ℝ) (hc : c ≠ 0) : Spec.bernPost p (c * l0) (c * l1) = Spec.bernPost p l0 l1 := by
  unfold Spec.bernPost
  rw [show p * (c * l1) = c * (p * l1) by ring, show (1 - p) * (c * l0) = c * ((1 - p) * l0) by ring, ← mul_add, mul_div_mul_left _ _ hc]

/-- the model's log likelihood is the sum of the column log likelihoods -/
theorem llModel_cols (P : NetParams ℝ) (W A : Mat ℝ) (dl : List (DParents ℝ)) :
    llModel (withA P W A) dl = ∑ k ∈ range P.K, colLL P W dl k (fun k1 => A k1 k) := by
  rw [C08_model_sum]
  have : ∀ d, llData (withA P W A) d = ∑ k ∈ range P.K, llSingle (withA P W A) d k := by
    intro d; unfold llData; rw [forRange_add, zero_add]; rfl
  rw [show (llData (withA P W A)) = fun d => ∑ k ∈ range P.K, llSingle (withA P W A) d k from funext this, list_sum_finset_sum]
  rfl

/-- full data likelihood of an adjacency matrix, given everything else -/
noncomputable def dataLik (P : NetParams ℝ) (W : Mat ℝ) (dl : List (DParents ℝ)) (A : Mat ℝ) : ℝ :=
  Real.exp (llModel (withA P W A) dl)

theorem setcol (A : Mat ℝ) (i j k : ℕ) (x : ℝ) :
    (fun k1 => Mat.set A i j x k1 k) = if k = j then Vec.set (fun k1 => A k1 j) i x else fun k1 => A k1 k := by
  funext k1
  unfold Mat.set Vec.set
  by_cases h : k = j
  · subst h; simp
  · simp [h]

/-- the conditional of an entry computed from its column alone is the one computed from the whole likelihood -/
theorem bernPost_col (P : NetParams ℝ) (W : Mat ℝ) (dl : List (DParents ℝ)) (A : Mat ℝ) (k1 k2 : ℕ) (hk2 : k2 < P.K) (p : ℝ) :
    Spec.bernPost p (dataLik P W dl (Mat.set A k1 k2 0)) (dataLik P W dl (Mat.set A k1 k2 1))
      = Spec.bernPost p (Real.exp (colLL P W dl k2 (Vec.set (fun i => A i k2) k1 0)))
          (Real.exp (colLL P W dl k2 (Vec.set (fun i => A i k2) k1 1))) := by
  have key : ∀ x, dataLik P W dl (Mat.set A k1 k2 x)
      = Real.exp (∑ k ∈ (range P.K).erase k2, colLL P W dl k (fun i => A i k))
        * Real.exp (colLL P W dl k2 (Vec.set (fun i => A i k2) k1 x)) := by
    intro x
    unfold dataLik
    rw [llModel_cols, ← add_sum_erase _ _ (mem_range.2 hk2), add_comm, Real.exp_add, setcol, if_pos rfl]
    congr 2
    refine sum_congr rfl fun k hk => ?_
    rw [setcol, if_neg (mem_erase.1 hk).1]
  rw [key, key, bernPost_scale _ _ _ _ (Real.exp_pos _).ne']

theorem serialSite_eq (P : NetParams ℝ) (W p u : Mat ℝ) (dl : List (DParents ℝ)) (k1 k2 : ℕ) (A : Mat ℝ) (hk2 : k2 < P.K)
    (hp : 0 ≤ p k1 k2 ∧ p k1 k2 ≤ 1) (hu : 0 ≤ u k1 k2 ∧ u k1 k2 < 1) :
    serialSite P W p u dl k1 k2 A = Spec.gibbsEdge (p k1 k2) (u k1 k2) (dataLik P W dl) k1 k2 A := by
  unfold serialSite Spec.gibbsEdge
  dsimp only
  rw [edgeDraw_eq _ _ _ _ hp.1 hp.2 hu.1 hu.2, Mat.set_set, Mat.set_set, bernPost_col P W dl A k1 k2 hk2, foldl_add_eq, foldl_add_eq,
    zero_add, zero_add, colLL_eq, colLL_eq]
  simp only [Mat.set_set, setcol, if_true]

/-- **C19 (exact conditional).** For prior edge probabilities in [0,1] and uniform draws in [0,1), resampling the adjacency matrix is a systematic
Gibbs sweep: each entry in turn is set to 1 exactly when its uniform draw is below
`p·L(A with edge) / (p·L(A with edge) + (1-p)·L(A without edge))`, where `L` is the likelihood of all data sets given the weights. -/
theorem C19_sweep_is_gibbs (P : NetParams ℝ) (W p u : Mat ℝ) (dl : List (DParents ℝ)) (A : Mat ℝ)
    (hp : ∀ i < P.K, ∀ j < P.K, 0 ≤ p i j ∧ p i j ≤ 1) (hu : ∀ i < P.K, ∀ j < P.K, 0 ≤ u i j ∧ u i j < 1) :
    serialSweep P W p u dl A = Spec.gibbsSweep P.K p u (dataLik P W dl) A :=
  forRange_congr _ _ _ _ fun k1 h1 _ => forRange_congr _ _ _ _ fun k2 h2 A =>
    serialSite_eq P W p u dl k1 k2 A h2 (hp k1 h1 k2 h2) (hu k1 h1 k2 h2)

/-- **C19 (probability).** The uniform draws that set the entry to 1 form a set whose probability is the conditional probability of the edge. -/
theorem C19_edge_probability (P : NetParams ℝ) (W p u : Mat ℝ) (dl : List (DParents ℝ)) (A : Mat ℝ) (k1 k2 : ℕ) (hk2 : k2 < P.K)
    (hp : 0 ≤ p k1 k2 ∧ p k1 k2 ≤ 1) :
    volume {x : ℝ | 0 ≤ x ∧ x < 1 ∧ serialSite P W p (Mat.set u k1 k2 x) dl k1 k2 A k1 k2 = 1}
      = ENNReal.ofReal (Spec.bernPost (p k1 k2) (dataLik P W dl (Mat.set A k1 k2 0)) (dataLik P W dl (Mat.set A k1 k2 1))) := by
  rw [← volume_uniform (Spec.bernPost (p k1 k2) (dataLik P W dl (Mat.set A k1 k2 0)) (dataLik P W dl (Mat.set A k1 k2 1)))
    (bernPost_mem hp.1 hp.2 (Real.exp_pos _) (Real.exp_pos _)).2]
  congr 1
  ext x
  simp only [Set.mem_ofPred_eq]
  refine and_congr_right fun h0 => and_congr_right fun h1 => ?_
  rw [serialSite_eq P W p (Mat.set u k1 k2 x) dl k1 k2 A hk2 hp (by simpa [Mat.set] using ⟨h0, h1⟩)]
  simp only [Spec.gibbsEdge, Mat.set, and_self, if_true]
  split_ifs with h <;> simp [h]

/-! ### columns -/

theorem colSite_eq (ll : Vec ℝ → ℝ) (p u : Vec ℝ) (k1 : ℕ) (col : Vec ℝ) (hp : 0 ≤ p k1 ∧ p k1 ≤ 1) (hu : 0 ≤ u k1 ∧ u k1 < 1) :
    colSite ll p u k1 col = Vec.set col k1 (if u k1 < Spec.bernPost (p k1) (Real.exp (ll (Vec.set col k1 0)))
      (Real.exp (ll (Vec.set col k1 1))) then 1 else 0) := by
  unfold colSite
  dsimp only
  split_ifs with h0 h1 h2 h3 h4
  · exfalso
    rw [h0, Spec.bernPost, zero_mul, zero_div] at h1
    linarith
  · rfl
  · rfl
  · exfalso
    rw [h2, Spec.bernPost, sub_self, zero_mul, add_zero, one_mul, div_self (Real.exp_pos _).ne'] at h3
    exact h3 hu.2
  · simp only [Vec.set_set, edgeDraw_eq _ _ _ _ hp.1 hp.2 hu.1 hu.2, if_pos h4]
  · simp only [Vec.set_set, edgeDraw_eq _ _ _ _ hp.1 hp.2 hu.1 hu.2, if_neg h4]

/-- the serial double loop acts on each column as that column's worker does -/
theorem serial_columns (P : NetParams ℝ) (W p u : Mat ℝ) (dl : List (DParents ℝ)) (A : Mat ℝ)
    (hp : ∀ i < P.K, ∀ j < P.K, 0 ≤ p i j ∧ p i j ≤ 1) (hu : ∀ i < P.K, ∀ j < P.K, 0 ≤ u i j ∧ u i j < 1) (j : ℕ) (hj : j < P.K) :
    (fun i => serialSweep P W p u dl A i j) = resampleColumn P W p u dl A j := by
  have hll : (fun Acol : Vec ℝ => dl.foldl (fun acc d => acc + llSinglePar P d j (fun k1 => Acol k1 * W k1 j)) 0) = colLL P W dl j := by
    funext Acol; rw [foldl_add_eq, zero_add]; rfl
  unfold resampleColumn
  simp only [hll]
  have hsite : ∀ k1 < P.K, ∀ k2 < P.K, ∀ A : Mat ℝ, (fun i => serialSite P W p u dl k1 k2 A i j)
      = if j = k2 then colSite (colLL P W dl j) (fun k1 => p k1 j) (fun k1 => u k1 j) k1 (fun i => A i j) else fun i => A i j := by
    intro k1 h1 k2 h2 A
    rw [serialSite_eq P W p u dl k1 k2 A h2 (hp k1 h1 k2 h2) (hu k1 h1 k2 h2)]
    unfold Spec.gibbsEdge
    rw [setcol]
    by_cases h : j = k2
    · subst h
      rw [if_pos rfl, if_pos rfl, colSite_eq (colLL P W dl j) (fun k1 => p k1 j) (fun k1 => u k1 j) k1 _ (hp k1 h1 _ h2) (hu k1 h1 _ h2),
        bernPost_col P W dl A k1 _ h2]
    · rw [if_neg h, if_neg h]
  have hinner : ∀ k1 < P.K, ∀ n ≤ P.K, ∀ A : Mat ℝ,
      (fun i => forRange n (fun k2 A => serialSite P W p u dl k1 k2 A) A i j)
        = if j < n then colSite (colLL P W dl j) (fun k1 => p k1 j) (fun k1 => u k1 j) k1 (fun i => A i j) else fun i => A i j := by
    intro k1 h1 n hn A
    induction n with
    | zero => simp
    | succ n ih =>
      simp only [forRange_succ]
      rw [hsite k1 h1 n hn, ih (by omega)]
      by_cases h : j = n
      · subst h; simp
      · have : (j < n + 1) = (j < n) := by rw [eq_iff_iff]; omega
        simp [h, this]
  unfold serialSweep
  have houter : ∀ n ≤ P.K,
      (fun i => forRange n (fun k1 A => forRange P.K (fun k2 A => serialSite P W p u dl k1 k2 A) A) A i j)
        = forRange n (colSite (colLL P W dl j) (fun k1 => p k1 j) (fun k1 => u k1 j)) (fun i => A i j) := by
    intro n hn
    induction n with
    | zero => rfl
    | succ n ih => rw [forRange_succ, forRange_succ, hinner n hn P.K le_rfl, if_pos hj, ih (by omega)]
  exact houter P.K le_rfl

theorem slots_eq (f : ℕ → Vec ℝ) (order : List ℕ) (s : ℕ → Vec ℝ) (j : ℕ) :
    order.foldl (fun s k2 => fun j => if j = k2 then f k2 else s j) s j = if j ∈ order then f j else s j := by
  induction order generalizing s with
  | nil => simp
  | cons k order ih =>
    rw [List.foldl_cons, ih]
    by_cases h : j ∈ order
    · simp [h]
    · by_cases h2 : j = k
      · subst h2; simp [h]
      · simp [h, h2]

/-- with no data every column is resampled from the prior -/
theorem resampleColumn_nil (P : NetParams ℝ) (W p u : Mat ℝ) (A : Mat ℝ) (i j : ℕ) (hi : i < P.K)
    (hp : ∀ i < P.K, 0 ≤ p i j ∧ p i j ≤ 1) (hu : ∀ i < P.K, 0 ≤ u i j ∧ u i j < 1) :
    resampleColumn P W p u [] A j i = if u i j < p i j then 1 else 0 := by
  unfold resampleColumn
  dsimp only [List.foldl_nil]
  have := forRange_induct (fun n (c : Vec ℝ) => ∀ i < n, c i = if u i j < p i j then 1 else 0) P.K
    (colSite (fun _ => 0) (fun k1 => p k1 j) (fun k1 => u k1 j)) (fun k1 => A k1 j) (by simp) (by
      intro k hk c hc i hi
      rw [colSite_eq (fun _ => 0) (fun k1 => p k1 j) (fun k1 => u k1 j) k c (hp k hk) (hu k hk)]
      have hb : Spec.bernPost (p k j) (Real.exp 0) (Real.exp 0) = p k j := by simp [Spec.bernPost]
      rw [hb]
      unfold Vec.set
      by_cases h : i = k
      · subst h; rw [if_pos rfl]
      · rw [if_neg h]; exact hc i (by omega))
  exact this i hi

/-- **C20.** For prior probabilities in [0,1], uniform draws in [0,1) and every completion order of the workers, the parallel sweep gives
the same matrix as the serial double loop fed the same draws — for any number of data sets, including none. -/
theorem C20_parallel_eq_serial (P : NetParams ℝ) (W p u : Mat ℝ) (dl : List (DParents ℝ)) (A : Mat ℝ) (order : List ℕ)
    (horder : order.Perm (List.range P.K))
    (hp : ∀ i < P.K, ∀ j < P.K, 0 ≤ p i j ∧ p i j ≤ 1) (hu : ∀ i < P.K, ∀ j < P.K, 0 ≤ u i j ∧ u i j < 1) :
    ∀ i < P.K, ∀ j < P.K, parallelSweep P W p u dl order A i j = serialSweep P W p u dl A i j := by
  intro i hi j hj
  have hser := congrFun (serial_columns P W p u dl A hp hu j hj) i
  rw [hser]
  unfold parallelSweep
  split_ifs with h
  · have : dl = [] := List.length_eq_zero_iff.1 h
    subst this
    rw [resampleColumn_nil P W p u A i j hi (fun i hi => hp i hi j hj) (fun i hi => hu i hi j hj)]
  · dsimp only
    rw [slots_eq, if_pos (horder.mem_iff.2 (List.mem_range.2 hj))]

/-- every resampled entry is 0 or 1 according to a threshold with some positive likelihoods -/
theorem column_entry (ll : Vec ℝ → ℝ) (p u : Vec ℝ) (K : ℕ) (col : Vec ℝ) (hp : ∀ i < K, 0 ≤ p i ∧ p i ≤ 1)
    (hu : ∀ i < K, 0 ≤ u i ∧ u i < 1) (i : ℕ) (hi : i < K) :
    ∃ l0 l1 : ℝ, 0 < l0 ∧ 0 < l1 ∧ forRange K (colSite ll p u) col i = if u i < Spec.bernPost (p i) l0 l1 then 1 else 0 := by
  have := forRange_induct (fun n (c : Vec ℝ) => ∀ i < n, ∃ l0 l1 : ℝ, 0 < l0 ∧ 0 < l1 ∧ c i = if u i < Spec.bernPost (p i) l0 l1 then 1 else 0)
    K (colSite ll p u) col (by simp) (by
      intro k hk c hc i hi
      rw [colSite_eq _ _ _ _ _ (hp k hk) (hu k hk)]
      unfold Vec.set
      by_cases h : i = k
      · subst h
        exact ⟨_, _, Real.exp_pos _, Real.exp_pos _, by rw [if_pos rfl]⟩
      · rw [if_neg h]; exact hc i (by omega))
  exact this i hi

/-- **C19 (certain edges).** After a sweep every entry is 0 or 1; entries with prior probability 0 are absent and entries with prior
probability 1 are present, whatever the data. (By C20 the same holds for the parallel version.) -/
theorem C19_certain_edges (P : NetParams ℝ) (W p u : Mat ℝ) (dl : List (DParents ℝ)) (A : Mat ℝ)
    (hp : ∀ i < P.K, ∀ j < P.K, 0 ≤ p i j ∧ p i j ≤ 1) (hu : ∀ i < P.K, ∀ j < P.K, 0 ≤ u i j ∧ u i j < 1) :
    ∀ i < P.K, ∀ j < P.K, (serialSweep P W p u dl A i j = 0 ∨ serialSweep P W p u dl A i j = 1) ∧
      (p i j = 0 → serialSweep P W p u dl A i j = 0) ∧ (p i j = 1 → serialSweep P W p u dl A i j = 1) := by
  intro i hi j hj
  have hser := congrFun (serial_columns P W p u dl A hp hu j hj) i
  obtain ⟨l0, l1, h0, h1, h⟩ := column_entry (fun Acol => dl.foldl (fun acc d => acc + llSinglePar P d j (fun k1 => Acol k1 * W k1 j)) 0)
    (fun k1 => p k1 j) (fun k1 => u k1 j) P.K (fun k1 => A k1 j) (fun i hi => hp i hi j hj) (fun i hi => hu i hi j hj) i hi
  have hval : serialSweep P W p u dl A i j = if u i j < Spec.bernPost (p i j) l0 l1 then 1 else 0 := hser.trans h
  rw [hval]
  refine ⟨by split_ifs <;> simp, fun hp0 => ?_, fun hp1 => ?_⟩
  · rw [hp0, Spec.bernPost, zero_mul, zero_div, if_neg (not_lt.2 (hu i hi j hj).1)]
  · rw [hp1, Spec.bernPost, sub_self, zero_mul, add_zero, one_mul, div_self h1.ne', if_pos (hu i hi j hj).2]

/-- non-vacuity: a 2-process network with forbidden self edges, and a non-trivial completion order -/
example : (∀ i < 2, ∀ j < 2, (0:ℝ) ≤ (if i = j then 0 else 1/2 : ℝ) ∧ (if i = j then 0 else 1/2 : ℝ) ≤ 1) ∧ [1, 0].Perm (List.range 2) :=
  ⟨by intro i _ j _; split_ifs <;> norm_num, by decide⟩

end PyHawkes
