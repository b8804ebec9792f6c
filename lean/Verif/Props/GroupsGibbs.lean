import Verif.Props.Groups
import Verif.Props.GibbsBasics
import Verif.Props.Adjacency
set_option linter.unusedSectionVars false
set_option linter.unusedVariables false
/-! # C113, continued: the draws of the Gibbs sweep for a group of processes without connections from outside (discrete time) -/
namespace PyHawkes
open Finset Spec

variable {n : ℕ} {e : ℕ → ℕ} {P : NetParams ℝ}

/-- specification: a row of parents (`0`: background, then `B` columns per process) with the columns of the group only -/
def Spec.groupRow (e : ℕ → ℕ) (B : ℕ) (z : Vec ℕ) : Vec ℕ := fun c => match c with
  | 0 => z 0
  | c + 1 => z (1 + e (c / B) * B + c % B)

/-- specification: the recording of the group alone with the parents of its events -/
def Spec.groupAssigned (e : ℕ → ℕ) (B : ℕ) (D : DParents ℝ) : DParents ℝ :=
  { groupData e D with Z := some fun j => (D.getZ (e j)).map (groupRow e B) }

theorem groupRow_cell {B b : ℕ} (hb : b < B) (i : ℕ) (z : Vec ℕ) : groupRow e B z (1 + i * B + b) = z (1 + e i * B + b) := by
  have hB : 0 < B := by omega
  rw [show 1 + i * B + b = (i * B + b) + 1 by ring]
  show z (1 + e ((i * B + b) / B) * B + (i * B + b) % B) = _
  rw [Nat.mul_comm i B, Nat.mul_add_div hB, Nat.div_eq_of_lt hb, Nat.mul_add_mod, Nat.mod_eq_of_lt hb, add_zero]

theorem groupAssigned_ir {B b : ℕ} (hb : b < B) (D : DParents ℝ) (i j : ℕ) : irSS (groupAssigned e B D) B i j b = irSS D B (e i) (e j) b := by
  unfold irSS
  show (((D.getZ (e j)).map (groupRow e B)).map fun z => z (1 + i * B + b)).sum = _
  rw [List.map_map]
  congr 1
  exact List.map_congr_left fun z _ => groupRow_cell hb i z

theorem groupAssigned_weight0 (B : ℕ) (D : DParents ℝ) (i j : ℕ) : weightSS0 (groupAssigned e B D) B i j = weightSS0 D B (e i) (e j) :=
  sum_congr rfl fun b hb => groupAssigned_ir (mem_range.1 hb) D i j

theorem groupAssigned_bkgd (B : ℕ) (D : DParents ℝ) (j : ℕ) : bkgdSS0 (groupAssigned e B D) j = bkgdSS0 D (e j) := by
  unfold bkgdSS0
  show (((D.getZ (e j)).map (groupRow e B)).map fun z => z 0).sum = _
  rw [List.map_map]
  rfl

theorem ssSum_group (f : DParents ℝ → DParents ℝ) (dl : List (DParents ℝ)) (a b : DParents ℝ → ℝ) (h : ∀ D, a (f D) = b D) : ssSum (dl.map f) a = ssSum dl b := by
  rw [ssSum_eq, ssSum_eq, List.map_map]
  congr 1
  exact List.map_congr_left fun D _ => h D

/-- **C113 (conjugate draws).** Whatever the group, the gamma and Dirichlet distributions from which its background rates, the weights between its processes and their impulse responses are drawn
are those of the group's own model on its own events and parents. -/
theorem C113_conditional_draws (B : ℕ) (alpha beta dt kappa : ℝ) (gamma : Vec ℝ) (V A : Mat ℝ) (dl : List (DParents ℝ)) (i j : ℕ) :
    biasArgs alpha beta dt (dl.map (groupAssigned e B)) j = biasArgs alpha beta dt dl (e j) ∧
    weightArgs B kappa (fun i j => V (e i) (e j)) (fun i j => A (e i) (e j)) (dl.map (groupAssigned e B)) i j = weightArgs B kappa V A dl (e i) (e j) ∧
    ∀ b < B, impulseArgs B gamma (dl.map (groupAssigned e B)) i j b = impulseArgs B gamma dl (e i) (e j) b := by
  refine ⟨?_, ?_, fun b hb => ?_⟩
  · unfold biasArgs
    rw [ssSum_group (groupAssigned e B) dl _ (fun d => (bkgdSS0 d (e j) : ℝ)) fun D => by rw [groupAssigned_bkgd],
      ssSum_group (groupAssigned e B) dl _ (fun d => bkgdSS1 d dt (e j)) fun D => rfl]
  · unfold weightArgs
    rw [ssSum_group (groupAssigned e B) dl _ (fun d => (weightSS0 d B (e i) (e j) : ℝ)) fun D => by rw [groupAssigned_weight0],
      ssSum_group (groupAssigned e B) dl _ (fun d => (weightSS1 d (e i) (e j) : ℝ)) fun D => rfl]
  · unfold impulseArgs
    rw [ssSum_group (groupAssigned e B) dl _ (fun d => (irSS d B (e i) (e j) b : ℝ)) fun D => by rw [groupAssigned_ir hb]]

/-- the likelihood of a process in the group depends only on the weights from the group, if the others are zero -/
theorem group_llSinglePar (h : IsGroup P.K n e) {j : ℕ} (hj : j < n) (B : ℕ) (D : DParents ℝ) (w : Vec ℝ) (w' : Vec ℝ) (hw : ∀ i < n, w' i = w (e i)) (h0 : ∀ k < P.K, (∀ i < n, e i ≠ k) → w k = 0) :
    llSinglePar (groupParams n e P) (groupAssigned e B D) j w' = llSinglePar P D (e j) w := by
  unfold llSinglePar
  have e1 : ∑ k1 ∈ range P.K, w k1 * (D.Ns k1 : ℝ) = ∑ i ∈ range n, w' i * (D.Ns (e i) : ℝ) := by
    rw [group_sum h _ fun k hk hn => by rw [h0 k hk hn, zero_mul]]
    exact sum_congr rfl fun i hi => by rw [hw i (mem_range.1 hi)]
  have e2 : ∀ f : Mat ℝ, ∑ k1 ∈ range P.K, ∑ b ∈ range P.B, w k1 * P.g k1 (e j) b * f k1 b = ∑ i ∈ range n, ∑ b ∈ range P.B, w' i * P.g (e i) (e j) b * f (e i) b := fun f => by
    rw [group_sum h _ fun k hk hn => sum_eq_zero fun b _ => by rw [h0 k hk hn]; ring]
    exact sum_congr rfl fun i hi => sum_congr rfl fun b _ => by rw [hw i (mem_range.1 hi)]
  simp only [e1, e2]
  have e3 : ((groupAssigned e B D).Ss j).zip ((groupAssigned e B D).Fs j) = ((D.Ss (e j)).zip (D.Fs (e j))).map fun p => (p.1, fun i b => p.2 (e i) b) := by
    have a : (groupAssigned e B D).Ss j = D.Ss (e j) := rfl
    have b : (groupAssigned e B D).Fs j = (D.Fs (e j)).map fun f i b => f (e i) b := by
      unfold DParents.Fs
      rw [List.map_map]
      rfl
    rw [a, b, List.zip_map_right]
    rfl
  rw [e3, List.map_map]
  rfl

/-- two candidate columns, of the whole model and of the group, that agree on the group and have no edges from outside -/
def SameColumn (K n : ℕ) (e : ℕ → ℕ) (a a' : Vec ℝ) : Prop := (∀ i < n, a' i = a (e i)) ∧ ∀ k < K, (∀ i < n, e i ≠ k) → a k = 0

/-- the column update of the whole model simulates that of the group, if the likelihoods agree on corresponding columns -/
theorem group_column {K : ℕ} (h : IsGroup K n e) (hm : ∀ i < n, ∀ j < n, i < j → e i < e j) {j : ℕ} (p u A : Mat ℝ) (ll ll' : Vec ℝ → ℝ)
    (hA : ∀ k < K, (∀ i < n, e i ≠ k) → A k (e j) = 0 ∧ p k (e j) = 0) (hsim : ∀ a a', SameColumn K n e a a' → ll' a' = ll a) :
    SameColumn K n e (forRange K (colSite ll (fun k1 => p k1 (e j)) (fun k1 => u k1 (e j))) fun k1 => A k1 (e j))
      (forRange n (colSite ll' (fun i => p (e i) (e j)) (fun i => u (e i) (e j))) fun i => A (e i) (e j)) := by
  have hset : ∀ a a' i, i < n → ∀ x, SameColumn K n e a a' → SameColumn K n e (Vec.set a (e i) x) (Vec.set a' i x) := by
    intro a a' i hi x ⟨h1, h2⟩
    refine ⟨fun l hl => ?_, fun k hk hn => ?_⟩
    · unfold Vec.set
      by_cases c : l = i
      · simp [c]
      · have : e l ≠ e i := fun he => c (h.inj l hl i hi he)
        simp only [if_neg c, if_neg this]
        exact h1 l hl
    · unfold Vec.set
      rw [if_neg (fun he => hn i hi he.symm)]
      exact h2 k hk hn
  have hsite : ∀ a a' i, i < n → SameColumn K n e a a' → SameColumn K n e (colSite ll (fun k1 => p k1 (e j)) (fun k1 => u k1 (e j)) (e i) a) (colSite ll' (fun i => p (e i) (e j)) (fun i => u (e i) (e j)) i a') := by
    intro a a' i hi hs
    unfold colSite
    dsimp only
    split_ifs
    · exact hset _ _ i hi _ hs
    · exact hset _ _ i hi _ hs
    · rw [hsim _ _ (hset _ _ i hi 0 hs), hsim _ _ (hset _ _ i hi 1 (hset _ _ i hi 0 hs))]
      exact hset _ _ i hi _ (hset _ _ i hi 1 (hset _ _ i hi 0 hs))
  have hout : ∀ a a' k, k < K → (∀ i < n, e i ≠ k) → SameColumn K n e a a' → SameColumn K n e (colSite ll (fun k1 => p k1 (e j)) (fun k1 => u k1 (e j)) k a) a' := by
    intro a a' k hk hn ⟨h1, h2⟩
    have hz : colSite ll (fun k1 => p k1 (e j)) (fun k1 => u k1 (e j)) k a = Vec.set a k 0 := by
      unfold colSite
      rw [if_pos (hA k hk hn).2]
    rw [hz]
    refine ⟨fun i hi => ?_, fun l hl hl' => ?_⟩
    · unfold Vec.set
      rw [if_neg (hn i hi)]
      exact h1 i hi
    · unfold Vec.set
      split_ifs
      · rfl
      · exact h2 l hl hl'
  -- after `m` steps of the one loop, the other has made as many steps as there are group members among them
  have key : ∀ m ≤ K, ∃ c ≤ n, (∀ i < n, e i < m ↔ i < c) ∧
      SameColumn K n e (forRange m (colSite ll (fun k1 => p k1 (e j)) (fun k1 => u k1 (e j))) fun k1 => A k1 (e j)) (forRange c (colSite ll' (fun i => p (e i) (e j)) (fun i => u (e i) (e j))) fun i => A (e i) (e j)) := by
    intro m
    induction m with
    | zero => exact fun _ => ⟨0, Nat.zero_le _, fun i hi => by simp, fun i hi => rfl, fun k hk hn => (hA k hk hn).1⟩
    | succ m ih =>
      intro hm'
      obtain ⟨c, hc, hiff, hs⟩ := ih (by omega)
      by_cases hex : ∃ i < n, e i = m
      · obtain ⟨i, hi, hei⟩ := hex
        have hic : i = c := by
          have h1 : ¬ i < c := fun hlt => by have := (hiff i hi).2 hlt; omega
          by_contra hne
          have hci : c < i := by omega
          have hcn : c < n := by omega
          have := hm c hcn i hi hci
          have := (hiff c hcn).1 (by omega)
          omega
        subst hic
        refine ⟨i + 1, hi, fun l hl => ?_, ?_⟩
        · constructor
          · intro hlt
            by_contra hge
            have := hm i hi l hl (by omega)
            omega
          · intro hlt
            rcases Nat.lt_succ_iff_lt_or_eq.1 hlt with hl' | rfl
            · have := hm l hl i hi hl'; omega
            · omega
        · rw [forRange_succ, forRange_succ, ← hei]
          exact hsite _ _ i hi (by rw [hei]; exact hs)
      · have hno : ∀ i < n, e i ≠ m := fun i hi he => hex ⟨i, hi, he⟩
        refine ⟨c, hc, fun i hi => ?_, ?_⟩
        · rw [← hiff i hi]
          have := hno i hi
          omega
        · rw [forRange_succ]
          exact hout _ _ m (by omega) hno hs
  obtain ⟨c, hc, hiff, hs⟩ := key K le_rfl
  have hcn : c = n := by
    by_contra hne
    have hcl : c < n := by omega
    have := (hiff c hcl).1 (h.lt c hcl)
    omega
  subst hcn
  exact hs

/-- **C113 (edges, one column).** If edges from outside the group are impossible (prior probability zero) and absent, the column of edges onto a process of the group that a worker draws is the one it draws in the group's own model with the same uniform numbers. -/
theorem C113_edge_column (h : IsGroup P.K n e) (hm : ∀ i < n, ∀ j < n, i < j → e i < e j) {j : ℕ} (hj : j < n) (B : ℕ) (W p u A : Mat ℝ) (dl : List (DParents ℝ))
    (hA : ∀ k < P.K, (∀ i < n, e i ≠ k) → A k (e j) = 0 ∧ p k (e j) = 0) :
    (∀ i < n, resampleColumn (groupParams n e P) (fun i j => W (e i) (e j)) (fun i j => p (e i) (e j)) (fun i j => u (e i) (e j)) (dl.map (groupAssigned e B)) (fun i j => A (e i) (e j)) j i
      = resampleColumn P W p u dl A (e j) (e i)) ∧ ∀ k < P.K, (∀ i < n, e i ≠ k) → resampleColumn P W p u dl A (e j) k = 0 := by
  have hs := group_column h hm p u A (fun Acol => dl.foldl (fun acc d => acc + llSinglePar P d (e j) (fun k1 => Acol k1 * W k1 (e j))) 0)
    (fun Acol => (dl.map (groupAssigned e B)).foldl (fun acc d => acc + llSinglePar (groupParams n e P) d j (fun i => Acol i * W (e i) (e j))) 0) hA fun a a' ⟨h1, h2⟩ => by
      rw [foldl_add_eq, foldl_add_eq, List.map_map]
      congr 2
      refine List.map_congr_left fun D _ => ?_
      exact group_llSinglePar h hj B D _ _ (fun i hi => by rw [h1 i hi]) fun k hk hn => by rw [h2 k hk hn, zero_mul]
  exact ⟨hs.1, hs.2⟩

/-- **C113 (edge update).** If edges from outside the group are impossible (prior probability zero) and absent, a whole update of the adjacency matrix — serial or parallel, workers finishing in any order — draws for the edges between processes of the group
exactly what the group's own model draws on the group's own events with the same uniform numbers, and edges from outside remain absent. -/
theorem C113_edges (h : IsGroup P.K n e) (hm : ∀ i < n, ∀ j < n, i < j → e i < e j) (B : ℕ) (W p u A : Mat ℝ) (dl : List (DParents ℝ)) (order order' : List ℕ) (ho : order.Perm (List.range P.K)) (ho' : order'.Perm (List.range n))
    (hp : ∀ i < P.K, ∀ j < P.K, 0 ≤ p i j ∧ p i j ≤ 1) (hu : ∀ i < P.K, ∀ j < P.K, 0 ≤ u i j ∧ u i j < 1)
    (hA : ∀ j < n, ∀ k < P.K, (∀ i < n, e i ≠ k) → A k (e j) = 0 ∧ p k (e j) = 0) :
    (∀ i < n, ∀ j < n,
      serialSweep (groupParams n e P) (fun i j => W (e i) (e j)) (fun i j => p (e i) (e j)) (fun i j => u (e i) (e j)) (dl.map (groupAssigned e B)) (fun i j => A (e i) (e j)) i j = serialSweep P W p u dl A (e i) (e j) ∧
      parallelSweep (groupParams n e P) (fun i j => W (e i) (e j)) (fun i j => p (e i) (e j)) (fun i j => u (e i) (e j)) (dl.map (groupAssigned e B)) order' (fun i j => A (e i) (e j)) i j = parallelSweep P W p u dl order A (e i) (e j)) ∧
    ∀ j < n, ∀ k < P.K, (∀ i < n, e i ≠ k) → serialSweep P W p u dl A k (e j) = 0 ∧ parallelSweep P W p u dl order A k (e j) = 0 := by
  have hp' : ∀ i < (groupParams n e P).K, ∀ j < (groupParams n e P).K, 0 ≤ p (e i) (e j) ∧ p (e i) (e j) ≤ 1 := fun i hi j hj => hp _ (h.lt i hi) _ (h.lt j hj)
  have hu' : ∀ i < (groupParams n e P).K, ∀ j < (groupParams n e P).K, 0 ≤ u (e i) (e j) ∧ u (e i) (e j) < 1 := fun i hi j hj => hu _ (h.lt i hi) _ (h.lt j hj)
  have whole : ∀ j < n, ∀ k, serialSweep P W p u dl A k (e j) = resampleColumn P W p u dl A (e j) k := fun j hj k => congrFun (serial_columns P W p u dl A hp hu (e j) (h.lt j hj)) k
  refine ⟨fun i hi j hj => ?_, fun j hj k hk hn => ?_⟩
  · have hs : serialSweep (groupParams n e P) (fun i j => W (e i) (e j)) (fun i j => p (e i) (e j)) (fun i j => u (e i) (e j)) (dl.map (groupAssigned e B)) (fun i j => A (e i) (e j)) i j = serialSweep P W p u dl A (e i) (e j) := by
      rw [whole j hj, ← (C113_edge_column h hm hj B W p u A dl (hA j hj)).1 i hi]
      exact congrFun (serial_columns (groupParams n e P) _ _ _ _ _ hp' hu' j hj) i
    refine ⟨hs, ?_⟩
    rw [C20_parallel_eq_serial (groupParams n e P) _ _ _ _ _ order' ho' hp' hu' i hi j hj, hs, C20_parallel_eq_serial P W p u dl A order ho hp hu _ (h.lt i hi) _ (h.lt j hj)]
  · have hs := (C113_edge_column h hm hj B W p u A dl (hA j hj)).2 k hk hn
    rw [C20_parallel_eq_serial P W p u dl A order ho hp hu k hk _ (h.lt j hj), whole j hj]
    exact ⟨hs, hs⟩

/-! ### non-vacuity: of two processes, the second can only excite itself, with probability one half -/

example (W u : Mat ℝ) (hu : ∀ i < 2, ∀ j < 2, 0 ≤ u i j ∧ u i j < 1) (dl : List (DParents ℝ)) :
    serialSweep (groupParams 1 (fun _ => 1) splitNet) (fun _ _ => W 1 1) (fun _ _ => 1 / 2) (fun _ _ => u 1 1) (dl.map (groupAssigned (fun _ => 1) 1)) (fun _ _ => 1) 0 0
      = serialSweep splitNet W (fun i j => if i = j then 1 / 2 else 0) u dl (fun i j => if i = j then 1 else 0) 1 1 := by
  have h := C113_edges (P := splitNet) splitNet_groups.2.1 (fun i hi j hj hij => by omega) 1 W (fun i j => if i = j then 1 / 2 else 0) u (fun i j => if i = j then 1 else 0) dl (List.range 2) (List.range 1)
    (List.Perm.refl _) (List.Perm.refl _) (fun i _ j _ => by split_ifs <;> norm_num) hu fun j hj k hk hn => by
      have hne : k ≠ 1 := fun he => hn 0 Nat.one_pos he.symm
      simp [hne]
  simpa using (h.1 0 Nat.one_pos 0 Nat.one_pos).1

end PyHawkes
