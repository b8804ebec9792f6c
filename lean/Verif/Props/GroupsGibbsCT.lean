import Verif.Props.GroupsGibbs
import Verif.Props.GroupsCT
set_option linter.unusedSectionVars false
set_option linter.unusedVariables false
/-! # C113, continued: the adjacency update of a group of processes without connections from outside (continuous time) -/
namespace PyHawkes
open Finset Spec

variable {K n : ℕ} {e : ℕ → ℕ} {P : CTParams}

/-- the likelihood of a column depends on the entries of processes only -/
theorem ctLLCol_agree (dl : List CTData) (k : ℕ) {a b : Vec ℝ} (h : ∀ i < P.K, a i = b i) : ctLLCol P dl k a = ctLLCol P dl k b := by
  rw [ctLLCol_sum, ctLLCol_sum]
  congr 1
  refine List.map_congr_left fun d _ => ?_
  congr 1
  · congr 1
    exact sum_congr rfl fun i hi => by rw [h i (mem_range.1 hi)]
  · refine sum_congr rfl fun m _ => ?_
    rw [sum_congr rfl fun i hi => by rw [h i (mem_range.1 hi)]]

/-- **C113 (continuous time, edge update).** If edges from outside the group are impossible (prior probability zero) and absent, a whole update of the adjacency matrix — serial or parallel, workers finishing in any order — draws for the edges between
processes of the group exactly what the group's own model draws on the group's own events with the same uniform numbers, and edges from outside remain absent. -/
theorem C113_ct_edge_update (h : IsGroup P.K n e) (hm : ∀ i < n, ∀ j < n, i < j → e i < e j) {ι : Type*} (l : List ι) (d d' : ι → CTData) (f : ι → ℕ → ℕ) (hS : ∀ x ∈ l, SortedTimes (d x)) (hE : ∀ x ∈ l, GroupEvents n e (d x) (d' x) (f x))
    (p u A : Mat ℝ) (order order' : List ℕ) (ho : order.Perm (List.range P.K)) (ho' : order'.Perm (List.range n))
    (hp : ∀ i < P.K, ∀ j < P.K, 0 ≤ p i j ∧ p i j ≤ 1) (hu : ∀ i < P.K, ∀ j < P.K, 0 ≤ u i j ∧ u i j < 1)
    (hA : ∀ j < n, ∀ k < P.K, (∀ i < n, e i ≠ k) → A k (e j) = 0 ∧ p k (e j) = 0) :
    (∀ i < n, ∀ j < n,
      ctSerialSweep (groupCT n e P) (fun i j => p (e i) (e j)) (fun i j => u (e i) (e j)) (l.map d') (fun i j => A (e i) (e j)) i j = ctSerialSweep P p u (l.map d) A (e i) (e j) ∧
      ctParallelSweep (groupCT n e P) (fun i j => p (e i) (e j)) (fun i j => u (e i) (e j)) (l.map d') order' (fun i j => A (e i) (e j)) i j = ctParallelSweep P p u (l.map d) order A (e i) (e j)) ∧
    ∀ j < n, ∀ k < P.K, (∀ i < n, e i ≠ k) → ctSerialSweep P p u (l.map d) A k (e j) = 0 ∧ ctParallelSweep P p u (l.map d) order A k (e j) = 0 := by
  have hp' : ∀ i < (groupCT n e P).K, ∀ j < (groupCT n e P).K, 0 ≤ p (e i) (e j) ∧ p (e i) (e j) ≤ 1 := fun i hi j hj => hp _ (h.lt i hi) _ (h.lt j hj)
  have hu' : ∀ i < (groupCT n e P).K, ∀ j < (groupCT n e P).K, 0 ≤ u (e i) (e j) ∧ u (e i) (e j) < 1 := fun i hi j hj => hu _ (h.lt i hi) _ (h.lt j hj)
  have col : ∀ j < n, SameColumn P.K n e (ctResampleColumn P p u (l.map d) A (e j))
      (ctResampleColumn (groupCT n e P) (fun i j => p (e i) (e j)) (fun i j => u (e i) (e j)) (l.map d') (fun i j => A (e i) (e j)) j) := fun j hj =>
    group_column h hm p u A (ctLLCol P (l.map d) (e j)) (ctLLCol (groupCT n e P) (l.map d') j) (hA j hj) fun a a' ⟨h1, h2⟩ => by
      rw [C113_ct_edges h l d d' f hS hE hj a h2]
      exact ctLLCol_agree (P := groupCT n e P) _ _ h1
  have whole : ∀ j < n, ∀ k, ctSerialSweep P p u (l.map d) A k (e j) = ctResampleColumn P p u (l.map d) A (e j) k := fun j hj k => congrFun (ct_serial_columns P p u (l.map d) A hp hu (e j) (h.lt j hj)) k
  refine ⟨fun i hi j hj => ?_, fun j hj k hk hn => ?_⟩
  · have hs : ctSerialSweep (groupCT n e P) (fun i j => p (e i) (e j)) (fun i j => u (e i) (e j)) (l.map d') (fun i j => A (e i) (e j)) i j = ctSerialSweep P p u (l.map d) A (e i) (e j) := by
      rw [whole j hj, ← (col j hj).1 i hi]
      exact congrFun (ct_serial_columns (groupCT n e P) _ _ _ _ hp' hu' j hj) i
    refine ⟨hs, ?_⟩
    rw [C67_parallel_eq_serial (groupCT n e P) _ _ _ _ order' ho' hp' hu' i hi j hj, hs, C67_parallel_eq_serial P p u _ A order ho hp hu _ (h.lt i hi) _ (h.lt j hj)]
  · have hs := (col j hj).2 k hk hn
    rw [C67_parallel_eq_serial P p u _ A order ho hp hu k hk _ (h.lt j hj), whole j hj]
    exact ⟨hs, hs⟩

/-! ### statistics and conjugate draws -/

variable {D D' : CTData} {f : ℕ → ℕ}

/-- specification: corresponding events have corresponding parents -/
def Spec.MatchedParents (D D' : CTData) (f : ℕ → ℕ) : Prop := ∀ i < D'.N, (D'.Z i = -1 ∧ D.Z (f i) = -1) ∨ ∃ j < i, D'.Z i = (j : ℕ) ∧ D.Z (f i) = (f j : ℕ)

theorem ge_children (hg : IsGroup K n e) (h : GroupEvents n e D D' f) (hZ : MatchedParents D D' f) {i j : ℕ} (hi : i < n) (hj : j < n) :
    children D D.Z (e i) (e j) = (children D' D'.Z i j).image f := by
  ext q
  unfold children
  simp only [mem_filter, mem_range, mem_image]
  constructor
  · rintro ⟨hq, h0, hp, hc⟩
    obtain ⟨a, ha, rfl⟩ := h.all q hq ⟨j, hj, hc⟩
    refine ⟨a, ⟨ha, ?_⟩, rfl⟩
    rcases hZ a ha with ⟨-, hz⟩ | ⟨b, hb, hz', hz⟩
    · omega
    · have hb' : b < D'.N := by omega
      rw [hz, Int.toNat_natCast] at hp
      rw [hz', Int.toNat_natCast]
      refine ⟨Int.natCast_nonneg _, hg.inj _ (h.C b hb').1 _ hi ((h.C b hb').2.symm.trans hp), hg.inj _ (h.C a ha).1 _ hj ((h.C a ha).2.symm.trans hc)⟩
  · rintro ⟨a, ⟨ha, h0, hp, hc⟩, rfl⟩
    rcases hZ a ha with ⟨hz, -⟩ | ⟨b, hb, hz', hz⟩
    · omega
    · have hb' : b < D'.N := by omega
      rw [hz', Int.toNat_natCast] at hp
      rw [hz, Int.toNat_natCast]
      exact ⟨h.lt a ha, Int.natCast_nonneg _, by rw [(h.C b hb').2, hp], by rw [(h.C a ha).2, hc]⟩

theorem ge_bkgdCount (hg : IsGroup K n e) (h : GroupEvents n e D D' f) (hZ : MatchedParents D D' f) {j : ℕ} (hj : j < n) : bkgdCount D D.Z (e j) = bkgdCount D' D'.Z j := by
  have : (range D.N).filter (fun q => D.Z q = -1 ∧ D.C q = e j) = ((range D'.N).filter fun q => D'.Z q = -1 ∧ D'.C q = j).image f := by
    ext q
    simp only [mem_filter, mem_range, mem_image]
    constructor
    · rintro ⟨hq, hz, hc⟩
      obtain ⟨a, ha, rfl⟩ := h.all q hq ⟨j, hj, hc⟩
      refine ⟨a, ⟨ha, ?_, hg.inj _ (h.C a ha).1 _ hj ((h.C a ha).2.symm.trans hc)⟩, rfl⟩
      rcases hZ a ha with ⟨h1, -⟩ | ⟨b, hb, -, h1⟩
      · exact h1
      · omega
    · rintro ⟨a, ⟨ha, hz, hc⟩, rfl⟩
      refine ⟨h.lt a ha, ?_, by rw [(h.C a ha).2, hc]⟩
      rcases hZ a ha with ⟨-, h1⟩ | ⟨b, hb, h1, -⟩
      · exact h1
      · omega
  unfold bkgdCount
  rw [this, card_image_of_injOn]
  intro a ha b hb hab
  exact ge_inj h (mem_range.1 (mem_filter.1 (mem_coe.1 ha)).1) (mem_range.1 (mem_filter.1 (mem_coe.1 hb)).1) hab

theorem ge_statistics {K K' : ℕ} {dtMax : ℝ} (hg : IsGroup K n e) (h : GroupEvents n e D D' f) (hZ : MatchedParents D D' f) (ok : CTDataOk K dtMax D) (ok' : CTDataOk K' dtMax D') {i j : ℕ} (hi : i < n) (hj : j < n) :
    D'.bkgd j = D.bkgd (e j) ∧ D'.weight i j = D.weight (e i) (e j) ∧ D'.imp0 i j = D.imp0 (e i) (e j) ∧ D'.imp1 i j = D.imp1 (e i) (e j) ∧ D'.imp2 i j = D.imp2 (e i) (e j) := by
  have hinj : Set.InjOn f (children D' D'.Z i j : Set ℕ) := fun a ha b hb hab =>
    ge_inj h (mem_range.1 (mem_filter.1 (mem_coe.1 ha)).1) (mem_range.1 (mem_filter.1 (mem_coe.1 hb)).1) hab
  have hcard : (children D D.Z (e i) (e j)).card = (children D' D'.Z i j).card := by
    rw [ge_children hg h hZ hi hj, card_image_of_injOn hinj]
  have hlag : ∀ a ∈ children D' D'.Z i j, childLag D dtMax D.Z (f a) = childLag D' dtMax D'.Z a := by
    intro a ha
    obtain ⟨ha, h0, -⟩ := mem_filter.1 ha
    have ha := mem_range.1 ha
    rcases hZ a ha with ⟨h1, -⟩ | ⟨b, hb, h1, h2⟩
    · omega
    · unfold childLag
      rw [h1, h2, Int.toNat_natCast, Int.toNat_natCast, h.S a ha, h.S b (by omega)]
  have hsum : ∀ φ : ℝ → ℝ, ∑ q ∈ children D D.Z (e i) (e j), φ (childLag D dtMax D.Z q) = ∑ a ∈ children D' D'.Z i j, φ (childLag D' dtMax D'.Z a) := fun φ => by
    rw [ge_children hg h hZ hi hj, sum_image hinj]
    exact sum_congr rfl fun a ha => by rw [hlag a ha]
  refine ⟨by rw [ok.bkgd, ok'.bkgd, ge_bkgdCount hg h hZ hj], by rw [ok.weight, ok'.weight, hcard], by rw [ok.imp0, ok'.imp0, hcard], ?_, ?_⟩
  · rw [ok.imp1, ok'.imp1]
    exact (hsum fun x => x).symm
  · rw [ok.imp2, ok'.imp2, hcard, hsum fun x => x]
    exact (hsum fun x => (x - (∑ a ∈ children D' D'.Z i j, childLag D' dtMax D'.Z a) / ((children D' D'.Z i j).card : ℕ)) ^ 2).symm

theorem ctResample_parents {u : Vec ℝ} {s : List ℕ} {D1 : CTData} (h : ctResample P u s D = .ok D1) : ctResamplePar P D u s D.Z = .ok D1.Z := by
  unfold ctResample at h
  cases hp : ctResamplePar P D u s D.Z with
  | error x => rw [hp] at h; cases h
  | ok Z =>
    rw [hp] at h
    dsimp only at h
    split_ifs at h
    cases hs : ctSuffStats D P.dtMax Z with
    | error x => rw [hs] at h; cases h
    | ok t =>
      rw [hs] at h
      dsimp only at h
      split_ifs at h
      cases h
      rfl

/-- **C113 (continuous time, statistics).** Resampling a recording in the whole model and its restriction in the model of a closed group with the same uniform draws, under any complete schedules, succeeds and leaves corresponding parents, and all statistics from which background rates,
weights and impulse responses are drawn are the same for the processes of the group. -/
theorem C113_ct_statistics (hg : IsGroup P.K n e) (hP : CTOk P) (h : GroupEvents n e D D' f) (hL : LabelsOk P.K D) (hS : SortedTimes D) (hc : Closed P.K n e P.Weff)
    (u u' : Vec ℝ) (hu : ∀ q < D.N, 0 ≤ u q ∧ u q < 1) (hu' : ∀ i < D'.N, u' i = u (f i)) (s s' : List ℕ) (hs : CompleteSchedule D.N s) (hs' : CompleteSchedule D'.N s') :
    ∃ D1 D1', ctResample P u s D = .ok D1 ∧ ctResample (groupCT n e P) u' s' D' = .ok D1' ∧ GroupEvents n e D1 D1' f ∧ MatchedParents D1 D1' f ∧
      ∀ i < n, ∀ j < n, D1'.bkgd j = D1.bkgd (e j) ∧ D1'.weight i j = D1.weight (e i) (e j) ∧ D1'.imp0 i j = D1.imp0 (e i) (e j) ∧ D1'.imp1 i j = D1.imp1 (e i) (e j) ∧ D1'.imp2 i j = D1.imp2 (e i) (e j) := by
  obtain ⟨D1, r1, n1, s1, c1, t1, -, ok1⟩ := C26_resample_succeeds P D hP hL hS u hu s hs
  obtain ⟨D1', r2, n2, s2, c2, t2, -, ok2⟩ := C26_resample_succeeds (groupCT n e P) D' (groupCT_ok hg hP) (ge_labels h) (ge_sorted h hS) u' (fun i hi => by rw [hu' i hi]; exact hu _ (h.lt i hi)) s' hs'
  obtain ⟨Z, Z', z1, z2, hz⟩ := C113_ct_parents hg hP h hL hS hc u u' hu hu' s s' hs hs'
  rw [ctResample_parents r1] at z1
  rw [ctResample_parents r2] at z2
  have z1 := Except.ok.inj z1
  have z2 := Except.ok.inj z2
  have hE : GroupEvents n e D1 D1' f := by
    refine ⟨by rw [t1, t2, h.T], ?_, ?_, ?_, ?_, ?_⟩
    · rw [n1, n2]; exact h.lt
    · rw [n2]; exact h.mono
    · rw [n2, s1, s2]; exact h.S
    · rw [n2, c1, c2]; exact h.C
    · rw [n1, n2, c1]; exact h.all
  have hZ : MatchedParents D1 D1' f := by
    unfold MatchedParents
    rw [n2, z1, z2]
    exact hz
  exact ⟨D1, D1', r1, r2, hE, hZ, fun i hi j hj => ge_statistics hg hE hZ ok1 ok2 hi hj⟩

theorem foldl_pairs {ι α : Type*} (l : List ι) (a b : ι → CTData) (φ ψ : CTData → α) (op : α → α → α) (h : ∀ x ∈ l, φ (a x) = ψ (b x)) (z : α) :
    (l.map a).foldl (fun acc d => op acc (φ d)) z = (l.map b).foldl (fun acc d => op acc (ψ d)) z := by
  induction l generalizing z with
  | nil => rfl
  | cons x l ih =>
    simp only [List.map_cons, List.foldl_cons]
    rw [h x List.mem_cons_self, ih fun y hy => h y (List.mem_cons_of_mem _ hy)]

/-- **C113 (continuous time, conjugate draws).** For recordings whose statistics agree in this sense, the distributions from which background rates, weights between processes of the group and their impulse responses are drawn agree. -/
theorem C113_ct_conditional_draws (hg : IsGroup P.K n e) {ι : Type*} (l : List ι) (d d' : ι → CTData) (f : ι → ℕ → ℕ) (hE : ∀ x ∈ l, GroupEvents n e (d x) (d' x) (f x))
    (hZ : ∀ x ∈ l, MatchedParents (d x) (d' x) (f x)) {dtMax : ℝ} (ok : ∀ x ∈ l, CTDataOk P.K dtMax (d x) ∧ CTDataOk n dtMax (d' x)) (alpha beta kappa : ℝ) (V A : Mat ℝ) (prior : NigArgs) {i j : ℕ} (hi : i < n) (hj : j < n) :
    ctBiasArgs alpha beta (l.map d') j = ctBiasArgs alpha beta (l.map d) (e j) ∧
    ctWeightArgs kappa (fun i j => V (e i) (e j)) (fun i j => A (e i) (e j)) (l.map d') i j = ctWeightArgs kappa V A (l.map d) (e i) (e j) ∧
    ctImpulseArgs prior (l.map d') i j = ctImpulseArgs prior (l.map d) (e i) (e j) := by
  have st := fun x hx => ge_statistics hg (hE x hx) (hZ x hx) (ok x hx).1 (ok x hx).2 hi hj
  refine ⟨?_, ?_, ?_⟩
  · unfold ctBiasArgs
    rw [foldl_pairs l d' d (fun d => (d.bkgd j, d.T)) (fun d => (d.bkgd (e j), d.T)) (fun _ v => v) fun x hx => by rw [(st x hx).1, (hE x hx).T]]
  · unfold ctWeightArgs
    rw [foldl_pairs l d' d (fun d => d.weight i j) (fun d => d.weight (e i) (e j)) (· + ·) fun x hx => (st x hx).2.1,
      foldl_pairs l d' d (fun d => (d.Ns i : ℝ)) (fun d => (d.Ns (e i) : ℝ)) (· + ·) fun x hx => by rw [ge_Ns hg (hE x hx) hi]]
  · unfold ctImpulseArgs
    rw [foldl_pairs l d' d (fun d => d.imp0 i j) (fun d => d.imp0 (e i) (e j)) (· + ·) fun x hx => (st x hx).2.2.1,
      foldl_pairs l d' d (fun d => d.imp1 i j) (fun d => d.imp1 (e i) (e j)) (· + ·) fun x hx => (st x hx).2.2.2.1,
      foldl_pairs l d' d (fun d => d.imp2 i j) (fun d => d.imp2 (e i) (e j)) (· + ·) fun x hx => (st x hx).2.2.2.2]

/-- the hypotheses are met: of two processes the second can only excite itself, with probability one half -/
example (u : Mat ℝ) (hu : ∀ i < 2, ∀ j < 2, 0 ≤ u i j ∧ u i j < 1) :
    ctSerialSweep (groupCT 1 (fun _ => 1) splitCT) (fun _ _ => 1 / 2) (fun _ _ => u 1 1) [splitGroup] (fun _ _ => 1) 0 0
      = ctSerialSweep splitCT (fun i j => if i = j then 1 / 2 else 0) u [splitEvents] (fun i j => if i = j then 1 else 0) 1 1 := by
  have hsort : SortedTimes splitEvents := fun i j hij hj => by
    show (i:ℝ) / 4 ≤ (j:ℝ) / 4
    have : (i:ℝ) ≤ j := by exact_mod_cast hij
    linarith
  have h := C113_ct_edge_update splitCT_group (fun i hi j hj hij => by omega) [()] (fun _ => splitEvents) (fun _ => splitGroup) (fun _ => (· + 1)) (fun _ _ => hsort) (fun _ _ => splitCT_events)
    (fun i j => if i = j then 1 / 2 else 0) u (fun i j => if i = j then 1 else 0) (List.range 2) (List.range 1)
    (List.Perm.refl _) (List.Perm.refl _) (fun i _ j _ => by split_ifs <;> norm_num) hu fun j hj k hk hn => by
      have hne : k ≠ 1 := fun he => hn 0 Nat.one_pos he.symm
      simp [hne]
  simpa using (h.1 0 Nat.one_pos 0 Nat.one_pos).1

/-- the hypotheses of `C113_ct_statistics` are met by the second process of `splitCT`, with interleaved schedules; the recordings it yields meet those of `C113_ct_conditional_draws` by `C26_resample_succeeds` -/
example (u : Vec ℝ) (hu : ∀ q < 3, 0 ≤ u q ∧ u q < 1) : ∃ D1 D1', ctResample splitCT u [2, 0, 1, 1, 0, 2] splitEvents = .ok D1 ∧ ctResample (groupCT 1 (fun _ => 1) splitCT) (fun i => u (i + 1)) [1, 0, 1, 0] splitGroup = .ok D1' ∧
    D1'.bkgd 0 = D1.bkgd 1 ∧ D1'.weight 0 0 = D1.weight 1 1 := by
  obtain ⟨D1, D1', h1, h2, -, -, h3⟩ := C113_ct_statistics splitCT_group splitCT_ok splitCT_events splitEvents_ok.1 splitEvents_ok.2 splitCT_closed u (fun i => u (i + 1)) hu (fun _ _ => rfl) [2, 0, 1, 1, 0, 2] [1, 0, 1, 0]
    (by unfold CompleteSchedule; constructor <;> (show _; decide)) (by unfold CompleteSchedule; constructor <;> (show _; decide))
  have := h3 0 Nat.one_pos 0 Nat.one_pos
  exact ⟨D1, D1', h1, h2, this.1, this.2.1⟩

end PyHawkes
