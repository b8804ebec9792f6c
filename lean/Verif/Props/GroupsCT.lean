import Verif.Props.Groups
import Verif.Props.CutCT
set_option linter.unusedSectionVars false
set_option linter.unusedVariables false
/-! # C113: groups of processes without connections between them are separate models (continuous time) -/
namespace PyHawkes
open Finset Spec

variable {P : CTParams} {D D' D1 D2 : CTData} {n n1 n2 : ℕ} {e e1 e2 f f1 f2 : ℕ → ℕ}

theorem groupCT_Weff (i j : ℕ) : (groupCT n e P).Weff i j = P.Weff (e i) (e j) := rfl

theorem ge_lt_iff (h : GroupEvents n e D D' f) {i j : ℕ} (hi : i < D'.N) (hj : j < D'.N) : f j < f i ↔ j < i := by
  constructor
  · intro hf
    by_contra hc
    rcases Nat.lt_or_eq_of_le (Nat.le_of_not_lt hc) with hlt | heq
    · exact absurd (h.mono i j hlt hj) (by omega)
    · subst heq; omega
  · intro hlt; exact h.mono j i hlt hi

theorem ge_inj (h : GroupEvents n e D D' f) {i j : ℕ} (hi : i < D'.N) (hj : j < D'.N) (he : f i = f j) : i = j := by
  have a := (ge_lt_iff h hi hj).not
  have b := (ge_lt_iff h hj hi).not
  omega

/-- a sum over an initial stretch of the events whose terms vanish for events outside the group -/
theorem ge_sum {M : Type*} [AddCommMonoid M] (h : GroupEvents n e D D' f) (φ : ℕ → M) {m i : ℕ} (hm : m ≤ D.N) (hi : i ≤ D'.N) (hmi : ∀ j < D'.N, f j < m ↔ j < i)
    (h0 : ∀ q < D.N, (∀ k < n, D.C q ≠ e k) → φ q = 0) : ∑ q ∈ range m, φ q = ∑ j ∈ range i, φ (f j) := by
  rw [← sum_image (f := φ) (s := range i) (g := f) fun a ha b hb hab => ge_inj h (by have := mem_range.1 ha; omega) (by have := mem_range.1 hb; omega) hab]
  symm
  refine sum_subset (fun q hq => ?_) (fun q hq hne => ?_)
  · obtain ⟨j, hj, rfl⟩ := mem_image.1 hq
    exact mem_range.2 ((hmi j (by have := mem_range.1 hj; omega)).2 (mem_range.1 hj))
  · have hq := mem_range.1 hq
    refine h0 q (by omega) fun k hk hc => hne ?_
    obtain ⟨j, hj, rfl⟩ := h.all q (by omega) ⟨k, hk, hc⟩
    exact mem_image.2 ⟨j, mem_range.2 ((hmi j hj).1 hq), rfl⟩

theorem ge_sum_all {M : Type*} [AddCommMonoid M] (h : GroupEvents n e D D' f) (φ : ℕ → M) (h0 : ∀ q < D.N, (∀ k < n, D.C q ≠ e k) → φ q = 0) :
    ∑ q ∈ range D.N, φ q = ∑ j ∈ range D'.N, φ (f j) :=
  ge_sum h φ le_rfl le_rfl (fun j hj => ⟨fun _ => hj, fun _ => h.lt j hj⟩) h0

theorem ge_sorted (h : GroupEvents n e D D' f) (hS : SortedTimes D) : SortedTimes D' := by
  intro i j hij hj
  rw [h.S i (by omega), h.S j hj]
  refine hS _ _ ?_ (h.lt j hj)
  rcases Nat.lt_or_eq_of_le hij with hlt | rfl
  · exact (h.mono i j hlt hj).le
  · exact le_rfl

theorem ge_labels (h : GroupEvents n e D D' f) : LabelsOk (groupCT n e P).K D' := fun i hi => (h.C i hi).1

theorem groupCT_ok (hg : IsGroup P.K n e) (hP : CTOk P) : CTOk (groupCT n e P) :=
  ⟨hP.dtMax, fun k hk => hP.lam0 _ (hg.lt k hk), fun i hi j hj => hP.W _ (hg.lt i hi) _ (hg.lt j hj), fun i hi j hj => hP.tau _ (hg.lt i hi) _ (hg.lt j hj)⟩

/-- outside processes have no weight onto the events of the group -/
theorem ge_closed (h : GroupEvents n e D D' f) (hL : LabelsOk P.K D) (hc : Closed P.K n e P.Weff) {i q : ℕ} (hi : i < D'.N) (hq : q < D.N) (ho : ∀ k < n, D.C q ≠ e k) :
    P.Weff (D.C q) (D.C (f i)) = 0 := by
  rw [(h.C i hi).2]
  exact hc _ (hL q hq) (fun k hk he => ho k hk he.symm) _ (h.C i hi).1

theorem ge_parWeight (h : GroupEvents n e D D' f) {i j : ℕ} (hi : i < D'.N) (hj : j < D'.N) : parWeight P D (f i) (f j) = parWeight (groupCT n e P) D' i j := by
  unfold parWeight
  rw [groupCT_Weff, (h.C i hi).2, (h.C j hj).2, h.S i hi, h.S j hj]
  rfl

theorem ge_contribution (h : GroupEvents n e D D' f) {i j : ℕ} (hi : i < D'.N) (hj : j < D'.N) : contribution P D (f i) (f j) = contribution (groupCT n e P) D' i j := by
  unfold contribution
  rw [(h.C i hi).2, (h.C j hj).2, h.S i hi, h.S j hj]
  rfl

/-- one term of the scan of `compute_rate_at_events` -/
noncomputable def rateTerm (P : CTParams) (D : CTData) (n m : ℕ) : ℝ :=
  if ¬ D.S n - D.S m < 1e-8 ∧ D.S n - D.S m < P.dtMax - 1e-8 ∧ 0 < P.Weff (D.C m) (D.C n) then parWeight P D n m else 0

theorem rateScan_terms (hS : SortedTimes D) (k : ℕ) (hk : k < D.N) (m : ℕ) (hm : m ≤ k) (l : ℝ) : rateScan P D k m l = l + ∑ j ∈ range m, rateTerm P D k j := by
  induction m generalizing l with
  | zero => simp [rateScan]
  | succ m ih =>
    have ih' := fun l => ih (by omega) l
    unfold rateScan
    dsimp only
    split_ifs with h1 h2 h3
    · rw [ih', sum_range_succ, show rateTerm P D k m = 0 from if_neg fun h => h.1 h1, add_zero]
    · have hz : ∀ j ≤ m, rateTerm P D k j = 0 := fun j hj => if_neg fun h => by
        have := hS j m hj (by omega); linarith [h.2.1]
      rw [sum_eq_zero fun j hj => hz j (by have := mem_range.1 hj; omega), add_zero]
    · rw [ih', sum_range_succ, show rateTerm P D k m = parWeight P D k m from if_pos ⟨h1, not_le.1 h2, h3⟩]; ring
    · rw [ih', sum_range_succ, show rateTerm P D k m = 0 from if_neg fun h => h3 h.2.2, add_zero]

theorem ge_rateTerm (h : GroupEvents n e D D' f) {i j : ℕ} (hi : i < D'.N) (hj : j < D'.N) : rateTerm P D (f i) (f j) = rateTerm (groupCT n e P) D' i j := by
  unfold rateTerm
  rw [ge_parWeight (P := P) h hi hj, groupCT_Weff, (h.C i hi).2, (h.C j hj).2, h.S i hi, h.S j hj]
  rfl

/-- **C113 (continuous time, rates).** For a group without connections from outside, the rate at each of its events is the one the group's own model computes on the group's own events. -/
theorem C113_ct_rates (h : GroupEvents n e D D' f) (hL : LabelsOk P.K D) (hS : SortedTimes D) (hc : Closed P.K n e P.Weff) {i : ℕ} (hi : i < D'.N) :
    rateAtEvents (groupCT n e P) D' i = rateAtEvents P D (f i) := by
  have hf := h.lt i hi
  unfold rateAtEvents
  rw [rateScan_terms (ge_sorted h hS) i hi i le_rfl, rateScan_terms hS (f i) hf (f i) le_rfl,
    ge_sum h (fun q => rateTerm P D (f i) q) hf.le hi.le (fun j hj => ge_lt_iff h hi hj) fun q hq ho => by
      unfold rateTerm
      rw [ge_closed h hL hc hi hq ho, if_neg fun hh => lt_irrefl _ hh.2.2],
    sum_congr rfl fun j hj => ge_rateTerm (P := P) h hi (by have := mem_range.1 hj; omega), (h.C i hi).2]
  rfl

theorem ge_Ns (hg : IsGroup P.K n e) (h : GroupEvents n e D D' f) {j : ℕ} (hj : j < n) : D.Ns (e j) = D'.Ns j := by
  simp only [CTData.Ns_eq_card, card_filter]
  rw [ge_sum_all h _ fun q hq ho => if_neg (ho j hj)]
  refine sum_congr rfl fun i hi => ?_
  have := h.C i (mem_range.1 hi)
  rw [this.2]
  by_cases hc : D'.C i = j
  · rw [hc, if_pos rfl, if_pos rfl]
  · rw [if_neg hc, if_neg fun he => hc (hg.inj _ this.1 _ hj he)]

theorem ge_integrated (hg : IsGroup P.K n e) (h : GroupEvents n e D D' f) (hc : Closed P.K n e P.Weff) {j : ℕ} (hj : j < n) :
    integratedRate P D (e j) = integratedRate (groupCT n e P) D' j := by
  unfold integratedRate
  rw [h.T, group_sum hg _ fun k hk ho => by rw [hc k hk ho j hj, zero_mul]]
  congr 1
  exact sum_congr rfl fun i hi => by rw [ge_Ns hg h (mem_range.1 hi)]; rfl

theorem partition_events (h1 : GroupEvents n1 e1 D D1 f1) (h2 : GroupEvents n2 e2 D D2 f2) (hL : LabelsOk P.K D) (hp : Partition P.K n1 n2 e1 e2) (φ : ℕ → ℝ) :
    ∑ q ∈ range D.N, φ q = ∑ i ∈ range D1.N, φ (f1 i) + ∑ i ∈ range D2.N, φ (f2 i) := by
  classical
  have a1 := ge_sum_all h1 (fun q => if ∃ k < n1, D.C q = e1 k then φ q else 0) fun q hq hn => if_neg (by rintro ⟨k, hk, he⟩; exact hn k hk he)
  have a2 := ge_sum_all h2 (fun q => if ∃ k < n2, D.C q = e2 k then φ q else 0) fun q hq hn => if_neg (by rintro ⟨k, hk, he⟩; exact hn k hk he)
  rw [sum_congr (s₁ := range D1.N) rfl fun i hi => if_pos ⟨_, (h1.C i (mem_range.1 hi)).1, (h1.C i (mem_range.1 hi)).2⟩] at a1
  rw [sum_congr (s₁ := range D2.N) rfl fun i hi => if_pos ⟨_, (h2.C i (mem_range.1 hi)).1, (h2.C i (mem_range.1 hi)).2⟩] at a2
  rw [← a1, ← a2, ← sum_add_distrib]
  refine sum_congr rfl fun q hq => ?_
  have hq := mem_range.1 hq
  by_cases c1 : ∃ k < n1, D.C q = e1 k
  · have c2 : ¬ ∃ k < n2, D.C q = e2 k := by
      rintro ⟨j, hj, he⟩
      obtain ⟨i, hi, hi'⟩ := c1
      exact hp.2 i hi j hj (hi'.symm.trans he)
    rw [if_pos c1, if_neg c2, add_zero]
  · have c2 : ∃ k < n2, D.C q = e2 k := by
      rcases hp.1 _ (hL q hq) with ⟨i, hi, he⟩ | ⟨i, hi, he⟩
      · exact absurd ⟨i, hi, he.symm⟩ c1
      · exact ⟨i, hi, he.symm⟩
    rw [if_neg c1, if_pos c2, zero_add]

/-- **C113 (continuous time, log likelihood).** If the processes form two groups without connections in either direction, the log likelihood of the recordings is the sum of those of the two groups as models
of their own, each on its own events. -/
theorem C113_ct_log_likelihood (g1 : IsGroup P.K n1 e1) (g2 : IsGroup P.K n2 e2) (hp : Partition P.K n1 n2 e1 e2) (c1 : Closed P.K n1 e1 P.Weff) (c2 : Closed P.K n2 e2 P.Weff)
    {ι : Type*} (l : List ι) (d d1 d2 : ι → CTData) (f1 f2 : ι → ℕ → ℕ) (hL : ∀ x ∈ l, LabelsOk P.K (d x)) (hS : ∀ x ∈ l, SortedTimes (d x))
    (h1 : ∀ x ∈ l, GroupEvents n1 e1 (d x) (d1 x) (f1 x)) (h2 : ∀ x ∈ l, GroupEvents n2 e2 (d x) (d2 x) (f2 x)) :
    ctLogLik P (l.map d) = ctLogLik (groupCT n1 e1 P) (l.map d1) + ctLogLik (groupCT n2 e2 P) (l.map d2) := by
  simp only [ctLogLik_sum, List.map_map]
  induction l with
  | nil => simp
  | cons x l ih =>
    have ih := ih (fun y hy => hL y (List.mem_cons_of_mem _ hy)) (fun y hy => hS y (List.mem_cons_of_mem _ hy)) (fun y hy => h1 y (List.mem_cons_of_mem _ hy))
      (fun y hy => h2 y (List.mem_cons_of_mem _ hy))
    have hx : x ∈ x :: l := List.mem_cons_self
    simp only [List.map_cons, List.sum_cons, Function.comp_apply] at ih ⊢
    rw [ih, partition_sum g1 g2 hp, partition_events (h1 x hx) (h2 x hx) (hL x hx) hp,
      sum_congr (s₁ := range n1) rfl fun j hj => ge_integrated g1 (h1 x hx) c1 (mem_range.1 hj),
      sum_congr (s₁ := range n2) rfl fun j hj => ge_integrated g2 (h2 x hx) c2 (mem_range.1 hj),
      sum_congr (s₁ := range (d1 x).N) rfl fun i hi => by rw [← C113_ct_rates (h1 x hx) (hL x hx) (hS x hx) c1 (mem_range.1 hi)],
      sum_congr (s₁ := range (d2 x).N) rfl fun i hi => by rw [← C113_ct_rates (h2 x hx) (hL x hx) (hS x hx) c2 (mem_range.1 hi)],
      show (groupCT n1 e1 P).K = n1 from rfl, show (groupCT n2 e2 P).K = n2 from rfl]
    ring

/-! ### parents -/

theorem ge_partialSum (h : GroupEvents n e D D' f) (hL : LabelsOk P.K D) (hc : Closed P.K n e P.Weff) {i : ℕ} (hi : i < D'.N) {m j : ℕ} (hm : m ≤ D.N) (hj : j ≤ D'.N)
    (hmj : ∀ q < D'.N, f q < m ↔ q < j) : ∑ q ∈ range m, contribution P D (f i) q = ∑ q ∈ range j, contribution (groupCT n e P) D' i q := by
  rw [ge_sum h (fun q => contribution P D (f i) q) hm hj hmj fun q hq ho => by
    have := ge_closed h hL hc hi hq ho
    unfold contribution
    dsimp only
    rw [show P.A (D.C q) (D.C (f i)) * P.W (D.C q) (D.C (f i)) = 0 from this, zero_mul, ite_self]]
  exact sum_congr rfl fun q hq => ge_contribution h hi (by have := mem_range.1 hq; omega)

theorem ge_total (h : GroupEvents n e D D' f) (hL : LabelsOk P.K D) (hc : Closed P.K n e P.Weff) {i : ℕ} (hi : i < D'.N) : totalRate P D (f i) = totalRate (groupCT n e P) D' i := by
  unfold totalRate
  rw [ge_partialSum h hL hc hi (h.lt i hi).le hi.le fun q hq => ge_lt_iff h hi hq, (h.C i hi).2]
  rfl

theorem ge_cumProb (h : GroupEvents n e D D' f) (hL : LabelsOk P.K D) (hc : Closed P.K n e P.Weff) {i : ℕ} (hi : i < D'.N) {m j : ℕ} (hm : m ≤ D.N) (hj : j ≤ D'.N)
    (hmj : ∀ q < D'.N, f q < m ↔ q < j) : cumProb P D (f i) m = cumProb (groupCT n e P) D' i j := by
  unfold cumProb
  rw [ge_total h hL hc hi, ge_partialSum h hL hc hi hm hj hmj, (h.C i hi).2]
  rfl

theorem ge_sel_bg (hg : IsGroup P.K n e) (hP : CTOk P) (h : GroupEvents n e D D' f) (hL : LabelsOk P.K D) (hS : SortedTimes D) (hc : Closed P.K n e P.Weff) {i : ℕ} (hi : i < D'.N) {x : ℝ} (hx : x < 1)
    (hv : selParent (groupCT n e P) D' i x = -1) : selParent P D (f i) x = -1 := by
  rw [sel_bkgd_iff _ D' (groupCT_ok hg hP) (ge_labels h) (ge_sorted h hS) i hi x hx] at hv
  rw [sel_bkgd_iff P D hP hL hS _ (h.lt i hi) x hx, ge_cumProb h hL hc hi (Nat.zero_le _) (Nat.zero_le _) fun q _ => by omega]
  exact hv

theorem ge_sel_par (hg : IsGroup P.K n e) (hP : CTOk P) (h : GroupEvents n e D D' f) (hL : LabelsOk P.K D) (hS : SortedTimes D) (hc : Closed P.K n e P.Weff) {i : ℕ} (hi : i < D'.N) {x : ℝ} (hx : x < 1)
    (j : ℕ) (hv : selParent (groupCT n e P) D' i x = j) : j < i ∧ selParent P D (f i) x = f j := by
  have hok := groupCT_ok hg hP
  have hj : j < i := by
    rcases sel_valid _ D' hok (ge_labels h) (ge_sorted h hS) i hi x hx with h1 | ⟨m, h1, hm, -⟩
    · rw [h1] at hv; omega
    · rw [h1] at hv; omega
  have hj' : j < D'.N := by omega
  refine ⟨hj, ?_⟩
  have hlt := h.mono j i hj hi
  have hfi := h.lt i hi
  rw [sel_parent_iff _ D' hok (ge_labels h) (ge_sorted h hS) i hi x hx j hj] at hv
  rw [sel_parent_iff P D hP hL hS _ hfi x hx _ hlt, ge_cumProb h hL hc hi (m := f j) (j := j) (by omega) hj'.le (fun q hq => ge_lt_iff h hj' hq),
    ge_cumProb h hL hc hi (m := f j + 1) (j := j + 1) (by omega) hj' fun q hq => ?_]
  · exact hv
  · have a := ge_lt_iff h hj' hq
    have b := ge_inj h hq hj'
    constructor
    · intro hh
      rcases Nat.lt_or_eq_of_le (Nat.lt_succ_iff.1 hh) with c | c
      · exact (a.1 c).trans (Nat.lt_succ_self j)
      · rw [b c]; exact Nat.lt_succ_self j
    · intro hh
      rcases Nat.lt_or_eq_of_le (Nat.lt_succ_iff.1 hh) with c | c
      · exact (a.2 c).trans (Nat.lt_succ_self _)
      · rw [c]; exact Nat.lt_succ_self _

/-- **C113 (continuous time, parents).** Resampling the parents in the whole model and in the group's own model with the same uniform draws, under any complete schedules, gives the events of the group the same parents: background in
both, or the same event of the group — never an event of a process outside. -/
theorem C113_ct_parents (hg : IsGroup P.K n e) (hP : CTOk P) (h : GroupEvents n e D D' f) (hL : LabelsOk P.K D) (hS : SortedTimes D) (hc : Closed P.K n e P.Weff)
    (u u' : Vec ℝ) (hu : ∀ q < D.N, 0 ≤ u q ∧ u q < 1) (hu' : ∀ i < D'.N, u' i = u (f i)) (s s' : List ℕ) (hs : CompleteSchedule D.N s) (hs' : CompleteSchedule D'.N s') :
    ∃ Z Z', ctResamplePar P D u s D.Z = .ok Z ∧ ctResamplePar (groupCT n e P) D' u' s' D'.Z = .ok Z' ∧
      ∀ i < D'.N, (Z' i = -1 ∧ Z (f i) = -1) ∨ ∃ j < i, Z' i = (j : ℕ) ∧ Z (f i) = (f j : ℕ) := by
  have hu1 : ∀ i < D'.N, u' i < 1 := fun i hi => by rw [hu' i hi]; exact (hu _ (h.lt i hi)).2
  obtain ⟨Z, a1, a2, -⟩ := ctResamplePar_eq P D hP hL hS u (fun q hq => (hu q hq).2) s hs D.Z
  obtain ⟨Z', b1, b2, -⟩ := ctResamplePar_eq (groupCT n e P) D' (groupCT_ok hg hP) (ge_labels h) (ge_sorted h hS) u' hu1 s' hs' D'.Z
  refine ⟨Z, Z', a1, b1, fun i hi => ?_⟩
  rw [a2 _ (h.lt i hi), b2 i hi, hu' i hi]
  have hx := (hu _ (h.lt i hi)).2
  rcases sel_valid _ D' (groupCT_ok hg hP) (ge_labels h) (ge_sorted h hS) i hi (u (f i)) hx with hv | ⟨m, hv, hm, -⟩
  · exact Or.inl ⟨hv, ge_sel_bg hg hP h hL hS hc hi hx hv⟩
  · exact Or.inr ⟨m, hm, hv, (ge_sel_par hg hP h hL hS hc hi hx m hv).2⟩

/-! ### edges -/

/-- one term of the scan of `compute_weighted_impulses_at_events`, for source process `k` -/
noncomputable def irTerm (P : CTParams) (D : CTData) (n k m : ℕ) : ℝ :=
  if ¬ D.S n - D.S m < 1e-8 ∧ D.S n - D.S m < P.dtMax - 1e-8 ∧ D.C m = k then
    P.W (D.C m) (D.C n) * lnImpulse (D.S n - D.S m) (P.mu (D.C m) (D.C n)) (P.tau (D.C m) (D.C n)) P.dtMax else 0

theorem irScan_terms (hS : SortedTimes D) (q : ℕ) (hq : q < D.N) (k m : ℕ) (hm : m ≤ q) (l : Vec ℝ) : irScan P D q m l k = l k + ∑ j ∈ range m, irTerm P D q k j := by
  induction m generalizing l with
  | zero => simp [irScan]
  | succ m ih =>
    have ih' := fun l => ih (by omega) l
    unfold irScan
    dsimp only
    split_ifs with h1 h2
    · rw [ih', sum_range_succ, show irTerm P D q k m = 0 from if_neg fun h => h.1 h1, add_zero]
    · have hz : ∀ j ≤ m, irTerm P D q k j = 0 := fun j hj => if_neg fun h => by
        have := hS j m hj (by omega); linarith [h.2.1]
      rw [sum_eq_zero fun j hj => hz j (by have := mem_range.1 hj; omega), add_zero]
    · rw [ih', sum_range_succ]
      unfold Vec.set
      by_cases hk : k = D.C m
      · rw [if_pos hk, show irTerm P D q k m = _ from if_pos ⟨h1, not_le.1 h2, hk.symm⟩, hk]; ring
      · rw [if_neg hk, show irTerm P D q k m = 0 from if_neg fun h => hk h.2.2.symm, add_zero]

theorem ge_impulses (hg : IsGroup P.K n e) (h : GroupEvents n e D D' f) (hS : SortedTimes D) {i a : ℕ} (hi : i < D'.N) (ha : a < n) :
    weightedImpulses P D (f i) (e a) = weightedImpulses (groupCT n e P) D' i a := by
  have hf := h.lt i hi
  unfold weightedImpulses
  rw [irScan_terms hS _ hf _ _ le_rfl, irScan_terms (ge_sorted h hS) i hi _ _ le_rfl,
    ge_sum h (fun q => irTerm P D (f i) (e a) q) hf.le hi.le (fun j hj => ge_lt_iff h hi hj) fun q hq ho => if_neg fun hh => ho a ha hh.2.2]
  congr 1
  refine sum_congr rfl fun j hj => ?_
  have hj : j < D'.N := by have := mem_range.1 hj; omega
  unfold irTerm
  have hc : D'.C j = a ↔ e (D'.C j) = e a := ⟨fun hh => by rw [hh], fun hh => hg.inj _ (h.C j hj).1 _ ha hh⟩
  rw [(h.C i hi).2, (h.C j hj).2, h.S i hi, h.S j hj]
  simp only [← hc]
  rfl

/-- **C113 (continuous time, edges).** The likelihood with which the edges onto a process of the group are weighed — for any candidate column without edges from outside — is the one of the group's own model on
the group's own events. -/
theorem C113_ct_edges (hg : IsGroup P.K n e) {ι : Type*} (l : List ι) (d d' : ι → CTData) (f : ι → ℕ → ℕ) (hS : ∀ x ∈ l, SortedTimes (d x)) (h : ∀ x ∈ l, GroupEvents n e (d x) (d' x) (f x))
    {j : ℕ} (hj : j < n) (col : Vec ℝ) (hcol : ∀ k < P.K, (∀ i < n, e i ≠ k) → col k = 0) :
    ctLLCol P (l.map d) (e j) col = ctLLCol (groupCT n e P) (l.map d') j fun i => col (e i) := by
  simp only [ctLLCol_sum, List.map_map]
  congr 1
  refine List.map_congr_left fun x hx => ?_
  have hx' := h x hx
  simp only [Function.comp_apply]
  rw [group_sum hg (fun k1 => col k1 * P.W k1 (e j) * ((d x).Ns k1 : ℝ)) fun k hk ho => by rw [hcol k hk ho]; ring,
    ge_sum_all hx' (fun q => if (d x).C q = e j then Real.log (P.lam0 (e j) + ∑ k1 ∈ range P.K, col k1 * weightedImpulses P (d x) q k1) else 0) fun q hq ho => if_neg (ho j hj), hx'.T]
  congr 1
  · congr 1
    exact sum_congr rfl fun i hi => by rw [ge_Ns hg hx' (mem_range.1 hi)]; rfl
  · refine sum_congr rfl fun i hi => ?_
    have hi := mem_range.1 hi
    rw [group_sum hg (fun k1 => col k1 * weightedImpulses P (d x) (f x i) k1) fun k hk ho => by rw [hcol k hk ho]; ring,
      sum_congr (s₁ := range n) rfl fun a ha => by rw [ge_impulses hg hx' (hS x hx) hi (mem_range.1 ha)], (hx'.C i hi).2]
    have hc : (d' x).C i = j ↔ e ((d' x).C i) = e j := ⟨fun hh => by rw [hh], fun hh => hg.inj _ (hx'.C i hi).1 _ hj hh⟩
    simp only [← hc]
    rfl

/-! ### non-vacuity: two processes that only excite themselves, one event each and a second one of process 1 -/

noncomputable def splitCT : CTParams := { K := 2, dtMax := 1, lam0 := fun _ => 1, W := fun _ _ => 1, A := fun i j => if i = j then 1 else 0, mu := fun _ _ => 0, tau := fun _ _ => 1 }
noncomputable def splitEvents : CTData := { N := 3, S := fun i => (i : ℝ) / 4, C := fun i => if i = 0 then 0 else 1, T := 2, bkgd := fun _ => 0 }
noncomputable def splitGroup : CTData := { N := 2, S := fun i => ((i + 1 : ℕ) : ℝ) / 4, C := fun _ => 0, T := 2, bkgd := fun _ => 0 }

theorem splitCT_group : IsGroup splitCT.K 1 (fun _ => 1) := ⟨fun _ _ => by show 1 < 2; omega, fun i hi j hj _ => by omega⟩

theorem splitCT_closed : Closed splitCT.K 1 (fun _ => 1) splitCT.Weff := by
  intro k hk ho j hj
  have : k = 0 := by
    have h1 : (1 : ℕ) ≠ k := ho 0 Nat.one_pos
    have h2 : k < 2 := hk
    omega
  subst this
  show (if (0:ℕ) = 1 then (1:ℝ) else 0) * 1 = 0
  norm_num

theorem splitCT_events : GroupEvents 1 (fun _ => 1) splitEvents splitGroup (· + 1) := by
  refine ⟨rfl, fun i hi => ?_, fun i j hij hj => Nat.succ_lt_succ hij, fun i hi => rfl, fun i hi => ⟨Nat.zero_lt_one, show (if i + 1 = 0 then 0 else 1) = 1 from if_neg (Nat.succ_ne_zero i)⟩, fun m hm hk => ?_⟩
  · have : i < 2 := hi
    show i + 1 < 3; omega
  · obtain ⟨k, -, hk⟩ := hk
    have hm : m < 3 := hm
    have h0 : m ≠ 0 := by
      rintro rfl
      have : (0 : ℕ) = 1 := hk
      omega
    exact ⟨m - 1, by show m - 1 < 2; omega, show m - 1 + 1 = m by omega⟩

theorem splitCT_ok : CTOk splitCT := by
  refine ⟨one_pos, fun _ _ => one_pos, fun i _ j _ => ?_, fun _ _ _ _ => one_pos⟩
  show 0 ≤ (if i = j then (1:ℝ) else 0) * 1
  split_ifs <;> norm_num

theorem splitEvents_ok : LabelsOk splitCT.K splitEvents ∧ SortedTimes splitEvents := by
  refine ⟨fun i _ => ?_, fun i j hij _ => ?_⟩
  · show (if i = 0 then 0 else 1) < 2
    split_ifs <;> omega
  · show (i:ℝ) / 4 ≤ (j:ℝ) / 4
    have : (i:ℝ) ≤ j := by exact_mod_cast hij
    linarith

example : rateAtEvents (groupCT 1 (fun _ => 1) splitCT) splitGroup 1 = rateAtEvents splitCT splitEvents 2 :=
  C113_ct_rates splitCT_events splitEvents_ok.1 splitEvents_ok.2 splitCT_closed (i := 1) (by show 1 < 2; omega)

end PyHawkes
