import Verif.Spec.Groups
import Verif.Props.LogLik
import Verif.Props.Rate
import Verif.Props.DParents
set_option linter.unusedSectionVars false
set_option linter.unusedVariables false
/-! # C113: groups of processes without connections between them are separate models (discrete time) -/
namespace PyHawkes
open Finset Spec

variable {K n n1 n2 : ℕ} {e e1 e2 : ℕ → ℕ}

/-- a sum over all processes whose terms vanish outside the group is a sum over the group -/
theorem group_sum {M : Type*} [AddCommMonoid M] (h : IsGroup K n e) (f : ℕ → M) (h0 : ∀ k < K, (∀ i < n, e i ≠ k) → f k = 0) :
    ∑ k ∈ range K, f k = ∑ i ∈ range n, f (e i) := by
  rw [← sum_image (f := f) (s := range n) (g := e) (fun i hi j hj he => h.inj i (mem_range.1 hi) j (mem_range.1 hj) he)]
  symm
  refine sum_subset (fun k hk => ?_) (fun k hk hne => ?_)
  · obtain ⟨i, hi, rfl⟩ := mem_image.1 hk
    exact mem_range.2 (h.lt i (mem_range.1 hi))
  · exact h0 k (mem_range.1 hk) fun i hi he => hne (mem_image.2 ⟨i, mem_range.2 hi, he⟩)

theorem partition_sum {M : Type*} [AddCommMonoid M] (h1 : IsGroup K n1 e1) (h2 : IsGroup K n2 e2) (hp : Partition K n1 n2 e1 e2) (f : ℕ → M) :
    ∑ k ∈ range K, f k = ∑ i ∈ range n1, f (e1 i) + ∑ i ∈ range n2, f (e2 i) := by
  classical
  have a1 := group_sum h1 (fun k => if ∃ i < n1, e1 i = k then f k else 0) fun k hk hn => if_neg (by rintro ⟨i, hi, he⟩; exact hn i hi he)
  have a2 := group_sum h2 (fun k => if ∃ i < n2, e2 i = k then f k else 0) fun k hk hn => if_neg (by rintro ⟨i, hi, he⟩; exact hn i hi he)
  rw [sum_congr (s₁ := range n1) rfl fun i hi => if_pos ⟨i, mem_range.1 hi, rfl⟩] at a1
  rw [sum_congr (s₁ := range n2) rfl fun i hi => if_pos ⟨i, mem_range.1 hi, rfl⟩] at a2
  rw [← a1, ← a2, ← sum_add_distrib]
  refine sum_congr rfl fun k hk => ?_
  by_cases c1 : ∃ i < n1, e1 i = k
  · have c2 : ¬ ∃ i < n2, e2 i = k := by
      rintro ⟨j, hj, he⟩
      obtain ⟨i, hi, hi'⟩ := c1
      exact hp.2 i hi j hj (hi'.trans he.symm)
    rw [if_pos c1, if_neg c2, add_zero]
  · have c2 := (hp.1 k (mem_range.1 hk)).resolve_left c1
    rw [if_neg c1, if_pos c2, zero_add]

variable {P : NetParams ℝ}

theorem group_excitation (h : IsGroup P.K n e) (hc : Closed P.K n e P.Weff) {j : ℕ} (hj : j < n) (f : Mat ℝ) :
    ∑ k1 ∈ range P.K, ∑ b ∈ range P.B, P.Weff k1 (e j) * P.g k1 (e j) b * f k1 b
      = ∑ i ∈ range n, ∑ b ∈ range P.B, P.Weff (e i) (e j) * P.g (e i) (e j) b * f (e i) b :=
  group_sum h _ fun k hk hn => sum_eq_zero fun b _ => by rw [hc k hk hn j hj]; ring

/-- **C113 (rates).** For a group without connections from outside, `compute_rate` of the whole model on the whole recording gives on the processes of the group exactly what the model of the group alone gives on the recording of the group alone. -/
theorem C113_rates (h : IsGroup P.K n e) (hn : 0 < n) (hc : Closed P.K n e P.Weff) (T : ℕ) (S : Mat ℝ) (r : Mat ℝ) (hr : computeRate P T P.K S = .ok r) :
    ∃ r', computeRate (groupParams n e P) T n (groupCounts e S) = .ok r' ∧ ∀ t < T, ∀ j < n, r' t j = r t (e j) := by
  obtain ⟨-, hv⟩ := C05_compute_rate_eq P T P.K S r hr
  have hpos : 0 < P.B ∧ 0 < T ∧ 0 < P.K ∧ 0 < P.L := by
    unfold computeRate at hr
    split at hr
    · cases hr
    · rename_i F hF; obtain ⟨a, b, c, d⟩ := convolve_ok_pos hF; exact ⟨d, a, b, c⟩
  obtain ⟨r', hr'⟩ := (C05_compute_rate_ok_iff (groupParams n e P) T n (groupCounts e S) hpos.2.2.2 hpos.1).2 ⟨hpos.2.1, hn, rfl⟩
  refine ⟨r', hr', fun t ht j hj => ?_⟩
  rw [(C05_compute_rate_eq _ T n _ r' hr').2 t ht j hj, hv t ht (e j) (h.lt j hj), group_excitation h hc hj]
  rfl

theorem group_llBin (h : IsGroup P.K n e) (hc : Closed P.K n e P.Weff) {j : ℕ} (hj : j < n) (s : Vec ℕ) (f : Mat ℝ) :
    llBin P s f (e j) = llBin (groupParams n e P) (fun i => s (e i)) (fun i => f (e i)) j := by
  unfold llBin
  rw [group_excitation h hc hj, group_sum h (fun k1 => P.Weff k1 (e j) * (s k1 : ℝ)) fun k hk hn => by rw [hc k hk hn j hj]; ring]
  rfl

/-- **C113 (single processes).** The log likelihood of a process in a closed group — which decides about its incoming edges — is that of the group's own model. -/
theorem C113_process_likelihood (h : IsGroup P.K n e) (hc : Closed P.K n e P.Weff) {j : ℕ} (hj : j < n) (D : DParents ℝ) :
    llSingle P D (e j) = llSingle (groupParams n e P) (groupData e D) j := by
  rw [llSingle_eq_sum, llSingle_eq_sum]
  exact sum_congr rfl fun t _ => group_llBin h hc hj _ _

/-- **C113 (log likelihood).** If the processes form two groups without connections in either direction, the log likelihood of the data is the sum of the log likelihoods of the two groups as models of their own. -/
theorem C113_log_likelihood (h1 : IsGroup P.K n1 e1) (h2 : IsGroup P.K n2 e2) (hp : Partition P.K n1 n2 e1 e2) (c1 : Closed P.K n1 e1 P.Weff) (c2 : Closed P.K n2 e2 P.Weff) (dl : List (DParents ℝ)) :
    llModel P dl = llModel (groupParams n1 e1 P) (dl.map (groupData e1)) + llModel (groupParams n2 e2 P) (dl.map (groupData e2)) := by
  have hd : ∀ D, llData P D = llData (groupParams n1 e1 P) (groupData e1 D) + llData (groupParams n2 e2 P) (groupData e2 D) := by
    intro D
    have e : ∀ (Q : NetParams ℝ) (D : DParents ℝ), llData Q D = ∑ k ∈ range Q.K, llSingle Q D k := fun Q D => by
      unfold llData; rw [forRange_add, zero_add]
    rw [e, e, e, partition_sum h1 h2 hp]
    congr 1
    · exact sum_congr rfl fun j hj => C113_process_likelihood h1 c1 (mem_range.1 hj) D
    · exact sum_congr rfl fun j hj => C113_process_likelihood h2 c2 (mem_range.1 hj) D
  unfold llModel
  rw [List.foldl_map, List.foldl_map]
  have gen : ∀ a b : ℝ, dl.foldl (fun ll D => ll + llData P D) (a + b) = dl.foldl (fun ll D => ll + llData (groupParams n1 e1 P) (groupData e1 D)) a +
      dl.foldl (fun ll D => ll + llData (groupParams n2 e2 P) (groupData e2 D)) b := by
    induction dl with
    | nil => intro a b; rfl
    | cons D dl ih =>
      intro a b
      rw [List.foldl_cons, List.foldl_cons, List.foldl_cons, ← ih, hd]
      congr 1
      ring
  have := gen 0 0
  rwa [add_zero] at this

/-- **C113 (held-out data).** Likewise for held-out recordings: the held-out log likelihood is the sum over the groups. -/
theorem C113_heldout (h1 : IsGroup P.K n1 e1) (h2 : IsGroup P.K n2 e2) (p1 : 0 < n1) (p2 : 0 < n2) (hp : Partition P.K n1 n2 e1 e2) (c1 : Closed P.K n1 e1 P.Weff) (c2 : Closed P.K n2 e2 P.Weff)
    (T : ℕ) (S : Mat ℕ) (x : ℝ) (hx : heldoutLL P T S = .ok x) :
    ∃ x1 x2, heldoutLL (groupParams n1 e1 P) T (groupCounts e1 S) = .ok x1 ∧ heldoutLL (groupParams n2 e2 P) T (groupCounts e2 S) = .ok x2 ∧ x = x1 + x2 := by
  unfold heldoutLL at hx
  cases hr : computeRate P T P.K fun t k => (S t k : ℝ) with
  | error e => rw [hr] at hx; cases hx
  | ok r =>
    rw [hr] at hx
    have hx := Except.ok.inj hx
    obtain ⟨r1, e1', v1⟩ := C113_rates h1 p1 c1 T _ r hr
    obtain ⟨r2, e2', v2⟩ := C113_rates h2 p2 c2 T _ r hr
    refine ⟨poissonLL P.dt T n1 (groupCounts e1 S) r1, poissonLL P.dt T n2 (groupCounts e2 S) r2, ?_, ?_, ?_⟩
    · unfold heldoutLL
      rw [show computeRate (groupParams n1 e1 P) T (groupParams n1 e1 P).K (fun t k => (((groupCounts e1 S : Mat ℕ) t k : ℕ) : ℝ)) = .ok r1 from e1']
      rfl
    · unfold heldoutLL
      rw [show computeRate (groupParams n2 e2 P) T (groupParams n2 e2 P).K (fun t k => (((groupCounts e2 S : Mat ℕ) t k : ℕ) : ℝ)) = .ok r2 from e2']
      rfl
    · rw [← hx]
      unfold poissonLL
      rw [← sum_add_distrib]
      refine sum_congr rfl fun t ht => ?_
      have ht := mem_range.1 ht
      rw [partition_sum h1 h2 hp]
      congr 1
      · exact sum_congr rfl fun j hj => by rw [v1 t ht j (mem_range.1 hj)]; rfl
      · exact sum_congr rfl fun j hj => by rw [v2 t ht j (mem_range.1 hj)]; rfl

/-! ### parents -/

theorem weightsPy_bkgd (Q : NetParams ℝ) (k : ℕ) (f : Mat ℝ) : parentWeightsPy Q k f 0 = Q.lam0 k := rfl

theorem weightsPy_cell (Q : NetParams ℝ) (k : ℕ) (f : Mat ℝ) (k1 : ℕ) {b : ℕ} (hb : b < Q.B) : parentWeightsPy Q k f (1 + k1 * Q.B + b) = f k1 b * Q.Weff k1 k * Q.g k1 k b := by
  have hd : (k1 * Q.B + b) / Q.B = k1 := by rw [mul_comm, Nat.mul_add_div (by omega), Nat.div_eq_of_lt hb, add_zero]
  have hm : (k1 * Q.B + b) % Q.B = b := by rw [mul_comm, Nat.mul_add_mod, Nat.mod_eq_of_lt hb]
  rw [show 1 + k1 * Q.B + b = (k1 * Q.B + b) + 1 by ring]
  unfold parentWeightsPy consVec
  dsimp only [ravel]
  rw [hd, hm]

theorem weightsPy_total (Q : NetParams ℝ) (k : ℕ) (f : Mat ℝ) :
    ∑ j ∈ range (1 + Q.K * Q.B), parentWeightsPy Q k f j = Q.lam0 k + ∑ k1 ∈ range Q.K, ∑ b ∈ range Q.B, f k1 b * Q.Weff k1 k * Q.g k1 k b := by
  rw [add_comm 1, sum_range_succ', weightsPy_bkgd, add_comm]
  congr 1
  rw [sum_flat Q.K Q.B fun c => parentWeightsPy Q k f (c + 1)]
  refine sum_congr rfl fun k1 _ => sum_congr rfl fun b hb => ?_
  rw [← weightsPy_cell Q k f k1 (mem_range.1 hb)]
  congr 1
  ring

/-- **C113 (parents).** The probabilities with which the parents of an event in a closed group are drawn are those of the group's own model; processes outside have probability 0. (Or both models fail to normalise.) -/
theorem C113_parents (h : IsGroup P.K n e) (hc : Closed P.K n e P.Weff) {j : ℕ} (hj : j < n) (f : Mat ℝ) (p : Vec ℝ)
    (hp : normalise (1 + P.K * P.B) (parentWeightsPy P (e j) f) = .ok p) :
    ∃ p', normalise (1 + n * P.B) (parentWeightsPy (groupParams n e P) j fun i => f (e i)) = .ok p' ∧ p' 0 = p 0 ∧
      (∀ i < n, ∀ b < P.B, p' (1 + i * P.B + b) = p (1 + e i * P.B + b)) ∧ ∀ k < P.K, (∀ i < n, e i ≠ k) → ∀ b < P.B, p (1 + k * P.B + b) = 0 := by
  have ht : ∑ l ∈ range (1 + n * P.B), parentWeightsPy (groupParams n e P) j (fun i => f (e i)) l = ∑ l ∈ range (1 + P.K * P.B), parentWeightsPy P (e j) f l := by
    rw [weightsPy_total P, show 1 + n * P.B = 1 + (groupParams n e P).K * (groupParams n e P).B from rfl, weightsPy_total (groupParams n e P),
      group_sum h _ fun k hk hn => sum_eq_zero fun b _ => by rw [hc k hk hn j hj]; ring]
    rfl
  unfold normalise at hp ⊢
  rw [ht]
  split_ifs at hp ⊢ with h0
  have hp := Except.ok.inj hp
  subst hp
  refine ⟨_, rfl, rfl, fun i hi b hb => ?_, fun k hk hn b hb => ?_⟩
  · dsimp only
    rw [weightsPy_cell P (e j) f (e i) hb]
    rw [show 1 + i * P.B + b = 1 + i * (groupParams n e P).B + b from rfl, weightsPy_cell (groupParams n e P) j _ i hb]
    rfl
  · dsimp only
    rw [weightsPy_cell P (e j) f k hb, hc k hk hn j hj]
    ring

/-! ### non-vacuity: two processes that only excite themselves -/

noncomputable def splitNet : NetParams ℝ := { K := 2, B := 1, L := 1, dt := 1, basis := fun _ _ => 1, lam0 := fun _ => 1, Weff := fun i j => if i = j then 1 else 0, g := fun _ _ _ => 1 }

theorem splitNet_groups : IsGroup splitNet.K 1 (fun _ => 0) ∧ IsGroup splitNet.K 1 (fun _ => 1) ∧ Partition splitNet.K 1 1 (fun _ => 0) (fun _ => 1) ∧
    Closed splitNet.K 1 (fun _ => 0) splitNet.Weff ∧ Closed splitNet.K 1 (fun _ => 1) splitNet.Weff := by
  refine ⟨⟨fun _ _ => by show 0 < 2; omega, fun i hi j hj _ => by omega⟩, ⟨fun _ _ => by show 1 < 2; omega, fun i hi j hj _ => by omega⟩, ⟨fun k hk => ?_, fun _ _ _ _ => Nat.zero_ne_one⟩,
    fun k hk ho j hj => if_neg fun h => ho j hj h.symm, fun k hk ho j hj => if_neg fun h => ho j hj h.symm⟩
  have : k < 2 := hk
  rcases Nat.lt_or_ge k 1 with h | h
  · exact Or.inl ⟨0, Nat.one_pos, show 0 = k by omega⟩
  · exact Or.inr ⟨0, Nat.one_pos, show 1 = k by omega⟩

example (dl : List (DParents ℝ)) : llModel splitNet dl = llModel (groupParams 1 (fun _ => 0) splitNet) (dl.map (groupData fun _ => 0)) + llModel (groupParams 1 (fun _ => 1) splitNet) (dl.map (groupData fun _ => 1)) :=
  C113_log_likelihood splitNet_groups.1 splitNet_groups.2.1 splitNet_groups.2.2.1 splitNet_groups.2.2.2.1 splitNet_groups.2.2.2.2 dl

end PyHawkes
