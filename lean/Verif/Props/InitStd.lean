import Verif.Model.InitStd
import Verif.Spec.Variational
import Verif.Props.StandardFit
import Verif.Props.VarHistory
import Mathlib.Data.List.GetD

/-!
# C65: starting a network model from a standard model
-/

set_option linter.unusedSectionVars false
set_option linter.unusedVariables false

namespace PyHawkes
open Finset Spec

/-! ### Percentiles -/

theorem sorted_countP_le {s : List ℝ} (hs : s.Pairwise (· ≤ ·)) {i : ℕ} (hi : i < s.length) {x : ℝ} (hx : s.getD i 0 ≤ x) :
    s.countP (fun y => decide (x < y)) ≤ s.length - 1 - i := by
  rw [← List.take_append_drop (i + 1) s, List.countP_append, List.countP_eq_zero.2, zero_add]
  · refine (List.countP_le_length).trans ?_
    simp only [List.length_drop, List.take_append_drop]
    omega
  · intro y hy
    simp only [decide_eq_true_eq, not_lt]
    obtain ⟨j, hj, rfl⟩ := List.getElem_of_mem hy
    rw [List.getElem_take]
    rw [List.length_take] at hj
    refine le_trans ?_ hx
    rw [List.getD_eq_getElem _ _ hi]
    rcases Nat.lt_or_ge j i with h | h
    · exact List.pairwise_iff_getElem.1 hs j i (by omega) hi h
    · have : j = i := by omega
      subst this; exact le_rfl

theorem sorted_countP_eq {s : List ℝ} (hs : s.Pairwise (· < ·)) {i : ℕ} (hi : i < s.length) {x : ℝ} (hx : s.getD i 0 ≤ x)
    (hx' : ∀ h : i + 1 < s.length, x < s[i + 1]) : s.countP (fun y => decide (x < y)) = s.length - 1 - i := by
  refine le_antisymm (sorted_countP_le (hs.imp le_of_lt) hi hx) ?_
  have hd : (s.drop (i + 1)).countP (fun y => decide (x < y)) = (s.drop (i + 1)).length := by
    refine List.countP_eq_length.2 ?_
    intro y hy
    simp only [decide_eq_true_eq]
    obtain ⟨j, hj, rfl⟩ := List.getElem_of_mem hy
    rw [List.getElem_drop]
    rw [List.length_drop] at hj
    rcases Nat.eq_zero_or_pos j with h | h
    · subst h; exact hx' (by omega)
    · exact (hx' (by omega)).trans (List.pairwise_iff_getElem.1 hs (i + 1) (i + 1 + j) (by omega) (by omega) (by omega))
  rw [List.length_drop] at hd
  have : s.countP (fun y => decide (x < y)) = (s.take (i + 1)).countP (fun y => decide (x < y)) + (s.drop (i + 1)).countP (fun y => decide (x < y)) := by
    rw [← List.countP_append, List.take_append_drop]
  omega

/-- number of entries above the percentile: never more than the fraction asked for (rounded up), and exactly that if the entries are pairwise different -/
theorem percentile_count {l : List ℝ} (hl : 0 < l.length) {m : ℝ} (h0 : 0 ≤ m) (h1 : m ≤ 1) :
    ∃ thr, npPercentile l ((1 - m) * 100) = .ok thr ∧ l.countP (fun y => decide (thr < y)) ≤ ⌈m * ((l.length - 1 : ℕ) : ℝ)⌉₊ ∧
      (l.Nodup → l.countP (fun y => decide (thr < y)) = ⌈m * ((l.length - 1 : ℕ) : ℝ)⌉₊) := by
  unfold npPercentile
  rw [if_neg (by push Not; constructor <;> linarith)]
  dsimp only
  set N := l.length - 1 with hN
  set s := l.insertionSort (· ≤ ·) with hs
  have hperm : s.Perm l := List.perm_insertionSort _ _
  have hlen : s.length = N + 1 := by rw [hperm.length_eq]; omega
  have hsorted : s.Pairwise (· ≤ ·) := List.pairwise_insertionSort _ _
  set v : ℝ := (N : ℝ) * ((1 - m) * 100 / 100) with hv
  have hv' : v = N - m * N := by rw [hv]; ring
  have hv0 : 0 ≤ v := by rw [hv]; exact mul_nonneg (Nat.cast_nonneg _) (by linarith)
  have hvN : v ≤ N := by rw [hv']; nlinarith [mul_nonneg h0 (Nat.cast_nonneg (α := ℝ) N)]
  set i := ⌊v⌋₊ with hi
  have hiN : i ≤ N := Nat.floor_le_of_le hvN
  have hfl : (i : ℝ) ≤ v := Nat.floor_le hv0
  have hfl' : v < i + 1 := Nat.lt_floor_add_one v
  have hceil : ⌈m * (N : ℝ)⌉₊ = N - i := by
    have e : m * (N : ℝ) = N - v := by rw [hv']; ring
    rw [e]
    refine le_antisymm (Nat.ceil_le.2 ?_) ?_
    · rw [Nat.cast_sub hiN]; linarith
    · by_contra h
      push Not at h
      have h2 : ⌈(N:ℝ) - v⌉₊ ≤ N - i - 1 := by omega
      have h3 := Nat.ceil_le.1 h2
      have h4 : ((N - i - 1 : ℕ) : ℝ) = N - i - 1 := by
        rw [Nat.cast_sub (by omega), Nat.cast_sub hiN]; simp
      rw [h4] at h3
      linarith
  have hmin : min (i + 1) N < s.length := by omega
  have hlohi : s.getD i 0 ≤ s.getD (min (i + 1) N) 0 := by
    rw [List.getD_eq_getElem _ _ (by omega), List.getD_eq_getElem _ _ hmin]
    rcases Nat.lt_or_ge i (min (i + 1) N) with h | h
    · exact List.pairwise_iff_getElem.1 hsorted _ _ (by omega) hmin h
    · have e : min (i + 1) N = i := by omega
      simp only [e]; exact le_rfl
  have hge : s.getD i 0 ≤ s.getD i 0 + (v - i) * (s.getD (min (i + 1) N) 0 - s.getD i 0) := by
    have := mul_nonneg (sub_nonneg.2 hfl) (sub_nonneg.2 hlohi); linarith
  have key := sorted_countP_le hsorted (by omega) hge
  refine ⟨_, rfl, ?_, ?_⟩
  · rw [← hperm.countP_eq, hceil]; omega
  · intro hnd
    rw [← hperm.countP_eq, hceil]
    have hstrict : s.Pairwise (· < ·) := (hsorted.and (hperm.nodup_iff.2 hnd)).imp fun h => lt_of_le_of_ne h.1 h.2
    rw [sorted_countP_eq hstrict (by omega) hge]
    · omega
    · intro h
      have e : min (i + 1) N = i + 1 := by omega
      rw [e, List.getD_eq_getElem _ _ (by omega), List.getD_eq_getElem _ _ h]
      have hlt : s[i] < s[i + 1] := List.pairwise_iff_getElem.1 hstrict i (i + 1) (by omega) h (by omega)
      nlinarith [mul_pos (sub_pos.2 hfl') (sub_pos.2 hlt)]

/-- reading a square array in C order visits every cell once -/
theorem flatK_countP {K : ℕ} (hK : 0 < K) (W : Mat ℝ) (q : ℝ → Bool) :
    (flatK K W).countP q = ((range K ×ˢ range K).filter fun c : ℕ × ℕ => q (W c.1 c.2) = true).card := by
  unfold flatK
  rw [List.countP_map, List.countP_eq_length_filter, ← List.toFinset_card_of_nodup (List.Nodup.filter _ List.nodup_range)]
  refine Finset.card_bij (fun i _ => (i / K, i % K)) ?_ ?_ ?_
  · intro i hi
    simp only [List.mem_toFinset, List.mem_filter, List.mem_range, Function.comp_apply] at hi
    simp only [Finset.mem_filter, Finset.mem_product, Finset.mem_range]
    exact ⟨⟨Nat.div_lt_of_lt_mul hi.1, Nat.mod_lt _ hK⟩, hi.2⟩
  · intro a ha b hb h
    have h1 := (Prod.mk.inj h).1
    have h2 := (Prod.mk.inj h).2
    rw [← Nat.div_add_mod a K, ← Nat.div_add_mod b K, h1, h2]
  · rintro ⟨a, b⟩ h
    simp only [Finset.mem_filter, Finset.mem_product, Finset.mem_range] at h
    have e1 : (a * K + b) / K = a := by rw [Nat.add_comm, Nat.add_mul_div_right _ _ hK, Nat.div_eq_of_lt h.1.2, zero_add]
    have e2 : (a * K + b) % K = b := by rw [Nat.add_comm, Nat.add_mul_mod_self_right, Nat.mod_eq_of_lt h.1.2]
    refine ⟨a * K + b, ?_, by rw [e1, e2]⟩
    simp only [List.mem_toFinset, List.mem_filter, List.mem_range, Function.comp_apply, e1, e2]
    exact ⟨by nlinarith [h.1.1, h.1.2], h.2⟩

theorem flatK_nodup {K : ℕ} (hK : 0 < K) {W : Mat ℝ} (h : ∀ i < K, ∀ j < K, ∀ i' < K, ∀ j' < K, W i j = W i' j' → i = i' ∧ j = j') : (flatK K W).Nodup := by
  unfold flatK
  refine List.Nodup.map_on ?_ List.nodup_range
  intro a ha b hb e
  rw [List.mem_range] at ha hb
  obtain ⟨h1, h2⟩ := h _ (Nat.div_lt_of_lt_mul ha) _ (Nat.mod_lt _ hK) _ (Nat.div_lt_of_lt_mul hb) _ (Nat.mod_lt _ hK) e
  rw [← Nat.div_add_mod a K, ← Nat.div_add_mod b K, h1, h2]
/-! ### The discrete-time network model -/

theorem meanP_eq (C : ℕ) (p : Mat ℝ) : meanP C p = meanEntry C p := by
  unfold meanP meanEntry
  rw [Finset.sum_product, Finset.card_product, Finset.card_range, Nat.cast_mul]

/-- **C65.** Let the standard model have as many processes and basis functions as the network model (at least one) and positive weights, and let the mean of the network's edge probabilities lie in `[0,1]`.
Then `initialize_with_standard_model` succeeds; the background rates are those of the standard model; the weight of an edge is the summed standard weight plus `1e-6` and so is positive; the impulse weights of
every pair are a positive probability vector, proportional to the standard shares clipped below at `1/100`; the edges are those whose weight exceeds one common threshold, their number is at most
`⌈mean p * (K² - 1)⌉`, with equality if the weights are pairwise different; data, network and priors stay as they were. -/
theorem C65_valid_parameters {M : StdModel} {s : HawkesState} {C : ℕ} {p : Mat ℝ} (hK : M.K = s.base.K) (hB : M.B = s.base.B) (hK0 : 0 < s.base.K) (hB0 : 0 < s.base.B)
    (hw : ∀ k < M.K, PosRow (1 + M.K * M.B) (M.weights k)) (hC : 0 < C) (hp : 0 ≤ meanEntry C p ∧ meanEntry C p ≤ 1) :
    ∃ s' M', initWithStandard true C p M s = .ok (s', M') ∧
      (∀ k < s.base.K, s'.base.lam0 k = M.weights k 0) ∧
      (∀ i < s.base.K, ∀ j < s.base.K, s'.W i j = ∑ b ∈ range s.base.B, M.weights j (1 + i * s.base.B + b) + 1e-6 ∧ 0 < s'.W i j) ∧
      (∀ i < s.base.K, ∀ j < s.base.K, (∀ b < s.base.B, 0 < s'.base.g i j b) ∧ ∑ b ∈ range s.base.B, s'.base.g i j b = 1 ∧
        ∃ c : ℝ, 0 < c ∧ ∀ b < s.base.B, s'.base.g i j b = c * max (1 / 100) (M.weights j (1 + i * s.base.B + b) / ∑ b ∈ range s.base.B, M.weights j (1 + i * s.base.B + b))) ∧
      (∃ thr, ∀ i < s.base.K, ∀ j < s.base.K, s'.A i j = if thr < s'.W i j then 1 else 0) ∧
      ((range s.base.K ×ˢ range s.base.K).filter fun c : ℕ × ℕ => s'.A c.1 c.2 = 1).card ≤ ⌈meanEntry C p * ((s.base.K * s.base.K - 1 : ℕ) : ℝ)⌉₊ ∧
      ((∀ i < s.base.K, ∀ j < s.base.K, ∀ i' < s.base.K, ∀ j' < s.base.K, s'.W i j = s'.W i' j' → i = i' ∧ j = j') →
        ((range s.base.K ×ˢ range s.base.K).filter fun c : ℕ × ℕ => s'.A c.1 c.2 = 1).card = ⌈meanEntry C p * ((s.base.K * s.base.K - 1 : ℕ) : ℝ)⌉₊) ∧
      s' = { s with base := { s.base with lam0 := s'.base.lam0, g := s'.base.g }, A := s'.A, W := s'.W } := by
  obtain ⟨G, M', hG⟩ := C38_G_total (M := M) (by omega) hw
  have hW : M.getW = .ok fun k1 k2 => ∑ b ∈ range M.B, M.weights k2 (1 + k1 * M.B + b) := by unfold StdModel.getW; rw [if_neg (by omega)]
  have hv := C38_G_values hG hW
  set W : Mat ℝ := fun i j => ∑ b ∈ range M.B, M.weights j (1 + i * M.B + b) + 1e-6 with hWd
  have hsum : ∀ i < s.base.K, ∀ j < s.base.K, 0 < ∑ b ∈ range s.base.B, M.weights j (1 + i * s.base.B + b) := by
    intro i hi j hj
    refine Finset.sum_pos ?_ ⟨0, by simpa using hB0⟩
    intro b hb
    rw [← hB]
    exact hw j (by omega) _ (block_lt (by omega) (by rw [hB]; exact Finset.mem_range.1 hb))
  have hlen : (flatK s.base.K W).length = s.base.K * s.base.K := by simp [flatK]
  obtain ⟨thr, hthr, hc1, hc2⟩ := percentile_count (l := flatK s.base.K W) (by rw [hlen]; positivity) hp.1 hp.2
  rw [hlen, flatK_countP hK0] at hc1 hc2
  have hcard : ((range s.base.K ×ˢ range s.base.K).filter fun c : ℕ × ℕ => (if W c.1 c.2 > thr then (1:ℝ) else 0) = 1) =
      ((range s.base.K ×ˢ range s.base.K).filter fun c : ℕ × ℕ => decide (thr < W c.1 c.2) = true) := by
    refine Finset.filter_congr ?_
    intro c _
    by_cases h : thr < W c.1 c.2 <;> simp [h]
  refine ⟨{ s with base := { s.base with lam0 := M.getBias, g := clipNormG s.base.B G }, A := fun i j => if W i j > thr then 1 else 0, W := W }, M', ?_, ?_, ?_, ?_, ?_, ?_, ?_, rfl⟩
  · unfold initWithStandard
    rw [if_neg (by simp), if_neg (by simpa using hK), if_neg (by simpa using hB)]
    simp only [hW, hG, if_neg hC.ne']
    have hthr' := hthr
    rw [hWd] at hthr'
    rw [meanP_eq, hthr']
  · intro k _; rfl
  · intro i hi j hj
    dsimp only
    rw [hWd]
    dsimp only
    rw [hB]
    exact ⟨rfl, add_pos (hsum i hi j hj) (by norm_num)⟩
  · intro i hi j hj
    have hpos : ∀ b, (0:ℝ) < max 1e-2 (G i j b) := fun b => lt_max_of_lt_left (by norm_num)
    have hden : 0 < ∑ b ∈ range s.base.B, max (1e-2 : ℝ) (G i j b) := Finset.sum_pos (fun b _ => hpos b) ⟨0, by simpa using hB0⟩
    refine ⟨fun b _ => div_pos (hpos b) hden, ?_, (∑ b ∈ range s.base.B, max (1e-2 : ℝ) (G i j b))⁻¹, inv_pos.2 hden, ?_⟩
    · unfold clipNormG
      dsimp only
      rw [← Finset.sum_div, div_self hden.ne']
    · intro b hb
      unfold clipNormG
      dsimp only
      obtain ⟨-, h1, h2⟩ := hv i (by omega) j (by omega)
      have h2 := h2 b (by omega)
      rw [h1] at h2
      rw [← hB] at hsum ⊢
      have e : G i j b = M.weights j (1 + i * M.B + b) / ∑ b ∈ range M.B, M.weights j (1 + i * M.B + b) := by
        rw [eq_div_iff (hsum i hi j hj).ne', mul_comm]; exact h2
      rw [← e, div_eq_inv_mul]
      norm_num
  · exact ⟨thr, fun i _ j _ => rfl⟩
  · dsimp only
    rw [hcard]; exact hc1
  · intro hinj
    dsimp only
    rw [hcard]; exact hc2 (flatK_nodup hK0 hinj)

/-- **C65 (the standard model is altered).** The property's last clause is false: after the call every summed weight of the standard model reads 1. -/
theorem C65_standard_model_altered_violated {M M' : StdModel} {s s' : HawkesState} {C : ℕ} {p : Mat ℝ} (hK0 : 0 < s.base.K) (hB0 : 0 < s.base.B) (h : initWithStandard true C p M s = .ok (s', M')) :
    M'.getBias = M.getBias ∧ ∃ W', M'.getW = .ok W' ∧ ∀ k1 < M.K, ∀ k2 < M.K, W' k1 k2 = 1 := by
  unfold initWithStandard at h
  rw [if_neg (by simp)] at h
  split at h
  · cases h
  · next hK =>
    split at h
    · cases h
    · next hB =>
      push Not at hK hB
      dsimp only at h
      split at h
      · cases h
      · split at h
        · cases h
        · next G M2 hG =>
          split at h
          · cases h
          · split at h
            · cases h
            · cases h
              obtain ⟨h1, h2, -⟩ := C38_G_overwrites_weights (by omega) (by omega) hG
              exact ⟨h1, h2⟩

/-- the standard model with 2 processes, one basis function, self weights 4 and 5, cross weights 1 and 2 -/
noncomputable def selfStd : StdModel :=
  { K := 2, B := 1, L := 2, dt := 1, alpha := 1, beta := 1, allowSelf := true, wMax := none, basis := fun l _ => if l = 1 then 1 else 0,
    weights := fun i c => if c = 0 then 1 else if c = 1 + i then 4 + i else 1 + i, data := [] }

/-- a network model for it -/
noncomputable def selfNet (net : Net) : HawkesState :=
  { base := { K := 2, B := 1, dt := 1, lam0 := fun _ => 1, Weff := fun _ _ => 0, g := fun _ _ _ => 1, L := 2, basis := fun l _ => if l = 1 then 1 else 0 }
    alpha := 1, beta := 1, gamma := fun _ => 1, net := net, A := fun _ _ => 0, W := fun _ _ => 1, data := [] }

theorem selfStd_pos : ∀ k < selfStd.K, PosRow (1 + selfStd.K * selfStd.B) (selfStd.weights k) := by
  intro k _ c _
  unfold selfStd
  dsimp only
  split
  · norm_num
  · split <;> positivity

/-- **C65 (forbidden self edges).** The edges chosen ignore the network's constraint on self connections: whatever the network (in particular one that forbids self connections), with edge probability 1/2 the
self edges of this model are set. -/
theorem C65_self_edges_violated (net : Net) : ∃ s' M', initWithStandard true 1 (fun _ _ => 1 / 2) selfStd (selfNet net) = .ok (s', M') ∧ s'.net = net ∧ s'.A 0 0 = 1 ∧ s'.A 1 1 = 1 := by
  have hm : meanEntry 1 (fun _ _ => (1:ℝ) / 2) = 1 / 2 := by simp [meanEntry]
  obtain ⟨s', M', h, -, hW, -, ⟨thr, hA⟩, -, hc, he⟩ := C65_valid_parameters (M := selfStd) (s := selfNet net) (C := 1) (p := fun _ _ => 1 / 2) rfl rfl Nat.two_pos Nat.one_pos selfStd_pos Nat.one_pos
    (by rw [hm]; norm_num)
  have hWs : s'.W 0 0 = 4 + 1e-6 ∧ s'.W 1 1 = 5 + 1e-6 ∧ s'.W 0 1 = 2 + 1e-6 ∧ s'.W 1 0 = 1 + 1e-6 := by
    refine ⟨?_, ?_, ?_, ?_⟩
    · rw [(hW 0 Nat.two_pos 0 Nat.two_pos).1]; norm_num [selfStd, selfNet]
    · rw [(hW 1 Nat.one_lt_two 1 Nat.one_lt_two).1]; norm_num [selfStd, selfNet]
    · rw [(hW 0 Nat.two_pos 1 Nat.one_lt_two).1]; norm_num [selfStd, selfNet]
    · rw [(hW 1 Nat.one_lt_two 0 Nat.two_pos).1]; norm_num [selfStd, selfNet]
  obtain ⟨w00, w11, w01, w10⟩ := hWs
  have hc := hc (by
    intro i hi j hj i' hi' j' hj' e
    have hi : i < 2 := hi
    have hj : j < 2 := hj
    have hi' : i' < 2 := hi'
    have hj' : j' < 2 := hj'
    interval_cases i <;> interval_cases j <;> interval_cases i' <;> interval_cases j' <;> simp only [w00, w11, w01, w10, and_self] at e ⊢ <;> norm_num at e)
  rw [hm] at hc
  have hceil : ⌈(1:ℝ) / 2 * (((selfNet net).base.K * (selfNet net).base.K - 1 : ℕ) : ℝ)⌉₊ = 2 := by
    rw [Nat.ceil_eq_iff (by norm_num)]
    simp [selfNet]; norm_num
  rw [hceil] at hc
  have a00 := hA 0 Nat.two_pos 0 Nat.two_pos
  have a11 := hA 1 Nat.one_lt_two 1 Nat.one_lt_two
  have a01 := hA 0 Nat.two_pos 1 Nat.one_lt_two
  have a10 := hA 1 Nat.one_lt_two 0 Nat.two_pos
  have hthr : thr < s'.W 0 0 := by
    by_contra hn
    push Not at hn
    rw [if_neg (by rw [w01]; rw [w00] at hn; linarith)] at a01
    rw [if_neg (by rw [w10]; rw [w00] at hn; linarith)] at a10
    rw [if_neg (by linarith)] at a00
    have : ((range (selfNet net).base.K ×ˢ range (selfNet net).base.K).filter fun c : ℕ × ℕ => s'.A c.1 c.2 = 1) ⊆ {(1, 1)} := by
      rintro ⟨i, j⟩ hij
      simp only [Finset.mem_filter, Finset.mem_product, Finset.mem_range] at hij
      have hi : i < 2 := hij.1.1
      have hj : j < 2 := hij.1.2
      have h1 : s'.A i j = 1 := hij.2
      interval_cases i <;> interval_cases j
      · rw [a00] at h1; exact absurd h1 (by norm_num)
      · rw [a01] at h1; exact absurd h1 (by norm_num)
      · rw [a10] at h1; exact absurd h1 (by norm_num)
      · simp
    have := Finset.card_le_card this
    rw [hc] at this
    simp at this
  refine ⟨s', M', h, by rw [he]; rfl, ?_, ?_⟩
  · rw [a00, if_pos hthr]
  · rw [a11, if_pos (by rw [w11]; rw [w00] at hthr; linarith)]

/-- **C65 (zero weights).** A standard model whose weights are nonnegative but vanish for one pair of processes is not handled: the impulse weights of that pair come out as `nan`. -/
theorem C65_zero_weights_violated {M : StdModel} {s : HawkesState} {C : ℕ} {p : Mat ℝ} (hK : M.K = s.base.K) (hB : M.B = s.base.B) (hB0 : 0 < s.base.B)
    {i j : ℕ} (hi : i < M.K) (hj : j < M.K) (h0 : ∀ b < M.B, M.weights i (1 + j * M.B + b) = 0) : initWithStandard true C p M s = .error .silentNan := by
  have hG : M.getG = .error .silentNan := by
    unfold StdModel.getG
    dsimp only
    rw [if_pos ⟨i, hi, j, hj, Finset.sum_eq_zero fun b hb => h0 b (Finset.mem_range.1 hb)⟩]
  have hW : M.getW = .ok fun k1 k2 => ∑ b ∈ range M.B, M.weights k2 (1 + k1 * M.B + b) := by unfold StdModel.getW; rw [if_neg (by omega)]
  unfold initWithStandard
  rw [if_neg (by simp), if_neg (by simpa using hK), if_neg (by simpa using hB)]
  simp only [hW, hG]

/-! ### The gamma-mixture model -/

/-- **C65 (gamma mixture).** With parameters as established by `C65_valid_parameters`, the variational parameters the gamma-mixture model sets afterwards are a legal starting point for mean-field
inference, whatever they were before: only the priors, the network and the data have to be legal. So every history of mean-field steps from there stays valid (`C50_valid_forever`). -/
theorem C65_legal_variational_start {s : HawkesState} {V : MFModel} (hK : V.K = s.base.K) (hB : V.B = s.base.B)
    (hW : ∀ i < V.K, ∀ j < V.K, 0 < s.W i j) (hg : ∀ i < V.K, ∀ j < V.K, ∀ b < V.B, 0 < s.base.g i j b) (hA : ∀ i < V.K, ∀ j < V.K, s.A i j = 0 ∨ s.A i j = 1)
    (hbias : 0 < V.bias.alpha ∧ 0 < V.bias.beta ∧ 0 ≤ V.bias.dt) (himp : ∀ b < V.B, 0 < V.imp.gamma b) (hw : 0 < V.w.kappa0 ∧ 0 < V.w.nu0)
    (hnet : NetGood V.K V.net) (hdata : V.data ≠ [] ∧ ∀ D ∈ V.data, 0 < D.T ∧ ∀ t k b, 0 ≤ D.F t k b) (acts : List MFAct) (hl : ∀ a ∈ acts, a.Legal (gmInitWithStandard s V)) :
    MFGood (gmInitWithStandard s V) ∧ ∃ V', runActs acts (gmInitWithStandard s V) = .ok V' ∧ MFValid (gmInitWithStandard s V) V' := by
  have hgood : MFGood (gmInitWithStandard s V) := by
    refine ⟨⟨hbias.1, hbias.2.1, hbias.2.2, ?_⟩, ?_, hw, ?_, ?_, hnet, hdata⟩
    · intro k _
      exact ⟨lt_max_of_lt_left (by norm_num), by norm_num [gmInitWithStandard]⟩
    · intro b hb
      refine ⟨himp b hb, fun i hi j hj => ?_⟩
      exact mul_pos (by norm_num) (hg i hi j hj b hb)
    · intro i hi j hj
      have := hW i hi j hj
      refine ⟨mul_pos hw.2 this, mul_pos hw.2 one_pos, mul_pos (by norm_num) this, by norm_num [gmInitWithStandard]⟩
    · intro i hi j hj
      unfold gmInitWithStandard
      dsimp only
      rcases hA i hi j hj with h | h <;> rw [h] <;> norm_num
  exact ⟨hgood, C50_valid_forever _ hgood acts hl⟩

/-- **C65 (both steps).** Calling `initialize_with_standard_model` on a gamma-mixture model with legal priors, network and data, with a standard model of positive weights: the expected edge probabilities are
0.8 on the chosen edges and 0.2 elsewhere, expected rates equal the standard rates (if at least `1e-10`), expected present-edge weights equal the standard weights plus `1e-6`, and any mean-field history that follows is valid. -/
theorem C65_gamma_mixture {M : StdModel} {s : HawkesState} {V : MFModel} {C : ℕ} {p : Mat ℝ} (hK : M.K = s.base.K) (hB : M.B = s.base.B) (hK0 : 0 < s.base.K) (hB0 : 0 < s.base.B)
    (hw : ∀ k < M.K, PosRow (1 + M.K * M.B) (M.weights k)) (hC : 0 < C) (hp : 0 ≤ meanEntry C p ∧ meanEntry C p ≤ 1) (hVK : V.K = s.base.K) (hVB : V.B = s.base.B)
    (hbias : 0 < V.bias.alpha ∧ 0 < V.bias.beta ∧ 0 ≤ V.bias.dt) (himp : ∀ b < V.B, 0 < V.imp.gamma b) (hww : 0 < V.w.kappa0 ∧ 0 < V.w.nu0)
    (hnet : NetGood V.K V.net) (hdata : V.data ≠ [] ∧ ∀ D ∈ V.data, 0 < D.T ∧ ∀ t k b, 0 ≤ D.F t k b) :
    ∃ s' M', initWithStandard true C p M s = .ok (s', M') ∧
      (∀ k < s.base.K, 1e-10 ≤ M.weights k 0 → (gmInitWithStandard s' V).bias.eLam k = M.weights k 0) ∧
      (∀ i < s.base.K, ∀ j < s.base.K, (gmInitWithStandard s' V).w.mfP i j = (if s'.A i j = 1 then 4 / 5 else 1 / 5) ∧
        (gmInitWithStandard s' V).w.eWGivenA 1 i j = ∑ b ∈ range s.base.B, M.weights j (1 + i * s.base.B + b) + 1e-6) ∧
      ∀ acts : List MFAct, (∀ a ∈ acts, a.Legal (gmInitWithStandard s' V)) → ∃ V', runActs acts (gmInitWithStandard s' V) = .ok V' ∧ MFValid (gmInitWithStandard s' V) V' := by
  obtain ⟨s', M', h, hlam, hW, hg, ⟨thr, hA⟩, -, -, he⟩ := C65_valid_parameters hK hB hK0 hB0 hw hC hp
  have eK : s'.base.K = s.base.K := by rw [he]
  have eB : s'.base.B = s.base.B := by rw [he]
  have hA01 : ∀ i < s.base.K, ∀ j < s.base.K, s'.A i j = 0 ∨ s'.A i j = 1 := by
    intro i hi j hj
    rw [hA i hi j hj]
    split
    · exact Or.inr rfl
    · exact Or.inl rfl
  refine ⟨s', M', h, ?_, ?_, ?_⟩
  · intro k hk hb
    unfold MFBias.eLam gmInitWithStandard
    dsimp only
    rw [hlam k hk, max_eq_right (by linarith)]
    ring
  · intro i hi j hj
    refine ⟨?_, ?_⟩
    · unfold gmInitWithStandard
      dsimp only
      rcases hA01 i hi j hj with h | h <;> rw [h] <;> norm_num
    · unfold MFWeights.eWGivenA gmInitWithStandard
      dsimp only
      rw [(hW i hi j hj).1]
      ring
  · intro acts hl
    exact (C65_legal_variational_start (s := s') (V := V) (by rw [eK]; exact hVK) (by rw [eB]; exact hVB) (fun i hi j hj => (hW i (by omega) j (by omega)).2)
      (fun i hi j hj b hb => (hg i (by omega) j (by omega)).1 b (by omega)) (fun i hi j hj => hA01 i (by omega) j (by omega)) hbias himp hww hnet hdata acts hl).2

/-! ### Without a standard model -/

/-- `fit_with_bfgs` only changes the weights, and leaves in every row what the optimiser returned -/
theorem fitBfgs_keeps (opt : ℕ → StdModel → Vec ℝ) (M : StdModel) (hopt : ∀ k < M.K, ∀ w : Mat ℝ, InBfgsBox M (opt k { M with weights := w })) :
    ∃ w : Mat ℝ, fitBfgs opt M = { M with weights := w } ∧ ∀ k < M.K, InBfgsBox M (w k) := by
  have loop : ∀ n ≤ M.K, ∃ w : Mat ℝ, forRange n (fun k M => M.setRow k (opt k M)) M = { M with weights := w } ∧ ∀ k < n, InBfgsBox M (w k) := by
    intro n hn
    induction n with
    | zero => exact ⟨M.weights, rfl, fun k hk => absurd hk (by omega)⟩
    | succ n ih =>
      obtain ⟨w, hw, h⟩ := ih (by omega)
      refine ⟨fun i => if i = n then opt n { M with weights := w } else w i, ?_, ?_⟩
      · rw [forRange_succ, hw]; rfl
      · intro k hk
        dsimp only
        split
        · exact hopt n (by omega) w
        · exact h k (by omega)
  exact loop M.K le_rfl

/-- **C65 (no standard model given).** `initialize_with_standard_model()` fits its own standard model to the counts of the data sets. Whenever the optimiser respects its bounds the call succeeds (a bin width
and data sets with at least one bin given) and leaves valid parameters: background rates at least `1e-16`, weights positive, impulse weights positive probability vectors, 0/1 edges above a common threshold. -/
theorem C65_fresh_standard_model {s : HawkesState} {C : ℕ} {p : Mat ℝ} (opt : ℕ → StdModel → Vec ℝ) (L : ℕ) (basis : Mat ℝ) (hL : 0 < L) (hK0 : 0 < s.base.K) (hB0 : 0 < s.base.B) (hdt : 0 < s.base.dt)
    (hT : ∀ D ∈ s.data, 0 < D.T) (hopt : ∀ k M, InBfgsBox M (opt k M)) (hC : 0 < C) (hp : 0 ≤ meanEntry C p ∧ meanEntry C p ≤ 1) :
    ∃ s', initWithFreshStandard opt L basis C p s = .ok s' ∧
      (∀ k < s.base.K, 1e-16 ≤ s'.base.lam0 k) ∧ (∀ i < s.base.K, ∀ j < s.base.K, 0 < s'.W i j) ∧
      (∀ i < s.base.K, ∀ j < s.base.K, (∀ b < s.base.B, 0 < s'.base.g i j b) ∧ ∑ b ∈ range s.base.B, s'.base.g i j b = 1) ∧
      (∃ thr, ∀ i < s.base.K, ∀ j < s.base.K, s'.A i j = if thr < s'.W i j then 1 else 0) ∧
      s' = { s with base := { s.base with lam0 := s'.base.lam0, g := s'.base.g }, A := s'.A, W := s'.W } := by
  obtain ⟨M0, hM0, e0⟩ : ∃ M0, stdNew { K := s.base.K, B := s.base.B, L := L, dt := s.base.dt, alpha := 1, beta := 1, allowInstantaneous := false, allowSelf := true, wMax := none, basis := basis } = .ok M0 ∧
      (M0.K = s.base.K ∧ M0.B = s.base.B ∧ M0.L = L ∧ M0.dt = s.base.dt ∧ M0.data = []) := by
    unfold stdNew
    simp
  obtain ⟨M1, hM1, e1⟩ := forListE_inv_ok (fun M : StdModel => M.K = s.base.K ∧ M.B = s.base.B ∧ M.L = L ∧ M.dt = s.base.dt ∧ ∀ D ∈ M.data, 0 < D.T)
    (fun (D : DParents ℝ) (M : StdModel) => stdAddData { T := D.T, KS := s.base.K, isInt := true, S := fun t k => (D.S t k : ℤ), F := none, minibatch := none } M) s.data M0
    ⟨e0.1, e0.2.1, e0.2.2.1, e0.2.2.2.1, by rw [e0.2.2.2.2]; simp⟩ (by
      rintro D hD M ⟨h1, h2, h3, h4, h5⟩
      have hTD := hT D hD
      obtain ⟨F, hF, -⟩ := C02_convolve_eq_filtered D.T M.K M.L M.B M.basis (fun t k => (((D.S t k : ℤ)) : ℝ)) hTD (by omega) (by omega) (by omega)
      unfold stdAddData
      dsimp only
      rw [if_neg (by omega), if_neg (by omega), if_neg (by simp)]
      unfold stdMakeData
      dsimp only
      rw [hF]
      refine ⟨_, rfl, h1, h2, h3, h4, ?_⟩
      intro D' hD'
      dsimp only at hD'
      rcases List.mem_append.1 hD' with h | h
      · exact h5 D' h
      · rw [List.mem_singleton.1 h]; exact hTD)
  obtain ⟨f1, f2, f3, f4, f5⟩ := e1
  obtain ⟨M2, hM2, g1, g2⟩ : ∃ M2, initBackground M1 = .ok M2 ∧ M2.K = s.base.K ∧ M2.B = s.base.B := by
    unfold initBackground
    split
    · next hpos =>
      dsimp only
      rw [if_neg]
      · exact ⟨_, rfl, f1, f2⟩
      · have : M1.data.foldl (fun acc D => acc + (D.T : ℝ) * M1.dt) 0 = 0 + (M1.data.map fun D => (D.T : ℝ) * M1.dt).sum := by rw [foldl_add_list]
        rw [this, zero_add, f4]
        refine (List.sum_pos _ ?_ ?_).ne'
        · intro x hx
          obtain ⟨D, hD, rfl⟩ := List.mem_map.1 hx
          have := f5 D hD
          positivity
        · intro h
          rw [List.map_eq_nil_iff] at h
          rw [h] at hpos; simp at hpos
    · exact ⟨M1, rfl, f1, f2⟩
  obtain ⟨w, hfit, hw⟩ := fitBfgs_keeps opt M2 (fun k _ w => by
    have := hopt k { M2 with weights := w }
    exact this)
  obtain ⟨s', M', h, hlam, hW, hg, hA, -, -, he⟩ := C65_valid_parameters (M := fitBfgs opt M2) (s := s) (C := C) (p := p) (by rw [hfit]; exact g1) (by rw [hfit]; exact g2) hK0 hB0
    (by
      rw [hfit]
      intro k hk c hc
      have := (hw k hk c hc).1
      exact lt_of_lt_of_le (by norm_num) this) hC hp
  refine ⟨s', ?_, ?_, fun i hi j hj => (hW i hi j hj).2, fun i hi j hj => ⟨(hg i hi j hj).1, (hg i hi j hj).2.1⟩, hA, he⟩
  · unfold initWithFreshStandard
    simp only [hM0, hM1, hM2, h]
  · intro k hk
    rw [hlam k hk, hfit]
    exact (hw k (by omega) 0 (by unfold StdModel.n; omega)).1

/-- the hypotheses of `C65_valid_parameters` are met by the two-process example, with any network -/
example (net : Net) : ∃ s' M', initWithStandard true 1 (fun _ _ => 1 / 2) selfStd (selfNet net) = .ok (s', M') ∧ s'.W 1 0 = 1 + 1e-6 := by
  obtain ⟨s', M', h, -, hW, -⟩ := C65_valid_parameters (M := selfStd) (s := selfNet net) (C := 1) (p := fun _ _ => 1 / 2) rfl rfl Nat.two_pos Nat.one_pos selfStd_pos Nat.one_pos
    (by simp [meanEntry]; norm_num)
  exact ⟨s', M', h, by rw [(hW 1 Nat.one_lt_two 0 Nat.two_pos).1]; norm_num [selfStd, selfNet]⟩

end PyHawkes
