import Verif.Spec.Merge
import Verif.Props.ScaleRates
set_option linter.unusedSectionVars false
set_option linter.unusedVariables false
/-! # C116: indistinguishable processes may be merged -/
namespace PyHawkes
open Finset Spec

variable {R : Type*} [Field R] [LinearOrder R] [IsStrictOrderedRing R]

theorem filtered_merged (L : ℕ) (basis S : Mat R) (K : ℕ) (c : ℕ → ℕ) (t a b : ℕ) : filtered L basis (mergedCounts K c S) t a b = ∑ k ∈ members K c a, filtered L basis S t k b := by
  unfold filtered mergedCounts
  rw [sum_comm]
  refine sum_congr rfl fun l _ => ?_
  split_ifs
  · rw [mul_sum]
  · rw [sum_const_zero]

theorem sum_members {M : Type*} [AddCommMonoid M] {K n : ℕ} {c : ℕ → ℕ} (h : ∀ k < K, c k < n) (f : ℕ → M) : ∑ a ∈ range n, ∑ k ∈ members K c a, f k = ∑ k ∈ range K, f k :=
  sum_fiberwise_of_maps_to (fun k hk => mem_range.2 (h k (mem_range.1 hk))) f

/-- **C116 (rates).** If all processes of a class have the same total influence on every class, the merged model computes from the merged recording, for each class, exactly the sum of the rates that the original model computes for its processes from the original recording. -/
theorem C116_merged_rates {c : ℕ → ℕ} {P Q : NetParams R} (hm : Merges c P Q) (T : ℕ) (S r : Mat R) (h : computeRate P T P.K S = .ok r) :
    ∃ q, computeRate Q T Q.K (mergedCounts P.K c S) = .ok q ∧ ∀ t < T, ∀ a < Q.K, q t a = ∑ k ∈ members P.K c a, r t k := by
  obtain ⟨hL, hB, hT, hK⟩ := computeRate_pos h
  obtain ⟨-, v⟩ := C05_compute_rate_eq P T P.K S r h
  have hQ : 0 < Q.K := lt_of_le_of_lt (Nat.zero_le _) (hm.lt 0 hK)
  obtain ⟨q, hq⟩ := (C05_compute_rate_ok_iff Q T Q.K (mergedCounts P.K c S) (by rw [hm.L]; exact hL) (by rw [hm.B]; exact hB)).2 ⟨hT, hQ, rfl⟩
  refine ⟨q, hq, fun t ht a ha => ?_⟩
  rw [(C05_compute_rate_eq Q T Q.K _ q hq).2 t ht a ha, hm.lam0 a ha, hm.L, hm.B, hm.basis,
    sum_congr (s₁ := members P.K c a) rfl fun k hk => v t ht k (mem_range.1 (mem_filter.1 hk).1), sum_add_distrib]
  congr 1
  have e1 : ∀ i ∈ range Q.K, ∑ b ∈ range P.B, Q.Weff i a * Q.g i a b * filtered P.L P.basis (mergedCounts P.K c S) t i b
      = ∑ k ∈ members P.K c i, ∑ b ∈ range P.B, (∑ k2 ∈ members P.K c a, P.Weff k k2 * P.g k k2 b) * filtered P.L P.basis S t k b := by
    intro i hi
    rw [sum_comm]
    refine sum_congr rfl fun b hb => ?_
    rw [filtered_merged, mul_sum]
    refine sum_congr rfl fun k hk => ?_
    obtain ⟨hk', hc⟩ := mem_filter.1 hk
    rw [← hc, hm.influence k (mem_range.1 hk') a ha b (mem_range.1 hb)]
  rw [sum_congr rfl e1, sum_members hm.lt fun k => ∑ b ∈ range P.B, (∑ k2 ∈ members P.K c a, P.Weff k k2 * P.g k k2 b) * filtered P.L P.basis S t k b]
  conv_rhs => rw [sum_comm]
  refine sum_congr rfl fun k _ => ?_
  conv_rhs => rw [sum_comm]
  exact sum_congr rfl fun b _ => sum_mul _ _ _

/-- **C116 (predicted events).** So both models predict the same number of events in every bin. -/
theorem C116_predicted_events {c : ℕ → ℕ} {P Q : NetParams R} (hm : Merges c P Q) (T : ℕ) (S r : Mat R) (h : computeRate P T P.K S = .ok r) :
    ∃ q, computeRate Q T Q.K (mergedCounts P.K c S) = .ok q ∧ ∀ t < T, ∑ a ∈ range Q.K, q t a * Q.dt = ∑ k ∈ range P.K, r t k * P.dt := by
  obtain ⟨q, hq, hv⟩ := C116_merged_rates hm T S r h
  refine ⟨q, hq, fun t ht => ?_⟩
  rw [← sum_mul, ← sum_mul, hm.dt, ← sum_members hm.lt fun k => r t k]
  congr 1
  exact sum_congr rfl fun a ha => hv t ht a (mem_range.1 ha)

/-! ### non-vacuity: two identical processes that excite each other and themselves with weight 1, and the one process with weight 2 -/

def twinNet : NetParams ℚ := { K := 2, B := 1, L := 1, dt := 1, basis := fun _ _ => 1, lam0 := fun _ => 1, Weff := fun _ _ => 1, g := fun _ _ _ => 1 }
def oneNet : NetParams ℚ := { K := 1, B := 1, L := 1, dt := 1, basis := fun _ _ => 1, lam0 := fun _ => 2, Weff := fun _ _ => 2, g := fun _ _ _ => 1 }

theorem twin_merges : Merges (fun _ => 0) twinNet oneNet := by
  have hm : ∀ a < 1, members 2 (fun _ => 0) a = {0, 1} := fun a ha => by
    have : a = 0 := by omega
    subst this; rfl
  refine ⟨fun _ _ => Nat.one_pos, rfl, rfl, rfl, rfl, fun a ha => ?_, fun k hk a ha b hb => ?_⟩
  · show (2:ℚ) = ∑ k ∈ members 2 (fun _ => 0) a, 1
    rw [hm a ha]; norm_num
  · show (2:ℚ) * 1 = ∑ k ∈ members 2 (fun _ => 0) a, 1 * 1
    rw [hm a ha]; norm_num

example : ∃ r q, computeRate twinNet 2 2 (fun t k => if t = 0 then (k : ℚ) + 1 else 0) = .ok r ∧ computeRate oneNet 2 1 (mergedCounts 2 (fun _ => 0) fun t k => if t = 0 then (k : ℚ) + 1 else 0) = .ok q ∧
    ∀ t < 2, q t 0 = ∑ k ∈ members 2 (fun _ => 0) 0, r t k := by
  obtain ⟨r, hr⟩ := (C05_compute_rate_ok_iff twinNet 2 2 (fun t k => if t = 0 then (k : ℚ) + 1 else 0) Nat.one_pos Nat.one_pos).2 ⟨by omega, by omega, rfl⟩
  obtain ⟨q, hq, hv⟩ := C116_merged_rates twin_merges 2 _ r hr
  exact ⟨r, q, hr, hq, fun t ht => hv t ht 0 Nat.one_pos⟩

end PyHawkes
