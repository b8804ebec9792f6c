import Verif.Props.XCorr
import Verif.Model.InferNet
import Verif.Spec.InferNet

/-! # C100: the network inferred from cross-correlations -/

namespace PyHawkes
open Finset Spec

theorem fxRowSum_fin (n : ℕ) (f : ℕ → FX) (x : ℕ → ℝ) (h : ∀ d < n, f d = .fin (x d)) : fxRowSum n f = .fin (∑ d ∈ range n, x d) := by
  unfold fxRowSum
  induction n with
  | zero => simp
  | succ n ih =>
    rw [forRange_succ, ih fun d hd => h d (by omega), h n (by omega), sum_range_succ]
    rfl

theorem fxRowSum_nan (n : ℕ) (f : ℕ → FX) {d : ℕ} (hd : d < n) (h : f d = .nan) : fxRowSum n f = .nan := by
  unfold fxRowSum
  induction n with
  | zero => omega
  | succ n ih =>
    rw [forRange_succ]
    by_cases e : d = n
    · subst e
      rw [h]
      cases forRange d (fun d acc => acc + f d) (.fin 0) <;> rfl
    · rw [ih (by omega)]; rfl

/-- the smoothing step succeeds, with the moving averages -/
theorem smoothing_ok (T : ℕ) (S : Mat ℝ) (smooth : Option ℕ) (hw : smooth ≠ some 0) :
    smoothInput T S smooth = .ok (smoothedRows T smooth, smoothedData S smooth) := by
  cases smooth with
  | none => rfl
  | some w =>
    obtain ⟨r, h1, h2⟩ := C64_window_mean T S (window := w) (Nat.pos_of_ne_zero fun h => hw (by rw [h]))
    have : r = smoothedData S (some w) := by funext t k; exact h2 t k
    rw [← this]
    exact h1

open Classical in
/-- **C100 (values).** If the smoothing window is not zero and the number of lags is at most the number of (smoothed) rows plus one, `infer_net_from_xcorr` succeeds. Entry `(i,j)` is the sum
over the lags of the absolute correlation of column `i` with column `j` that much later, leaving out lag 0 on the diagonal; it is `nan` exactly if one of the samples involved is constant. -/
theorem C100_values (T N : ℕ) (S : Mat ℝ) {dtmax : ℕ} (smooth : Option ℕ) (hw : smooth ≠ some 0) (hd : dtmax ≤ smoothedRows T smooth + 1) :
    ∃ R, inferNet T N S dtmax smooth = .ok R ∧ ∀ i < N, ∀ j < N,
      R i j = if AllVary (smoothedRows T smooth) (smoothedData S smooth) dtmax i j then .fin (lagScore (smoothedRows T smooth) (smoothedData S smooth) dtmax i j) else .nan := by
  obtain ⟨H, h1, h2⟩ := C63_values (smoothedRows T smooth) N (smoothedData S smooth) hd
  have hc : ∀ {i}, i < N → 0 < dtmax → ¬ Varies (smoothedRows T smooth) (fun t => smoothedData S smooth t i) → H i i 0 = .nan := by
    intro i hi h0 hv
    have hcst : ∀ t < smoothedRows T smooth, smoothedData S smooth t i = smoothedData S smooth 0 i := by
      intro t ht
      by_contra hne
      exact hv ⟨t, ht, 0, by omega, hne⟩
    obtain ⟨H', e1, e2⟩ := C63_constant_column_violated hd h0 hi hcst
    rw [h1] at e1
    cases e1
    exact e2
  refine ⟨fun i j => fxRowSum dtmax fun d => fxAbs (H i j d), ?_, fun i hi j hj => ?_⟩
  · unfold inferNet
    rw [smoothing_ok T S smooth hw]
    dsimp only
    rw [h1]
  · split
    · rename_i hv
      refine fxRowSum_fin _ _ _ fun d hdd => ?_
      split
      · rename_i e
        obtain ⟨rfl, rfl⟩ := e
        rw [(h2 i hi i hj 0 hdd).2.1 rfl rfl (hv 0 hdd).1]
        simp [fxAbs]
      · rename_i e
        have e' : i ≠ j ∨ d ≠ 0 := by by_contra hh; push Not at hh; exact e hh
        rw [(h2 i hi j hj d hdd).1 e', correlation, if_pos (hv d hdd)]
        rfl
    · rename_i hv
      unfold AllVary at hv
      push Not at hv
      obtain ⟨d, hdd, hn⟩ := hv
      refine fxRowSum_nan _ _ hdd ?_
      by_cases e : i = j ∧ d = 0
      · obtain ⟨rfl, rfl⟩ := e
        have : ¬ Varies (smoothedRows T smooth) (fun t => smoothedData S smooth t i) := by
          intro h
          have h3 := hn (by simpa using h)
          simp only [Nat.sub_zero, zero_add] at h3
          exact h3 h
        rw [hc hi (by omega) this]
        rfl
      · have e' : i ≠ j ∨ d ≠ 0 := by by_contra hh; push Not at hh; exact e hh
        rw [(h2 i hi j hj d hdd).1 e', correlation, if_neg fun h => hn h.1 h.2]
        rfl

/-- **C100 (range).** Every score lies between 0 and the number of lags; on the diagonal, the number of lags minus one. -/
theorem C100_range (T : ℕ) (S : Mat ℝ) (dtmax i j : ℕ) :
    0 ≤ lagScore T S dtmax i j ∧ lagScore T S dtmax i j ≤ dtmax ∧ (i = j → 0 < dtmax → lagScore T S dtmax i j ≤ dtmax - 1) := by
  have b : ∀ d, (0:ℝ) ≤ (if i = j ∧ d = 0 then 0 else |pearson (T - d) (fun t => S t i) (fun t => S (d + t) j)|) ∧
      (if i = j ∧ d = 0 then 0 else |pearson (T - d) (fun t => S t i) (fun t => S (d + t) j)|) ≤ 1 := by
    intro d
    split
    · exact ⟨le_rfl, zero_le_one⟩
    · exact ⟨abs_nonneg _, pearson_abs_le _ _ _⟩
  unfold lagScore
  refine ⟨sum_nonneg fun d _ => by convert (b d).1, ?_, fun hij h0 => ?_⟩
  · refine (sum_le_sum (g := fun _ => (1:ℝ)) fun d _ => by convert (b d).2).trans ?_
    simp
  · obtain ⟨n, rfl⟩ : ∃ n, dtmax = n + 1 := ⟨dtmax - 1, by omega⟩
    rw [sum_range_succ' _ n, if_pos ⟨hij, rfl⟩]
    refine (add_le_add_left (sum_le_sum (g := fun _ => (1:ℝ)) fun d _ => by convert (b (d + 1)).2) _).trans ?_
    simp

theorem avg_affine {m : ℕ} (hm : 0 < m) (x : Vec ℝ) (a b : ℝ) : avg m (fun t => a * x t + b) = a * avg m x + b := by
  have : (m : ℝ) ≠ 0 := by exact_mod_cast hm.ne'
  unfold avg
  rw [sum_add_distrib, ← mul_sum, sum_const, card_range, nsmul_eq_mul]
  field_simp

/-- rescaling and shifting the two samples changes at most the sign of their correlation -/
theorem pearson_affine (m : ℕ) (x y : Vec ℝ) {a c : ℝ} (b e : ℝ) (ha : a ≠ 0) (hc : c ≠ 0) :
    |pearson m (fun t => a * x t + b) (fun t => c * y t + e)| = |pearson m x y| := by
  rcases Nat.eq_zero_or_pos m with rfl | hm
  · simp [pearson]
  unfold pearson
  simp only [avg_affine hm]
  have n1 : ∑ t ∈ range m, (a * x t + b - (a * avg m x + b)) * (c * y t + e - (c * avg m y + e)) = (a * c) * ∑ t ∈ range m, (x t - avg m x) * (y t - avg m y) := by
    rw [mul_sum]; exact sum_congr rfl fun t _ => by ring
  have n2 : ∑ t ∈ range m, (a * x t + b - (a * avg m x + b)) ^ 2 = a ^ 2 * ∑ t ∈ range m, (x t - avg m x) ^ 2 := by
    rw [mul_sum]; exact sum_congr rfl fun t _ => by ring
  have n3 : ∑ t ∈ range m, (c * y t + e - (c * avg m y + e)) ^ 2 = c ^ 2 * ∑ t ∈ range m, (y t - avg m y) ^ 2 := by
    rw [mul_sum]; exact sum_congr rfl fun t _ => by ring
  rw [n1, n2, n3]
  have n4 : a ^ 2 * (∑ t ∈ range m, (x t - avg m x) ^ 2) * (c ^ 2 * ∑ t ∈ range m, (y t - avg m y) ^ 2)
      = (a * c) ^ 2 * ((∑ t ∈ range m, (x t - avg m x) ^ 2) * ∑ t ∈ range m, (y t - avg m y) ^ 2) := by ring
  rw [n4, Real.sqrt_mul (sq_nonneg _), Real.sqrt_sq_eq_abs, abs_div, abs_div, abs_mul, abs_mul |a * c|, abs_abs]
  exact mul_div_mul_left _ _ (abs_ne_zero.2 (mul_ne_zero ha hc))

theorem varies_affine (m : ℕ) (x : Vec ℝ) {a : ℝ} (b : ℝ) (ha : a ≠ 0) : Varies m (fun t => a * x t + b) ↔ Varies m x := by
  unfold Varies
  refine exists_congr fun s => and_congr_right fun _ => exists_congr fun t => and_congr_right fun _ => not_congr ?_
  constructor
  · intro h; exact mul_left_cancel₀ ha (by linarith)
  · intro h; dsimp only; rw [h]

theorem smoothedData_affine (S : Mat ℝ) (a b : Vec ℝ) (smooth : Option ℕ) (hw : smooth ≠ some 0) :
    smoothedData (fun t k => a k * S t k + b k) smooth = fun t k => a k * smoothedData S smooth t k + b k := by
  cases smooth with
  | none => rfl
  | some w =>
    have hw0 : (w : ℝ) ≠ 0 := by
      have : w ≠ 0 := fun h => hw (by rw [h])
      exact_mod_cast this
    funext t k
    simp only [smoothedData]
    rw [sum_add_distrib, ← mul_sum, sum_const, card_range, nsmul_eq_mul]
    field_simp

/-- **C100 (units do not matter).** Measuring any of the columns in other units (multiplying by nonzero factors, which may be negative, and adding offsets) leaves every entry of the result unchanged, including which
entries are `nan`. -/
theorem C100_affine_invariant (T N : ℕ) (S : Mat ℝ) {dtmax : ℕ} (smooth : Option ℕ) (hw : smooth ≠ some 0) (hd : dtmax ≤ smoothedRows T smooth + 1) (a b : Vec ℝ) (ha : ∀ k < N, a k ≠ 0) :
    ∃ R R', inferNet T N S dtmax smooth = .ok R ∧ inferNet T N (fun t k => a k * S t k + b k) dtmax smooth = .ok R' ∧ ∀ i < N, ∀ j < N, R i j = R' i j := by
  classical
  obtain ⟨R, h1, h2⟩ := C100_values T N S smooth hw hd
  obtain ⟨R', h3, h4⟩ := C100_values T N (fun t k => a k * S t k + b k) smooth hw hd
  refine ⟨R, R', h1, h3, fun i hi j hj => ?_⟩
  rw [h2 i hi j hj, h4 i hi j hj, smoothedData_affine S a b smooth hw]
  have v : AllVary (smoothedRows T smooth) (fun t k => a k * smoothedData S smooth t k + b k) dtmax i j ↔ AllVary (smoothedRows T smooth) (smoothedData S smooth) dtmax i j := by
    unfold AllVary
    refine forall_congr' fun d => imp_congr_right fun _ => and_congr ?_ ?_
    · exact varies_affine _ (fun t => smoothedData S smooth t i) (b i) (ha i hi)
    · exact varies_affine _ (fun t => smoothedData S smooth (d + t) j) (b j) (ha j hj)
  have l : lagScore (smoothedRows T smooth) (fun t k => a k * smoothedData S smooth t k + b k) dtmax i j = lagScore (smoothedRows T smooth) (smoothedData S smooth) dtmax i j := by
    unfold lagScore
    refine sum_congr rfl fun d _ => ?_
    by_cases e : i = j ∧ d = 0
    · rw [if_pos e, if_pos e]
    · rw [if_neg e, if_neg e]
      exact pearson_affine _ (fun t => smoothedData S smooth t i) (fun t => smoothedData S smooth (d + t) j) (b i) (b j) (ha i hi) (ha j hj)
  simp only [v, l]

theorem pearson_self {m : ℕ} {x : Vec ℝ} (h : Varies m x) : pearson m x x = 1 := by
  have hp := varies_iff.1 h
  unfold pearson
  rw [Real.sqrt_mul_self hp.le, sum_congr rfl fun t _ => (sq (x t - avg m x)).symm, div_self hp.ne']

/-- **C100 (a delayed copy is found).** If column `j` repeats column `i` (up to units and sign) some `d < dtmax` bins later, then entry `(i,j)` is `nan` or at least 1. -/
theorem C100_delayed_copy (T : ℕ) (S : Mat ℝ) {dtmax d i j : ℕ} (hd : d < dtmax) (hne : ¬ (i = j ∧ d = 0)) (hv : AllVary T S dtmax i j) {a b : ℝ} (ha : a ≠ 0)
    (hcopy : ∀ t < T - d, S (d + t) j = a * S t i + b) : 1 ≤ lagScore T S dtmax i j := by
  have e : |pearson (T - d) (fun t => S t i) (fun t => S (d + t) j)| = 1 := by
    have c : pearson (T - d) (fun t => S t i) (fun t => S (d + t) j) = pearson (T - d) (fun t => 1 * S t i + 0) (fun t => a * S t i + b) := by
      have av : avg (T - d) (fun t => S (d + t) j) = avg (T - d) (fun t => a * S t i + b) := by
        unfold avg; rw [sum_congr rfl fun t ht => hcopy t (mem_range.1 ht)]
      unfold pearson
      simp only [one_mul, add_zero, av]
      rw [sum_congr rfl fun t ht => by rw [hcopy t (mem_range.1 ht)]]
      congr 3
      exact sum_congr rfl fun t ht => by rw [hcopy t (mem_range.1 ht)]
    rw [c, pearson_affine _ _ _ 0 b one_ne_zero ha, pearson_self (hv d hd).1, abs_one]
  unfold lagScore
  refine le_trans ?_ (single_le_sum (f := fun d => if i = j ∧ d = 0 then (0:ℝ) else |pearson (T - d) (fun t => S t i) (fun t => S (d + t) j)|) (fun d _ => ?_) (mem_range.2 hd)) |>.trans (le_of_eq ?_)
  · rw [if_neg hne, e]
  · split
    · exact le_rfl
    · exact abs_nonneg _
  · exact sum_congr rfl fun d _ => by congr

/-- a zero window is rejected -/
theorem C100_zero_window {T : ℕ} (hT : 0 < T) (N : ℕ) (S : Mat ℝ) (dtmax : ℕ) : inferNet T N S dtmax (some 0) = .error .value := by
  unfold inferNet
  simp only [smoothInput, C64_zero_window_rejected hT S]

/-- a recording in which the second column repeats the first one bin later: all samples vary, so the scores are numbers -/
example : AllVary 6 (fun t k => if (t + k) % 2 = 0 then (1:ℝ) else 0) 3 0 1 ∧ ∀ t < 6 - 1, (fun t k => if (t + k) % 2 = 0 then (1:ℝ) else 0) (1 + t) 1 = 1 * (fun t k => if (t + k) % 2 = 0 then (1:ℝ) else 0) t 0 + 0 := by
  refine ⟨fun d hd => ⟨⟨0, by omega, 1, by omega, by norm_num⟩, ⟨0, by omega, 1, by omega, ?_⟩⟩, fun t _ => ?_⟩
  · interval_cases d <;> norm_num
  · have : (1 + t + 1) % 2 = t % 2 := by omega
    simp [this]

end PyHawkes
