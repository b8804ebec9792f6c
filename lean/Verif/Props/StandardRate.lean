import Verif.Props.StandardFit
import Verif.Props.StandardMisc

/-!
# C92: the standard model's `compute_rate` is bias plus weighted filtered history of the data set asked for
-/
set_option linter.unusedSectionVars false
set_option linter.unusedVariables false

namespace PyHawkes
open Finset Spec

/-- rate of process `k` of the standard model: bias plus the weighted filtered counts -/
noncomputable def Spec.stdRate (M : StdModel) (S : Mat ℤ) (k t : ℕ) : ℝ :=
  M.weights k 0 + ∑ i ∈ range M.K, ∑ b ∈ range M.B, M.weights k (1 + i * M.B + b) * filtered M.L M.basis (fun t k => (S t k : ℝ)) t i b

theorem std_sum_cols (K B : ℕ) (f : ℕ → ℝ) : ∑ c ∈ range (K * B), f c = ∑ i ∈ range K, ∑ b ∈ range B, f (i * B + b) := by
  induction K with
  | zero => simp
  | succ K ih => rw [Nat.succ_mul, Finset.sum_range_add, ih, sum_range_succ]

theorem std_add_plain {T KS : ℕ} {isInt : Bool} {S : Mat ℤ} {M M1 : StdModel} (h : stdAddData { T := T, KS := KS, isInt := isInt, S := S, F := none, minibatch := none } M = .ok M1) :
    ∃ D : StdData, M1 = { M with data := M.data ++ [D] } ∧ D.T = T ∧ D.cols = M.n ∧ ∀ k, ∀ t < T, M.rate D k t = stdRate M S k t := by
  unfold stdAddData at h
  dsimp only at h
  split at h
  · cases h
  split at h
  · cases h
  split at h
  · cases h
  cases hmk : stdMakeData { T := T, KS := KS, isInt := isInt, S := S, F := none, minibatch := none } M with
  | error e => rw [hmk] at h; cases h
  | ok D =>
    rw [hmk] at h
    have h := Except.ok.inj h
    unfold stdMakeData at hmk
    dsimp only at hmk
    cases hc : convolve T M.K M.L M.B M.basis (fun t k => (S t k : ℝ)) with
    | error e => rw [hc] at hmk; cases hmk
    | ok F =>
      rw [hc] at hmk
      have hmk := Except.ok.inj hmk
      refine ⟨D, h.symm, by rw [← hmk], by rw [← hmk, StdModel.n], fun k t ht => ?_⟩
      obtain ⟨_, _, _, hB⟩ := convolve_ok_pos hc
      rw [← hmk]
      unfold StdModel.rate StdModel.n stdRate
      dsimp only
      rw [add_comm 1 (M.K * M.B), sum_range_succ', std_sum_cols, add_comm]
      congr 1
      · exact one_mul _
      · refine sum_congr rfl fun i hi => sum_congr rfl fun b hb => ?_
        have hb := mem_range.1 hb
        have e1 : (i * M.B + b) / M.B = i := by rw [mul_comm, Nat.mul_add_div hB, Nat.div_eq_of_lt hb, add_zero]
        have e2 : (i * M.B + b) % M.B = b := by rw [mul_comm, Nat.mul_add_mod, Nat.mod_eq_of_lt hb]
        simp only [consVec, ravel, e1, e2]
        rw [convolve_ok_eq hc t ht i (mem_range.1 hi) b hb, mul_comm, show i * M.B + b + 1 = 1 + i * M.B + b by omega]

/-- the processes a `ks` argument asks for -/
def Spec.asked (K : ℕ) : KsArg → List ℕ
  | .none => List.range K
  | .int k => [k]
  | .arr l => l
  | .other => []

theorem cols_asked {K : ℕ} {ks : KsArg} (h0 : asked K ks ≠ []) (h : ∀ k ∈ asked K ks, k < K) : ks.cols K = .ok (asked K ks) := by
  cases ks with
  | none =>
    simp only [asked, ne_eq, List.range_eq_nil] at h0
    simp only [KsArg.cols, if_neg h0, asked]
  | int k => simp only [KsArg.cols, asked, if_pos (h k (by simp [asked]))]
  | arr l => simp only [KsArg.cols, asked]; rw [if_neg (show ¬ l = [] from h0), if_pos (show ∀ k ∈ l, k < K from h)]
  | other => exact absurd rfl h0

/-- **C92 (the new data set).** After `add_data(S)`, `compute_rate` of the new data set – by its position or as `-1` – returns, for every process asked for (one, several or all), bias plus weighted filtered history of `S` in every bin. -/
theorem C92_rate_of_added_data {T KS : ℕ} {isInt : Bool} {S : Mat ℤ} {M M1 : StdModel} (h : stdAddData { T := T, KS := KS, isInt := isInt, S := S, F := none, minibatch := none } M = .ok M1)
    {ks : KsArg} (h0 : asked M.K ks ≠ []) (hk : ∀ k ∈ asked M.K ks, k < M.K) :
    ∃ cols, stdComputeRate M1 (some (M.data.length : ℤ)) ks = .ok cols ∧ stdComputeRate M1 (some (-1)) ks = .ok cols ∧
      List.Forall₂ (fun k col => ∀ t < T, col t = stdRate M S k t) (asked M.K ks) cols := by
  obtain ⟨D, rfl, hT, hcol, hr⟩ := std_add_plain h
  have e1 : pyIdx (M.data ++ [D]).length (M.data.length : ℤ) = some M.data.length := by
    unfold pyIdx
    rw [if_pos (by simp)]; simp
  have e2 : pyIdx (M.data ++ [D]).length (-1) = some M.data.length := by
    unfold pyIdx
    rw [if_neg (by simp), if_pos (by simp)]; simp
  have e3 : (M.data ++ [D])[M.data.length]? = some D := by simp
  have e4 := cols_asked h0 hk
  refine ⟨(asked M.K ks).map fun k t => M.rate D k t, ?_, ?_, ?_⟩
  · unfold stdComputeRate
    dsimp only [Option.getD_some]
    rw [e1]; dsimp only
    rw [e3]; dsimp only
    rw [e4]; dsimp only
    rw [if_neg (by rw [hcol]; exact fun h => h rfl)]
    rfl
  · unfold stdComputeRate
    dsimp only [Option.getD_some]
    rw [e2]; dsimp only
    rw [e3]; dsimp only
    rw [e4]; dsimp only
    rw [if_neg (by rw [hcol]; exact fun h => h rfl)]
    rfl
  · rw [List.forall₂_map_right_iff]
    exact List.forall₂_same.2 fun k _ t ht => hr k t ht

theorem std_add_append {a : StdAddArgs} {M M1 : StdModel} (h : stdAddData a M = .ok M1) : ∃ l, M1 = { M with data := M.data ++ l } := by
  unfold stdAddData at h
  split at h
  · cases h
  split at h
  · cases h
  split at h
  · cases h
  split at h
  · cases h
  split at h
  · exact ⟨_, (Except.ok.inj h).symm⟩
  split at h
  · cases h
  split at h
  · exact ⟨[], by rw [List.append_nil, ← Except.ok.inj h]⟩
  · exact ⟨_, (Except.ok.inj h).symm⟩

/-- **C92 (earlier data sets).** Adding data does not change the rates of the data sets added before, addressed by position. -/
theorem C92_earlier_data_unchanged {a : StdAddArgs} {M M1 : StdModel} (h : stdAddData a M = .ok M1) {i : ℕ} (hi : i < M.data.length) (ks : KsArg) :
    stdComputeRate M1 (some (i : ℤ)) ks = stdComputeRate M (some (i : ℤ)) ks := by
  obtain ⟨l, rfl⟩ := std_add_append h
  have e1 : pyIdx (M.data ++ l).length (i : ℤ) = some i := by
    unfold pyIdx
    rw [if_pos (by rw [List.length_append]; push_cast; omega)]; simp
  have e2 : pyIdx M.data.length (i : ℤ) = some i := by
    unfold pyIdx
    rw [if_pos (by omega)]; simp
  unfold stdComputeRate
  dsimp only [Option.getD_some]
  rw [e1, e2]
  dsimp only
  rw [List.getElem?_append_left hi]
  rfl

/-- **C92 (default).** `compute_rate()` without an index is `compute_rate(0)`; hence after `add_data(S)` on a model without data, and any number of further calls, it returns the rates for `S`. -/
theorem C92_default_is_first_data {T KS : ℕ} {isInt : Bool} {S : Mat ℤ} {M M1 M2 : StdModel} (hM : M.data = [])
    (h : stdAddData { T := T, KS := KS, isInt := isInt, S := S, F := none, minibatch := none } M = .ok M1) (more : List StdAddArgs) (h2 : forListE more stdAddData M1 = .ok M2)
    {ks : KsArg} (h0 : asked M.K ks ≠ []) (hk : ∀ k ∈ asked M.K ks, k < M.K) :
    ∃ cols, stdComputeRate M2 none ks = .ok cols ∧ List.Forall₂ (fun k col => ∀ t < T, col t = stdRate M S k t) (asked M.K ks) cols := by
  obtain ⟨cols, h1, -, h3⟩ := C92_rate_of_added_data h h0 hk
  refine ⟨cols, ?_, h3⟩
  have hd : stdComputeRate M2 none ks = stdComputeRate M2 (some (0 : ℤ)) ks := rfl
  rw [hM] at h1
  replace h1 : stdComputeRate M1 (some ((0 : ℕ) : ℤ)) ks = .ok cols := h1
  have hlen : 0 < M1.data.length := by
    obtain ⟨D, rfl, -⟩ := std_add_plain h
    simp
  rw [hd]
  change stdComputeRate M2 (some ((0 : ℕ) : ℤ)) ks = .ok cols
  rw [← h1]
  clear h h1 hd h3
  induction more generalizing M1 with
  | nil => rw [← Except.ok.inj h2]
  | cons a more ih =>
    rw [forListE] at h2
    cases ha : stdAddData a M1 with
    | error e => rw [ha] at h2; cases h2
    | ok M1' =>
      rw [ha] at h2
      have e := C92_earlier_data_unchanged ha hlen ks
      have : 0 < M1'.data.length := by
        obtain ⟨l, rfl⟩ := std_add_append ha
        rw [List.length_append]; omega
      rw [ih h2 this, e]

/-- two processes, three bins: the hypotheses are met and the rate has the expected value -/
noncomputable def twoStd : StdModel := { K := 2, B := 1, L := 2, dt := 1, alpha := 1, beta := 1, allowSelf := true, wMax := none, basis := fun l _ => if l = 1 then 1 else 0, data := [], weights := fun k c => if c = 0 then 1 else k + c }

example : ∃ M1 cols, stdAddData { T := 3, KS := 2, isInt := true, S := fun t k => if t = 0 ∧ k = 1 then 4 else 0, F := none, minibatch := none } twoStd = .ok M1 ∧ stdComputeRate M1 none (.int 1) = .ok cols ∧
    ∃ r, cols = [r] ∧ r 1 = 13 := by
  obtain ⟨F, hF, -⟩ := C02_convolve_eq_filtered (R := ℝ) 3 2 2 1 twoStd.basis (fun t k => (((if t = 0 ∧ k = 1 then 4 else 0 : ℤ)) : ℝ)) (by decide) (by decide) (by decide) (by decide)
  have h : ∃ M1, stdAddData { T := 3, KS := 2, isInt := true, S := fun t k => if t = 0 ∧ k = 1 then 4 else 0, F := none, minibatch := none } twoStd = .ok M1 := by
    unfold stdAddData stdMakeData
    dsimp only
    rw [if_neg (by simp [twoStd]), if_neg (by simp), if_neg (by
      simp only [not_not, and_true]
      intro t _ k _
      split_ifs <;> norm_num)]
    have hF' : convolve 3 twoStd.K twoStd.L twoStd.B twoStd.basis (fun t k => (((if t = 0 ∧ k = 1 then 4 else 0 : ℤ)) : ℝ)) = .ok F := hF
    rw [hF']
    exact ⟨_, rfl⟩
  obtain ⟨M1, h1⟩ := h
  obtain ⟨cols, h2, h3⟩ := C92_default_is_first_data (M := twoStd) rfl h1 [] rfl (ks := .int 1) (by simp [asked]) (by simp [asked, twoStd])
  refine ⟨M1, cols, h1, h2, ?_⟩
  rcases h3 with _ | ⟨hr, h4⟩
  rename_i r cols'
  cases h4
  refine ⟨r, rfl, ?_⟩
  rw [hr 1 (by decide)]
  norm_num [stdRate, twoStd, filtered, sum_range_succ]

end PyHawkes
