import Verif.Props.StandardHist
import Verif.Model.Copy

/-!
# The standard model: reading properties (C38), held-out evaluation and copying (C39), background rate (C41), initialisation from a network model (C45), BFGS (C71)
-/

set_option linter.unusedSectionVars false

namespace PyHawkes
open Finset Spec

/-! ### C38 -/

theorem block_div {B j b : ℕ} (hb : b < B) : (1 + j * B + b - 1) / B = j := by
  have : 1 + j * B + b - 1 = b + j * B := by omega
  rw [this, Nat.add_mul_div_right _ _ (by omega), Nat.div_eq_of_lt hb, zero_add]

theorem block_lt {K B j b : ℕ} (hj : j < K) (hb : b < B) : 1 + j * B + b < 1 + K * B := by
  have : (j + 1) * B ≤ K * B := Nat.mul_le_mul_right _ hj
  rw [add_mul] at this
  omega

/-- **C38 (values).** Whenever reading `G` succeeds (it does if the weights are positive, `C38_G_total`), for all processes `k1`, `k2` the returned impulse weights sum to one over the basis, and multiplying
them by the summed weights `W[k1,k2]` read before gives back the weights the model had before. -/
theorem C38_G_values {M M' : StdModel} {G : Ten ℝ} {W : Mat ℝ} (h : M.getG = .ok (G, M')) (hW : M.getW = .ok W) :
    ∀ k1 < M.K, ∀ k2 < M.K, ∑ b ∈ range M.B, G k1 k2 b = 1 ∧ W k1 k2 = ∑ b ∈ range M.B, M.weights k2 (1 + k1 * M.B + b) ∧
      ∀ b < M.B, W k1 k2 * G k1 k2 b = M.weights k2 (1 + k1 * M.B + b) := by
  unfold StdModel.getG at h
  dsimp only at h
  split at h
  · cases h
  · next hne =>
    cases h
    unfold StdModel.getW at hW
    split at hW
    · cases hW
    · cases hW
      push Not at hne
      intro k1 hk1 k2 hk2
      have hn := hne k2 hk2 k1 hk1
      have hG : ∀ b < M.B, (if k2 < M.K ∧ 1 ≤ 1 + k1 * M.B + b ∧ 1 + k1 * M.B + b < 1 + M.K * M.B then
          M.weights k2 (1 + k1 * M.B + b) / ∑ b' ∈ range M.B, M.weights k2 (1 + (1 + k1 * M.B + b - 1) / M.B * M.B + b') else M.weights k2 (1 + k1 * M.B + b))
          = M.weights k2 (1 + k1 * M.B + b) / ∑ b ∈ range M.B, M.weights k2 (1 + k1 * M.B + b) := by
        intro b hb
        rw [if_pos ⟨hk2, by omega, block_lt hk1 hb⟩, block_div hb]
      refine ⟨?_, rfl, ?_⟩
      · rw [Finset.sum_congr rfl fun b hb => hG b (Finset.mem_range.1 hb), ← Finset.sum_div, div_self hn]
      · intro b hb
        dsimp only
        rw [hG b hb, mul_div_cancel₀ _ hn]

/-- reading `G` never fails on a model with positive weights -/
theorem C38_G_total {M : StdModel} (hB : 0 < M.B) (hw : ∀ k < M.K, PosRow (1 + M.K * M.B) (M.weights k)) : ∃ G M', M.getG = .ok (G, M') := by
  unfold StdModel.getG
  dsimp only
  rw [if_neg]
  · exact ⟨_, _, rfl⟩
  · rintro ⟨i, hi, j, hj, h⟩
    refine absurd h (Finset.sum_pos ?_ ⟨0, by simpa using hB⟩).ne'
    intro b hb
    exact hw i hi _ (block_lt hj (Finset.mem_range.1 hb))

/-- **C38 (what reading `G` does to the model; the claim that it does nothing is false).** Reading `G` divides the stored weights of every pair of processes by their sum: afterwards `bias` is unchanged, but every
summed weight reads 1, and a second read returns the same `G`. -/
theorem C38_G_overwrites_weights {M M' : StdModel} {G : Ten ℝ} (hB : 0 < M.B) (hK : 0 < M.K) (h : M.getG = .ok (G, M')) :
    M'.getBias = M.getBias ∧ (∃ W', M'.getW = .ok W' ∧ ∀ k1 < M.K, ∀ k2 < M.K, W' k1 k2 = 1) ∧ ∃ G' M'', M'.getG = .ok (G', M'') ∧ ∀ k1 < M.K, ∀ k2 < M.K, ∀ b < M.B, G' k1 k2 b = G k1 k2 b := by
  have hW : M.getW = .ok fun k1 k2 => ∑ b ∈ range M.B, M.weights k2 (1 + k1 * M.B + b) := by unfold StdModel.getW; rw [if_neg (by omega)]
  have hv := C38_G_values h hW
  unfold StdModel.getG at h
  dsimp only at h
  split at h
  · cases h
  · next hne =>
    obtain ⟨hg, hm⟩ := Prod.mk.inj (Except.ok.inj h)
    have hG : ∀ k1 k2 b, G k1 k2 b = M'.weights k2 (1 + k1 * M.B + b) := by
      intro k1 k2 b
      rw [← hg, ← hm]
    have e1 : M'.K = M.K := by rw [← hm]
    have e2 : M'.B = M.B := by rw [← hm]
    have hsum : ∀ k1 < M.K, ∀ k2 < M.K, ∑ b ∈ range M.B, M'.weights k2 (1 + k1 * M.B + b) = 1 := by
      intro k1 hk1 k2 hk2
      rw [← (hv k1 hk1 k2 hk2).1]
      exact Finset.sum_congr rfl fun b _ => (hG k1 k2 b).symm
    refine ⟨?_, ?_, ?_⟩
    · funext k
      rw [← hm]
      simp [StdModel.getBias]
    · unfold StdModel.getW
      rw [e1, e2, if_neg (by omega)]
      exact ⟨_, rfl, hsum⟩
    · unfold StdModel.getG
      dsimp only
      rw [e1, e2, if_neg]
      · refine ⟨_, _, rfl, ?_⟩
        intro k1 hk1 k2 hk2 b hb
        rw [if_pos ⟨hk2, by omega, block_lt hk1 hb⟩, block_div hb, hsum k1 hk1 k2 hk2, div_one, hG]
      · rintro ⟨i, hi, j, hj, h⟩
        rw [hsum j hj i hi] at h
        exact one_ne_zero h

/-- the model with one process, one basis function and weight 2 -/
noncomputable def twoModel : StdModel :=
  { K := 1, B := 1, L := 2, dt := 1, alpha := 1, beta := 1, allowSelf := true, wMax := none, basis := fun l _ => if l = 1 then 1 else 0, weights := fun _ c => if c = 0 then 1 else 2, data := [] }

/-- **C38 (violated).** There is a model on which reading `G` changes the value of `W`: from 2 to 1. -/
theorem C38_reading_G_changes_W_violated : ∃ M M' : StdModel, ∃ G W W', M.getG = .ok (G, M') ∧ M.getW = .ok W ∧ M'.getW = .ok W' ∧ W 0 0 = 2 ∧ W' 0 0 = 1 := by
  obtain ⟨G, M', h⟩ := C38_G_total (M := twoModel) (by decide) (by
    intro k _ c _
    unfold twoModel
    dsimp only
    split <;> norm_num)
  obtain ⟨-, ⟨W', hW', h1⟩, -⟩ := C38_G_overwrites_weights (by decide) (by decide) h
  refine ⟨twoModel, M', G, fun k1 k2 => ∑ b ∈ range twoModel.B, twoModel.weights k2 (1 + k1 * twoModel.B + b), W', h, ?_, hW', ?_, h1 0 (by decide) 0 (by decide)⟩
  · unfold StdModel.getW
    rw [if_neg (by simp [twoModel])]
  · simp [twoModel]

/-! ### C39 -/

/-- what `add_data` without `F` and `minibatchsize` does -/
theorem addData_whole {T KS : ℕ} {isInt : Bool} {S : Mat ℤ} {M M1 : StdModel} (h : stdAddData { T := T, KS := KS, isInt := isInt, S := S, F := none, minibatch := none } M = .ok M1) :
    0 < M.K ∧ ∃ D, M1 = { M with data := M.data ++ [D] } ∧ D.cols = M.n ∧ D.rows = D.T := by
  unfold stdAddData at h
  dsimp only at h
  by_cases c1 : KS ≠ M.K
  · rw [if_pos c1] at h; cases h
  rw [if_neg c1] at h
  by_cases c2 : T = 0 ∨ KS = 0
  · rw [if_pos c2] at h; cases h
  rw [if_neg c2] at h
  split at h
  · cases h
  · cases hD : stdMakeData { T := T, KS := KS, isInt := isInt, S := S, F := none, minibatch := none } M with
    | error e => rw [hD] at h; cases h
    | ok D =>
      rw [hD] at h
      cases h
      refine ⟨by omega, D, rfl, ?_⟩
      unfold stdMakeData at hD
      dsimp only at hD
      split at hD
      · cases hD
      · cases hD; exact ⟨rfl, rfl⟩

theorem pyIdx_last (n : ℕ) : pyIdx (n + 1) (-1) = some n := by
  unfold pyIdx
  rw [if_neg (by omega), if_pos (by omega)]
  congr 1
  omega

/-- the last data set, evaluated in the long list or alone -/
theorem loglik_last {M : StdModel} {l : List StdData} {D : StdData} (ks : KsArg) :
    stdLogLik { M with data := l ++ [D] } (.int (-1)) ks = stdLogLik { M with data := [D] } .none ks := by
  have h : stdLLInc { M with data := l ++ [D] } ks (-1) = stdLLInc { M with data := [D] } ks 0 := by
    have e1 : pyIdx (l ++ [D]).length (-1) = some l.length := by rw [List.length_append]; exact pyIdx_last _
    have e2 : pyIdx [D].length 0 = some 0 := rfl
    unfold stdLLInc stdComputeRate
    simp only [Option.getD_some, e1, e2]
    simp [StdModel.rate, StdModel.llTerm]
  have e1 : (IdxArg.int (-1)).list' (l ++ [D]).length = [-1] := rfl
  have e2 : (IdxArg.none).list' [D].length = [0] := rfl
  unfold stdLogLik
  dsimp only
  rw [e1, e2]
  have : stdLLStep { M with data := l ++ [D] } ks (-1) 0 = stdLLStep { M with data := [D] } ks 0 0 := by unfold stdLLStep; rw [h]
  unfold forListE
  rw [this]
  cases stdLLStep { M with data := [D] } ks 0 0 <;> rfl

/-- on data made by `add_data` the log likelihood is a number or `nan`, it does not raise -/
theorem loglik_made {M : StdModel} {D : StdData} (hK : 0 < M.K) (hc : D.cols = M.n) (hr : D.rows = D.T) :
    (∃ v, stdLogLik { M with data := [D] } .none .none = .ok v) ∨ stdLogLik { M with data := [D] } .none .none = .error .silentNan := by
  have hcols : (KsArg.none).cols M.K = .ok (List.range M.K) := by unfold KsArg.cols; dsimp only; rw [if_neg hK.ne']
  have e2 : (IdxArg.none).list' [D].length = [0] := rfl
  have e3 : pyIdx [D].length 0 = some 0 := rfl
  have hinc : (∃ v, stdLLInc { M with data := [D] } .none 0 = .ok v) ∨ stdLLInc { M with data := [D] } .none 0 = .error .silentNan := by
    unfold stdLLInc stdComputeRate
    simp only [Option.getD_some, e3, List.getElem?_cons_zero, hcols]
    have hc' : D.cols = StdModel.n { M with data := [D] } := hc
    simp only [hc', ne_eq, not_true_eq_false, if_false, hr]
    split
    · exact Or.inr rfl
    · exact Or.inl ⟨_, rfl⟩
  unfold stdLogLik
  dsimp only
  rw [e2]
  rcases hinc with ⟨v, hv⟩ | hv
  · exact Or.inl ⟨0 + v, by simp [forListE, stdLLStep, hv]⟩
  · exact Or.inr (by simp [forListE, stdLLStep, hv])

theorem ctAddData_append (K : ℕ) (a : CTArgs) (dl : List CTData) :
    ctAddData K a dl = (match ctAddData K a [] with | .error e => .error e | .ok l => .ok (dl ++ l)) := by
  unfold ctAddData
  split_ifs <;> rfl

/-- **C39 (standard model).** A call of `heldout_log_likelihood(S)` that is not interrupted leaves the model exactly as it was, whatever the arguments (also when they are rejected); and if it returns a value, that value is the
log likelihood of a model with the same parameters and the held-out data only. -/
theorem C39_std_heldout (T KS : ℕ) (isInt : Bool) (S : Mat ℤ) (M : StdModel) :
    (stdHeldout none T KS isInt S M).1 = M ∧
    ∀ v, (stdHeldout none T KS isInt S M).2 = .ok v →
      ∃ M1, stdAddData { T := T, KS := KS, isInt := isInt, S := S, F := none, minibatch := none } { M with data := [] } = .ok M1 ∧ stdLogLik M1 .none .none = .ok v := by
  have hempty : ∀ M1, stdAddData { T := T, KS := KS, isInt := isInt, S := S, F := none, minibatch := none } M = .ok M1 →
      ∀ D, M1 = { M with data := M.data ++ [D] } →
      stdAddData { T := T, KS := KS, isInt := isInt, S := S, F := none, minibatch := none } { M with data := [] } = .ok { M with data := [D] } := by
    intro M1 h D hD
    unfold stdAddData at h ⊢
    dsimp only at h ⊢
    by_cases c1 : KS ≠ M.K
    · rw [if_pos c1] at h; cases h
    rw [if_neg c1] at h ⊢
    by_cases c2 : T = 0 ∨ KS = 0
    · rw [if_pos c2] at h; cases h
    rw [if_neg c2] at h ⊢
    by_cases c3 : ¬ ((∀ t < T, ∀ k < KS, 0 ≤ S t k) ∧ isInt = true)
    · rw [if_pos c3] at h; cases h
    rw [if_neg c3] at h ⊢
    have e : stdMakeData { T := T, KS := KS, isInt := isInt, S := S, F := none, minibatch := none } { M with data := [] }
        = stdMakeData { T := T, KS := KS, isInt := isInt, S := S, F := none, minibatch := none } M := rfl
    rw [e]
    cases hmk : stdMakeData { T := T, KS := KS, isInt := isInt, S := S, F := none, minibatch := none } M with
    | error e => rw [hmk] at h; cases h
    | ok D' =>
      rw [hmk] at h
      dsimp only at h ⊢
      have h := Except.ok.inj h
      rw [hD] at h
      have := congrArg StdModel.data h
      dsimp only at this
      have := List.append_cancel_left this
      rw [List.singleton_inj.1 this]
      rfl
  unfold stdHeldout
  rw [if_neg (by simp)]
  cases hadd : stdAddData { T := T, KS := KS, isInt := isInt, S := S, F := none, minibatch := none } M with
  | error e => exact ⟨rfl, fun v hv => by cases hv⟩
  | ok M1 =>
    obtain ⟨hK, D, rfl, hc, hr⟩ := addData_whole hadd
    dsimp only
    rw [if_neg (by simp), loglik_last]
    rcases loglik_made hK hc hr with ⟨v, hv⟩ | hv
    · rw [hv]
      dsimp only
      rw [if_neg (by simp)]
      refine ⟨by simp, ?_⟩
      intro v' hv'
      cases hv'
      exact ⟨_, hempty _ hadd D rfl, hv⟩
    · rw [hv]
      refine ⟨by simp, fun v' hv' => by cases hv'⟩

/-- **C39 (violated).** If the evaluation is interrupted, the held-out data stay in the model and are counted by every later likelihood, fit or held-out evaluation. -/
theorem C39_std_heldout_interrupted_violated {T KS : ℕ} {isInt : Bool} {S : Mat ℤ} {M M1 : StdModel}
    (h : stdAddData { T := T, KS := KS, isInt := isInt, S := S, F := none, minibatch := none } M = .ok M1) :
    (stdHeldout (some 1) T KS isInt S M).1.data.length = M.data.length + 1 := by
  obtain ⟨_, D, rfl, _⟩ := addData_whole h
  unfold stdHeldout
  rw [if_neg (by simp), h]
  dsimp only
  rw [if_pos rfl]
  simp

/-- **C39 (copy).** `copy_sample()` that is not interrupted leaves the model as it was and returns a model with the same parameters and no data (standard, discrete-time network, continuous-time network models). -/
theorem C39_copy_sample (M : StdModel) (s : HawkesState) (c : CTState) :
    stdCopySample none M = (M, .ok { M with data := [] }) ∧ netCopySample none s = (s, .ok { s with data := [] }) ∧ ctCopySample none c = (c, .ok { c with data := [] }) :=
  ⟨rfl, rfl, rfl⟩

/-- **C39 (copy, violated).** Interrupted during the deep copy, the model has lost its data. -/
theorem C39_copy_sample_interrupted_violated (M : StdModel) (s : HawkesState) (c : CTState) :
    (stdCopySample (some 1) M).1.data = [] ∧ (netCopySample (some 1) s).1.data = [] ∧ (ctCopySample (some 1) c).1.data = [] := ⟨rfl, rfl, rfl⟩

/-- **C39 (continuous time).** `heldout_log_likelihood(S, C, T)` leaves the model as it was, whatever the arguments and also when the evaluation of the likelihood is interrupted; the value is the likelihood of the given events alone. -/
theorem C39_ct_heldout (crash : Option ℕ) (a : CTArgs) (s : CTState) :
    (ctHeldout crash a s).1 = s ∧ ∀ v, (ctHeldout crash a s).2 = .ok v → ∃ D, ctAddData s.P.K a [] = .ok [D] ∧ v = ctLogLik s.P [D] := by
  unfold ctHeldout
  by_cases h0 : crash = some 0
  · rw [if_pos h0]; exact ⟨rfl, fun v hv => by cases hv⟩
  rw [if_neg h0]
  cases h : ctAddData s.P.K a s.data with
  | error e => exact ⟨rfl, fun v hv => by cases hv⟩
  | ok dl =>
    have hdl : dl = s.data ++ [newCTData a] ∧ ctAddData s.P.K a [] = .ok [newCTData a] := by
      rw [ctAddData_append] at h
      have hl : ∀ l, ctAddData s.P.K a [] = .ok l → l = [newCTData a] := by
        intro l hl
        unfold ctAddData at hl
        split_ifs at hl
        exact (Except.ok.inj hl).symm
      cases h' : ctAddData s.P.K a [] with
      | error e => rw [h'] at h; cases h
      | ok l => rw [h'] at h; cases h; rw [hl l h']; exact ⟨rfl, rfl⟩
    obtain ⟨rfl, h2⟩ := hdl
    dsimp only
    rw [List.getLast?_concat]
    dsimp only
    rw [List.dropLast_concat]
    by_cases h1 : crash = some 1
    · rw [if_pos h1]; exact ⟨rfl, fun v hv => by cases hv⟩
    · rw [if_neg h1]
      exact ⟨rfl, fun v hv => ⟨newCTData a, h2, (Except.ok.inj hv).symm⟩⟩

end PyHawkes
