import Verif.Props.StandardMisc
import Verif.Props.CTStats

/-!
# C73: what `add_data` accepts and what it stores
-/

set_option linter.unusedSectionVars false

namespace PyHawkes
open Finset Spec

section
variable {R : Type*} [Field R] [LinearOrder R] [IsStrictOrderedRing R]

/-- **C73 (network model, acceptance).** `add_data(S, F, minibatchsize)` of a discrete-time network model with a nonempty basis succeeds exactly when `S` is a nonempty `T × K` integer array of nonnegative counts, a given `F` has
shape `T × K × B`, and the minibatch size is not zero. -/
theorem C73_network_accepts_iff (P : NetParams R) (hL : 0 < P.L) (hB : 0 < P.B) (a : AddArgs R) (dl : List (DParents R)) :
    (∃ dl', addData P a dl = .ok dl') ↔
      a.KS = P.K ∧ 0 < a.T ∧ 0 < a.KS ∧ (∀ t < a.T, ∀ k < a.KS, 0 ≤ a.S t k) ∧ a.isInt = true ∧
        (∀ T' K' B' F, a.F = some (T', K', B', F) → T' = a.T ∧ K' = P.K ∧ B' = P.B) ∧ a.minibatch ≠ some 0 := by
  unfold addData
  by_cases c1 : a.KS ≠ P.K
  · rw [if_pos c1]
    exact ⟨(fun ⟨_, h⟩ => by cases h), fun h => absurd h.1 c1⟩
  rw [if_neg c1]
  by_cases c2 : a.T = 0 ∨ a.KS = 0
  · rw [if_pos c2]
    refine ⟨(fun ⟨_, h⟩ => by cases h), fun h => ?_⟩
    obtain ⟨_, h1, h2, _⟩ := h
    omega
  rw [if_neg c2]
  by_cases c3 : ¬ ((∀ t < a.T, ∀ k < a.KS, 0 ≤ a.S t k) ∧ a.isInt = true)
  · rw [if_pos c3]
    exact ⟨(fun ⟨_, h⟩ => by cases h), fun h => absurd ⟨h.2.2.2.1, h.2.2.2.2.1⟩ c3⟩
  rw [if_neg c3]
  rw [not_not] at c1 c3
  dsimp only
  cases hF : a.F with
  | none =>
    obtain ⟨F, hF', _⟩ := C02_convolve_eq_filtered a.T P.K P.L P.B P.basis (fun t k => (a.S t k : R)) (by omega) (by omega) hL hB
    dsimp only
    rw [hF']
    dsimp only
    cases hmb : a.minibatch with
    | none => exact ⟨fun _ => ⟨c1, by omega, by omega, c3.1, c3.2, (fun _ _ _ _ h => by cases h), (fun h => by cases h)⟩, fun _ => ⟨_, rfl⟩⟩
    | some m =>
      dsimp only
      by_cases hm : m = 0
      · rw [if_pos hm]; exact ⟨(fun ⟨_, h⟩ => by cases h), fun h => absurd (congrArg some hm) h.2.2.2.2.2.2⟩
      · rw [if_neg hm]
        refine ⟨fun _ => ⟨c1, by omega, by omega, c3.1, c3.2, (fun _ _ _ _ h => by cases h), fun h => hm (Option.some.inj h)⟩, fun _ => ?_⟩
        by_cases hneg : m < 0
        · rw [if_pos hneg]; exact ⟨_, rfl⟩
        · rw [if_neg hneg]; exact ⟨_, rfl⟩
  | some q =>
    obtain ⟨T', K', B', F⟩ := q
    dsimp only
    by_cases hs : T' = a.T ∧ K' = P.K ∧ B' = P.B
    · rw [if_pos hs]
      dsimp only
      have hsh : ∀ T'' K'' B'' (F'' : Ten R), some (T', K', B', F) = some (T'', K'', B'', F'') → T'' = a.T ∧ K'' = P.K ∧ B'' = P.B := by
        intro T'' K'' B'' F'' h
        cases h
        exact hs
      cases hmb : a.minibatch with
      | none => exact ⟨fun _ => ⟨c1, by omega, by omega, c3.1, c3.2, hsh, (fun h => by cases h)⟩, fun _ => ⟨_, rfl⟩⟩
      | some m =>
        dsimp only
        by_cases hm : m = 0
        · rw [if_pos hm]; exact ⟨(fun ⟨_, h⟩ => by cases h), fun h => absurd (congrArg some hm) h.2.2.2.2.2.2⟩
        · rw [if_neg hm]
          refine ⟨fun _ => ⟨c1, by omega, by omega, c3.1, c3.2, hsh, fun h => hm (Option.some.inj h)⟩, fun _ => ?_⟩
          by_cases hneg : m < 0
          · rw [if_pos hneg]; exact ⟨_, rfl⟩
          · rw [if_neg hneg]; exact ⟨_, rfl⟩
    · rw [if_neg hs]
      exact ⟨(fun ⟨_, h⟩ => by cases h), fun h => absurd (h.2.2.2.2.2.1 _ _ _ _ rfl) hs⟩

/-- **C73 (network model, contents).** Added whole, the new data set comes last, holds exactly the counts that were given, and (if `F` was not given) the causally filtered counts. -/
theorem C73_network_stores {P : NetParams R} {a : AddArgs R} {dl dl' : List (DParents R)} (hm : a.minibatch = none) (h : addData P a dl = .ok dl') :
    ∃ D : DParents R, dl' = dl ++ [D] ∧ D.T = a.T ∧ (∀ t < a.T, ∀ k < P.K, ((D.S t k : ℕ) : ℤ) = a.S t k) ∧
      (∀ T' K' B' F, a.F = some (T', K', B', F) → D.F = F) ∧
      (a.F = none → ∀ t < a.T, ∀ k < P.K, ∀ b < P.B, D.F t k b = Spec.filtered P.L P.basis (fun t k => (a.S t k : R)) t k b) := by
  unfold addData at h
  by_cases c1 : a.KS ≠ P.K
  · rw [if_pos c1] at h; cases h
  rw [if_neg c1] at h
  by_cases c2 : a.T = 0 ∨ a.KS = 0
  · rw [if_pos c2] at h; cases h
  rw [if_neg c2] at h
  by_cases c3 : ¬ ((∀ t < a.T, ∀ k < a.KS, 0 ≤ a.S t k) ∧ a.isInt = true)
  · rw [if_pos c3] at h; cases h
  rw [if_neg c3] at h
  rw [not_not] at c1 c3
  dsimp only at h
  rw [hm] at h
  have hS : ∀ t < a.T, ∀ k < P.K, (((a.S t k).toNat : ℕ) : ℤ) = a.S t k := fun t ht k hk => Int.toNat_of_nonneg (c3.1 t ht k (by omega))
  cases hF : a.F with
  | none =>
    rw [hF] at h
    dsimp only at h
    cases hc : convolve a.T P.K P.L P.B P.basis (fun t k => (a.S t k : R)) with
    | error e => rw [hc] at h; cases h
    | ok F =>
      rw [hc] at h
      cases h
      exact ⟨_, rfl, rfl, hS, (fun _ _ _ _ h => by cases h), fun _ => convolve_ok_eq hc⟩
  | some q =>
    obtain ⟨T', K', B', F⟩ := q
    rw [hF] at h
    dsimp only at h
    split at h
    · cases h
    · rename_i F' hF'
      split at hF'
      · cases hF'
        cases h
        refine ⟨_, rfl, rfl, hS, ?_, (fun h => by cases h)⟩
        intro _ _ _ _ h
        cases h
        rfl
      · cases hF'
end

/-- **C73 (standard model, acceptance).** As for the network model, except that the shape of a given `F` is not checked. -/
theorem C73_std_accepts_iff (M : StdModel) (hL : 0 < M.L) (hB : 0 < M.B) (a : StdAddArgs) :
    (∃ M', stdAddData a M = .ok M') ↔
      a.KS = M.K ∧ 0 < a.T ∧ 0 < a.KS ∧ (∀ t < a.T, ∀ k < a.KS, 0 ≤ a.S t k) ∧ a.isInt = true ∧ a.minibatch ≠ some 0 := by
  unfold stdAddData
  by_cases c1 : a.KS ≠ M.K
  · rw [if_pos c1]
    exact ⟨(fun ⟨_, h⟩ => by cases h), fun h => absurd h.1 c1⟩
  rw [if_neg c1]
  by_cases c2 : a.T = 0 ∨ a.KS = 0
  · rw [if_pos c2]
    refine ⟨(fun ⟨_, h⟩ => by cases h), fun h => ?_⟩
    obtain ⟨_, h1, h2, _⟩ := h
    omega
  rw [if_neg c2]
  by_cases c3 : ¬ ((∀ t < a.T, ∀ k < a.KS, 0 ≤ a.S t k) ∧ a.isInt = true)
  · rw [if_pos c3]
    exact ⟨(fun ⟨_, h⟩ => by cases h), fun h => absurd ⟨h.2.2.2.1, h.2.2.2.2.1⟩ c3⟩
  rw [if_neg c3]
  rw [not_not] at c1 c3
  have hmk : ∃ D, stdMakeData a M = .ok D := by
    unfold stdMakeData
    cases a.F with
    | some q => exact ⟨_, rfl⟩
    | none =>
      obtain ⟨F, hF', _⟩ := C02_convolve_eq_filtered a.T M.K M.L M.B M.basis (fun t k => (a.S t k : ℝ)) (by omega) (by omega) hL hB
      dsimp only
      rw [hF']
      exact ⟨_, rfl⟩
  obtain ⟨D, hD⟩ := hmk
  rw [hD]
  dsimp only
  cases hmb : a.minibatch with
  | none => exact ⟨fun _ => ⟨c1, by omega, by omega, c3.1, c3.2, (fun h => by cases h)⟩, fun _ => ⟨_, rfl⟩⟩
  | some m =>
    dsimp only
    by_cases hm : m = 0
    · rw [if_pos hm]; exact ⟨(fun ⟨_, h⟩ => by cases h), fun h => absurd (congrArg some hm) h.2.2.2.2.2⟩
    · rw [if_neg hm]
      refine ⟨fun _ => ⟨c1, by omega, by omega, c3.1, c3.2, fun h => hm (Option.some.inj h)⟩, fun _ => ?_⟩
      by_cases hneg : m < 0
      · rw [if_pos hneg]; exact ⟨_, rfl⟩
      · rw [if_neg hneg]; exact ⟨_, rfl⟩

/-- **C73 (standard model, contents).** Added whole and without `F`, the new data set comes last, holds the counts, and its regressors are the constant 1 followed by the filtered counts, process by process. -/
theorem C73_std_stores {M M' : StdModel} {a : StdAddArgs} (hF : a.F = none) (hm : a.minibatch = none) (h : stdAddData a M = .ok M') :
    ∃ D : StdData, M' = { M with data := M.data ++ [D] } ∧ D.T = a.T ∧ D.rows = a.T ∧ D.cols = 1 + M.K * M.B ∧ (∀ t < a.T, ∀ k < M.K, ((D.S t k : ℕ) : ℤ) = a.S t k) ∧
      ∀ t < a.T, D.F t 0 = 1 ∧ ∀ k < M.K, ∀ b < M.B, D.F t (1 + k * M.B + b) = Spec.filtered M.L M.basis (fun t k => (a.S t k : ℝ)) t k b := by
  unfold stdAddData at h
  by_cases c1 : a.KS ≠ M.K
  · rw [if_pos c1] at h; cases h
  rw [if_neg c1] at h
  by_cases c2 : a.T = 0 ∨ a.KS = 0
  · rw [if_pos c2] at h; cases h
  rw [if_neg c2] at h
  by_cases c3 : ¬ ((∀ t < a.T, ∀ k < a.KS, 0 ≤ a.S t k) ∧ a.isInt = true)
  · rw [if_pos c3] at h; cases h
  rw [if_neg c3] at h
  rw [not_not] at c1 c3
  cases hD : stdMakeData a M with
  | error e => rw [hD] at h; cases h
  | ok D =>
    rw [hD] at h
    dsimp only at h
    rw [hm] at h
    cases h
    unfold stdMakeData at hD
    rw [hF] at hD
    dsimp only at hD
    cases hc : convolve a.T M.K M.L M.B M.basis (fun t k => (a.S t k : ℝ)) with
    | error e => rw [hc] at hD; cases hD
    | ok F =>
      rw [hc] at hD
      cases hD
      refine ⟨_, rfl, rfl, rfl, rfl, fun t ht k hk => Int.toNat_of_nonneg (c3.1 t ht k (by omega)), fun t ht => ⟨rfl, fun k hk b hb => ?_⟩⟩
      have e : 1 + k * M.B + b = (k * M.B + b) + 1 := by omega
      dsimp only
      rw [e]
      simp only [consVec, ravel]
      have e1 : (k * M.B + b) / M.B = k := by
        rw [add_comm, Nat.add_mul_div_right _ _ (by omega), Nat.div_eq_of_lt hb, zero_add]
      have e2 : (k * M.B + b) % M.B = b := by
        rw [add_comm, Nat.add_mul_mod_self_right, Nat.mod_eq_of_lt hb]
      rw [e1, e2]
      exact convolve_ok_eq hc t ht k hk b hb

/-- **C73 (continuous time, acceptance).** `add_data(S, C, T)` of a continuous-time model succeeds exactly when `T` is a float, `S` and `C` are arrays of equal length, `C` is an integer array of process indices,
and (if there are events) `S` is a float array of sorted times in `[0, T)`. (With no events any float `T` is accepted, also a negative one.) -/
theorem C73_ct_accepts_iff (K : ℕ) (a : CTArgs) (dl : List CTData) :
    (∃ dl', ctAddData K a dl = .ok dl') ↔
      a.tIsFloat = true ∧ a.sIsArray = true ∧ a.cIsArray = true ∧ a.cIsInt = true ∧ a.nS = a.nC ∧ (0 < a.nS → a.sIsFloat = true) ∧
        (∀ n < a.nS, 0 ≤ a.S n ∧ a.S n < a.T) ∧ (∀ n, n + 1 < a.nS → a.S n ≤ a.S (n + 1)) ∧ ∀ n < a.nC, 0 ≤ a.C n ∧ a.C n < K := by
  unfold ctAddData
  constructor
  · rintro ⟨dl', h⟩
    split_ifs at h with h1 h2 h3 h4 h5 h6 h7
    simp only [Bool.not_eq_false] at h1
    simp only [not_or, Bool.not_eq_false] at h5
    have hS : 0 < a.nS → a.sIsArray = true ∧ (∀ n < a.nS, 0 ≤ a.S n) ∧ (∀ n < a.nS, a.S n < a.T) ∧ a.sIsFloat = true := by
      intro h0; by_contra hc; exact h2 ⟨h0, hc⟩
    have hs : 0 < a.nS → ∀ n, n + 1 < a.nS → 0 ≤ a.S (n + 1) - a.S n := by
      intro h0; by_contra hc; exact h3 ⟨h0, hc⟩
    have hC : 0 < a.nC → a.cIsArray = true ∧ a.nC = a.nS ∧ (∀ n < a.nC, 0 ≤ a.C n) ∧ (∀ n < a.nC, a.C n < K) ∧ a.cIsInt = true := by
      intro h0; by_contra hc; exact h4 ⟨h0, hc⟩
    refine ⟨h1, h5.1, h5.2, h7.1, h6, fun h0 => (hS h0).2.2.2, fun n hn => ⟨(hS (by omega)).2.1 n hn, (hS (by omega)).2.2.1 n hn⟩, fun n hn => ?_, fun n hn => ⟨(hC (by omega)).2.2.1 n hn, (hC (by omega)).2.2.2.1 n hn⟩⟩
    have := hs (by omega) n hn
    linarith
  · rintro ⟨h1, h2, h3, h4, h5, h6, h7, h8, h9⟩
    rw [if_neg (by simp [h1]), if_neg, if_neg, if_neg, if_neg (by simp [h2, h3]), if_neg (by simp [h5]), if_neg]
    · exact ⟨_, rfl⟩
    · rw [not_not]; exact ⟨h4, Or.inr ⟨fun n hn => (h9 n hn).1, fun n hn => (h9 n hn).2⟩⟩
    · rintro ⟨_, h⟩; exact h ⟨h3, h5.symm, fun n hn => (h9 n hn).1, fun n hn => (h9 n hn).2, h4⟩
    · rintro ⟨_, h⟩; exact h fun n hn => by have := h8 n hn; linarith
    · rintro ⟨h0, h⟩; exact h ⟨h2, fun n hn => (h7 n hn).1, fun n hn => (h7 n hn).2, h6 h0⟩

/-- the demonstration data are accepted -/
example (M : StdModel) (hK : M.K = 2) (hL : 0 < M.L) (hB : 0 < M.B) : ∃ M', stdAddData demoStdAdd M = .ok M' := by
  rw [C73_std_accepts_iff M hL hB]
  refine ⟨hK.symm, by decide, by decide, ?_, rfl, (fun h => by cases h)⟩
  decide

end PyHawkes
