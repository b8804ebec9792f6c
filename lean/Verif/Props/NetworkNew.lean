import Verif.Props.Network

/-! # C49: which arguments the block-model constructor accepts, and what it then holds -/
set_option linter.unusedSectionVars false
set_option linter.unusedVariables false

namespace PyHawkes
open Finset

/-- legal arguments, as documented: class frequencies a probability vector (to `np.allclose` tolerance), one block number per node, probabilities in `[0,1]`,
nonnegative scales, arrays of the right shape -/
structure SBMArgsOk (a : SBMArgs) : Prop where
  C : 1 ≤ a.C
  m : ∀ m, a.m = some m → |∑ i ∈ range a.C, m i - 1| ≤ 1e-8 + 1e-5 ∧ ∀ i < a.C, 0 ≤ m i
  c : ∀ n c, a.c = .array n c → n = a.K ∧ ∀ i < a.K, 0 ≤ c i ∧ c i < a.C
  p : ∀ x, a.p = .scalar x → 0 ≤ x ∧ x ≤ 1
  pArr : ∀ r s q, a.p = .array r s q → r = a.C ∧ s = a.C ∧ ∀ i < a.C, ∀ j < a.C, 0 ≤ q i j ∧ q i j ≤ 1
  v : ∀ x, a.v = .scalar x → 0 ≤ x
  vArr : ∀ r s q, a.v = .array r s q → r = a.C ∧ s = a.C ∧ ∀ i < a.C, ∀ j < a.C, 0 ≤ q i j

theorem initM_iff (a : SBMArgs) (d : Vec ℝ) : (∃ x, sbmInitM a d = .ok x) ↔ ∀ m, a.m = some m → |∑ i ∈ range a.C, m i - 1| ≤ 1e-8 + 1e-5 ∧ ∀ i < a.C, 0 ≤ m i := by
  unfold sbmInitM
  rcases a.m with _ | m
  · simp
  · simp only [Option.some.injEq, forall_eq']
    split_ifs with h
    · exact ⟨fun _ => h, fun _ => ⟨m, rfl⟩⟩
    · exact ⟨fun ⟨x, hx⟩ => (nomatch hx), fun h' => (h h').elim⟩

theorem initC_iff (a : SBMArgs) (d : ℕ → ℕ) : (∃ x, sbmInitC a d = .ok x) ↔ ∀ n c, a.c = .array n c → n = a.K ∧ ∀ i < a.K, 0 ≤ c i ∧ c i < a.C := by
  unfold sbmInitC
  rcases a.c with _ | ⟨n, c⟩
  · simp
  · simp only [LabArg.array.injEq, and_imp]
    split_ifs with h
    · refine ⟨fun _ n' c' h1 h2 => ?_, fun _ => ⟨_, rfl⟩⟩
      subst h1; subst h2
      exact ⟨h.1, fun i hi => ⟨(h.2 i hi).1, by have := (h.2 i hi).2; omega⟩⟩
    · refine ⟨fun ⟨x, hx⟩ => (nomatch hx), fun h' => (h ?_).elim⟩
      have := h' n c rfl rfl
      exact ⟨this.1, fun i hi => ⟨(this.2 i hi).1, by have := (this.2 i hi).2; omega⟩⟩

theorem initP_iff (C : ℕ) (p : MatArg) (d : Mat ℝ) : (∃ x, sbmInitP C p d = .ok x) ↔ (∀ x, p = .scalar x → 0 ≤ x ∧ x ≤ 1) ∧
    ∀ r s q, p = .array r s q → r = C ∧ s = C ∧ ∀ i < C, ∀ j < C, 0 ≤ q i j ∧ q i j ≤ 1 := by
  unfold sbmInitP
  rcases p with _ | x | ⟨r, s, q⟩
  · simp
  · simp only [MatArg.scalar.injEq, forall_eq', reduceCtorEq, false_implies, implies_true, and_true]
    split_ifs with h
    · exact ⟨fun _ => h, fun _ => ⟨_, rfl⟩⟩
    · exact ⟨fun ⟨x, hx⟩ => (nomatch hx), fun h' => (h h').elim⟩
  · simp only [MatArg.array.injEq, and_imp, reduceCtorEq, false_implies, implies_true, true_and]
    split_ifs with h
    · refine ⟨fun _ r' s' q' h1 h2 h3 => ?_, fun _ => ⟨_, rfl⟩⟩
      subst h1; subst h2; subst h3; exact h
    · exact ⟨fun ⟨x, hx⟩ => (nomatch hx), fun h' => (h (h' r s q rfl rfl rfl)).elim⟩

theorem initV_iff (C : ℕ) (p : MatArg) (d : Mat ℝ) : (∃ x, sbmInitV C p d = .ok x) ↔ (∀ x, p = .scalar x → 0 ≤ x) ∧
    ∀ r s q, p = .array r s q → r = C ∧ s = C ∧ ∀ i < C, ∀ j < C, 0 ≤ q i j := by
  unfold sbmInitV
  rcases p with _ | x | ⟨r, s, q⟩
  · simp
  · simp only [MatArg.scalar.injEq, forall_eq', reduceCtorEq, false_implies, implies_true, and_true]
    split_ifs with h
    · exact ⟨fun _ => h, fun _ => ⟨_, rfl⟩⟩
    · exact ⟨fun ⟨x, hx⟩ => (nomatch hx), fun h' => (h h').elim⟩
  · simp only [MatArg.array.injEq, and_imp, reduceCtorEq, false_implies, implies_true, true_and]
    split_ifs with h
    · refine ⟨fun _ r' s' q' h1 h2 h3 => ?_, fun _ => ⟨_, rfl⟩⟩
      subst h1; subst h2; subst h3; exact h
    · exact ⟨fun ⟨x, hx⟩ => (nomatch hx), fun h' => (h (h' r s q rfl rfl rfl)).elim⟩

theorem noneIn_old (l : List PyVal) : ∃ b, noneIn false l = .ok b := by
  induction l with
  | nil => exact ⟨_, rfl⟩
  | cons x l ih =>
    cases x with
    | none => exact ⟨_, rfl⟩
    | scalar => exact ih
    | array n => simp only [noneIn, Bool.false_eq_true, false_and, if_false]; exact ih

theorem noneIn_false {e : Bool} {l : List PyVal} (h : noneIn e l = .ok false) : .none ∉ l := by
  induction l with
  | nil => simp
  | cons x l ih =>
    cases x with
    | none => cases h
    | scalar => simp only [noneIn] at h; simpa using ih h
    | array n =>
      simp only [noneIn] at h
      split_ifs at h
      simpa using ih h

/-- **C49 (accepts).** The block-model constructor succeeds exactly on legal arguments (older numpy; newer numpy also rejects given arrays of two or more entries, see
`C49_labels_rejected_violated`); on both, every accepted argument list is legal. -/
theorem C49_accepts (a : SBMArgs) (d : SBMDraws) :
    ((∃ n, sbmNew false a d = .ok n) ↔ SBMArgsOk a) ∧ ∀ n, sbmNew true a d = .ok n → SBMArgsOk a := by
  have fwd : ∀ e n, sbmNew e a d = .ok n → SBMArgsOk a := by
    intro e n h
    unfold sbmNew at h
    split at h
    · cases h
    rename_i n0 h0
    unfold sbmBase at h0
    split_ifs at h0 with hC
    split at h0
    · cases h0
    rename_i m hm
    split at h0
    · cases h0
    rename_i c hc
    split at h0
    · cases h0
    rename_i p hp
    split at h0
    · cases h0
    rename_i v hv
    have P := (initP_iff _ _ _).1 ⟨_, hp⟩
    have V := (initV_iff _ _ _).1 ⟨_, hv⟩
    exact ⟨by omega, (initM_iff _ _).1 ⟨_, hm⟩, (initC_iff _ _).1 ⟨_, hc⟩, P.1, P.2, V.1, V.2⟩
  refine ⟨⟨fun ⟨n, h⟩ => fwd _ n h, fun g => ?_⟩, fwd true⟩
  obtain ⟨m, hm⟩ := (initM_iff a d.m).2 g.m
  obtain ⟨c, hc⟩ := (initC_iff a d.c).2 g.c
  obtain ⟨p, hp⟩ := (initP_iff a.C a.p d.p).2 ⟨g.p, g.pArr⟩
  obtain ⟨v, hv⟩ := (initV_iff a.C a.v d.v).2 ⟨g.v, g.vArr⟩
  obtain ⟨b, hb⟩ := noneIn_old [a.c.val, a.p.val, a.v.val]
  have h0 : ¬ a.C < 1 := by have := g.C; omega
  simp only [sbmNew, sbmBase, if_neg h0, hm, hc, hp, hv, hb]
  exact ⟨_, rfl⟩

/-- the random draws of the constructor are legal -/
structure SBMDrawsLegal (a : SBMArgs) (d : SBMDraws) : Prop where
  c' : ∀ i < a.K, d.c' i < a.C
  p' : ∀ i < a.C, ∀ j < a.C, 0 ≤ d.p' i j ∧ d.p' i j ≤ 1
  v' : ∀ i < a.C, ∀ j < a.C, 0 ≤ d.v' i j
  m : (∀ i < a.C, 0 ≤ d.m i) ∧ ∑ i ∈ range a.C, d.m i = 1

/-- **C49 (new network valid).** A newly constructed block model has legal labels, probabilities, scales and class frequencies (the latter to tolerance 1.001e-5), the given hyperparameters,
and variational parameters at their prior; a given `m` is kept if the network is fixed. -/
theorem C49_new_valid (e : Bool) (a : SBMArgs) (d : SBMDraws) (hd : SBMDrawsLegal a d) (n : SBM) (h : sbmNew e a d = .ok n) :
    n.K = a.K ∧ n.C = a.C ∧ n.pi = a.pi ∧ n.tau0 = a.tau0 ∧ n.tau1 = a.tau1 ∧ n.kappa = a.kappa ∧ n.alpha = a.alpha ∧ n.beta = a.beta ∧ n.allowSelf = a.allowSelf ∧
    (∀ i < n.K, n.c i < n.C) ∧ (∀ i < n.C, ∀ j < n.C, 0 ≤ n.p i j ∧ n.p i j ≤ 1 ∧ 0 ≤ n.v i j) ∧
    (∀ i < n.C, 0 ≤ n.m i) ∧ |∑ i ∈ range n.C, n.m i - 1| ≤ 1e-8 + 1e-5 ∧
    (∀ i < n.K, ∀ j < n.K, 0 ≤ n.P i j ∧ n.P i j ≤ 1 ∧ 0 ≤ n.V i j) ∧
    (∀ c e, n.mfPi c = 1 ∧ n.mfTau0 c e = n.tau0 ∧ n.mfTau1 c e = n.tau1 ∧ n.mfAlpha c e = n.alpha ∧ n.mfBeta c e = n.beta) ∧
    (n.fixed = true → ∀ m, a.m = some m → n.m = m) := by
  have ok : SBMArgsOk a := by
    cases e with
    | false => exact (C49_accepts a d).1.1 ⟨n, h⟩
    | true => exact (C49_accepts a d).2 n h
  unfold sbmNew at h
  split at h
  · cases h
  rename_i n0 h0
  obtain ⟨hc, hp, hv, -, -, -, -⟩ := sbmBase_ok h0
  have hm : sbmInitM a d.m = .ok n0.m := by
    unfold sbmBase at h0
    split_ifs at h0
    split at h0
    · cases h0
    rename_i m hm
    split at h0
    · cases h0
    split at h0
    · cases h0
    split at h0
    · cases h0
    split at h0
    · cases h0
    cases h0
    exact hm
  have rest : n0.K = a.K ∧ n0.C = a.C ∧ n0.pi = a.pi ∧ n0.tau0 = a.tau0 ∧ n0.tau1 = a.tau1 ∧ n0.kappa = a.kappa ∧ n0.alpha = a.alpha ∧ n0.beta = a.beta ∧ n0.allowSelf = a.allowSelf ∧
      ∀ c e, n0.mfPi c = 1 ∧ n0.mfTau0 c e = n0.tau0 ∧ n0.mfTau1 c e = n0.tau1 ∧ n0.mfAlpha c e = n0.alpha ∧ n0.mfBeta c e = n0.beta := by
    unfold sbmBase at h0
    split_ifs at h0
    split at h0
    · cases h0
    split at h0
    · cases h0
    split at h0
    · cases h0
    split at h0
    · cases h0
    split at h0
    · cases h0
    cases h0
    exact ⟨rfl, rfl, rfl, rfl, rfl, rfl, rfl, rfl, rfl, fun _ _ => ⟨rfl, mul_one _, mul_one _, mul_one _, mul_one _⟩⟩
  obtain ⟨rK, rC, rpi, r0, r1, rk, ra, rb, rs, rmf⟩ := rest
  have hCpos : (0:ℝ) < a.C := by exact_mod_cast ok.C
  -- from valid parameters to valid lookups
  have fin : ∀ n : SBM, n.K = a.K → n.C = a.C → (∀ i < n.K, n.c i < n.C) → (∀ i < n.C, ∀ j < n.C, 0 ≤ n.p i j ∧ n.p i j ≤ 1 ∧ 0 ≤ n.v i j) →
      ∀ i < n.K, ∀ j < n.K, 0 ≤ n.P i j ∧ n.P i j ≤ 1 ∧ 0 ≤ n.V i j := by
    intro n _ _ h1 h2 i hi j hj
    have := h2 _ (h1 i hi) _ (h1 j hj)
    refine ⟨?_, ?_, this.2.2⟩ <;> unfold SBM.P <;> split_ifs
    · exact le_rfl
    · exact this.1
    · exact zero_le_one
    · exact this.2.1
  by_cases hf : n0.fixed = true
  · rw [if_pos hf] at h
    obtain rfl : n0 = n := Except.ok.inj h
    have c1 : ∀ i < n0.K, n0.c i < n0.C := by
      intro i hi
      rw [rK] at hi; rw [rC]
      rcases ha : a.c with _ | ⟨len, lab⟩
      · -- a fixed network has its labels given
        exfalso
        obtain ⟨-, -, -, hn, -⟩ := sbmBase_ok h0
        rw [ha] at hn
        simp only [LabArg.val, noneIn] at hn
        have := Except.ok.inj hn
        rw [hf] at this
        cases this
      · have g := ok.c len lab ha
        unfold sbmInitC at hc
        rw [ha] at hc
        dsimp only at hc
        split_ifs at hc
        have e := congrFun (Except.ok.inj hc) i
        rw [← e]
        have := g.2 i hi
        omega
    have fixedArgs : a.p ≠ .none ∧ a.v ≠ .none := by
      obtain ⟨-, -, -, hn, -⟩ := sbmBase_ok h0
      rw [hf] at hn
      have := noneIn_false hn
      constructor <;> intro hh <;> rw [hh] at this <;> simp [MatArg.val] at this
    have p1 : ∀ i < n0.C, ∀ j < n0.C, 0 ≤ n0.p i j ∧ n0.p i j ≤ 1 ∧ 0 ≤ n0.v i j := by
      intro i hi j hj
      rw [rC] at hi hj
      have hp1 : 0 ≤ n0.p i j ∧ n0.p i j ≤ 1 := by
        rcases ha : a.p with _ | x | ⟨r, s, q⟩
        · exact (fixedArgs.1 ha).elim
        · have g := ok.p x ha
          unfold sbmInitP at hp
          rw [ha] at hp
          dsimp only at hp
          split_ifs at hp
          rw [← Except.ok.inj hp]
          simpa using g
        · have g := ok.pArr r s q ha
          unfold sbmInitP at hp
          rw [ha] at hp
          dsimp only at hp
          split_ifs at hp
          rw [← Except.ok.inj hp]
          exact g.2.2 i hi j hj
      have hv1 : 0 ≤ n0.v i j := by
        rcases ha : a.v with _ | x | ⟨r, s, q⟩
        · exact (fixedArgs.2 ha).elim
        · have g := ok.v x ha
          unfold sbmInitV at hv
          rw [ha] at hv
          dsimp only at hv
          split_ifs at hv
          rw [← Except.ok.inj hv]
          simpa using g
        · have g := ok.vArr r s q ha
          unfold sbmInitV at hv
          rw [ha] at hv
          dsimp only at hv
          split_ifs at hv
          rw [← Except.ok.inj hv]
          exact g.2.2 i hi j hj
      exact ⟨hp1.1, hp1.2, hv1⟩
    have m1 : (∀ i < n0.C, 0 ≤ n0.m i) ∧ |∑ i ∈ range n0.C, n0.m i - 1| ≤ 1e-8 + 1e-5 ∧ ∀ m, a.m = some m → n0.m = m := by
      rw [rC]
      rcases ha : a.m with _ | m
      · unfold sbmInitM at hm
        rw [ha] at hm
        rw [← Except.ok.inj hm]
        refine ⟨hd.m.1, ?_, fun m h => nomatch h⟩
        rw [hd.m.2, sub_self, abs_zero]; norm_num
      · have g := ok.m m ha
        unfold sbmInitM at hm
        rw [ha] at hm
        dsimp only at hm
        rw [if_pos g] at hm
        rw [← Except.ok.inj hm]
        exact ⟨g.2, g.1, fun m' h => Option.some.inj h⟩
    exact ⟨rK, rC, rpi, r0, r1, rk, ra, rb, rs, c1, p1, m1.1, m1.2.1, fin n0 rK rC c1 p1, rmf, fun _ => m1.2.2⟩
  · rw [if_neg hf] at h
    cases h
    have c1 : ∀ i < n0.K, d.c' i < n0.C := fun i hi => rC.symm ▸ hd.c' i (rK ▸ hi)
    have p1 : ∀ i < n0.C, ∀ j < n0.C, 0 ≤ d.p' i j ∧ d.p' i j ≤ 1 ∧ 0 ≤ d.v' i j := fun i hi j hj =>
      ⟨(hd.p' i (rC ▸ hi) j (rC ▸ hj)).1, (hd.p' i (rC ▸ hi) j (rC ▸ hj)).2, hd.v' i (rC ▸ hi) j (rC ▸ hj)⟩
    refine ⟨rK, rC, rpi, r0, r1, rk, ra, rb, rs, c1, p1, fun i _ => by simp, ?_, fin _ rK rC c1 p1, rmf, fun hh => (hf hh).elim⟩
    dsimp only
    rw [rC, sum_const, card_range, nsmul_eq_mul]
    rw [mul_one, mul_one_div_cancel hCpos.ne', sub_self, abs_zero]
    norm_num

/-- three nodes, two blocks, given class frequencies -/
noncomputable def givenM : SBMArgs :=
  { K := 3, C := 2, c := .none, pi := fun _ => 1, m := some fun i => if i = 0 then 3 / 4 else 1 / 4, p := .none, tau0 := 1, tau1 := 1, v := .none, alpha := 1, beta := 1, kappa := 1,
    allowSelf := true }

theorem givenM_ok : SBMArgsOk givenM := by
  refine ⟨by decide, ?_, ?_, ?_, ?_, ?_, ?_⟩ <;> simp only [givenM]
  · intro m hm
    obtain rfl := Option.some.inj hm
    refine ⟨?_, fun i _ => by dsimp only; split_ifs <;> norm_num⟩
    rw [sum_range_succ, sum_range_one]
    norm_num
  all_goals intros; contradiction

/-- **C49 (given class frequencies, violated).** Class frequencies `m` given to a block model whose `c`, `p`, `v` are not all given are lost: the constructor replaces them by the
uniform vector, whatever the draws. -/
theorem C49_given_m_lost_violated (d : SBMDraws) : ∃ n, sbmNew false givenM d = .ok n ∧ givenM.m = some (fun i => if i = 0 then 3 / 4 else 1 / 4) ∧ n.m 0 = 1 / 2 := by
  obtain ⟨n, h⟩ := (C49_accepts givenM d).1.2 givenM_ok
  refine ⟨n, h, rfl, ?_⟩
  unfold sbmNew at h
  split at h
  · cases h
  rename_i n0 h0
  obtain ⟨-, -, -, hn, -⟩ := sbmBase_ok h0
  have hf : n0.fixed = false := by
    simp only [givenM, LabArg.val, noneIn] at hn
    have := Except.ok.inj hn
    cases hh : n0.fixed
    · rfl
    · rw [hh] at this; cases this
  rw [hf] at h
  cases h
  simp [givenM]

/-- the hypotheses of `C49_new_valid` are met -/
example : ∃ d n, SBMDrawsLegal givenM d ∧ sbmNew false givenM d = .ok n ∧ ∀ i < n.K, n.c i < n.C := by
  let d : SBMDraws := ⟨fun i => if i = 0 then 1 else 0, fun _ => 0, fun _ _ => 1 / 2, fun _ _ => 1, fun _ _ => 1 / 2, fun _ => 1, fun _ _ => 1 / 2, fun _ _ => 1⟩
  have hd : SBMDrawsLegal givenM d := by
    refine ⟨fun i _ => one_lt_two, fun i _ j _ => by norm_num [d], fun i _ j _ => by norm_num [d], fun i _ => ?_, ?_⟩
    · simp only [d]; split_ifs <;> norm_num
    · simp [d, givenM]
  obtain ⟨n, h⟩ := (C49_accepts givenM d).1.2 givenM_ok
  exact ⟨d, n, hd, h, (C49_new_valid false givenM d hd n h).2.2.2.2.2.2.2.2.2.1⟩

end PyHawkes
