import Verif.Props.StandardOps
import Verif.Props.Rate

/-!
# C37: histories of gradient steps of the standard model
-/

set_option linter.unusedSectionVars false

namespace PyHawkes
open Finset Spec

/-- what holds after every call -/
structure StdInv (M : StdModel) : Prop where
  kpos : 0 < M.K
  data : StdOk M
  time : ∀ D ∈ M.data, 0 < D.T
  alpha : 1 ≤ M.alpha
  pos : ∀ k < M.K, PosRow (1 + M.K * M.B) (M.weights k)
  self : M.allowSelf = false → ∀ k < M.K, ∀ c, IsSelf M.B k c → M.weights k c = 1e-32

/-- the fields that no call changes -/
def SameShape (M M' : StdModel) : Prop :=
  M'.K = M.K ∧ M'.B = M.B ∧ M'.L = M.L ∧ M'.alpha = M.alpha ∧ M'.allowSelf = M.allowSelf ∧ M'.basis = M.basis

theorem removeSelf_eq (K B : ℕ) (w : Mat ℝ) (i c : ℕ) : removeSelfWeights K B w i c = if i < K ∧ IsSelf B i c then 1e-32 else w i c := by
  unfold removeSelfWeights
  have : ∀ n, forRange n (fun k (w : Mat ℝ) => fun i c => if i = k ∧ 1 + k * B ≤ c ∧ c < 1 + (k + 1) * B then 1e-32 else w i c) w i c
      = if i < n ∧ IsSelf B i c then 1e-32 else w i c := by
    intro n
    induction n with
    | zero => simp
    | succ n ih =>
      rw [forRange_succ]
      rw [ih]
      unfold IsSelf
      by_cases h : i = n
      · subst h
        by_cases hs : 1 + i * B ≤ c ∧ c < 1 + (i + 1) * B
        · rw [if_pos ⟨rfl, hs⟩, if_pos ⟨by omega, hs⟩]
        · rw [if_neg (fun h => hs h.2), if_neg (fun h => hs h.2), if_neg (fun h => hs h.2)]
      · rw [if_neg (fun hh => h hh.1)]
        by_cases hs : i < n ∧ 1 + i * B ≤ c ∧ c < 1 + (i + 1) * B
        · rw [if_pos hs, if_pos ⟨by omega, hs.2⟩]
        · rw [if_neg hs, if_neg]
          rintro ⟨h1, h2⟩
          exact hs ⟨by omega, h2⟩
  exact this K

theorem stdNew_inv {a : StdArgs} {M : StdModel} (hK : 0 < a.K) (h : stdNew a = .ok M) :
    StdInv M ∧ M.K = a.K ∧ M.B = a.B ∧ M.L = a.L ∧ M.allowSelf = a.allowSelf ∧ M.basis = a.basis ∧ M.data = [] := by
  unfold stdNew at h
  split at h
  · cases h
  · split at h
    · cases h
    · next h2 =>
      cases h
      refine ⟨⟨hK, by intro D hD; simp at hD, by intro D hD; simp at hD, by push Not at h2; exact h2, ?_, ?_⟩, rfl, rfl, rfl, rfl, rfl, rfl⟩
      · intro k hk c hc
        dsimp only
        split
        · rw [removeSelf_eq]; split <;> norm_num
        · norm_num
      · intro hs k hk c hc
        dsimp only at hs hk hc ⊢
        rw [if_pos (by simp [hs]), removeSelf_eq, if_pos ⟨hk, hc⟩]

/-- filtered data made by `add_data` are well formed when the basis is nonnegative -/
theorem makeData_ok {a : StdAddArgs} {M : StdModel} {D : StdData} (hb : ∀ l < M.L, ∀ b < M.B, 0 ≤ M.basis l b)
    (hKS : a.KS = M.K) (hS : ∀ t < a.T, ∀ k < a.KS, 0 ≤ a.S t k)
    (hF : ∀ r c F, a.F = some (r, c, F) → StdDataOk M.K M.B ⟨a.T, fun t k => (a.S t k).toNat, r, c, F⟩)
    (h : stdMakeData a M = .ok D) : StdDataOk M.K M.B D ∧ D.T = a.T := by
  unfold stdMakeData at h
  split at h
  · next r c F e => cases h; exact ⟨hF r c F e, rfl⟩
  · split at h
    · cases h
    · next F e =>
      cases h
      refine ⟨⟨rfl, rfl, fun t _ => rfl, ?_⟩, rfl⟩
      intro t ht c hc
      dsimp only at ht hc ⊢
      cases c with
      | zero => simp [consVec]
      | succ c =>
        obtain ⟨_, _, _, hB⟩ := convolve_ok_pos e
        have hlt : c / M.B < M.K := by
          rw [Nat.div_lt_iff_lt_mul hB]; omega
        have hm := Nat.mod_lt c hB
        simp only [consVec, ravel]
        rw [convolve_ok_eq e t ht _ hlt _ hm]
        apply filtered_nonneg
        · intro l hl; exact hb l hl _ hm
        · intro s hs
          exact_mod_cast hS s (by omega) _ (by omega)

theorem addData_inv {a : StdAddArgs} {M M' : StdModel} (hI : StdInv M) (hb : ∀ l < M.L, ∀ b < M.B, 0 ≤ M.basis l b)
    (hF : ∀ r c F, a.F = some (r, c, F) → StdDataOk M.K M.B ⟨a.T, fun t k => (a.S t k).toNat, r, c, F⟩)
    (h : stdAddData a M = .ok M') : StdInv M' ∧ SameShape M M' := by
  unfold stdAddData at h
  by_cases c1 : a.KS ≠ M.K
  · rw [if_pos c1] at h; cases h
  rw [if_neg c1] at h
  by_cases c2 : a.T = 0 ∨ a.KS = 0
  · rw [if_pos c2] at h; cases h
  rw [if_neg c2] at h
  by_cases c3 : ¬ ((∀ t < a.T, ∀ k < a.KS, 0 ≤ a.S t k) ∧ a.isInt = true)
  · rw [if_pos c3] at h; cases h
  rw [if_neg c3] at h
  push Not at c1 c3
  cases hD : stdMakeData a M with
  | error e => rw [hD] at h; cases h
  | ok D =>
    rw [hD] at h
    dsimp only at h
    obtain ⟨hDok, hT⟩ := makeData_ok hb c1 c3.1 hF hD
    have key : ∀ l : List StdData, (∀ D ∈ l, StdDataOk M.K M.B D ∧ 0 < D.T) → StdInv { M with data := M.data ++ l } := by
      intro l hl
      refine ⟨hI.kpos, ?_, ?_, hI.alpha, hI.pos, hI.self⟩
      · intro D' hD'
        rcases List.mem_append.1 hD' with h | h
        · exact hI.data D' h
        · exact (hl D' h).1
      · intro D' hD'
        rcases List.mem_append.1 hD' with h | h
        · exact hI.time D' h
        · exact (hl D' h).2
    split at h
    · cases h
      refine ⟨key [D] ?_, rfl, rfl, rfl, rfl, rfl, rfl⟩
      intro D' hD'
      rw [List.mem_singleton.1 hD']
      exact ⟨hDok, by rw [hT]; omega⟩
    · next m _ =>
      split at h
      · cases h
      · split at h
        · cases h; exact ⟨hI, rfl, rfl, rfl, rfl, rfl, rfl⟩
        · cases h
          refine ⟨key _ ?_, rfl, rfl, rfl, rfl, rfl, rfl⟩
          intro D' hD'
          obtain ⟨b, hb, rfl⟩ := List.mem_map.1 hD'
          have := C10_block_size a.T m.toNat (by omega) b hb
          refine ⟨slice_ok hDok this.1.le (by rw [hT]; exact this.2.2), ?_⟩
          show 0 < b.2 - b.1
          omega

/-- the gradient call never fails on a valid model, and vanishes on forbidden self weights -/
theorem stdGradient_list_ok {M : StdModel} (hI : StdInv M) {k : ℕ} (hk : k < M.K) (l : List ℕ) (hl : ∀ i ∈ l, i < M.data.length) :
    ∃ g, stdGradient M k (.list (l.map fun (i : ℕ) => (i : ℤ))) = .ok g ∧ (M.allowSelf = false → ∀ c, IsSelf M.B k c → g c = 0) := by
  have hw := hI.pos k hk
  unfold stdGradient
  simp only [IdxArg.list']
  rw [stdGradBody_list hI.data hk hw l hl ⟨0, fun _ _ => 0, 0, 0, fun _ _ => 0⟩]
  dsimp only
  rw [if_neg (by simpa using hk), if_neg]
  swap
  · rintro ⟨_, c, hc, _, h⟩
    exact absurd (hw c hc) (by rw [h]; simp)
  cases hsf : M.allowSelf
  · simp only [Bool.not_false, if_true]
    rw [if_neg]
    · refine ⟨_, rfl, fun _ c hc => ?_⟩
      exact if_pos hc
    · push Not
      intro c hc1 hc2
      rw [hI.self hsf k hk c ⟨hc2, hc1⟩]
      rw [abs_of_nonneg (by norm_num)]; norm_num
  · simp only [Bool.not_true, Bool.false_eq_true, if_false]
    exact ⟨_, rfl, (fun h => by cases h)⟩

theorem stdLogGradient_ok {M : StdModel} (hI : StdInv M) {k : ℕ} (hk : k < M.K) (l : List ℕ) (hl : ∀ i ∈ l, i < M.data.length) :
    ∃ g, stdLogGradient M k (.list (l.map fun (i : ℕ) => (i : ℤ))) = .ok g ∧ (M.allowSelf = false → ∀ c, IsSelf M.B k c → g c = 0) := by
  obtain ⟨g, hg, h0⟩ := stdGradient_list_ok hI hk l hl
  unfold stdLogGradient
  rw [hg]
  refine ⟨_, rfl, fun hs c hc => ?_⟩
  apply Finset.sum_eq_zero
  intro d _
  by_cases h : d = c
  · rw [h, h0 hs c hc, zero_mul]
  · rw [if_neg h, mul_zero]

theorem stdLogGradient_none (M : StdModel) (k : ℕ) :
    stdLogGradient M k .none = stdLogGradient M k (.list ((List.range M.data.length).map fun (i : ℕ) => (i : ℤ))) := rfl

theorem setRow_inv {M : StdModel} (hI : StdInv M) {k : ℕ} {w v : Vec ℝ} (hv : M.allowSelf = false → ∀ c, IsSelf M.B k c → v c = 0)
    (hw : expStep M.n (M.weights k) v = .ok w) (hk : k < M.K) : StdInv (M.setRow k w) := by
  unfold expStep at hw
  split at hw
  · cases hw
  · cases hw
    refine ⟨hI.kpos, hI.data, hI.time, hI.alpha, ?_, ?_⟩
    · intro i hi c hc
      show 0 < (if i = k then _ else M.weights i) c
      split
      · exact Real.exp_pos _
      · exact hI.pos i hi c hc
    · intro hs i hi c hc
      show (if i = k then _ else M.weights i) c = 1e-32
      split
      · next e =>
        subst e
        dsimp only
        rw [hv hs c hc, add_zero, hI.self hs i hi c hc, Real.exp_log (by norm_num)]
      · exact hI.self hs i hi c hc

theorem expStep_ok {n : ℕ} {w : Vec ℝ} (hw : PosRow n w) (v : Vec ℝ) : ∃ x, expStep n w v = .ok x := by
  unfold expStep
  rw [if_neg]
  · exact ⟨_, rfl⟩
  · push Not
    exact hw

/-- loop rule for a loop that cannot fail -/
theorem forListE_inv_ok {α σ : Type*} (P : σ → Prop) (f : α → σ → Except PyErr σ) (l : List α) (s : σ) (hs : P s)
    (h : ∀ a ∈ l, ∀ s, P s → ∃ s', f a s = .ok s' ∧ P s') : ∃ s', forListE l f s = .ok s' ∧ P s' := by
  induction l generalizing s with
  | nil => exact ⟨s, rfl, hs⟩
  | cons a l ih =>
    obtain ⟨s', h1, h2⟩ := h a (by simp) s hs
    obtain ⟨s'', h3, h4⟩ := ih s' h2 fun b hb => h b (List.mem_cons_of_mem _ hb)
    exact ⟨s'', by simp [forListE, h1, h3], h4⟩

theorem stdLogLik_total {M : StdModel} (hI : StdInv M) : ∃ v, stdLogLik M .none .none = .ok v := by
  have hc : (KsArg.none).cols M.K = .ok (List.range M.K) := by unfold KsArg.cols; dsimp only; rw [if_neg hI.kpos.ne']
  rw [stdLogLik_none hI.data hc fun k hk => hI.pos k (List.mem_range.1 hk)]
  exact ⟨_, rfl⟩

theorem sameShape_refl (M : StdModel) : SameShape M M := ⟨rfl, rfl, rfl, rfl, rfl, rfl⟩

theorem SameShape.trans {M M' M'' : StdModel} (h : SameShape M M') (h' : SameShape M' M'') : SameShape M M'' := by
  obtain ⟨a1, a2, a3, a4, a5, a6⟩ := h
  obtain ⟨b1, b2, b3, b4, b5, b6⟩ := h'
  exact ⟨b1.trans a1, b2.trans a2, b3.trans a3, b4.trans a4, b5.trans a5, b6.trans a6⟩

theorem gradStep_inv {M : StdModel} (hI : StdInv M) (stepsz : ℝ) :
    ∃ r, gradStep stepsz M = .ok r ∧ StdInv r.1 ∧ SameShape M r.1 ∧ r.1.data = M.data := by
  obtain ⟨st, h1, h2, h3, h4⟩ := forListE_inv_ok (fun st : StdModel × Mat ℝ => StdInv st.1 ∧ SameShape M st.1 ∧ st.1.data = M.data) (gradStepBody stepsz) (List.range M.K) (M, fun _ _ => 0)
    ⟨hI, sameShape_refl M, rfl⟩ (by
      rintro k hk st ⟨hs, hsh, hd⟩
      have hk' : k < st.1.K := by rw [hsh.1]; exact List.mem_range.1 hk
      obtain ⟨g, hg, h0⟩ := stdLogGradient_ok hs hk' (List.range st.1.data.length) (by simp)
      obtain ⟨w, hw⟩ := expStep_ok (hs.pos k hk') (fun c => stepsz * g c)
      refine ⟨(st.1.setRow k w, fun i => if i = k then g else st.2 i), ?_, setRow_inv hs (v := fun c => stepsz * g c) ?_ hw hk', hsh, hd⟩
      · unfold gradStepBody
        rw [stdLogGradient_none, hg]
        dsimp only
        rw [hw]
      · intro h c hc
        rw [h0 h c hc, mul_zero])
  obtain ⟨v, hv⟩ := stdLogLik_total h2
  refine ⟨(st.1, v, st.2), ?_, h2, h3, h4⟩
  unfold gradStep
  rw [h1]
  dsimp only
  rw [hv]

theorem sgd_inv {M : StdModel} (hI : StdInv M) (hd : 0 < M.data.length) {mb : ℕ → ℕ} (hmb : mb M.data.length < M.data.length) {prev : Option (Mat ℝ)}
    (hp : ∀ v, prev = some v → M.allowSelf = false → ∀ k < M.K, ∀ c, IsSelf M.B k c → v k c = 0) (lr mom : ℝ) :
    ∃ r, stdSgdStep mb prev lr mom M = .ok r ∧ StdInv r.1 ∧ SameShape M r.1 ∧ r.1.data = M.data ∧
      (M.allowSelf = false → ∀ k < M.K, ∀ c, IsSelf M.B k c → r.2.2 k c = 0) := by
  have hp' : M.allowSelf = false → ∀ k < M.K, ∀ c, IsSelf M.B k c → (prev.getD fun _ _ => 0) k c = 0 := by
    intro hs k hk c hc
    cases prev with
    | none => rfl
    | some v => exact hp v rfl hs k hk c hc
  have hDT := hI.time _ (List.getElem_mem hmb)
  obtain ⟨st, h1, h2, h3, h4, h5⟩ := forListE_inv_ok
    (fun st : StdModel × Mat ℝ => StdInv st.1 ∧ SameShape M st.1 ∧ st.1.data = M.data ∧ (M.allowSelf = false → ∀ k < M.K, ∀ c, IsSelf M.B k c → st.2 k c = 0))
    (sgdStepBody (mb M.data.length) (M.data[mb M.data.length]).T (prev.getD fun _ _ => 0) lr mom) (List.range M.K) (M, fun _ _ => 0)
    ⟨hI, sameShape_refl M, rfl, fun _ _ _ _ _ => rfl⟩ (by
      rintro k hk st ⟨hs, hsh, hd, hv⟩
      have hkM := List.mem_range.1 hk
      have hk' : k < st.1.K := by rw [hsh.1]; exact hkM
      obtain ⟨g, hg, h0⟩ := stdLogGradient_ok hs hk' [mb M.data.length] (by rw [hd]; simpa using hmb)
      have hz : M.allowSelf = false → ∀ c, IsSelf M.B k c → mom * (prev.getD fun _ _ => 0) k c + lr * (g c / ((M.data[mb M.data.length]).T : ℝ)) = 0 := by
        intro h c hc
        rw [hp' h k hkM c hc, h0 (by rw [hsh.2.2.2.2.1]; exact h) c (by rw [hsh.2.1]; exact hc)]
        simp
      obtain ⟨w, hw⟩ := expStep_ok (hs.pos k hk') (fun c => mom * (prev.getD fun _ _ => 0) k c + lr * (g c / ((M.data[mb M.data.length]).T : ℝ)))
      refine ⟨(st.1.setRow k w, fun j => if j = k then (fun c => mom * (prev.getD fun _ _ => 0) k c + lr * (g c / ((M.data[mb M.data.length]).T : ℝ))) else st.2 j), ?_,
        setRow_inv hs ?_ hw hk', hsh, hd, ?_⟩
      · unfold sgdStepBody
        have : (IdxArg.list [((mb M.data.length : ℕ) : ℤ)]) = .list ([mb M.data.length].map fun (i : ℕ) => (i : ℤ)) := rfl
        rw [this, hg]
        dsimp only
        rw [hw]
      · intro h c hc
        exact hz (by rw [← hsh.2.2.2.2.1]; exact h) c (by rw [← hsh.2.1]; exact hc)
      · intro h i hi c hc
        dsimp only
        by_cases e : i = k
        · rw [if_pos e]; exact hz h c (by rw [← e]; exact hc)
        · rw [if_neg e]; exact hv h i hi c hc)
  obtain ⟨v, hv⟩ := stdLogLik_total h2
  refine ⟨(st.1, v, st.2), ?_, h2, h3, h4, h5⟩
  unfold stdSgdStep
  dsimp only
  rw [if_neg hd.ne', List.getElem?_eq_getElem hmb]
  dsimp only
  rw [if_neg hDT.ne', h1]
  dsimp only
  rw [hv]

/-- invariant of the history -/
def RunInv (a : StdArgs) (s : StdRun) : Prop :=
  StdInv s.M ∧ (s.M.K = a.K ∧ s.M.B = a.B ∧ s.M.L = a.L ∧ s.M.allowSelf = a.allowSelf ∧ s.M.basis = a.basis) ∧
    ∀ v, s.vel = some v → a.allowSelf = false → ∀ k < a.K, ∀ c, IsSelf a.B k c → v k c = 0

theorem velArg_zero {a : StdArgs} {s : StdRun} (hs : RunInv a s) {mb : ℕ → ℕ} {prev : VelArg} {lr mom : ℝ} (ho : StdOpOk a.K a.B a.allowSelf (.sgd mb prev lr mom)) :
    ∀ v, prev.get s = some v → s.M.allowSelf = false → ∀ k < s.M.K, ∀ c, IsSelf s.M.B k c → v k c = 0 := by
  obtain ⟨_, ⟨e1, e2, _, e4, _⟩, hv⟩ := hs
  rw [e1, e2, e4]
  intro v hv'
  cases prev with
  | none => cases hv'
  | last => exact hv v hv'
  | given u => exact ho.2 v (by rw [Option.some.inj hv'])

theorem call_inv {a : StdArgs} (hb : ∀ l < a.L, ∀ b < a.B, 0 ≤ a.basis l b) {s s' : StdRun} (hs : RunInv a s) {op : StdOp} (ho : StdOpOk a.K a.B a.allowSelf op)
    (h : stdCall op s = .ok s') : RunInv a s' := by
  have hs0 := hs
  obtain ⟨hI, ⟨e1, e2, e3, e4, e5⟩, hv⟩ := hs
  have mk : ∀ {M' : StdModel} {vel : Option (Mat ℝ)}, StdInv M' → SameShape s.M M' →
      (∀ v, vel = some v → a.allowSelf = false → ∀ k < a.K, ∀ c, IsSelf a.B k c → v k c = 0) → RunInv a ⟨M', vel⟩ := by
    rintro M' vel h1 ⟨f1, f2, f3, f4, f5, f6⟩ h3
    exact ⟨h1, ⟨f1.trans e1, f2.trans e2, f3.trans e3, f5.trans e4, f6.trans e5⟩, h3⟩
  cases op with
  | addData x =>
    unfold stdCall at h
    dsimp only at h
    cases hx : stdAddData x s.M with
    | error e => rw [hx] at h; cases h
    | ok M' =>
      rw [hx] at h; cases h
      obtain ⟨h1, h2⟩ := addData_inv hI (by rw [e3, e2, e5]; exact hb) (by rw [e1, e2]; exact ho) hx
      exact mk h1 h2 hv
  | gradStep st =>
    unfold stdCall at h
    dsimp only at h
    obtain ⟨r, hr, h1, h2, _⟩ := gradStep_inv hI st
    rw [hr] at h; cases h
    exact mk h1 h2 hv
  | sgd mb prev lr mom =>
    have hz := velArg_zero hs0 ho
    unfold stdCall at h
    dsimp only at h
    by_cases hd : 0 < s.M.data.length
    · obtain ⟨r, hr, h1, h2, _, h5⟩ := sgd_inv hI hd (ho.1 _ hd) hz lr mom
      rw [hr] at h; cases h
      refine mk h1 h2 ?_
      intro v hv'
      cases hv'
      rw [← e1, ← e2, ← e4]
      exact h5
    · have : stdSgdStep mb (prev.get s) lr mom s.M = .error .value := by
        unfold stdSgdStep
        dsimp only
        rw [if_pos (by omega)]
      rw [this] at h; cases h

theorem run_inv {a : StdArgs} {M0 : StdModel} (hK : 0 < a.K) (hb : ∀ l < a.L, ∀ b < a.B, 0 ≤ a.basis l b) (h0 : stdNew a = .ok M0) (ops : List StdOp)
    (ho : ∀ op ∈ ops, StdOpOk a.K a.B a.allowSelf op) : RunInv a (stdRun ops ⟨M0, none⟩) := by
  have start : RunInv a ⟨M0, none⟩ := by
    obtain ⟨h1, h2, h3, h4, h5, h6, _⟩ := stdNew_inv hK h0
    exact ⟨h1, ⟨h2, h3, h4, h5, h6⟩, fun v hv => by cases hv⟩
  unfold stdRun
  have : ∀ (l : List StdOp) (s : StdRun), RunInv a s → (∀ op ∈ l, StdOpOk a.K a.B a.allowSelf op) → RunInv a (l.foldl stdStep s) := by
    intro l
    induction l with
    | nil => intro s hs _; exact hs
    | cons op l ih =>
      intro s hs ho
      apply ih
      · unfold stdStep
        cases h : stdCall op s with
        | error e => exact hs
        | ok s' => exact call_inv hb hs (ho op (by simp)) h
      · exact fun op h => ho op (List.mem_cons_of_mem _ h)
  exact this ops _ start ho

/-- **C37 (positivity).** After any sequence of `add_data`, `gradient_descent_step` and `sgd_step` calls on a new standard model with a nonnegative basis (any step sizes, learning rates, momenta, minibatch draws,
velocities), every weight is positive. -/
theorem C37_weights_positive {a : StdArgs} {M0 : StdModel} (hK : 0 < a.K) (hb : ∀ l < a.L, ∀ b < a.B, 0 ≤ a.basis l b) (h0 : stdNew a = .ok M0) (ops : List StdOp)
    (ho : ∀ op ∈ ops, StdOpOk a.K a.B a.allowSelf op) :
    ∀ k < a.K, ∀ c < 1 + a.K * a.B, 0 < (stdRun ops ⟨M0, none⟩).M.weights k c := by
  obtain ⟨hI, ⟨e1, e2, _⟩, _⟩ := run_inv hK hb h0 ops ho
  rw [← e1, ← e2]
  exact hI.pos

/-- **C37 (self weights).** With `allow_self_connections=False` the self weights keep exactly the value `1e-32` that the constructor gave them (momentum starting at zero: a velocity array of the
caller's own making must vanish there, which `None` and returned velocities do). -/
theorem C37_self_weights_fixed {a : StdArgs} {M0 : StdModel} (hK : 0 < a.K) (hb : ∀ l < a.L, ∀ b < a.B, 0 ≤ a.basis l b) (h0 : stdNew a = .ok M0) (ops : List StdOp)
    (ho : ∀ op ∈ ops, StdOpOk a.K a.B a.allowSelf op) (hs : a.allowSelf = false) :
    ∀ k < a.K, ∀ b < a.B, M0.weights k (1 + k * a.B + b) = 1e-32 ∧ (stdRun ops ⟨M0, none⟩).M.weights k (1 + k * a.B + b) = 1e-32 := by
  intro k hk b hb'
  have hself : IsSelf a.B k (1 + k * a.B + b) := ⟨by omega, by rw [add_mul]; omega⟩
  constructor
  · obtain ⟨h1, h2, h3, _, h5, _⟩ := stdNew_inv hK h0
    exact h1.self (h5.trans hs) k (by rw [h2]; exact hk) _ (by rw [h3]; exact hself)
  · obtain ⟨hI, ⟨e1, e2, _, e4, _⟩, _⟩ := run_inv hK hb h0 ops ho
    exact hI.self (e4.trans hs) k (by rw [e1]; exact hk) _ (by rw [e2]; exact hself)

/-- **C37 (no failure).** In such a history no `gradient_descent_step` fails, no `sgd_step` with at least one data set fails (no assertion, no logarithm or quotient of a number that is not positive),
and the steps do not touch the data. -/
theorem C37_steps_never_fail {a : StdArgs} {M0 : StdModel} (hK : 0 < a.K) (hb : ∀ l < a.L, ∀ b < a.B, 0 ≤ a.basis l b) (h0 : stdNew a = .ok M0) (ops : List StdOp)
    (ho : ∀ op ∈ ops, StdOpOk a.K a.B a.allowSelf op) :
    (∀ stepsz, ∃ r, gradStep stepsz (stdRun ops ⟨M0, none⟩).M = .ok r ∧ r.1.data = (stdRun ops ⟨M0, none⟩).M.data) ∧
    (∀ mb prev lr mom, StdOpOk a.K a.B a.allowSelf (.sgd mb prev lr mom) → (stdRun ops ⟨M0, none⟩).M.data ≠ [] →
      ∃ s', stdCall (.sgd mb prev lr mom) (stdRun ops ⟨M0, none⟩) = .ok s' ∧ s'.M.data = (stdRun ops ⟨M0, none⟩).M.data) := by
  have hR := run_inv hK hb h0 ops ho
  refine ⟨fun st => ?_, fun mb prev lr mom hop hd => ?_⟩
  · obtain ⟨r, h1, _, _, h4⟩ := gradStep_inv hR.1 st
    exact ⟨r, h1, h4⟩
  · have hd' := List.length_pos_iff.2 hd
    obtain ⟨r, h1, _, _, h4, _⟩ := sgd_inv hR.1 hd' (hop.1 _ hd') (velArg_zero hR hop) lr mom
    refine ⟨⟨r.1, some r.2.2⟩, ?_, h4⟩
    unfold stdCall
    dsimp only
    rw [h1]

/-! Two processes, self connections disallowed, two minibatches, three steps: the hypotheses hold. -/

noncomputable def demoStdArgs : StdArgs :=
  { K := 2, B := 1, L := 2, dt := 1, alpha := 2, beta := 1, allowInstantaneous := false, allowSelf := false, wMax := none, basis := fun l _ => if l = 1 then 1 else 0 }

def demoStdAdd : StdAddArgs := { T := 3, KS := 2, isInt := true, S := fun t k => if t = k then 1 else 0, F := none, minibatch := some 2 }

noncomputable def demoStdOps : List StdOp := [.addData demoStdAdd, .gradStep 0.1, .sgd (fun n => n - 1) .none 0.1 0.9, .sgd (fun _ => 0) .last 0.1 0.9]

theorem demoStd_ops : (∃ M0, stdNew demoStdArgs = .ok M0) ∧ (∀ l < demoStdArgs.L, ∀ b < demoStdArgs.B, 0 ≤ demoStdArgs.basis l b) ∧
    ∀ op ∈ demoStdOps, StdOpOk demoStdArgs.K demoStdArgs.B demoStdArgs.allowSelf op := by
  refine ⟨?_, ?_, ?_⟩
  · unfold stdNew demoStdArgs
    rw [if_neg (by simp), if_neg (by norm_num)]
    exact ⟨_, rfl⟩
  · intro l _ b _
    unfold demoStdArgs
    dsimp only
    split <;> norm_num
  · intro op hop
    simp only [demoStdOps, List.mem_cons, List.not_mem_nil, or_false] at hop
    rcases hop with rfl | rfl | rfl | rfl
    · intro r c F h; cases h
    · trivial
    · exact ⟨fun n hn => by show n - 1 < n; omega, fun v h => by cases h⟩
    · exact ⟨fun n hn => hn, fun v h => by cases h⟩

/-- the data of the example are accepted, so the last clause of `C37_steps_never_fail` applies -/
theorem demoStd_data : ∃ M0 M1, stdNew demoStdArgs = .ok M0 ∧ stdAddData demoStdAdd M0 = .ok M1 ∧ M1.data.length = 2 := by
  have hM : ∃ M0, stdNew demoStdArgs = .ok M0 := by
    unfold stdNew demoStdArgs
    rw [if_neg (by simp), if_neg (by norm_num)]
    exact ⟨_, rfl⟩
  obtain ⟨M0, h0⟩ := hM
  obtain ⟨_, h1, h2, h3, _, h5, h6⟩ := stdNew_inv (by decide) h0
  have hconv := C02_convolve_eq_filtered 3 M0.K M0.L M0.B M0.basis (fun t k => (demoStdAdd.S t k : ℝ)) (by decide) (by rw [h1]; decide) (by rw [h3]; decide) (by rw [h2]; decide)
  obtain ⟨F, hF, _⟩ := hconv
  have hmk : ∃ D, stdMakeData demoStdAdd M0 = .ok D := by
    have hF' : convolve demoStdAdd.T M0.K M0.L M0.B M0.basis (fun t k => (demoStdAdd.S t k : ℝ)) = .ok F := hF
    unfold stdMakeData
    rw [show demoStdAdd.F = none from rfl]
    dsimp only
    rw [hF']
    exact ⟨_, rfl⟩
  obtain ⟨D, hD⟩ := hmk
  refine ⟨M0, { M0 with data := M0.data ++ (mbBounds demoStdAdd.T 2).map fun b => D.slice b.1 b.2 }, h0, ?_, ?_⟩
  · unfold stdAddData
    rw [if_neg (by rw [h1]; decide), if_neg (by decide), if_neg (by simp only [not_not]; exact ⟨by decide, rfl⟩), hD]
    dsimp only [demoStdAdd]
    norm_num
    rfl
  · simp [h6, mbBounds, demoStdAdd]

end PyHawkes
