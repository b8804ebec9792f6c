import Verif.Props.VarHistory

/-! # C50 examples and corner case, C52: stochastic steps visit every bin once per epoch -/
set_option linter.unusedSectionVars false

namespace PyHawkes
open Finset Spec

/-! ### C50: a concrete instance and the corner case of step size zero -/

/-- a block model with two processes and two blocks, self connections allowed or not -/
noncomputable def exSBM (self : Bool) : SBM :=
  { K := 2, C := 2, pi := fun _ => 1, tau0 := 1, tau1 := 1, kappa := 1, alpha := 1, beta := 1, allowSelf := self, m := fun _ => 1 / 2, c := fun i => i % 2,
    p := fun _ _ => 1 / 2, v := fun _ _ => 1, fixed := false, mfPi := fun _ => 1, mfM := fun _ _ => 1 / 2, mfTau0 := fun _ _ => 1, mfTau1 := fun _ _ => 1,
    mfAlpha := fun _ _ => 1, mfBeta := fun _ _ => 1 }

/-- a model with one data set of three bins in which each process has events -/
noncomputable def exMF (self : Bool) : MFModel :=
  { K := 2, B := 1, bias := { alpha := 1, beta := 1, dt := 1, mfAlpha := fun _ => 1, mfBeta := fun _ => 1 },
    imp := { gamma := fun _ => 1, mfGamma := fun _ _ _ => 1 }, w := MFWeights.init 1 10 1 (fun _ _ => 1), net := .sbm (exSBM self),
    data := [{ T := 3, S := fun t k => t + k, F := fun t _ _ => t }], sgdOffset := none }

theorem exSBM_good (self : Bool) : SBMGood (exSBM self) := by
  refine ⟨?_, ?_, ?_, ?_, ?_, ?_, ?_, ?_, ?_, ?_, ?_⟩ <;> simp [exSBM, SBM.P, SBM.V]
  intro i _ j _
  split_ifs <;> norm_num

theorem exMF_good (self : Bool) : MFGood (exMF self) := by
  refine ⟨?_, ?_, ?_, ?_, ?_, ?_, ?_⟩
  · simp [exMF]
  · simp [exMF]
  · simp [exMF, MFWeights.init]
  · simp [exMF, MFWeights.init]
  · intro i _ j _; simp only [exMF, MFWeights.init]; norm_num
  · exact ⟨rfl, exSBM_good self⟩
  · simp [exMF]

/-- the hypotheses of C50 are met by this model and this history, also with self connections disallowed -/
example : ∃ M, runActs [.coord, .sgd 2 (1 / 2), .sgd 2 1, .coord] (exMF false) = .ok M ∧ MFValid (exMF false) M :=
  C50_valid_forever _ (exMF_good false) _ (by
    intro a ha
    have h : (exMF false).data.length = 1 := rfl
    simp only [List.mem_cons, List.not_mem_nil, or_false] at ha
    rcases ha with rfl | rfl | rfl | rfl
    · trivial
    · exact ⟨by norm_num, by norm_num, by norm_num, fun h => by norm_num at h, h⟩
    · exact ⟨by norm_num, by norm_num, by norm_num, fun h => by norm_num at h, h⟩
    · trivial)

/-- **C50, corner case.** The restriction on step size 0 is needed: with self connections disallowed a stochastic step with step size 0 computes
`0 * (-inf)` on the diagonal and stores `nan` as edge probability. -/
theorem C50_step_zero_nan_violated (mb : ℕ) : (exMF false).sgdStep mb 0 = .error .silentNan := by
  have key : ∀ w : MFWeights, ∀ L : Mat ℝ, w.logitHat (.sbm (exSBM false)) L 0 0 0 = .nan := by
    intro w L
    have : w.logitP (.sbm (exSBM false)) L 0 0 = .ninf := by
      unfold MFWeights.logitP
      have h1 : (MFNet.sbm (exSBM false)).eLnP 0 0 = .ninf := by simp [MFNet.eLnP, exSBM]
      have h2 : (MFNet.sbm (exSBM false)).eLnNotP 0 0 = .fin 0 := by simp [MFNet.eLnNotP, exSBM]
      rw [h1, h2]
      rfl
    unfold MFWeights.logitHat
    rw [this]
    have : (FX.fin 0 * FX.ninf : FX) = .nan := by show FX.infMul 0 _ _ = _; simp [FX.infMul]
    rw [this]
    generalize (FX.fin (1 - 0) * (FX.log (w.mfP 0 0 / 1) - FX.log (1 - w.mfP 0 0 / 1))) = z
    cases z <;> rfl
  have hdat : (exMF false).data = [{ T := 3, S := fun t k => t + k, F := fun t _ _ => t }] := rfl
  have hnet : (exMF false).net = .sbm (exSBM false) := rfl
  have hK : (exMF false).K = 2 := rfl
  simp only [MFModel.sgdStep, hdat, MFModel.updateGlobals, List.cons_ne_nil, if_false, MFWeights.update, hnet, MFNet.eV, MFNet.eLnV, MFWeights.updateP, hK]
  rw [if_pos ⟨0, by rw [hK]; norm_num, 0, by rw [hK]; norm_num, key _ _⟩]

/-! ### C52 -/

/-- number of steps per epoch: `ceil(T / mb)` -/
def epochLen (T mb : ℕ) : ℕ := (T + mb - 1) / mb

theorem epochLen_spec {T mb : ℕ} (hT : 0 < T) (hm : 0 < mb) : (epochLen T mb - 1) * mb < T ∧ T ≤ epochLen T mb * mb ∧ 0 < epochLen T mb := by
  unfold epochLen
  have h1 := Nat.div_add_mod (T + mb - 1) mb
  have h2 := Nat.mod_lt (T + mb - 1) hm
  set q := (T + mb - 1) / mb
  have hq : 0 < q := by
    rcases Nat.eq_zero_or_pos q with h | h
    · rw [h, mul_zero] at h1; omega
    · exact h
  have e : (q - 1) * mb = mb * q - mb := by rw [Nat.sub_mul, one_mul, mul_comm]
  have e2 : q * mb = mb * q := mul_comm _ _
  have e3 : mb ≤ mb * q := Nat.le_mul_of_pos_right mb hq
  omega

/-- the offset after `n+1` steps is `(n mod q) * mb` -/
theorem sgdWindow_seq {T mb : ℕ} (hT : 0 < T) (hm : 0 < mb) (n : ℕ) :
    (sgdWindow T mb (some ((n % epochLen T mb) * mb))).1 = ((n + 1) % epochLen T mb) * mb := by
  obtain ⟨h1, h2, h3⟩ := epochLen_spec hT hm
  set q := epochLen T mb
  simp only [sgdWindow]
  have hr := Nat.mod_lt n h3
  by_cases hlast : n % q = q - 1
  · have e : (n + 1) % q = 0 := by
      have := Nat.div_add_mod n q
      have : n + 1 = q * (n / q) + q := by omega
      rw [this, Nat.mul_add_mod, Nat.mod_self]
    have e' : (q - 1) * mb + mb = q * mb := by rw [← Nat.succ_mul, Nat.succ_eq_add_one, Nat.sub_add_cancel h3]
    rw [e, hlast, e', if_pos h2, zero_mul]
  · have e : (n + 1) % q = n % q + 1 := by
      have := Nat.div_add_mod n q
      have e : n + 1 = q * (n / q) + (n % q + 1) := by omega
      rw [e, Nat.mul_add_mod, Nat.mod_eq_of_lt (by omega)]
    have e' : n % q * mb + mb = (n % q + 1) * mb := (Nat.succ_mul _ _).symm
    have : (n % q + 1) * mb ≤ (q - 1) * mb := Nat.mul_le_mul_right mb (by omega)
    rw [e, e', if_neg (by omega)]

/-- **C52 (windows).** After any number `n+1` of successful stochastic steps with the same minibatch size on a fresh model with one data set of `T` bins, whatever the
step sizes, the offset of the last window is `(n mod ⌈T/mb⌉) * mb`, and the data set is unchanged. -/
theorem C52_offsets (M0 : MFModel) (D : DParents ℝ) (hD : M0.data = [D]) (hf : M0.sgdOffset = none) (hT : 0 < D.T) {mb : ℕ} (hm : 0 < mb)
    (steps : List ℝ) (hne : steps ≠ []) (M : MFModel) (hrun : runActs (steps.map (MFAct.sgd mb)) M0 = .ok M) :
    M.sgdOffset = some ((steps.length - 1) % epochLen D.T mb * mb) ∧ M.data = [D] := by
  have one : ∀ (M1 M2 : MFModel) (s : ℝ), M1.data = [D] → M1.sgdStep mb s = .ok M2 →
      M2.data = [D] ∧ M2.sgdOffset = some (sgdWindow D.T mb M1.sgdOffset).1 := by
    intro M1 M2 s h1 h2
    simp only [MFModel.sgdStep, h1, MFModel.updateGlobals] at h2
    rw [if_neg (List.cons_ne_nil _ _)] at h2
    split at h2
    · exact absurd h2 (by simp)
    · rename_i M' hM'
      split at hM'
      · exact absurd hM' (by simp)
      · split at hM'
        · exact absurd hM' (by simp)
        · cases hM'
          cases h2
          exact ⟨rfl, rfl⟩
  have gen : ∀ (steps : List ℝ) (M1 : MFModel) (n : ℕ), M1.data = [D] → M1.sgdOffset = some (n % epochLen D.T mb * mb) →
      runActs (steps.map (MFAct.sgd mb)) M1 = .ok M → M.sgdOffset = some ((n + steps.length) % epochLen D.T mb * mb) ∧ M.data = [D] := by
    intro steps
    induction steps with
    | nil =>
      intro M1 n h1 h2 h3
      simp only [List.map_nil, runActs] at h3
      cases h3
      exact ⟨h2, h1⟩
    | cons s ss ih =>
      intro M1 n h1 h2 h3
      simp only [List.map_cons, runActs, MFAct.run] at h3
      cases h4 : M1.sgdStep mb s with
      | error e => rw [h4] at h3; exact absurd h3 (by simp)
      | ok M2 =>
        rw [h4] at h3
        obtain ⟨d2, o2⟩ := one M1 M2 s h1 h4
        rw [h2, sgdWindow_seq hT hm] at o2
        have := ih M2 (n + 1) d2 o2 h3
        rw [List.length_cons, show n + (ss.length + 1) = n + 1 + ss.length by omega]
        exact this
  cases steps with
  | nil => exact absurd rfl hne
  | cons s ss =>
    simp only [List.map_cons, runActs, MFAct.run] at hrun
    cases h4 : M0.sgdStep mb s with
    | error e => rw [h4] at hrun; exact absurd hrun (by simp)
    | ok M2 =>
      rw [h4] at hrun
      obtain ⟨d2, o2⟩ := one M0 M2 s hD h4
      have o2' : M2.sgdOffset = some (0 % epochLen D.T mb * mb) := by
        rw [o2, hf]; simp [sgdWindow]
      have := gen ss M2 0 d2 o2' hrun
      simpa using this

/-- the bins of the window with offset `o` -/
def windowBins (T mb o : ℕ) : List ℕ := (List.range (min (o + mb) T - o)).map (o + ·)

theorem epoch_prefix {T mb : ℕ} (n : ℕ) : (List.range n).flatMap (fun i => windowBins T mb (i * mb)) = List.range (min (n * mb) T) := by
  induction n with
  | zero => simp
  | succ n ih =>
    rw [List.range_succ, List.flatMap_append, ih, List.flatMap_singleton]
    unfold windowBins
    by_cases h : n * mb ≤ T
    · rw [min_eq_left h, show (n + 1) * mb = n * mb + mb from Nat.succ_mul _ _]
      have e : min (n * mb + mb) T = n * mb + (min (n * mb + mb) T - n * mb) := by omega
      conv_rhs => rw [e, List.range_add]
    · have h1 : min (n * mb) T = T := min_eq_right (by omega)
      have h2 : (n + 1) * mb = n * mb + mb := Nat.succ_mul _ _
      have h3 : min (n * mb + mb) T - n * mb = 0 := by omega
      have h4 : min ((n + 1) * mb) T = T := by omega
      rw [h1, h3, h4]; simp

/-- **C52 (partition).** The windows of one epoch, in order, list every bin `0, ..., T-1` exactly once; each is nonempty, and the minibatch fractions add up to
one. -/
theorem C52_epoch_partition {T mb : ℕ} (hT : 0 < T) (hm : 0 < mb) :
    (List.range (epochLen T mb)).flatMap (fun i => windowBins T mb (i * mb)) = List.range T ∧
    (∀ i < epochLen T mb, windowBins T mb (i * mb) ≠ []) ∧
    ∑ i ∈ range (epochLen T mb), ((windowBins T mb (i * mb)).length : ℝ) / T = 1 := by
  obtain ⟨h1, h2, h3⟩ := epochLen_spec hT hm
  have hall : (List.range (epochLen T mb)).flatMap (fun i => windowBins T mb (i * mb)) = List.range T := by
    rw [epoch_prefix, min_eq_right h2]
  refine ⟨hall, fun i hi => ?_, ?_⟩
  · have : i * mb ≤ (epochLen T mb - 1) * mb := Nat.mul_le_mul_right mb (by omega)
    intro hh
    have := congrArg List.length hh
    simp only [windowBins, List.length_map, List.length_range, List.length_nil] at this
    omega
  · rw [← sum_div, div_eq_one_iff_eq (Nat.cast_ne_zero.2 hT.ne')]
    have := congrArg List.length hall
    rw [List.length_flatMap, List.length_range] at this
    rw [← Nat.cast_sum]
    congr 1

theorem ts_congr {D D' : DParents ℝ} (hT : D.T = D'.T) (h : ∀ t < D.T, ∀ k, D.S t k = D'.S t k) (k : ℕ) : D.ts k = D'.ts k := by
  unfold DParents.ts
  rw [← hT]
  refine List.filter_congr fun t ht => ?_
  rw [h t (List.mem_range.1 ht) k]

theorem zip_map_same {α β γ : Type*} (l : List α) (f : α → β) (g : α → γ) : (l.map f).zip (l.map g) = l.map fun a => (f a, g a) := by
  induction l with
  | nil => rfl
  | cons a l ih => simp [ih]

theorem update_congr (M : MFModel) {D D' : DParents ℝ} (hT : D.T = D'.T) (hS : ∀ t < D.T, ∀ k, D.S t k = D'.S t k)
    (hF : ∀ t < D.T, ∀ k b, D.F t k b = D'.F t k b) : (M.updateParents D).getEZ = (M.updateParents D').getEZ ∧
    (M.updateParents D).Ns = (M.updateParents D').Ns := by
  have hm : ∀ k, ∀ t ∈ D.ts k, t < D.T := fun k t ht => List.mem_range.1 (List.mem_of_mem_filter ht)
  constructor
  · funext k
    simp only [MFModel.updateParents, mfUpdateParents, DParents.getEZ, DParents.Ss, DParents.Fs, zip_map_same, List.map_map,
      ← ts_congr hT hS k]
    refine List.map_congr_left fun t ht => ?_
    have e : D.F t = D'.F t := by funext a b; exact hF t (hm k t ht) a b
    simp only [Function.comp, e, hS t (hm k t ht) k]
  · funext k
    show ((D.ts k).map fun t => D.S t k).sum = ((D'.ts k).map fun t => D'.S t k).sum
    rw [← ts_congr hT hS k]
    congr 1
    exact List.map_congr_left fun t ht => hS t (hm k t ht) k

/-- **C52 (what a step reads).** A stochastic step reads only the bins of its window: two models that differ only in the data outside the window
`offset, ..., min(offset+mb,T)-1` are updated to the same bias, impulse, weight and network parameters. -/
theorem C52_reads_only_window (M : MFModel) (D D' : DParents ℝ) (hD : M.data = [D]) (hT : D.T = D'.T) {mb : ℕ} (s : ℝ)
    (hS : ∀ t ∈ windowBins D.T mb (sgdWindow D.T mb M.sgdOffset).1, ∀ k, D.S t k = D'.S t k)
    (hF : ∀ t ∈ windowBins D.T mb (sgdWindow D.T mb M.sgdOffset).1, ∀ k b, D.F t k b = D'.F t k b) :
    (M.sgdStep mb s).map (fun M : MFModel => (M.bias, M.imp, M.w, M.net)) =
      ({ M with data := [D'] }.sgdStep mb s).map (fun M : MFModel => (M.bias, M.imp, M.w, M.net)) := by
  set o := (sgdWindow D.T mb M.sgdOffset).1 with ho
  have hw2 : (sgdWindow D.T mb M.sgdOffset).2 = min (o + mb) D.T := rfl
  have hmem : ∀ t, t < min (o + mb) D.T - o → o + t ∈ windowBins D.T mb o := fun t ht => List.mem_map.2 ⟨t, List.mem_range.2 ht, rfl⟩
  obtain ⟨c1, c2⟩ := update_congr M (D := sliceData D.S D.F o (min (o + mb) D.T)) (D' := sliceData D'.S D'.F o (min (o + mb) D.T)) rfl
    (fun t ht k => hS _ (hmem t ht) k) (fun t ht k b => hF _ (hmem t ht) k b)
  have c3 : (M.updateParents (sliceData D.S D.F o (min (o + mb) D.T))).T = (M.updateParents (sliceData D'.S D'.F o (min (o + mb) D.T))).T := rfl
  generalize hp : M.updateParents (sliceData D.S D.F o (min (o + mb) D.T)) = p at c1 c2 c3
  generalize hp' : M.updateParents (sliceData D'.S D'.F o (min (o + mb) D.T)) = p' at c1 c2 c3
  have hM' : ∀ q, MFModel.updateParents { M with data := [D'] } q = M.updateParents q := fun _ => rfl
  have f1 : expBkgdSS0 p = expBkgdSS0 p' := by funext k; simp [expBkgdSS0, c1]
  have f2 : ∀ B, expIrSS p B = expIrSS p' B := by intro B; funext i j k; simp [expIrSS, c1]
  have f3 : ∀ B, expWeightSS0 p B = expWeightSS0 p' B := by intro B; funext i j; simp [expWeightSS0, c1]
  have f4 : weightSS1 p = weightSS1 p' := by funext i j; simp [weightSS1, c2]
  have f5 : ∀ dt, bkgdSS1 p dt = bkgdSS1 p' dt := by intro dt; funext k; simp [bkgdSS1, c3]
  have hb : ∀ fr, M.bias.update [p] fr s = M.bias.update [p'] fr s := by
    intro fr; simp only [MFBias.update, expSum, List.foldl_cons, List.foldl_nil, f1, f5]
  have hi : ∀ fr, M.imp.update M.B [p] fr s = M.imp.update M.B [p'] fr s := by
    intro fr; simp only [MFImp.update, expSum, List.foldl_cons, List.foldl_nil, f2]
  have hw : ∀ fr, M.w.update M.K M.B M.net [p] fr s = M.w.update M.K M.B M.net [p'] fr s := by
    intro fr; simp only [MFWeights.update, MFWeights.updateKappaV, expSum, List.foldl_cons, List.foldl_nil, f3, f4]
  have hgl : ∀ fr upd, (M.updateGlobals [p] fr s upd).map (fun M : MFModel => (M.bias, M.imp, M.w, M.net))
      = (({ M with data := [D'] } : MFModel).updateGlobals [p'] fr s upd).map (fun M : MFModel => (M.bias, M.imp, M.w, M.net)) := by
    intro fr upd
    simp only [MFModel.updateGlobals, List.cons_ne_nil, if_false, hb, hi, hw]
    cases M.w.update M.K M.B M.net [p'] fr s with
    | error e => rfl
    | ok w =>
      cases h : upd w M.net with
      | error e => simp only [h]
      | ok n => simp only [h]; rfl
  have key := hgl (((min (o + mb) D.T - o : ℕ) : ℝ) / D.T) (fun w => MFNet.sgdstep w s)
  simp only [MFModel.sgdStep, hD, ← hT, hw2, ← ho, hM', hp, hp']
  rw [show (sliceData D.S D.F o (min (o + mb) D.T)).T = min (o + mb) D.T - o from rfl,
    show (sliceData D'.S D'.F o (min (o + mb) D.T)).T = min (o + mb) D.T - o from rfl]
  cases h1 : M.updateGlobals [p] (((min (o + mb) D.T - o : ℕ) : ℝ) / D.T) s (fun w => MFNet.sgdstep w s) with
  | error e =>
    cases h2 : ({ M with data := [D'] } : MFModel).updateGlobals [p'] (((min (o + mb) D.T - o : ℕ) : ℝ) / D.T) s (fun w => MFNet.sgdstep w s) with
    | error e' => rw [h1, h2] at key; simpa using key
    | ok M2 => rw [h1, h2] at key; exact absurd key (by simp [Except.map])
  | ok M1 =>
    cases h2 : ({ M with data := [D'] } : MFModel).updateGlobals [p'] (((min (o + mb) D.T - o : ℕ) : ℝ) / D.T) s (fun w => MFNet.sgdstep w s) with
    | error e' => rw [h1, h2] at key; exact absurd key (by simp [Except.map])
    | ok M2 => rw [h1, h2] at key; simpa [Except.map] using key

/-- ten bins in minibatches of four: windows start at 0, 4, 8 and then again at 0 -/
example : epochLen 10 4 = 3 ∧ sgdWindow 10 4 none = (0, 4) ∧ sgdWindow 10 4 (some 0) = (4, 8) ∧ sgdWindow 10 4 (some 4) = (8, 10) ∧
    sgdWindow 10 4 (some 8) = (0, 4) := by decide

example : ∃ M, runActs ([1, 1 / 2, 1 / 3].map (MFAct.sgd 2)) (exMF true) = .ok M ∧ M.sgdOffset = some 0 := by
  obtain ⟨M, h, _⟩ := C50_valid_forever (exMF true) (exMF_good true) ([1, 1 / 2, 1 / 3].map (MFAct.sgd 2)) (by
    intro a ha
    simp only [List.map_cons, List.map_nil, List.mem_cons, List.not_mem_nil, or_false] at ha
    rcases ha with rfl | rfl | rfl <;> exact ⟨by norm_num, by norm_num, by norm_num, fun h => by norm_num at h, rfl⟩)
  refine ⟨M, h, ?_⟩
  rw [(C52_offsets (exMF true) _ rfl rfl (by norm_num) (by norm_num) _ (by simp) M h).1]
  decide

end PyHawkes
