import Verif.Props.MFTiltSBM

/-! # C78: the stochastic steps of an epoch average to the coordinate step -/
set_option linter.unusedSectionVars false

namespace PyHawkes
open Finset Spec

/-- the data set of window `i` of an epoch -/
def window (D : DParents ℝ) (mb i : ℕ) : DParents ℝ := sliceData D.S D.F (i * mb) (min (i * mb + mb) D.T)

/-- its share of the bins -/
noncomputable def windowFrac (D : DParents ℝ) (mb i : ℕ) : ℝ := ((window D mb i).T : ℝ) / D.T

theorem filter_map_sum {M : Type*} [AddCommMonoid M] {α : Type*} (l : List α) (p : α → Bool) (f : α → M) :
    ((l.filter p).map f).sum = (l.map fun t => if p t then f t else 0).sum := by
  induction l with
  | nil => simp
  | cons a l ih => by_cases h : p a <;> simp [h, ih]

theorem epoch_sum {M : Type*} [AddCommMonoid M] {T mb : ℕ} (hT : 0 < T) (hm : 0 < mb) (f : ℕ → M) :
    ∑ i ∈ range (epochLen T mb), ((List.range (min (i * mb + mb) T - i * mb)).map fun t => f (i * mb + t)).sum = ((List.range T).map f).sum := by
  have h := (C52_epoch_partition hT hm).1
  have := congrArg (fun l : List ℕ => (l.map f).sum) h
  rw [← this, list_sum_flatMap, list_range_sum]
  refine sum_congr rfl fun i _ => ?_
  rw [windowBins, List.map_map]; rfl

/-- expected parents column of the updated data set, bin by bin -/
theorem expCol_update (M : MFModel) (D : DParents ℝ) (k c : ℕ) :
    expCol [M.updateParents D] k c = ((List.range D.T).map fun t => if D.S t k = 0 then 0 else
      mfRowPy M.K M.B (Real.exp (M.bias.eLnLam k)) (fun k1 => M.w.expELnW M.net.allowSelf k1 k) (fun k1 b => Real.exp (M.imp.eLnG M.B k1 k b)) (toU32 (D.S t k) : ℝ) (D.F t) c).sum := by
  simp only [expCol, List.map_cons, List.map_nil, List.sum_cons, List.sum_nil, add_zero, MFModel.updateParents, mfUpdateParents, DParents.getEZ, DParents.Ss, DParents.Fs,
    zip_map_same, List.map_map, DParents.ts]
  rw [filter_map_sum]
  congr 1
  refine List.map_congr_left fun t _ => ?_
  by_cases h : D.S t k = 0 <;> simp [h]

theorem epoch_expCol (M : MFModel) (D : DParents ℝ) (hT : 0 < D.T) {mb : ℕ} (hm : 0 < mb) (k c : ℕ) :
    ∑ i ∈ range (epochLen D.T mb), expCol [M.updateParents (window D mb i)] k c = expCol [M.updateParents D] k c := by
  simp only [expCol_update]
  exact epoch_sum hT hm fun t => if D.S t k = 0 then 0 else
      mfRowPy M.K M.B (Real.exp (M.bias.eLnLam k)) (fun k1 => M.w.expELnW M.net.allowSelf k1 k) (fun k1 b => Real.exp (M.imp.eLnG M.B k1 k b)) (toU32 (D.S t k) : ℝ) (D.F t) c

theorem epoch_Ns (D : DParents ℝ) (hT : 0 < D.T) {mb : ℕ} (hm : 0 < mb) (k : ℕ) :
    ∑ i ∈ range (epochLen D.T mb), (window D mb i).Ns k = D.Ns k := by
  have e : ∀ E : DParents ℝ, E.Ns k = ((List.range E.T).map fun t => E.S t k).sum := by
    intro E
    rw [DParents.Ns, DParents.ts, filter_map_sum]
    congr 1
    refine List.map_congr_left fun t _ => ?_
    by_cases h : E.S t k = 0 <;> simp [h]
  simp only [e]
  exact epoch_sum hT hm fun t => D.S t k

theorem windowFrac_pos {D : DParents ℝ} (hT : 0 < D.T) {mb i : ℕ} (hm : 0 < mb) (hi : i < epochLen D.T mb) : 0 < windowFrac D mb i := by
  have h := (C52_epoch_partition hT hm).2.1 i hi
  have : 0 < (window D mb i).T := by
    show 0 < min (i * mb + mb) D.T - i * mb
    rcases Nat.eq_zero_or_pos (min (i * mb + mb) D.T - i * mb) with h0 | h0
    · exact absurd (by rw [windowBins, h0]; rfl) h
    · exact h0
  exact div_pos (Nat.cast_pos.2 this) (Nat.cast_pos.2 hT)

theorem windowFrac_sum {D : DParents ℝ} (hT : 0 < D.T) {mb : ℕ} (hm : 0 < mb) : ∑ i ∈ range (epochLen D.T mb), windowFrac D mb i = 1 := by
  rw [← (C52_epoch_partition hT hm).2.2]
  refine sum_congr rfl fun i _ => ?_
  simp [windowFrac, window, sliceData, windowBins]

/-- weighted average of `prior + statistic / fraction` -/
theorem average_target {n : ℕ} {f st : ℕ → ℝ} (pr full : ℝ) (hf : ∀ i < n, 0 < f i) (h1 : ∑ i ∈ range n, f i = 1) (hs : ∑ i ∈ range n, st i = full) :
    ∑ i ∈ range n, f i * (pr + st i / f i) = pr + full := by
  have : ∀ i ∈ range n, f i * (pr + st i / f i) = f i * pr + st i := by
    intro i hi
    have := hf i (mem_range.1 hi)
    field_simp
  rw [sum_congr rfl this, sum_add_distrib, ← sum_mul, h1, one_mul, hs]

/-- **C78.** Minibatch targets are unbiased. Take the windows `i` of one epoch over a data set `D`, all seen from the same model `M`. The parameters that a full stochastic step
(step size 1) on window `i` would set, averaged with the windows' shares of the bins as weights, are the parameters the coordinate step on the whole of `D` sets. (A step of size `s`
moves the fraction `s` of the way to that target, see `C78_partial_step`.) -/
theorem C78_unbiased (M : MFModel) (D : DParents ℝ) (hT : 0 < D.T) {mb : ℕ} (hm : 0 < mb) (kappa : ℝ) (eV : Mat ℝ) :
    let n := epochLen D.T mb
    let f := windowFrac D mb
    let p := fun i => [M.updateParents (window D mb i)]
    let full := [M.updateParents D]
    (∀ k, ∑ i ∈ range n, f i * (M.bias.update (p i) (f i) 1).mfAlpha k = (M.bias.update full 1 1).mfAlpha k) ∧
    (∀ k, ∑ i ∈ range n, f i * (M.bias.update (p i) (f i) 1).mfBeta k = (M.bias.update full 1 1).mfBeta k) ∧
    (∀ k1 k2 b, ∑ i ∈ range n, f i * (M.imp.update M.B (p i) (f i) 1).mfGamma k1 k2 b = (M.imp.update M.B full 1 1).mfGamma k1 k2 b) ∧
    (∀ k1 k2, ∑ i ∈ range n, f i * (M.w.updateKappaV M.B kappa eV (p i) (f i) 1).mfKappa1 k1 k2 = (M.w.updateKappaV M.B kappa eV full 1 1).mfKappa1 k1 k2) ∧
    (∀ k1 k2, ∑ i ∈ range n, f i * (M.w.updateKappaV M.B kappa eV (p i) (f i) 1).mfV1 k1 k2 = (M.w.updateKappaV M.B kappa eV full 1 1).mfV1 k1 k2) ∧
    (∀ k1 k2, ∑ i ∈ range n, f i * (M.w.updateKappaV M.B kappa eV (p i) (f i) 1).mfKappa0 k1 k2 = (M.w.updateKappaV M.B kappa eV full 1 1).mfKappa0 k1 k2) ∧
    ∀ k1 k2, ∑ i ∈ range n, f i * (M.w.updateKappaV M.B kappa eV (p i) (f i) 1).mfV0 k1 k2 = (M.w.updateKappaV M.B kappa eV full 1 1).mfV0 k1 k2 := by
  intro n f p full
  have hf : ∀ i < n, 0 < f i := fun i hi => windowFrac_pos hT hm hi
  have h1 : ∑ i ∈ range n, f i = 1 := windowFrac_sum hT hm
  have hcol : ∀ k c, ∑ i ∈ range n, expCol (p i) k c = expCol full k c := epoch_expCol M D hT hm
  have hN : ∀ k, ∑ i ∈ range n, ((p i).map fun D => (D.Ns k : ℝ)).sum = (full.map fun D => (D.Ns k : ℝ)).sum := by
    intro k
    simp only [p, full, List.map_cons, List.map_nil, List.sum_cons, List.sum_nil, add_zero]
    rw [← Nat.cast_sum]
    exact congrArg Nat.cast (epoch_Ns D hT hm k)
  have hTT : ∑ i ∈ range n, expSum (p i) (fun d => bkgdSS1 d M.bias.dt 0) = expSum full (fun d => bkgdSS1 d M.bias.dt 0) := by
    simp only [expSum_eq, p, full, List.map_cons, List.map_nil, List.sum_cons, List.sum_nil, add_zero, bkgdSS1]
    rw [← sum_mul]
    congr 1
    have hT0 : (D.T : ℝ) ≠ 0 := Nat.cast_ne_zero.2 hT.ne'
    have := h1
    simp only [f, windowFrac] at this
    rw [← sum_div, div_eq_one_iff_eq hT0] at this
    exact this
  have hw : ∀ k1 k2, ∑ i ∈ range n, ∑ b ∈ range M.B, expCol (p i) k2 (1 + k1 * M.B + b) = ∑ b ∈ range M.B, expCol full k2 (1 + k1 * M.B + b) := by
    intro k1 k2
    rw [sum_comm]
    exact sum_congr rfl fun b _ => hcol _ _
  refine ⟨fun k => ?_, fun k => ?_, fun k1 k2 b => ?_, fun k1 k2 => ?_, fun k1 k2 => ?_, fun k1 k2 => ?_, fun k1 k2 => ?_⟩
  · simp only [MFBias.update, sub_self, zero_mul, zero_add, one_mul, div_one]
    exact average_target _ _ hf h1 (by simp only [expBkgdSS0, expSum_col]; exact hcol k 0)
  · simp only [MFBias.update, sub_self, zero_mul, zero_add, one_mul, div_one]
    exact average_target _ _ hf h1 hTT
  · simp only [MFImp.update, sub_self, zero_mul, zero_add, one_mul, div_one]
    exact average_target _ _ hf h1 (by simp only [expIrSS, expSum_col]; exact hcol k2 _)
  · simp only [MFWeights.updateKappaV, (weightStats _ _ _ _).1, sub_self, zero_mul, zero_add, one_mul, div_one]
    exact average_target _ _ hf h1 (hw k1 k2)
  · simp only [MFWeights.updateKappaV, (weightStats _ _ _ _).1, (weightStats M.B _ k1 k2).2, sub_self, zero_mul, zero_add, one_mul, div_one]
    exact average_target _ _ hf h1 (hN k1)
  · simp only [MFWeights.updateKappaV, (weightStats _ _ _ _).1, sub_self, zero_mul, zero_add, one_mul, div_one]
    exact average_target _ _ hf h1 (hw k1 k2)
  · simp only [MFWeights.updateKappaV, (weightStats _ _ _ _).1, (weightStats M.B _ k1 k2).2, sub_self, zero_mul, zero_add, one_mul, div_one]
    exact average_target _ _ hf h1 (hN k1)

/-- **C78 (step sizes).** A step of size `s` moves each of these parameters the fraction `s` of the way from its old value to the target of the full step. -/
theorem C78_partial_step (b : MFBias) (m : MFImp) (w : MFWeights) (B : ℕ) (kappa : ℝ) (eV : Mat ℝ) (dl : List (DParents ℝ)) (frac s : ℝ) (k1 k2 c : ℕ) :
    (b.update dl frac s).mfAlpha k1 = (1 - s) * b.mfAlpha k1 + s * (b.update dl frac 1).mfAlpha k1 ∧
    (b.update dl frac s).mfBeta k1 = (1 - s) * b.mfBeta k1 + s * (b.update dl frac 1).mfBeta k1 ∧
    (m.update B dl frac s).mfGamma k1 k2 c = (1 - s) * m.mfGamma k1 k2 c + s * (m.update B dl frac 1).mfGamma k1 k2 c ∧
    (w.updateKappaV B kappa eV dl frac s).mfKappa1 k1 k2 = (1 - s) * w.mfKappa1 k1 k2 + s * (w.updateKappaV B kappa eV dl frac 1).mfKappa1 k1 k2 ∧
    (w.updateKappaV B kappa eV dl frac s).mfV1 k1 k2 = (1 - s) * w.mfV1 k1 k2 + s * (w.updateKappaV B kappa eV dl frac 1).mfV1 k1 k2 ∧
    (w.updateKappaV B kappa eV dl frac s).mfKappa0 k1 k2 = (1 - s) * w.mfKappa0 k1 k2 + s * (w.updateKappaV B kappa eV dl frac 1).mfKappa0 k1 k2 ∧
    (w.updateKappaV B kappa eV dl frac s).mfV0 k1 k2 = (1 - s) * w.mfV0 k1 k2 + s * (w.updateKappaV B kappa eV dl frac 1).mfV0 k1 k2 := by
  refine ⟨?_, ?_, ?_, ?_, ?_, ?_, ?_⟩ <;> simp [MFBias.update, MFImp.update, MFWeights.updateKappaV]

/-- **C78 (what a stochastic step does).** The step that has reached offset `i*mb` updates background rates, impulse responses and weights from window `i` with the share of bins of that
window as minibatch fraction, all three from the expectations of the model before the step. -/
theorem C78_step_uses_window (M M' : MFModel) (D : DParents ℝ) (hD : M.data = [D]) {mb i : ℕ} {s : ℝ} (hi : (sgdWindow D.T mb M.sgdOffset).1 = i * mb)
    (h : M.sgdStep mb s = .ok M') :
    let p := [M.updateParents (window D mb i)]
    M'.bias = M.bias.update p (windowFrac D mb i) s ∧ M'.imp = M.imp.update M.B p (windowFrac D mb i) s ∧
    M.w.update M.K M.B M.net p (windowFrac D mb i) s = .ok M'.w ∧ M.net.sgdstep M'.w s = .ok M'.net ∧ M'.data = M.data ∧ M'.sgdOffset = some (i * mb) := by
  have h2 : (sgdWindow D.T mb M.sgdOffset).2 = min (i * mb + mb) D.T := by rw [← hi]; rfl
  unfold MFModel.sgdStep at h
  rw [hD] at h
  dsimp only at h
  rw [hi, h2] at h
  change (match M.updateGlobals [M.updateParents (window D mb i)] (windowFrac D mb i) s (fun w => MFNet.sgdstep w s) with
    | .error e => Except.error e
    | .ok M' => .ok { M' with sgdOffset := some (i * mb) }) = .ok M' at h
  unfold MFModel.updateGlobals at h
  rw [if_neg (by simp)] at h
  dsimp only at h
  cases hw : M.w.update M.K M.B M.net [M.updateParents (window D mb i)] (windowFrac D mb i) s with
  | error e => rw [hw] at h; cases h
  | ok w =>
    rw [hw] at h
    dsimp only at h
    cases hn : M.net.sgdstep w s with
    | error e => rw [hn] at h; cases h
    | ok net =>
      rw [hn] at h
      have h := (Except.ok.inj h).symm
      subst h
      exact ⟨rfl, rfl, hw, hn, rfl, rfl⟩

/-! the example model has an epoch of two unequal windows -/
example : let D : DParents ℝ := { T := 3, S := fun t k => t + k, F := fun t _ _ => t }
    epochLen D.T 2 = 2 ∧ (window D 2 0).T = 2 ∧ (window D 2 1).T = 1 ∧ (window D 2 1).S 0 0 = 2 := by decide

end PyHawkes
