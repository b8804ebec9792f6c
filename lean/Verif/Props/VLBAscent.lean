import Verif.Props.VLBNet

/-! # C55: coordinate updates never decrease the bound; C56: the bound is finite -/
set_option linter.unusedSectionVars false

namespace PyHawkes
open Finset MeasureTheory ProbabilityTheory Spec

/-! ### How the bound depends on the expectations of the background rates -/

theorem forRange_shift (n : ℕ) (g : ℕ → FX) (a d : FX) :
    forRange n (fun i w => w + g i) (a + d) = forRange n (fun i w => w + g i) a + d := by
  rw [forRange_add, forRange_add, add_right_comm]

/-- closed form of one event bin's contribution -/
theorem mfVlbRow_eq (K B k2 : ℕ) (elnL : Vec ℝ) (elnW : ℕ → ℕ → FX) (elng : Ten ℝ) (z : Vec ℝ) (s : ℕ) (f : Mat ℝ) :
    mfVlbRow K B k2 elnL elnW elng z s f = .fin (z 0 * elnL k2) + .fin (-z 0) * logRatio (z 0) s
      + ∑ k1 ∈ range K, ∑ b ∈ range B, (.fin (z (1 + k1 * B + b)) * (FX.log (f k1 b + 1e-32) + elnW k1 k2 + .fin (elng k1 k2 b))
        + .fin (-z (1 + k1 * B + b)) * logRatio (z (1 + k1 * B + b)) s) := by
  unfold mfVlbRow
  have : ∀ k1 w, forRange B (fun b w => w + .fin (z (1 + k1 * B + b)) * (FX.log (f k1 b + 1e-32) + elnW k1 k2 + .fin (elng k1 k2 b))
        + .fin (-z (1 + k1 * B + b)) * logRatio (z (1 + k1 * B + b)) s) w
      = w + ∑ b ∈ range B, (.fin (z (1 + k1 * B + b)) * (FX.log (f k1 b + 1e-32) + elnW k1 k2 + .fin (elng k1 k2 b))
        + .fin (-z (1 + k1 * B + b)) * logRatio (z (1 + k1 * B + b)) s) := by
    intro k1 w
    simp only [add_assoc]
    rw [forRange_add]
  simp only [this]
  rw [forRange_add, FX.zero_add']

theorem mfVlbRow_shift (K B k2 : ℕ) (elnL elnL' : Vec ℝ) (elnW : ℕ → ℕ → FX) (elng : Ten ℝ) (z : Vec ℝ) (s : ℕ) (f : Mat ℝ) :
    mfVlbRow K B k2 elnL' elnW elng z s f = mfVlbRow K B k2 elnL elnW elng z s f + .fin (z 0 * (elnL' k2 - elnL k2)) := by
  rw [mfVlbRow_eq, mfVlbRow_eq, show z 0 * elnL' k2 = z 0 * elnL k2 + z 0 * (elnL' k2 - elnL k2) by ring, ← FX.fin_add]
  simp only [add_assoc]
  congr 1
  rw [add_comm (FX.fin _), add_assoc]

/-- the expected-parent arrays have one row per event bin -/
def EZShape (D : DParents ℝ) : Prop := ∀ k, (D.getEZ k).length = (D.ts k).length

theorem zip_fst {α β : Type*} (l : List α) (m : List β) (h : l.length = m.length) : (l.zip m).map Prod.fst = l :=
  List.map_fst_zip (le_of_eq h)

/-- the bound of one data set under a change of the background expectations -/
theorem parentsVlb_shift (M : MFModel) (b' : MFBias) (D : DParents ℝ) (hD : EZShape D) :
    { M with bias := b' }.parentsVlb D = M.parentsVlb D
      + .fin (∑ k ∈ range M.K, (expBkgdSS0 D k * (b'.eLnLam k - M.bias.eLnLam k) - D.T * (b'.eLam k - M.bias.eLam k))) := by
  unfold MFModel.parentsVlb
  rw [FX.sum_eq, FX.sum_eq]
  have key : ∀ k, mfVlbFX M.K M.B k D.T b'.eLnLam b'.eLam (M.w.eLnW M.net.allowSelf) (M.w.eW M.net.allowSelf)
      (M.imp.eLnG M.B) D.Ns ((D.getEZ k).zip ((D.Ss k).zip (D.Fs k)))
    = mfVlbFX M.K M.B k D.T M.bias.eLnLam M.bias.eLam (M.w.eLnW M.net.allowSelf) (M.w.eW M.net.allowSelf)
      (M.imp.eLnG M.B) D.Ns ((D.getEZ k).zip ((D.Ss k).zip (D.Fs k)))
      + .fin (expBkgdSS0 D k * (b'.eLnLam k - M.bias.eLnLam k) - D.T * (b'.eLam k - M.bias.eLam k)) := by
    intro k
    unfold mfVlbFX
    dsimp only
    rw [FX.sum_eq, FX.sum_eq]
    have hrows : ((D.getEZ k).zip ((D.Ss k).zip (D.Fs k))).map (fun r => mfVlbRow M.K M.B k b'.eLnLam (M.w.eLnW M.net.allowSelf) (M.imp.eLnG M.B) r.1 r.2.1 r.2.2)
        = ((D.getEZ k).zip ((D.Ss k).zip (D.Fs k))).map (fun r => mfVlbRow M.K M.B k M.bias.eLnLam (M.w.eLnW M.net.allowSelf) (M.imp.eLnG M.B) r.1 r.2.1 r.2.2
          + .fin (r.1 0 * (b'.eLnLam k - M.bias.eLnLam k))) :=
      List.map_congr_left fun r _ => mfVlbRow_shift _ _ _ _ _ _ _ _ _ _
    rw [hrows, FX.sum_shift]
    have hz : (((D.getEZ k).zip ((D.Ss k).zip (D.Fs k))).map fun r => r.1 0 * (b'.eLnLam k - M.bias.eLnLam k)).sum
        = expBkgdSS0 D k * (b'.eLnLam k - M.bias.eLnLam k) := by
      have hl : (D.getEZ k).length = ((D.Ss k).zip (D.Fs k)).length := by
        rw [hD k]; simp [DParents.Ss, DParents.Fs]
      have : ((D.getEZ k).zip ((D.Ss k).zip (D.Fs k))).map (fun r => r.1 0 * (b'.eLnLam k - M.bias.eLnLam k))
          = (D.getEZ k).map fun z => z 0 * (b'.eLnLam k - M.bias.eLnLam k) := by
        conv_rhs => rw [← zip_fst _ _ hl]
        rw [List.map_map]; rfl
      rw [this, expBkgdSS0, List.sum_map_mul_right]
    rw [hz]
    have hstat : forRange M.K (fun k1 v => v + -(D.Ns k1 : ℝ) * M.w.eW M.net.allowSelf k1 k) (0 + -(D.T : ℝ) * b'.eLam k)
        = forRange M.K (fun k1 v => v + -(D.Ns k1 : ℝ) * M.w.eW M.net.allowSelf k1 k) (0 + -(D.T : ℝ) * M.bias.eLam k)
          + -(D.T * (b'.eLam k - M.bias.eLam k)) := by
      rw [forRange_add, forRange_add]; ring
    rw [hstat]
    generalize (List.map (fun r : Vec ℝ × ℕ × Mat ℝ => mfVlbRow M.K M.B k M.bias.eLnLam (M.w.eLnW M.net.allowSelf) (M.imp.eLnG M.B) r.1 r.2.1 r.2.2) _).sum = S
    cases S <;> simp [FX.add_def, FX.add]
    ring
  simp only [key]
  rw [FX.sum_shift]
  congr 2

/-- the bound of the model under a change of the background's variational parameters -/
theorem vlb_shift (huge : ℝ) (M : MFModel) (b' : MFBias) (hD : ∀ D ∈ M.data, EZShape D) {x : FX} (hx : M.vlb huge = .ok x) :
    { M with bias := b' }.vlb huge = .ok (x + .fin (∑ k ∈ range M.K, (expSum M.data (fun D => expBkgdSS0 D k) * (b'.eLnLam k - M.bias.eLnLam k)
      - expSum M.data (fun D => (D.T : ℝ)) * (b'.eLam k - M.bias.eLam k)) + (b'.vlb M.K - M.bias.vlb M.K))) := by
  have hdat : (M.data.map { M with bias := b' }.parentsVlb).sum = (M.data.map M.parentsVlb).sum
      + .fin (∑ k ∈ range M.K, (expSum M.data (fun D => expBkgdSS0 D k) * (b'.eLnLam k - M.bias.eLnLam k)
        - expSum M.data (fun D => (D.T : ℝ)) * (b'.eLam k - M.bias.eLam k))) := by
    rw [List.map_congr_left (fun D h => parentsVlb_shift M b' D (hD D h)), FX.sum_shift]
    congr 2
    simp only [expSum_eq]
    induction M.data with
    | nil => simp
    | cons D l ih =>
      simp only [List.map_cons, List.sum_cons]
      rw [ih, ← sum_add_distrib]
      exact sum_congr rfl fun k _ => by ring
  unfold MFModel.vlb at hx ⊢
  dsimp only at hx ⊢
  cases h1 : M.net.eV with
  | error e => rw [h1] at hx; cases hx
  | ok V =>
    cases h2 : M.net.eLnV with
    | error e => rw [h1, h2] at hx; cases hx
    | ok L =>
      cases h3 : M.net.vlb huge with
      | error e => rw [h1, h2, h3] at hx; cases hx
      | ok y =>
        rw [h1, h2, h3] at hx
        dsimp only at hx ⊢
        cases hx
        congr 1
        rw [FX.sum_eq, FX.sum_eq, hdat]
        generalize ∑ k ∈ range M.K, (expSum M.data (fun D => expBkgdSS0 D k) * (b'.eLnLam k - M.bias.eLnLam k)
          - expSum M.data (fun D => (D.T : ℝ)) * (b'.eLam k - M.bias.eLam k)) = d
        generalize (M.data.map M.parentsVlb).sum = s
        generalize M.w.vlb M.K M.net V L = w
        cases s <;> cases w <;> simp [FX.add_def, FX.add]
        ring

/-- the terms of the bound that involve one background rate are, up to a constant, minus the divergence from the optimal gamma distribution -/
theorem bias_objective {al be Z T a b : ℝ} (hal : 0 < al) (hbe : 0 < be) (hZ : 0 ≤ Z) (hT : 0 ≤ T) (ha : 0 < a) (hb : 0 < b) :
    Z * (psi a - Real.log b) - T * (a / b) - klGamma a b al be
      = -klGamma a b (al + Z) (be + T) + (al * Real.log be - gammaln al - (al + Z) * Real.log (be + T) + gammaln (al + Z)) := by
  rw [klGamma_eq ha hb hal hbe, klGamma_eq ha hb (by linarith) (by linarith)]
  unfold gammaNegent
  ring

theorem expSum_T (dl : List (DParents ℝ)) : 0 ≤ expSum dl (fun D => (D.T : ℝ)) := expSum_nonneg _ _ fun _ _ => Nat.cast_nonneg _

/-- change of the bound by the bias update, for any time step -/
theorem bias_update_delta (huge : ℝ) (M : MFModel) (hD : ∀ D ∈ M.data, EZShape D) {x : ℝ} (hx : M.vlb huge = .ok (.fin x)) :
    M.updateBias.vlb huge = .ok (.fin (x + (∑ k ∈ range M.K, (expSum M.data (fun D => expBkgdSS0 D k) * ((M.bias.update M.data 1 1).eLnLam k - M.bias.eLnLam k)
      - expSum M.data (fun D => (D.T : ℝ)) * ((M.bias.update M.data 1 1).eLam k - M.bias.eLam k)) + ((M.bias.update M.data 1 1).vlb M.K - M.bias.vlb M.K)))) := by
  rw [MFModel.updateBias, vlb_shift huge M _ hD hx, FX.fin_add]

/-- **C55 (ascent, partial: bins of unit length).** If the bound is a finite number then after the background coordinate update it is a finite number and not
smaller. The bound charges `T * E[λ0]` where the update uses `T * dt`, so this needs `dt = 1` (`C55_bias_update_violated`). -/
theorem C55_bias_update_ascends_partial (huge : ℝ) (M : MFModel) (hdt : M.bias.dt = 1) (ha : 0 < M.bias.alpha) (hb : 0 < M.bias.beta)
    (hm : ∀ k < M.K, 0 < M.bias.mfAlpha k ∧ 0 < M.bias.mfBeta k) (hpos : ∀ D ∈ M.data, EZPos D) (hD : ∀ D ∈ M.data, EZShape D) {x : ℝ}
    (hx : M.vlb huge = .ok (.fin x)) : ∃ y, M.updateBias.vlb huge = .ok (.fin y) ∧ x ≤ y := by
  refine ⟨_, bias_update_delta huge M hD hx, ?_⟩
  have hZ : ∀ k, 0 ≤ expSum M.data (fun D => expBkgdSS0 D k) := fun k => expSum_nonneg _ _ fun D h => col_sum_nonneg D (hpos D h) k 0
  have hT := expSum_T M.data
  set T := expSum M.data (fun D => (D.T : ℝ)) with hTdef
  have e1 : ∀ k, (M.bias.update M.data 1 1).mfAlpha k = M.bias.alpha + expSum M.data (fun D => expBkgdSS0 D k) := by
    intro k; simp [MFBias.update]
  have e2 : ∀ k, (M.bias.update M.data 1 1).mfBeta k = M.bias.beta + T := by
    intro k; simp [MFBias.update, bkgdSS1, hdt, hTdef]
  have p1 : ∀ k < M.K, 0 < (M.bias.update M.data 1 1).mfAlpha k ∧ 0 < (M.bias.update M.data 1 1).mfBeta k := by
    intro k _; rw [e1, e2]; exact ⟨by linarith [hZ k], by linarith⟩
  rw [C55_bias_minus_kl M.K _ ha hb hm, C55_bias_minus_kl M.K (M.bias.update M.data 1 1) ha hb p1, ← sum_neg_distrib, ← sum_neg_distrib, ← sum_sub_distrib,
    ← sum_add_distrib]
  refine le_add_of_nonneg_right (sum_nonneg fun k hk => ?_)
  have hk := mem_range.1 hk
  have o1 := bias_objective ha hb (hZ k) hT (hm k hk).1 (hm k hk).2
  have o2 := bias_objective ha hb (hZ k) hT (p1 k hk).1 (p1 k hk).2
  rw [e1, e2, klGamma_self] at o2
  have kl := klGamma_nonneg (hm k hk).1 (hm k hk).2 (show 0 < M.bias.alpha + expSum M.data (fun D => expBkgdSS0 D k) by linarith [hZ k]) (show 0 < M.bias.beta + T by linarith)
  simp only [MFBias.eLnLam, MFBias.eLam, e1, e2]
  have ea : (M.bias.update M.data 1 1).alpha = M.bias.alpha := rfl
  have eb : (M.bias.update M.data 1 1).beta = M.bias.beta := rfl
  rw [ea, eb]
  linarith

/-! ### Impulse responses -/

theorem FX.mul_shift (z : ℝ) (X : FX) (e e' : ℝ) : FX.fin z * (X + .fin e') = FX.fin z * (X + .fin e) + .fin (z * (e' - e)) := by
  cases X with
  | nan => rfl
  | fin x =>
    simp only [FX.fin_add, FX.fin_mul]
    congr 1
    ring
  | ninf =>
    show FX.infMul z _ _ = FX.add (FX.infMul z _ _) _
    unfold FX.infMul
    split_ifs <;> rfl
  | pinf =>
    show FX.infMul z _ _ = FX.add (FX.infMul z _ _) _
    unfold FX.infMul
    split_ifs <;> rfl

theorem fin_sum_range (n : ℕ) (f : ℕ → ℝ) : ∑ i ∈ range n, FX.fin (f i) = FX.fin (∑ i ∈ range n, f i) := by
  induction n with
  | zero => rfl
  | succ n ih => rw [sum_range_succ, ih, sum_range_succ, FX.fin_add]

theorem mfVlbRow_shift_imp (K B k2 : ℕ) (elnL : Vec ℝ) (elnW : ℕ → ℕ → FX) (elng elng' : Ten ℝ) (z : Vec ℝ) (s : ℕ) (f : Mat ℝ) :
    mfVlbRow K B k2 elnL elnW elng' z s f = mfVlbRow K B k2 elnL elnW elng z s f
      + .fin (∑ k1 ∈ range K, ∑ b ∈ range B, z (1 + k1 * B + b) * (elng' k1 k2 b - elng k1 k2 b)) := by
  rw [mfVlbRow_eq, mfVlbRow_eq]
  generalize FX.fin (z 0 * elnL k2) + FX.fin (-z 0) * logRatio (z 0) s = A
  rw [add_assoc]
  congr 1
  rw [← fin_sum_range K (fun k1 => ∑ b ∈ range B, z (1 + k1 * B + b) * (elng' k1 k2 b - elng k1 k2 b)), ← sum_add_distrib]
  refine sum_congr rfl fun k1 _ => ?_
  rw [← fin_sum_range B (fun b => z (1 + k1 * B + b) * (elng' k1 k2 b - elng k1 k2 b)), ← sum_add_distrib]
  refine sum_congr rfl fun b _ => ?_
  rw [FX.mul_shift _ _ (elng k1 k2 b) (elng' k1 k2 b), add_right_comm]

theorem parentsVlb_shift_imp (M : MFModel) (m' : MFImp) (D : DParents ℝ) (hD : EZShape D) :
    { M with imp := m' }.parentsVlb D = M.parentsVlb D
      + .fin (∑ k2 ∈ range M.K, ∑ k1 ∈ range M.K, ∑ b ∈ range M.B, expIrSS D M.B k1 k2 b * (m'.eLnG M.B k1 k2 b - M.imp.eLnG M.B k1 k2 b)) := by
  unfold MFModel.parentsVlb
  rw [FX.sum_eq, FX.sum_eq]
  have key : ∀ k, mfVlbFX M.K M.B k D.T M.bias.eLnLam M.bias.eLam (M.w.eLnW M.net.allowSelf) (M.w.eW M.net.allowSelf)
      (m'.eLnG M.B) D.Ns ((D.getEZ k).zip ((D.Ss k).zip (D.Fs k)))
    = mfVlbFX M.K M.B k D.T M.bias.eLnLam M.bias.eLam (M.w.eLnW M.net.allowSelf) (M.w.eW M.net.allowSelf)
      (M.imp.eLnG M.B) D.Ns ((D.getEZ k).zip ((D.Ss k).zip (D.Fs k)))
      + .fin (∑ k1 ∈ range M.K, ∑ b ∈ range M.B, expIrSS D M.B k1 k b * (m'.eLnG M.B k1 k b - M.imp.eLnG M.B k1 k b)) := by
    intro k
    unfold mfVlbFX
    dsimp only
    rw [FX.sum_eq, FX.sum_eq]
    have hrows : ((D.getEZ k).zip ((D.Ss k).zip (D.Fs k))).map (fun r => mfVlbRow M.K M.B k M.bias.eLnLam (M.w.eLnW M.net.allowSelf) (m'.eLnG M.B) r.1 r.2.1 r.2.2)
        = ((D.getEZ k).zip ((D.Ss k).zip (D.Fs k))).map (fun r => mfVlbRow M.K M.B k M.bias.eLnLam (M.w.eLnW M.net.allowSelf) (M.imp.eLnG M.B) r.1 r.2.1 r.2.2
          + .fin (∑ k1 ∈ range M.K, ∑ b ∈ range M.B, r.1 (1 + k1 * M.B + b) * (m'.eLnG M.B k1 k b - M.imp.eLnG M.B k1 k b))) :=
      List.map_congr_left fun r _ => mfVlbRow_shift_imp _ _ _ _ _ _ _ _ _ _
    rw [hrows, FX.sum_shift, ← add_assoc]
    congr 2
    have hl : (D.getEZ k).length = ((D.Ss k).zip (D.Fs k)).length := by
      rw [hD k]; simp [DParents.Ss, DParents.Fs]
    have : ((D.getEZ k).zip ((D.Ss k).zip (D.Fs k))).map (fun r => ∑ k1 ∈ range M.K, ∑ b ∈ range M.B, r.1 (1 + k1 * M.B + b) * (m'.eLnG M.B k1 k b - M.imp.eLnG M.B k1 k b))
        = (D.getEZ k).map fun z => ∑ k1 ∈ range M.K, ∑ b ∈ range M.B, z (1 + k1 * M.B + b) * (m'.eLnG M.B k1 k b - M.imp.eLnG M.B k1 k b) := by
      conv_rhs => rw [← zip_fst _ _ hl]
      rw [List.map_map]; rfl
    rw [this]
    unfold expIrSS
    induction D.getEZ k with
    | nil => simp
    | cons z l ih =>
      simp only [List.map_cons, List.sum_cons, ih]
      rw [← sum_add_distrib]
      refine sum_congr rfl fun k1 _ => ?_
      rw [← sum_add_distrib]
      exact sum_congr rfl fun b _ => by ring
  simp only [key]
  rw [FX.sum_shift]
  congr 2

/-- the bound of the model under a change of the impulse responses' variational parameters -/
theorem vlb_shift_imp (huge : ℝ) (M : MFModel) (m' : MFImp) (hD : ∀ D ∈ M.data, EZShape D) {x : FX} (hx : M.vlb huge = .ok x) :
    { M with imp := m' }.vlb huge = .ok (x + .fin (∑ k2 ∈ range M.K, ∑ k1 ∈ range M.K, ∑ b ∈ range M.B,
      expSum M.data (fun D => expIrSS D M.B k1 k2 b) * (m'.eLnG M.B k1 k2 b - M.imp.eLnG M.B k1 k2 b) + (m'.vlb M.K M.B - M.imp.vlb M.K M.B))) := by
  have hdat : (M.data.map { M with imp := m' }.parentsVlb).sum = (M.data.map M.parentsVlb).sum
      + .fin (∑ k2 ∈ range M.K, ∑ k1 ∈ range M.K, ∑ b ∈ range M.B,
        expSum M.data (fun D => expIrSS D M.B k1 k2 b) * (m'.eLnG M.B k1 k2 b - M.imp.eLnG M.B k1 k2 b)) := by
    rw [List.map_congr_left (fun D h => parentsVlb_shift_imp M m' D (hD D h)), FX.sum_shift]
    congr 2
    simp only [expSum_eq]
    induction M.data with
    | nil => simp
    | cons D l ih =>
      simp only [List.map_cons, List.sum_cons]
      rw [ih, ← sum_add_distrib]
      refine sum_congr rfl fun k2 _ => ?_
      rw [← sum_add_distrib]
      refine sum_congr rfl fun k1 _ => ?_
      rw [← sum_add_distrib]
      exact sum_congr rfl fun b _ => by ring
  unfold MFModel.vlb at hx ⊢
  dsimp only at hx ⊢
  cases h1 : M.net.eV with
  | error e => rw [h1] at hx; cases hx
  | ok V =>
    cases h2 : M.net.eLnV with
    | error e => rw [h1, h2] at hx; cases hx
    | ok L =>
      cases h3 : M.net.vlb huge with
      | error e => rw [h1, h2, h3] at hx; cases hx
      | ok y =>
        rw [h1, h2, h3] at hx
        dsimp only at hx ⊢
        cases hx
        congr 1
        rw [FX.sum_eq, FX.sum_eq, hdat]
        generalize ∑ k2 ∈ range M.K, ∑ k1 ∈ range M.K, ∑ b ∈ range M.B,
          expSum M.data (fun D => expIrSS D M.B k1 k2 b) * (m'.eLnG M.B k1 k2 b - M.imp.eLnG M.B k1 k2 b) = d
        generalize (M.data.map M.parentsVlb).sum = s
        generalize M.w.vlb M.K M.net V L = w
        cases s <;> cases w <;> simp [FX.add_def, FX.add]
        ring

theorem imp_objective (n : ℕ) (g Z q : Vec ℝ) :
    ∑ b ∈ range n, Z b * (psi (q b) - psi (∑ b ∈ range n, q b)) - klDirichlet n q g
      = -klDirichlet n q (fun b => g b + Z b) + (lnDirNorm n (fun b => g b + Z b) - lnDirNorm n g) := by
  unfold klDirichlet
  have : ∑ i ∈ range n, (q i - (g i + Z i)) * (psi (q i) - psi (∑ i ∈ range n, q i))
      = ∑ i ∈ range n, (q i - g i) * (psi (q i) - psi (∑ i ∈ range n, q i)) - ∑ i ∈ range n, Z i * (psi (q i) - psi (∑ i ∈ range n, q i)) := by
    rw [← sum_sub_distrib]
    exact sum_congr rfl fun i _ => by ring
  rw [this]
  ring

/-- **C55 (ascent, impulse responses).** If the bound is a finite number then after the coordinate update of the impulse weights it is a finite number and
not smaller. -/
theorem C55_impulse_update_ascends (huge : ℝ) (M : MFModel) (hB : 0 < M.B) (hg : ∀ b < M.B, 0 < M.imp.gamma b)
    (hm : ∀ i < M.K, ∀ j < M.K, ∀ b < M.B, 0 < M.imp.mfGamma i j b) (hpos : ∀ D ∈ M.data, EZPos D) (hD : ∀ D ∈ M.data, EZShape D) {x : ℝ}
    (hx : M.vlb huge = .ok (.fin x)) : ∃ y, M.updateImp.vlb huge = .ok (.fin y) ∧ x ≤ y := by
  have hsh := vlb_shift_imp huge M (M.imp.update M.B M.data 1 1) hD hx
  rw [FX.fin_add] at hsh
  refine ⟨_, hsh, le_add_of_nonneg_right ?_⟩
  have hZ : ∀ i j b, 0 ≤ expSum M.data (fun D => expIrSS D M.B i j b) := fun i j b => expSum_nonneg _ _ fun D h => col_sum_nonneg D (hpos D h) j _
  have e1 : ∀ i j, (M.imp.update M.B M.data 1 1).mfGamma i j = fun b => M.imp.gamma b + expSum M.data (fun D => expIrSS D M.B i j b) := by
    intro i j; funext b; simp [MFImp.update]
  have eg : (M.imp.update M.B M.data 1 1).gamma = M.imp.gamma := rfl
  rw [C55_impulse_value, C55_impulse_value, eg, sum_comm, add_sub_add_right_eq_sub, ← sum_neg_distrib, ← sum_neg_distrib, ← sum_sub_distrib, ← sum_add_distrib]
  refine sum_nonneg fun k1 h1 => ?_
  rw [← sum_neg_distrib, ← sum_neg_distrib, ← sum_sub_distrib, ← sum_add_distrib]
  refine sum_nonneg fun k2 h2 => ?_
  have h1 := mem_range.1 h1
  have h2 := mem_range.1 h2
  set Z : Vec ℝ := fun b => expSum M.data (fun D => expIrSS D M.B k1 k2 b) with hZdef
  have o1 := imp_objective M.B M.imp.gamma Z (M.imp.mfGamma k1 k2)
  have o2 := imp_objective M.B M.imp.gamma Z (fun b => M.imp.gamma b + Z b)
  rw [klDirichlet_self] at o2
  have kl := klDirichlet_nonneg hB (hm k1 h1 k2 h2) (p := fun b => M.imp.gamma b + Z b) (fun b hb => add_pos_of_pos_of_nonneg (hg b hb) (hZ k1 k2 b))
  have ex : ∑ b ∈ range M.B, Z b * ((M.imp.update M.B M.data 1 1).eLnG M.B k1 k2 b - M.imp.eLnG M.B k1 k2 b)
      = ∑ b ∈ range M.B, Z b * (psi (M.imp.gamma b + Z b) - psi (∑ b ∈ range M.B, (M.imp.gamma b + Z b)))
        - ∑ b ∈ range M.B, Z b * (psi (M.imp.mfGamma k1 k2 b) - psi (∑ b ∈ range M.B, M.imp.mfGamma k1 k2 b)) := by
    rw [← sum_sub_distrib]
    refine sum_congr rfl fun b _ => ?_
    simp only [MFImp.eLnG, e1, hZdef]
    ring
  rw [ex, e1]
  change 0 ≤ _ + (-klDirichlet M.B (fun b => M.imp.gamma b + Z b) M.imp.gamma - -klDirichlet M.B (M.imp.mfGamma k1 k2) M.imp.gamma)
  linarith

end PyHawkes
