import Verif.Props.VLBFinite
import Verif.Props.MFTiltModel

/-! # C79: the coordinate update of edges and weights never decreases the bound -/
set_option linter.unusedSectionVars false
set_option linter.unusedVariables false

namespace PyHawkes
open Finset MeasureTheory ProbabilityTheory Spec

/-! ### How the bound depends on the expectations of the weights -/

theorem mfVlbRow_shift_w (K B k2 : ℕ) (elnL : Vec ℝ) (x x' : Mat ℝ) (elng : Ten ℝ) (z : Vec ℝ) (s : ℕ) (f : Mat ℝ) :
    mfVlbRow K B k2 elnL (fun i j => .fin (x' i j)) elng z s f = mfVlbRow K B k2 elnL (fun i j => .fin (x i j)) elng z s f
      + .fin (∑ k1 ∈ range K, ∑ b ∈ range B, z (1 + k1 * B + b) * (x' k1 k2 - x k1 k2)) := by
  rw [mfVlbRow_eq, mfVlbRow_eq]
  generalize FX.fin (z 0 * elnL k2) + FX.fin (-z 0) * logRatio (z 0) s = A
  rw [add_assoc]
  congr 1
  rw [← fin_sum_range K (fun k1 => ∑ b ∈ range B, z (1 + k1 * B + b) * (x' k1 k2 - x k1 k2)), ← sum_add_distrib]
  refine sum_congr rfl fun k1 _ => ?_
  rw [← fin_sum_range B (fun b => z (1 + k1 * B + b) * (x' k1 k2 - x k1 k2)), ← sum_add_distrib]
  refine sum_congr rfl fun b _ => ?_
  rw [add_right_comm _ (FX.fin (x' k1 k2)), add_right_comm _ (FX.fin (x k1 k2)), FX.mul_shift _ _ (x k1 k2) (x' k1 k2), add_right_comm]

/-- expected log weight as a real matrix, self connections allowed -/
noncomputable def MFWeights.lnWR (w : MFWeights) : Mat ℝ := fun i j => w.mfP i j * w.eLnWGivenA 1 i j + (1 - w.mfP i j) * w.eLnWGivenA 0 i j
/-- expected weight -/
noncomputable def MFWeights.wR (w : MFWeights) : Mat ℝ := fun i j => w.mfP i j * w.eWGivenA 1 i j + (1 - w.mfP i j) * w.eWGivenA 0 i j

theorem eLnW_true (w : MFWeights) : w.eLnW true = fun i j => .fin (w.lnWR i j) := by
  funext i j; simp [MFWeights.eLnW, MFWeights.lnWR]
theorem eW_true (w : MFWeights) : w.eW true = w.wR := by
  funext i j; simp [MFWeights.eW, MFWeights.wR]

theorem parentsVlb_shift_w (M : MFModel) (hs : M.net.allowSelf = true) (w' : MFWeights) (D : DParents ℝ) (hD : EZShape D) :
    { M with w := w' }.parentsVlb D = M.parentsVlb D
      + .fin (∑ k2 ∈ range M.K, ∑ k1 ∈ range M.K, (expWeightSS0 D M.B k1 k2 * (w'.lnWR k1 k2 - M.w.lnWR k1 k2) - (weightSS1 D k1 k2 : ℝ) * (w'.wR k1 k2 - M.w.wR k1 k2))) := by
  unfold MFModel.parentsVlb
  dsimp only
  rw [hs, eLnW_true, eLnW_true, eW_true, eW_true, FX.sum_eq, FX.sum_eq]
  have key : ∀ k, mfVlbFX M.K M.B k D.T M.bias.eLnLam M.bias.eLam (fun i j => .fin (w'.lnWR i j)) w'.wR
      (M.imp.eLnG M.B) D.Ns ((D.getEZ k).zip ((D.Ss k).zip (D.Fs k)))
    = mfVlbFX M.K M.B k D.T M.bias.eLnLam M.bias.eLam (fun i j => .fin (M.w.lnWR i j)) M.w.wR
      (M.imp.eLnG M.B) D.Ns ((D.getEZ k).zip ((D.Ss k).zip (D.Fs k)))
      + .fin (∑ k1 ∈ range M.K, (expWeightSS0 D M.B k1 k * (w'.lnWR k1 k - M.w.lnWR k1 k) - (weightSS1 D k1 k : ℝ) * (w'.wR k1 k - M.w.wR k1 k))) := by
    intro k
    unfold mfVlbFX
    dsimp only
    rw [FX.sum_eq, FX.sum_eq]
    have hrows : ((D.getEZ k).zip ((D.Ss k).zip (D.Fs k))).map (fun r => mfVlbRow M.K M.B k M.bias.eLnLam (fun i j => .fin (w'.lnWR i j)) (M.imp.eLnG M.B) r.1 r.2.1 r.2.2)
        = ((D.getEZ k).zip ((D.Ss k).zip (D.Fs k))).map (fun r => mfVlbRow M.K M.B k M.bias.eLnLam (fun i j => .fin (M.w.lnWR i j)) (M.imp.eLnG M.B) r.1 r.2.1 r.2.2
          + .fin (∑ k1 ∈ range M.K, ∑ b ∈ range M.B, r.1 (1 + k1 * M.B + b) * (w'.lnWR k1 k - M.w.lnWR k1 k))) :=
      List.map_congr_left fun r _ => mfVlbRow_shift_w _ _ _ _ _ _ _ _ _ _
    rw [hrows, FX.sum_shift]
    have hl : (D.getEZ k).length = ((D.Ss k).zip (D.Fs k)).length := by
      rw [hD k]; simp [DParents.Ss, DParents.Fs]
    have : ((D.getEZ k).zip ((D.Ss k).zip (D.Fs k))).map (fun r => ∑ k1 ∈ range M.K, ∑ b ∈ range M.B, r.1 (1 + k1 * M.B + b) * (w'.lnWR k1 k - M.w.lnWR k1 k))
        = (D.getEZ k).map fun z => ∑ k1 ∈ range M.K, ∑ b ∈ range M.B, z (1 + k1 * M.B + b) * (w'.lnWR k1 k - M.w.lnWR k1 k) := by
      conv_rhs => rw [← zip_fst _ _ hl]
      rw [List.map_map]; rfl
    have hz : ((D.getEZ k).map fun z => ∑ k1 ∈ range M.K, ∑ b ∈ range M.B, z (1 + k1 * M.B + b) * (w'.lnWR k1 k - M.w.lnWR k1 k)).sum
        = ∑ k1 ∈ range M.K, expWeightSS0 D M.B k1 k * (w'.lnWR k1 k - M.w.lnWR k1 k) := by
      unfold expWeightSS0
      induction D.getEZ k with
      | nil => simp
      | cons z l ih =>
        simp only [List.map_cons, List.sum_cons, ih]
        rw [← sum_add_distrib]
        refine sum_congr rfl fun k1 _ => ?_
        rw [sum_add_distrib, ← sum_mul]
        ring
    rw [this, hz]
    have hstat : forRange M.K (fun k1 v => v + -(D.Ns k1 : ℝ) * w'.wR k1 k) (0 + -(D.T : ℝ) * M.bias.eLam k)
        = forRange M.K (fun k1 v => v + -(D.Ns k1 : ℝ) * M.w.wR k1 k) (0 + -(D.T : ℝ) * M.bias.eLam k)
          + -∑ k1 ∈ range M.K, (weightSS1 D k1 k : ℝ) * (w'.wR k1 k - M.w.wR k1 k) := by
      have hh : ∑ k1 ∈ range M.K, -(D.Ns k1 : ℝ) * w'.wR k1 k = ∑ k1 ∈ range M.K, -(D.Ns k1 : ℝ) * M.w.wR k1 k
          + -∑ k1 ∈ range M.K, (weightSS1 D k1 k : ℝ) * (w'.wR k1 k - M.w.wR k1 k) := by
        rw [← sum_neg_distrib, ← sum_add_distrib]
        exact sum_congr rfl fun k1 _ => by simp only [weightSS1]; ring
      rw [forRange_add, forRange_add, hh]
      ring
    rw [hstat, sum_sub_distrib]
    generalize (List.map (fun r : Vec ℝ × ℕ × Mat ℝ => mfVlbRow M.K M.B k M.bias.eLnLam (fun i j => .fin (M.w.lnWR i j)) (M.imp.eLnG M.B) r.1 r.2.1 r.2.2) _).sum = S
    cases S <;> simp [FX.add_def, FX.add]
    ring
  simp only [key]
  rw [FX.sum_shift]
  congr 2

theorem data_shift_w (M : MFModel) (hs : M.net.allowSelf = true) (w' : MFWeights) (hD : ∀ D ∈ M.data, EZShape D) :
    (M.data.map { M with w := w' }.parentsVlb).sum = (M.data.map M.parentsVlb).sum
      + .fin (∑ k2 ∈ range M.K, ∑ k1 ∈ range M.K, (expSum M.data (fun D => expWeightSS0 D M.B k1 k2) * (w'.lnWR k1 k2 - M.w.lnWR k1 k2)
        - expSum M.data (fun D => (weightSS1 D k1 k2 : ℝ)) * (w'.wR k1 k2 - M.w.wR k1 k2))) := by
  rw [List.map_congr_left (fun D h => parentsVlb_shift_w M hs w' D (hD D h)), FX.sum_shift]
  congr 2
  simp only [expSum_eq]
  induction M.data with
  | nil => simp
  | cons D l ih =>
    simp only [List.map_cons, List.sum_cons]
    rw [ih, ← sum_add_distrib]
    refine sum_congr rfl fun k2 _ => ?_
    rw [← sum_add_distrib]
    exact sum_congr rfl fun k1 _ => by ring

/-! ### The weight model's own terms -/

/-- the terms of the bound of the weight model for one pair, given real-valued expected logs of the edge probabilities -/
noncomputable def wEntry (kappa eV eLnV lP lN : ℝ) (w : MFWeights) (i j : ℕ) : ℝ :=
  (w.mfP i j * lP + (1 - w.mfP i j) * lN)
    + w.mfP i j * gammaNegent kappa eV eLnV (w.eWGivenA 1 i j) (w.eLnWGivenA 1 i j)
    + (1 - w.mfP i j) * gammaNegent w.kappa0 w.nu0 (Real.log w.nu0) (w.eWGivenA 0 i j) (w.eLnWGivenA 0 i j)
    - (w.mfP i j * Real.log (w.mfP i j) + (1 - w.mfP i j) * Real.log (1 - w.mfP i j))
    - w.mfP i j * gammaNegentDefault (w.mfKappa1 i j) (w.mfV1 i j)
    - (1 - w.mfP i j) * gammaNegentDefault (w.mfKappa0 i j) (w.mfV0 i j)

theorem wVlb_value (K : ℕ) (net : MFNet) (V L lP lN : Mat ℝ) (w : MFWeights) (hp : ∀ i < K, ∀ j < K, 0 < w.mfP i j ∧ w.mfP i j < 1)
    (hl : ∀ i < K, ∀ j < K, net.eLnP i j = .fin (lP i j) ∧ net.eLnNotP i j = .fin (lN i j)) :
    w.vlb K net V L = .fin (∑ i ∈ range K, ∑ j ∈ range K, wEntry net.kappa (V i j) (L i j) (lP i j) (lN i j) w i j) := by
  have hS : ∀ (f : ℕ → ℕ → FX) (g : ℕ → ℕ → ℝ), (∀ i < K, ∀ j < K, f i j = .fin (g i j)) →
      FX.sum ((List.range (K * K)).map fun r => f (r / K) (r % K)) = .fin (∑ i ∈ range K, ∑ j ∈ range K, g i j) := by
    intro f g hfg
    have e : ((List.range (K * K)).map fun r => f (r / K) (r % K)) = (List.range (K * K)).map fun r => .fin (g (r / K) (r % K)) := by
      refine List.map_congr_left fun r hr => ?_
      have hr := List.mem_range.1 hr
      have hK : 0 < K := by
        rcases Nat.eq_zero_or_pos K with h | h
        · subst h; simp at hr
        · exact h
      exact hfg _ (Nat.div_lt_of_lt_mul hr) _ (Nat.mod_lt _ hK)
    rw [e, sum_map_range_fin, sum_flat]
    congr 1
    refine sum_congr rfl fun i _ => sum_congr rfl fun j hj => ?_
    rw [flat_div _ (mem_range.1 hj), flat_mod _ (mem_range.1 hj)]
  unfold MFWeights.vlb
  dsimp only
  rw [hS (fun i j => bernNegent (.fin (w.mfP i j)) (.fin (1 - w.mfP i j)) (net.eLnP i j) (net.eLnNotP i j))
      (fun i j => w.mfP i j * lP i j + (1 - w.mfP i j) * lN i j) (fun i hi j hj => by
      rw [(hl i hi j hj).1, (hl i hi j hj).2, bernNegent, FX.fin_mul, FX.fin_mul, FX.fin_add]),
    hS (fun i j => .fin (w.mfP i j * gammaNegent net.kappa (V i j) (L i j) (w.eWGivenA 1 i j) (w.eLnWGivenA 1 i j)))
      (fun i j => w.mfP i j * gammaNegent net.kappa (V i j) (L i j) (w.eWGivenA 1 i j) (w.eLnWGivenA 1 i j)) (fun i hi j hj => rfl),
    hS (fun i j => .fin ((1 - w.mfP i j) * gammaNegent w.kappa0 w.nu0 (Real.log w.nu0) (w.eWGivenA 0 i j) (w.eLnWGivenA 0 i j)))
      (fun i j => (1 - w.mfP i j) * gammaNegent w.kappa0 w.nu0 (Real.log w.nu0) (w.eWGivenA 0 i j) (w.eLnWGivenA 0 i j)) (fun i hi j hj => rfl),
    hS (fun i j => bernNegent (.fin (w.mfP i j)) (.fin (1 - w.mfP i j)) (FX.log (w.mfP i j)) (FX.log (1 - w.mfP i j)))
      (fun i j => w.mfP i j * Real.log (w.mfP i j) + (1 - w.mfP i j) * Real.log (1 - w.mfP i j)) (fun i hi j hj => by
      rw [FX.log_pos (hp i hi j hj).1, FX.log_pos (by linarith [(hp i hi j hj).2]), bernNegent, FX.fin_mul, FX.fin_mul, FX.fin_add]),
    hS (fun i j => .fin (w.mfP i j * gammaNegentDefault (w.mfKappa1 i j) (w.mfV1 i j)))
      (fun i j => w.mfP i j * gammaNegentDefault (w.mfKappa1 i j) (w.mfV1 i j)) (fun i hi j hj => rfl),
    hS (fun i j => .fin ((1 - w.mfP i j) * gammaNegentDefault (w.mfKappa0 i j) (w.mfV0 i j)))
      (fun i j => (1 - w.mfP i j) * gammaNegentDefault (w.mfKappa0 i j) (w.mfV0 i j)) (fun i hi j hj => rfl)]
  simp only [FX.fin_add, FX.fin_sub]
  congr 1
  simp only [wEntry, sum_add_distrib, sum_sub_distrib]
  ring

/-! ### Optimality of the update, one pair -/

/-- the part of a gamma factor, expected log likelihood included, is minus a divergence plus a constant -/
theorem gamma_objective {al be L Z T a b : ℝ} (hal : 0 < al) (hbe : 0 < be) (hZ : 0 ≤ Z) (hT : 0 ≤ T) (ha : 0 < a) (hb : 0 < b) :
    Z * (psi a - Real.log b) - T * (a / b) + gammaNegent al be L (a / b) (psi a - Real.log b) - gammaNegentDefault a b
      = -klGamma a b (al + Z) (be + T) + (al * L - gammaln al - (al + Z) * Real.log (be + T) + gammaln (al + Z)) := by
  rw [klGamma_eq ha hb (by linarith) (by linarith)]
  unfold gammaNegentDefault gammaNegent
  ring

theorem edge_gibbs {p q : ℝ} (hp : 0 < p) (hq : 0 < q) : p * Real.log q - p * Real.log p ≤ q - p := by
  have := Real.log_le_sub_one_of_pos (div_pos hq hp)
  rw [Real.log_div hq.ne' hp.ne'] at this
  have h := mul_le_mul_of_nonneg_left this hp.le
  have e : p * (q / p - 1) = q - p := by field_simp
  rw [e] at h
  linarith

/-- value of the bound as a function of one edge probability -/
noncomputable def edgeObj (a b p : ℝ) : ℝ := p * a + (1 - p) * b - (p * Real.log p + (1 - p) * Real.log (1 - p))

theorem edgeObj_tangent {a b p q : ℝ} (hp : 0 < p ∧ p < 1) (hq : 0 < q ∧ q < 1) :
    edgeObj a b p ≤ edgeObj a b q + (p - q) * (a - b - Real.log q + Real.log (1 - q)) := by
  have h1 := edge_gibbs hp.1 hq.1
  have h2 := edge_gibbs (p := 1 - p) (q := 1 - q) (by linarith [hp.2]) (by linarith [hq.2])
  unfold edgeObj
  nlinarith

theorem logistic_odds (x : ℝ) : 0 < pyLogistic x 1 ∧ pyLogistic x 1 < 1 ∧ Real.log (pyLogistic x 1) - Real.log (1 - pyLogistic x 1) = x := by
  have he := Real.exp_pos (-x)
  have e : pyLogistic x 1 = 1 / (1 + Real.exp (-x)) := by simp [pyLogistic]
  have e2 : 1 - pyLogistic x 1 = Real.exp (-x) / (1 + Real.exp (-x)) := by rw [e]; field_simp; ring
  refine ⟨by rw [e]; positivity, ?_, ?_⟩
  · have : 0 < 1 - pyLogistic x 1 := by rw [e2]; positivity
    linarith
  · rw [e2, e, Real.log_div one_ne_zero (by positivity), Real.log_div he.ne' (by positivity), Real.log_one, Real.log_exp]
    ring

/-- the clipped logistic of the difference is the best probability within the clipping bounds -/
theorem edgeObj_clip {a b p : ℝ} (hp : 1e-8 ≤ p ∧ p ≤ 1 - 1e-8) : edgeObj a b p ≤ edgeObj a b (clipLogistic (.fin (a - b))) := by
  obtain ⟨h0, h1, h2⟩ := logistic_odds (a - b)
  norm_num at hp
  have hp' : 0 < p ∧ p < 1 := ⟨by linarith [hp.1], by linarith [hp.2]⟩
  have mono : ∀ {r s : ℝ}, 0 < r → r ≤ s → s < 1 → Real.log r - Real.log (1 - r) ≤ Real.log s - Real.log (1 - s) := by
    intro r s hr hrs hs
    have := Real.log_le_log hr hrs
    have := Real.log_le_log (show 0 < 1 - s by linarith) (show 1 - s ≤ 1 - r by linarith)
    linarith
  simp only [clipLogistic]
  rcases le_total (pyLogistic (a - b) 1) 1e-8 with h | h
  · rw [max_eq_right h, min_eq_left (by norm_num)]
    refine (edgeObj_tangent hp' (q := 1e-8) (by norm_num)).trans (add_le_of_nonpos_right ?_)
    have := mono h0 h (by norm_num)
    rw [h2] at this
    refine mul_nonpos_of_nonneg_of_nonpos ?_ (by linarith)
    norm_num
    linarith [hp.1]
  · rw [max_eq_left h]
    rcases le_total (pyLogistic (a - b) 1) (1 - 1e-8) with h' | h'
    · rw [min_eq_left h']
      refine (edgeObj_tangent hp' ⟨h0, h1⟩).trans (add_le_of_nonpos_right (le_of_eq ?_))
      rw [show a - b - Real.log (pyLogistic (a - b) 1) + Real.log (1 - pyLogistic (a - b) 1) = 0 by linarith, mul_zero]
    · rw [min_eq_right h']
      refine (edgeObj_tangent hp' (q := 1 - 1e-8) (by norm_num)).trans (add_le_of_nonpos_right ?_)
      have := mono (show (0:ℝ) < 1 - 1e-8 by norm_num) h' h1
      rw [h2] at this
      refine mul_nonpos_of_nonpos_of_nonneg ?_ (by linarith)
      norm_num
      linarith [hp.2]

/-- the terms of the bound that involve the edge and weight of one pair -/
noncomputable def pairObj (kappa eV eLnV lP lN Z N : ℝ) (w : MFWeights) (i j : ℕ) : ℝ :=
  Z * w.lnWR i j - N * w.wR i j + wEntry kappa eV eLnV lP lN w i j

theorem pairObj_eq {kappa eV eLnV lP lN Z N : ℝ} (w : MFWeights) (i j : ℕ) (hk : 0 < kappa) (hv : 0 < eV) (h00 : 0 < w.kappa0 ∧ 0 < w.nu0)
    (hw : 0 < w.mfKappa0 i j ∧ 0 < w.mfV0 i j ∧ 0 < w.mfKappa1 i j ∧ 0 < w.mfV1 i j) (hZ : 0 ≤ Z) (hN : 0 ≤ N) :
    pairObj kappa eV eLnV lP lN Z N w i j
      = edgeObj (lP + (kappa * eLnV - gammaln kappa - (kappa + Z) * Real.log (eV + N) + gammaln (kappa + Z)))
          (lN + (w.kappa0 * Real.log w.nu0 - gammaln w.kappa0 - (w.kappa0 + Z) * Real.log (w.nu0 + N) + gammaln (w.kappa0 + Z))) (w.mfP i j)
        - w.mfP i j * klGamma (w.mfKappa1 i j) (w.mfV1 i j) (kappa + Z) (eV + N)
        - (1 - w.mfP i j) * klGamma (w.mfKappa0 i j) (w.mfV0 i j) (w.kappa0 + Z) (w.nu0 + N) := by
  have o1 := gamma_objective (L := eLnV) hk hv hZ hN hw.2.2.1 hw.2.2.2
  have o0 := gamma_objective (L := Real.log w.nu0) h00.1 h00.2 hZ hN hw.1 hw.2.1
  have e1 : w.eWGivenA 1 i j = w.mfKappa1 i j / w.mfV1 i j := by simp [MFWeights.eWGivenA]
  have e0 : w.eWGivenA 0 i j = w.mfKappa0 i j / w.mfV0 i j := by simp [MFWeights.eWGivenA]
  have l1 : w.eLnWGivenA 1 i j = psi (w.mfKappa1 i j) - Real.log (w.mfV1 i j) := by simp [MFWeights.eLnWGivenA]
  have l0 : w.eLnWGivenA 0 i j = psi (w.mfKappa0 i j) - Real.log (w.mfV0 i j) := by simp [MFWeights.eLnWGivenA]
  simp only [pairObj, wEntry, MFWeights.lnWR, MFWeights.wR, e1, e0, l1, l0, edgeObj]
  linear_combination w.mfP i j * o1 + (1 - w.mfP i j) * o0


/-- the parts of a finite bound -/
theorem vlb_parts (huge : ℝ) (M : MFModel) {x : ℝ} (hx : M.vlb huge = .ok (.fin x)) :
    ∃ V L y s u, M.net.eV = .ok V ∧ M.net.eLnV = .ok L ∧ M.net.vlb huge = .ok y ∧ (M.data.map M.parentsVlb).sum = .fin s ∧ M.w.vlb M.K M.net V L = .fin u ∧
      x = s + M.bias.vlb M.K + M.imp.vlb M.K M.B + u + y := by
  unfold MFModel.vlb at hx
  dsimp only at hx
  cases h1 : M.net.eV with
  | error e => rw [h1] at hx; cases hx
  | ok V =>
    cases h2 : M.net.eLnV with
    | error e => rw [h1, h2] at hx; cases hx
    | ok L =>
      cases h3 : M.net.vlb huge with
      | error e => rw [h1, h2, h3] at hx; cases hx
      | ok y =>
        rw [h1, h2, h3] at hx
        dsimp only at hx
        rw [FX.sum_eq] at hx
        have hx := Except.ok.inj hx
        cases hS : (M.data.map M.parentsVlb).sum <;> rw [hS] at hx <;> cases hU : M.w.vlb M.K M.net V L <;> rw [hU] at hx <;>
          simp [FX.add_def, FX.add] at hx
        exact ⟨V, L, y, _, _, rfl, rfl, rfl, rfl, hU, hx.symm⟩

theorem vlb_of_parts (huge : ℝ) (M : MFModel) {V L : Mat ℝ} {y s u : ℝ} (h1 : M.net.eV = .ok V) (h2 : M.net.eLnV = .ok L) (h3 : M.net.vlb huge = .ok y)
    (h4 : (M.data.map M.parentsVlb).sum = .fin s) (h5 : M.w.vlb M.K M.net V L = .fin u) :
    M.vlb huge = .ok (.fin (s + M.bias.vlb M.K + M.imp.vlb M.K M.B + u + y)) := by
  unfold MFModel.vlb
  rw [h1, h2, h3]
  dsimp only
  rw [FX.sum_eq, h4, h5]
  simp only [FX.fin_add]

theorem w_update_value (M : MFModel) {V L lP lN : Mat ℝ} (h1 : M.net.eV = .ok V) (h2 : M.net.eLnV = .ok L)
    (hl : ∀ i < M.K, ∀ j < M.K, M.net.eLnP i j = .fin (lP i j) ∧ M.net.eLnNotP i j = .fin (lN i j)) (hp : ∀ i < M.K, ∀ j < M.K, 0 < M.w.mfP i j ∧ M.w.mfP i j < 1) :
    ∃ w', M.w.update M.K M.B M.net M.data 1 1 = .ok w' ∧ w'.kappa0 = M.w.kappa0 ∧ w'.nu0 = M.w.nu0 ∧
      ∀ i < M.K, ∀ j < M.K,
        let Z := expSum M.data (fun D => expWeightSS0 D M.B i j)
        let N := expSum M.data (fun D => (weightSS1 D i j : ℝ))
        w'.mfKappa1 i j = M.net.kappa + Z ∧ w'.mfV1 i j = V i j + N ∧ w'.mfKappa0 i j = M.w.kappa0 + Z ∧ w'.mfV0 i j = M.w.nu0 + N ∧
        w'.mfP i j = clipLogistic (.fin ((lP i j + (M.net.kappa * L i j - gammaln M.net.kappa - (M.net.kappa + Z) * Real.log (V i j + N) + gammaln (M.net.kappa + Z)))
          - (lN i j + (M.w.kappa0 * Real.log M.w.nu0 - gammaln M.w.kappa0 - (M.w.kappa0 + Z) * Real.log (M.w.nu0 + N) + gammaln (M.w.kappa0 + Z))))) := by
  set w1 := M.w.updateKappaV M.B M.net.kappa V M.data 1 1 with hw1
  have k1 : ∀ i j, w1.mfKappa1 i j = M.net.kappa + expSum M.data (fun D => expWeightSS0 D M.B i j) := by intro i j; simp [hw1, MFWeights.updateKappaV]
  have v1 : ∀ i j, w1.mfV1 i j = V i j + expSum M.data (fun D => (weightSS1 D i j : ℝ)) := by intro i j; simp [hw1, MFWeights.updateKappaV]
  have k0 : ∀ i j, w1.mfKappa0 i j = M.w.kappa0 + expSum M.data (fun D => expWeightSS0 D M.B i j) := by intro i j; simp [hw1, MFWeights.updateKappaV]
  have v0 : ∀ i j, w1.mfV0 i j = M.w.nu0 + expSum M.data (fun D => (weightSS1 D i j : ℝ)) := by intro i j; simp [hw1, MFWeights.updateKappaV]
  have a0 : w1.kappa0 = M.w.kappa0 := rfl
  have b0 : w1.nu0 = M.w.nu0 := rfl
  have hhat : ∀ i < M.K, ∀ j < M.K, w1.logitHat M.net L 1 i j = .fin
      ((lP i j + (M.net.kappa * L i j - gammaln M.net.kappa - w1.mfKappa1 i j * Real.log (w1.mfV1 i j) + gammaln (w1.mfKappa1 i j)))
          - (lN i j + (M.w.kappa0 * Real.log M.w.nu0 - gammaln M.w.kappa0 - w1.mfKappa0 i j * Real.log (w1.mfV0 i j) + gammaln (w1.mfKappa0 i j)))) := by
    intro i hi j hj
    have hp' : 0 < w1.mfP i j ∧ w1.mfP i j < 1 := hp i hi j hj
    unfold MFWeights.logitHat MFWeights.logitP
    rw [(hl i hi j hj).1, (hl i hi j hj).2, div_one, FX.log_pos hp'.1, FX.log_pos (by linarith [hp'.2])]
    simp only [FX.fin_add, FX.fin_sub, FX.fin_mul, a0, b0]
    congr 1
    ring
  refine ⟨{ w1 with mfP := fun i j => clipLogistic (w1.logitHat M.net L 1 i j) }, ?_, rfl, rfl, ?_⟩
  · unfold MFWeights.update
    rw [h1, h2]
    dsimp only
    unfold MFWeights.updateP
    rw [if_neg]
    rintro ⟨i, hi, j, hj, h⟩
    rw [← hw1, hhat i hi j hj] at h
    cases h
  · intro i hi j hj
    refine ⟨k1 i j, v1 i j, k0 i j, v0 i j, ?_⟩
    dsimp only
    rw [hhat i hi j hj, k1, v1, k0, v0]

/-- **C79 (edges and weights).** With self connections allowed and no certain or impossible edge, if `get_vlb()` is a finite number, then after the coordinate update
of the weight model it is a finite number and not smaller. -/
theorem C79_weights_update_ascends (huge : ℝ) (M : MFModel) (hs : M.net.allowSelf = true) {V lP lN : Mat ℝ} (hV : M.net.eV = .ok V)
    (hl : ∀ i < M.K, ∀ j < M.K, M.net.eLnP i j = .fin (lP i j) ∧ M.net.eLnNotP i j = .fin (lN i j)) (hk : 0 < M.net.kappa)
    (hv : ∀ i < M.K, ∀ j < M.K, 0 < V i j) (h00 : 0 < M.w.kappa0 ∧ 0 < M.w.nu0)
    (hw : ∀ i < M.K, ∀ j < M.K, 0 < M.w.mfKappa0 i j ∧ 0 < M.w.mfV0 i j ∧ 0 < M.w.mfKappa1 i j ∧ 0 < M.w.mfV1 i j)
    (hp : ∀ i < M.K, ∀ j < M.K, 1e-8 ≤ M.w.mfP i j ∧ M.w.mfP i j ≤ 1 - 1e-8)
    (hpos : ∀ D ∈ M.data, EZPos D) (hD : ∀ D ∈ M.data, EZShape D) {x : ℝ} (hx : M.vlb huge = .ok (.fin x)) :
    ∃ M' y, M.updateWeights = .ok M' ∧ M'.vlb huge = .ok (.fin y) ∧ x ≤ y := by
  obtain ⟨V', L, y, s, u, h1, h2, h3, h4, h5, rfl⟩ := vlb_parts huge M hx
  rw [hV] at h1
  cases h1
  have hp' : ∀ i < M.K, ∀ j < M.K, 0 < M.w.mfP i j ∧ M.w.mfP i j < 1 := by
    intro i hi j hj
    have := hp i hi j hj
    norm_num at this
    exact ⟨by linarith [this.1], by linarith [this.2]⟩
  obtain ⟨w', hu, e0, e1, hval⟩ := w_update_value M hV h2 hl hp'
  have hZ : ∀ i j, 0 ≤ expSum M.data (fun D => expWeightSS0 D M.B i j) := fun i j =>
    expSum_nonneg _ _ fun d hd' => sum_nonneg fun b _ => col_sum_nonneg d (hpos d hd') _ _
  have hN : ∀ i j, 0 ≤ expSum M.data (fun D => (weightSS1 D i j : ℝ)) := fun i j => expSum_nonneg _ _ fun d _ => Nat.cast_nonneg _
  have hp2 : ∀ i < M.K, ∀ j < M.K, 0 < w'.mfP i j ∧ w'.mfP i j < 1 := by
    intro i hi j hj
    rw [(hval i hi j hj).2.2.2.2]
    have := clipLogistic_mem (x := .fin ((lP i j + (M.net.kappa * L i j - gammaln M.net.kappa
      - (M.net.kappa + expSum M.data (fun D => expWeightSS0 D M.B i j)) * Real.log (V i j + expSum M.data (fun D => (weightSS1 D i j : ℝ)))
      + gammaln (M.net.kappa + expSum M.data (fun D => expWeightSS0 D M.B i j))))
          - (lN i j + (M.w.kappa0 * Real.log M.w.nu0 - gammaln M.w.kappa0
      - (M.w.kappa0 + expSum M.data (fun D => expWeightSS0 D M.B i j)) * Real.log (M.w.nu0 + expSum M.data (fun D => (weightSS1 D i j : ℝ)))
      + gammaln (M.w.kappa0 + expSum M.data (fun D => expWeightSS0 D M.B i j)))))) (fun h => by cases h)
    norm_num at this
    exact ⟨by linarith [this.1], by linarith [this.2]⟩
  have hd := data_shift_w M hs w' hD
  rw [h4, FX.fin_add, sum_comm] at hd
  have hwv := wVlb_value M.K M.net V L lP lN w' hp2 hl
  have hwo := wVlb_value M.K M.net V L lP lN M.w hp' hl
  rw [h5] at hwo
  have hwo := FX.fin.inj hwo
  refine ⟨{ M with w := w' }, _, by simp only [MFModel.updateWeights, hu], vlb_of_parts huge { M with w := w' } hV h2 h3 hd hwv, ?_⟩
  dsimp only
  rw [hwo]
  have key : ∀ i < M.K, ∀ j < M.K,
      wEntry M.net.kappa (V i j) (L i j) (lP i j) (lN i j) M.w i j ≤ (expSum M.data (fun D => expWeightSS0 D M.B i j) * (w'.lnWR i j - M.w.lnWR i j)
        - expSum M.data (fun D => (weightSS1 D i j : ℝ)) * (w'.wR i j - M.w.wR i j)) + wEntry M.net.kappa (V i j) (L i j) (lP i j) (lN i j) w' i j := by
    intro i hi j hj
    have o1 := pairObj_eq (lP := lP i j) (lN := lN i j) (eLnV := L i j) M.w i j hk (hv i hi j hj) h00 (hw i hi j hj) (hZ i j) (hN i j)
    obtain ⟨c1, c2, c3, c4, c5⟩ := hval i hi j hj
    have o2 := pairObj_eq (lP := lP i j) (lN := lN i j) (eLnV := L i j) w' i j hk (hv i hi j hj) (by rw [e0, e1]; exact h00)
      (by rw [c1, c2, c3, c4]; exact ⟨add_pos_of_pos_of_nonneg h00.1 (hZ i j), add_pos_of_pos_of_nonneg h00.2 (hN i j),
            add_pos_of_pos_of_nonneg hk (hZ i j), add_pos_of_pos_of_nonneg (hv i hi j hj) (hN i j)⟩) (hZ i j) (hN i j)
    rw [c1, c2, c3, c4, c5, e0, e1, klGamma_self, klGamma_self] at o2
    have hc := edgeObj_clip (a := lP i j + (M.net.kappa * L i j - gammaln M.net.kappa
        - (M.net.kappa + expSum M.data (fun D => expWeightSS0 D M.B i j)) * Real.log (V i j + expSum M.data (fun D => (weightSS1 D i j : ℝ)))
        + gammaln (M.net.kappa + expSum M.data (fun D => expWeightSS0 D M.B i j))))
      (b := lN i j + (M.w.kappa0 * Real.log M.w.nu0 - gammaln M.w.kappa0
        - (M.w.kappa0 + expSum M.data (fun D => expWeightSS0 D M.B i j)) * Real.log (M.w.nu0 + expSum M.data (fun D => (weightSS1 D i j : ℝ)))
        + gammaln (M.w.kappa0 + expSum M.data (fun D => expWeightSS0 D M.B i j)))) (hp i hi j hj)
    have kl1 := mul_nonneg (hp' i hi j hj).1.le (klGamma_nonneg (hw i hi j hj).2.2.1 (hw i hi j hj).2.2.2 (add_pos_of_pos_of_nonneg hk (hZ i j))
      (add_pos_of_pos_of_nonneg (hv i hi j hj) (hN i j)))
    have kl0 := mul_nonneg (sub_nonneg.2 (hp' i hi j hj).2.le) (klGamma_nonneg (hw i hi j hj).1 (hw i hi j hj).2.1 (add_pos_of_pos_of_nonneg h00.1 (hZ i j))
      (add_pos_of_pos_of_nonneg h00.2 (hN i j)))
    have : pairObj M.net.kappa (V i j) (L i j) (lP i j) (lN i j) (expSum M.data (fun D => expWeightSS0 D M.B i j)) (expSum M.data (fun D => (weightSS1 D i j : ℝ))) M.w i j
        ≤ pairObj M.net.kappa (V i j) (L i j) (lP i j) (lN i j) (expSum M.data (fun D => expWeightSS0 D M.B i j)) (expSum M.data (fun D => (weightSS1 D i j : ℝ))) w' i j := by
      rw [o1, o2]; linarith
    unfold pairObj at this
    linarith
  have hsum := sum_le_sum fun i (hi : i ∈ range M.K) => sum_le_sum fun j (hj : j ∈ range M.K) => key i (mem_range.1 hi) j (mem_range.1 hj)
  simp only [sum_add_distrib (f := fun j => _ - _)] at hsum
  simp only [sum_add_distrib] at hsum
  linarith

end PyHawkes
