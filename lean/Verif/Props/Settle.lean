import Verif.Props.EvidenceSim
import Verif.Spec.Settle
import Mathlib.Topology.Order.MonotoneConvergence

/-! # C110: repeating the coordinate step, the variational lower bound settles -/
set_option linter.unusedSectionVars false
set_option linter.unusedVariables false

namespace PyHawkes
open Finset MeasureTheory ProbabilityTheory Spec Filter

/-- Gibbs' inequality with zeros -/
theorem gibbs0_le {ι : Type*} (S : Finset ι) (q e : ι → ℝ) (hq : ∀ c ∈ S, 0 ≤ q c) (h1 : ∑ c ∈ S, q c = 1) (he : ∀ c ∈ S, 0 ≤ e c) (hs : ∀ c ∈ S, 0 < q c → 0 < e c)
    {U : ℝ} (hU : ∑ c ∈ S, e c = U) (hU0 : 0 < U) : ∑ c ∈ S, q c * (Real.log (e c) - Real.log (q c)) ≤ Real.log U := by
  have key : ∀ c ∈ S, q c * (Real.log (e c) - Real.log (q c)) ≤ q c * Real.log U + (e c / U - q c) := by
    intro c hc
    rcases (hq c hc).eq_or_lt with h | h
    · rw [← h]; have := he c hc; simp; positivity
    · have e0 := hs c hc h
      have hp : 0 < e c / (U * q c) := by positivity
      have := Real.log_le_sub_one_of_pos hp
      rw [Real.log_div e0.ne' (by positivity), Real.log_mul hU0.ne' h.ne'] at this
      have h2 := mul_le_mul_of_nonneg_left this h.le
      have h3 : q c * (e c / (U * q c)) = e c / U := by field_simp
      nlinarith
  calc _ ≤ ∑ c ∈ S, (q c * Real.log U + (e c / U - q c)) := sum_le_sum key
    _ = Real.log U := by
      rw [sum_add_distrib, sum_sub_distrib, ← sum_mul, ← sum_div, h1, hU, div_self hU0.ne']; ring

theorem gibbs0_eq {ι : Type*} (S : Finset ι) (e : ι → ℝ) (he : ∀ c ∈ S, 0 ≤ e c) {U : ℝ} (hU : ∑ c ∈ S, e c = U) (hU0 : 0 < U) :
    ∑ c ∈ S, e c / U * (Real.log (e c) - Real.log (e c / U)) = Real.log U := by
  have key : ∀ c ∈ S, e c / U * (Real.log (e c) - Real.log (e c / U)) = e c / U * Real.log U := by
    intro c hc
    rcases (he c hc).eq_or_lt with h | h
    · rw [← h]; simp
    · rw [Real.log_div h.ne' hU0.ne']; ring
  rw [sum_congr rfl key, ← sum_mul, ← sum_div, hU, div_self hU0.ne', one_mul]

/-- what the guards add to the bound of one event bin; it does not depend on the parameters -/
noncomputable def rowGuard (K B : ℕ) (z : Vec ℝ) (s : ℕ) (f : Mat ℝ) : ℝ :=
  z 0 * (Real.log (z 0 / s) - Real.log (z 0 / s + 1e-32)) + ∑ k1 ∈ range K, ∑ b ∈ range B,
    (z (1 + k1 * B + b) * (Real.log (f k1 b + 1e-32) - Real.log (f k1 b))
      + z (1 + k1 * B + b) * (Real.log (z (1 + k1 * B + b) / s) - Real.log (z (1 + k1 * B + b) / s + 1e-32)))

theorem rowIdeal_eq (K B k2 : ℕ) (elnL : Vec ℝ) (lw : Mat ℝ) (elng : Ten ℝ) (z : Vec ℝ) {s : ℕ} {f : Mat ℝ} (hs : s ≠ 0) (hz : ∀ j, 0 ≤ z j)
    (hsup : ∀ k < K, ∀ b < B, 0 < z (1 + k * B + b) → 0 < f k b) :
    rowR K B k2 elnL lw elng z s f - rowGuard K B z s f = s * ∑ c ∈ insertNone (range K ×ˢ range B), z (colOf B c) / s *
      (Real.log (rowE k2 elnL lw elng f 0 c) - Real.log (z (colOf B c) / s)) := by
  have s0 : (s:ℝ) ≠ 0 := Nat.cast_ne_zero.2 hs
  rw [mul_sum]
  have e : ∀ c, (s:ℝ) * (z (colOf B c) / s * (Real.log (rowE k2 elnL lw elng f 0 c) - Real.log (z (colOf B c) / s)))
      = z (colOf B c) * (Real.log (rowE k2 elnL lw elng f 0 c) - Real.log (z (colOf B c) / s)) := by
    intro c; rw [← mul_assoc, mul_div_cancel₀ _ s0]
  rw [sum_congr rfl fun c _ => e c, sum_cols]
  unfold rowR rowGuard
  rw [add_sub_add_comm, ← sum_sub_distrib]
  congr 1
  · simp only [colOf, rowE, Real.log_exp]; ring
  refine sum_congr rfl fun k1 hk => ?_
  rw [← sum_sub_distrib]
  refine sum_congr rfl fun b hb => ?_
  simp only [colOf, rowE, add_zero]
  rcases (hz (1 + k1 * B + b)).eq_or_lt with h | h
  · rw [← h]; simp
  · have := hsup k1 (mem_range.1 hk) b (mem_range.1 hb) h
    rw [Real.log_mul (by positivity) (Real.exp_pos _).ne', Real.log_mul (by positivity) (Real.exp_pos _).ne', Real.log_exp, Real.log_exp]
    ring

theorem rowIdeal_ascent (K B k2 : ℕ) (elnL : Vec ℝ) (lw : Mat ℝ) (elng : Ten ℝ) {z : Vec ℝ} {s : ℕ} {f : Mat ℝ} (hs : s ≠ 0) (hz : ∀ j, 0 ≤ z j) (hf : ∀ k b, 0 ≤ f k b)
    (hsup : ∀ k < K, ∀ b < B, 0 < z (1 + k * B + b) → 0 < f k b) (hsum : RowSum K B z s) {z' : Vec ℝ}
    (hz' : z' = mfRowPy K B (Real.exp (elnL k2)) (fun k1 => Real.exp (lw k1 k2)) (fun k1 b => Real.exp (elng k1 k2 b)) s f) (hp' : ∀ j, 0 ≤ z' j)
    (hsup' : ∀ k < K, ∀ b < B, 0 < z' (1 + k * B + b) → 0 < f k b) :
    rowR K B k2 elnL lw elng z s f - rowGuard K B z s f ≤ rowR K B k2 elnL lw elng z' s f - rowGuard K B z' s f := by
  have s0 : (0:ℝ) < s := Nat.cast_pos.2 (Nat.pos_of_ne_zero hs)
  rw [rowIdeal_eq K B k2 elnL lw elng z hs hz hsup, rowIdeal_eq K B k2 elnL lw elng z' hs hp' hsup']
  set S := insertNone (range K ×ˢ range B) with hS
  set e := rowE k2 elnL lw elng f 0 with he
  have e0 : ∀ c, 0 ≤ e c := by
    intro c
    cases c with
    | none => exact (Real.exp_pos _).le
    | some p => have := hf p.1 p.2; simp only [he, rowE, add_zero]; positivity
  set U := ∑ c ∈ S, e c with hU
  have hUL : Real.exp (elnL k2) ≤ U := by
    have : none ∈ S := by simp [hS]
    exact single_le_sum (f := e) (fun c _ => e0 c) this
  have U0 : 0 < U := lt_of_lt_of_le (Real.exp_pos _) hUL
  have hold := gibbs0_le S (fun c => z (colOf B c) / s) e (fun c _ => div_nonneg (hz _) s0.le) (by
    rw [← sum_div, hS, sum_cols]
    simp only [colOf]
    rw [show z 0 + ∑ k1 ∈ range K, ∑ b ∈ range B, z (1 + k1 * B + b) = s from hsum, div_self s0.ne']) (fun c _ => e0 c) (by
    intro c hc h
    have h : 0 < z (colOf B c) := by
      have := mul_pos h s0
      rwa [div_mul_cancel₀ _ s0.ne'] at this
    cases c with
    | none => exact Real.exp_pos _
    | some p =>
      have hp : p.1 < K ∧ p.2 < B := by simpa [hS] using hc
      have := hsup p.1 hp.1 p.2 hp.2 h
      simp only [he, rowE, add_zero]; positivity) hU.symm U0
  have hq : ∀ c ∈ S, z' (colOf B c) / s = e c / U := by
    intro c hc
    have hUe : U = Real.exp (elnL k2) + ∑ j ∈ range K, ∑ c ∈ range B, f j c * Real.exp (lw j k2) * Real.exp (elng j k2 c) := by
      rw [hU, hS, sum_cols]; simp only [he, rowE, add_zero]
    rw [hz']
    cases c with
    | none => simp only [colOf]; rw [mfRowPy_zero, ← hUe, mul_div_cancel_right₀ _ s0.ne']; rfl
    | some p =>
      have hb : p.2 < B := by simp [hS] at hc; exact hc.2
      simp only [colOf]
      rw [mfRowPy_col _ _ _ _ _ _ _ _ _ hb, ← hUe, mul_div_cancel_right₀ _ s0.ne']
      simp only [he, rowE, add_zero]
  have hR : ∑ c ∈ S, z' (colOf B c) / s * (Real.log (e c) - Real.log (z' (colOf B c) / s)) = Real.log U := by
    rw [← gibbs0_eq S e (fun c _ => e0 c) hU.symm U0]
    exact sum_congr rfl fun c hc => by rw [hq c hc]
  rw [hR]
  exact mul_le_mul_of_nonneg_left hold s0.le

theorem guard_ratio {z s : ℝ} (hz : 0 ≤ z) (hs : 0 < s) : -(1e-32 * s) ≤ z * (Real.log (z / s) - Real.log (z / s + 1e-32)) ∧ z * (Real.log (z / s) - Real.log (z / s + 1e-32)) ≤ 0 := by
  rcases hz.eq_or_lt with h | h
  · rw [← h]; simp; positivity
  · have q0 : 0 < z / s := by positivity
    have l1 : Real.log (z / s) ≤ Real.log (z / s + 1e-32) := Real.log_le_log q0 (by norm_num)
    have l2 := log_guard (z := z) (f := z / s) h.le (fun _ => q0)
    have l3 : z / (z / s) = s := by field_simp
    rw [l3] at l2
    constructor
    · rw [mul_sub]; linarith
    · exact mul_nonpos_of_nonneg_of_nonpos h.le (by linarith)

theorem guard_filtered {z s f : ℝ} (hz : 0 ≤ z) (hzs : z ≤ s) (hf : 0 < z → 0 < f) (hf0 : 0 ≤ f) :
    0 ≤ z * (Real.log (f + 1e-32) - Real.log f) ∧ z * (Real.log (f + 1e-32) - Real.log f) ≤ 1e-32 * (s * if f = 0 then 0 else 1 / f) := by
  have s0 : 0 ≤ s := hz.trans hzs
  rcases hz.eq_or_lt with h | h
  · rw [← h]
    refine ⟨by simp, ?_⟩
    rw [zero_mul]
    split_ifs
    · simp
    · positivity
  · have f0 := hf h
    have l1 : Real.log f ≤ Real.log (f + 1e-32) := Real.log_le_log f0 (by norm_num)
    have l2 := log_guard h.le hf
    refine ⟨mul_nonneg hz (by linarith), ?_⟩
    rw [if_neg f0.ne']
    have : z / f ≤ s * (1 / f) := by rw [mul_one_div]; gcongr
    rw [mul_sub]
    linarith

theorem row_le_count {K B : ℕ} {z : Vec ℝ} {s : ℕ} (hz : ∀ j, 0 ≤ z j) (hsum : RowSum K B z s) {k b : ℕ} (hk : k < K) (hb : b < B) : z (1 + k * B + b) ≤ s := by
  unfold RowSum at hsum
  have h1 : z (1 + k * B + b) ≤ ∑ b ∈ range B, z (1 + k * B + b) := single_le_sum (f := fun b => z (1 + k * B + b)) (fun _ _ => hz _) (mem_range.2 hb)
  have h2 : ∑ b ∈ range B, z (1 + k * B + b) ≤ ∑ k ∈ range K, ∑ b ∈ range B, z (1 + k * B + b) :=
    single_le_sum (f := fun k => ∑ b ∈ range B, z (1 + k * B + b)) (fun _ _ => sum_nonneg fun _ _ => hz _) (mem_range.2 hk)
  linarith [hz 0]

/-- inverse filtered counts -/
noncomputable def invF (K B : ℕ) (f : Mat ℝ) : ℝ := ∑ i ∈ range K, ∑ b ∈ range B, if f i b = 0 then 0 else 1 / f i b

theorem rowGuard_bounds {K B : ℕ} {z : Vec ℝ} {s : ℕ} {f : Mat ℝ} (hs : s ≠ 0) (hz : ∀ j, 0 ≤ z j) (hf : ∀ k b, 0 ≤ f k b)
    (hsup : ∀ k < K, ∀ b < B, 0 < z (1 + k * B + b) → 0 < f k b) (hsum : RowSum K B z s) :
    -(1e-32 * (s * (1 + K * B))) ≤ rowGuard K B z s f ∧ rowGuard K B z s f ≤ 1e-32 * (s * invF K B f) := by
  have s0 : (0:ℝ) < s := Nat.cast_pos.2 (Nat.pos_of_ne_zero hs)
  have g0 := guard_ratio (hz 0) s0
  unfold rowGuard
  constructor
  · have : ∑ k1 ∈ range K, ∑ b ∈ range B, -(1e-32 * (s:ℝ)) ≤ ∑ k1 ∈ range K, ∑ b ∈ range B,
        (z (1 + k1 * B + b) * (Real.log (f k1 b + 1e-32) - Real.log (f k1 b)) + z (1 + k1 * B + b) * (Real.log (z (1 + k1 * B + b) / s) - Real.log (z (1 + k1 * B + b) / s + 1e-32))) := by
      refine sum_le_sum fun k hk => sum_le_sum fun b hb => ?_
      have hk := mem_range.1 hk
      have hb := mem_range.1 hb
      have g1 := (guard_ratio (hz (1 + k * B + b)) s0).1
      have g2 := (guard_filtered (hz (1 + k * B + b)) (row_le_count hz hsum hk hb) (hsup k hk b hb) (hf k b)).1
      linarith
    rw [sum_const, sum_const, card_range, card_range, nsmul_eq_mul, nsmul_eq_mul] at this
    linarith [g0.1]
  · have : ∑ k1 ∈ range K, ∑ b ∈ range B,
        (z (1 + k1 * B + b) * (Real.log (f k1 b + 1e-32) - Real.log (f k1 b)) + z (1 + k1 * B + b) * (Real.log (z (1 + k1 * B + b) / s) - Real.log (z (1 + k1 * B + b) / s + 1e-32)))
        ≤ ∑ k1 ∈ range K, ∑ b ∈ range B, 1e-32 * (s * if f k1 b = 0 then 0 else 1 / f k1 b) := by
      refine sum_le_sum fun k hk => sum_le_sum fun b hb => ?_
      have hk := mem_range.1 hk
      have hb := mem_range.1 hb
      have g1 := (guard_ratio (hz (1 + k * B + b)) s0).2
      have g2 := (guard_filtered (hz (1 + k * B + b)) (row_le_count hz hsum hk hb) (hsup k hk b hb) (hf k b)).2
      linarith
    unfold invF
    simp only [mul_sum]
    linarith [g0.2]

/-- what the guards add to the bound of one data set -/
noncomputable def dataGuard (K B : ℕ) (D : DParents ℝ) : ℝ := ∑ k ∈ range K, ((zRows D k).map fun r => rowGuard K B r.1 r.2.1 r.2.2).sum

theorem zip_sub_sum {α : Type*} (l : List α) (f g : α → ℝ) : (l.map fun a => f a - g a).sum = (l.map f).sum - (l.map g).sum := by
  induction l with
  | nil => simp
  | cons a l ih => simp only [List.map_cons, List.sum_cons, ih]; ring

theorem zRows_mem {D : DParents ℝ} (hD : DataOk D) {k : ℕ} {r : Vec ℝ × ℕ × Mat ℝ} (hr : r ∈ zRows D k) :
    (∀ j, 0 ≤ r.1 j) ∧ r.2.1 ≠ 0 ∧ (∀ a b, 0 ≤ r.2.2 a b) ∧ (r.1, r.2.1) ∈ (D.getEZ k).zip (D.Ss k) := by
  have hr' : r ∈ (D.getEZ k).zip ((D.Ss k).zip (D.Fs k)) := hr
  have hr2 := (List.of_mem_zip hr').2
  have hf := (List.of_mem_zip hr2).2
  simp only [DParents.Fs, List.mem_map] at hf
  obtain ⟨t, _, hf⟩ := hf
  refine ⟨hD.1 k r.1 (List.of_mem_zip hr').1, Ss_ne_zero hD.2.2.1 (List.of_mem_zip hr2).1, fun a b => hf ▸ hD.2.2.2 t a b, ?_⟩
  have e : (D.getEZ k).zip (D.Ss k) = ((D.getEZ k).zip ((D.Ss k).zip (D.Fs k))).map fun r => (r.1, r.2.1) := by
    have hl2 : (D.Ss k).length = (D.Fs k).length := by simp [DParents.Ss, DParents.Fs]
    conv_lhs => rw [← List.map_fst_zip (l₁ := D.Ss k) (l₂ := D.Fs k) hl2.le]
    rw [List.zip_map_right]
    rfl
  rw [e]
  exact List.mem_map.2 ⟨r, hr', rfl⟩

theorem data_ideal_ascent (M : MFModel) (hs : M.net.allowSelf = true) {D : DParents ℝ} (hD : DataOk D) (hsum : EZSum M.K M.B D) (hsup : Supported M.K M.B D) :
    ∃ x y, M.parentsVlb D = .fin x ∧ M.parentsVlb (M.updateParents D) = .fin y ∧ x - dataGuard M.K M.B D ≤ y - dataGuard M.K M.B (M.updateParents D) := by
  have hU := hD.update M
  refine ⟨_, _, parentsVlb_value M hs hD.1 hD.2.2.1 hD.2.2.2, parentsVlb_value M hs hU.1 hU.2.2.1 hU.2.2.2, ?_⟩
  have hc : ∀ k, dataConst M (M.updateParents D) k = dataConst M D k := fun _ => rfl
  have hS : ∀ k, (M.updateParents D).Ss k = D.Ss k := fun _ => rfl
  have hF : ∀ k, (M.updateParents D).Fs k = D.Fs k := fun _ => rfl
  rw [list_range_sum, list_range_sum, dataGuard, dataGuard, ← sum_sub_distrib, ← sum_sub_distrib]
  refine sum_le_sum fun k hk => ?_
  have hk := mem_range.1 hk
  have hlen : (D.getEZ k).length = ((D.Ss k).zip (D.Fs k)).length := by
    rw [hD.2.1 k]; simp [DParents.Ss, DParents.Fs]
  rw [hc, add_sub_assoc, add_sub_assoc]
  refine add_le_add le_rfl ?_
  unfold zRows
  rw [← zip_sub_sum, ← zip_sub_sum, hS, hF, updateParents_EZ M hs, zip_map_self, List.map_map]
  have := zip_le hlen (fun z p => rowR M.K M.B k M.bias.eLnLam M.w.lnWR (M.imp.eLnG M.B) z p.1 p.2 - rowGuard M.K M.B z p.1 p.2) (fun _ => 0)
    (fun p => rowR M.K M.B k M.bias.eLnLam M.w.lnWR (M.imp.eLnG M.B)
      (mfRowPy M.K M.B (Real.exp (M.bias.eLnLam k)) (fun k1 => Real.exp (M.w.lnWR k1 k)) (fun k1 b => Real.exp (M.imp.eLnG M.B k1 k b)) p.1 p.2) p.1 p.2
      - rowGuard M.K M.B (mfRowPy M.K M.B (Real.exp (M.bias.eLnLam k)) (fun k1 => Real.exp (M.w.lnWR k1 k)) (fun k1 b => Real.exp (M.imp.eLnG M.B k1 k b)) p.1 p.2) p.1 p.2) (by
    intro r hr
    obtain ⟨h1, h2, h3, h4⟩ := zRows_mem hD hr
    rw [sub_zero]
    have hr2 := (List.of_mem_zip hr).2
    have hmem : (mfRowPy M.K M.B (Real.exp (M.bias.eLnLam k)) (fun k1 => Real.exp (M.w.lnWR k1 k)) (fun k1 b => Real.exp (M.imp.eLnG M.B k1 k b)) (r.2.1 : ℝ) r.2.2, r.2) ∈ zRows (M.updateParents D) k := by
      unfold zRows
      rw [hS, hF, updateParents_EZ M hs, zip_map_self]
      exact List.mem_map.2 ⟨r.2, hr2, rfl⟩
    obtain ⟨h1', _, _, _⟩ := zRows_mem hU hmem
    exact rowIdeal_ascent M.K M.B k _ _ _ h2 h1 h3 (fun a ha b hb => hsup k hk r hr a ha b hb) (hsum k hk _ h4) rfl h1'
      (fun a ha b hb => supported_update M hs hD.2.2.2 k hk _ hmem a ha b hb))
  simp only [List.map_const', List.sum_replicate, smul_zero, sub_zero] at this
  exact this

/-- the parents' update never decreases the bound without guards -/
theorem parents_ideal_ascent (huge : ℝ) (M : MFModel) (hs : M.net.allowSelf = true) (hD : ∀ D ∈ M.data, DataOk D) (hsum : ∀ D ∈ M.data, EZSum M.K M.B D)
    (hsup : ∀ D ∈ M.data, Supported M.K M.B D) {x : ℝ} (hx : M.vlb huge = .ok (.fin x)) :
    ∃ y, { M with data := M.data.map M.updateParents }.vlb huge = .ok (.fin y) ∧
      x - (M.data.map (dataGuard M.K M.B)).sum ≤ y - ((M.data.map M.updateParents).map (dataGuard M.K M.B)).sum := by
  obtain ⟨V, L, y, s, u, h1, h2, h3, h4, h5, rfl⟩ := vlb_parts huge M hx
  have key : ∀ l : List (DParents ℝ), (∀ D ∈ l, DataOk D) → (∀ D ∈ l, EZSum M.K M.B D) → (∀ D ∈ l, Supported M.K M.B D) →
      ∃ a b, (l.map M.parentsVlb).sum = .fin a ∧ ((l.map M.updateParents).map M.parentsVlb).sum = .fin b ∧
        a - (l.map (dataGuard M.K M.B)).sum ≤ b - ((l.map M.updateParents).map (dataGuard M.K M.B)).sum := by
    intro l
    induction l with
    | nil => exact fun _ _ _ => ⟨0, 0, rfl, rfl, by simp⟩
    | cons D l ih =>
      intro hD hsum hsup
      obtain ⟨a, b, ea, eb, hab⟩ := ih (fun D' h => hD D' (List.mem_cons_of_mem _ h)) (fun D' h => hsum D' (List.mem_cons_of_mem _ h)) (fun D' h => hsup D' (List.mem_cons_of_mem _ h))
      obtain ⟨a', b', ea', eb', hab'⟩ := data_ideal_ascent M hs (hD D List.mem_cons_self) (hsum D List.mem_cons_self) (hsup D List.mem_cons_self)
      refine ⟨a' + a, b' + b, ?_, ?_, ?_⟩
      · rw [List.map_cons, List.sum_cons, ea, ea', FX.fin_add]
      · rw [List.map_cons, List.map_cons, List.sum_cons, eb, eb', FX.fin_add]
      · rw [List.map_cons, List.map_cons, List.map_cons, List.sum_cons, List.sum_cons]; linarith
  obtain ⟨a, b, ea, eb, hab⟩ := key M.data hD hsum hsup
  rw [h4] at ea
  cases ea
  have hp : ({ M with data := M.data.map M.updateParents } : MFModel).parentsVlb = M.parentsVlb := rfl
  refine ⟨_, vlb_of_parts huge { M with data := M.data.map M.updateParents } h1 h2 h3 (by rw [hp]; exact eb) h5, ?_⟩
  dsimp only
  linarith

theorem coordStep_data {M M' : MFModel} (h : M.coordStep = .ok M') : M'.data = M.data.map M.updateParents := by
  unfold MFModel.coordStep at h
  dsimp only at h
  split at h
  · cases h
  · cases h; rfl

theorem runActs_append {a b : List MFAct} {M M1 : MFModel} (h : runActs a M = .ok M1) : runActs (a ++ b) M = runActs b M1 := by
  induction a generalizing M with
  | nil => cases h; rfl
  | cons x a ih =>
    simp only [runActs, List.cons_append] at h ⊢
    split at h
    · cases h
    · rename_i e
      exact ih h

theorem filter_sum (l : List ℕ) (p : ℕ → Bool) (h : ℕ → ℝ) (h0 : ∀ t, p t = false → h t = 0) : ((l.filter p).map h).sum = (l.map h).sum := by
  induction l with
  | nil => rfl
  | cons a l ih =>
    rw [List.filter_cons]
    split_ifs with hp
    · rw [List.map_cons, List.sum_cons, ih, List.map_cons, List.sum_cons]
    · rw [ih, List.map_cons, List.sum_cons, h0 a (by simpa using hp), zero_add]

/-- sums over event bins of a quantity proportional to the count -/
theorem zRows_count_sum {D : DParents ℝ} (hD : DataOk D) (k : ℕ) (X : Mat ℝ → ℝ) :
    ((zRows D k).map fun r => (r.2.1 : ℝ) * X r.2.2).sum = ∑ t ∈ range D.T, (D.S t k : ℝ) * X (D.F t) := by
  rw [zRows_eq, List.map_map]
  have e : ((D.getEZ k).zip (D.ts k)).map ((fun r : Vec ℝ × ℕ × Mat ℝ => (r.2.1 : ℝ) * X r.2.2) ∘ fun p => (p.1, toU32 (D.S p.2 k), D.F p.2))
      = (((D.getEZ k).zip (D.ts k)).map Prod.snd).map fun t => (D.S t k : ℝ) * X (D.F t) := by
    rw [List.map_map]
    refine List.map_congr_left fun p _ => ?_
    have : toU32 (D.S p.2 k) = D.S p.2 k := Nat.mod_eq_of_lt (hD.2.2.1 p.2 k)
    simp [this]
  rw [e, List.map_snd_zip (hD.2.1 k).ge]
  unfold DParents.ts
  rw [filter_sum _ _ _ fun t ht => by
    have : D.S t k = 0 := by simpa using ht
    simp [this], list_range_sum]

/-- bounds on what the guards add, for one data set -/
theorem dataGuard_bounds {K B : ℕ} {D : DParents ℝ} (hD : DataOk D) (hsum : EZSum K B D) (hsup : Supported K B D) :
    -(1e-32 * ∑ k ∈ range K, ∑ t ∈ range D.T, (D.S t k : ℝ) * (1 + K * B)) ≤ dataGuard K B D ∧
      dataGuard K B D ≤ 1e-32 * ∑ k ∈ range K, ∑ t ∈ range D.T, (D.S t k : ℝ) * invF K B (D.F t) := by
  have h : ∀ k < K, ∀ r ∈ zRows D k, -(1e-32 * (r.2.1 * (1 + K * B))) ≤ rowGuard K B r.1 r.2.1 r.2.2 ∧ rowGuard K B r.1 r.2.1 r.2.2 ≤ 1e-32 * (r.2.1 * invF K B r.2.2) := by
    intro k hk r hr
    obtain ⟨h1, h2, h3, h4⟩ := zRows_mem hD hr
    exact rowGuard_bounds h2 h1 h3 (fun a ha b hb => hsup k hk r hr a ha b hb) (hsum k hk _ h4)
  unfold dataGuard
  constructor
  · rw [mul_sum, ← sum_neg_distrib]
    refine sum_le_sum fun k hk => ?_
    rw [← zRows_count_sum hD k (fun _ => 1 + K * B), ← neg_mul, ← List.sum_map_mul_left]
    refine List.sum_le_sum fun r hr => ?_
    have := (h k (mem_range.1 hk) r hr).1
    linarith
  · rw [mul_sum]
    refine sum_le_sum fun k hk => ?_
    rw [← zRows_count_sum hD k (invF K B), ← List.sum_map_mul_left]
    exact List.sum_le_sum fun r hr => (h k (mem_range.1 hk) r hr).2

/-- the two parts of `settleSlack` -/
noncomputable def slackLo (K B : ℕ) (data : List (DParents ℝ)) : ℝ := 1e-32 * (data.map fun D => ∑ k ∈ range K, ∑ t ∈ range D.T, (D.S t k : ℝ) * (1 + K * B)).sum
noncomputable def slackUp (K B : ℕ) (data : List (DParents ℝ)) : ℝ := 1e-32 * (data.map fun D => ∑ k ∈ range K, ∑ t ∈ range D.T, (D.S t k : ℝ) * invF K B (D.F t)).sum

theorem settleSlack_eq (K B : ℕ) (data : List (DParents ℝ)) : settleSlack K B data = slackLo K B data + slackUp K B data := by
  unfold settleSlack slackLo slackUp
  rw [← mul_add, ← List.sum_map_add]
  congr 2
  refine List.map_congr_left fun D _ => ?_
  rw [← sum_add_distrib]
  refine sum_congr rfl fun k _ => ?_
  rw [← sum_add_distrib]
  exact sum_congr rfl fun t _ => by unfold invF; ring

theorem slack_obs {K B : ℕ} {l l' : List (DParents ℝ)} (h : List.Forall₂ SameObs l l') : slackLo K B l' = slackLo K B l ∧ slackUp K B l' = slackUp K B l := by
  unfold slackLo slackUp
  induction h with
  | nil => exact ⟨rfl, rfl⟩
  | cons a _ ih =>
    obtain ⟨h1, h2, h3⟩ := a
    simp only [List.map_cons, List.sum_cons]
    rw [h1, h2, h3]
    exact ⟨by linarith [ih.1], by linarith [ih.2]⟩

theorem guards_bounds {K B : ℕ} {l : List (DParents ℝ)} (hD : ∀ D ∈ l, DataOk D) (hsum : ∀ D ∈ l, EZSum K B D) (hsup : ∀ D ∈ l, Supported K B D) :
    -slackLo K B l ≤ (l.map (dataGuard K B)).sum ∧ (l.map (dataGuard K B)).sum ≤ slackUp K B l := by
  unfold slackLo slackUp
  induction l with
  | nil => simp
  | cons D l ih =>
    obtain ⟨i1, i2⟩ := ih (fun D' h => hD D' (List.mem_cons_of_mem _ h)) (fun D' h => hsum D' (List.mem_cons_of_mem _ h)) (fun D' h => hsup D' (List.mem_cons_of_mem _ h))
    obtain ⟨d1, d2⟩ := dataGuard_bounds (hD D List.mem_cons_self) (hsum D List.mem_cons_self) (hsup D List.mem_cons_self)
    simp only [List.map_cons, List.sum_cons]
    constructor <;> linarith

theorem guardSlack_le {K B : ℕ} {l : List (DParents ℝ)} (hD : ∀ D ∈ l, DataOk D) (hsum : ∀ D ∈ l, EZSum K B D) : guardSlack K B l ≤ slackUp K B l := by
  rw [← rowSlack_guard]
  unfold slackUp
  induction l with
  | nil => simp
  | cons D l ih =>
    have i := ih (fun D' h => hD D' (List.mem_cons_of_mem _ h)) (fun D' h => hsum D' (List.mem_cons_of_mem _ h))
    have d : rowSlack K B (fun z f k b => 1e-32 * (z (1 + k * B + b) / f k b)) D ≤ 1e-32 * ∑ k ∈ range K, ∑ t ∈ range D.T, (D.S t k : ℝ) * invF K B (D.F t) := by
      unfold rowSlack
      rw [mul_sum]
      refine sum_le_sum fun k hk => ?_
      rw [← zRows_count_sum (hD D List.mem_cons_self) k (invF K B), ← List.sum_map_mul_left]
      refine List.sum_le_sum fun r hr => ?_
      obtain ⟨h1, h2, h3, h4⟩ := zRows_mem (hD D List.mem_cons_self) hr
      unfold invF
      simp only [mul_sum]
      refine sum_le_sum fun i hi => sum_le_sum fun b hb => ?_
      refine mul_le_mul_of_nonneg_left ?_ (by norm_num)
      split_ifs with hf
      · rw [hf]; simp
      · rw [mul_one_div]
        have := h3 i b
        have := row_le_count h1 (hsum D List.mem_cons_self k (mem_range.1 hk) _ h4) (mem_range.1 hi) (mem_range.1 hb)
        gcongr
    simp only [List.map_cons, List.sum_cons]
    linarith

/-- the argument, for any network whose updates after the parents' update do not decrease the bound, given an upper bound up to the guards -/
theorem settles_core (huge : ℝ) (M0 : MFModel) (g : MFGood M0) (hK : 0 < M0.K) (hI : Interior M0.K M0.net) (hf : ∀ n, M0.net ≠ .fixedSparsity n)
    (hd : ∀ D ∈ M0.data, D.EZ = none ∧ ∀ t k, D.S t k < 2 ^ 32)
    (hglob : ∀ M x1, MFInv M0 M → (∀ D ∈ M.data, DataOk D) → { M with data := M.data.map M.updateParents }.vlb huge = .ok (.fin x1) →
      ∃ M' y, M.coordStep = .ok M' ∧ M'.vlb huge = .ok (.fin y) ∧ x1 ≤ y)
    {E : ℝ} (hE : ∀ acts : List MFAct, (∀ a ∈ acts, a.Legal M0) → .coord ∈ acts → ∃ M x, runActs acts M0 = .ok M ∧ M.vlb huge = .ok (.fin x) ∧ x ≤ E + guardSlack M0.K M0.B M.data)
    (acts : List MFAct) (hl : ∀ a ∈ acts, a.Legal M0) :
    ∃ v : ℕ → ℝ, (∀ j, ∃ M, runActs (acts ++ List.replicate j .coord) M0 = .ok M ∧ M.vlb huge = .ok (.fin (v j))) ∧
      ∃ L, ∀ ε > 0, ∃ N, ∀ j ≥ N, |v j - L| ≤ settleSlack M0.K M0.B M0.data + ε ∧ ∀ i ≥ N, |v j - v i| ≤ settleSlack M0.K M0.B M0.data + ε := by
  have hl' : ∀ j, ∀ a ∈ acts ++ List.replicate j .coord, a.Legal M0 := by
    intro j a ha
    rcases List.mem_append.1 ha with h | h
    · exact hl a h
    · rw [List.eq_of_mem_replicate h]; trivial
  have hfresh : ∀ D ∈ M0.data, DataOk D := fun D hD => DataOk.fresh (hd D hD).1 (hd D hD).2 (g.data.2 D hD).2
  choose Ms hrun hinv using fun j => runActs_inv M0 g (acts ++ List.replicate j .coord) (hl' j)
  have hDj : ∀ j, ∀ D ∈ (Ms j).data, DataOk D := fun j => runActs_data (hrun j) hfresh
  choose v hv using fun j => vlb_finite huge g (hinv j) hI hf (hDj j)
  refine ⟨v, fun j => ⟨Ms j, hrun j, hv j⟩, ?_⟩
  have hcin : ∀ j, MFAct.coord ∈ acts ++ List.replicate (j + 1) .coord := fun j => by simp
  have hself : ∀ j, (Ms j).net.allowSelf = true := fun j => by
    have := (Interior.logs hI (hinv j).net hK hK).2.2
    simpa using this
  have hsumj : ∀ j, ∀ D ∈ (Ms (j + 1)).data, EZSum M0.K M0.B D := fun j => runActs_sum M0 g hK hI _ (hl' _) (MFInv.refl g) (hrun (j + 1)) hfresh (.inl (hcin j))
  have hsupj : ∀ j, ∀ D ∈ (Ms (j + 1)).data, Supported M0.K M0.B D := fun j => runActs_sup M0 g hK hI _ (hl' _) (MFInv.refl g) (hrun (j + 1)) hfresh (.inl (hcin j))
  have hstep : ∀ j, (Ms j).coordStep = .ok (Ms (j + 1)) := by
    intro j
    have h1 := hrun (j + 1)
    rw [List.replicate_succ', ← List.append_assoc, runActs_append (hrun j)] at h1
    simp only [runActs, MFAct.run] at h1
    split at h1
    · cases h1
    · rename_i e; rw [e]; exact h1
  set G : ℕ → ℝ := fun j => ((Ms j).data.map (dataGuard M0.K M0.B)).sum with hG
  have hobs : ∀ j, slackLo M0.K M0.B (Ms j).data = slackLo M0.K M0.B M0.data ∧ slackUp M0.K M0.B (Ms j).data = slackUp M0.K M0.B M0.data := fun j => slack_obs (runActs_obs (hrun j))
  have hGb : ∀ j, -slackLo M0.K M0.B M0.data ≤ G (j + 1) ∧ G (j + 1) ≤ slackUp M0.K M0.B M0.data := by
    intro j
    have := guards_bounds (hDj (j + 1)) (hsumj j) (hsupj j)
    rw [(hobs (j + 1)).1, (hobs (j + 1)).2] at this
    exact this
  set w : ℕ → ℝ := fun j => v (j + 1) - G (j + 1) with hw
  have hmono : Monotone w := by
    refine monotone_nat_of_le_succ fun j => ?_
    have hK' := (hinv (j + 1)).K
    have hB' := (hinv (j + 1)).B
    obtain ⟨x1, hx1, le1⟩ := parents_ideal_ascent huge (Ms (j + 1)) (hself _) (hDj _) (by rw [hK', hB']; exact hsumj j) (by rw [hK', hB']; exact hsupj j) (hv (j + 1))
    obtain ⟨M', y, e', hy, le2⟩ := hglob (Ms (j + 1)) x1 (hinv (j + 1)) (hDj (j + 1)) hx1
    rw [hstep (j + 1)] at e'
    have eM := Except.ok.inj e'
    rw [← eM, hv (j + 1 + 1)] at hy
    have ey : v (j + 1 + 1) = y := by
      have := Except.ok.inj hy
      injection this
    rw [hK', hB', ← coordStep_data (hstep (j + 1))] at le1
    simp only [hw, hG]
    rw [ey]
    linarith
  have hbdd : BddAbove (Set.range w) := by
    refine ⟨E + slackUp M0.K M0.B M0.data + slackLo M0.K M0.B M0.data, ?_⟩
    rintro _ ⟨j, rfl⟩
    obtain ⟨M, x, e, hx, hle⟩ := hE _ (hl' (j + 1)) (hcin j)
    rw [hrun (j + 1)] at e
    have eM := Except.ok.inj e
    rw [← eM, hv (j + 1)] at hx
    have ex : v (j + 1) = x := by
      have := Except.ok.inj hx
      injection this
    have hs := guardSlack_le (hDj (j + 1)) (hsumj j)
    rw [(hobs (j + 1)).2] at hs
    rw [← eM] at hle
    have := (hGb j).1
    simp only [hw]
    linarith
  have hlim := tendsto_atTop_ciSup hmono hbdd
  set L := ⨆ i, w i with hL
  rw [settleSlack_eq]
  have lo0 : ∀ j, v (j + 1) - w j = G (j + 1) := fun j => by simp only [hw]; ring
  refine ⟨L, fun ε hε => ?_⟩
  obtain ⟨N, hN⟩ := Metric.tendsto_atTop.1 hlim (ε / 2) (half_pos hε)
  have hlo : 0 ≤ slackLo M0.K M0.B M0.data := mul_nonneg (by norm_num) (List.sum_nonneg fun x hx => by
    obtain ⟨D, _, rfl⟩ := List.mem_map.1 hx
    exact sum_nonneg fun _ _ => sum_nonneg fun _ _ => by positivity)
  have hup : 0 ≤ slackUp M0.K M0.B M0.data := mul_nonneg (by norm_num) (List.sum_nonneg fun x hx => by
    obtain ⟨D, hD, rfl⟩ := List.mem_map.1 hx
    refine sum_nonneg fun _ _ => sum_nonneg fun t _ => mul_nonneg (by positivity) (sum_nonneg fun i _ => sum_nonneg fun b _ => ?_)
    have := (g.data.2 D hD).2 t i b
    split_ifs <;> positivity)
  refine ⟨N + 1, fun j hj => ?_⟩
  obtain ⟨j, rfl⟩ := Nat.exists_eq_succ_of_ne_zero (show j ≠ 0 by omega)
  have key : ∀ i ≥ N, |w i - L| < ε / 2 := fun i hi => by have := hN i hi; rwa [Real.dist_eq] at this
  have kj := abs_lt.1 (key j (by omega))
  refine ⟨?_, fun i hi => ?_⟩
  · rw [abs_le]
    have := hGb j
    have := lo0 j
    constructor <;> linarith
  · obtain ⟨i, rfl⟩ := Nat.exists_eq_succ_of_ne_zero (show i ≠ 0 by omega)
    have ki := abs_lt.1 (key i (by omega))
    rw [abs_le]
    have := hGb j
    have := hGb i
    have := lo0 j
    have := lo0 i
    constructor <;> linarith

/-- **C110 (partial).** Mean-field inference with an Erdos-Renyi network with a gamma prior on the weight scale, self connections allowed, no certain or impossible edge, bins of unit length, data stored by
`add_data`. After every history of legal mean-field calls, call `meanfield_coordinate_descent_step()` again and again: every call succeeds, `get_vlb()` is a finite number after every call, and there is
one number `L` such that for every tolerance the values eventually stay within that tolerance plus `settleSlack` of `L`, and of each other. `settleSlack` is the size of the guards (`1e-32` per event and
possible parent, weighted by inverse filtered counts) and depends on the data alone. So a fit that stops when the bound changes by less than a tolerance above it, terminates.
Missing, because false of the single step (`C55_bias_update_violated`, `C79_label_update_violated`): other bin lengths, several blocks. -/
theorem C110_bound_settles_partial (huge : ℝ) (M0 : MFModel) (g : MFGood M0) (hK : 0 < M0.K) (hB : 0 < M0.B) (n0 : ERFixed) (hn0 : M0.net = .er n0)
    (hI : Interior M0.K M0.net) (hdt : M0.bias.dt = 1) (hd : ∀ D ∈ M0.data, D.EZ = none ∧ ∀ t k, D.S t k < 2 ^ 32)
    (hF : FilteredFromEvents M0.K M0.B M0.data) (acts : List MFAct) (hl : ∀ a ∈ acts, a.Legal M0) :
    ∃ v : ℕ → ℝ, (∀ j, ∃ M, runActs (acts ++ List.replicate j .coord) M0 = .ok M ∧ M.vlb huge = .ok (.fin (v j))) ∧
      ∃ L, ∀ ε > 0, ∃ N, ∀ j ≥ N, |v j - L| ≤ settleSlack M0.K M0.B M0.data + ε ∧ ∀ i ≥ N, |v j - v i| ≤ settleSlack M0.K M0.B M0.data + ε := by
  have hP0 := hI
  rw [hn0] at hP0
  have hgn := g.net
  rw [hn0] at hgn
  obtain ⟨gK, gk, _, al, be, a0, b0, h1, h2, h3, p1, p2, p3, p4⟩ := hgn
  have hs0 : n0.allowSelf = true := by
    have := (Interior.logs hI (MFInv.refl g).net hK hK).2.2
    rw [hn0] at this
    show (MFNet.er n0).allowSelf = true
    simpa using this
  let n : ERFixed := { n0 with v := 1 }
  let c : HawkesState :=
    { base := { K := M0.K, B := M0.B, dt := 1, lam0 := fun _ => 1, Weff := fun _ _ => 1, g := fun _ _ _ => 1, L := 0, basis := fun _ _ => 0 }
      alpha := M0.bias.alpha, beta := M0.bias.beta, gamma := M0.imp.gamma, net := .er n, A := fun _ _ => 1, W := fun _ _ => 1, data := M0.data }
  have sh : SharedSettings M0 c n := ⟨rfl, rfl, rfl, rfl, rfl, n0, hn0, rfl, rfl, al, be, a0, b0, h1, h2, h1, h2, h3, p1, p2, p3, p4⟩
  have hcfg : CfgOk c n := by
    refine ⟨hB, fun D hD => ⟨fun t _ k _ b _ => (g.data.2 D hD).2 t k b, fun t _ k _ => (hd D hD).2 t k⟩, ⟨g.bias.1, g.bias.2.1, fun b hb => (g.imp b hb).1, one_pos, fun l hl => absurd hl (Nat.not_lt_zero _)⟩, ?_⟩
    refine ⟨gK, ?_, gk, one_pos, ?_⟩
    · have := hP0 0 hK 0 hK
      simp [ERFixed.P, hs0] at this
      exact ⟨this.1.le, this.2.le⟩
    · refine ⟨fun a ha => ?_, fun b hb => ?_⟩
      · have ha : n0.alpha = some a := ha
        rw [h1] at ha; cases ha; exact p1.le
      · have hb : n0.beta = some b := hb
        rw [h2] at hb; cases hb; exact p2.le
  exact settles_core huge M0 g hK hI (by rw [hn0]; exact fun n => MFNet.noConfusion) hd (fun M x1 h hD hx1 => er_globals_ascent huge g hK hB hn0 hI hdt h hD hx1)
    (fun acts hl hc => C103_lower_bound_partial huge g hK sh hcfg hF le_rfl hP0 (List.forall₂_same.2 fun D _ => ⟨rfl, rfl, rfl⟩) hd acts hl hc) acts hl

/-- the hypotheses are met by two processes with two events each, after a coordinate step, a stochastic step and another coordinate step; the values settle to within `1e-30` plus the tolerance -/
theorem C110_demo_partial : ∃ v : ℕ → ℝ, (∀ j, ∃ M, runActs ([.coord, .sgd 1 (1 / 2), .coord] ++ List.replicate j .coord) exER = .ok M ∧ M.vlb 1 = .ok (.fin (v j))) ∧
    ∃ L, ∀ ε > 0, ∃ N, ∀ j ≥ N, |v j - L| ≤ 1e-30 + ε ∧ ∀ i ≥ N, |v j - v i| ≤ 1e-30 + ε := by
  have hK : exER.K = 2 := by simp [exER, exMF', exMF]
  have hB : exER.B = 1 := by simp [exER, exMF', exMF]
  obtain ⟨v, h1, L, h2⟩ := C110_bound_settles_partial 1 exER exER_good (by rw [hK]; norm_num) (by rw [hB]; norm_num) _ rfl exER_interior rfl exER_data (by
    intro D hD t ht i hi b hb hne
    have e := List.mem_singleton.1 hD
    rw [e] at ht
    exact ⟨_, List.mem_singleton.2 rfl, t, ht, one_ne_zero⟩) [.coord, .sgd 1 (1 / 2), .coord] (by
    intro a ha
    have h : exER.data.length = 1 := rfl
    simp only [List.mem_cons, List.not_mem_nil, or_false] at ha
    rcases ha with rfl | rfl | rfl
    · trivial
    · exact ⟨by norm_num, by norm_num, by norm_num, fun h => by norm_num at h, h⟩
    · trivial)
  have hs : settleSlack exER.K exER.B exER.data ≤ 1e-30 := by
    rw [hK, hB]
    simp [settleSlack, exER]
    norm_num
  refine ⟨v, h1, L, fun ε hε => ?_⟩
  obtain ⟨N, hN⟩ := h2 ε hε
  refine ⟨N, fun j hj => ⟨?_, fun i hi => ?_⟩⟩
  · linarith [(hN j hj).1]
  · linarith [(hN j hj).2 i hi]

end PyHawkes
