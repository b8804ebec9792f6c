import Verif.Props.VLBReach
import Mathlib.Data.Finset.Option

/-! # C79: the parent update decreases the bound by at most terms of order `1e-32`; a whole coordinate step with an Erdos-Renyi network -/
set_option linter.unusedSectionVars false
set_option linter.unusedVariables false

namespace PyHawkes
open Finset MeasureTheory ProbabilityTheory Spec

/-- the guarded objective of a probability vector never exceeds the log normaliser -/
theorem guarded_le {ι : Type*} (S : Finset ι) (q a : ι → ℝ) {ε : ℝ} (hε : 0 < ε) (hq : ∀ c ∈ S, 0 ≤ q c) (h1 : ∑ c ∈ S, q c = 1) (ha : ∀ c ∈ S, 0 < a c) :
    ∑ c ∈ S, q c * (Real.log (a c) - Real.log (q c + ε)) ≤ Real.log (∑ c ∈ S, a c) := by
  have hne : S.Nonempty := by
    rw [nonempty_iff_ne_empty]; rintro rfl; simp at h1
  set A := ∑ c ∈ S, a c with hA
  have hA0 : 0 < A := sum_pos ha hne
  have key : ∀ c ∈ S, q c * (Real.log (a c) - Real.log (q c + ε)) ≤ q c * Real.log A + (a c / A - q c) := by
    intro c hc
    have q0 := hq c hc
    have a0 := ha c hc
    have hp : 0 < a c / (A * (q c + ε)) := by positivity
    have := Real.log_le_sub_one_of_pos hp
    rw [Real.log_div a0.ne' (by positivity), Real.log_mul hA0.ne' (by positivity)] at this
    have h2 := mul_le_mul_of_nonneg_left this q0
    have h3 : q c * (a c / (A * (q c + ε))) ≤ a c / A := by
      rw [← mul_div_assoc, div_le_div_iff₀ (by positivity) hA0]
      nlinarith [mul_pos a0 hA0, mul_pos (mul_pos a0 hA0) hε]
    nlinarith
  calc _ ≤ ∑ c ∈ S, (q c * Real.log A + (a c / A - q c)) := sum_le_sum key
    _ = Real.log A := by
      rw [sum_add_distrib, sum_sub_distrib, ← sum_mul, ← sum_div, h1, ← hA, div_self hA0.ne']; ring

/-- the normalised weights attain the log normaliser up to `ε` per column -/
theorem guarded_ge {ι : Type*} (S : Finset ι) (e a : ι → ℝ) {ε U : ℝ} (hε : 0 < ε) (he : ∀ c ∈ S, 0 ≤ e c) (hU : ∑ c ∈ S, e c = U) (hU0 : 0 < U)
    (ha : ∀ c ∈ S, e c ≤ a c) :
    Real.log U - S.card * ε ≤ ∑ c ∈ S, e c / U * (Real.log (a c) - Real.log (e c / U + ε)) := by
  have key : ∀ c ∈ S, e c / U * Real.log U - ε ≤ e c / U * (Real.log (a c) - Real.log (e c / U + ε)) := by
    intro c hc
    rcases (he c hc).eq_or_lt with h | h
    · rw [← h]; simp; exact hε.le
    · have q0 : 0 < e c / U := by positivity
      have l1 : Real.log (e c) ≤ Real.log (a c) := Real.log_le_log h (ha c hc)
      have l2 : Real.log (e c) = Real.log (e c / U) + Real.log U := by
        rw [← Real.log_mul q0.ne' hU0.ne', div_mul_cancel₀ _ hU0.ne']
      have l3 : Real.log (e c / U + ε) ≤ Real.log (e c / U) + ε / (e c / U) := by
        have hp : 0 < (e c / U + ε) / (e c / U) := by positivity
        have := Real.log_le_sub_one_of_pos hp
        rw [Real.log_div (by positivity) q0.ne'] at this
        have e1 : (e c / U + ε) / (e c / U) = 1 + ε / (e c / U) := by field_simp
        rw [e1] at this
        linarith
      have l4 : e c / U * (ε / (e c / U)) = ε := mul_div_cancel₀ _ q0.ne'
      have := mul_le_mul_of_nonneg_left (show Real.log U - ε / (e c / U) ≤ Real.log (a c) - Real.log (e c / U + ε) by linarith) q0.le
      rw [mul_sub, l4] at this
      exact this
  have := sum_le_sum key
  rw [sum_sub_distrib, ← sum_mul, ← sum_div, hU, div_self hU0.ne', one_mul, sum_const, nsmul_eq_mul] at this
  exact this

/-- the bound of one event bin as a real number -/
noncomputable def rowR (K B k2 : ℕ) (elnL : Vec ℝ) (lw : Mat ℝ) (elng : Ten ℝ) (z : Vec ℝ) (s : ℕ) (f : Mat ℝ) : ℝ :=
  z 0 * (elnL k2 - Real.log (z 0 / s + 1e-32)) + ∑ k1 ∈ range K, ∑ b ∈ range B,
    z (1 + k1 * B + b) * (Real.log (f k1 b + 1e-32) + lw k1 k2 + elng k1 k2 b - Real.log (z (1 + k1 * B + b) / s + 1e-32))

theorem row_fin (K B k2 : ℕ) (elnL : Vec ℝ) (lw : Mat ℝ) (elng : Ten ℝ) {z : Vec ℝ} {s : ℕ} {f : Mat ℝ} (hs : s ≠ 0) (hz : ∀ j, 0 ≤ z j) (hf : ∀ k b, 0 ≤ f k b) :
    mfVlbRow K B k2 elnL (fun i j => .fin (lw i j)) elng z s f = .fin (rowR K B k2 elnL lw elng z s f) := by
  rw [mfVlbRow_eq]
  have hl : ∀ j, logRatio (z j) s = .fin (Real.log (z j / s + 1e-32)) := by
    intro j
    have := hz j
    rw [logRatio, if_neg hs, FX.log_pos (by positivity)]
  have hc : ∀ k1 b, (.fin (z (1 + k1 * B + b)) * (FX.log (f k1 b + 1e-32) + .fin (lw k1 k2) + .fin (elng k1 k2 b))
        + .fin (-z (1 + k1 * B + b)) * logRatio (z (1 + k1 * B + b)) s : FX)
      = .fin (z (1 + k1 * B + b) * (Real.log (f k1 b + 1e-32) + lw k1 k2 + elng k1 k2 b - Real.log (z (1 + k1 * B + b) / s + 1e-32))) := by
    intro k1 b
    have := hf k1 b
    rw [hl, FX.log_pos (by positivity)]
    show FX.fin _ = FX.fin _
    congr 1
    ring
  simp only [hc]
  rw [hl 0, sum_congr rfl fun k1 _ => fin_sum_range B _, fin_sum_range]
  show FX.fin _ = FX.fin _
  congr 1
  unfold rowR
  ring

/-- columns of a row of expected parents: `none` is the background, `some (k1, b)` the column `1 + k1*B + b` -/
def colOf (B : ℕ) : Option (ℕ × ℕ) → ℕ
  | none => 0
  | some p => 1 + p.1 * B + p.2

/-- the expected parents of one event bin are shares of its count -/
def RowSum (K B : ℕ) (z : Vec ℝ) (s : ℕ) : Prop := z 0 + ∑ k1 ∈ range K, ∑ b ∈ range B, z (1 + k1 * B + b) = s

/-- `exp` of the expected log rates, without and with the guard added to the filtered counts -/
noncomputable def rowE (k2 : ℕ) (elnL : Vec ℝ) (lw : Mat ℝ) (elng : Ten ℝ) (f : Mat ℝ) (ε : ℝ) : Option (ℕ × ℕ) → ℝ
  | none => Real.exp (elnL k2)
  | some p => (f p.1 p.2 + ε) * Real.exp (lw p.1 k2) * Real.exp (elng p.1 k2 p.2)

theorem sum_cols (K B : ℕ) (g : Option (ℕ × ℕ) → ℝ) :
    ∑ c ∈ insertNone (range K ×ˢ range B), g c = g none + ∑ k1 ∈ range K, ∑ b ∈ range B, g (some (k1, b)) := by
  rw [sum_insertNone, sum_product]

theorem rowR_eq (K B k2 : ℕ) (elnL : Vec ℝ) (lw : Mat ℝ) (elng : Ten ℝ) (z : Vec ℝ) {s : ℕ} {f : Mat ℝ} (hs : s ≠ 0) (hf : ∀ k b, 0 ≤ f k b) :
    rowR K B k2 elnL lw elng z s f = s * ∑ c ∈ insertNone (range K ×ˢ range B), z (colOf B c) / s *
      (Real.log (rowE k2 elnL lw elng f 1e-32 c) - Real.log (z (colOf B c) / s + 1e-32)) := by
  have s0 : (s:ℝ) ≠ 0 := Nat.cast_ne_zero.2 hs
  rw [mul_sum]
  have e : ∀ c, (s:ℝ) * (z (colOf B c) / s * (Real.log (rowE k2 elnL lw elng f 1e-32 c) - Real.log (z (colOf B c) / s + 1e-32)))
      = z (colOf B c) * (Real.log (rowE k2 elnL lw elng f 1e-32 c) - Real.log (z (colOf B c) / s + 1e-32)) := by
    intro c; rw [← mul_assoc, mul_div_cancel₀ _ s0]
  rw [sum_congr rfl fun c _ => e c, sum_cols]
  unfold rowR
  simp only [colOf, rowE, Real.log_exp]
  congr 1
  refine sum_congr rfl fun k1 _ => sum_congr rfl fun b _ => ?_
  have := hf k1 b
  rw [Real.log_mul (by positivity) (Real.exp_pos _).ne', Real.log_mul (by positivity) (Real.exp_pos _).ne', Real.log_exp, Real.log_exp]

/-- loss allowed per event: the guard times one plus the number of columns, plus the ratio of the total weight to the background -/
noncomputable def guardLoss (K B k2 : ℕ) (elnL : Vec ℝ) (lw : Mat ℝ) (elng : Ten ℝ) : ℝ :=
  1e-32 * (1 + K * B + (∑ k1 ∈ range K, ∑ b ∈ range B, Real.exp (lw k1 k2) * Real.exp (elng k1 k2 b)) / Real.exp (elnL k2))

theorem row_ascent (K B k2 : ℕ) (elnL : Vec ℝ) (lw : Mat ℝ) (elng : Ten ℝ) {z : Vec ℝ} {s : ℕ} {f : Mat ℝ} (hs : s ≠ 0) (hz : ∀ j, 0 ≤ z j) (hf : ∀ k b, 0 ≤ f k b)
    (hsum : RowSum K B z s) :
    rowR K B k2 elnL lw elng z s f - s * guardLoss K B k2 elnL lw elng
      ≤ rowR K B k2 elnL lw elng (mfRowPy K B (Real.exp (elnL k2)) (fun k1 => Real.exp (lw k1 k2)) (fun k1 b => Real.exp (elng k1 k2 b)) s f) s f := by
  have s0 : (0:ℝ) < s := Nat.cast_pos.2 (Nat.pos_of_ne_zero hs)
  have hε : (0:ℝ) < 1e-32 := by norm_num
  rw [rowR_eq K B k2 elnL lw elng z hs hf, rowR_eq K B k2 elnL lw elng _ hs hf]
  set S := insertNone (range K ×ˢ range B) with hS
  set e := rowE k2 elnL lw elng f 0 with he
  set a := rowE k2 elnL lw elng f 1e-32 with haa
  set G := ∑ k1 ∈ range K, ∑ b ∈ range B, Real.exp (lw k1 k2) * Real.exp (elng k1 k2 b) with hG
  have G0 : 0 ≤ G := sum_nonneg fun _ _ => sum_nonneg fun _ _ => (mul_pos (Real.exp_pos _) (Real.exp_pos _)).le
  have e0 : ∀ c, 0 ≤ e c := by
    intro c
    cases c with
    | none => exact (Real.exp_pos _).le
    | some p => have := hf p.1 p.2; simp only [he, rowE, add_zero]; positivity
  have a0 : ∀ c, 0 < a c := by
    intro c
    cases c with
    | none => exact Real.exp_pos _
    | some p => have := hf p.1 p.2; simp only [haa, rowE]; positivity
  have ea : ∀ c, e c ≤ a c := by
    intro c
    cases c with
    | none => exact le_rfl
    | some p =>
      simp only [he, haa, rowE]
      have h1 := Real.exp_pos (lw p.1 k2)
      have h2 := Real.exp_pos (elng p.1 k2 p.2)
      gcongr
  set U := ∑ c ∈ S, e c with hU
  have hUL : Real.exp (elnL k2) ≤ U := by
    have : none ∈ S := by simp [hS]
    exact single_le_sum (f := e) (fun c _ => e0 c) this
  have U0 : 0 < U := lt_of_lt_of_le (Real.exp_pos _) hUL
  have hA : ∑ c ∈ S, a c = U + 1e-32 * G := by
    rw [hU, hS, sum_cols, sum_cols, add_assoc]
    congr 1
    rw [hG, mul_sum, ← sum_add_distrib]
    refine sum_congr rfl fun k1 _ => ?_
    rw [mul_sum, ← sum_add_distrib]
    refine sum_congr rfl fun b _ => ?_
    simp only [he, haa, rowE]; ring
  have hold := guarded_le S (fun c => z (colOf B c) / s) a hε (fun c _ => div_nonneg (hz _) s0.le) (by
    rw [← sum_div, hS, sum_cols]
    simp only [colOf]
    rw [show z 0 + ∑ k1 ∈ range K, ∑ b ∈ range B, z (1 + k1 * B + b) = s from hsum, div_self s0.ne']) (fun c _ => a0 c)
  have hnew := guarded_ge S e a hε (fun c _ => e0 c) hU.symm U0 (fun c _ => ea c)
  have hq : ∀ c ∈ S, mfRowPy K B (Real.exp (elnL k2)) (fun k1 => Real.exp (lw k1 k2)) (fun k1 b => Real.exp (elng k1 k2 b)) s f (colOf B c) / s = e c / U := by
    intro c hc
    have hUe : U = Real.exp (elnL k2) + ∑ j ∈ range K, ∑ c ∈ range B, f j c * Real.exp (lw j k2) * Real.exp (elng j k2 c) := by
      rw [hU, hS, sum_cols]; simp only [he, rowE, add_zero]
    cases c with
    | none => simp only [colOf]; rw [mfRowPy_zero, ← hUe, mul_div_cancel_right₀ _ s0.ne']; rfl
    | some p =>
      have hb : p.2 < B := by simp [hS] at hc; exact hc.2
      simp only [colOf]
      rw [mfRowPy_col _ _ _ _ _ _ _ _ _ hb, ← hUe, mul_div_cancel_right₀ _ s0.ne']
      simp only [he, rowE, add_zero]
  have hR : ∑ c ∈ S, mfRowPy K B (Real.exp (elnL k2)) (fun k1 => Real.exp (lw k1 k2)) (fun k1 b => Real.exp (elng k1 k2 b)) s f (colOf B c) / s *
        (Real.log (a c) - Real.log (mfRowPy K B (Real.exp (elnL k2)) (fun k1 => Real.exp (lw k1 k2)) (fun k1 b => Real.exp (elng k1 k2 b)) s f (colOf B c) / s + 1e-32))
      = ∑ c ∈ S, e c / U * (Real.log (a c) - Real.log (e c / U + 1e-32)) := sum_congr rfl fun c hc => by rw [hq c hc]
  rw [hR]
  have hcard : (S.card : ℝ) = 1 + K * B := by
    rw [hS, card_insertNone, card_product, card_range, card_range]; push_cast; ring
  rw [hcard] at hnew
  rw [hA] at hold
  have hlog : Real.log (U + 1e-32 * G) ≤ Real.log U + 1e-32 * (G / Real.exp (elnL k2)) := by
    have hp : 0 < (U + 1e-32 * G) / U := by positivity
    have := Real.log_le_sub_one_of_pos hp
    rw [Real.log_div (by positivity) U0.ne', add_div, div_self U0.ne', mul_div_assoc] at this
    have : G / U ≤ G / Real.exp (elnL k2) := div_le_div_of_nonneg_left G0 (Real.exp_pos _) hUL
    nlinarith
  unfold guardLoss
  rw [← mul_sub]
  refine mul_le_mul_of_nonneg_left ?_ s0.le
  rw [← hG]
  linarith

theorem list_fin_sum {α : Type*} (l : List α) (f : α → ℝ) : (l.map fun a => FX.fin (f a)).sum = .fin (l.map f).sum := by
  induction l with
  | nil => rfl
  | cons a l ih => rw [List.map_cons, List.sum_cons, ih, List.map_cons, List.sum_cons, FX.fin_add]

/-- the part of the bound of one data set that does not depend on the expected parents -/
noncomputable def dataConst (M : MFModel) (D : DParents ℝ) (k : ℕ) : ℝ :=
  forRange M.K (fun k1 v => v + -(D.Ns k1 : ℝ) * M.w.wR k1 k) (0 + -(D.T : ℝ) * M.bias.eLam k)

/-- the bound of one data set as a real number -/
theorem parentsVlb_value (M : MFModel) (hs : M.net.allowSelf = true) {D : DParents ℝ} (hE : EZPos D) (hfit : Fits D) (hF : ∀ t k b, 0 ≤ D.F t k b) :
    M.parentsVlb D = .fin (((List.range M.K).map fun k => dataConst M D k
      + (((D.getEZ k).zip ((D.Ss k).zip (D.Fs k))).map fun r => rowR M.K M.B k M.bias.eLnLam M.w.lnWR (M.imp.eLnG M.B) r.1 r.2.1 r.2.2).sum).sum) := by
  unfold MFModel.parentsVlb
  rw [hs, eLnW_true, eW_true, FX.sum_eq, ← list_fin_sum]
  congr 1
  refine List.map_congr_left fun k _ => ?_
  unfold mfVlbFX
  dsimp only
  rw [FX.sum_eq]
  have : ((D.getEZ k).zip ((D.Ss k).zip (D.Fs k))).map (fun r => mfVlbRow M.K M.B k M.bias.eLnLam (fun i j => .fin (M.w.lnWR i j)) (M.imp.eLnG M.B) r.1 r.2.1 r.2.2)
      = ((D.getEZ k).zip ((D.Ss k).zip (D.Fs k))).map (fun r => FX.fin (rowR M.K M.B k M.bias.eLnLam M.w.lnWR (M.imp.eLnG M.B) r.1 r.2.1 r.2.2)) := by
    refine List.map_congr_left fun r hr => ?_
    have hz := hE k r.1 (List.of_mem_zip hr).1
    have hr2 := (List.of_mem_zip hr).2
    have hs' := Ss_ne_zero hfit (List.of_mem_zip hr2).1
    have hf := (List.of_mem_zip hr2).2
    simp only [DParents.Fs, List.mem_map] at hf
    obtain ⟨t, _, hf⟩ := hf
    exact row_fin _ _ _ _ _ _ hs' hz (fun a b => hf ▸ hF t a b)
  rw [this, list_fin_sum, FX.fin_add]
  rfl

/-- the expected parents of every event bin add up to its count -/
def EZSum (K B : ℕ) (D : DParents ℝ) : Prop := ∀ k < K, ∀ p ∈ (D.getEZ k).zip (D.Ss k), RowSum K B p.1 p.2

theorem zip_le {α β : Type*} {l : List α} {m : List β} (hl : l.length = m.length) (F : α → β → ℝ) (c G : β → ℝ)
    (h : ∀ r ∈ l.zip m, F r.1 r.2 - c r.2 ≤ G r.2) : ((l.zip m).map fun r => F r.1 r.2).sum - (m.map c).sum ≤ (m.map G).sum := by
  induction l generalizing m with
  | nil => cases m with
    | nil => simp
    | cons b m => simp at hl
  | cons a l ih => cases m with
    | nil => simp at hl
    | cons b m =>
      have h1 := h (a, b) (by simp)
      have h2 := ih (m := m) (by simpa using hl) (fun r hr => h r (by simp [hr]))
      simp only [List.zip_cons_cons, List.map_cons, List.sum_cons]
      dsimp only at h1
      linarith

theorem updateParents_EZ (M : MFModel) (hs : M.net.allowSelf = true) (D : DParents ℝ) (k : ℕ) :
    (M.updateParents D).getEZ k = ((D.Ss k).zip (D.Fs k)).map fun p =>
      mfRowPy M.K M.B (Real.exp (M.bias.eLnLam k)) (fun k1 => Real.exp (M.w.lnWR k1 k)) (fun k1 b => Real.exp (M.imp.eLnG M.B k1 k b)) p.1 p.2 := by
  simp only [MFModel.updateParents, mfUpdateParents, DParents.getEZ, hs]
  refine List.map_congr_left fun p _ => ?_
  congr 1

theorem zip_map_self {α β : Type*} (l : List α) (g : α → β) : (l.map g).zip l = l.map fun a => (g a, a) := by
  induction l with
  | nil => rfl
  | cons a l ih => simp [ih]

/-- loss of one data set: events of each process times the loss per event -/
noncomputable def dataLoss (M : MFModel) (D : DParents ℝ) : ℝ :=
  ∑ k ∈ range M.K, (D.Ns k : ℝ) * guardLoss M.K M.B k M.bias.eLnLam M.w.lnWR (M.imp.eLnG M.B)

theorem Ss_sum {D : DParents ℝ} (h : Fits D) (k : ℕ) (c : ℝ) : (((D.Ss k).zip (D.Fs k)).map fun p => (p.1 : ℝ) * c).sum = D.Ns k * c := by
  have e : ((D.Ss k).zip (D.Fs k)).map (fun p => (p.1 : ℝ) * c) = (D.ts k).map fun t => (D.S t k : ℝ) * c := by
    have : (D.Ss k).zip (D.Fs k) = (D.ts k).map fun t => (toU32 (D.S t k), D.F t) := by
      simp only [DParents.Ss, DParents.Fs]
      induction D.ts k with
      | nil => rfl
      | cons t l ih => simp [ih]
    rw [this, List.map_map]
    refine List.map_congr_left fun t _ => ?_
    have : toU32 (D.S t k) = D.S t k := Nat.mod_eq_of_lt (h t k)
    simp [this]
  rw [e]
  unfold DParents.Ns
  induction D.ts k with
  | nil => simp
  | cons t l ih => rw [List.map_cons, List.sum_cons, ih, List.map_cons, List.sum_cons]; push_cast; ring

theorem data_ascent (M : MFModel) (hs : M.net.allowSelf = true) {D : DParents ℝ} (hD : DataOk D) (hsum : EZSum M.K M.B D) :
    ∃ x y, M.parentsVlb D = .fin x ∧ M.parentsVlb (M.updateParents D) = .fin y ∧ x - dataLoss M D ≤ y := by
  have hU := hD.update M
  refine ⟨_, _, parentsVlb_value M hs hD.1 hD.2.2.1 hD.2.2.2, parentsVlb_value M hs hU.1 hU.2.2.1 hU.2.2.2, ?_⟩
  have hc : ∀ k, dataConst M (M.updateParents D) k = dataConst M D k := fun _ => rfl
  have hS : ∀ k, (M.updateParents D).Ss k = D.Ss k := fun _ => rfl
  have hF : ∀ k, (M.updateParents D).Fs k = D.Fs k := fun _ => rfl
  rw [list_range_sum, list_range_sum, dataLoss, ← sum_sub_distrib]
  refine sum_le_sum fun k hk => ?_
  have hk := mem_range.1 hk
  rw [hc, hS, hF, updateParents_EZ M hs, zip_map_self, List.map_map]
  have hlen : (D.getEZ k).length = ((D.Ss k).zip (D.Fs k)).length := by
    rw [hD.2.1 k]; simp [DParents.Ss, DParents.Fs]
  have := zip_le hlen (fun z p => rowR M.K M.B k M.bias.eLnLam M.w.lnWR (M.imp.eLnG M.B) z p.1 p.2)
    (fun p => (p.1 : ℝ) * guardLoss M.K M.B k M.bias.eLnLam M.w.lnWR (M.imp.eLnG M.B))
    (fun p => rowR M.K M.B k M.bias.eLnLam M.w.lnWR (M.imp.eLnG M.B)
      (mfRowPy M.K M.B (Real.exp (M.bias.eLnLam k)) (fun k1 => Real.exp (M.w.lnWR k1 k)) (fun k1 b => Real.exp (M.imp.eLnG M.B k1 k b)) p.1 p.2) p.1 p.2) (by
    intro r hr
    have hz := hD.1 k r.1 (List.of_mem_zip hr).1
    have hr2 := (List.of_mem_zip hr).2
    have hs' := Ss_ne_zero hD.2.2.1 (List.of_mem_zip hr2).1
    have hf := (List.of_mem_zip hr2).2
    simp only [DParents.Fs, List.mem_map] at hf
    obtain ⟨t, _, hf⟩ := hf
    refine row_ascent _ _ _ _ _ _ hs' hz (fun a b => hf ▸ hD.2.2.2 t a b) (hsum k hk (r.1, r.2.1) ?_)
    have e : (D.getEZ k).zip (D.Ss k) = ((D.getEZ k).zip ((D.Ss k).zip (D.Fs k))).map fun r => (r.1, r.2.1) := by
      have hl2 : (D.Ss k).length = (D.Fs k).length := by simp [DParents.Ss, DParents.Fs]
      conv_lhs => rw [← List.map_fst_zip (l₁ := D.Ss k) (l₂ := D.Fs k) hl2.le]
      rw [List.zip_map_right]
      rfl
    rw [e]
    exact List.mem_map.2 ⟨r, hr, rfl⟩)
  rw [Ss_sum hD.2.2.1] at this
  have e2 : ((fun r : Vec ℝ × ℕ × Mat ℝ => rowR M.K M.B k M.bias.eLnLam M.w.lnWR (M.imp.eLnG M.B) r.1 r.2.1 r.2.2) ∘ fun p : ℕ × Mat ℝ =>
      (mfRowPy M.K M.B (Real.exp (M.bias.eLnLam k)) (fun k1 => Real.exp (M.w.lnWR k1 k)) (fun k1 b => Real.exp (M.imp.eLnG M.B k1 k b)) p.1 p.2, p))
    = fun p : ℕ × Mat ℝ => rowR M.K M.B k M.bias.eLnLam M.w.lnWR (M.imp.eLnG M.B)
      (mfRowPy M.K M.B (Real.exp (M.bias.eLnLam k)) (fun k1 => Real.exp (M.w.lnWR k1 k)) (fun k1 b => Real.exp (M.imp.eLnG M.B k1 k b)) p.1 p.2) p.1 p.2 := rfl
  rw [e2]
  linarith

/-- the parent update leaves expected parents that add up to the counts -/
theorem EZSum_update (M : MFModel) (hs : M.net.allowSelf = true) {D : DParents ℝ} (hF : ∀ t k b, 0 ≤ D.F t k b) : EZSum M.K M.B (M.updateParents D) := by
  intro k hk p hp
  have hS : (M.updateParents D).Ss k = D.Ss k := rfl
  rw [hS, updateParents_EZ M hs] at hp
  have hl2 : (D.Ss k).length = (D.Fs k).length := by simp [DParents.Ss, DParents.Fs]
  have e : ((D.Ss k).zip (D.Fs k)).map Prod.fst = D.Ss k := List.map_fst_zip hl2.le
  have e3 : (((D.Ss k).zip (D.Fs k)).map fun p =>
      mfRowPy M.K M.B (Real.exp (M.bias.eLnLam k)) (fun k1 => Real.exp (M.w.lnWR k1 k)) (fun k1 b => Real.exp (M.imp.eLnG M.B k1 k b)) p.1 p.2).zip (D.Ss k)
    = (((D.Ss k).zip (D.Fs k)).map fun p =>
      mfRowPy M.K M.B (Real.exp (M.bias.eLnLam k)) (fun k1 => Real.exp (M.w.lnWR k1 k)) (fun k1 b => Real.exp (M.imp.eLnG M.B k1 k b)) p.1 p.2).zip
        (((D.Ss k).zip (D.Fs k)).map Prod.fst) := by rw [e]
  rw [e3, List.zip_map', List.mem_map] at hp
  obtain ⟨q, hq, rfl⟩ := hp
  have hf := (List.of_mem_zip hq).2
  simp only [DParents.Fs, List.mem_map] at hf
  obtain ⟨t, _, hf⟩ := hf
  exact (C14_rows_sum M.K M.B _ _ _ (q.1 : ℝ) q.2 (Real.exp_pos _) (fun _ _ => (Real.exp_pos _).le) (fun _ _ _ _ => (Real.exp_pos _).le)
    (fun a _ b _ => hf ▸ hF t a b) (Nat.cast_nonneg _)).1

/-- **C79 (parents, partial).** When the expected parents of every event bin add up to its count, the parent update leaves a finite bound that is smaller by at most
`1e-32` times, per event, one plus the number of possible parents plus the ratio of total to background weight. (It can be smaller: the code adds `1e-32` inside both
logarithms, while the update maximises the bound without these guards.) -/
theorem C79_parents_update_partial (huge : ℝ) (M : MFModel) (hs : M.net.allowSelf = true) (hD : ∀ D ∈ M.data, DataOk D) (hsum : ∀ D ∈ M.data, EZSum M.K M.B D) {x : ℝ}
    (hx : M.vlb huge = .ok (.fin x)) :
    ∃ y, { M with data := M.data.map M.updateParents }.vlb huge = .ok (.fin y) ∧ x - (M.data.map (dataLoss M)).sum ≤ y := by
  obtain ⟨V, L, y, s, u, h1, h2, h3, h4, h5, rfl⟩ := vlb_parts huge M hx
  have key : ∀ l : List (DParents ℝ), (∀ D ∈ l, DataOk D) → (∀ D ∈ l, EZSum M.K M.B D) →
      ∃ a b, (l.map M.parentsVlb).sum = .fin a ∧ ((l.map M.updateParents).map M.parentsVlb).sum = .fin b ∧ a - (l.map (dataLoss M)).sum ≤ b := by
    intro l
    induction l with
    | nil => exact fun _ _ => ⟨0, 0, rfl, rfl, by simp⟩
    | cons D l ih =>
      intro hD hsum
      obtain ⟨a, b, ea, eb, hab⟩ := ih (fun D' h => hD D' (List.mem_cons_of_mem _ h)) (fun D' h => hsum D' (List.mem_cons_of_mem _ h))
      obtain ⟨a', b', ea', eb', hab'⟩ := data_ascent M hs (hD D List.mem_cons_self) (hsum D List.mem_cons_self)
      refine ⟨a' + a, b' + b, ?_, ?_, ?_⟩
      · rw [List.map_cons, List.sum_cons, ea, ea', FX.fin_add]
      · rw [List.map_cons, List.map_cons, List.sum_cons, eb, eb', FX.fin_add]
      · rw [List.map_cons, List.sum_cons]; linarith
  obtain ⟨a, b, ea, eb, hab⟩ := key M.data hD hsum
  rw [h4] at ea
  cases ea
  have hp : ({ M with data := M.data.map M.updateParents } : MFModel).parentsVlb = M.parentsVlb := rfl
  refine ⟨_, vlb_of_parts huge { M with data := M.data.map M.updateParents } h1 h2 h3 (by rw [hp]; exact eb) h5, ?_⟩
  dsimp only
  linarith

theorem run_sum {M M' : MFModel} {a : MFAct} (hs : M.net.allowSelf = true) (h : a.run M = .ok M') (hd : ∀ D ∈ M.data, DataOk D)
    (hsum : a = .coord ∨ ∀ D ∈ M.data, EZSum M.K M.B D) : ∀ D ∈ M'.data, EZSum M.K M.B D := by
  cases a with
  | coord =>
    simp only [MFAct.run, MFModel.coordStep] at h
    split at h
    · cases h
    · cases h
      intro D hD
      obtain ⟨D', hD', rfl⟩ := List.mem_map.1 hD
      exact EZSum_update M hs (hd D' hD').2.2.2
  | sgd mb s =>
    have hsum := hsum.resolve_left (by simp)
    simp only [MFAct.run, MFModel.sgdStep] at h
    split at h
    · split at h
      · cases h
      · rename_i e
        cases h
        intro D hD
        have := globals_data e
        exact hsum D (by rw [← this]; exact hD)
    · cases h

theorem runActs_step {M0 M : MFModel} {a : MFAct} (g : MFGood M0) (h : MFInv M0 M) (hla : a.Legal M0) : ∃ M', a.run M = .ok M' ∧ MFInv M0 M' := by
  cases a with
  | coord => exact coordInv g h
  | sgd mb s => exact sgdInv g h hla.1 hla.2.1 hla.2.2.1 hla.2.2.2.1 hla.2.2.2.2

/-- after a history that contains a coordinate step the expected parents of every event bin add up to its count -/
theorem runActs_sum (M0 : MFModel) (g : MFGood M0) (hK : 0 < M0.K) (hI : Interior M0.K M0.net) (acts : List MFAct) (hl : ∀ a ∈ acts, a.Legal M0) :
    ∀ {M M' : MFModel}, MFInv M0 M → runActs acts M = .ok M' → (∀ D ∈ M.data, DataOk D) → (.coord ∈ acts ∨ ∀ D ∈ M.data, EZSum M0.K M0.B D) →
      ∀ D ∈ M'.data, EZSum M0.K M0.B D := by
  induction acts with
  | nil =>
    intro M M' _ h _ hs
    cases h
    exact hs.resolve_left (by simp)
  | cons a as ih =>
    intro M M' hM h hd hs
    have hself : M.net.allowSelf = true := by
      have := (Interior.logs hI hM.net hK hK).2.2
      simpa using this
    obtain ⟨M1, e1, h1⟩ := runActs_step g hM (hl a List.mem_cons_self)
    simp only [runActs, e1] at h
    have hd1 := run_data e1 hd
    have hl' : ∀ b ∈ as, b.Legal M0 := fun b hb => hl b (List.mem_cons_of_mem _ hb)
    by_cases hin : MFAct.coord ∈ as
    · exact ih hl' h1 h hd1 (.inl hin)
    · refine ih hl' h1 h hd1 (.inr ?_)
      have := run_sum hself e1 hd (by
        rcases hs with hs | hs
        · rcases List.mem_cons.1 hs with hs | hs
          · exact .inl hs.symm
          · exact absurd hs hin
        · right; rw [hM.K, hM.B]; exact hs)
      rw [hM.K, hM.B] at this
      exact this

theorem MFInv.wPos {M0 M : MFModel} (g : MFGood M0) (h : MFInv M0 M) :
    ∀ i < M.K, ∀ j < M.K, 0 < M.w.mfKappa0 i j ∧ 0 < M.w.mfV0 i j ∧ 0 < M.w.mfKappa1 i j ∧ 0 < M.w.mfV1 i j := by
  intro i hi j hj
  rw [h.K] at hi hj
  have w0 := h.valid.w0 i hi j hj
  have w1 := h.valid.w1 i hi j hj
  have gw := g.wmf i hi j hj
  exact ⟨lt_of_lt_of_le (lt_min gw.1 g.w.1) w0.1, lt_of_lt_of_le (lt_min gw.2.1 g.w.2) w0.2, lt_of_lt_of_le (lt_min gw.2.2.1 (NetGood.kappaPos g.net)) w1.1, w1.2⟩

theorem MFInv.pOpen {M0 M : MFModel} (h : MFInv M0 M) : ∀ i < M.K, ∀ j < M.K, 0 < M.w.mfP i j ∧ M.w.mfP i j < 1 := by
  intro i hi j hj
  have := h.valid.p i (h.K ▸ hi) j (h.K ▸ hj)
  norm_num at this
  exact ⟨by linarith [this.1], by linarith [this.2]⟩

/-- the updates of the coordinate step that follow the parents' update, in any reachable state -/
theorem er_globals_ascent (huge : ℝ) {M0 M : MFModel} (g : MFGood M0) (hK : 0 < M0.K) (hB : 0 < M0.B) {n0 : ERFixed} (hn0 : M0.net = .er n0)
    (hI : Interior M0.K M0.net) (hdt : M0.bias.dt = 1) (h : MFInv M0 M) (hD : ∀ D ∈ M.data, DataOk D) {x1 : ℝ}
    (hx1 : { M with data := M.data.map M.updateParents }.vlb huge = .ok (.fin x1)) :
    ∃ M' y, M.coordStep = .ok M' ∧ M'.vlb huge = .ok (.fin y) ∧ x1 ≤ y := by
  obtain ⟨M', e', h'⟩ := coordInv g h
  have hK' : 0 < M.K := h.K ▸ hK
  have hlog := fun i (hi : i < M.K) j (hj : j < M.K) => Interior.logs hI h.net (h.K ▸ hi) (h.K ▸ hj)
  have hs : M.net.allowSelf = true := by
    have := (hlog 0 hK' 0 hK').2.2
    simpa using this
  have hni := h.net
  have hgn := g.net
  have hI' := hI
  rw [hn0] at hni hgn hI'
  cases hn : M.net with
  | sbm n => rw [hn] at hni; exact hni.elim
  | fixedSparsity n => rw [hn] at hni; exact hni.elim
  | er n =>
  rw [hn] at hni
  obtain ⟨iK, ik, ip, iS, ia, ib, iv⟩ := hni
  obtain ⟨gK, gk, _, al, be, a0, b0, h1, h2, h3, p1, p2, p3, p4⟩ := hgn
  obtain ⟨a, b, hm, ha, hb⟩ := iv al be a0 b0 h1 h2 h3
  have eP : n.P = n0.P := by funext i j; simp [ERFixed.P, iS, ip]
  have hP : ∀ i < M.K, ∀ j < M.K, 0 < n.P i j ∧ n.P i j < 1 := by rw [eP, h.K]; exact hI'
  set dl := M.data.map M.updateParents with hdl
  have hDl : ∀ D ∈ dl, DataOk D := by
    intro D hD'
    obtain ⟨D', hD'', rfl⟩ := List.mem_map.1 hD'
    exact (hD D' hD'').update M
  -- background
  obtain ⟨x2, hx2, le2⟩ := C55_bias_update_ascends_partial huge { M with data := dl } (h.bias.2.2.trans hdt) (h.bias.1 ▸ g.bias.1) (h.bias.2.1 ▸ g.bias.2.1)
    (fun k hk => by
      have v := h.valid.bias k (h.K ▸ hk)
      have gb := g.bias.2.2.2 k (h.K ▸ hk)
      exact ⟨lt_of_lt_of_le (lt_min gb.1 g.bias.1) v.1, lt_of_lt_of_le (lt_min gb.2 g.bias.2.1) v.2⟩) (fun D hD' => (hDl D hD').1) (fun D hD' => (hDl D hD').2.1) hx1
  -- impulse responses
  obtain ⟨x3, hx3, le3⟩ := C55_impulse_update_ascends huge ({ M with data := dl } : MFModel).updateBias (h.B ▸ hB) (fun b hb => by
      show 0 < M.imp.gamma b
      rw [h.gamma]; exact (g.imp b (h.B ▸ hb)).1) (fun i hi j hj b hb => by
      have gi := g.imp b (h.B ▸ hb)
      exact lt_of_lt_of_le (lt_min (gi.2 i (h.K ▸ hi) j (h.K ▸ hj)) gi.1) (h.valid.imp i (h.K ▸ hi) j (h.K ▸ hj) b (h.B ▸ hb)))
      (fun D hD' => (hDl D hD').1) (fun D hD' => (hDl D hD').2.1) hx2
  -- weights
  have hwp := h.wPos g
  obtain ⟨V, L, hV, hL, hv⟩ := h.net.eV g.net
  have hlp : ∀ i < M.K, ∀ j < M.K, M.net.eLnP i j = .fin (Real.log (n.P i j)) ∧ M.net.eLnNotP i j = .fin (Real.log (1 - n.P i j)) := by
    intro i hi j hj
    have := hP i hi j hj
    rw [hn]
    exact ⟨FX.log_pos this.1, FX.log_pos (by linarith [this.2])⟩
  obtain ⟨M4, x4, hu4, hx4, le4⟩ := C79_weights_update_ascends huge (({ M with data := dl } : MFModel).updateBias.updateImp) hs hV
    (lP := fun i j => Real.log (n.P i j)) (lN := fun i j => Real.log (1 - n.P i j)) hlp (by
      show 0 < M.net.kappa
      rw [h.net.kappa]; exact NetGood.kappaPos g.net)
    (fun i hi j hj => hv i (h.K ▸ hi) j (h.K ▸ hj)) (by
      show 0 < M.w.kappa0 ∧ 0 < M.w.nu0
      rw [h.w.1, h.w.2]; exact g.w) hwp (fun i hi j hj => h.valid.p i (h.K ▸ hi) j (h.K ▸ hj)) (fun D hD' => (hDl D hD').1) (fun D hD' => (hDl D hD').2.1) hx3
  have hne : dl ≠ [] := by
    intro hh
    have : M.data.length = 0 := by simpa [hdl] using congrArg List.length hh
    rw [h.len] at this
    exact g.data.1 (List.length_eq_zero_iff.1 this)
  -- the steps of the code
  unfold MFModel.updateWeights at hu4
  have hw4 : (({ M with data := dl } : MFModel).updateBias.updateImp).w.update (({ M with data := dl } : MFModel).updateBias.updateImp).K
      (({ M with data := dl } : MFModel).updateBias.updateImp).B (({ M with data := dl } : MFModel).updateBias.updateImp).net
      (({ M with data := dl } : MFModel).updateBias.updateImp).data 1 1 = M.w.update M.K M.B M.net dl 1 1 := rfl
  rw [hw4] at hu4
  cases hw : M.w.update M.K M.B M.net dl 1 1 with
  | error er => rw [hw] at hu4; cases hu4
  | ok w' =>
  rw [hw] at hu4
  have hM4 := Except.ok.inj hu4
  have hnu : n.mfUpdate w' 1 = .ok { n with mf := some (al + ∑ i ∈ range n.K, ∑ j ∈ range n.K, w'.mfP i j * n.kappa, be + ∑ i ∈ range n.K, ∑ j ∈ range n.K, w'.mfP i j * w'.eWGivenA 1 i j) } := by
    unfold ERFixed.mfUpdate
    rw [ia, ib, h1, h2, hm]
    simp
  have ecs : M.coordStep = .ok { M with bias := M.bias.update dl 1 1, imp := M.imp.update M.B dl 1 1, w := w', net := .er { n with mf := some (al + ∑ i ∈ range n.K, ∑ j ∈ range n.K, w'.mfP i j * n.kappa, be + ∑ i ∈ range n.K, ∑ j ∈ range n.K, w'.mfP i j * w'.eWGivenA 1 i j) }, data := dl } := by
    unfold MFModel.coordStep MFModel.updateGlobals
    rw [← hdl]
    dsimp only
    rw [if_neg hne, hw]
    dsimp only
    rw [hn]
    simp only [MFNet.meanfieldupdate, hnu]
  rw [ecs] at e'
  have hM' := Except.ok.inj e'
  have hwM : M'.w = w' := by rw [← hM']
  have hKM : M'.K = M.K := by rw [← hM']
  -- network
  obtain ⟨n', y, hn', hy, le5⟩ := C79_er_scale_ascends huge (M := M4) (n := n) (by rw [← hM4]; exact hn) (by rw [← hM4]; show n.K = M.K; rw [iK, gK, h.K]) (ia.trans h1) (ib.trans h2) hm p1 p2
    (lt_of_lt_of_le (lt_min p3 p1) ha) (lt_of_lt_of_le (lt_min p4 p2) hb) (ik ▸ gk) (by rw [← hM4]; exact hP)
    (by rw [← hM4]; have := h'.pOpen; rw [hwM, hKM] at this; exact this)
    (by rw [← hM4]; have := h'.wPos g; rw [hwM, hKM] at this; exact fun i hi j hj => (this i hi j hj).2.2) hx4
  have hw4' : M4.w = w' := by rw [← hM4]
  rw [hw4', hnu] at hn'
  have hn'' := Except.ok.inj hn'
  refine ⟨M', y, by rw [ecs, hM'], ?_, by linarith⟩
  rw [← hM', ← hy, ← hn'', ← hM4]
  rfl

/-- **C79 (whole coordinate step, partial).** Erdos-Renyi network with a gamma prior, self connections allowed, `0 < p < 1`, bins of unit length (`dt = 1`). After every history of
legal mean-field calls that contains a coordinate step, the next `meanfield_coordinate_descent_step` leaves a finite bound, smaller than before by at most the parents'
guard terms of order `1e-32` per event. Missing: other bin lengths (`C55_bias_update_violated`) and the block model's labels (`C79_label_update_violated`). -/
theorem C79_er_coordinate_step_partial (huge : ℝ) (M0 : MFModel) (g : MFGood M0) (hK : 0 < M0.K) (hB : 0 < M0.B) (n0 : ERFixed) (hn0 : M0.net = .er n0)
    (hI : Interior M0.K M0.net) (hdt : M0.bias.dt = 1) (hd : ∀ D ∈ M0.data, D.EZ = none ∧ ∀ t k, D.S t k < 2 ^ 32) (acts : List MFAct)
    (hl : ∀ a ∈ acts, a.Legal M0) (hc : .coord ∈ acts) :
    ∃ M M' x y, runActs acts M0 = .ok M ∧ M.coordStep = .ok M' ∧ M.vlb huge = .ok (.fin x) ∧ M'.vlb huge = .ok (.fin y) ∧
      x - (M.data.map (dataLoss M)).sum ≤ y := by
  obtain ⟨M, e, h⟩ := runActs_inv M0 g acts hl
  have hfresh : ∀ D ∈ M0.data, DataOk D := fun D hD => DataOk.fresh (hd D hD).1 (hd D hD).2 (g.data.2 D hD).2
  have hD := runActs_data e hfresh
  have hsum := runActs_sum M0 g hK hI acts hl (MFInv.refl g) e hfresh (.inl hc)
  obtain ⟨x, hx⟩ := vlb_finite huge g h hI (by rw [hn0]; exact fun n => MFNet.noConfusion) hD
  have hs : M.net.allowSelf = true := by
    have := (Interior.logs hI h.net hK hK).2.2
    simpa using this
  obtain ⟨x1, hx1, le1⟩ := C79_parents_update_partial huge M hs hD (by rw [h.K, h.B]; exact hsum) hx
  obtain ⟨M', y, e', hy, le2⟩ := er_globals_ascent huge g hK hB hn0 hI hdt h hD hx1
  exact ⟨M, M', x, y, e, e', hx, hy, by linarith⟩

/-- two processes with an Erdos-Renyi network and two bins with one event of each process -/
noncomputable def exER : MFModel :=
  { exMF' 1 true with
    net := .er { K := 2, p := 1 / 2, kappa := 1, v := 1, alpha := some 1, beta := some 1, allowSelf := true, mf := some (1, 1) }
    data := [{ T := 2, S := fun _ _ => 1, F := fun _ _ _ => 1 }] }

theorem exER_good : MFGood exER := by
  have g := exMF'_good zero_le_one true
  refine ⟨g.bias, g.imp, g.w, g.wmf, g.p, ⟨rfl, one_pos, ?_, 1, 1, 1, 1, rfl, rfl, rfl, one_pos, one_pos, one_pos, one_pos⟩, ?_⟩
  · intro i _ j _; simp [ERFixed.P]; norm_num
  · simp [exER]

theorem exER_interior : Interior exER.K exER.net := by
  intro i _ j _
  simp [ERFixed.P]; norm_num

theorem exER_data : ∀ D ∈ exER.data, D.EZ = none ∧ ∀ t k, D.S t k < 2 ^ 32 := by
  intro D hD
  rw [List.mem_singleton.1 hD]
  exact ⟨rfl, fun _ _ => by norm_num⟩

/-! non-vacuity: a history of three calls, then a fourth -/
example : ∃ M M' x y, runActs [.coord, .sgd 1 (1 / 2), .coord] exER = .ok M ∧ M.coordStep = .ok M' ∧ M.vlb 1 = .ok (.fin x) ∧ M'.vlb 1 = .ok (.fin y) ∧
    x - (M.data.map (dataLoss M)).sum ≤ y :=
  C79_er_coordinate_step_partial 1 exER exER_good (by simp [exER, exMF', exMF]) (by simp [exER, exMF', exMF]) _ rfl exER_interior rfl exER_data _ (by
    intro a ha
    have h : exER.data.length = 1 := rfl
    simp only [List.mem_cons, List.not_mem_nil, or_false] at ha
    rcases ha with rfl | rfl | rfl
    · trivial
    · exact ⟨by norm_num, by norm_num, by norm_num, fun h => by norm_num at h, h⟩
    · trivial) (by simp)

example : ∃ M x, runActs [.coord, .coord] (exMF' 1 true) = .ok M ∧ M.vlb 1 = .ok (.fin x) ∧ ∃ M' y, M.updateWeights = .ok M' ∧ M'.vlb 1 = .ok (.fin y) ∧ x ≤ y := by
  obtain ⟨M, x, h1, h2, h3, _⟩ := C79_every_reachable_state_partial 1 (exMF' 1 true) (exMF'_good zero_le_one true) (by simp [exMF', exMF]) (by simp [exMF', exMF]) (exMF'_interior 1)
    (fun n => MFNet.noConfusion) (by
      intro D hD
      rw [List.mem_singleton.1 hD]
      exact ⟨rfl, fun _ _ => by norm_num⟩) [.coord, .coord] (by
      intro a ha
      simp only [List.mem_cons, List.not_mem_nil, or_false, or_self] at ha
      subst ha
      trivial)
  exact ⟨M, x, h1, h2, h3⟩

end PyHawkes
