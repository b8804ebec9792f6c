import Verif.Props.EvidencePrior
import Verif.Props.VLBParents

/-!
# C103, tools: the bound of the data, as a function of the parameters, never exceeds the log likelihood
-/
set_option linter.unusedSectionVars false
set_option linter.unusedVariables false

namespace PyHawkes
open Finset Spec MeasureTheory ProbabilityTheory

/-- **one event bin.** For fixed parameters the bound of an event bin is at most the count times the log rate; the filtered counts in the rate may differ from those in the bound, at a price `d`. -/
theorem evRow_le (K B k2 : ℕ) {lam : ℝ} (hl : 0 < lam) (lnL : Vec ℝ) (hL : lnL k2 = Real.log lam) (W : Mat ℝ) (g : Ten ℝ) (hW : ∀ k1 < K, 0 < W k1 k2) (hg : ∀ k1 < K, ∀ b < B, 0 < g k1 k2 b) {z : Vec ℝ} {s : ℕ} {f f' : Mat ℝ}
    (hs : s ≠ 0) (hz : ∀ j, 0 ≤ z j) (hf' : ∀ k < K, ∀ b < B, 0 ≤ f' k b) (hsum : RowSum K B z s) (d : Mat ℝ)
    (hsup : ∀ k < K, ∀ b < B, 0 < z (1 + k * B + b) → 0 < f' k b)
    (hd : ∀ k < K, ∀ b < B, z (1 + k * B + b) * Real.log (f k b + 1e-32) ≤ z (1 + k * B + b) * Real.log (f' k b) + d k b) :
    rowR K B k2 lnL (fun i j => Real.log (W i j)) (fun i j b => Real.log (g i j b)) z s f - ∑ k ∈ range K, ∑ b ∈ range B, d k b
      ≤ s * Real.log (lam + ∑ k1 ∈ range K, ∑ b ∈ range B, W k1 k2 * g k1 k2 b * f' k1 b) := by
  have s0 : (0:ℝ) < s := Nat.cast_pos.2 (Nat.pos_of_ne_zero hs)
  have hε : (0:ℝ) < 1e-32 := by norm_num
  let a : Option (ℕ × ℕ) → ℝ := fun c => match c with
    | none => lam
    | some p => W p.1 k2 * g p.1 k2 p.2 * f' p.1 p.2
  let q : Option (ℕ × ℕ) → ℝ := fun c => z (colOf B c) / s
  set S := insertNone (range K ×ˢ range B) with hS
  have hq : ∀ c, 0 ≤ q c := fun c => div_nonneg (hz _) s0.le
  have q1 : ∑ c ∈ S, q c = 1 := by
    rw [← sum_div, hS, sum_cols]
    simp only [colOf]
    rw [show z 0 + ∑ k1 ∈ range K, ∑ b ∈ range B, z (1 + k1 * B + b) = s from hsum, div_self s0.ne']
  set S' := S.filter fun c => 0 < a c with hS'
  have mem : ∀ k b, (some (k, b) ∈ S) ↔ k < K ∧ b < B := by intro k b; simp [hS]
  have out : ∀ c ∈ S, c ∉ S' → q c = 0 := by
    intro c hc hn
    by_contra hne
    have h0 : 0 < q c := lt_of_le_of_ne (hq c) (Ne.symm hne)
    have z0 : 0 < z (colOf B c) := by
      by_contra hz0
      have : z (colOf B c) = 0 := le_antisymm (not_lt.1 hz0) (hz _)
      exact hne (by show z _ / _ = 0; rw [this, zero_div])
    refine hn (mem_filter.2 ⟨hc, ?_⟩)
    cases c with
    | none => exact hl
    | some p =>
      obtain ⟨h1, h2⟩ := (mem p.1 p.2).1 hc
      exact mul_pos (mul_pos (hW _ h1) (hg _ h1 _ h2)) (hsup _ h1 _ h2 z0)
  have sub : ∀ F : Option (ℕ × ℕ) → ℝ, ∑ c ∈ S', q c * F c = ∑ c ∈ S, q c * F c := fun F =>
    sum_subset (filter_subset _ _) fun c hc hn => by rw [out c hc hn, zero_mul]
  have main := guarded_le S' q a hε (fun c _ => hq c) (by
    have := sub fun _ => 1
    simp only [mul_one] at this
    rw [this, q1]) (fun c hc => (mem_filter.1 hc).2)
  rw [sub fun c => Real.log (a c) - Real.log (q c + 1e-32)] at main
  have a0 : ∀ c ∈ S, 0 ≤ a c := by
    intro c hc
    cases c with
    | none => exact hl.le
    | some p =>
      obtain ⟨h1, h2⟩ := (mem p.1 p.2).1 hc
      exact mul_nonneg (mul_pos (hW _ h1) (hg _ h1 _ h2)).le (hf' _ h1 _ h2)
  have aS : ∑ c ∈ S', a c = lam + ∑ k1 ∈ range K, ∑ b ∈ range B, W k1 k2 * g k1 k2 b * f' k1 b := by
    rw [sum_subset (filter_subset (fun c => 0 < a c) S) fun c hc hn => le_antisymm (not_lt.1 fun h => hn (mem_filter.2 ⟨hc, h⟩)) (a0 c hc), hS, sum_cols]
  rw [aS] at main
  refine le_trans ?_ (mul_le_mul_of_nonneg_left main s0.le)
  rw [mul_sum, hS, sum_cols]
  have e : ∀ c, (s:ℝ) * (q c * (Real.log (a c) - Real.log (q c + 1e-32))) = z (colOf B c) * (Real.log (a c) - Real.log (z (colOf B c) / s + 1e-32)) := by
    intro c
    show (s:ℝ) * (z (colOf B c) / s * _) = _
    rw [← mul_assoc, mul_div_cancel₀ _ s0.ne']
  simp only [e]
  unfold rowR
  rw [hL, add_sub_assoc, ← sum_sub_distrib]
  refine add_le_add le_rfl (sum_le_sum fun k1 h1 => ?_)
  rw [← sum_sub_distrib]
  refine sum_le_sum fun b hb => ?_
  have k1K := mem_range.1 h1
  have bB := mem_range.1 hb
  have hd' := hd k1 k1K b bB
  show z (1 + k1 * B + b) * (Real.log (f k1 b + 1e-32) + Real.log (W k1 k2) + Real.log (g k1 k2 b) - Real.log (z (1 + k1 * B + b) / s + 1e-32)) - d k1 b
    ≤ z (1 + k1 * B + b) * (Real.log (W k1 k2 * g k1 k2 b * f' k1 b) - Real.log (z (1 + k1 * B + b) / s + 1e-32))
  rcases (hz (1 + k1 * B + b)).eq_or_lt with h0 | h0
  · rw [← h0] at hd' ⊢
    simp only [zero_mul, zero_add] at hd' ⊢
    linarith
  · have p1 := hsup _ k1K _ bB h0
    rw [Real.log_mul (mul_pos (hW _ k1K) (hg _ k1K _ bB)).ne' p1.ne', Real.log_mul (hW _ k1K).ne' (hg _ k1K _ bB).ne']
    nlinarith

/-- the expected parents, counts and filtered counts of the event bins of process `k` -/
noncomputable def zRows (D : DParents ℝ) (k : ℕ) : List (Vec ℝ × ℕ × Mat ℝ) := (D.getEZ k).zip ((D.Ss k).zip (D.Fs k))

/-- the bound of the data as a function of (expected) rates, weights and logs -/
noncomputable def dataBound (K B : ℕ) (data : List (DParents ℝ)) (l lnL : Vec ℝ) (W lw : Mat ℝ) (lng : Ten ℝ) : ℝ :=
  (data.map fun D => ∑ k ∈ range K, (-(D.T : ℝ) * l k - ∑ k1 ∈ range K, (D.Ns k1 : ℝ) * W k1 k + ((zRows D k).map fun r => rowR K B k lnL lw lng r.1 r.2.1 r.2.2).sum)).sum

/-- expected number of events of `k` attributed to the background -/
noncomputable def cBkgd (data : List (DParents ℝ)) (k : ℕ) : ℝ := (data.map fun D => ((zRows D k).map fun r => r.1 0).sum).sum
/-- expected number of events of `k` attributed to basis function `b` of `k1` -/
noncomputable def cBasis (B : ℕ) (data : List (DParents ℝ)) (k1 k b : ℕ) : ℝ := (data.map fun D => ((zRows D k).map fun r => r.1 (1 + k1 * B + b)).sum).sum
/-- the part that depends on no parameter -/
noncomputable def cConst (K B : ℕ) (data : List (DParents ℝ)) : ℝ :=
  (data.map fun D => ∑ k ∈ range K, ((zRows D k).map fun r => rowR K B k (fun _ => 0) (fun _ _ => 0) (fun _ _ _ => 0) r.1 r.2.1 r.2.2).sum).sum

theorem rowR_affine (K B k : ℕ) (lnL : Vec ℝ) (lw : Mat ℝ) (lng : Ten ℝ) (z : Vec ℝ) (s : ℕ) (f : Mat ℝ) :
    rowR K B k lnL lw lng z s f = rowR K B k (fun _ => 0) (fun _ _ => 0) (fun _ _ _ => 0) z s f + z 0 * lnL k
      + ∑ k1 ∈ range K, ∑ b ∈ range B, (z (1 + k1 * B + b) * lw k1 k + z (1 + k1 * B + b) * lng k1 k b) := by
  unfold rowR
  have : ∀ x y w : ℝ, x + y + z 0 * lnL k + w = (x + z 0 * lnL k) + (y + w) := fun x y w => by ring
  rw [this, ← sum_add_distrib]
  refine congrArg₂ _ (by ring) (sum_congr rfl fun k1 _ => ?_)
  rw [← sum_add_distrib]
  exact sum_congr rfl fun b _ => by ring

theorem list_map_neg {α : Type*} (l : List α) (f : α → ℝ) : (l.map fun x => -f x).sum = -(l.map f).sum := by
  induction l with
  | nil => simp
  | cons a l ih => simp only [List.map_cons, List.sum_cons, ih, neg_add]

theorem dataBound_affine (K B : ℕ) (data : List (DParents ℝ)) (l lnL : Vec ℝ) (W lw : Mat ℝ) (lng : Ten ℝ) :
    dataBound K B data l lnL W lw lng = cConst K B data + ∑ k ∈ range K, (cBkgd data k * lnL k - (data.map fun D => (D.T : ℝ)).sum * l k)
      + ∑ k1 ∈ range K, ∑ k ∈ range K, ((∑ b ∈ range B, cBasis B data k1 k b) * lw k1 k - (data.map fun D => (D.Ns k1 : ℝ)).sum * W k1 k)
      + ∑ k1 ∈ range K, ∑ k ∈ range K, ∑ b ∈ range B, cBasis B data k1 k b * lng k1 k b := by
  have e : ∀ D : DParents ℝ, ∀ k, ((zRows D k).map fun r => rowR K B k lnL lw lng r.1 r.2.1 r.2.2).sum
      = ((zRows D k).map fun r => rowR K B k (fun _ => 0) (fun _ _ => 0) (fun _ _ _ => 0) r.1 r.2.1 r.2.2).sum + ((zRows D k).map fun r => r.1 0).sum * lnL k
        + ∑ k1 ∈ range K, ∑ b ∈ range B, (((zRows D k).map fun r => r.1 (1 + k1 * B + b)).sum * lw k1 k + ((zRows D k).map fun r => r.1 (1 + k1 * B + b)).sum * lng k1 k b) := by
    intro D k
    rw [List.map_congr_left fun r _ => rowR_affine K B k lnL lw lng r.1 r.2.1 r.2.2, List.sum_map_add, List.sum_map_add, List.sum_map_mul_right, list_sum_finset_sum]
    congr 1
    refine sum_congr rfl fun k1 _ => ?_
    rw [list_sum_finset_sum]
    refine sum_congr rfl fun b _ => ?_
    rw [List.sum_map_add, List.sum_map_mul_right, List.sum_map_mul_right]
  unfold dataBound
  simp only [e]
  unfold cConst cBkgd cBasis
  simp only [list_sum_finset_sum, List.sum_map_add, List.sum_map_mul_right, sum_add_distrib, sum_sub_distrib, sub_eq_add_neg, list_map_neg, neg_mul, sum_neg_distrib, sum_mul]
  rw [sum_comm (f := fun k k1 => (data.map fun D => (D.Ns k1 : ℝ)).sum * W k1 k), sum_comm (f := fun k k1 => ∑ b ∈ range B, (data.map fun D => ((zRows D k).map fun r => r.1 (1 + k1 * B + b)).sum).sum * lw k1 k),
    sum_comm (f := fun k k1 => ∑ b ∈ range B, (data.map fun D => ((zRows D k).map fun r => r.1 (1 + k1 * B + b)).sum).sum * lng k1 k b)]
  ring

/-- the same data with transformed filtered counts -/
def mapF (φ : Mat ℝ → Mat ℝ) (D : DParents ℝ) : DParents ℝ := { D with F := fun t => φ (D.F t) }

theorem zip_rows {α β γ : Type*} (l : List α) (m : List β) (h : β → γ) : l.zip (m.map h) = (l.zip m).map fun p => (p.1, h p.2) := by
  rw [List.zip_map_right]; rfl

theorem zRows_eq (D : DParents ℝ) (k : ℕ) : zRows D k = ((D.getEZ k).zip (D.ts k)).map fun p => (p.1, toU32 (D.S p.2 k), D.F p.2) := by
  unfold zRows
  rw [zip_Ss_Fs, zip_rows]

/-- what the guards cost in one data set -/
noncomputable def rowSlack (K B : ℕ) (d : Vec ℝ → Mat ℝ → Mat ℝ) (D : DParents ℝ) : ℝ :=
  ∑ k ∈ range K, ((zRows D k).map fun r => ∑ k1 ∈ range K, ∑ b ∈ range B, d r.1 r.2.2 k1 b).sum

/-- the rate with fixed parameters: the bound of the data never exceeds the log likelihood, up to the guards -/
theorem dataBound_le (P : NetParams ℝ) (hdt : P.dt ≤ 1) (hl : ∀ k < P.K, 0 < P.lam0 k) (hW : ∀ i < P.K, ∀ j < P.K, 0 < P.Weff i j) (hg : ∀ i < P.K, ∀ j < P.K, ∀ b < P.B, 0 < P.g i j b)
    (data : List (DParents ℝ)) (hD : ∀ D ∈ data, DataOk D) (hsum : ∀ D ∈ data, EZSum P.K P.B D) (φ : Mat ℝ → Mat ℝ) (d : Vec ℝ → Mat ℝ → Mat ℝ)
    (hφ : ∀ D ∈ data, ∀ t, ∀ k < P.K, ∀ b < P.B, 0 ≤ φ (D.F t) k b)
    (hsup : ∀ D ∈ data, ∀ k2 < P.K, ∀ r ∈ zRows D k2, ∀ k < P.K, ∀ b < P.B, 0 < r.1 (1 + k * P.B + b) → 0 < φ r.2.2 k b)
    (hd : ∀ D ∈ data, ∀ k2 < P.K, ∀ r ∈ zRows D k2, ∀ k < P.K, ∀ b < P.B,
      r.1 (1 + k * P.B + b) * Real.log (r.2.2 k b + 1e-32) ≤ r.1 (1 + k * P.B + b) * Real.log (φ r.2.2 k b) + d r.1 r.2.2 k b) :
    dataBound P.K P.B data P.lam0 (fun k => Real.log (P.lam0 k)) P.Weff (fun i j => Real.log (P.Weff i j)) (fun i j b => Real.log (P.g i j b)) - (data.map (rowSlack P.K P.B d)).sum
      ≤ llModel P (data.map (mapF φ)) := by
  rw [C08_model_sum]
  induction data with
  | nil => simp [dataBound]
  | cons D l ih =>
    have ih := ih (fun E h => hD E (List.mem_cons_of_mem _ h)) (fun E h => hsum E (List.mem_cons_of_mem _ h)) (fun E h => hφ E (List.mem_cons_of_mem _ h))
      (fun E h => hsup E (List.mem_cons_of_mem _ h)) (fun E h => hd E (List.mem_cons_of_mem _ h))
    unfold dataBound at ih ⊢
    simp only [List.map_cons, List.sum_cons]
    have one : ∑ k ∈ range P.K, (-(D.T : ℝ) * P.lam0 k - ∑ k1 ∈ range P.K, (D.Ns k1 : ℝ) * P.Weff k1 k
        + ((zRows D k).map fun r => rowR P.K P.B k (fun k => Real.log (P.lam0 k)) (fun i j => Real.log (P.Weff i j)) (fun i j b => Real.log (P.g i j b)) r.1 r.2.1 r.2.2).sum) - rowSlack P.K P.B d D
        ≤ llData P (mapF φ D) := by
      unfold llData rowSlack
      rw [forRange_add, zero_add, ← sum_sub_distrib]
      refine sum_le_sum fun k hk => ?_
      have hk := mem_range.1 hk
      obtain ⟨hE, hSh, hfit, hF⟩ := hD D List.mem_cons_self
      have rows : ((zRows D k).map fun r => rowR P.K P.B k (fun k => Real.log (P.lam0 k)) (fun i j => Real.log (P.Weff i j)) (fun i j b => Real.log (P.g i j b)) r.1 r.2.1 r.2.2).sum
          - ((zRows D k).map fun r => ∑ k1 ∈ range P.K, ∑ b ∈ range P.B, d r.1 r.2.2 k1 b).sum
          ≤ ((D.ts k).map fun t => (toU32 (D.S t k) : ℝ) * Real.log (P.lam0 k + ∑ k1 ∈ range P.K, ∑ b ∈ range P.B, P.Weff k1 k * P.g k1 k b * φ (D.F t) k1 b)).sum := by
        have hlen : (D.getEZ k).length = (D.ts k).length := by rw [hSh k]
        have z := zip_le hlen (fun z t => rowR P.K P.B k (fun k => Real.log (P.lam0 k)) (fun i j => Real.log (P.Weff i j)) (fun i j b => Real.log (P.g i j b)) z (toU32 (D.S t k)) (D.F t)
            - ∑ k1 ∈ range P.K, ∑ b ∈ range P.B, d z (D.F t) k1 b) (fun _ => 0)
          (fun t => (toU32 (D.S t k) : ℝ) * Real.log (P.lam0 k + ∑ k1 ∈ range P.K, ∑ b ∈ range P.B, P.Weff k1 k * P.g k1 k b * φ (D.F t) k1 b)) (by
            intro r hr
            rw [sub_zero]
            have hmem : (r.1, toU32 (D.S r.2 k), D.F r.2) ∈ zRows D k := by
              rw [zRows_eq]
              exact List.mem_map.2 ⟨r, hr, rfl⟩
            have hmem2 : (r.1, toU32 (D.S r.2 k)) ∈ (D.getEZ k).zip (D.Ss k) := by
              unfold DParents.Ss
              rw [zip_rows]
              exact List.mem_map.2 ⟨r, hr, rfl⟩
            exact evRow_le P.K P.B k (hl k hk) (fun k => Real.log (P.lam0 k)) rfl P.Weff P.g (fun i hi => hW i hi k hk) (fun i hi b hb => hg i hi k hk b hb)
              (Ss_ne_zero hfit (List.of_mem_zip hmem2).2) (hE k r.1 (List.of_mem_zip hr).1) (hφ D List.mem_cons_self r.2) (hsum D List.mem_cons_self k hk _ hmem2) (d r.1 (D.F r.2))
              (hsup D List.mem_cons_self k hk _ hmem) (hd D List.mem_cons_self k hk _ hmem))
        simp only [List.map_const', List.sum_replicate, smul_zero, sub_zero] at z
        refine le_trans (le_of_eq ?_) z
        rw [zRows_eq, List.map_map, List.map_map]
        simp only [sub_eq_add_neg, List.sum_map_add, list_map_neg]
        rfl
      have lik : llSingle P (mapF φ D) k = -(P.lam0 k) * D.T * P.dt - ∑ k1 ∈ range P.K, (D.Ns k1 : ℝ) * P.Weff k1 k
          + ((D.ts k).map fun t => (toU32 (D.S t k) : ℝ) * Real.log (P.lam0 k + ∑ k1 ∈ range P.K, ∑ b ∈ range P.B, P.Weff k1 k * P.g k1 k b * φ (D.F t) k1 b)).sum := by
        unfold llSingle
        dsimp only
        rw [zip_Ss_Fs, List.map_map, sum_congr rfl fun k1 _ => mul_comm (P.Weff k1 k) ((mapF φ D).Ns k1 : ℝ), zero_add, ← sub_eq_add_neg]
        rfl
      rw [lik]
      have hT : -(D.T : ℝ) * P.lam0 k ≤ -(P.lam0 k) * D.T * P.dt := by
        have : 0 ≤ (D.T : ℝ) * P.lam0 k * (1 - P.dt) := mul_nonneg (mul_nonneg (Nat.cast_nonneg _) (hl k hk).le) (by linarith)
        nlinarith
      linarith
    linarith

end PyHawkes
