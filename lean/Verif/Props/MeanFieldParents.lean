import Verif.Props.DParents

/-!
# C15: the mean-field parent update maximises the variational bound over the parents
-/

namespace PyHawkes
open Finset

/-- Gibbs' inequality for unnormalised weights `ρ` and a nonnegative vector `x` of total mass `s`; `L c` is `log ρ c` on the support of `x`. -/
theorem gibbs_le (n : ℕ) (huge s : ℝ) (x ρ L : Vec ℝ) (hs : 0 < s) (hx : ∀ c < n, 0 ≤ x c) (hsum : ∑ c ∈ range n, x c = s)
    (hρ : ∀ c < n, 0 ≤ ρ c) (hL : ∀ c < n, x c ≠ 0 → 0 < ρ c ∧ L c = Real.log (ρ c)) :
    ∑ c ∈ range n, (x c * L c + -x c * nanLog huge (x c / s)) ≤ s * Real.log (∑ c ∈ range n, ρ c) := by
  have hZ : 0 < ∑ c ∈ range n, ρ c := by
    have : ∃ c ∈ range n, x c ≠ 0 := by
      by_contra h
      push Not at h
      rw [sum_eq_zero h] at hsum
      exact hs.ne hsum
    obtain ⟨c, hc, hne⟩ := this
    exact sum_pos' (fun c hc => hρ c (mem_range.1 hc)) ⟨c, hc, (hL c (mem_range.1 hc) hne).1⟩
  set Z := ∑ c ∈ range n, ρ c with hZdef
  have key : ∀ c ∈ range n, x c * L c + -x c * nanLog huge (x c / s) ≤ x c * Real.log Z + (s / Z * ρ c - x c) := by
    intro c hc
    have hc := mem_range.1 hc
    by_cases h0 : x c = 0
    · rw [h0]; simp only [zero_mul, neg_zero, zero_add, sub_zero, add_zero]
      have := hρ c hc
      positivity
    · obtain ⟨hp, hLc⟩ := hL c hc h0
      have hxp : 0 < x c := lt_of_le_of_ne (hx c hc) (Ne.symm h0)
      have hdiv : x c / s ≠ 0 := (div_pos hxp hs).ne'
      unfold nanLog
      rw [if_neg hdiv, hLc, Real.log_div h0 hs.ne']
      have hq : 0 < s * ρ c / (Z * x c) := by positivity
      have hlog := Real.log_le_sub_one_of_pos hq
      rw [Real.log_div (by positivity) (by positivity), Real.log_mul hs.ne' hp.ne', Real.log_mul hZ.ne' h0] at hlog
      have := mul_le_mul_of_nonneg_left hlog hxp.le
      have e : x c * (s * ρ c / (Z * x c) - 1) = s / Z * ρ c - x c := by field_simp
      rw [e] at this
      linarith
  calc _ ≤ ∑ c ∈ range n, (x c * Real.log Z + (s / Z * ρ c - x c)) := sum_le_sum key
    _ = s * Real.log Z + (s / Z * Z - s) := by
      rw [sum_add_distrib, sum_sub_distrib, ← sum_mul, hsum, ← mul_sum]
    _ = _ := by field_simp; ring

/-- equality in Gibbs' inequality at the normalised weights -/
theorem gibbs_eq (n : ℕ) (huge s : ℝ) (x ρ L : Vec ℝ) (hs : 0 < s)
    (hρ : ∀ c < n, 0 ≤ ρ c) (hZ : 0 < ∑ c ∈ range n, ρ c) (hxeq : ∀ c < n, x c = ρ c / (∑ c ∈ range n, ρ c) * s)
    (hL : ∀ c < n, ρ c ≠ 0 → L c = Real.log (ρ c)) :
    ∑ c ∈ range n, (x c * L c + -x c * nanLog huge (x c / s)) = s * Real.log (∑ c ∈ range n, ρ c) := by
  set Z := ∑ c ∈ range n, ρ c with hZdef
  have key : ∀ c ∈ range n, x c * L c + -x c * nanLog huge (x c / s) = x c * Real.log Z := by
    intro c hc
    have hc := mem_range.1 hc
    by_cases h0 : ρ c = 0
    · rw [hxeq c hc, h0]; simp
    · have hp : 0 < ρ c := lt_of_le_of_ne (hρ c hc) (Ne.symm h0)
      have hq : x c / s = ρ c / Z := by rw [hxeq c hc]; field_simp
      unfold nanLog
      rw [hq, if_neg (div_pos hp hZ).ne', hL c hc h0, Real.log_div h0 hZ.ne']
      ring
  rw [sum_congr rfl key, ← sum_mul]
  congr 1
  rw [sum_congr rfl fun c hc => hxeq c (mem_range.1 hc), ← sum_mul, ← sum_div, ← hZdef, div_self hZ.ne', one_mul]

/-- the part of `get_vlb_python` that depends on the row `z` of one event bin with count `s` and filtered counts `f` -/
noncomputable def rowTerm (huge : ℝ) (K B : ℕ) (elnL : Vec ℝ) (elnW : Mat ℝ) (elng : Ten ℝ) (k : ℕ) (s : ℝ) (f : Mat ℝ) (z : Vec ℝ) : ℝ :=
  (z 0 * elnL k + -z 0 * nanLog huge (z 0 / s)) + ∑ j ∈ range (K * B),
    (z (1 + j) * lnWg huge (elnW (j / B) k) (elng (j / B) k (j % B)) (f (j / B) (j % B))
      + -z (1 + j) * nanLog huge (z (1 + j) / s))

/-- unnormalised optimal weights `ρ` and the logs `L` in flattened column order -/
noncomputable def mfRho (B : ℕ) (elnL : Vec ℝ) (elnW : Mat ℝ) (elng : Ten ℝ) (k : ℕ) (f : Mat ℝ) : Vec ℝ :=
  consVec (Real.exp (elnL k)) (ravel B fun k1 b => f k1 b * Real.exp (elnW k1 k) * Real.exp (elng k1 k b))

noncomputable def mfL (huge : ℝ) (B : ℕ) (elnL : Vec ℝ) (elnW : Mat ℝ) (elng : Ten ℝ) (k : ℕ) (f : Mat ℝ) : Vec ℝ :=
  consVec (elnL k) (ravel B fun k1 b => lnWg huge (elnW k1 k) (elng k1 k b) (f k1 b))

theorem rowTerm_eq (huge : ℝ) (K B : ℕ) (elnL : Vec ℝ) (elnW : Mat ℝ) (elng : Ten ℝ) (k : ℕ) (s : ℝ) (f : Mat ℝ) (z : Vec ℝ) :
    rowTerm huge K B elnL elnW elng k s f z
      = ∑ c ∈ range (1 + K * B), (z c * mfL huge B elnL elnW elng k f c + -z c * nanLog huge (z c / s)) := by
  rw [sum_one_add]
  unfold rowTerm
  congr 1
  refine sum_congr rfl fun j _ => ?_
  rw [show 1 + j = j + 1 by ring]
  rfl

theorem mfL_log (huge : ℝ) (B : ℕ) (elnL : Vec ℝ) (elnW : Mat ℝ) (elng : Ten ℝ) (k : ℕ) (f : Mat ℝ) (c : ℕ)
    (h : mfRho B elnL elnW elng k f c ≠ 0) (hf : ∀ k1 b, 0 ≤ f k1 b) :
    0 < mfRho B elnL elnW elng k f c ∧ mfL huge B elnL elnW elng k f c = Real.log (mfRho B elnL elnW elng k f c) := by
  cases c with
  | zero => exact ⟨Real.exp_pos _, (Real.log_exp _).symm⟩
  | succ j =>
    simp only [mfRho, mfL, consVec, ravel, lnWg] at h ⊢
    have hne : f (j / B) (j % B) ≠ 0 := by rintro h0; rw [h0] at h; simp at h
    have hp : 0 < f (j / B) (j % B) := lt_of_le_of_ne (hf _ _) (Ne.symm hne)
    refine ⟨by positivity, ?_⟩
    rw [if_neg hne, Real.log_mul (by positivity) (by positivity), Real.log_mul hne (by positivity), Real.log_exp, Real.log_exp]

/-- admissible expected-parent row for an event bin: nonnegative, sums to the count, no mass on parents whose filtered count is zero -/
def RowAdm (K B : ℕ) (s : ℝ) (f : Mat ℝ) (z : Vec ℝ) : Prop :=
  (∀ c < 1 + K * B, 0 ≤ z c) ∧ ∑ c ∈ range (1 + K * B), z c = s ∧
  ∀ j < K * B, f (j / B) (j % B) = 0 → z (1 + j) = 0

theorem row_le (huge : ℝ) (K B : ℕ) (elnL : Vec ℝ) (elnW : Mat ℝ) (elng : Ten ℝ) (k : ℕ) (s : ℝ) (f : Mat ℝ) (z : Vec ℝ)
    (hs : 0 < s) (hf : ∀ k1 b, 0 ≤ f k1 b) (hz : RowAdm K B s f z) :
    rowTerm huge K B elnL elnW elng k s f z ≤ s * Real.log (∑ c ∈ range (1 + K * B), mfRho B elnL elnW elng k f c) := by
  rw [rowTerm_eq]
  refine gibbs_le _ huge s z _ _ hs hz.1 hz.2.1 ?_ ?_
  · intro c _
    cases c with
    | zero => exact (Real.exp_pos _).le
    | succ j => simp only [mfRho, consVec, ravel]; have := hf (j / B) (j % B); positivity
  · intro c hc hne
    refine mfL_log huge B elnL elnW elng k f c ?_ hf
    cases c with
    | zero => exact (Real.exp_pos _).ne'
    | succ j =>
      simp only [mfRho, consVec, ravel]
      intro h0
      have : f (j / B) (j % B) = 0 := by
        rcases mul_eq_zero.1 h0 with h | h
        · rcases mul_eq_zero.1 h with h | h
          · exact h
          · exact absurd h (Real.exp_pos _).ne'
        · exact absurd h (Real.exp_pos _).ne'
      have := hz.2.2 j (by omega) this
      rw [show 1 + j = j + 1 by ring] at this
      exact hne this

theorem row_eq (huge : ℝ) (K B : ℕ) (elnL : Vec ℝ) (elnW : Mat ℝ) (elng : Ten ℝ) (k : ℕ) (s : ℝ) (f : Mat ℝ)
    (hs : 0 < s) (hf : ∀ k1 b, 0 ≤ f k1 b) :
    rowTerm huge K B elnL elnW elng k s f
        (mfRowPy K B (Real.exp (elnL k)) (fun k1 => Real.exp (elnW k1 k)) (fun k1 b => Real.exp (elng k1 k b)) s f)
      = s * Real.log (∑ c ∈ range (1 + K * B), mfRho B elnL elnW elng k f c) := by
  have hρ : ∀ c, 0 ≤ mfRho B elnL elnW elng k f c := by
    intro c
    cases c with
    | zero => exact (Real.exp_pos _).le
    | succ j => simp only [mfRho, consVec, ravel]; have := hf (j / B) (j % B); positivity
  have hZeq : ∑ c ∈ range (1 + K * B), mfRho B elnL elnW elng k f c
      = Real.exp (elnL k) + ∑ j ∈ range (K * B), ravel B (fun k1 b => f k1 b * Real.exp (elnW k1 k) * Real.exp (elng k1 k b)) j := by
    rw [sum_one_add]
    congr 1
    exact sum_congr rfl fun j _ => by rw [show 1 + j = j + 1 by ring]; rfl
  rw [rowTerm_eq]
  refine gibbs_eq _ huge s _ _ _ hs (fun c _ => hρ c) ?_ ?_ ?_
  · rw [hZeq]
    refine add_pos_of_pos_of_nonneg (Real.exp_pos _) (sum_nonneg fun j _ => ?_)
    simp only [ravel]; have := hf (j / B) (j % B); positivity
  · intro c _
    rw [hZeq]
    cases c with
    | zero => rfl
    | succ j => rfl
  · intro c _ h; exact (mfL_log huge B elnL elnW elng k f c h hf).2

/-- `get_vlb_python` is a constant plus the sum of the row terms -/
theorem vlbParentsPy_split (huge : ℝ) (K B : ℕ) (elnL eL : Vec ℝ) (elnW eW : Mat ℝ) (elng : Ten ℝ) (D : DParents ℝ)
    (EZ : ℕ → List (Vec ℝ)) (hlen : ∀ k < K, (EZ k).length = (D.ts k).length) :
    vlbParentsPy huge K B elnL eL elnW eW elng D EZ
      = ∑ k ∈ range K, (-(D.T : ℝ) * eL k + -(∑ k1 ∈ range K, (D.Ns k1 : ℝ) * eW k1 k)
        + (((EZ k).zip (D.ts k)).map fun p => rowTerm huge K B elnL elnW elng k (toU32 (D.S p.2 k) : ℝ) (D.F p.2) p.1).sum) := by
  unfold vlbParentsPy
  dsimp only
  have a1 : forRange K (fun k v => v + ((EZ k).map fun z => z 0 * elnL k).sum + -(D.T : ℝ) * eL k) 0
      = 0 + ∑ k ∈ range K, (((EZ k).map fun z => z 0 * elnL k).sum + -(D.T : ℝ) * eL k) := by
    rw [← forRange_add]; congr 1; funext k v; ring
  have a3 : ∀ v0 : ℝ, forRange K (fun k v => v + (((EZ k).zip (D.Fs k)).map fun p => ∑ j ∈ range (K * B),
        p.1 (1 + j) * lnWg huge (elnW (j / B) k) (elng (j / B) k (j % B)) (p.2 (j / B) (j % B))).sum
        + -(∑ k1 ∈ range K, (D.Ns k1 : ℝ) * eW k1 k)
        + (((EZ k).zip (D.Ss k)).map fun p => ∑ j ∈ range (K * B), -p.1 (1 + j) * nanLog huge (p.1 (1 + j) / (p.2 : ℝ))).sum) v0
      = v0 + ∑ k ∈ range K, ((((EZ k).zip (D.Fs k)).map fun p => ∑ j ∈ range (K * B),
        p.1 (1 + j) * lnWg huge (elnW (j / B) k) (elng (j / B) k (j % B)) (p.2 (j / B) (j % B))).sum
        + -(∑ k1 ∈ range K, (D.Ns k1 : ℝ) * eW k1 k)
        + (((EZ k).zip (D.Ss k)).map fun p => ∑ j ∈ range (K * B), -p.1 (1 + j) * nanLog huge (p.1 (1 + j) / (p.2 : ℝ))).sum) := by
    intro v0; rw [← forRange_add]; congr 1; funext k v; ring
  rw [a1, forRange_add, a3, zero_add, ← sum_add_distrib, ← sum_add_distrib]
  refine sum_congr rfl fun k hk => ?_
  have hk := mem_range.1 hk
  have hl := hlen k hk
  have e1 : ((EZ k).map fun z => z 0 * elnL k) = ((EZ k).zip (D.ts k)).map fun p => p.1 0 * elnL k := by
    conv_lhs => rw [← List.map_fst_zip (l₁ := EZ k) (l₂ := D.ts k) (by omega)]
    rw [List.map_map]; rfl
  unfold DParents.Fs DParents.Ss
  rw [e1, List.zip_map_right, List.zip_map_right, List.map_map, List.map_map, List.map_map]
  unfold rowTerm
  generalize (EZ k).zip (D.ts k) = l
  have : (l.map fun p => (p.1 0 * elnL k + -p.1 0 * nanLog huge (p.1 0 / (toU32 (D.S p.2 k) : ℝ))) + ∑ j ∈ range (K * B),
      (p.1 (1 + j) * lnWg huge (elnW (j / B) k) (elng (j / B) k (j % B)) (D.F p.2 (j / B) (j % B))
        + -p.1 (1 + j) * nanLog huge (p.1 (1 + j) / (toU32 (D.S p.2 k) : ℝ)))).sum
      = (l.map fun p => p.1 0 * elnL k).sum + (l.map fun p => -p.1 0 * nanLog huge (p.1 0 / (toU32 (D.S p.2 k) : ℝ))).sum
      + (l.map fun p => ∑ j ∈ range (K * B),
          p.1 (1 + j) * lnWg huge (elnW (j / B) k) (elng (j / B) k (j % B)) (D.F p.2 (j / B) (j % B))).sum
      + (l.map fun p => ∑ j ∈ range (K * B), -p.1 (1 + j) * nanLog huge (p.1 (1 + j) / (toU32 (D.S p.2 k) : ℝ))).sum := by
    induction l with
    | nil => simp
    | cons p l ih => simp only [List.map_cons, List.sum_cons]; rw [ih, sum_add_distrib]; ring
  rw [this]
  simp only [Function.comp_def, Prod.map_fst, Prod.map_snd, id]
  ring

/-- **C15.** Among all admissible expected-parent rows (nonnegative, summing to the observed counts, no mass where the filtered count is
zero), the rows written by the mean-field update give the largest value of the bound computed by `get_vlb_python`, for every data set. -/
theorem C15_mf_update_optimal (huge : ℝ) (K B : ℕ) (elnL eL : Vec ℝ) (elnW eW : Mat ℝ) (elng : Ten ℝ) (D : DParents ℝ)
    (EZ : ℕ → List (Vec ℝ)) (hF : ∀ t k1 b, 0 ≤ D.F t k1 b) (h32 : ∀ t < D.T, ∀ k < K, D.S t k < 2 ^ 32)
    (hEZ : ∀ k < K, List.Forall₂ (fun t z => RowAdm K B (D.S t k : ℝ) (D.F t) z) (D.ts k) (EZ k)) :
    vlbParentsPy huge K B elnL eL elnW eW elng D EZ ≤
      vlbParentsPy huge K B elnL eL elnW eW elng D
        (mfUpdateParents K B (fun k => Real.exp (elnL k)) (fun k1 k2 => Real.exp (elnW k1 k2))
          (fun k1 k2 b => Real.exp (elng k1 k2 b)) D).getEZ := by
  rw [vlbParentsPy_split _ _ _ _ _ _ _ _ _ _ (fun k hk => (hEZ k hk).length_eq.symm),
    vlbParentsPy_split _ _ _ _ _ _ _ _ _ _ (fun k hk => by simp [mfUpdateParents, DParents.getEZ, DParents.Ss, DParents.Fs])]
  refine sum_le_sum fun k hk => add_le_add_right ?_ _
  have hk := mem_range.1 hk
  have hmem : ∀ t ∈ D.ts k, D.S t k ≠ 0 ∧ D.S t k < 2 ^ 32 := by
    intro t ht
    unfold DParents.ts at ht
    rw [List.mem_filter] at ht
    exact ⟨by simpa using ht.2, h32 t (List.mem_range.1 ht.1) k hk⟩
  have hE := hEZ k hk
  have hU : (mfUpdateParents K B (fun k => Real.exp (elnL k)) (fun k1 k2 => Real.exp (elnW k1 k2))
      (fun k1 k2 b => Real.exp (elng k1 k2 b)) D).getEZ k = (D.ts k).map fun t =>
        mfRowPy K B (Real.exp (elnL k)) (fun k1 => Real.exp (elnW k1 k)) (fun k1 b => Real.exp (elng k1 k b)) (toU32 (D.S t k) : ℝ) (D.F t) := by
    unfold mfUpdateParents DParents.getEZ
    dsimp only
    rw [zip_Ss_Fs, List.map_map]; rfl
  rw [hU]
  generalize D.ts k = l at hE hmem
  generalize EZ k = zs at hE
  induction hE with
  | nil => simp
  | @cons t z l zs hz _ ih =>
    simp only [List.zip_cons_cons, List.map_cons, List.sum_cons]
    obtain ⟨h0, hlt⟩ := hmem t (List.mem_cons_self ..)
    have hs : (0 : ℝ) < (D.S t k : ℝ) := by exact_mod_cast Nat.pos_of_ne_zero h0
    refine add_le_add ?_ (ih fun t' ht' => hmem t' (List.mem_cons_of_mem _ ht'))
    rw [toU32_of_lt hlt, row_eq huge K B elnL elnW elng k _ _ hs (hF t)]
    exact row_le huge K B elnL elnW elng k _ _ _ hs (hF t) hz

/-- the admissible rows include the update itself and, e.g., assigning everything to the background -/
example (K B : ℕ) (s : ℝ) (hs : 0 ≤ s) (f : Mat ℝ) : RowAdm K B s f (fun c => if c = 0 then s else 0) := by
  refine ⟨fun c _ => by dsimp only; split <;> simp [hs], ?_, fun j _ _ => by simp⟩
  rw [sum_one_add]; simp

/-- row bound without any restriction on where the mass lies -/
theorem row_le_any (huge : ℝ) (K B : ℕ) (elnL : Vec ℝ) (elnW : Mat ℝ) (elng : Ten ℝ) (k : ℕ) (s : ℝ) (f : Mat ℝ) (z : Vec ℝ)
    (hs : 0 < s) (hf : ∀ k1 b, 0 ≤ f k1 b) (hz : ∀ c < 1 + K * B, 0 ≤ z c) (hsum : ∑ c ∈ range (1 + K * B), z c = s) :
    rowTerm huge K B elnL elnW elng k s f z
      ≤ s * Real.log (∑ c ∈ range (1 + K * B), mfRho B elnL elnW elng k f c) + s * ((K * B : ℕ) * Real.exp (-huge - elnL k)) := by
  have hρ : ∀ c, 0 ≤ mfRho B elnL elnW elng k f c := by
    intro c
    cases c with
    | zero => exact (Real.exp_pos _).le
    | succ j => simp only [mfRho, consVec, ravel]; have := hf (j / B) (j % B); positivity
  have hle : ∀ c, Real.exp (mfL huge B elnL elnW elng k f c)
      ≤ mfRho B elnL elnW elng k f c + (if c = 0 then 0 else Real.exp (-huge)) := by
    intro c
    by_cases h : mfRho B elnL elnW elng k f c = 0
    · cases c with
      | zero => exact absurd h (Real.exp_pos _).ne'
      | succ j =>
        rw [h, if_neg (Nat.succ_ne_zero j), zero_add]
        simp only [mfRho, consVec, ravel] at h
        have h0 : f (j / B) (j % B) = 0 := by
          rcases mul_eq_zero.1 h with h | h
          · rcases mul_eq_zero.1 h with h | h
            · exact h
            · exact absurd h (Real.exp_pos _).ne'
          · exact absurd h (Real.exp_pos _).ne'
        simp only [mfL, consVec, ravel, lnWg, h0, if_true]
        exact le_rfl
    · obtain ⟨hp, e⟩ := mfL_log huge B elnL elnW elng k f c h hf
      rw [e, Real.exp_log hp]
      have : (0 : ℝ) ≤ if c = 0 then 0 else Real.exp (-huge) := by split_ifs <;> positivity
      linarith
  set Z := ∑ c ∈ range (1 + K * B), mfRho B elnL elnW elng k f c with hZdef
  have hZL : Real.exp (elnL k) ≤ Z := by
    have := single_le_sum (f := mfRho B elnL elnW elng k f) (fun c _ => hρ c) (mem_range.2 (show 0 < 1 + K * B by omega))
    exact this
  have hZ : 0 < Z := lt_of_lt_of_le (Real.exp_pos _) hZL
  have hsumle : ∑ c ∈ range (1 + K * B), Real.exp (mfL huge B elnL elnW elng k f c) ≤ Z + (K * B : ℕ) * Real.exp (-huge) := by
    refine (sum_le_sum fun c _ => hle c).trans ?_
    rw [sum_add_distrib]
    refine add_le_add le_rfl ?_
    rw [sum_one_add]
    simp
  have h1 := gibbs_le (1 + K * B) huge s z (fun c => Real.exp (mfL huge B elnL elnW elng k f c)) (mfL huge B elnL elnW elng k f) hs hz hsum
    (fun c _ => (Real.exp_pos _).le) (fun c _ _ => ⟨Real.exp_pos _, (Real.log_exp _).symm⟩)
  rw [rowTerm_eq]
  refine h1.trans ?_
  rw [← mul_add]
  refine mul_le_mul_of_nonneg_left ?_ hs.le
  have hpos : 0 < ∑ c ∈ range (1 + K * B), Real.exp (mfL huge B elnL elnW elng k f c) :=
    sum_pos (fun c _ => Real.exp_pos _) ⟨0, mem_range.2 (by omega)⟩
  refine (Real.log_le_log hpos hsumle).trans ?_
  have e : Z + (K * B : ℕ) * Real.exp (-huge) = Z * (1 + (K * B : ℕ) * Real.exp (-huge) / Z) := by field_simp
  have hnn : (0 : ℝ) ≤ (K * B : ℕ) * Real.exp (-huge) / Z := by positivity
  rw [e, Real.log_mul hZ.ne' (by positivity)]
  refine add_le_add le_rfl ?_
  have := Real.log_le_sub_one_of_pos (show (0 : ℝ) < 1 + (K * B : ℕ) * Real.exp (-huge) / Z by positivity)
  refine this.trans ?_
  rw [add_sub_cancel_left, Real.exp_sub, mul_div_assoc]
  refine mul_le_mul_of_nonneg_left ?_ (Nat.cast_nonneg _)
  exact div_le_div_of_nonneg_left (Real.exp_pos _).le (Real.exp_pos _) hZL

/-- **C15.** The same against *all* nonnegative rows that sum to the observed counts, also those that put mass on parents whose filtered count is
zero. There `log F = -inf` is replaced by `-huge` (the most negative double), so the comparison holds up to a total of
`counts · K·B · exp(-huge - E[ln λ0])`. -/
theorem C15_mf_update_optimal_any_rows (huge : ℝ) (K B : ℕ) (elnL eL : Vec ℝ) (elnW eW : Mat ℝ) (elng : Ten ℝ) (D : DParents ℝ)
    (EZ : ℕ → List (Vec ℝ)) (hF : ∀ t k1 b, 0 ≤ D.F t k1 b) (h32 : ∀ t < D.T, ∀ k < K, D.S t k < 2 ^ 32)
    (hEZ : ∀ k < K, List.Forall₂ (fun t z => (∀ c < 1 + K * B, 0 ≤ z c) ∧ ∑ c ∈ range (1 + K * B), z c = (D.S t k : ℝ)) (D.ts k) (EZ k)) :
    vlbParentsPy huge K B elnL eL elnW eW elng D EZ ≤
      vlbParentsPy huge K B elnL eL elnW eW elng D
        (mfUpdateParents K B (fun k => Real.exp (elnL k)) (fun k1 k2 => Real.exp (elnW k1 k2))
          (fun k1 k2 b => Real.exp (elng k1 k2 b)) D).getEZ
      + ∑ k ∈ range K, ((D.ts k).map fun t => (D.S t k : ℝ) * ((K * B : ℕ) * Real.exp (-huge - elnL k))).sum := by
  rw [vlbParentsPy_split _ _ _ _ _ _ _ _ _ _ (fun k hk => (hEZ k hk).length_eq.symm),
    vlbParentsPy_split _ _ _ _ _ _ _ _ _ _ (fun k hk => by simp [mfUpdateParents, DParents.getEZ, DParents.Ss, DParents.Fs]),
    ← sum_add_distrib]
  refine sum_le_sum fun k hk => ?_
  rw [add_assoc (_ + _)]
  refine add_le_add le_rfl ?_
  have hk := mem_range.1 hk
  have hmem : ∀ t ∈ D.ts k, D.S t k ≠ 0 ∧ D.S t k < 2 ^ 32 := by
    intro t ht
    unfold DParents.ts at ht
    rw [List.mem_filter] at ht
    exact ⟨by simpa using ht.2, h32 t (List.mem_range.1 ht.1) k hk⟩
  have hE := hEZ k hk
  have hU : (mfUpdateParents K B (fun k => Real.exp (elnL k)) (fun k1 k2 => Real.exp (elnW k1 k2))
      (fun k1 k2 b => Real.exp (elng k1 k2 b)) D).getEZ k = (D.ts k).map fun t =>
        mfRowPy K B (Real.exp (elnL k)) (fun k1 => Real.exp (elnW k1 k)) (fun k1 b => Real.exp (elng k1 k b)) (toU32 (D.S t k) : ℝ) (D.F t) := by
    unfold mfUpdateParents DParents.getEZ
    dsimp only
    rw [zip_Ss_Fs, List.map_map]; rfl
  rw [hU]
  generalize D.ts k = l at hE hmem
  generalize EZ k = zs at hE
  induction hE with
  | nil => simp
  | @cons t z l zs hz _ ih =>
    simp only [List.zip_cons_cons, List.map_cons, List.sum_cons]
    obtain ⟨h0, hlt⟩ := hmem t (List.mem_cons_self ..)
    have hs : (0 : ℝ) < (D.S t k : ℝ) := by exact_mod_cast Nat.pos_of_ne_zero h0
    have ih := ih fun t' ht' => hmem t' (List.mem_cons_of_mem _ ht')
    have hr := row_le_any huge K B elnL elnW elng k _ _ _ hs (hF t) hz.1 hz.2
    rw [toU32_of_lt hlt, row_eq huge K B elnL elnW elng k _ _ hs (hF t)]
    linarith

/-- **C15.** The extra allowance vanishes as the stand-in for `-inf` grows: for every ε > 0 all large enough `huge` leave less than ε. -/
theorem C15_allowance_vanishes (K B : ℕ) (elnL : Vec ℝ) (D : DParents ℝ) :
    Filter.Tendsto (fun huge : ℝ => ∑ k ∈ range K, ((D.ts k).map fun t => (D.S t k : ℝ) * ((K * B : ℕ) * Real.exp (-huge - elnL k))).sum)
      Filter.atTop (nhds 0) := by
  rw [show (0 : ℝ) = ∑ k ∈ range K, 0 by simp]
  refine tendsto_finsetSum _ fun k _ => ?_
  induction D.ts k with
  | nil => simp
  | cons t l ih =>
    simp only [List.map_cons, List.sum_cons]
    rw [← add_zero (0 : ℝ)]
    refine Filter.Tendsto.add ?_ ih
    rw [show (0 : ℝ) = (D.S t k : ℝ) * ((K * B : ℕ) * 0) by simp]
    refine Filter.Tendsto.const_mul _ (Filter.Tendsto.const_mul _ ?_)
    refine Real.tendsto_exp_atBot.comp ?_
    simpa [sub_eq_add_neg] using Filter.tendsto_atBot_add_const_right Filter.atTop (-elnL k) Filter.tendsto_neg_atTop_atBot

/-- the hypothesis allows mass everywhere: the count spread evenly over the background and all `K·B` parents -/
example (K B : ℕ) (s : ℝ) (hs : 0 ≤ s) : (∀ c < 1 + K * B, 0 ≤ s / (1 + K * B : ℕ)) ∧ ∑ _c ∈ range (1 + K * B), s / (1 + K * B : ℕ) = s := by
  refine ⟨fun _ _ => by positivity, ?_⟩
  rw [sum_const, card_range, nsmul_eq_mul]
  field_simp

end PyHawkes
