import Verif.Props.StandardFit
import Mathlib.Topology.Order.Compact
import Mathlib.Topology.Algebra.Order.Group
import Mathlib.Analysis.SpecialFunctions.Log.Deriv

/-!
# The optimisation problem of `fit_with_bfgs` has a solution (C71)
-/

set_option linter.unusedVariables false
set_option linter.unusedSectionVars false

namespace PyHawkes
open Finset Spec

/-- a logarithm is beaten by any positive slope -/
theorem log_le_slope (a b : ℝ) (ha : 0 ≤ a) (hb : 0 < b) : ∃ C, ∀ x, 0 < x → a * Real.log x - b * x ≤ C - b / 2 * x := by
  have hs : 0 < 2 * (a + 1) / b := by positivity
  refine ⟨a * Real.log (2 * (a + 1) / b), fun x hx => ?_⟩
  have h1 : Real.log x = Real.log (x / (2 * (a + 1) / b)) + Real.log (2 * (a + 1) / b) := by
    rw [← Real.log_mul (by positivity) (by positivity)]
    congr 1
    field_simp
  have h2 : Real.log (x / (2 * (a + 1) / b)) ≤ x / (2 * (a + 1) / b) := (Real.log_le_sub_one_of_pos (by positivity)).trans (by linarith)
  have h3 : a * (x / (2 * (a + 1) / b)) ≤ b / 2 * x := by
    have : a * (x / (2 * (a + 1) / b)) = (b / 2 * x) * (a / (a + 1)) := by field_simp
    rw [this]
    have h4 : a / (a + 1) ≤ 1 := by rw [div_le_one (by linarith)]; linarith
    have h5 : 0 ≤ b / 2 * x := by positivity
    nlinarith
  have h6 := mul_le_mul_of_nonneg_left h2 ha
  rw [h1, mul_add]
  linarith

theorem lin_ge_bias {K B : ℕ} {D : StdData} (hD : StdDataOk K B D) {w : Vec ℝ} (hw : PosRow (1 + K * B) w) {t : ℕ} (ht : t < D.T) : w 0 ≤ lin (1 + K * B) D.F w t := by
  unfold lin
  have h0 : (0 : ℕ) ∈ range (1 + K * B) := by simp
  have := Finset.single_le_sum (f := fun c => D.F t c * w c) (fun c hc => mul_nonneg (hD.nonneg t ht c (Finset.mem_range.1 hc)) (hw c (Finset.mem_range.1 hc)).le) h0
  rw [hD.one t ht, one_mul] at this
  exact this

/-- one data set: the log likelihood is bounded above, and decreases at least linearly in the bias if the data set has a time bin -/
theorem stdLL_le {K B : ℕ} {D : StdData} (hD : StdDataOk K B D) {dt : ℝ} (hdt : 0 < dt) (k : ℕ) :
    ∃ C, ∀ w, PosRow (1 + K * B) w → stdLL dt (1 + K * B) k D w ≤ C - (if 0 < D.T then dt / 2 * w 0 else 0) := by
  have h : ∀ t, ∃ C, ∀ x, 0 < x → (D.S t k : ℝ) * Real.log x - x * dt ≤ C - dt / 2 * x := fun t => by
    obtain ⟨C, hC⟩ := log_le_slope (D.S t k) dt (Nat.cast_nonneg _) hdt
    exact ⟨C, fun x hx => by rw [mul_comm x dt]; exact hC x hx⟩
  choose C hC using h
  refine ⟨∑ t ∈ range D.T, C t, fun w hw => ?_⟩
  have hw0 : 0 < w 0 := hw 0 (by omega)
  have hlam : ∀ t < D.T, w 0 ≤ lin (1 + K * B) D.F w t := fun t ht => lin_ge_bias hD hw ht
  have hle : stdLL dt (1 + K * B) k D w ≤ ∑ t ∈ range D.T, (C t - dt / 2 * w 0) := by
    unfold stdLL
    refine Finset.sum_le_sum fun t ht => ?_
    have ht := Finset.mem_range.1 ht
    have h1 := hC t _ (lt_of_lt_of_le hw0 (hlam t ht))
    have h2 := mul_le_mul_of_nonneg_left (hlam t ht) (by positivity : (0:ℝ) ≤ dt / 2)
    linarith
  rw [Finset.sum_sub_distrib, Finset.sum_const, card_range, nsmul_eq_mul] at hle
  split
  · next hT =>
    have h1 : (1 : ℝ) ≤ D.T := by exact_mod_cast hT
    have h2 : 0 < dt / 2 * w 0 := by positivity
    nlinarith
  · next hT =>
    have h1 : (0:ℝ) ≤ D.T := Nat.cast_nonneg _
    have h2 : 0 < dt / 2 * w 0 := by positivity
    nlinarith [mul_nonneg h1 h2.le]

theorem stdLL_sum_le {K B : ℕ} (l : List StdData) (hl : ∀ D ∈ l, StdDataOk K B D) {dt : ℝ} (hdt : 0 < dt) (k : ℕ) :
    ∃ C, ∀ w, PosRow (1 + K * B) w → (l.map fun D => stdLL dt (1 + K * B) k D w).sum ≤ C - (if ∃ D ∈ l, 0 < D.T then dt / 2 * w 0 else 0) := by
  induction l with
  | nil => exact ⟨0, fun w hw => by simp⟩
  | cons D l ih =>
    obtain ⟨C1, h1⟩ := stdLL_le (hl D (by simp)) hdt k
    obtain ⟨C2, h2⟩ := ih fun D hD => hl D (List.mem_cons_of_mem _ hD)
    refine ⟨C1 + C2, fun w hw => ?_⟩
    have e1 := h1 w hw
    have e2 := h2 w hw
    have hpos : 0 < dt / 2 * w 0 := by have := hw 0 (by omega); positivity
    rw [List.map_cons, List.sum_cons]
    by_cases hD : 0 < D.T
    · rw [if_pos hD] at e1
      rw [if_pos ⟨D, by simp, hD⟩]
      by_cases hl' : ∃ D ∈ l, 0 < D.T
      · rw [if_pos hl'] at e2; linarith
      · rw [if_neg hl'] at e2; linarith
    · rw [if_neg hD] at e1
      by_cases hl' : ∃ D ∈ l, 0 < D.T
      · rw [if_pos hl'] at e2
        obtain ⟨D', hD', hT'⟩ := hl'
        rw [if_pos ⟨D', List.mem_cons_of_mem _ hD', hT'⟩]; linarith
      · rw [if_neg hl'] at e2
        rw [if_neg]
        · linarith
        · rintro ⟨D', hD', hT'⟩
          rcases List.mem_cons.1 hD' with e | h
          · exact hD (e ▸ hT')
          · exact hl' ⟨D', h, hT'⟩

theorem stdPrior_le {alpha beta : ℝ} (h1 : 1 ≤ alpha) (hb : 0 < beta) (n : ℕ) :
    ∃ C, ∀ w, PosRow n w → stdPrior alpha beta n w ≤ C - ∑ c ∈ Ico 1 n, beta / 2 * w c := by
  obtain ⟨C, hC⟩ := log_le_slope (alpha - 1) beta (by linarith) hb
  refine ⟨∑ c ∈ Ico 1 n, C, fun w hw => ?_⟩
  rw [← Finset.sum_sub_distrib]
  unfold stdPrior
  exact Finset.sum_le_sum fun c hc => hC _ (hw c (Finset.mem_Ico.1 hc).2)

/-- the log posterior decreases at least linearly in every weight -/
theorem stdLP_le {M : StdModel} (hM : StdOk M) (h1 : 1 ≤ M.alpha) (hb : 0 < M.beta) (hdt : 0 < M.dt) (hT : ∃ D ∈ M.data, 0 < D.T) (k : ℕ) :
    ∃ C, ∃ κ > 0, ∀ w, PosRow (1 + M.K * M.B) w → ∀ c < 1 + M.K * M.B, stdLP M k w ≤ C - κ * w c := by
  obtain ⟨C1, h2⟩ := stdLL_sum_le M.data hM hdt k
  obtain ⟨C2, h3⟩ := stdPrior_le h1 hb (1 + M.K * M.B)
  refine ⟨C1 + C2, min (M.dt / 2) (M.beta / 2), by positivity, fun w hw c hc => ?_⟩
  have e1 := h2 w hw
  have e2 := h3 w hw
  rw [if_pos hT] at e1
  have hsum : ∀ c ∈ Ico 1 (1 + M.K * M.B), 0 ≤ M.beta / 2 * w c := fun c hc => by have := hw c (Finset.mem_Ico.1 hc).2; positivity
  have hwc := hw c hc
  have hw0 : 0 < w 0 := hw 0 (by omega)
  unfold stdLP
  by_cases h0 : c = 0
  · subst h0
    have := Finset.sum_nonneg hsum
    have h4 := mul_le_mul_of_nonneg_right (min_le_left (M.dt / 2) (M.beta / 2)) hw0.le
    linarith
  · have h5 := Finset.single_le_sum hsum (Finset.mem_Ico.2 ⟨by omega, hc⟩ : c ∈ Ico 1 (1 + M.K * M.B))
    have h4 := mul_le_mul_of_nonneg_right (min_le_right (M.dt / 2) (M.beta / 2)) hwc.le
    have h6 : 0 < M.dt / 2 * w 0 := by positivity
    linarith

theorem stdLP_cont {M : StdModel} (hM : StdOk M) (k : ℕ) : ContinuousOn (stdLP M k) {w : ℕ → ℝ | PosRow (1 + M.K * M.B) w} := by
  have hc : ∀ c, Continuous fun w : ℕ → ℝ => w c := fun c => continuous_apply c
  have hlin : ∀ D t, Continuous fun w : ℕ → ℝ => lin (1 + M.K * M.B) D w t := fun D t => by
    unfold lin
    exact continuous_finsetSum _ fun c _ => (hc c).const_mul _
  have hLL : ∀ l : List StdData, (∀ D ∈ l, StdDataOk M.K M.B D) →
      ContinuousOn (fun w => (l.map fun D => stdLL M.dt (1 + M.K * M.B) k D w).sum) {w : ℕ → ℝ | PosRow (1 + M.K * M.B) w} := by
    intro l
    induction l with
    | nil => intro _; simp only [List.map_nil, List.sum_nil]; exact continuousOn_const
    | cons D l ih =>
      intro hl
      simp only [List.map_cons, List.sum_cons]
      refine ContinuousOn.add ?_ (ih fun D hD => hl D (List.mem_cons_of_mem _ hD))
      unfold stdLL
      refine continuousOn_finsetSum _ fun t ht => ?_
      have ht := Finset.mem_range.1 ht
      refine ContinuousOn.sub (ContinuousOn.mul continuousOn_const ((hlin D.F t).continuousOn.log fun w hw => ?_)) ((hlin D.F t).mul continuous_const).continuousOn
      exact (lt_of_lt_of_le (hw 0 (by omega)) (lin_ge_bias (hl D (by simp)) hw ht)).ne'
  unfold stdLP
  refine (hLL M.data hM).add ?_
  unfold stdPrior
  refine continuousOn_finsetSum _ fun c hc' => ?_
  have hlt := (Finset.mem_Ico.1 hc').2
  exact ContinuousOn.sub (ContinuousOn.mul continuousOn_const ((hc c).continuousOn.log fun w hw => (hw c hlt).ne')) (continuousOn_const.mul (hc c).continuousOn)

/-- **C71 (a solution exists).** With a positive rate parameter `beta`, a positive bin width, at least one time bin of data and an upper bound `W_max` (if any) that is not below the lower bound, the problem that
`fit_with_bfgs` passes to the optimiser has a solution for every process, whatever the current weights are. -/
theorem C71_optimum_exists {M : StdModel} (hM : StdOk M) (h1 : 1 ≤ M.alpha) (hb : 0 < M.beta) (hdt : 0 < M.dt) (hT : ∃ D ∈ M.data, 0 < D.T) (hmax : ∀ m ∈ M.wMax, 1e-16 ≤ m) :
    ∃ opt : ℕ → StdModel → Vec ℝ, ∀ k < M.K, ∀ w : Mat ℝ, InBfgsBox M (opt k { M with weights := w }) ∧
      ∀ y, InBfgsBox M y → ∃ a b, bfgsObjective { M with weights := w } k (opt k { M with weights := w }) = .ok a ∧ bfgsObjective { M with weights := w } k y = .ok b ∧ a ≤ b := by
  have key : ∀ k, ∃ x, InBfgsBox M x ∧ ∀ y, InBfgsBox M y → stdLP M k y ≤ stdLP M k x := by
    intro k
    obtain ⟨C, κ, hκ, hle⟩ := stdLP_le hM h1 hb hdt hT k
    set x0 : Vec ℝ := fun _ => 1e-16 with hx0
    have hbox0 : InBfgsBox M x0 := fun c _ => ⟨le_rfl, fun _ m hm => hmax m hm⟩
    -- beyond `R` the log posterior is below its value at `x0`
    set R : ℝ := max 1e-16 ((C - stdLP M k x0) / κ) with hR
    set U : ℕ → ℝ := fun c => if 1 ≤ c then (match M.wMax with | none => R | some m => min m R) else R with hU
    have hU16 : ∀ c, 1e-16 ≤ U c := by
      intro c
      rw [hU]
      dsimp only
      have hR16 : (1e-16 : ℝ) ≤ R := le_max_left _ _
      split
      · cases hm : M.wMax with
        | none => exact hR16
        | some m => exact le_min (hmax m hm) hR16
      · exact hR16
    have hcomp : IsCompact (Set.univ.pi fun c => Set.Icc (1e-16 : ℝ) (U c)) := isCompact_univ_pi fun c => isCompact_Icc
    have hne : (Set.univ.pi fun c => Set.Icc (1e-16 : ℝ) (U c)).Nonempty := ⟨x0, fun c _ => ⟨le_rfl, hU16 c⟩⟩
    have hboxK : ∀ x ∈ (Set.univ.pi fun c => Set.Icc (1e-16 : ℝ) (U c)), InBfgsBox M x := by
      intro x hx c hc
      have h := hx c (Set.mem_univ c)
      refine ⟨h.1, fun hc1 m hm => h.2.trans ?_⟩
      rw [hU]
      dsimp only
      rw [if_pos hc1, show M.wMax = some m from hm]
      exact min_le_left _ _
    obtain ⟨x, hx, hmaxx⟩ := hcomp.exists_isMaxOn hne ((stdLP_cont hM k).mono fun x hx => posRow_of_box (hboxK x hx))
    refine ⟨x, hboxK x hx, fun y hy => ?_⟩
    have hx0x : stdLP M k x0 ≤ stdLP M k x := hmaxx fun c _ => ⟨le_rfl, hU16 c⟩
    by_cases hbig : ∃ c < 1 + M.K * M.B, R < y c
    · obtain ⟨c, hc, hyc⟩ := hbig
      have h2 := hle y (posRow_of_box hy) c hc
      have h3 : (C - stdLP M k x0) / κ < y c := lt_of_le_of_lt (le_max_right _ _) hyc
      rw [div_lt_iff₀ hκ] at h3
      linarith
    · push Not at hbig
      -- entries beyond the last column do not matter
      set y' : Vec ℝ := fun c => if c < 1 + M.K * M.B then y c else 1e-16 with hy'
      have hsame : stdLP M k y' = stdLP M k y := by
        have hlin : ∀ F t, lin (1 + M.K * M.B) F y' t = lin (1 + M.K * M.B) F y t := fun F t => by
          unfold lin
          refine Finset.sum_congr rfl fun c hc => ?_
          rw [hy']; dsimp only; rw [if_pos (Finset.mem_range.1 hc)]
        have hpr : stdPrior M.alpha M.beta (1 + M.K * M.B) y' = stdPrior M.alpha M.beta (1 + M.K * M.B) y := by
          unfold stdPrior
          refine Finset.sum_congr rfl fun c hc => ?_
          rw [hy']; dsimp only; rw [if_pos (Finset.mem_Ico.1 hc).2]
        unfold stdLP stdLL
        simp only [hlin, hpr]
      rw [← hsame]
      refine hmaxx fun c _ => ?_
      rw [hy']
      dsimp only
      by_cases hc : c < 1 + M.K * M.B
      · rw [if_pos hc]
        refine ⟨(hy c hc).1, ?_⟩
        rw [hU]
        dsimp only
        split
        · next hc1 =>
          cases hm : M.wMax with
          | none => exact hbig c hc
          | some m => exact le_min ((hy c hc).2 hc1 m hm) (hbig c hc)
        · exact hbig c hc
      · rw [if_neg hc]
        exact ⟨le_rfl, hU16 c⟩
  choose x hx1 hx2 using key
  refine ⟨fun k _ => x k, fun k hk w => ⟨hx1 k, fun y hy => ?_⟩⟩
  have ok' : StdOk { M with weights := w } := hM
  unfold bfgsObjective
  rw [logPost_setRow ok' h1 hk (posRow_of_box (hx1 k)), logPost_setRow ok' h1 hk (posRow_of_box hy)]
  exact ⟨_, _, rfl, rfl, neg_le_neg (hx2 k y hy)⟩

/-- a model with data and an upper bound that meets the hypotheses -/
example : ∃ M : StdModel, StdOk M ∧ 1 ≤ M.alpha ∧ 0 < M.beta ∧ 0 < M.dt ∧ (∃ D ∈ M.data, 0 < D.T) ∧ (∀ m ∈ M.wMax, 1e-16 ≤ m) ∧ M.wMax.isSome := by
  refine ⟨{ K := 1, B := 1, L := 1, dt := 1, alpha := 2, beta := 3, allowSelf := true, wMax := some 5, basis := fun _ _ => 1, weights := fun _ _ => 1,
            data := [⟨2, fun t _ => t, 2, 2, fun t c => if c = 0 then 1 else t⟩] }, ?_, by norm_num, by norm_num, by norm_num, ⟨_, List.mem_singleton.2 rfl, by norm_num⟩, ?_, rfl⟩
  · intro D hD
    rw [List.mem_singleton] at hD
    subst hD
    refine ⟨rfl, rfl, fun t _ => by simp, fun t _ c _ => ?_⟩
    dsimp only
    split
    · norm_num
    · exact Nat.cast_nonneg _
  · intro m hm
    have : m = 5 := by simpa using hm.symm
    rw [this]; norm_num

end PyHawkes
