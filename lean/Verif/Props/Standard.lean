import Verif.Spec.Standard
import Mathlib.Algebra.BigOperators.Field
import Mathlib.Analysis.SpecialFunctions.Log.Deriv
import Mathlib.Analysis.SpecialFunctions.ExpDeriv
import Mathlib.Analysis.Convex.Function

/-!
# The standard model: objective, gradient, concavity (C35, C36, C40)
-/

set_option linter.unusedSectionVars false

namespace PyHawkes
open Finset Spec

/-! ### Helpers -/

theorem pyIdx_nat {n i : ℕ} (h : i < n) : pyIdx n (i : ℤ) = some i := by
  unfold pyIdx
  rw [if_pos ⟨by omega, by exact_mod_cast h⟩]
  simp

theorem forListE_ok_list {α σ : Type*} (xs : List α) (f : α → σ → Except PyErr σ) (g : α → σ → σ) (s : σ)
    (h : ∀ x ∈ xs, ∀ s, f x s = .ok (g x s)) : forListE xs f s = .ok (xs.foldl (fun s x => g x s) s) := by
  induction xs generalizing s with
  | nil => rfl
  | cons x xs ih =>
    unfold forListE
    rw [h x (by simp)]
    dsimp only
    rw [ih _ (fun y hy => h y (List.mem_cons_of_mem _ hy))]
    rfl

theorem foldl_add_list {α : Type*} (xs : List α) (f : α → ℝ) (a : ℝ) : xs.foldl (fun s x => s + f x) a = a + (xs.map f).sum := by
  induction xs generalizing a with
  | nil => simp
  | cons x xs ih => simp [ih, add_assoc]

theorem map_range_getElem {α β : Type*} (l : List α) (d : α) (f : α → β) :
    (List.range l.length).map (fun i => f (l.getD i d)) = l.map f := by
  apply List.ext_getElem
  · simp
  · intro i h1 h2
    simp at h1
    simp [List.getD, h1]

theorem lin_pos {K B : ℕ} {D : StdData} (hD : StdDataOk K B D) {w : Vec ℝ} (hw : PosRow (1 + K * B) w) {t : ℕ} (ht : t < D.T) :
    0 < lin (1 + K * B) D.F w t := by
  unfold lin
  rw [add_comm 1, Finset.sum_range_succ']
  have h0 : 0 < D.F t 0 * w 0 := by rw [hD.one t ht, one_mul]; exact hw 0 (by omega)
  have : 0 ≤ ∑ c ∈ range (K * B), D.F t (c + 1) * w (c + 1) := by
    apply Finset.sum_nonneg
    intro c hc
    have hc := Finset.mem_range.1 hc
    exact mul_nonneg (hD.nonneg t ht _ (by omega)) (hw _ (by omega)).le
  linarith

theorem rate_eq_lin (M : StdModel) (D : StdData) (k t : ℕ) : M.rate D k t = lin (1 + M.K * M.B) D.F (M.weights k) t := rfl

theorem llTerm_eq (M : StdModel) (D : StdData) (k : ℕ) : M.llTerm D k = stdLL M.dt (1 + M.K * M.B) k D (M.weights k) := rfl

/-- the contribution of one data set for valid data and positive weights -/
theorem stdLLInc_eq {M : StdModel} (hM : StdOk M) {ks : KsArg} {cs : List ℕ} (hks : ks.cols M.K = .ok cs)
    (hw : ∀ k ∈ cs, PosRow M.n (M.weights k)) {i : ℕ} (hlt : i < M.data.length) :
    stdLLInc M ks (i : ℤ) = .ok (cs.map fun k => M.llTerm M.data[i] k).sum := by
  have hD := hM _ (List.getElem_mem hlt)
  unfold stdLLInc stdComputeRate
  simp only [Option.getD_some, pyIdx_nat hlt, List.getElem?_eq_getElem hlt, hks]
  rw [if_neg (by rw [hD.cols]; simp)]
  dsimp only
  rw [if_neg (by rw [hD.rows]; simp), if_neg]
  push Not
  intro k hk t ht
  exact lin_pos hD (hw k hk) ht

/-- the log likelihood of valid data with positive weights -/
theorem stdLogLik_list {M : StdModel} (hM : StdOk M) {ks : KsArg} {cs : List ℕ} (hks : ks.cols M.K = .ok cs)
    (hw : ∀ k ∈ cs, PosRow M.n (M.weights k)) (l : List ℕ) (hl : ∀ i ∈ l, i < M.data.length) (d : StdData) :
    stdLogLik M (.list (l.map fun (i : ℕ) => (i : ℤ))) ks =
      .ok ((l.map fun i => (cs.map fun k => M.llTerm (M.data.getD i d) k).sum).sum) := by
  unfold stdLogLik
  simp only [IdxArg.list']
  rw [forListE_ok_list _ _ (fun i ll => ll + (cs.map fun k => M.llTerm (M.data.getD i.toNat d) k).sum)]
  · rw [foldl_add_list, zero_add, List.map_map]
    rfl
  · intro x hx s
    obtain ⟨i, hi, rfl⟩ := List.mem_map.1 hx
    unfold stdLLStep; rw [stdLLInc_eq hM hks hw (hl i hi)]
    simp [List.getD, hl i hi]

theorem stdLogLik_none_eq (M : StdModel) (ks : KsArg) :
    stdLogLik M .none ks = stdLogLik M (.list ((List.range M.data.length).map fun (i : ℕ) => (i : ℤ))) ks := rfl

/-- the log likelihood over all data sets -/
theorem stdLogLik_none {M : StdModel} (hM : StdOk M) {ks : KsArg} {cs : List ℕ} (hks : ks.cols M.K = .ok cs)
    (hw : ∀ k ∈ cs, PosRow M.n (M.weights k)) :
    stdLogLik M .none ks = .ok ((M.data.map fun D => (cs.map fun k => M.llTerm D k).sum).sum) := by
  rw [stdLogLik_none_eq]
  rw [stdLogLik_list hM hks hw _ (by simp) ⟨0, fun _ _ => 0, 0, 0, fun _ _ => 0⟩]
  rw [map_range_getElem M.data _ fun D => (cs.map fun k => M.llTerm D k).sum]

/-- the log prior -/
theorem stdLogPrior_eq {M : StdModel} (h1 : 1 ≤ M.alpha) {l : List ℕ} (hl : ∀ k ∈ l, k < M.K) (hw : ∀ k ∈ l, PosRow M.n (M.weights k)) :
    stdLogPrior M (.arr l) = .ok ((l.map fun k => stdPrior M.alpha M.beta (1 + M.K * M.B) (M.weights k)).sum) := by
  unfold stdLogPrior
  dsimp only
  rw [if_neg (by simpa using hl)]
  rw [forListE_ok_list _ _ (fun k lp => lp + stdPrior M.alpha M.beta (1 + M.K * M.B) (M.weights k))]
  · rw [foldl_add_list, zero_add]
  · intro k hk s
    unfold stdPriorStep; rw [if_neg]
    · refine congrArg Except.ok ?_
      unfold stdPrior
      rw [Finset.sum_sub_distrib, ← Finset.mul_sum]
      by_cases ha : M.alpha > 1
      · rw [if_pos ha]; unfold StdModel.n; rw [← Finset.mul_sum, ← Finset.mul_sum]; ring
      · rw [if_neg ha]
        have : M.alpha = 1 := le_antisymm (not_lt.1 ha) h1
        rw [this]; unfold StdModel.n; rw [← Finset.mul_sum, ← Finset.mul_sum]; ring
    · rintro ⟨_, c, hc, _, h⟩
      exact absurd (hw k hk c hc) (not_lt.2 h)

theorem cols_arr {K : ℕ} {l : List ℕ} (h : l ≠ []) (hl : ∀ k ∈ l, k < K) : (KsArg.arr l).cols K = .ok l := by
  unfold KsArg.cols
  dsimp only
  rw [if_neg h, if_pos hl]

/-- **C35/C36 (what the objective is).** With positive weights, well-formed data and `alpha ≥ 1`, `log_posterior(ks=[k])` succeeds and returns the log posterior of process `k` at its
current weights (Poisson log likelihood plus gamma prior), so the claims below are about the value the API returns. -/
theorem C35_log_posterior_value {M : StdModel} (hM : StdOk M) (h1 : 1 ≤ M.alpha) {k : ℕ} (hk : k < M.K) (hw : PosRow (1 + M.K * M.B) (M.weights k)) :
    stdLogPost M .none (.arr [k]) = .ok (stdLP M k (M.weights k)) := by
  unfold stdLogPost
  dsimp only
  rw [stdLogLik_none hM (cols_arr (by simp) (by simpa using hk)) (by simpa using hw), stdLogPrior_eq h1 (by simpa using hk) (by simpa using hw)]
  simp [stdLP, llTerm_eq]

/-! ### The gradient -/

/-- explicit partial derivatives of the log posterior -/
noncomputable def lpGrad (M : StdModel) (k : ℕ) (w : Vec ℝ) (c : ℕ) : ℝ :=
  (M.data.map fun D => ∑ t ∈ range D.T, ((D.S t k : ℝ) / lin (1 + M.K * M.B) D.F w t - M.dt) * D.F t c).sum
    + if c = 0 then 0 else (M.alpha - 1) / w c - M.beta

theorem foldl_vec (xs : List ℤ) (f : ℤ → Vec ℝ) (g0 : Vec ℝ) (c : ℕ) :
    xs.foldl (fun (g : Vec ℝ) x => fun c => g c + f x c) g0 c = g0 c + (xs.map fun x => f x c).sum := by
  induction xs generalizing g0 with
  | nil => simp
  | cons x xs ih => simp [ih, add_assoc]

theorem stdGradBody_list {M : StdModel} (hM : StdOk M) {k : ℕ} (hk : k < M.K) (hw : PosRow (1 + M.K * M.B) (M.weights k)) (l : List ℕ) (hl : ∀ i ∈ l, i < M.data.length)
    (d : StdData) (g0 : Vec ℝ) :
    forListE (l.map fun (i : ℕ) => (i : ℤ)) (stdGradBody M k) g0 = .ok fun c => g0 c + (l.map fun i => M.gradData (M.data.getD i d) k c).sum := by
  rw [forListE_ok_list _ _ (fun i (g : Vec ℝ) => fun c => g c + M.gradData (M.data.getD i.toNat d) k c)]
  · congr 1
    funext c
    rw [foldl_vec _ (fun i => M.gradData (M.data.getD i.toNat d) k), List.map_map]
    rfl
  · intro x hx s
    obtain ⟨i, hi, rfl⟩ := List.mem_map.1 hx
    have hlt := hl i hi
    have hD := hM _ (List.getElem_mem hlt)
    unfold stdGradBody stdComputeRate
    simp only [Option.getD_some, pyIdx_nat hlt, List.getElem?_eq_getElem hlt, KsArg.cols, if_pos hk]
    rw [if_neg (by rw [hD.cols]; simp)]
    dsimp only
    rw [if_neg (by rw [hD.rows]; simp), if_neg]
    · simp [List.getD, hlt]
    · push Not
      intro t ht
      exact (lin_pos hD hw ht).ne'

theorem stdGradBody_fold {M : StdModel} (hM : StdOk M) {k : ℕ} (hk : k < M.K) (hw : PosRow (1 + M.K * M.B) (M.weights k)) :
    forListE ((IdxArg.none).list' M.data.length) (stdGradBody M k) (fun _ => 0) = .ok fun c => 0 + (M.data.map fun D => M.gradData D k c).sum := by
  simp only [IdxArg.list']
  rw [stdGradBody_list hM hk hw _ (by simp) ⟨0, fun _ _ => 0, 0, 0, fun _ _ => 0⟩]
  congr 1
  funext c
  rw [map_range_getElem M.data _ fun D => M.gradData D k c]

theorem stdGradient_eq {M : StdModel} (hM : StdOk M) (h1 : 1 ≤ M.alpha) {k : ℕ} (hk : k < M.K) (hw : PosRow (1 + M.K * M.B) (M.weights k))
    (hs : M.allowSelf = false → ∀ c, IsSelf M.B k c → |M.weights k c| ≤ 1e-8) :
    stdGradient M k .none = .ok fun c => if M.allowSelf = false ∧ 1 + k * M.B ≤ c ∧ c < 1 + (k + 1) * M.B then 0 else lpGrad M k (M.weights k) c := by
  have hfold := stdGradBody_fold hM hk hw
  unfold stdGradient
  rw [hfold]
  dsimp only
  rw [if_neg (by simpa using hk), if_neg]
  swap
  · rintro ⟨_, c, hc, _, h⟩
    exact absurd (hw c hc) (by rw [h]; simp)
  have hg : ∀ c, (0 + (M.data.map fun D => M.gradData D k c).sum) + M.gradPrior k c = lpGrad M k (M.weights k) c := by
    intro c
    unfold lpGrad StdModel.gradPrior StdModel.gradData
    rw [zero_add]
    congr 1
    · simp [rate_eq_lin]
    · by_cases hc : c = 0
      · simp [hc]
      · rw [if_neg hc, if_neg hc]
        by_cases ha : M.alpha > 1
        · rw [if_pos ha]; ring
        · rw [if_neg ha]
          have : M.alpha = 1 := le_antisymm (not_lt.1 ha) h1
          rw [this]; ring
  cases hsf : M.allowSelf
  · simp only [Bool.not_false, if_true, true_and]
    rw [if_neg]
    · congr 1; funext c; rw [hg]
    · push Not
      intro c hc1 hc2
      exact hs hsf c ⟨hc2, hc1⟩
  · simp only [Bool.not_true, Bool.false_eq_true, if_false, false_and, Bool.true_eq_false]
    congr 1; funext c; rw [hg]

theorem lin_add_smul (n : ℕ) (F : Mat ℝ) (w v : Vec ℝ) (s : ℝ) (t : ℕ) : lin n F (fun c => w c + s * v c) t = lin n F w t + s * lin n F v t := by
  unfold lin
  rw [Finset.mul_sum, ← Finset.sum_add_distrib]
  exact Finset.sum_congr rfl fun c _ => by ring

theorem hasDerivAt_list_sum {α : Type*} (l : List α) (f : α → ℝ → ℝ) (f' : α → ℝ) (x : ℝ) (h : ∀ a ∈ l, HasDerivAt (f a) (f' a) x) :
    HasDerivAt (fun s => (l.map fun a => f a s).sum) (l.map f').sum x := by
  induction l with
  | nil => simpa using hasDerivAt_const x (0 : ℝ)
  | cons a l ih =>
    simp only [List.map_cons, List.sum_cons]
    exact (h a (by simp)).add (ih fun b hb => h b (List.mem_cons_of_mem _ hb))

/-- derivative of the log posterior along a curve of weight vectors -/
theorem stdLP_hasDerivAt_curve {M : StdModel} (hM : StdOk M) {k : ℕ} {w : Vec ℝ} (hw : PosRow (1 + M.K * M.B) w) {x : ℝ → Vec ℝ} {v : Vec ℝ}
    (h0 : ∀ c < 1 + M.K * M.B, x 0 c = w c) (hx : ∀ c < 1 + M.K * M.B, HasDerivAt (fun s => x s c) (v c) 0) :
    HasDerivAt (fun s => stdLP M k (x s)) (∑ c ∈ range (1 + M.K * M.B), lpGrad M k w c * v c) 0 := by
  have hlin : ∀ F : Mat ℝ, ∀ t, HasDerivAt (fun s : ℝ => lin (1 + M.K * M.B) F (x s) t) (lin (1 + M.K * M.B) F v t) 0 := by
    intro F t
    unfold lin
    apply HasDerivAt.fun_sum
    intro c hc
    exact (hx c (Finset.mem_range.1 hc)).const_mul _
  have hlin0 : ∀ F : Mat ℝ, ∀ t, lin (1 + M.K * M.B) F (x 0) t = lin (1 + M.K * M.B) F w t := by
    intro F t
    unfold lin
    apply Finset.sum_congr rfl
    intro c hc
    rw [h0 c (Finset.mem_range.1 hc)]
  have hlist : HasDerivAt (fun s => (M.data.map fun D => stdLL M.dt (1 + M.K * M.B) k D (x s)).sum)
      (M.data.map fun D => ∑ t ∈ range D.T, ((D.S t k : ℝ) / lin (1 + M.K * M.B) D.F w t - M.dt) * lin (1 + M.K * M.B) D.F v t).sum 0 := by
    apply hasDerivAt_list_sum
    intro D hD
    unfold stdLL
    apply HasDerivAt.fun_sum
    intro t ht
    have hp := lin_pos (hM D hD) hw (Finset.mem_range.1 ht)
    have hl := hlin D.F t
    have hlog := (hl.log (by rw [hlin0]; exact hp.ne')).const_mul (D.S t k : ℝ)
    refine (hlog.fun_sub (hl.mul_const M.dt)).congr_deriv ?_
    rw [hlin0]
    ring
  have hprior : HasDerivAt (fun s => stdPrior M.alpha M.beta (1 + M.K * M.B) (x s))
      (∑ c ∈ Ico 1 (1 + M.K * M.B), ((M.alpha - 1) / w c - M.beta) * v c) 0 := by
    unfold stdPrior
    apply HasDerivAt.fun_sum
    intro c hc
    have hc := Finset.mem_Ico.1 hc
    have hl := hx c hc.2
    refine (((hl.log (by rw [h0 c hc.2]; exact (hw c hc.2).ne')).const_mul (M.alpha - 1)).fun_sub (hl.const_mul M.beta)).congr_deriv ?_
    rw [h0 c hc.2]
    ring
  refine (hlist.fun_add hprior).congr_deriv ?_
  unfold lpGrad
  simp only [add_mul, Finset.sum_add_distrib]
  congr 1
  · -- exchange the sums
    have : ∀ l : List StdData, (l.map fun D => ∑ t ∈ range D.T, ((D.S t k : ℝ) / lin (1 + M.K * M.B) D.F w t - M.dt) * lin (1 + M.K * M.B) D.F v t).sum
        = ∑ c ∈ range (1 + M.K * M.B), (l.map fun D => ∑ t ∈ range D.T, ((D.S t k : ℝ) / lin (1 + M.K * M.B) D.F w t - M.dt) * D.F t c).sum * v c := by
      intro l
      induction l with
      | nil => simp
      | cons D l ih =>
        simp only [List.map_cons, List.sum_cons, add_mul, Finset.sum_add_distrib, ih]
        congr 1
        simp only [Finset.sum_mul]
        rw [Finset.sum_comm]
        apply Finset.sum_congr rfl
        intro t _
        have : lin (1 + M.K * M.B) D.F v t = ∑ c ∈ range (1 + M.K * M.B), D.F t c * v c := rfl
        rw [this, Finset.mul_sum]
        exact Finset.sum_congr rfl fun c _ => by ring
    exact this _
  · rw [Finset.range_eq_Ico, Finset.sum_eq_sum_Ico_succ_bot (show 0 < 1 + M.K * M.B by omega), if_pos rfl, zero_mul, zero_add]
    apply Finset.sum_congr rfl
    intro c hc
    have hc := Finset.mem_Ico.1 hc
    rw [if_neg (by omega)]

/-- directional derivative of the log posterior -/
theorem stdLP_hasDerivAt {M : StdModel} (hM : StdOk M) {k : ℕ} {w : Vec ℝ} (hw : PosRow (1 + M.K * M.B) w) (v : Vec ℝ) :
    HasDerivAt (fun s => stdLP M k (fun c => w c + s * v c)) (∑ c ∈ range (1 + M.K * M.B), lpGrad M k w c * v c) 0 := by
  apply stdLP_hasDerivAt_curve hM hw (x := fun s c => w c + s * v c)
  · intro c _; simp
  · intro c _
    simpa using ((hasDerivAt_id (0:ℝ)).mul_const (v c)).const_add (w c)

theorem posRow_near (n : ℕ) (w v : Vec ℝ) (hw : PosRow n w) : ∀ᶠ s in nhds (0:ℝ), PosRow n (fun c => w c + s * v c) := by
  unfold PosRow
  induction n with
  | zero => simp
  | succ n ih =>
    have h1 := ih fun c hc => hw c (by omega)
    have h2 : ∀ᶠ s in nhds (0:ℝ), 0 < w n + s * v n := by
      have : ContinuousAt (fun s : ℝ => w n + s * v n) 0 := by fun_prop
      exact this.eventually (lt_mem_nhds (by simpa using hw n (by omega)))
    filter_upwards [h1, h2] with s a b c hc
    rcases Nat.lt_succ_iff_lt_or_eq.1 hc with h | h
    · exact a c h
    · rw [h]; exact b

theorem setRow_ok {M : StdModel} (hM : StdOk M) (k : ℕ) (x : Vec ℝ) : StdOk (M.setRow k x) := hM

theorem setRow_weights (M : StdModel) (k : ℕ) (x : Vec ℝ) : (M.setRow k x).weights k = x := by simp [StdModel.setRow]

theorem stdLP_setRow (M : StdModel) (k : ℕ) (x w : Vec ℝ) : stdLP (M.setRow k x) k w = stdLP M k w := rfl

theorem logPost_setRow {M : StdModel} (hM : StdOk M) (h1 : 1 ≤ M.alpha) {k : ℕ} (hk : k < M.K) {x : Vec ℝ} (hx : PosRow (1 + M.K * M.B) x) :
    stdLogPost (M.setRow k x) .none (.arr [k]) = .ok (stdLP M k x) := by
  rw [C35_log_posterior_value (setRow_ok hM k x) h1 hk (by rw [setRow_weights]; exact hx), setRow_weights, stdLP_setRow]

/-- **C35 (gradient).** For well-formed data, positive weights and `alpha ≥ 1` (and self weights below the `1e-8` the code insists on if self connections are disallowed), `compute_gradient(k)` succeeds, its
self entries are zero if self connections are disallowed, and in every direction `v` that leaves the forbidden self weights alone, the derivative of the value that `log_posterior(ks=[k])` returns when
row `k` of the weights is moved along `v` is the inner product of `v` with the returned vector. Along the way `log_posterior` succeeds. -/
theorem C35_gradient {M : StdModel} (hM : StdOk M) (h1 : 1 ≤ M.alpha) {k : ℕ} (hk : k < M.K) (hw : PosRow (1 + M.K * M.B) (M.weights k))
    (hs : M.allowSelf = false → ∀ c, IsSelf M.B k c → |M.weights k c| ≤ 1e-8) :
    ∃ g : Vec ℝ, stdGradient M k .none = .ok g ∧ (M.allowSelf = false → ∀ c, IsSelf M.B k c → g c = 0) ∧
      ∀ v : Vec ℝ, (M.allowSelf = false → ∀ c, IsSelf M.B k c → v c = 0) →
        (∀ᶠ s in nhds (0:ℝ), ∃ y, stdLogPost (M.setRow k fun c => M.weights k c + s * v c) .none (.arr [k]) = .ok y) ∧
        HasDerivAt (fun s => okD 0 (stdLogPost (M.setRow k fun c => M.weights k c + s * v c) .none (.arr [k])))
          (∑ c ∈ range (1 + M.K * M.B), g c * v c) 0 := by
  refine ⟨_, stdGradient_eq hM h1 hk hw hs, ?_, ?_⟩
  · intro h c hc
    exact if_pos ⟨h, hc.1, hc.2⟩
  · intro v hv
    have hnear := posRow_near _ _ v hw
    have heq : ∀ᶠ s in nhds (0:ℝ), stdLogPost (M.setRow k fun c => M.weights k c + s * v c) .none (.arr [k]) = .ok (stdLP M k fun c => M.weights k c + s * v c) := by
      filter_upwards [hnear] with s hs
      exact logPost_setRow hM h1 hk hs
    refine ⟨heq.mono fun s h => ⟨_, h⟩, ?_⟩
    have hd := stdLP_hasDerivAt hM (k := k) hw v
    have hsum : ∑ c ∈ range (1 + M.K * M.B), (if M.allowSelf = false ∧ 1 + k * M.B ≤ c ∧ c < 1 + (k + 1) * M.B then 0 else lpGrad M k (M.weights k) c) * v c
        = ∑ c ∈ range (1 + M.K * M.B), lpGrad M k (M.weights k) c * v c := by
      apply Finset.sum_congr rfl
      intro c _
      by_cases h : M.allowSelf = false ∧ 1 + k * M.B ≤ c ∧ c < 1 + (k + 1) * M.B
      · rw [if_pos h, hv h.1 c ⟨h.2.1, h.2.2⟩]; simp
      · rw [if_neg h]
    rw [hsum]
    refine hd.congr_of_eventuallyEq ?_
    filter_upwards [heq] with s hs
    rw [hs]; rfl

/-- **C35 (partial derivatives).** The special case of one coordinate: entry `c` of `compute_gradient(k)` is the derivative of `log_posterior(ks=[k])` with respect to weight `c` of process `k`. -/
theorem C35_partial_derivative {M : StdModel} (hM : StdOk M) (h1 : 1 ≤ M.alpha) {k : ℕ} (hk : k < M.K) (hw : PosRow (1 + M.K * M.B) (M.weights k))
    (hs : M.allowSelf = false → ∀ c, IsSelf M.B k c → |M.weights k c| ≤ 1e-8) :
    ∃ g : Vec ℝ, stdGradient M k .none = .ok g ∧ ∀ c < 1 + M.K * M.B, (M.allowSelf = false → ¬ IsSelf M.B k c) →
      HasDerivAt (fun x => okD 0 (stdLogPost (M.setRow k (Vec.set (M.weights k) c x)) .none (.arr [k]))) (g c) (M.weights k c) := by
  obtain ⟨g, hg, -, hd⟩ := C35_gradient hM h1 hk hw hs
  refine ⟨g, hg, fun c hc hns => ?_⟩
  have := (hd (fun d => if d = c then 1 else 0) (fun h d hd' => by
    by_cases hdc : d = c
    · exact absurd (hdc ▸ hd') (hns h)
    · simp [hdc])).2
  have hsum : ∑ d ∈ range (1 + M.K * M.B), g d * (if d = c then (1:ℝ) else 0) = g c := by
    simp only [mul_ite, mul_one, mul_zero]
    rw [Finset.sum_ite_eq' (range (1 + M.K * M.B)) c g, if_pos (Finset.mem_range.2 hc)]
  rw [hsum] at this
  have hcomp := HasDerivAt.comp_sub_const (f := fun s => okD 0 (stdLogPost (M.setRow k fun d => M.weights k d + s * (if d = c then 1 else 0)) .none (.arr [k])))
    (M.weights k c) (M.weights k c) (by simpa using this)
  refine hcomp.congr_of_eventuallyEq (Filter.Eventually.of_forall fun x => ?_)
  have : (Vec.set (M.weights k) c x) = fun d => M.weights k d + (x - M.weights k c) * (if d = c then 1 else 0) := by
    funext d
    unfold Vec.set
    by_cases h : d = c
    · simp [h]
    · simp [h]
  simp only [this]

/-- **C35 (log space).** The vector used by the log-space optimiser and by the gradient steps, `compute_gradient(k).dot(diag(weights[k]))`, is the gradient of `log_posterior` as a function of the
logarithms of the weights: its inner product with `v` is the derivative when the log weights move along `v`. -/
theorem C35_log_space {M : StdModel} (hM : StdOk M) (h1 : 1 ≤ M.alpha) {k : ℕ} (hk : k < M.K) (hw : PosRow (1 + M.K * M.B) (M.weights k))
    (hs : M.allowSelf = false → ∀ c, IsSelf M.B k c → |M.weights k c| ≤ 1e-8) :
    ∃ g : Vec ℝ, stdLogGradient M k .none = .ok g ∧ (M.allowSelf = false → ∀ c, IsSelf M.B k c → g c = 0) ∧
      ∀ v : Vec ℝ, (M.allowSelf = false → ∀ c, IsSelf M.B k c → v c = 0) →
        HasDerivAt (fun s => okD 0 (stdLogPost (M.setRow k fun c => Real.exp (Real.log (M.weights k c) + s * v c)) .none (.arr [k])))
          (∑ c ∈ range (1 + M.K * M.B), g c * v c) 0 := by
  have hdiag : ∀ g : Vec ℝ, ∀ c < 1 + M.K * M.B, ∑ d ∈ range M.n, g d * (if d = c then M.weights k d else 0) = g c * M.weights k c := by
    intro g c hc
    simp only [mul_ite, mul_zero]
    rw [Finset.sum_ite_eq' (range M.n) c (fun d => g d * M.weights k d), if_pos (Finset.mem_range.2 hc)]
  have hdiag0 : ∀ g : Vec ℝ, ∀ c, g c = 0 → ∑ d ∈ range M.n, g d * (if d = c then M.weights k d else 0) = 0 := by
    intro g c hc
    apply Finset.sum_eq_zero
    intro d _
    by_cases h : d = c
    · rw [h, hc]; simp
    · simp [h]
  refine ⟨fun c => ∑ d ∈ range M.n, (if M.allowSelf = false ∧ 1 + k * M.B ≤ d ∧ d < 1 + (k + 1) * M.B then 0 else lpGrad M k (M.weights k) d) * (if d = c then M.weights k d else 0), ?_, ?_, ?_⟩
  · unfold stdLogGradient
    rw [stdGradient_eq hM h1 hk hw hs]
  · intro h c hc
    exact hdiag0 _ c (if_pos ⟨h, hc.1, hc.2⟩)
  · intro v hv
    -- the curve s ↦ exp(log w + s v) has all its points positive; differentiate the composition coordinatewise
    have hpos : ∀ s, PosRow (1 + M.K * M.B) (fun c => Real.exp (Real.log (M.weights k c) + s * v c)) := fun s c _ => Real.exp_pos _
    have hfun : (fun s => okD 0 (stdLogPost (M.setRow k fun c => Real.exp (Real.log (M.weights k c) + s * v c)) .none (.arr [k])))
        = fun s => stdLP M k (fun c => Real.exp (Real.log (M.weights k c) + s * v c)) := by
      funext s
      rw [logPost_setRow hM h1 hk (hpos s)]; rfl
    rw [hfun]
    have := stdLP_hasDerivAt_curve hM (k := k) hw (x := fun s c => Real.exp (Real.log (M.weights k c) + s * v c)) (v := fun c => M.weights k c * v c)
      (by intro c hc; simp [Real.exp_log (hw c hc)]) (by
        intro c hc
        have hl : HasDerivAt (fun s : ℝ => Real.log (M.weights k c) + s * v c) (v c) 0 := by
          simpa using ((hasDerivAt_id (0:ℝ)).mul_const (v c)).const_add (Real.log (M.weights k c))
        refine hl.exp.congr_deriv ?_
        rw [zero_mul, add_zero, Real.exp_log (hw c hc)])
    refine this.congr_deriv ?_
    apply Finset.sum_congr rfl
    intro c hc
    have hc := Finset.mem_range.1 hc
    dsimp only
    rw [hdiag (fun d => if M.allowSelf = false ∧ 1 + k * M.B ≤ d ∧ d < 1 + (k + 1) * M.B then 0 else lpGrad M k (M.weights k) d) c hc]
    by_cases h : M.allowSelf = false ∧ 1 + k * M.B ≤ c ∧ c < 1 + (k + 1) * M.B
    · rw [if_pos h, hv h.1 c ⟨h.2.1, h.2.2⟩]; simp
    · rw [if_neg h]; ring

/-! ### Concavity -/

/-- supergradient inequality -/
theorem stdLP_supergradient {M : StdModel} (hM : StdOk M) (h1 : 1 ≤ M.alpha) {k : ℕ} {w w' : Vec ℝ} (hw : PosRow (1 + M.K * M.B) w) (hw' : PosRow (1 + M.K * M.B) w') :
    stdLP M k w' ≤ stdLP M k w + ∑ c ∈ range (1 + M.K * M.B), lpGrad M k w c * (w' c - w c) := by
  have hlog : ∀ {x y : ℝ}, 0 < x → 0 < y → Real.log y ≤ Real.log x + (y - x) / x := by
    intro x y hx hy
    have := Real.log_le_sub_one_of_pos (div_pos hy hx)
    rw [Real.log_div hy.ne' hx.ne'] at this
    rw [sub_div, div_self hx.ne']
    linarith
  -- the derivative of the linear path gives the inner product; reuse it by uniqueness
  have hd := stdLP_hasDerivAt hM (k := k) hw (fun c => w' c - w c)
  -- concave along the line via the tangent bound termwise
  have key : ∀ D ∈ M.data, stdLL M.dt (1 + M.K * M.B) k D w' ≤ stdLL M.dt (1 + M.K * M.B) k D w
      + ∑ c ∈ range (1 + M.K * M.B), (∑ t ∈ range D.T, ((D.S t k : ℝ) / lin (1 + M.K * M.B) D.F w t - M.dt) * D.F t c) * (w' c - w c) := by
    intro D hD
    have hex : ∑ c ∈ range (1 + M.K * M.B), (∑ t ∈ range D.T, ((D.S t k : ℝ) / lin (1 + M.K * M.B) D.F w t - M.dt) * D.F t c) * (w' c - w c)
        = ∑ t ∈ range D.T, ((D.S t k : ℝ) / lin (1 + M.K * M.B) D.F w t - M.dt) * (lin (1 + M.K * M.B) D.F w' t - lin (1 + M.K * M.B) D.F w t) := by
      simp only [Finset.sum_mul]
      rw [Finset.sum_comm]
      apply Finset.sum_congr rfl
      intro t _
      unfold lin
      rw [← Finset.sum_sub_distrib, Finset.mul_sum]
      exact Finset.sum_congr rfl fun c _ => by ring
    rw [hex]
    unfold stdLL
    rw [← Finset.sum_add_distrib]
    apply Finset.sum_le_sum
    intro t ht
    have ht := Finset.mem_range.1 ht
    have hx := lin_pos (hM D hD) hw ht
    have hy := lin_pos (hM D hD) hw' ht
    have := mul_le_mul_of_nonneg_left (hlog hx hy) (Nat.cast_nonneg (α := ℝ) (D.S t k))
    have e : (D.S t k : ℝ) * ((lin (1 + M.K * M.B) D.F w' t - lin (1 + M.K * M.B) D.F w t) / lin (1 + M.K * M.B) D.F w t)
        = (D.S t k : ℝ) / lin (1 + M.K * M.B) D.F w t * (lin (1 + M.K * M.B) D.F w' t - lin (1 + M.K * M.B) D.F w t) := by ring
    nlinarith [this, e]
  have hpr : stdPrior M.alpha M.beta (1 + M.K * M.B) w' ≤ stdPrior M.alpha M.beta (1 + M.K * M.B) w
      + ∑ c ∈ range (1 + M.K * M.B), (if c = 0 then 0 else (M.alpha - 1) / w c - M.beta) * (w' c - w c) := by
    rw [Finset.range_eq_Ico, Finset.sum_eq_sum_Ico_succ_bot (by omega : 0 < 1 + M.K * M.B)]
    simp only [if_true, zero_mul, zero_add]
    unfold stdPrior
    rw [← Finset.sum_add_distrib]
    apply Finset.sum_le_sum
    intro c hc
    have hc := Finset.mem_Ico.1 hc
    rw [if_neg (by omega)]
    have := mul_le_mul_of_nonneg_left (hlog (hw c hc.2) (hw' c hc.2)) (sub_nonneg.2 h1)
    have e : (M.alpha - 1) * ((w' c - w c) / w c) = (M.alpha - 1) / w c * (w' c - w c) := by ring
    nlinarith [this, e]
  have hsum : ∀ l : List StdData, (∀ D ∈ l, D ∈ M.data) → (l.map fun D => stdLL M.dt (1 + M.K * M.B) k D w').sum ≤ (l.map fun D => stdLL M.dt (1 + M.K * M.B) k D w).sum
      + ∑ c ∈ range (1 + M.K * M.B), (l.map fun D => ∑ t ∈ range D.T, ((D.S t k : ℝ) / lin (1 + M.K * M.B) D.F w t - M.dt) * D.F t c).sum * (w' c - w c) := by
    intro l hl
    induction l with
    | nil => simp
    | cons D l ih =>
      simp only [List.map_cons, List.sum_cons, add_mul, Finset.sum_add_distrib]
      have := ih fun D hD => hl D (List.mem_cons_of_mem _ hD)
      have := key D (hl D (by simp))
      linarith
  have := hsum M.data fun _ h => h
  unfold stdLP lpGrad
  simp only [add_mul, Finset.sum_add_distrib]
  linarith

/-- the objective returned by the API as a function of the weights of process `k` -/
noncomputable abbrev apiLP (M : StdModel) (k : ℕ) (w : Vec ℝ) : ℝ := okD 0 (stdLogPost (M.setRow k w) .none (.arr [k]))

theorem apiLP_eq {M : StdModel} (hM : StdOk M) (h1 : 1 ≤ M.alpha) {k : ℕ} (hk : k < M.K) {x : Vec ℝ} (hx : PosRow (1 + M.K * M.B) x) : apiLP M k x = stdLP M k x := by
  unfold apiLP
  rw [logPost_setRow hM h1 hk hx]; rfl

/-- **C36 (concavity).** For well-formed data and `alpha ≥ 1` the value returned by `log_posterior(ks=[k])` is a concave function of the positive weights of process `k`. -/
theorem C36_concave {M : StdModel} (hM : StdOk M) (h1 : 1 ≤ M.alpha) {k : ℕ} (hk : k < M.K) :
    ConcaveOn ℝ {w : ℕ → ℝ | ∀ c < 1 + M.K * M.B, 0 < w c} (fun w => okD 0 (stdLogPost (M.setRow k w) .none (.arr [k]))) := by
  have hconv : Convex ℝ {w : ℕ → ℝ | ∀ c < 1 + M.K * M.B, 0 < w c} := by
    intro x hx y hy a b ha hb hab c hc
    have h1 := hx c hc
    have h2 := hy c hc
    simp only [Pi.add_apply, Pi.smul_apply, smul_eq_mul]
    rcases eq_or_lt_of_le ha with h | h
    · have : b = 1 := by linarith
      rw [← h, this]; simpa using h2
    · have := mul_pos h h1
      have := mul_nonneg hb h2.le
      linarith
  refine ⟨hconv, ?_⟩
  intro x hx y hy a b ha hb hab
  have hz := hconv hx hy ha hb hab
  set z := a • x + b • y with hzdef
  have e1 := apiLP_eq hM h1 hk hx
  have e2 := apiLP_eq hM h1 hk hy
  have e3 := apiLP_eq hM h1 hk hz
  unfold apiLP at e1 e2 e3
  dsimp only
  rw [e1, e2, e3]
  have s1 := stdLP_supergradient hM h1 (k := k) hz hx
  have s2 := stdLP_supergradient hM h1 (k := k) hz hy
  simp only [smul_eq_mul]
  have hlin : a * ∑ c ∈ range (1 + M.K * M.B), lpGrad M k z c * (x c - z c) + b * ∑ c ∈ range (1 + M.K * M.B), lpGrad M k z c * (y c - z c) = 0 := by
    rw [Finset.mul_sum, Finset.mul_sum, ← Finset.sum_add_distrib]
    apply Finset.sum_eq_zero
    intro c _
    have : z c = a * x c + b * y c := by rw [hzdef]; simp
    rw [this]
    have hb' : b = 1 - a := by linarith
    rw [hb']; ring
  have m1 := mul_le_mul_of_nonneg_left s1 ha
  have m2 := mul_le_mul_of_nonneg_left s2 hb
  have hz1 : a * stdLP M k z + b * stdLP M k z = stdLP M k z := by rw [← add_mul, hab, one_mul]
  rw [mul_add] at m1 m2
  linarith

/-- **C36 (stationary points are global maxima).** If self connections are allowed and `compute_gradient(k)` returns the zero vector, then no other positive weight vector has a larger `log_posterior(ks=[k])`. -/
theorem C36_stationary_is_max {M : StdModel} (hM : StdOk M) (h1 : 1 ≤ M.alpha) {k : ℕ} (hk : k < M.K) (hself : M.allowSelf = true) (hw : PosRow (1 + M.K * M.B) (M.weights k))
    {g : Vec ℝ} (hg : stdGradient M k .none = .ok g) (h0 : ∀ c < 1 + M.K * M.B, g c = 0) (w' : Vec ℝ) (hw' : PosRow (1 + M.K * M.B) w') :
    ∃ y y', stdLogPost M .none (.arr [k]) = .ok y ∧ stdLogPost (M.setRow k w') .none (.arr [k]) = .ok y' ∧ y' ≤ y := by
  refine ⟨_, _, C35_log_posterior_value hM h1 hk hw, logPost_setRow hM h1 hk hw', ?_⟩
  rw [stdGradient_eq hM h1 hk hw (fun h => by rw [hself] at h; cases h)] at hg
  have hg := Except.ok.inj hg
  have := stdLP_supergradient hM h1 (k := k) hw hw'
  have hz : ∑ c ∈ range (1 + M.K * M.B), lpGrad M k (M.weights k) c * (w' c - M.weights k c) = 0 := by
    apply Finset.sum_eq_zero
    intro c hc
    have h := h0 c (Finset.mem_range.1 hc)
    rw [← hg] at h
    simp only [hself, Bool.true_eq_false, false_and, if_false] at h
    rw [h, zero_mul]
  rw [hz] at this
  linarith

/-- **C36 (without self connections).** With self connections disallowed the same holds among the weight vectors that keep the forbidden self weights at their tiny values. -/
theorem C36_stationary_is_max_no_self {M : StdModel} (hM : StdOk M) (h1 : 1 ≤ M.alpha) {k : ℕ} (hk : k < M.K) (hself : M.allowSelf = false) (hw : PosRow (1 + M.K * M.B) (M.weights k))
    (hs : ∀ c, IsSelf M.B k c → |M.weights k c| ≤ 1e-8)
    {g : Vec ℝ} (hg : stdGradient M k .none = .ok g) (h0 : ∀ c < 1 + M.K * M.B, g c = 0) (w' : Vec ℝ) (hw' : PosRow (1 + M.K * M.B) w')
    (hsame : ∀ c, IsSelf M.B k c → w' c = M.weights k c) :
    ∃ y y', stdLogPost M .none (.arr [k]) = .ok y ∧ stdLogPost (M.setRow k w') .none (.arr [k]) = .ok y' ∧ y' ≤ y := by
  refine ⟨_, _, C35_log_posterior_value hM h1 hk hw, logPost_setRow hM h1 hk hw', ?_⟩
  rw [stdGradient_eq hM h1 hk hw (fun _ => hs)] at hg
  have hg := Except.ok.inj hg
  have := stdLP_supergradient hM h1 (k := k) hw hw'
  have hz : ∑ c ∈ range (1 + M.K * M.B), lpGrad M k (M.weights k) c * (w' c - M.weights k c) = 0 := by
    apply Finset.sum_eq_zero
    intro c hc
    by_cases hsf : IsSelf M.B k c
    · rw [hsame c hsf]; ring
    · have h := h0 c (Finset.mem_range.1 hc)
      rw [← hg] at h
      simp only [hself, true_and] at h
      rw [if_neg (show ¬ (1 + k * M.B ≤ c ∧ c < 1 + (k + 1) * M.B) from hsf)] at h
      rw [h, zero_mul]
  rw [hz] at this
  linarith

end PyHawkes
