import Verif.Model.LogJoint
import Verif.Spec.LogJoint
import Verif.Props.Distributions
import Verif.Props.DParents
import Verif.Props.Rate
import Verif.Lemmas.FXMonoid

/-! # C81: the reported log priors and log joint probabilities -/
set_option linter.unusedSectionVars false
set_option linter.unusedVariables false

namespace PyHawkes
open Finset ProbabilityTheory Spec

theorem fxSum2_fin {K : ℕ} {f : ℕ → ℕ → FX} {g : ℕ → ℕ → ℝ} (h : ∀ i < K, ∀ j < K, f i j = FX.fin (g i j)) :
    fxSum2 K f = FX.fin (∑ i ∈ range K, ∑ j ∈ range K, g i j) := by
  unfold fxSum2
  have : ((List.range K).map fun i => FX.sum ((List.range K).map fun j => f i j)) = (List.range K).map fun i => FX.fin (∑ j ∈ range K, g i j) := by
    refine List.map_congr_left fun i hi => ?_
    have : ((List.range K).map fun j => f i j) = (List.range K).map fun j => FX.fin (g i j) :=
      List.map_congr_left fun j hj => h i (List.mem_range.1 hi) j (List.mem_range.1 hj)
    rw [this, sum_map_range_fin]
  rw [this, sum_map_range_fin]

theorem fxSum_nan {l : List FX} (h : FX.nan ∈ l) : FX.sum l = FX.nan := by
  unfold FX.sum
  have hn : ∀ l : List FX, l.foldl FX.add FX.nan = FX.nan := by
    intro l
    induction l with
    | nil => rfl
    | cons x l ih => rw [List.foldl_cons]; exact ih
  have : ∀ a, l.foldl FX.add a = FX.nan := by
    induction l with
    | nil => cases h
    | cons x l ih =>
      intro a
      rw [List.foldl_cons]
      rcases List.mem_cons.1 h with rfl | h
      · rw [show FX.add a FX.nan = FX.nan by cases a <;> rfl, hn]
      · exact ih h _
  exact this _

theorem fxSum2_nan {K : ℕ} {f : ℕ → ℕ → FX} {i j : ℕ} (hi : i < K) (hj : j < K) (h : f i j = FX.nan) : fxSum2 K f = FX.nan :=
  fxSum_nan (List.mem_map.2 ⟨i, List.mem_range.2 hi, fxSum_nan (List.mem_map.2 ⟨j, List.mem_range.2 hj, h⟩)⟩)

theorem log_prod2 {K : ℕ} {d : ℕ → ℕ → ℝ} (h : ∀ i < K, ∀ j < K, 0 < d i j) :
    Real.log (edgesDensity K d) = ∑ i ∈ range K, ∑ j ∈ range K, Real.log (d i j) := by
  unfold edgesDensity
  rw [Real.log_prod fun i hi => prod_ne_zero_iff.2 fun j hj => (h i (mem_range.1 hi) j (mem_range.1 hj)).ne']
  exact sum_congr rfl fun i hi => Real.log_prod fun j hj => (h i (mem_range.1 hi) j (mem_range.1 hj)).ne'

theorem gammaPDF_pos {a r x : ℝ} (ha : 0 < a) (hr : 0 < r) (hx : 0 < x) : 0 < gammaPDFReal a r x := gammaPDFReal_pos ha hr hx

theorem lpGamma_eq {kappa v w : ℝ} (hk : 0 < kappa) (hv : 0 < v) (hw : 0 < w) : lpGamma kappa v w = FX.fin (Real.log (gammaPDFReal kappa v w)) := by
  rw [log_gammaPDF hk hv hw, lpGamma, FX.log_pos hv, FX.log_pos hw]
  simp

/-- **C81 (background rates).** `bias_model.log_probability()` is the log density of the background rates under their gamma prior, for any number of processes. -/
theorem C81_bias {K : ℕ} {alpha beta : ℝ} {x : Vec ℝ} (ha : 0 < alpha) (hb : 0 < beta) (hx : ∀ k < K, 0 < x k) :
    biasLogLik K alpha beta x = FX.fin (Real.log (biasDensity K alpha beta x)) := by
  have h : ((List.range K).map fun k => FX.fin (alpha - 1) * FX.log (x k) - FX.fin (beta * x k)) =
      (List.range K).map fun k => FX.fin ((alpha - 1) * Real.log (x k) - beta * x k) := by
    refine List.map_congr_left fun k hk => ?_
    rw [FX.log_pos (hx k (List.mem_range.1 hk))]; simp
  unfold biasLogLik biasDensity
  rw [h, sum_map_range_fin, FX.log_pos hb, Real.log_prod fun k hk => (gammaPDF_pos ha hb (hx k (mem_range.1 hk))).ne']
  rw [FX.fin_mul, FX.fin_sub, FX.fin_mul, FX.fin_add]
  congr 1
  rw [sum_congr rfl fun k hk => log_gammaPDF ha hb (hx k (mem_range.1 hk))]
  simp only [sum_sub_distrib, sum_add_distrib, sum_const, card_range, nsmul_eq_mul]
  ring

example : biasLogLik 2 2 3 (fun k => k + 1) = FX.fin (Real.log (biasDensity 2 2 3 (fun k => k + 1))) :=
  C81_bias (by norm_num) (by norm_num) fun k _ => by positivity

/-- **C81 (spike-and-slab weights, partial: no edge is certain and no positive edge probability is below `1e-32`).** `weight_model.log_probability()` is the log
density of the adjacency matrix and the weights of the present edges, up to an error of at most `2e-32` for every forbidden edge. Without forbidden edges it is exact.
Certain edges are handled wrongly (`C81_certain_edge_violated`). -/
theorem C81_spike_slab_partial (huge : ℝ) {K : ℕ} {kappa : ℝ} {P V W : Mat ℝ} {A : ℕ → ℕ → Bool} (hk : 0 < kappa) (hV : ∀ i < K, ∀ j < K, 0 < V i j)
    (hW : ∀ i < K, ∀ j < K, 0 < W i j) (hP : ∀ i < K, ∀ j < K, (P i j = 0 ∧ A i j = false) ∨ (1e-32 ≤ P i j ∧ P i j < 1)) :
    ∃ l, ssLogLik huge K kappa P V (fun i j => bit (A i j)) W = FX.fin l ∧
      l ≤ Real.log (edgesDensity K fun i j => slabDensity (P i j) kappa (V i j) (A i j) (W i j)) ∧
      Real.log (edgesDensity K fun i j => slabDensity (P i j) kappa (V i j) (A i j) (W i j)) - l ≤ ∑ i ∈ range K, ∑ j ∈ range K, (if P i j = 0 then 2e-32 else 0) := by
  set e : ℕ → ℕ → ℝ := fun i j => if P i j = 0 then Real.log (1 - 1e-32) else 0 with he
  have hA : ∀ i < K, ∀ j < K, FX.fin (bit (A i j)) * FX.log (clipRho (P i j)) + FX.fin (1 - bit (A i j)) * FX.log (1 - clipRho (P i j))
      = FX.fin (e i j + Real.log (bernoulliPmf (P i j) (A i j))) := by
    intro i hi j hj
    rcases hP i hi j hj with ⟨h0, h1⟩ | ⟨h0, h1⟩
    · have hc : clipRho (P i j) = 1e-32 := by rw [clipRho, h0]; norm_num
      rw [hc, FX.log_pos (by norm_num), FX.log_pos (by norm_num), h1, he]
      simp [bit, bernoulliPmf, h0]
    · have hc : clipRho (P i j) = P i j := by rw [clipRho, max_eq_left h0, min_eq_left h1.le]
      have hp : 0 < P i j := lt_of_lt_of_le (by norm_num) h0
      rw [hc, FX.log_pos hp, FX.log_pos (by linarith), he]
      cases A i j <;> simp [bit, bernoulliPmf, hp.ne']
  have hB : ∀ i < K, ∀ j < K, FX.fin (bit (A i j)) * lpGamma kappa (V i j) (W i j) = FX.fin (bit (A i j) * Real.log (gammaPDFReal kappa (V i j) (W i j))) := by
    intro i hi j hj
    rw [lpGamma_eq hk (hV i hi j hj) (hW i hi j hj), FX.fin_mul]
  have hpos : ∀ i < K, ∀ j < K, 0 < slabDensity (P i j) kappa (V i j) (A i j) (W i j) := by
    intro i hi j hj
    unfold slabDensity
    have := gammaPDF_pos hk (hV i hi j hj) (hW i hi j hj)
    rcases hP i hi j hj with ⟨h0, h1⟩ | ⟨h0, h1⟩
    · rw [h1, h0]; norm_num
    · have hp : 0 < P i j := lt_of_lt_of_le (by norm_num) h0
      split_ifs
      · positivity
      · linarith
  have hterm : ∀ i < K, ∀ j < K, Real.log (slabDensity (P i j) kappa (V i j) (A i j) (W i j)) =
      Real.log (bernoulliPmf (P i j) (A i j)) + bit (A i j) * Real.log (gammaPDFReal kappa (V i j) (W i j)) := by
    intro i hi j hj
    have hg := gammaPDF_pos hk (hV i hi j hj) (hW i hi j hj)
    unfold slabDensity bernoulliPmf bit
    cases hAij : A i j
    · simp
    · rcases hP i hi j hj with ⟨h0, h1⟩ | ⟨h0, h1⟩
      · rw [hAij] at h1; cases h1
      · have hp : 0 < P i j := lt_of_lt_of_le (by norm_num) h0
        simp [Real.log_mul hp.ne' hg.ne']
  have hval : Real.log (edgesDensity K fun i j => slabDensity (P i j) kappa (V i j) (A i j) (W i j)) + ∑ i ∈ range K, ∑ j ∈ range K, e i j
      = ∑ i ∈ range K, ∑ j ∈ range K, (e i j + Real.log (bernoulliPmf (P i j) (A i j))) +
        ∑ i ∈ range K, ∑ j ∈ range K, bit (A i j) * Real.log (gammaPDFReal kappa (V i j) (W i j)) := by
    rw [log_prod2 hpos, ← sum_add_distrib, ← sum_add_distrib]
    refine sum_congr rfl fun i hi => ?_
    rw [← sum_add_distrib, ← sum_add_distrib]
    refine sum_congr rfl fun j hj => ?_
    rw [hterm i (mem_range.1 hi) j (mem_range.1 hj)]; ring
  have hlo : Real.log (1 - 1e-32) ≤ 0 := Real.log_nonpos (by norm_num) (by norm_num)
  have hhi : -(2e-32 : ℝ) ≤ Real.log (1 - 1e-32) := by
    have := Real.one_sub_inv_le_log_of_pos (x := 1 - 1e-32) (by norm_num)
    refine le_trans ?_ this
    norm_num
  refine ⟨_, by rw [ssLogLik, fxSum2_fin hA, fxSum2_fin hB]; rfl, ?_, ?_⟩
  · have : ∑ i ∈ range K, ∑ j ∈ range K, e i j ≤ 0 := sum_nonpos fun i _ => sum_nonpos fun j _ => by rw [he]; dsimp only; split_ifs <;> linarith
    show _ + _ ≤ _
    simp only [FX.nanToNum]
    linarith
  · have : -∑ i ∈ range K, ∑ j ∈ range K, (if P i j = 0 then (2e-32 : ℝ) else 0) ≤ ∑ i ∈ range K, ∑ j ∈ range K, e i j := by
      rw [← sum_neg_distrib]
      refine sum_le_sum fun i _ => ?_
      rw [← sum_neg_distrib]
      refine sum_le_sum fun j _ => ?_
      rw [he]; dsimp only; split_ifs <;> linarith
    simp only [FX.nanToNum]
    linarith

/-- two processes without self connections, an edge in one direction -/
example : ∃ l, ssLogLik 1 2 1 (fun i j => if i = j then 0 else 1 / 2) (fun _ _ => 5) (fun i j => bit (decide (i = 0 ∧ j = 1))) (fun _ _ => 1 / 3) = FX.fin l ∧
    l ≤ Real.log (edgesDensity 2 fun i j => slabDensity (if i = j then 0 else 1 / 2) 1 5 (decide (i = 0 ∧ j = 1)) (1 / 3)) :=
  let ⟨l, h1, h2, _⟩ := C81_spike_slab_partial 1 (K := 2) (kappa := 1) (P := fun i j => if i = j then 0 else 1 / 2) (V := fun _ _ => 5)
    (A := fun i j => decide (i = 0 ∧ j = 1)) (W := fun _ _ => 1 / 3) (by norm_num) (by norm_num) (by norm_num) (by
      intro i _ j _
      by_cases h : i = j
      · exact Or.inl ⟨if_pos h, by subst h; simp; omega⟩
      · right; simp only [if_neg h]; norm_num)
  ⟨l, h1, h2⟩

/-- **C81 (spike-and-slab weights, certain edges, violated).** As soon as one present edge has probability 1, the probability of the whole adjacency matrix is dropped from
`weight_model.log_probability()` (`0 * log 0` makes the sum `nan`, which `nan_to_num` replaces by 0): the reported value is the log density of the weights alone. With a second, absent,
edge of probability 3/4 the true log density is `log (1/4)` away. -/
theorem C81_certain_edge_violated (huge : ℝ) :
    (∀ {K : ℕ} {kappa : ℝ} {P V W A : Mat ℝ} {i j : ℕ}, i < K → j < K → P i j = 1 → A i j = 1 →
      ssLogLik huge K kappa P V A W = FX.fin 0 + fxSum2 K fun i j => FX.fin (A i j) * lpGamma kappa (V i j) (W i j)) ∧
    (let P : Mat ℝ := fun i j => if i = 0 ∧ j = 0 then 1 else 3 / 4
     let A : ℕ → ℕ → Bool := fun i j => decide (¬ (i = 1 ∧ j = 0))
     ∃ l, ssLogLik huge 2 1 P (fun _ _ => 1) (fun i j => bit (A i j)) (fun _ _ => 1) = FX.fin l ∧
       l ≠ Real.log (edgesDensity 2 fun i j => slabDensity (P i j) 1 1 (A i j) 1)) := by
  have key : ∀ {K : ℕ} {kappa : ℝ} {P V W A : Mat ℝ} {i j : ℕ}, i < K → j < K → P i j = 1 → A i j = 1 →
      ssLogLik huge K kappa P V A W = FX.fin 0 + fxSum2 K fun i j => FX.fin (A i j) * lpGamma kappa (V i j) (W i j) := by
    intro K kappa P V W A i j hi hj hP hA
    unfold ssLogLik
    dsimp only
    rw [fxSum2_nan hi hj]
    · rfl
    · have hc : clipRho (P i j) = 1 := by rw [clipRho, hP]; norm_num
      rw [hc, hA, FX.log_pos one_pos]
      simp only [sub_self, FX.log_zero]
      show FX.add (FX.fin _) (FX.infMul 0 _ _) = FX.nan
      rw [FX.infMul, if_pos rfl]
      rfl
  refine ⟨key, ?_⟩
  intro P A
  have h00 : A 0 0 = true := rfl
  refine ⟨0 + ∑ i ∈ range 2, ∑ j ∈ range 2, bit (A i j) * Real.log (gammaPDFReal 1 1 1), ?_, ?_⟩
  · rw [key (i := 0) (j := 0) (by norm_num) (by norm_num) (if_pos ⟨rfl, rfl⟩) (by rw [h00]; rfl),
      fxSum2_fin (g := fun i j => bit (A i j) * Real.log (gammaPDFReal 1 1 1)) fun i _ j _ => by
        rw [lpGamma_eq one_pos one_pos one_pos, FX.fin_mul], FX.fin_add]
  · have hg := gammaPDF_pos one_pos one_pos (one_pos (α := ℝ))
    rw [log_prod2 fun i hi j hj => by
      unfold slabDensity
      have h1 : 0 < P i j := by show 0 < ite _ _ _; split_ifs <;> norm_num
      by_cases h : i = 1 ∧ j = 0
      · rw [if_neg (by simp [A, h])]; show 0 < 1 - ite _ _ _; rw [if_neg (by omega)]; norm_num
      · rw [if_pos (by simp only [A, decide_eq_true_eq]; exact h)]; positivity]
    have e : ∀ i j, A i j = decide (¬ (i = 1 ∧ j = 0)) := fun _ _ => rfl
    have eP : ∀ i j, P i j = if i = 0 ∧ j = 0 then 1 else 3 / 4 := fun _ _ => rfl
    simp only [sum_range_succ, range_zero, sum_empty, zero_add, slabDensity, e, eP, bit]
    norm_num
    rw [Real.log_mul (by norm_num) hg.ne', show (1 / 4 : ℝ) = 4⁻¹ by norm_num, Real.log_inv]
    have h3 : Real.log (3 / 4) < 0 := Real.log_neg (by norm_num) (by norm_num)
    have h4 : 0 < Real.log 4 := Real.log_pos (by norm_num)
    intro h
    linarith

/-- **C81 (spike-and-slab weights, impossible edges, violated).** An adjacency matrix of probability zero (a present edge with edge probability 0) is reported with an ordinary
number instead of `-inf`. -/
theorem C81_impossible_edge_violated (huge : ℝ) :
    ssLogLik huge 1 1 (fun _ _ => 0) (fun _ _ => 1) (fun _ _ => 1) (fun _ _ => 1) = FX.fin (Real.log 1e-32 + Real.log (gammaPDFReal 1 1 1)) ∧
    edgesDensity 1 (fun _ _ => slabDensity 0 1 1 true 1) = 0 := by
  constructor
  · have hc : clipRho 0 = 1e-32 := by rw [clipRho]; norm_num
    unfold ssLogLik
    dsimp only
    rw [fxSum2_fin (g := fun _ _ => Real.log 1e-32) fun i _ j _ => by
        rw [hc, FX.log_pos (by norm_num), FX.log_pos (by norm_num)]; simp,
      fxSum2_fin (g := fun _ _ => Real.log (gammaPDFReal 1 1 1)) fun i _ j _ => by rw [lpGamma_eq one_pos one_pos one_pos]; simp]
    simp [FX.nanToNum]
  · simp [edgesDensity, slabDensity]

/-- **C81 (gamma-mixture weights, partial: every edge probability strictly between 0 and 1).** `weight_model.log_probability()` is the log density of the adjacency
matrix and the weights. -/
theorem C81_mixture_partial {K : ℕ} {kappa0 nu0 kappa : ℝ} {P V W : Mat ℝ} {A : ℕ → ℕ → Bool} (hk0 : 0 < kappa0) (hn0 : 0 < nu0) (hk : 0 < kappa)
    (hV : ∀ i < K, ∀ j < K, 0 < V i j) (hW : ∀ i < K, ∀ j < K, 0 < W i j) (hP : ∀ i < K, ∀ j < K, 0 < P i j ∧ P i j < 1) :
    mixLogLik K kappa0 nu0 kappa P V (fun i j => bit (A i j)) W =
      FX.fin (Real.log (edgesDensity K fun i j => mixDensity (P i j) kappa0 nu0 kappa (V i j) (A i j) (W i j))) := by
  have hA : ∀ i < K, ∀ j < K, FX.fin (bit (A i j)) * FX.log (P i j) + FX.fin (1 - bit (A i j)) * FX.log (1 - P i j) = FX.fin (Real.log (bernoulliPmf (P i j) (A i j))) := by
    intro i hi j hj
    rw [FX.log_pos (hP i hi j hj).1, FX.log_pos (by linarith [(hP i hi j hj).2])]
    cases A i j <;> simp [bit, bernoulliPmf]
  have h0 : ∀ i < K, ∀ j < K, (if bit (A i j) = 0 then lpGamma kappa0 nu0 (W i j) else FX.fin 0) =
      FX.fin (if A i j then 0 else Real.log (gammaPDFReal kappa0 nu0 (W i j))) := by
    intro i hi j hj
    rw [lpGamma_eq hk0 hn0 (hW i hi j hj)]
    cases A i j <;> simp [bit]
  have h1 : ∀ i < K, ∀ j < K, (if bit (A i j) = 1 then lpGamma kappa (V i j) (W i j) else FX.fin 0) =
      FX.fin (if A i j then Real.log (gammaPDFReal kappa (V i j) (W i j)) else 0) := by
    intro i hi j hj
    rw [lpGamma_eq hk (hV i hi j hj) (hW i hi j hj)]
    cases A i j <;> simp [bit]
  unfold mixLogLik
  dsimp only
  rw [fxSum2_fin hA, fxSum2_fin h0, fxSum2_fin h1, FX.fin_add, FX.fin_add, log_prod2, ← sum_add_distrib, ← sum_add_distrib]
  · congr 1
    refine sum_congr rfl fun i hi => ?_
    rw [← sum_add_distrib, ← sum_add_distrib]
    refine sum_congr rfl fun j hj => ?_
    have g0 := gammaPDF_pos hk0 hn0 (hW i (mem_range.1 hi) j (mem_range.1 hj))
    have g1 := gammaPDF_pos hk (hV i (mem_range.1 hi) j (mem_range.1 hj)) (hW i (mem_range.1 hi) j (mem_range.1 hj))
    obtain ⟨p0, p1⟩ := hP i (mem_range.1 hi) j (mem_range.1 hj)
    unfold mixDensity bernoulliPmf
    cases A i j
    · simp [Real.log_mul (by linarith : 1 - P i j ≠ 0) g0.ne']
    · simp [Real.log_mul p0.ne' g1.ne']
  · intro i hi j hj
    have g0 := gammaPDF_pos hk0 hn0 (hW i hi j hj)
    have g1 := gammaPDF_pos hk (hV i hi j hj) (hW i hi j hj)
    obtain ⟨p0, p1⟩ := hP i hi j hj
    unfold mixDensity
    split_ifs
    · positivity
    · have : 0 < 1 - P i j := by linarith
      positivity

example : mixLogLik 2 1 10 2 (fun _ _ => 1 / 4) (fun _ _ => 5) (fun i j => bit (decide (i = j))) (fun _ _ => 1 / 3) =
    FX.fin (Real.log (edgesDensity 2 fun i j => mixDensity (1 / 4) 1 10 2 5 (decide (i = j)) (1 / 3))) :=
  C81_mixture_partial (A := fun i j => decide (i = j)) (by norm_num) (by norm_num) (by norm_num) (by norm_num) (by norm_num) (by norm_num)

/-- **C81 (gamma-mixture weights, violated).** If some edge has probability 0 and is absent, as every self edge when self connections are disallowed, or probability 1 and is present,
`weight_model.log_probability()` is `nan`, and so are `log_prior()` and `log_probability()`. -/
theorem C81_mixture_certain_violated (kappa0 nu0 kappa : ℝ) {K : ℕ} {P V A W : Mat ℝ} {i j : ℕ} (hi : i < K) (hj : j < K)
    (h : (P i j = 0 ∧ A i j = 0) ∨ (P i j = 1 ∧ A i j = 1)) : mixLogLik K kappa0 nu0 kappa P V A W = FX.nan := by
  unfold mixLogLik
  dsimp only
  rw [fxSum2_nan hi hj]
  · rfl
  · rcases h with ⟨hP, hA⟩ | ⟨hP, hA⟩
    · rw [hP, hA, FX.log_zero]
      show FX.add (FX.infMul 0 _ _) _ = FX.nan
      rw [FX.infMul, if_pos rfl]; rfl
    · rw [hP, hA, sub_self, FX.log_zero, FX.log_pos one_pos]
      show FX.add (FX.fin _) (FX.infMul 0 _ _) = FX.nan
      rw [FX.infMul, if_pos rfl]; rfl

example : mixLogLik 2 1 10 2 (fun i j => if i = j then 0 else 1 / 4) (fun _ _ => 5) (fun _ _ => 0) (fun _ _ => 1 / 3) = FX.nan :=
  C81_mixture_certain_violated 1 10 2 (i := 0) (j := 0) (by norm_num) (by norm_num) (Or.inl ⟨by simp, rfl⟩)

/-- **C81 (impulse responses, partial: up to a constant).** `impulse_model.log_probability()` is the log density of the impulse responses under the Dirichlet prior plus
`2 K^2 (sum log Gamma(gamma_b) - log Gamma(sum gamma_b))`, which does not depend on the impulse responses: differences between two settings are right. -/
theorem C81_impulse_partial {K B : ℕ} (hB : 0 < B) {gamma : Vec ℝ} {x : Ten ℝ} (hg : ∀ b < B, 0 < gamma b) (hx : ∀ i < K, ∀ j < K, ∀ b < B, 0 < x i j b) :
    impLogLik K B gamma x = FX.fin (Real.log (impulseDensity K B gamma x) +
      2 * K ^ 2 * (∑ b ∈ range B, Real.log (Real.Gamma (gamma b)) - Real.log (Real.Gamma (∑ b ∈ range B, gamma b)))) := by
  have h : ∀ i < K, ∀ j < K, FX.sum ((List.range B).map fun b => FX.fin (gamma b - 1) * FX.log (x i j b)) =
      FX.fin (∑ b ∈ range B, (gamma b - 1) * Real.log (x i j b)) := by
    intro i hi j hj
    have : ((List.range B).map fun b => FX.fin (gamma b - 1) * FX.log (x i j b)) = (List.range B).map fun b => FX.fin ((gamma b - 1) * Real.log (x i j b)) := by
      refine List.map_congr_left fun b hb => ?_
      rw [FX.log_pos (hx i hi j hj b (List.mem_range.1 hb))]; rfl
    rw [this, sum_map_range_fin]
  have hpos : ∀ i < K, ∀ j < K, 0 < dirichletPdf B gamma (x i j) := by
    intro i hi j hj
    unfold dirichletPdf
    have hS : 0 < ∑ b ∈ range B, gamma b := sum_pos (fun b hb => hg b (mem_range.1 hb)) ⟨0, mem_range.2 hB⟩
    have h1 := Real.Gamma_pos_of_pos hS
    have h2 : 0 < ∏ b ∈ range B, Real.Gamma (gamma b) := prod_pos fun b hb => Real.Gamma_pos_of_pos (hg b (mem_range.1 hb))
    have h3 : 0 < ∏ b ∈ range B, x i j b ^ (gamma b - 1) := prod_pos fun b hb => Real.rpow_pos_of_pos (hx i hi j hj b (mem_range.1 hb)) _
    positivity
  unfold impLogLik
  dsimp only
  rw [fxSum2_fin h, FX.fin_add]
  congr 1
  have hd : Real.log (impulseDensity K B gamma x) = _ := log_prod2 (d := fun i j => dirichletPdf B gamma (x i j)) hpos
  rw [hd]
  have : ∀ i ∈ range K, ∀ j ∈ range K, Real.log (dirichletPdf B gamma (x i j)) =
      (gammaln (∑ b ∈ range B, gamma b) - ∑ b ∈ range B, gammaln (gamma b)) + ∑ b ∈ range B, (gamma b - 1) * Real.log (x i j b) := by
    intro i hi j hj
    rw [log_dirichlet hB hg (hx i (mem_range.1 hi) j (mem_range.1 hj))]
  rw [sum_congr rfl fun i hi => sum_congr rfl (this i hi)]
  simp only [sum_add_distrib, sum_const, card_range, nsmul_eq_mul, gammaln]
  ring

example : impLogLik 1 2 (fun _ => 2) (fun _ _ _ => 1 / 2) = FX.fin (Real.log (impulseDensity 1 2 (fun _ => 2) (fun _ _ _ => 1 / 2)) +
    2 * (1:ℕ) ^ 2 * (∑ b ∈ range 2, Real.log (Real.Gamma 2) - Real.log (Real.Gamma (∑ b ∈ range 2, 2)))) :=
  C81_impulse_partial (by norm_num) (by norm_num) (by norm_num)

/-- **C81 (impulse responses, violated).** The sign of the normaliser is wrong: with two basis functions and `gamma = (2, 2)` the reported value is off by `2 log 6` per pair. -/
theorem C81_impulse_violated {K : ℕ} (hK : 0 < K) {x : Ten ℝ} (hx : ∀ i < K, ∀ j < K, ∀ b < 2, 0 < x i j b) :
    ∃ l, impLogLik K 2 (fun _ => 2) x = FX.fin l ∧ Real.log (impulseDensity K 2 (fun _ => 2) x) - l = K ^ 2 * (2 * Real.log 6) ∧ l ≠ Real.log (impulseDensity K 2 (fun _ => 2) x) := by
  have h2 : Real.Gamma 2 = 1 := by
    have := Real.Gamma_nat_eq_factorial 1
    rw [show ((1:ℕ):ℝ) + 1 = 2 by norm_num] at this
    rw [this]; norm_num [Nat.factorial]
  have h6 : 0 < Real.log 6 := Real.log_pos (by norm_num)
  have hK' : (0:ℝ) < K := by exact_mod_cast hK
  have e : (2:ℝ) + 2 = 4 := by norm_num
  refine ⟨_, C81_impulse_partial (by norm_num) (by norm_num) hx, ?_, ?_⟩
  · simp only [sum_range_succ, range_zero, sum_empty, zero_add, h2, e, gamma_four, Real.log_one]
    ring
  · simp only [sum_range_succ, range_zero, sum_empty, zero_add, h2, e, gamma_four, Real.log_one]
    intro h
    have : 0 < (K:ℝ) ^ 2 * Real.log 6 := by positivity
    nlinarith

/-! ### Networks -/

theorem sum_sq (C : ℕ) (f : ℕ → ℕ → ℝ) : ∑ s ∈ range (C * C), f (s / C) (s % C) = ∑ a ∈ range C, ∑ b ∈ range C, f a b := by
  rw [sum_flat]
  refine sum_congr rfl fun a _ => sum_congr rfl fun b hb => ?_
  rw [flat_div a (mem_range.1 hb), flat_mod a (mem_range.1 hb)]

theorem forListE_sum {n : ℕ} {f : ℕ → Except PyErr FX} {g : ℕ → ℝ} (h : ∀ r < n, f r = .ok (FX.fin (g r))) :
    forListE (List.range n) (fun r acc => addE acc (f r)) (FX.fin 0) = .ok (FX.fin (∑ r ∈ range n, g r)) := by
  induction n with
  | zero => simp [forListE]
  | succ n ih =>
    rw [forListE_range_succ, ih fun r hr => h r (by omega), sum_range_succ]
    dsimp only
    rw [h n (by omega)]
    simp [addE]

/-- the constant by which the normaliser of the batch of beta densities is off -/
noncomputable def betaOffset (C : ℕ) (tau1 tau0 : ℝ) : ℝ :=
  (C * C) * (Real.log (Real.Gamma ((C * C) * (tau1 + tau0))) - (C * C) * (Real.log (Real.Gamma tau1) + Real.log (Real.Gamma tau0)))
    - (C * C) * (Real.log (Real.Gamma (tau1 + tau0)) - (Real.log (Real.Gamma tau1) + Real.log (Real.Gamma tau0)))

/-- **C81 (block model, partial: up to a constant).** `network.log_probability()` of a stochastic block model is the log density of its block probabilities, link probabilities,
weight rates and labels, plus a constant that depends on the number of blocks and the beta prior only. -/
theorem C81_block_model_partial (huge : ℝ) (n : SBM) (hC : 0 < n.C) (hpi : ∀ b < n.C, 0 < n.pi b) (ht : 0 < n.tau1 ∧ 0 < n.tau0) (hab : 0 < n.alpha ∧ 0 < n.beta)
    (hm : ∀ b < n.C, 0 < n.m b) (hm1 : ∑ b ∈ range n.C, n.m b = 1) (hp : ∀ a < n.C, ∀ b < n.C, 0 < n.p a b ∧ n.p a b < 1) (hv : ∀ a < n.C, ∀ b < n.C, 0 < n.v a b)
    (hc : ∀ k < n.K, n.c k < n.C) :
    sbmLogProb huge n = .ok (FX.fin (Real.log (blockDensity n.K n.C n.pi n.tau1 n.tau0 n.alpha n.beta n.m n.p n.v n.c) + betaOffset n.C n.tau1 n.tau0)) := by
  obtain ⟨ht1, ht0⟩ := ht
  have hdiv : ∀ s, s < n.C * n.C → s / n.C < n.C ∧ s % n.C < n.C := fun s hs => ⟨Nat.div_lt_of_lt_mul hs, Nat.mod_lt _ hC⟩
  have hb : ∀ r < n.C * n.C, betaLogProb (n.C * n.C) (fun _ => n.tau1) (fun _ => n.tau0) (fun s => n.p (s / n.C) (s % n.C)) r =
      .ok (FX.fin (Real.log (betaPDFReal n.tau1 n.tau0 (n.p (r / n.C) (r % n.C))) +
        ((gammaln ((n.C * n.C) * (n.tau1 + n.tau0)) - (n.C * n.C) * (gammaln n.tau1 + gammaln n.tau0)) - (gammaln (n.tau1 + n.tau0) - (gammaln n.tau1 + gammaln n.tau0))))) := by
    intro r hr
    obtain ⟨h1, h2⟩ := hdiv r hr
    obtain ⟨p0, p1⟩ := hp _ h1 _ h2
    have single := C57_beta_log_density_partial ht1 ht0 p0 p1
    rw [betaLogProb, dirLogProb, if_pos ⟨fun s _ => by norm_num [sum_range_succ], fun s _ i _ => by
      split_ifs <;> norm_num <;> linarith⟩] at single
    rw [betaLogProb, dirLogProb, if_pos ⟨fun s hs => by norm_num [sum_range_succ], fun s hs i hi => by
      obtain ⟨a, b⟩ := hp _ (hdiv s hs).1 _ (hdiv s hs).2
      split_ifs <;> linarith⟩]
    have hl : FX.sum ((List.range 2).map fun i => FX.fin ((if i = 0 then n.tau1 else n.tau0) - 1) * FX.log (if i = 0 then n.p (r / n.C) (r % n.C) else 1 - n.p (r / n.C) (r % n.C)))
        = FX.fin ((n.tau1 - 1) * Real.log (n.p (r / n.C) (r % n.C)) + (n.tau0 - 1) * Real.log (1 - n.p (r / n.C) (r % n.C))) := by
      have : (List.range 2) = [0, 1] := rfl
      rw [this]
      simp only [List.map_cons, List.map_nil, if_pos, if_neg (one_ne_zero), FX.log_pos p0, FX.log_pos (by linarith : 0 < 1 - n.p (r / n.C) (r % n.C)), FX.fin_mul]
      rw [FX.sum_eq]
      simp
    rw [hl] at single ⊢
    have h := FX.fin.inj (Except.ok.inj single)
    simp only [sum_range_succ, if_pos, if_neg one_ne_zero, range_one, sum_singleton] at h
    simp only [FX.fin_sub, FX.fin_add]
    congr 2
    simp only [sum_range_succ, range_zero, sum_empty, zero_add, if_pos, if_neg one_ne_zero, sum_const, card_range, nsmul_eq_mul, Nat.cast_mul]
    rw [← h]
    ring
  have hmm := C57_dirichlet_log_density_partial hpi hm hm1
  have hg : ((List.range (n.C * n.C)).map fun s => FX.fin (gammaLogProb huge n.alpha n.beta (n.v (s / n.C) (s % n.C)))) =
      (List.range (n.C * n.C)).map fun s => FX.fin (Real.log (gammaPDFReal n.alpha n.beta (n.v (s / n.C) (s % n.C)))) := by
    refine List.map_congr_left fun s hs => ?_
    obtain ⟨h1, h2⟩ := hdiv s (List.mem_range.1 hs)
    rw [C57_gamma_log_density huge hab.1 hab.2 (hv _ h1 _ h2)]
  have hlab : ((List.range n.K).map fun k => FX.log (n.m (n.c k))) = (List.range n.K).map fun k => FX.fin (Real.log (n.m (n.c k))) := by
    refine List.map_congr_left fun k hk => ?_
    rw [FX.log_pos (hm _ (hc k (List.mem_range.1 hk)))]
  unfold sbmLogProb
  rw [hmm]
  dsimp only
  rw [forListE_sum hb]
  dsimp only
  rw [hg, hlab, sum_map_range_fin, sum_map_range_fin]
  simp only [FX.fin_add]
  congr 2
  have hbp : ∀ a < n.C, ∀ b < n.C, 0 < betaPDFReal n.tau1 n.tau0 (n.p a b) := fun a ha b hb =>
    betaPDFReal_pos (hp a ha b hb).1 (hp a ha b hb).2 ht1 ht0
  have hgp : ∀ a < n.C, ∀ b < n.C, 0 < gammaPDFReal n.alpha n.beta (n.v a b) := fun a ha b hb => gammaPDF_pos hab.1 hab.2 (hv a ha b hb)
  have hdp : 0 < dirichletPdf n.C n.pi n.m := by
    unfold dirichletPdf
    have hS : 0 < ∑ b ∈ range n.C, n.pi b := sum_pos (fun b hb => hpi b (mem_range.1 hb)) ⟨0, mem_range.2 hC⟩
    have h1 := Real.Gamma_pos_of_pos hS
    have h2 : 0 < ∏ b ∈ range n.C, Real.Gamma (n.pi b) := prod_pos fun b hb => Real.Gamma_pos_of_pos (hpi b (mem_range.1 hb))
    have h3 : 0 < ∏ b ∈ range n.C, n.m b ^ (n.pi b - 1) := prod_pos fun b hb => Real.rpow_pos_of_pos (hm b (mem_range.1 hb)) _
    positivity
  have hmp : ∏ k ∈ range n.K, n.m (n.c k) ≠ 0 := prod_ne_zero_iff.2 fun k hk => (hm _ (hc k (mem_range.1 hk))).ne'
  have e1 := log_prod2 (d := fun a b => betaPDFReal n.tau1 n.tau0 (n.p a b)) hbp
  have e2 := log_prod2 (d := fun a b => gammaPDFReal n.alpha n.beta (n.v a b)) hgp
  have n1 : edgesDensity n.C (fun a b => betaPDFReal n.tau1 n.tau0 (n.p a b)) ≠ 0 :=
    prod_ne_zero_iff.2 fun a ha => prod_ne_zero_iff.2 fun b hb => (hbp a (mem_range.1 ha) b (mem_range.1 hb)).ne'
  have n2 : edgesDensity n.C (fun a b => gammaPDFReal n.alpha n.beta (n.v a b)) ≠ 0 :=
    prod_ne_zero_iff.2 fun a ha => prod_ne_zero_iff.2 fun b hb => (hgp a (mem_range.1 ha) b (mem_range.1 hb)).ne'
  unfold edgesDensity at e1 e2 n1 n2
  unfold blockDensity betaOffset
  rw [Real.log_mul (mul_ne_zero (mul_ne_zero hdp.ne' n1) n2) hmp, Real.log_mul (mul_ne_zero hdp.ne' n1) n2, Real.log_mul hdp.ne' n1, e1, e2,
    Real.log_prod fun k hk => (hm _ (hc k (mem_range.1 hk))).ne', sum_add_distrib, sum_sq n.C fun a b => Real.log (betaPDFReal n.tau1 n.tau0 (n.p a b)),
    sum_sq n.C fun a b => Real.log (gammaPDFReal n.alpha n.beta (n.v a b))]
  simp only [sum_const, card_range, nsmul_eq_mul, Nat.cast_mul, gammaln]
  ring

/-- **C81 (Erdos-Renyi network).** With one block the constant vanishes: `network.log_probability()` is exactly the log density. -/
theorem C81_one_block (huge : ℝ) (n : SBM) (hC : n.C = 1) (hpi : 0 < n.pi 0) (ht : 0 < n.tau1 ∧ 0 < n.tau0) (hab : 0 < n.alpha ∧ 0 < n.beta)
    (hm : n.m 0 = 1) (hp : 0 < n.p 0 0 ∧ n.p 0 0 < 1) (hv : 0 < n.v 0 0) (hc : ∀ k < n.K, n.c k = 0) :
    sbmLogProb huge n = .ok (FX.fin (Real.log (blockDensity n.K 1 n.pi n.tau1 n.tau0 n.alpha n.beta n.m n.p n.v n.c))) := by
  have h0 : ∀ a < n.C, a = 0 := fun a ha => by omega
  rw [C81_block_model_partial huge n (by omega) (fun b hb => by rw [h0 b hb]; exact hpi) ht hab (fun b hb => by rw [h0 b hb, hm]; exact one_pos)
    (by rw [hC]; simp [hm]) (fun a ha b hb => by rw [h0 a ha, h0 b hb]; exact hp) (fun a ha b hb => by rw [h0 a ha, h0 b hb]; exact hv)
    (fun k hk => by rw [hc k hk]; omega), hC]
  simp [betaOffset]

/-- **C81 (block model, violated).** With two blocks and the default uniform prior on link probabilities the reported log density is `4 log 5040` too large. -/
theorem C81_block_model_violated : betaOffset 2 1 1 = 4 * Real.log 5040 ∧ 4 * Real.log 5040 ≠ 0 := by
  have h8 : Real.Gamma 8 = 5040 := by
    have := Real.Gamma_nat_eq_factorial 7
    rw [show ((7:ℕ):ℝ) + 1 = 8 by norm_num] at this
    rw [this]; norm_num [Nat.factorial]
  have h2 : Real.Gamma 2 = 1 := by
    have := Real.Gamma_nat_eq_factorial 1
    rw [show ((1:ℕ):ℝ) + 1 = 2 by norm_num] at this
    rw [this]; norm_num [Nat.factorial]
  constructor
  · unfold betaOffset
    norm_num [h8, h2, Real.Gamma_one]
  · have : 0 < Real.log 5040 := Real.log_pos (by norm_num)
    positivity

/-- **C81 (fixed-sparsity networks, violated).** `network.log_probability()` always raises: a `ValueError` for the block model with fixed sparsity, an `AttributeError` for
`ErdosRenyiFixedSparsity`. -/
theorem C81_fixed_sparsity_violated (huge : ℝ) (n : SBM) (e : ERFixed) :
    Net.logProb huge (.sbmFixed n) = .error .value ∧ Net.logProb huge (.er e) = .error .attribute := ⟨rfl, rfl⟩

/-- two blocks of probability 1/2 on three nodes, link probabilities 1/4, rates 2 -/
noncomputable def demoBlocks : SBM :=
  { K := 3, C := 2, pi := fun _ => 1, tau0 := 1, tau1 := 1, kappa := 1, alpha := 1, beta := 1, allowSelf := true, m := fun _ => 1 / 2, c := fun k => k % 2, p := fun _ _ => 1 / 4,
    v := fun _ _ => 2, fixed := false, mfPi := fun _ => 1, mfM := fun _ _ => 1 / 2, mfTau0 := fun _ _ => 1, mfTau1 := fun _ _ => 1, mfAlpha := fun _ _ => 1, mfBeta := fun _ _ => 1 }

example : sbmLogProb 1 demoBlocks = .ok (FX.fin (Real.log (blockDensity 3 2 (fun _ => 1) 1 1 1 1 (fun _ => 1 / 2) (fun _ _ => 1 / 4) (fun _ _ => 2) (fun k => k % 2)) + betaOffset 2 1 1)) :=
  C81_block_model_partial 1 demoBlocks (by norm_num [demoBlocks]) (by norm_num [demoBlocks]) (by norm_num [demoBlocks]) (by norm_num [demoBlocks]) (by norm_num [demoBlocks])
    (by norm_num [demoBlocks]) (by norm_num [demoBlocks]) (by norm_num [demoBlocks]) (fun k _ => by simp only [demoBlocks]; omega)

example : ∃ l, sbmLogProb 1 { demoBlocks with C := 1, m := fun _ => 1, c := fun _ => 0 } = .ok (FX.fin l) :=
  ⟨_, C81_one_block 1 { demoBlocks with C := 1, m := fun _ => 1, c := fun _ => 0 } rfl (by norm_num [demoBlocks]) (by norm_num [demoBlocks]) (by norm_num [demoBlocks])
    rfl (by norm_num [demoBlocks]) (by norm_num [demoBlocks]) fun _ _ => rfl⟩

end PyHawkes
