import Verif.Lemmas.GammaFn
import Verif.Spec.Densities

/-! # C57: the distribution helpers -/
set_option linter.unusedSectionVars false

namespace PyHawkes
open Finset MeasureTheory ProbabilityTheory

theorem log_gammaPDF {a r x : ℝ} (ha : 0 < a) (hr : 0 < r) (hx : 0 < x) :
    Real.log (gammaPDFReal a r x) = a * Real.log r - gammaln a + (a - 1) * Real.log x - r * x := by
  have hG := Real.Gamma_pos_of_pos ha
  have h1 := Real.rpow_pos_of_pos hr a
  have h2 := Real.rpow_pos_of_pos hx (a - 1)
  rw [gammaPDFReal, if_pos hx.le, Real.log_mul (by positivity) (by positivity), Real.log_mul (by positivity) (by positivity),
    Real.log_div h1.ne' hG.ne', Real.log_rpow hr, Real.log_rpow hx, Real.log_exp, gammaln]
  ring

/-- **C57 (gamma).** `Gamma(alpha, beta).log_probability(x)` is the log of the gamma density, for every positive shape, rate and point. -/
theorem C57_gamma_log_density (huge : ℝ) {alpha beta x : ℝ} (ha : 0 < alpha) (hb : 0 < beta) (hx : 0 < x) :
    gammaLogProb huge alpha beta x = Real.log (gammaPDFReal alpha beta x) := by
  rw [log_gammaPDF ha hb hx, gammaLogProb, FX.log_pos hb, FX.log_pos hx]
  simp [FX.nanToNum]

example : gammaLogProb 1 2 3 1 = Real.log (gammaPDFReal 2 3 1) := C57_gamma_log_density 1 (by norm_num) (by norm_num) (by norm_num)

/-- **C57 (gamma negative entropy).** With default expectations the negative entropy is the expected log density. -/
theorem C57_gamma_negentropy {alpha beta : ℝ} (ha : 0 < alpha) (hb : 0 < beta) :
    IntegrableOn (fun x => gammaPDFReal alpha beta x * Real.log (gammaPDFReal alpha beta x)) (Set.Ioi 0) ∧
    gammaNegentDefault alpha beta = ∫ x in Set.Ioi 0, gammaPDFReal alpha beta x * Real.log (gammaPDFReal alpha beta x) := by
  obtain ⟨i1, v1⟩ := gamma_mean ha hb
  obtain ⟨i2, v2⟩ := gamma_mean_log ha hb
  have i0 := gammaPDF_integrable ha hb
  have v0 := gammaPDF_integral ha hb
  have j0 : IntegrableOn (fun x => (alpha * Real.log beta - gammaln alpha) * gammaPDFReal alpha beta x) (Set.Ioi 0) volume := i0.const_mul _
  have j2 : IntegrableOn (fun x => (alpha - 1) * (gammaPDFReal alpha beta x * Real.log x)) (Set.Ioi 0) volume := i2.const_mul _
  have j02 : IntegrableOn (fun x => (alpha * Real.log beta - gammaln alpha) * gammaPDFReal alpha beta x
    + (alpha - 1) * (gammaPDFReal alpha beta x * Real.log x)) (Set.Ioi 0) volume := j0.add j2
  have j1 : IntegrableOn (fun x => beta * (gammaPDFReal alpha beta x * x)) (Set.Ioi 0) volume := i1.const_mul _
  have h : ∀ x ∈ Set.Ioi (0:ℝ), gammaPDFReal alpha beta x * Real.log (gammaPDFReal alpha beta x)
      = ((alpha * Real.log beta - gammaln alpha) * gammaPDFReal alpha beta x + (alpha - 1) * (gammaPDFReal alpha beta x * Real.log x))
        - beta * (gammaPDFReal alpha beta x * x) := by
    intro x hx
    rw [log_gammaPDF ha hb hx]; ring
  refine ⟨IntegrableOn.congr_fun (j02.sub j1) (fun x hx => (h x hx).symm) measurableSet_Ioi, ?_⟩
  rw [setIntegral_congr_fun measurableSet_Ioi h, integral_sub j02 j1, integral_add j0 j2, integral_const_mul, integral_const_mul,
    integral_const_mul, v0, v1, v2, gammaNegentDefault, gammaNegent]
  ring

example : gammaNegentDefault 2 3 = ∫ x in Set.Ioi 0, gammaPDFReal 2 3 x * Real.log (gammaPDFReal 2 3 x) :=
  (C57_gamma_negentropy (by norm_num) (by norm_num)).2

/-- **C57 (Bernoulli).** The log probability of an outcome is the log of its mass when both outcomes are possible, and 0
for a certain outcome (`nan_to_num` turns the `0 * -inf = nan` there into 0). -/
theorem C57_bernoulli_log_mass (huge : ℝ) {p : ℝ} (h0 : 0 ≤ p) (h1 : p ≤ 1) (x : Bool) :
    (0 < p ∧ p < 1 → bernLogProb huge p (if x then 1 else 0) = Real.log (Spec.bernoulliPmf p x)) ∧
    (Spec.bernoulliPmf p x = 1 → bernLogProb huge p (if x then 1 else 0) = 0) := by
  constructor
  · rintro ⟨hp0, hp1⟩
    rw [bernLogProb, FX.log_pos hp0, FX.log_pos (by linarith : 0 < 1 - p)]
    cases x <;> simp [FX.nanToNum, Spec.bernoulliPmf]
  · intro h
    cases x
    · have : p = 0 := by simp [Spec.bernoulliPmf] at h; linarith
      subst this
      rw [bernLogProb, FX.log_zero, FX.log_pos (by norm_num : (0:ℝ) < 1 - 0)]
      have : (FX.fin 0 * FX.ninf : FX) = FX.nan := by show FX.mul _ _ = _; simp [FX.mul, FX.infMul]
      simp [this]
      show FX.nanToNum huge (FX.add _ _) = 0
      simp [FX.add, FX.nanToNum]
    · have : p = 1 := by simpa [Spec.bernoulliPmf] using h
      subst this
      rw [bernLogProb, FX.log_pos one_pos]
      have : (FX.fin 0 * FX.ninf : FX) = FX.nan := by show FX.mul _ _ = _; simp [FX.mul, FX.infMul]
      simp [this]
      show FX.nanToNum huge (FX.add _ _) = 0
      simp [FX.add, FX.nanToNum]

/-- **C57 (Bernoulli, impossible outcome).** An outcome of probability zero gets the most negative double, the value `nan_to_num` puts for `-inf`. -/
theorem C57_bernoulli_impossible (huge : ℝ) : bernLogProb huge 0 1 = -huge ∧ bernLogProb huge 1 0 = -huge := by
  constructor
  · rw [bernLogProb, FX.log_zero, FX.log_pos (by norm_num : (0:ℝ) < 1 - 0)]
    have : (FX.fin 1 * FX.ninf : FX) = FX.ninf := by show FX.mul _ _ = _; simp [FX.mul, FX.infMul]
    simp [this]
    show FX.nanToNum huge (FX.add _ _) = _
    simp [FX.add, FX.nanToNum]
  · rw [bernLogProb, FX.log_pos one_pos, sub_self, FX.log_zero, sub_zero]
    have : (FX.fin 1 * FX.ninf : FX) = FX.ninf := by show FX.mul _ _ = _; simp [FX.mul, FX.infMul]
    simp [this]
    show FX.nanToNum huge (FX.add _ _) = _
    simp [FX.add, FX.nanToNum]

/-- **C57 (Bernoulli and Discrete validation).** The Bernoulli constructor accepts exactly the numbers in [0,1]. -/
theorem C57_bernoulli_validation (p : ℝ) : bernNew p = .ok () ↔ 0 ≤ p ∧ p ≤ 1 := by
  unfold bernNew; split_ifs with h <;> simp [h]

/-- **C57 (Discrete validation).** Every probability vector is accepted; a vector with a negative entry, or whose sum is off by more than numpy's
tolerance, is rejected. -/
theorem C57_discrete_validation (n : ℕ) (p : Vec ℝ) :
    ((∀ i < n, 0 ≤ p i) ∧ ∑ i ∈ range n, p i = 1 → discreteNew n p = .ok ()) ∧
    ((∃ i < n, p i < 0) ∨ 0.00001001 < |∑ i ∈ range n, p i - 1| → discreteNew n p = .error .assertion) := by
  constructor
  · rintro ⟨h, hs⟩
    rw [discreteNew, if_pos ⟨h, by rw [hs]; norm_num⟩]
  · intro h
    rw [discreteNew, if_neg]
    rintro ⟨ha, hb⟩
    rcases h with ⟨i, hi, hneg⟩ | h
    · exact absurd (ha i hi) (not_le.2 hneg)
    · norm_num at h hb; linarith

theorem sum_map_range_fin (n : ℕ) (f : ℕ → ℝ) : FX.sum ((List.range n).map fun i => FX.fin (f i)) = FX.fin (∑ i ∈ range n, f i) := by
  have := FX.sum_fin ((List.range n).map f)
  rw [List.map_map] at this
  rw [show ((List.range n).map fun i => FX.fin (f i)) = (List.range n).map (FX.fin ∘ f) from rfl, this]
  congr 1

/-- log of the Dirichlet density -/
theorem log_dirichlet {n : ℕ} (hn : 0 < n) {g x : ℕ → ℝ} (hg : ∀ i < n, 0 < g i) (hx : ∀ i < n, 0 < x i) :
    Real.log (Spec.dirichletPdf n g x)
      = gammaln (∑ i ∈ range n, g i) - ∑ i ∈ range n, gammaln (g i) + ∑ i ∈ range n, (g i - 1) * Real.log (x i) := by
  have hS : 0 < ∑ i ∈ range n, g i := sum_pos (fun i hi => hg i (mem_range.1 hi)) ⟨0, mem_range.2 hn⟩
  have hG : ∀ i ∈ range n, Real.Gamma (g i) ≠ 0 := fun i hi => (Real.Gamma_pos_of_pos (hg i (mem_range.1 hi))).ne'
  have hX : ∀ i ∈ range n, x i ^ (g i - 1) ≠ 0 := fun i hi => (Real.rpow_pos_of_pos (hx i (mem_range.1 hi)) _).ne'
  rw [Spec.dirichletPdf, Real.log_mul (div_ne_zero (Real.Gamma_pos_of_pos hS).ne' (prod_ne_zero_iff.2 hG)) (prod_ne_zero_iff.2 hX),
    Real.log_div (Real.Gamma_pos_of_pos hS).ne' (prod_ne_zero_iff.2 hG), Real.log_prod hG, Real.log_prod hX]
  unfold gammaln
  congr 1
  exact sum_congr rfl fun i hi => Real.log_rpow (hx i (mem_range.1 hi)) _

/-- **C57 (Dirichlet, partial: one distribution at a time).** For a single concentration vector, `Dirichlet(gamma).log_probability(x)` is the log of the
Dirichlet density at every probability vector with positive entries. For a batch it is not (`C57_batch_log_density_violated`). -/
theorem C57_dirichlet_log_density_partial {n : ℕ} {g x : Vec ℝ} (hg : ∀ i < n, 0 < g i) (hx : ∀ i < n, 0 < x i)
    (hs : ∑ i ∈ range n, x i = 1) :
    dirLogProb 1 n (fun _ => g) (fun _ => x) 0 = .ok (FX.fin (Real.log (Spec.dirichletPdf n g x))) := by
  have hn : 0 < n := by
    rcases Nat.eq_zero_or_pos n with h | h
    · subst h; simp at hs
    · exact h
  rw [dirLogProb, if_pos ⟨fun s _ => by rw [hs]; norm_num, fun s _ i hi => (hx i hi).le⟩, log_dirichlet hn hg hx]
  have : ((List.range n).map fun i => FX.fin (g i - 1) * FX.log (x i)) = (List.range n).map fun i => FX.fin ((g i - 1) * Real.log (x i)) := by
    refine List.map_congr_left fun i hi => ?_
    rw [FX.log_pos (hx i (List.mem_range.1 hi))]; rfl
  rw [this, sum_map_range_fin]
  simp

example : dirLogProb 1 2 (fun _ _ => 2) (fun _ _ => 1 / 2) 0 = .ok (FX.fin (Real.log (Spec.dirichletPdf 2 (fun _ => 2) (fun _ => 1 / 2)))) :=
  C57_dirichlet_log_density_partial (by norm_num) (by norm_num) (by norm_num [sum_range_succ])

/-- **C57 (Beta, partial: one distribution at a time).** -/
theorem C57_beta_log_density_partial {tau1 tau0 p : ℝ} (h1 : 0 < tau1) (h0 : 0 < tau0) (hp0 : 0 < p) (hp1 : p < 1) :
    betaLogProb 1 (fun _ => tau1) (fun _ => tau0) (fun _ => p) 0 = .ok (FX.fin (Real.log (betaPDFReal tau1 tau0 p))) := by
  have hd := C57_dirichlet_log_density_partial (n := 2) (g := fun i => if i = 0 then tau1 else tau0) (x := fun i => if i = 0 then p else 1 - p)
    (fun i _ => by split_ifs <;> assumption) (fun i _ => by split_ifs <;> linarith) (by simp [sum_range_succ])
  rw [betaLogProb, hd]
  congr 3
  rw [Spec.dirichletPdf, betaPDFReal, if_pos ⟨hp0, hp1⟩, beta]
  simp [sum_range_succ, prod_range_succ]
  ring

example : betaLogProb 1 (fun _ => 2) (fun _ => 3) (fun _ => 1 / 4) 0 = .ok (FX.fin (Real.log (betaPDFReal 2 3 (1 / 4)))) :=
  C57_beta_log_density_partial (by norm_num) (by norm_num) (by norm_num) (by norm_num)

theorem gamma_four : Real.Gamma 4 = 6 := by
  have := Real.Gamma_nat_eq_factorial 3
  rw [show ((3:ℕ):ℝ) + 1 = 4 by norm_num] at this
  rw [this]; norm_num [Nat.factorial]

/-- **C57 (violated for batches).** With a batch of two uniform Beta distributions the code reports the log density `log 6` at the centre, where the true
value is `log 1 = 0`: the normaliser is summed over the whole batch. The block model calls it on exactly such a batch (`network.py`). -/
theorem C57_batch_log_density_violated :
    betaLogProb 2 (fun _ => 1) (fun _ => 1) (fun _ => 1 / 2) 0 = .ok (FX.fin (Real.log 6)) ∧
    Real.log (betaPDFReal 1 1 (1 / 2)) = 0 ∧ Real.log 6 ≠ 0 := by
  refine ⟨?_, ?_, ?_⟩
  · rw [betaLogProb, dirLogProb, if_pos]
    · have h4 : gammaln 4 = Real.log 6 := by rw [gammaln, gamma_four]
      have h1 : gammaln 1 = 0 := by rw [gammaln, Real.Gamma_one, Real.log_one]
      have e1 : (∑ s ∈ range 2, ∑ i ∈ range 2, (if i = 0 then (1:ℝ) else 1)) = 4 := by norm_num [sum_range_succ]
      have e2 : (∑ s ∈ range 2, ∑ i ∈ range 2, gammaln (if i = 0 then (1:ℝ) else 1)) = 0 := by simp [h1]
      have hp : (0:ℝ) < 1 / 2 := by norm_num
      have hp' : (0:ℝ) < 1 - 1 / 2 := by norm_num
      have e3 : FX.sum ((List.range 2).map fun i => FX.fin ((if i = 0 then (1:ℝ) else 1) - 1) * FX.log (if i = 0 then (1/2:ℝ) else 1 - 1/2)) = FX.fin 0 := by
        have : ((List.range 2).map fun i => FX.fin ((if i = 0 then (1:ℝ) else 1) - 1) * FX.log (if i = 0 then (1/2:ℝ) else 1 - 1/2))
            = (List.range 2).map fun _ => FX.fin 0 := by
          refine List.map_congr_left fun i _ => ?_
          have : (0:ℝ) < (if i = 0 then (1/2:ℝ) else 1 - 1/2) := by split_ifs <;> norm_num
          rw [FX.log_pos this]
          simp
        rw [this, sum_map_range_fin]; simp
      rw [e1, e2, e3, h4]
      simp
    · refine ⟨fun s _ => by norm_num [sum_range_succ], fun s _ i _ => by split_ifs <;> norm_num⟩
  · rw [betaPDFReal, if_pos (by norm_num), beta]
    norm_num
  · exact (Real.log_pos (by norm_num)).ne'

/-- **C57 (validation of Gamma and Dirichlet, violated).** The constructors accept every parameter, also negative ones: the assertion compares the
Boolean `np.all(...)` with 0. All that the Dirichlet constructor checks is that there is at least one component. -/
theorem C57_validation_violated : gammaNew 1 (fun _ => -1) (fun _ => -1) = .ok () ∧ dirNew 1 2 (fun _ _ => -1) = .ok () ∧
    (∀ n alpha beta, gammaNew n alpha beta = .ok ()) ∧
    ∀ rows n gamma, dirNew rows n gamma = if 1 ≤ n then .ok () else .error .assertion := by
  have h : ∀ n alpha beta, gammaNew n alpha beta = .ok () := by
    intro n a b
    unfold gammaNew
    rw [if_neg, if_neg] <;> (push Not; split_ifs <;> norm_num)
  have h2 : ∀ rows n gamma, dirNew rows n gamma = if 1 ≤ n then .ok () else .error .assertion := by
    intro rows n gamma
    unfold dirNew
    refine if_congr ⟨fun a => a.2, fun a => ⟨by split_ifs <;> norm_num, a⟩⟩ rfl rfl
  exact ⟨h _ _ _, by rw [h2, if_pos (by norm_num)], h, h2⟩

/-- **C57 (Bernoulli negative entropy).** For a parameter strictly inside (0,1) the negative entropy with default expectations is the expected log mass;
for `p = 0` or `p = 1` it is not a number. -/
theorem C57_bernoulli_negentropy {p : ℝ} (h0 : 0 < p) (h1 : p < 1) :
    bernNegent (FX.fin p) (FX.fin (1 - p)) (FX.log p) (FX.log (1 - p))
      = FX.fin (∑ x : Bool, Spec.bernoulliPmf p x * Real.log (Spec.bernoulliPmf p x)) := by
  rw [bernNegent, FX.log_pos h0, FX.log_pos (by linarith : 0 < 1 - p)]
  simp [Spec.bernoulliPmf]

theorem C57_bernoulli_negentropy_violated :
    bernNegent (FX.fin 0) (FX.fin (1 - 0)) (FX.log 0) (FX.log (1 - 0)) = FX.nan := by
  rw [bernNegent, FX.log_zero]
  have : (FX.fin 0 * FX.ninf : FX) = FX.nan := by show FX.mul _ _ = _; simp [FX.mul, FX.infMul]
  rw [this]
  rfl

end PyHawkes
