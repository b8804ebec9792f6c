import Verif.Model.DistHelpers
import Verif.Props.MFTiltSBM
import Verif.Props.DirichletLaw
import Mathlib.Data.List.GetD

/-!
# C57 — `Discrete.log_probability` and the expectations of `Dirichlet` and `Beta`
-/

set_option linter.unusedSectionVars false

namespace PyHawkes
open Finset MeasureTheory ProbabilityTheory Spec

/-- the one-hot vector of length `D` for outcome `i` -/
def oneHot (D i : ℕ) : List ℝ := (List.range D).map fun j => if j = i then 1 else 0

theorem sum_map_range (f : ℕ → ℝ) (n : ℕ) : ((List.range n).map f).sum = ∑ i ∈ range n, f i := by
  rw [Finset.sum_eq_multiset_sum]
  simp [Finset.range, Multiset.range]

theorem oneHot_sum {D i : ℕ} (hi : i < D) : (oneHot D i).sum = 1 := by
  unfold oneHot
  rw [sum_map_range]
  simp [hi]

theorem fxsum_oneHot {D i : ℕ} (hi : i < D) (p : Vec ℝ) (hp : ∀ j < D, 0 < p j) :
    FX.sum ((List.range (oneHot D i).length).map fun j => FX.fin ((oneHot D i).getD j 0) * FX.log (p j)) = FX.fin (Real.log (p i)) := by
  have hl : (oneHot D i).length = D := by simp [oneHot]
  rw [hl]
  have : (List.range D).map (fun j => FX.fin ((oneHot D i).getD j 0) * FX.log (p j)) = ((List.range D).map fun j => if j = i then Real.log (p i) else 0).map FX.fin := by
    rw [List.map_map]
    refine List.map_congr_left fun j hj => ?_
    have hj := List.mem_range.1 hj
    rw [FX.log_pos (hp j hj), FX.fin_mul]
    simp only [oneHot, Function.comp]
    rw [List.getD_eq_getElem _ _ (by simpa using hj)]
    simp only [List.getElem_map, List.getElem_range]
    split_ifs with h
    · rw [h, one_mul]
    · rw [zero_mul]
  rw [this, FX.sum_fin, sum_map_range]
  simp [hi]

/-- **C57 (Discrete log probability).** For a probability vector without zeros and the (integer) one-hot vector of an outcome, `log_probability` is the log of that outcome's probability. -/
theorem C57_discrete_log_mass_partial {D : ℕ} {p : Vec ℝ} (hp : ∀ j < D, 0 < p j) {i : ℕ} (hi : i < D) :
    discLogProb D p (.array true (oneHot D i)) = .ok (FX.fin (Real.log (p i))) := by
  have hl : (oneHot D i).length = D := by simp [oneHot]
  unfold discLogProb discIsOneHot
  simp only [hl, oneHot_sum hi, decide_true, Bool.and_self, Bool.true_or, if_true]
  exact congrArg _ (fxsum_oneHot hi p hp)

/-- **C57 (Discrete log probability, violated).** (1) The outcome given as an index, which the code provides for, always raises: `_is_one_hot` reads `x.shape` first (a numpy integer fails the assertion);
(2) if another outcome has probability zero, the log probability of an outcome is `nan`, not its log; (3) vectors that are not one-hot are accepted, such as `[2, -1]`. -/
theorem C57_discrete_log_mass_violated :
    (∀ D p i, discLogProb D p (.pyInt i) = .error .attribute) ∧ (∀ D p i, discLogProb D p (.npInt i) = .error .assertion) ∧
    discLogProb 2 (fun i => if i = 0 then 1 else 0) (.array true (oneHot 2 0)) = .ok FX.nan ∧
    discLogProb 2 (fun _ => 1 / 2) (.array true [2, -1]) = .ok (FX.fin (Real.log (1 / 2))) := by
  refine ⟨fun _ _ _ => rfl, fun _ _ _ => by simp [discLogProb, discIsOneHot, discIsIndex], ?_, ?_⟩
  · have hs := oneHot_sum (D := 2) (i := 0) (by norm_num)
    unfold discLogProb discIsOneHot
    simp only [hs, show (oneHot 2 0).length = 2 from rfl, decide_true, Bool.and_self, Bool.true_or, if_true]
    have h0 : (FX.fin 0 * FX.log 0 : FX) = FX.nan := by
      rw [FX.log_zero]
      show FX.mul _ _ = _
      simp [FX.mul, FX.infMul]
    have e : discValue (fun i => if i = 0 then 1 else 0) (.array true (oneHot 2 0)) = FX.sum [FX.fin 1 * FX.log 1, FX.fin 0 * FX.log 0] := by
      simp [discValue, oneHot, List.range_succ]
    rw [e, h0, FX.log_pos one_pos]
    rfl
  · have hs : ([2, -1] : List ℝ).sum = 1 := by norm_num
    unfold discLogProb discIsOneHot
    simp only [hs, show ([2, -1] : List ℝ).length = 2 from rfl, decide_true, Bool.and_self, Bool.true_or, if_true]
    have e : discValue (fun _ => 1 / 2) (.array true [2, -1]) = FX.sum [FX.fin 2 * FX.log (1 / 2), FX.fin (-1) * FX.log (1 / 2)] := by
      simp [discValue, List.range_succ]
    rw [e, FX.log_pos (by norm_num)]
    have : ([FX.fin 2 * FX.fin (Real.log (1 / 2)), FX.fin (-1) * FX.fin (Real.log (1 / 2))] : List FX) = [2 * Real.log (1 / 2), -1 * Real.log (1 / 2)].map FX.fin := rfl
    rw [this, FX.sum_fin]
    simp only [List.sum_cons, List.sum_nil]
    congr 2
    ring

/-- **C57 (what is accepted).** Exactly the integer arrays of the right length with sum 1 give a value. -/
theorem C57_discrete_accepts (D : ℕ) (p : Vec ℝ) (x : DiscArg) :
    (∃ v, discLogProb D p x = .ok v) ↔ ∃ l : List ℝ, x = .array true l ∧ l.length = D ∧ l.sum = 1 := by
  cases x with
  | pyInt i => simp [discLogProb, discIsOneHot]
  | npInt i => simp [discLogProb, discIsOneHot, discIsIndex]
  | array b l =>
    cases b <;> simp [discLogProb, discIsOneHot, discIsIndex]
    by_cases h1 : l.length = D <;> by_cases h2 : l.sum = 1 <;> simp [h1, h2]

/-- **C57 (expectations).** `Dirichlet.expected_g` and `expected_log_g` are the means of the components and of their logs under the Dirichlet law. -/
theorem C57_dirichlet_expectations {n : ℕ} {g : Vec ℝ} (hg : ∀ i < n, 0 < g i) {i : ℕ} (hi : i < n) :
    dirEG n g i = ∫ x, x i ∂dirichletLaw n g ∧ dirELog n g i = ∫ x, Real.log (x i) ∂dirichletLaw n g :=
  ⟨(dirichlet_mean hg hi).2.symm, (dirichlet_mean_log hg hi).2.symm⟩

/-- **C57 (Beta expectations).** `expected_p`, `expected_log_p` and `expected_log_notp` are the means of `p`, `log p` and `log (1 - p)` under the beta density with parameters `tau1` and `tau0`. -/
theorem C57_beta_expectations {a b : ℝ} (ha : 0 < a) (hb : 0 < b) :
    betaEP a b = ∫ p in Set.Ioo (0:ℝ) 1, betaPDFReal a b p * p ∧
    betaELogP a b = ∫ p in Set.Ioo (0:ℝ) 1, betaPDFReal a b p * Real.log p ∧
    betaELogNotP a b = ∫ p in Set.Ioo (0:ℝ) 1, betaPDFReal a b p * Real.log (1 - p) := by
  refine ⟨?_, ?_, ?_⟩
  · rw [show ∫ p in Set.Ioo (0:ℝ) 1, betaPDFReal a b p * p = a / (a + b) from expBeta_id ha hb]
    simp [betaEP, dirEG, betaGamma, sum_range_succ]
  · rw [(beta_mean_log ha hb).2]
    simp [betaELogP, dirELog, betaGamma, sum_range_succ]
  · rw [(beta_mean_log_compl ha hb).2]
    simp [betaELogNotP, dirELog, betaGamma, sum_range_succ]

example : betaEP 1 3 = 1 / 4 := by simp [betaEP, dirEG, betaGamma, sum_range_succ]; norm_num
example : discLogProb 3 (fun _ => 1 / 3) (.array true (oneHot 3 1)) = .ok (FX.fin (Real.log (1 / 3))) :=
  C57_discrete_log_mass_partial (fun _ _ => by norm_num) (by norm_num)

end PyHawkes
