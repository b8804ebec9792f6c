import Verif.Props.CTAdjacency
import Verif.Props.CTSampler
/-!
# C29, second part; C70: the continuous-time log likelihood
-/
set_option linter.unusedSectionVars false

namespace PyHawkes
open Finset Spec

/-- earlier event `m` ends the scan of `compute_rate_at_events` although the parent kernel still counts it: the lag is exactly `dt_max - 1e-8` -/
def BoundaryLag (P : CTParams) (D : CTData) (n m : ℕ) : Prop := D.S n - D.S m = P.dtMax - 1e-8

theorem rateScan_total (P : CTParams) (D : CTData) (hP : CTOk P) (hL : LabelsOk P.K D) (hS : SortedTimes D) (n : ℕ) (hn : n < D.N) (m : ℕ) (hm : m ≤ n)
    (hb : ∀ j < m, ¬ BoundaryLag P D n j) (lam : ℝ) : rateScan P D n m lam = lam + ∑ j ∈ range m, contribution P D n j := by
  induction m generalizing lam with
  | zero => simp [rateScan]
  | succ m ih =>
    have ih' := fun l => ih (by omega) (fun j hj => hb j (by omega)) l
    unfold rateScan
    dsimp only
    split_ifs with h1 h2 h3
    · rw [ih', sum_range_succ, contribution_zero P D n m (Or.inl h1), add_zero]
    · have h2' : P.dtMax - 1e-8 < D.S n - D.S m := lt_of_le_of_ne h2 fun h => hb m (Nat.lt_succ_self m) h.symm
      have hz : ∀ j ≤ m, contribution P D n j = 0 := fun j hj =>
        contribution_zero P D n j (Or.inr (by have := hS j m hj (by omega); linarith))
      rw [sum_eq_zero fun j hj => hz j (by have := mem_range.1 hj; omega), add_zero]
    · rw [ih', parWeight_eq P D n m (not_lt.1 h1) (not_le.1 h2).le, sum_range_succ]; ring
    · have hz : P.Weff (D.C m) (D.C n) = 0 := le_antisymm (not_lt.1 h3) (hP.W _ (hL m (by omega)) _ (hL n hn))
      have : contribution P D n m = 0 := by
        unfold contribution
        dsimp only
        have hz' : P.A (D.C m) (D.C n) * P.W (D.C m) (D.C n) = 0 := hz
        rw [hz', zero_mul, ite_self]
      rw [ih', sum_range_succ, this, add_zero]

/-- **C70 (rates).** On sorted data the rate that enters the likelihood at event `n` is the background rate plus the contribution of every earlier event inside the window, unless some lag equals
`dt_max - 1e-8` exactly. -/
theorem C70_rate_is_intensity (P : CTParams) (D : CTData) (hP : CTOk P) (hL : LabelsOk P.K D) (hS : SortedTimes D) (n : ℕ) (hn : n < D.N)
    (hb : ∀ j < n, ¬ BoundaryLag P D n j) : rateAtEvents P D n = totalRate P D n := by
  unfold rateAtEvents totalRate
  rw [rateScan_total P D hP hL hS n hn n le_rfl hb, zero_add]

/-- **C70.** `log_likelihood` is the Poisson process log likelihood of the events: the sum over data sets and events of the log of the intensity at the event, minus, for every process, background rate times
duration plus the total effective weight of all events onto it; the intensity at every event is positive, so every logarithm is finite. -/
theorem C70_log_likelihood (P : CTParams) (dl : List CTData) (hP : CTOk P) (hD : ∀ D ∈ dl, LabelsOk P.K D ∧ SortedTimes D ∧ ∀ n < D.N, ∀ j < n, ¬ BoundaryLag P D n j) :
    ctLogLik P dl = (dl.map fun D => ∑ n ∈ range D.N, Real.log (totalRate P D n) -
      ∑ k ∈ range P.K, (P.lam0 k * D.T + ∑ n ∈ range D.N, P.A (D.C n) k * P.W (D.C n) k)).sum ∧
    ∀ D ∈ dl, ∀ n < D.N, 0 < totalRate P D n := by
  refine ⟨?_, fun D hD' n hn => totalRate_pos P D hP (hD D hD').1 n hn⟩
  rw [ctLogLik_sum]
  congr 1
  refine List.map_congr_left fun D hD' => ?_
  obtain ⟨hL, hS, hb⟩ := hD D hD'
  rw [neg_add_eq_sub]
  congr 1
  · exact sum_congr rfl fun n hn => by rw [C70_rate_is_intensity P D hP hL hS n (mem_range.1 hn) (hb n (mem_range.1 hn))]
  · refine sum_congr rfl fun k _ => ?_
    unfold integratedRate
    congr 1
    have : ∀ k1 ∈ range P.K, P.Weff k1 k * (D.Ns k1 : ℝ) = ∑ n ∈ range D.N, if D.C n = k1 then P.A (D.C n) k * P.W (D.C n) k else 0 := by
      intro k1 _
      rw [CTData.Ns_eq_card, ← sum_filter]
      rw [sum_congr rfl (g := fun _ => P.Weff k1 k) fun n hn => by rw [(mem_filter.1 hn).2]; rfl]
      rw [sum_const, nsmul_eq_mul, mul_comm]
    rw [sum_congr rfl this, sum_comm]
    refine sum_congr rfl fun n hn => ?_
    rw [sum_ite_eq, if_pos (mem_range.2 (hL n (mem_range.1 hn)))]

/-- two events whose lag is exactly the end of the window, `dt_max - 1e-8` -/
noncomputable def boundaryEvents : CTData := { N := 2, S := fun n => if n = 0 then 0 else 1 - 1e-8, C := fun _ => 0, T := 10, bkgd := fun _ => 2 }

/-- **C70 (the boundary).** The excluded case is real: with a lag of exactly `dt_max - 1e-8` the parent update still considers the first event a possible parent of the second, but the rate in the
likelihood leaves it out. -/
theorem C70_boundary_disagrees : (backScan demoParams boundaryEvents 1 1 1 0).1 ≠ rateAtEvents demoParams boundaryEvents 1 := by
  have h1 : rateAtEvents demoParams boundaryEvents 1 = 1 := by
    norm_num [rateAtEvents, rateScan, demoParams, boundaryEvents]
  have h2 : (backScan demoParams boundaryEvents 1 1 1 0).1 = 1 + parWeight demoParams boundaryEvents 1 0 := by
    norm_num [backScan, demoParams, boundaryEvents]
  rw [h1, h2]
  have hc := parWeight_eq demoParams boundaryEvents 1 0 (by norm_num [boundaryEvents]) (by norm_num [boundaryEvents, demoParams])
  rw [hc]
  have : 0 < contribution demoParams boundaryEvents 1 0 := by
    unfold contribution
    dsimp only
    rw [if_pos (by constructor <;> norm_num [demoParams, boundaryEvents])]
    refine mul_pos (by norm_num [demoParams]) (impulse_pos _ _ _ _ ?_ ?_ ?_) <;> norm_num [demoParams, boundaryEvents]
  linarith

/-- non-vacuity: the demo data meets the hypotheses of the likelihood theorem -/
example : CTOk demoParams ∧ LabelsOk demoParams.K demoEvents ∧ ∀ n < demoEvents.N, ∀ j < n, ¬ BoundaryLag demoParams demoEvents n j := by
  refine ⟨demoParams_ok, fun n _ => by norm_num [demoParams, demoEvents], ?_⟩
  intro n hn j hj
  have hn' : n < 3 := hn
  unfold BoundaryLag
  interval_cases n <;> interval_cases j <;> norm_num [demoParams, demoEvents]

end PyHawkes
