import Verif.Props.StandardLog
import Verif.Props.CTPython
import Verif.Props.MFTiltModel
import Verif.Props.EvidenceSim
import Verif.Props.StandardHist

/-!
# Concrete cases that meet the hypotheses of C26, C27, C35, C36, C40, C50, C77 and C79
-/
set_option linter.unusedSectionVars false
set_option linter.unusedVariables false

namespace PyHawkes
open Finset Spec

/-! ### standard model -/

/-- a standard model at a stationary point of its log posterior: two processes with one event each in the first bin, whose responses fall into the second bin -/
noncomputable def statDemo (self : Bool) : StdModel :=
  { logDemo with allowSelf := self, weights := fun i c => if c = 0 then 1 / 2 else if self = false ∧ c = 1 + i then 1e-32 else 1 / 4 }

theorem statDemo_ok (self : Bool) : StdOk (statDemo self) := logDemo_ok.1

theorem statDemo_pos (self : Bool) (k : ℕ) : PosRow (1 + (statDemo self).K * (statDemo self).B) ((statDemo self).weights k) := by
  intro c _
  unfold statDemo
  dsimp only
  split_ifs <;> norm_num

theorem statDemo_self (k : ℕ) : ∀ c, IsSelf 1 k c → |(statDemo false).weights k c| ≤ 1e-8 := by
  intro c hc
  have h1 : 1 + k * 1 ≤ c := hc.1
  have h2 : c < 1 + (k + 1) * 1 := hc.2
  have : c = 1 + k := by omega
  unfold statDemo
  dsimp only
  rw [if_neg (by omega), if_pos ⟨rfl, this⟩]
  norm_num

theorem statDemo_gradient (self : Bool) {k : ℕ} (hk : k < 2) : ∃ g, stdGradient (statDemo self) k .none = .ok g ∧ ∀ c < 3, g c = 0 := by
  refine ⟨_, stdGradient_eq (statDemo_ok self) (by norm_num [statDemo, logDemo]) hk (statDemo_pos self k) (fun h => ?_), fun c hc => ?_⟩
  · have h : self = false := h
    subst h
    exact statDemo_self k
  · show (if _ then (0:ℝ) else _) = 0
    split
    · rfl
    rename_i hns
    have hns' : ¬ (self = false ∧ 1 + k * 1 ≤ c ∧ c < 1 + (k + 1) * 1) := hns
    have e1 : ∀ c, c < 3 → lpGrad (statDemo self) k ((statDemo self).weights k) c
        = (if c = 0 then (1 / (1 / 2) - 2 : ℝ) else -1) + if c = 0 then 0 else (2 - 1) / (statDemo self).weights k c - 3 := by
      intro c hc
      unfold lpGrad
      congr 1
      have hl : lin (1 + (statDemo self).K * (statDemo self).B) (fun t c => if c = 0 then (1:ℝ) else t) ((statDemo self).weights k) 0 = 1 / 2 := by
        unfold lin
        show ∑ c ∈ range (1 + 2 * 1), _ = _
        simp [sum_range_succ, statDemo]
      show ([_].map _).sum = _
      rw [List.map_singleton, List.sum_singleton]
      show ∑ t ∈ range 2, (((1 - t : ℕ) : ℝ) / lin (1 + (statDemo self).K * (statDemo self).B) (fun t c => if c = 0 then (1:ℝ) else t) ((statDemo self).weights k) t - 1) * (if c = 0 then (1:ℝ) else t) = _
      rw [sum_range_succ, sum_range_one, hl]
      by_cases h0 : c = 0 <;> simp [h0]
      norm_num
    rw [e1 c hc]
    by_cases h0 : c = 0
    · simp [h0]
    · rw [if_neg h0, if_neg h0]
      have : (statDemo self).weights k c = 1 / 4 := by
        unfold statDemo
        dsimp only
        rw [if_neg h0, if_neg]
        rintro ⟨h1, h2⟩
        exact hns' ⟨h1, by omega, by omega⟩
      rw [this]
      norm_num

/-- the hypotheses of `C36_stationary_is_max` are met: these weights maximise the log posterior of process 0 -/
example (w' : Vec ℝ) (hw' : PosRow 3 w') : ∃ y y', stdLogPost (statDemo true) .none (.arr [0]) = .ok y ∧ stdLogPost ((statDemo true).setRow 0 w') .none (.arr [0]) = .ok y' ∧ y' ≤ y := by
  obtain ⟨g, hg, h0⟩ := statDemo_gradient true (k := 0) (by decide)
  exact C36_stationary_is_max (statDemo_ok true) (by norm_num [statDemo, logDemo]) (by decide) rfl (statDemo_pos true 0) hg h0 w' hw'

/-- the hypotheses of `C36_stationary_is_max_no_self` are met -/
example (w' : Vec ℝ) (hw' : PosRow 3 w') (h1 : w' 2 = 1e-32) : ∃ y y', stdLogPost (statDemo false) .none (.arr [1]) = .ok y ∧ stdLogPost ((statDemo false).setRow 1 w') .none (.arr [1]) = .ok y' ∧ y' ≤ y := by
  obtain ⟨g, hg, h0⟩ := statDemo_gradient false (k := 1) (by decide)
  refine C36_stationary_is_max_no_self (statDemo_ok false) (by norm_num [statDemo, logDemo]) (by decide) rfl (statDemo_pos false 1) (statDemo_self 1) hg h0 w' hw' fun c hc => ?_
  have a : 1 + 1 * 1 ≤ c := hc.1
  have b : c < 1 + (1 + 1) * 1 := hc.2
  have : c = 2 := by omega
  subst this
  rw [h1]
  simp [statDemo]

/-- the hypotheses of C35 are met: gradient of the demo model, with and without self connections -/
example (self : Bool) : ∃ g, stdGradient (statDemo self) 0 .none = .ok g ∧ ∀ c < 1 + (statDemo self).K * (statDemo self).B, ((statDemo self).allowSelf = false → ¬ IsSelf (statDemo self).B 0 c) →
    HasDerivAt (fun x => okD 0 (stdLogPost ((statDemo self).setRow 0 (Vec.set ((statDemo self).weights 0) c x)) .none (.arr [0]))) (g c) ((statDemo self).weights 0 c) :=
  C35_partial_derivative (statDemo_ok self) (by norm_num [statDemo, logDemo]) (by show 0 < 2; decide) (statDemo_pos self 0) fun h => by
    have h : self = false := h
    subst h
    exact statDemo_self 0

/-- the hypotheses of `C36_concave` are met -/
example : ConcaveOn ℝ {w : ℕ → ℝ | ∀ c < 1 + logDemo.K * logDemo.B, 0 < w c} (fun w => okD 0 (stdLogPost (logDemo.setRow 0 w) .none (.arr [0]))) :=
  C36_concave logDemo_ok.1 (by norm_num [logDemo]) (by show 0 < 2; decide)

/-- the hypotheses of C40 are met: likelihood of both processes as the sum of the two, and log posterior likewise -/
example : ∃ a b, stdLogPost logDemo .none (.arr [0]) = .ok a ∧ stdLogPost logDemo .none (.arr [1]) = .ok b ∧ stdLogPost logDemo .none .none = .ok (a + b) := by
  have h : ∀ k < logDemo.K, stdLogPost logDemo .none (.arr [k]) = .ok (stdLP logDemo k (logDemo.weights k)) := fun k hk =>
    C35_log_posterior_value logDemo_ok.1 (by norm_num [logDemo]) hk (logDemo_ok.2.2 k hk)
  refine ⟨_, _, h 0 (by show 0 < 2; decide), h 1 (by show 1 < 2; decide), ?_⟩
  rw [C40_posterior_sum (by show 0 < 2; decide) h]
  show Except.ok (∑ k ∈ range 2, _) = _
  rw [sum_range_succ, sum_range_one]

/-! ### continuous time -/

/-- the hypotheses of C27 and C26 are met by two events half a window apart: the second one has two possible parents, each with positive probability -/
example : (backScan demoParams pyDemo 1 1 (demoParams.lam0 (pyDemo.C 1)) 0).1 = totalRate demoParams pyDemo 1 ∧ CTOk demoParams ∧ LabelsOk demoParams.K pyDemo ∧ SortedTimes pyDemo :=
  ⟨C27_early_termination _ _ pyDemo_ok.2.2.1 1 (by decide), demoParams_ok, pyDemo_ok.2.1, pyDemo_ok.2.2.1⟩

/-! ### variational updates -/

/-- the hypotheses of C50, C77 and C79 are met by the state `evDemo`, which is valid and whose bound is finite after any of the listed histories -/
example (huge : ℝ) : ∃ M, runActs [.coord, .sgd 1 (1 / 2), .coord] evDemo = .ok M ∧ MFValid evDemo M := by
  refine C50_valid_forever evDemo evDemo_good _ fun a ha => ?_
  simp only [List.mem_cons, List.not_mem_nil, or_false] at ha
  rcases ha with rfl | rfl | rfl
  · trivial
  · exact ⟨one_pos, by norm_num, by norm_num, fun h => by norm_num at h, rfl⟩
  · trivial

end PyHawkes
