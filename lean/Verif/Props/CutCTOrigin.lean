import Verif.Spec.CutCT
import Verif.Props.CTGibbs
set_option linter.unusedSectionVars false
set_option linter.unusedVariables false
/-! # C112: the origin of time does not matter (continuous time) -/
namespace PyHawkes
open Finset Spec

variable (P : CTParams) (c : ℝ) (D : CTData)

theorem delay_lag (n m : ℕ) : (delay c D).S n - (delay c D).S m = D.S n - D.S m := add_sub_add_right_eq_sub _ _ _

theorem delay_parWeight (n m : ℕ) : parWeight P (delay c D) n m = parWeight P D n m := by
  unfold parWeight; rw [delay_lag]; rfl

theorem delay_backScan (n m : ℕ) (d : ℝ) (q : ℕ) : backScan P (delay c D) n m d q = backScan P D n m d q := by
  induction m generalizing d q with
  | zero => rfl
  | succ m ih =>
    unfold backScan
    dsimp only
    rw [delay_lag, delay_parWeight, ih, ih]

theorem delay_fwdScan (n : ℕ) (u d : ℝ) (l : List ℕ) (acc : ℝ) : fwdScan P (delay c D) n u d l acc = fwdScan P D n u d l acc := by
  induction l generalizing acc with
  | nil => rfl
  | cons a l ih =>
    unfold fwdScan
    dsimp only
    rw [delay_lag, delay_parWeight, ih, ih]

theorem delay_resampleOne (u : Vec ℝ) (n : ℕ) : resampleOne P (delay c D) u n = resampleOne P D u n := by
  unfold resampleOne
  dsimp only
  rw [delay_backScan]
  simp only [delay_fwdScan]
  rfl

theorem delay_resamplePar (u : Vec ℝ) (sched : List ℕ) (Z : ℕ → ℤ) : ctResamplePar P (delay c D) u sched Z = ctResamplePar P D u sched Z := by
  have h : parStep P (delay c D) u = parStep P D u := by
    funext n st
    unfold parStep
    rw [delay_resampleOne]
  unfold ctResamplePar
  rw [h]

theorem delay_stats (dtMax : ℝ) (Z : ℕ → ℤ) : ctSuffStats (delay c D) dtMax Z = ctSuffStats D dtMax Z := by
  have hl : scaledLag (delay c D) dtMax = scaledLag D dtMax := by
    funext n m; unfold scaledLag; rw [delay_lag]
  have h1 : stats1 (delay c D) dtMax Z = stats1 D dtMax Z := by
    funext n s; unfold stats1; rw [hl]; rfl
  have h2 : ∀ mu, stats2 (delay c D) dtMax Z mu = stats2 D dtMax Z mu := by
    intro mu; funext n s; unfold stats2; rw [hl]; rfl
  unfold ctSuffStats
  rw [h1]
  simp only [h2, delay_lag]
  rfl

theorem delay_resample (u : Vec ℝ) (sched : List ℕ) : ctResample P u sched (delay c D) = (ctResample P u sched D).map (delay c) := by
  have e1 : (delay c D).Z = D.Z := rfl
  have e2 : (delay c D).N = D.N := rfl
  have e3 : (delay c D).Ns = D.Ns := rfl
  unfold ctResample
  rw [e1, delay_resamplePar, e2]
  simp only [delay_stats, e3]
  cases ctResamplePar P D u sched D.Z with
  | error e => rfl
  | ok Z =>
    dsimp only
    split_ifs
    · cases ctSuffStats D P.dtMax Z with
      | error e => rfl
      | ok s => dsimp only; split_ifs <;> rfl
    · rfl
    · rfl

theorem delay_resampleData (cs : List ℝ) : ∀ (dl : List CTData) (u : ℕ → Vec ℝ) (sched : ℕ → ℕ → List ℕ), cs.length = dl.length →
    ctResampleData P u sched (delayAll cs dl) = (ctResampleData P u sched dl).map (delayAll cs) := by
  induction cs with
  | nil =>
    intro dl u sched h
    cases dl with
    | nil => rfl
    | cons D dl => simp at h
  | cons c cs ih =>
    intro dl u sched h
    cases dl with
    | nil => simp at h
    | cons D dl =>
      have ih' := ih dl (fun i => u (i + 1)) (fun i => sched (i + 1)) (by simpa using h)
      have e : delayAll (c :: cs) (D :: dl) = delay c D :: delayAll cs dl := rfl
      rw [e]
      unfold ctResampleData
      rw [show (delay c D).N = D.N from rfl, delay_resample, ih']
      cases ctResample P (u 0) (sched 0 D.N) D with
      | error e => rfl
      | ok D' =>
        dsimp only [Except.map]
        cases ctResampleData P (fun i => u (i + 1)) (fun i => sched (i + 1)) dl with
        | error e => rfl
        | ok dl' => rfl

/-- folding a function that does not look at the event times -/
theorem delayAll_foldl {β : Type*} (f : β → CTData → β) (hf : ∀ b c D, f b (delay c D) = f b D) (cs : List ℝ) :
    ∀ (dl : List CTData) (b : β), cs.length = dl.length → (delayAll cs dl).foldl f b = dl.foldl f b := by
  induction cs with
  | nil => intro dl b h; cases dl with
    | nil => rfl
    | cons D dl => simp at h
  | cons c cs ih => intro dl b h; cases dl with
    | nil => simp at h
    | cons D dl =>
      have e : delayAll (c :: cs) (D :: dl) = delay c D :: delayAll cs dl := rfl
      rw [e, List.foldl_cons, List.foldl_cons, hf, ih dl _ (by simpa using h)]

theorem delay_rateScan (n m : ℕ) (l : ℝ) : rateScan P (delay c D) n m l = rateScan P D n m l := by
  induction m generalizing l with
  | zero => rfl
  | succ m ih =>
    unfold rateScan
    dsimp only
    rw [delay_lag, delay_parWeight, ih, ih]
    rfl

theorem delay_irScan (n m : ℕ) (l : Vec ℝ) : irScan P (delay c D) n m l = irScan P D n m l := by
  induction m generalizing l with
  | zero => rfl
  | succ m ih =>
    unfold irScan
    dsimp only
    rw [delay_lag, ih, ih]
    rfl

theorem delay_rates : rateAtEvents P (delay c D) = rateAtEvents P D := by
  funext n; unfold rateAtEvents; rw [delay_rateScan]; rfl

theorem delay_impulses : weightedImpulses P (delay c D) = weightedImpulses P D := by
  funext n; unfold weightedImpulses; rw [delay_irScan]

theorem delay_loglik (cs : List ℝ) (dl : List CTData) (h : cs.length = dl.length) : ctLogLik P (delayAll cs dl) = ctLogLik P dl := by
  unfold ctLogLik
  refine delayAll_foldl _ (fun b c D => ?_) cs dl 0 h
  rw [delay_rates]; rfl

theorem delay_llCol (cs : List ℝ) (dl : List CTData) (h : cs.length = dl.length) (k : ℕ) (col : Vec ℝ) : ctLLCol P (delayAll cs dl) k col = ctLLCol P dl k col := by
  unfold ctLLCol
  refine delayAll_foldl _ (fun b c D => ?_) cs dl 0 h
  rw [delay_impulses]; rfl

theorem delayAll_length (cs : List ℝ) (dl : List CTData) (h : cs.length = dl.length) : (delayAll cs dl).length = dl.length := by
  unfold delayAll; rw [List.length_zipWith, h, min_self]

/-- adjacency updates that see the same column likelihoods are the same -/
theorem serialSweep_of_llCol (p u : Mat ℝ) (dl dl' : List CTData) (hl : ∀ k col, ctLLCol P dl' k col = ctLLCol P dl k col) (A : Mat ℝ) :
    ctSerialSweep P p u dl' A = ctSerialSweep P p u dl A := by
  have h : ctSerialSite P p u dl' = ctSerialSite P p u dl := by
    funext i j A; unfold ctSerialSite; simp only [hl]
  unfold ctSerialSweep
  rw [h]

theorem parallelSweep_of_llCol (p u : Mat ℝ) (dl dl' : List CTData) (hlen : dl'.length = 0 ↔ dl.length = 0) (hl : ∀ k col, ctLLCol P dl' k col = ctLLCol P dl k col)
    (order : List ℕ) (A : Mat ℝ) : ctParallelSweep P p u dl' order A = ctParallelSweep P p u dl order A := by
  have hc : ∀ k, ctLLCol P dl' k = ctLLCol P dl k := fun k => funext fun col => hl k col
  have h : ctResampleColumn P p u dl' A = ctResampleColumn P p u dl A := by
    funext k; unfold ctResampleColumn; rw [hc]
  unfold ctParallelSweep
  rw [h]
  simp only [hlen]

/-- **C112 (the origin of time, likelihood).** Delaying all events of a data set (each data set by its own amount) changes neither the rates at the events nor the log likelihood nor the likelihoods that the
edge updates use. -/
theorem C112_origin_likelihood_partial (cs : List ℝ) (dl : List CTData) (h : cs.length = dl.length) :
    (∀ c D n, rateAtEvents P (delay c D) n = rateAtEvents P D n) ∧ ctLogLik P (delayAll cs dl) = ctLogLik P dl ∧
    ∀ k col, ctLLCol P (delayAll cs dl) k col = ctLLCol P dl k col :=
  ⟨fun c D n => by rw [delay_rates], delay_loglik P cs dl h, delay_llCol P cs dl h⟩

/-- **C112 (the origin of time, sweep).** A whole sweep with the same random numbers on delayed recordings gives the same parameters, adjacency matrix, weights, network and parents, or fails with the same
exception: the result is the result for the original recordings, delayed. -/
theorem C112_origin_sweep_partial (huge : ℝ) (d : CTDraws) (s : CTState) (cs : List ℝ) (h : cs.length = s.data.length) :
    ctResampleModel huge d (delayState cs s) = (ctResampleModel huge d s).map (delayState cs) := by
  have e : ctResampleData (delayState cs s).P d.parU d.sched (delayState cs s).data = (ctResampleData s.P d.parU d.sched s.data).map (delayAll cs) :=
    delay_resampleData s.P cs s.data d.parU d.sched h
  unfold ctResampleModel
  rw [e]
  cases hr : ctResampleData s.P d.parU d.sched s.data with
  | error e => rfl
  | ok dl =>
    have hlen : cs.length = dl.length := by
      rw [h]
      clear e h
      have gen : ∀ (l : List CTData) (u : ℕ → Vec ℝ) (sc : ℕ → ℕ → List ℕ) (l' : List CTData), ctResampleData s.P u sc l = .ok l' → l.length = l'.length := by
        intro l
        induction l with
        | nil => intro u sc l' h; cases h; rfl
        | cons D l ih =>
          intro u sc l' h
          unfold ctResampleData at h
          cases h1 : ctResample s.P (u 0) (sc 0 D.N) D with
          | error e => rw [h1] at h; cases h
          | ok D' =>
            rw [h1] at h
            dsimp only at h
            cases h2 : ctResampleData s.P (fun i => u (i + 1)) (fun i => sc (i + 1)) l with
            | error e => rw [h2] at h; cases h
            | ok l2 =>
              rw [h2] at h
              cases h
              simp [ih _ _ _ h2]
      exact gen _ _ _ _ hr
    dsimp only [Except.map]
    congr 1
    have hb : ∀ k, ctBiasArgs s.alpha s.beta (delayAll cs dl) k = ctBiasArgs s.alpha s.beta dl k := by
      intro k; unfold ctBiasArgs; rw [delayAll_foldl _ (fun b c D => rfl) cs dl _ hlen]
    have hi : ∀ nig i j, ctImpulseArgs nig (delayAll cs dl) i j = ctImpulseArgs nig dl i j := by
      intro nig i j
      unfold ctImpulseArgs
      rw [delayAll_foldl (fun acc d => acc + d.imp0 i j) (fun b c D => rfl) cs dl _ hlen, delayAll_foldl (fun acc d => acc + d.imp1 i j) (fun b c D => rfl) cs dl _ hlen,
        delayAll_foldl (fun acc d => acc + d.imp2 i j) (fun b c D => rfl) cs dl _ hlen]
    have hw : ∀ kap V A i j, ctWeightArgs kap V A (delayAll cs dl) i j = ctWeightArgs kap V A dl i j := by
      intro kap V A i j
      unfold ctWeightArgs
      rw [delayAll_foldl (fun acc d => acc + d.weight i j) (fun b c D => rfl) cs dl _ hlen, delayAll_foldl (fun acc d => acc + (d.Ns i : ℝ)) (fun b c D => rfl) cs dl _ hlen]
    have hs : ∀ P p u A, ctSerialSweep P p u (delayAll cs dl) A = ctSerialSweep P p u dl A := fun P p u A => serialSweep_of_llCol P p u dl _ (delay_llCol P cs dl hlen) A
    have hp : ∀ P p u o A, ctParallelSweep P p u (delayAll cs dl) o A = ctParallelSweep P p u dl o A := fun P p u o A =>
      parallelSweep_of_llCol P p u dl _ (by rw [delayAll_length cs dl hlen]) (delay_llCol P cs dl hlen) o A
    unfold ctResampleA ctResampleW ctResampleNet ctResampleImpulse ctResampleBias delayState
    dsimp only
    simp only [hb, hi, hw, hs, hp]

/-- non-vacuity: two data sets, moved by different amounts, are genuinely different recordings -/
example : ([1, 2] : List ℝ).length = [pairData (1/4), pairData (1/2)].length ∧ delayAll [1, 2] [pairData (1/4), pairData (1/2)] ≠ [pairData (1/4), pairData (1/2)] := by
  refine ⟨rfl, fun h => ?_⟩
  have h1 := congrArg (fun l => (l.head?.map fun D => D.S 0)) h
  simp [delayAll, delay, pairData, withStats] at h1

end PyHawkes
