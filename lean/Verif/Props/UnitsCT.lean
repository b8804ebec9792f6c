import Verif.Spec.UnitsCT
import Verif.Props.CTSampler
import Verif.Props.UnitsGibbs

/-!
# C109: the unit of time of the continuous-time model
-/

set_option linter.unusedVariables false
set_option linter.unusedSectionVars false

namespace PyHawkes
open Finset Spec

variable {c : ℝ}

/-! ### one impulse response -/

theorem pyImpulse_units (hc : 0 < c) (mu tau dtMax dt : ℝ) : pyImpulse mu tau (c * dtMax) (c * dt) = pyImpulse mu tau dtMax dt / c := by
  unfold pyImpulse
  dsimp only
  rw [mul_div_mul_left _ _ hc.ne']
  have : c * dt * (c * dtMax - c * dt) / (c * dtMax) * Real.sqrt (2 * Real.pi / tau) = c * (dt * (dtMax - dt) / dtMax * Real.sqrt (2 * Real.pi / tau)) := by
    rw [← mul_sub, show c * dt * (c * (dtMax - dt)) = c * (c * (dt * (dtMax - dt))) by ring, mul_div_mul_left _ _ hc.ne']
    ring
  rw [this]
  field_simp

/-- C109: the rates returned by `compute_rate`, at the same instants, are the old ones per new unit of time, for all data and parameters -/
theorem C109_compute_rate (hc : 0 < c) (P : CTParams) (D : CTData) (t : ℝ) (k : ℕ) :
    ctComputeRate (rescaleCT c P) (rescaleCTData c D) (c * t) k = ctComputeRate P D t k / c := by
  unfold ctComputeRate
  dsimp only
  have hf : ((List.range (rescaleCTData c D).N).filter fun n => decide (0 < c * t - (rescaleCTData c D).S n ∧ c * t - (rescaleCTData c D).S n < (rescaleCT c P).dtMax))
      = (List.range D.N).filter fun n => decide (0 < t - D.S n ∧ t - D.S n < P.dtMax) := by
    refine List.filter_congr fun n _ => ?_
    show decide (0 < c * t - c * D.S n ∧ c * t - c * D.S n < c * P.dtMax) = _
    rw [← mul_sub]
    simp only [mul_pos_iff_of_pos_left hc, mul_lt_mul_iff_right₀ hc]
  have key : ∀ (l : List ℕ) (x : ℝ), l.foldl (fun _ n => (rescaleCT c P).lam0 k + pyImpulse ((rescaleCT c P).mu ((rescaleCTData c D).C n) k) ((rescaleCT c P).tau ((rescaleCTData c D).C n) k)
      (rescaleCT c P).dtMax (c * t - (rescaleCTData c D).S n)) (x / c)
      = l.foldl (fun _ n => P.lam0 k + pyImpulse (P.mu (D.C n) k) (P.tau (D.C n) k) P.dtMax (t - D.S n)) x / c := by
    intro l
    induction l with
    | nil => intro x; rfl
    | cons n l ih =>
      intro x
      simp only [List.foldl_cons]
      rw [← ih]
      congr 1
      show P.lam0 k / c + pyImpulse (P.mu (D.C n) k) (P.tau (D.C n) k) (c * P.dtMax) (c * t - c * D.S n) = _
      rw [← mul_sub, pyImpulse_units hc]
      ring
  rw [← key, ← hf]
  rfl

theorem cyLogit_units (hc : 0 < c) (dt dtMax : ℝ) : cyLogit (c * dt / (c * dtMax)) = cyLogit (dt / dtMax) := by rw [mul_div_mul_left _ _ hc.ne']

/-- the cut-offs decide alike in both units -/
theorem clear_iff (hc : 0 < c) {x : ℝ} (h : x = 0 ∨ (1e-8 < x ∧ 1e-8 < c * x)) : (c * x < 1e-8 ↔ x < 1e-8) := by
  rcases h with h | ⟨h1, h2⟩
  · rw [h, mul_zero]
  · exact ⟨fun h => absurd h (not_lt.2 h2.le), fun h => absurd h (not_lt.2 h1.le)⟩

theorem clear_iff' (hc : 0 < c) {x : ℝ} (h : x ≤ 0 ∨ (1e-8 < x ∧ 1e-8 < c * x)) : (c * x < 1e-8 ↔ x < 1e-8) ∧ (c * x ≤ 1e-8 ↔ x ≤ 1e-8) := by
  rcases h with h | ⟨h1, h2⟩
  · have : c * x ≤ 0 := mul_nonpos_of_nonneg_of_nonpos hc.le h
    have e : (0 : ℝ) < 1e-8 := by norm_num
    exact ⟨⟨fun _ => by linarith, fun _ => by linarith⟩, ⟨fun _ => by linarith, fun _ => by linarith⟩⟩
  · exact ⟨⟨fun h => absurd h (not_lt.2 h2.le), fun h => absurd h (not_lt.2 h1.le)⟩, ⟨fun h => absurd h (not_le.2 h2), fun h => absurd h (not_le.2 h1)⟩⟩

theorem lnImpulse_units (hc : 0 < c) (mu tau dtMax dt : ℝ) (h1 : c * dt < 1e-8 ↔ dt < 1e-8) (h2 : c * (dtMax - dt) < 1e-8 ↔ dtMax - dt < 1e-8) :
    lnImpulse (c * dt) mu tau (c * dtMax) = lnImpulse dt mu tau dtMax / c := by
  unfold lnImpulse
  dsimp only
  rw [← mul_sub, if_congr h1 rfl (if_congr h2 rfl rfl), cyLogit_units hc, show c * dt * (c * (dtMax - dt)) = c * (c * (dt * (dtMax - dt))) by ring, mul_div_mul_left _ _ hc.ne']
  split_ifs
  · simp
  · simp
  · rw [show c * (dt * (dtMax - dt)) / dtMax * sqrt2pi / Real.sqrt tau = c * (dt * (dtMax - dt) / dtMax * sqrt2pi / Real.sqrt tau) by ring, div_mul_eq_div_div_swap]

section scan
variable {P : CTParams} {D : CTData}

theorem lag_units (D : CTData) (n m : ℕ) : (rescaleCTData c D).S n - (rescaleCTData c D).S m = c * (D.S n - D.S m) := by
  show c * D.S n - c * D.S m = _
  ring

theorem cut1 (hc : 0 < c) (h : ClearOfCutoffs c P.dtMax D) {n m : ℕ} (hn : n < D.N) (hm : m < n) : (c * (D.S n - D.S m) < 1e-8 ↔ D.S n - D.S m < 1e-8) := clear_iff hc (h n hn m hm).1

theorem cut2 (hc : 0 < c) (h : ClearOfCutoffs c P.dtMax D) {n m : ℕ} (hn : n < D.N) (hm : m < n) :
    (c * (P.dtMax - (D.S n - D.S m)) < 1e-8 ↔ P.dtMax - (D.S n - D.S m) < 1e-8) ∧ (c * (P.dtMax - (D.S n - D.S m)) ≤ 1e-8 ↔ P.dtMax - (D.S n - D.S m) ≤ 1e-8) :=
  clear_iff' hc ((h n hn m hm).2.imp_left fun h => by linarith)

theorem parWeight_units (hc : 0 < c) (h : ClearOfCutoffs c P.dtMax D) {n m : ℕ} (hn : n < D.N) (hm : m < n) :
    parWeight (rescaleCT c P) (rescaleCTData c D) n m = parWeight P D n m / c := by
  unfold parWeight
  rw [lag_units]
  show P.Weff (D.C m) (D.C n) * lnImpulse (c * (D.S n - D.S m)) (P.mu (D.C m) (D.C n)) (P.tau (D.C m) (D.C n)) (c * P.dtMax) = _
  rw [lnImpulse_units hc _ _ _ _ (cut1 hc h hn hm) (cut2 hc h hn hm).1, mul_div_assoc]

theorem backScan_units (hc : 0 < c) (h : ClearOfCutoffs c P.dtMax D) {n : ℕ} (hn : n < D.N) (m : ℕ) (hm : m ≤ n) (x : ℝ) (p : ℕ) :
    backScan (rescaleCT c P) (rescaleCTData c D) n m (x / c) p = ((backScan P D n m x p).1 / c, (backScan P D n m x p).2) := by
  induction m generalizing x p with
  | zero => rfl
  | succ m ih =>
    have hm' : m < n := hm
    rw [backScan, backScan]
    rw [lag_units, parWeight_units hc h hn hm', ← add_div, ih hm'.le, ih hm'.le]
    have e1 : ((rescaleCT c P).dtMax - 1e-8 < c * (D.S n - D.S m) ↔ P.dtMax - 1e-8 < D.S n - D.S m) := by
      have := (cut2 hc h hn hm').1
      show c * P.dtMax - 1e-8 < _ ↔ _
      constructor
      · intro h; have := this.1 (by linarith); linarith
      · intro h; have := this.2 (by linarith); linarith
    rw [if_congr (cut1 hc h hn hm') rfl (if_congr e1 rfl rfl)]
    split_ifs <;> rfl

theorem fwdScan_units (hc : 0 < c) (h : ClearOfCutoffs c P.dtMax D) {n : ℕ} (hn : n < D.N) (u denom : ℝ) (l : List ℕ) (hl : ∀ m ∈ l, m < n) (acc : ℝ) :
    fwdScan (rescaleCT c P) (rescaleCTData c D) n u (denom / c) l acc = fwdScan P D n u denom l acc := by
  induction l generalizing acc with
  | nil => rfl
  | cons m l ih =>
    have hm : m < n := hl m List.mem_cons_self
    have ih := ih fun m' h' => hl m' (List.mem_cons_of_mem _ h')
    rw [fwdScan, fwdScan]
    dsimp only
    rw [lag_units, parWeight_units hc h hn hm, div_div_div_cancel_right₀ hc.ne', ih, ih]
    have e1 : (c * (D.S n - D.S m) ≤ (rescaleCT c P).dtMax - 1e-8 ↔ D.S n - D.S m ≤ P.dtMax - 1e-8) := by
      have := (cut2 hc h hn hm).1
      show _ ≤ c * P.dtMax - 1e-8 ↔ _
      rw [← not_lt, ← not_lt, not_iff_not]
      constructor
      · intro h; have := this.1 (by linarith); linarith
      · intro h; have := this.2 (by linarith); linarith
    rw [if_congr (cut1 hc h hn hm) rfl (if_congr e1 rfl rfl)]

theorem resampleOne_units (hc : 0 < c) (h : ClearOfCutoffs c P.dtMax D) (u : Vec ℝ) {n : ℕ} (hn : n < D.N) :
    resampleOne (rescaleCT c P) (rescaleCTData c D) u n = resampleOne P D u n := by
  unfold resampleOne
  split_ifs with h0
  · rfl
  dsimp only
  rw [show (rescaleCT c P).lam0 ((rescaleCTData c D).C n) = P.lam0 (D.C n) / c from rfl, backScan_units hc h hn n le_rfl]
  dsimp only
  have e : ((backScan P D n n (P.lam0 (D.C n)) 0).1 / c = 0 ↔ (backScan P D n n (P.lam0 (D.C n)) 0).1 = 0) := by
    rw [div_eq_zero_iff]
    exact ⟨fun h => h.resolve_right hc.ne', Or.inl⟩
  rw [if_congr e rfl rfl, div_div_div_cancel_right₀ hc.ne']
  split_ifs
  · rfl
  · rfl
  · rw [fwdScan_units hc h hn]
    intro m hm
    rw [List.mem_range'] at hm
    obtain ⟨i, hi, rfl⟩ := hm
    omega

theorem rateScan_units (hc : 0 < c) (h : ClearOfCutoffs c P.dtMax D) {n : ℕ} (hn : n < D.N) (m : ℕ) (hm : m ≤ n) (x : ℝ) :
    rateScan (rescaleCT c P) (rescaleCTData c D) n m (x / c) = rateScan P D n m x / c := by
  induction m generalizing x with
  | zero => rfl
  | succ m ih =>
    have hm' : m < n := hm
    rw [rateScan, rateScan]
    rw [lag_units, parWeight_units hc h hn hm', ← add_div, ih hm'.le, ih hm'.le]
    have e1 : ((rescaleCT c P).dtMax - 1e-8 ≤ c * (D.S n - D.S m) ↔ P.dtMax - 1e-8 ≤ D.S n - D.S m) := by
      have := (cut2 hc h hn hm').2
      show c * P.dtMax - 1e-8 ≤ _ ↔ _
      constructor
      · intro h; have := this.1 (by linarith); linarith
      · intro h; have := this.2 (by linarith); linarith
    rw [if_congr (cut1 hc h hn hm') rfl (if_congr e1 rfl rfl), show (rescaleCT c P).Weff ((rescaleCTData c D).C m) ((rescaleCTData c D).C n) = P.Weff (D.C m) (D.C n) from rfl]
    split_ifs <;> rfl

/-- C109 (partial: data clear of the cut-offs): the rates at the events are the old ones per new unit of time -/
theorem C109_rate_at_events_partial (hc : 0 < c) (P : CTParams) (D : CTData) (h : ClearOfCutoffs c P.dtMax D) {n : ℕ} (hn : n < D.N) :
    rateAtEvents (rescaleCT c P) (rescaleCTData c D) n = rateAtEvents P D n / c := by
  unfold rateAtEvents
  rw [zero_add, zero_add]
  exact rateScan_units hc h hn n le_rfl _

theorem irScan_units (hc : 0 < c) (h : ClearOfCutoffs c P.dtMax D) {n : ℕ} (hn : n < D.N) (m : ℕ) (hm : m ≤ n) (v : Vec ℝ) :
    irScan (rescaleCT c P) (rescaleCTData c D) n m (fun k => v k / c) = fun k => irScan P D n m v k / c := by
  induction m generalizing v with
  | zero => rfl
  | succ m ih =>
    have hm' : m < n := hm
    rw [irScan, irScan]
    rw [lag_units]
    have e1 : ((rescaleCT c P).dtMax - 1e-8 ≤ c * (D.S n - D.S m) ↔ P.dtMax - 1e-8 ≤ D.S n - D.S m) := by
      have := (cut2 hc h hn hm').2
      show c * P.dtMax - 1e-8 ≤ _ ↔ _
      constructor
      · intro h; have := this.1 (by linarith); linarith
      · intro h; have := this.2 (by linarith); linarith
    have e2 : (Vec.set (fun k => v k / c) ((rescaleCTData c D).C m) (v ((rescaleCTData c D).C m) / c + (rescaleCT c P).W ((rescaleCTData c D).C m) ((rescaleCTData c D).C n) *
        lnImpulse (c * (D.S n - D.S m)) ((rescaleCT c P).mu ((rescaleCTData c D).C m) ((rescaleCTData c D).C n)) ((rescaleCT c P).tau ((rescaleCTData c D).C m) ((rescaleCTData c D).C n)) (rescaleCT c P).dtMax))
        = fun k => Vec.set v (D.C m) (v (D.C m) + P.W (D.C m) (D.C n) * lnImpulse (D.S n - D.S m) (P.mu (D.C m) (D.C n)) (P.tau (D.C m) (D.C n)) P.dtMax) k / c := by
      funext k
      show Vec.set (fun k => v k / c) (D.C m) (v (D.C m) / c + P.W (D.C m) (D.C n) * lnImpulse (c * (D.S n - D.S m)) (P.mu (D.C m) (D.C n)) (P.tau (D.C m) (D.C n)) (c * P.dtMax)) k = _
      rw [lnImpulse_units hc _ _ _ _ (cut1 hc h hn hm') (cut2 hc h hn hm').1]
      unfold Vec.set
      split_ifs
      · ring
      · rfl
    rw [if_congr (cut1 hc h hn hm') rfl (if_congr e1 rfl rfl), e2, ih hm'.le, ih hm'.le]
    split_ifs <;> rfl

theorem weightedImpulses_units (hc : 0 < c) (h : ClearOfCutoffs c P.dtMax D) {n : ℕ} (hn : n < D.N) (k : ℕ) :
    weightedImpulses (rescaleCT c P) (rescaleCTData c D) n k = weightedImpulses P D n k / c := by
  have := congrFun (irScan_units hc h hn n le_rfl fun _ => 0) k
  rw [show (fun _ : ℕ => (0 : ℝ) / c) = fun _ => 0 by simp] at this
  exact this

end scan

/-! ### parents and statistics -/

theorem forListE_equiv {α β σ τ : Type} (φ : σ → τ) (g : α → β) (f : α → σ → Except PyErr σ) (f' : β → τ → Except PyErr τ) (l : List α)
    (h : ∀ a ∈ l, ∀ s, f' (g a) (φ s) = (f a s).map φ) (s : σ) : forListE (l.map g) f' (φ s) = (forListE l f s).map φ := by
  induction l generalizing s with
  | nil => rfl
  | cons a l ih =>
    simp only [List.map_cons, forListE, h a List.mem_cons_self]
    cases f a s with
    | error e => rfl
    | ok s1 => exact ih (fun a' h' => h a' (List.mem_cons_of_mem _ h')) s1

theorem forListE_same {α σ : Type} (f f' : α → σ → Except PyErr σ) (l : List α) (h : ∀ a ∈ l, ∀ s, f' a s = f a s) (s : σ) : forListE l f' s = forListE l f s := by
  induction l generalizing s with
  | nil => rfl
  | cons a l ih =>
    simp only [forListE, h a List.mem_cons_self]
    cases f a s with
    | error e => rfl
    | ok s1 => exact ih (fun a' h' => h a' (List.mem_cons_of_mem _ h')) s1

/-- two runs succeed or fail alike -/
def SameOutcome {σ τ : Type} (x : Except PyErr σ) (y : Except PyErr τ) : Prop := match x, y with
  | .error e, .error e' => e = e'
  | .ok _, .ok _ => True
  | _, _ => False

theorem forListE_outcome {α σ τ : Type} (f : α → σ → Except PyErr σ) (f' : α → τ → Except PyErr τ) (h : ∀ a s s', SameOutcome (f a s) (f' a s')) (l : List α) (s : σ) (s' : τ) :
    SameOutcome (forListE l f s) (forListE l f' s') := by
  induction l generalizing s s' with
  | nil => trivial
  | cons a l ih =>
    have := h a s s'
    simp only [forListE]
    cases e1 : f a s <;> cases e2 : f' a s' <;> rw [e1, e2] at this
    · exact this
    · exact this.elim
    · exact this.elim
    · exact ih _ _

theorem parStep_units (hc : 0 < c) {P : CTParams} {D : CTData} (h : ClearOfCutoffs c P.dtMax D) (u : Vec ℝ) {n : ℕ} (hn : n < D.N) (st : ParState) :
    parStep (rescaleCT c P) (rescaleCTData c D) u n st = parStep P D u n st := by
  unfold parStep
  rw [resampleOne_units hc h u hn]

theorem scaledLag_units (hc : 0 < c) (D : CTData) (dtMax : ℝ) {n m : ℕ} (h0 : 0 < D.S n - D.S m) (h1 : D.S n - D.S m < dtMax) :
    scaledLag (rescaleCTData c D) (c * dtMax) n m = scaledLag D dtMax n m := by
  unfold scaledLag
  rw [lag_units, ← mul_sub, Real.log_mul hc.ne' h0.ne', Real.log_mul hc.ne' (sub_pos.2 h1).ne']
  ring

theorem ctSuffStats_units (hc : 0 < c) (D : CTData) (dtMax : ℝ) (Z : ℕ → ℤ) : ctSuffStats (rescaleCTData c D) (c * dtMax) Z = ctSuffStats D dtMax Z := by
  have hbad : ∀ n, (-1 < Z n ∧ ¬ (0 < (rescaleCTData c D).S n - (rescaleCTData c D).S (Z n).toNat ∧ (rescaleCTData c D).S n - (rescaleCTData c D).S (Z n).toNat < c * dtMax))
      ↔ (-1 < Z n ∧ ¬ (0 < D.S n - D.S (Z n).toNat ∧ D.S n - D.S (Z n).toNat < dtMax)) := fun n => by
    rw [lag_units, mul_pos_iff_of_pos_left hc, mul_lt_mul_iff_right₀ hc]
  have hbad' : (∃ n < D.N, -1 < Z n ∧ ¬ (0 < (rescaleCTData c D).S n - (rescaleCTData c D).S (Z n).toNat ∧ (rescaleCTData c D).S n - (rescaleCTData c D).S (Z n).toNat < c * dtMax))
      ↔ ∃ n < D.N, -1 < Z n ∧ ¬ (0 < D.S n - D.S (Z n).toNat ∧ D.S n - D.S (Z n).toNat < dtMax) :=
    exists_congr fun n => and_congr_right fun _ => hbad n
  by_cases hb : ∃ n < D.N, -1 < Z n ∧ ¬ (0 < D.S n - D.S (Z n).toNat ∧ D.S n - D.S (Z n).toNat < dtMax)
  · unfold ctSuffStats
    have o1 := forListE_outcome (stats1 (rescaleCTData c D) (c * dtMax) Z) (stats1 D dtMax Z) (fun n s s' => by
      unfold stats1
      show SameOutcome (if Z n = -1 then _ else if Z n < 0 ∨ (D.N : ℤ) ≤ Z n then _ else _) _
      split_ifs <;> trivial) (List.range D.N) ⟨fun _ => 0, fun _ _ => 0, fun _ _ => 0, fun _ _ => 0, fun _ _ => 0⟩ ⟨fun _ => 0, fun _ _ => 0, fun _ _ => 0, fun _ _ => 0, fun _ _ => 0⟩
    rw [show (rescaleCTData c D).N = D.N from rfl]
    cases e1 : forListE (List.range D.N) (stats1 (rescaleCTData c D) (c * dtMax) Z) ⟨fun _ => 0, fun _ _ => 0, fun _ _ => 0, fun _ _ => 0, fun _ _ => 0⟩ <;>
      cases e2 : forListE (List.range D.N) (stats1 D dtMax Z) ⟨fun _ => 0, fun _ _ => 0, fun _ _ => 0, fun _ _ => 0, fun _ _ => 0⟩ <;> rw [e1, e2] at o1
    · rw [show _ = _ from o1]
    · exact o1.elim
    · exact o1.elim
    · rename_i s s'
      dsimp only
      have o2 := forListE_outcome (stats2 (rescaleCTData c D) (c * dtMax) Z fun i j => s.imp1 i j / s.imp0 i j) (stats2 D dtMax Z fun i j => s'.imp1 i j / s'.imp0 i j) (fun n s s' => by
        unfold stats2
        show SameOutcome (if -1 < Z n then if (D.N : ℤ) ≤ Z n then _ else _ else _) _
        split_ifs <;> trivial) (List.range D.N) s s'
      cases e3 : forListE (List.range D.N) (stats2 (rescaleCTData c D) (c * dtMax) Z fun i j => s.imp1 i j / s.imp0 i j) s <;>
        cases e4 : forListE (List.range D.N) (stats2 D dtMax Z fun i j => s'.imp1 i j / s'.imp0 i j) s' <;> rw [e3, e4] at o2
      · rw [show _ = _ from o2]
      · exact o2.elim
      · exact o2.elim
      · dsimp only
        rw [if_pos hb, if_pos (hbad'.2 hb)]
  · have hlag : ∀ n < D.N, -1 < Z n → scaledLag (rescaleCTData c D) (c * dtMax) n (Z n).toNat = scaledLag D dtMax n (Z n).toNat := by
      intro n hn hz
      have : 0 < D.S n - D.S (Z n).toNat ∧ D.S n - D.S (Z n).toNat < dtMax := by
        by_contra h
        exact hb ⟨n, hn, hz, h⟩
      exact scaledLag_units hc D dtMax this.1 this.2
    have h1 : forListE (List.range D.N) (stats1 (rescaleCTData c D) (c * dtMax) Z) = forListE (List.range D.N) (stats1 D dtMax Z) := by
      funext s
      refine forListE_same _ _ _ (fun n hn s => ?_) s
      unfold stats1
      show (if Z n = -1 then _ else if Z n < 0 ∨ (D.N : ℤ) ≤ Z n then _ else _) = _
      split_ifs with a b
      · rfl
      · rfl
      · dsimp only
        rw [hlag n (List.mem_range.1 hn) (by omega)]
        rfl
    have h2 : ∀ mu, forListE (List.range D.N) (stats2 (rescaleCTData c D) (c * dtMax) Z mu) = forListE (List.range D.N) (stats2 D dtMax Z mu) := by
      intro mu
      funext s
      refine forListE_same _ _ _ (fun n hn s => ?_) s
      unfold stats2
      show (if -1 < Z n then if (D.N : ℤ) ≤ Z n then _ else _ else _) = _
      split_ifs with a b
      · rfl
      · dsimp only
        rw [hlag n (List.mem_range.1 hn) a]
        rfl
      · rfl
    unfold ctSuffStats
    rw [show (rescaleCTData c D).N = D.N from rfl, h1]
    cases forListE (List.range D.N) (stats1 D dtMax Z) ⟨fun _ => 0, fun _ _ => 0, fun _ _ => 0, fun _ _ => 0, fun _ _ => 0⟩ with
    | error e => rfl
    | ok s =>
      dsimp only
      rw [h2]
      cases forListE (List.range D.N) (stats2 D dtMax Z fun i j => s.imp1 i j / s.imp0 i j) s with
      | error e => rfl
      | ok s' =>
        dsimp only
        rw [if_neg hb, if_neg fun h => hb (hbad'.1 h)]

theorem ctResample_units (hc : 0 < c) {P : CTParams} {D : CTData} (h : ClearOfCutoffs c P.dtMax D) (u : Vec ℝ) (sched : List ℕ) (hs : ∀ n ∈ sched, n < D.N) :
    ctResample (rescaleCT c P) u sched (rescaleCTData c D) = (ctResample P u sched D).map (rescaleCTData c) := by
  have h1 : ctResamplePar (rescaleCT c P) (rescaleCTData c D) u sched D.Z = ctResamplePar P D u sched D.Z := by
    unfold ctResamplePar
    rw [forListE_same _ _ sched fun n hn st => parStep_units hc h u (hs n hn) st]
  unfold ctResample
  rw [show (rescaleCTData c D).Z = D.Z from rfl, h1]
  cases ctResamplePar P D u sched D.Z with
  | error e => rfl
  | ok Z =>
    dsimp only
    rw [show (rescaleCT c P).dtMax = c * P.dtMax from rfl, ctSuffStats_units hc]
    show (if ¬ ∀ n < D.N, -2 < Z n then _ else if ¬ ∀ n < D.N, Z n < n then _ else _) = _
    split_ifs
    · cases ctSuffStats D P.dtMax Z with
      | error e => rfl
      | ok s =>
        dsimp only
        show (if ¬ ∀ k < P.K, s.bkgd k + ∑ k1 ∈ range P.K, s.weight k1 k = (D.Ns k : ℝ) then _ else _) = _
        split_ifs <;> rfl
    · rfl
    · rfl

theorem ctResampleData_units (hc : 0 < c) (P : CTParams) (dl : List CTData) (h : ∀ D ∈ dl, ClearOfCutoffs c P.dtMax D) (u : ℕ → Vec ℝ) (sched : ℕ → ℕ → List ℕ) (hs : ∀ i N, ∀ n ∈ sched i N, n < N) :
    ctResampleData (rescaleCT c P) u sched (dl.map (rescaleCTData c)) = (ctResampleData P u sched dl).map (List.map (rescaleCTData c)) := by
  induction dl generalizing u sched with
  | nil => rfl
  | cons D dl ih =>
    simp only [List.map_cons, ctResampleData]
    rw [show (rescaleCTData c D).N = D.N from rfl, ctResample_units hc (h D List.mem_cons_self) _ _ (hs 0 D.N), ih (fun D' h' => h D' (List.mem_cons_of_mem _ h')) _ _ fun i N => hs (i + 1) N]
    cases ctResample P (u 0) (sched 0 D.N) D with
    | error e => rfl
    | ok D' => cases ctResampleData P (fun i => u (i + 1)) (fun i => sched (i + 1)) dl <;> rfl

/-! ### likelihoods -/

theorem foldl_ctUnits (f f' : CTData → ℝ) (n : CTData → ℝ) (x : ℝ) (dl : List CTData) (h : ∀ D ∈ dl, f' (rescaleCTData c D) = f D - n D * x) :
    (((dl.map (rescaleCTData c)).map f').sum = (dl.map f).sum - (dl.map n).sum * x) := by
  induction dl with
  | nil => simp
  | cons D dl ih =>
    simp only [List.map_cons, List.sum_cons]
    rw [h D List.mem_cons_self, ih fun D' h' => h D' (List.mem_cons_of_mem _ h')]
    ring

/-- C109 (partial: data clear of the cut-offs): `log_likelihood` changes by `-N log c`, where `N` is the number of events, whatever the parameters -/
theorem C109_log_likelihood_partial (hc : 0 < c) (P : CTParams) (dl : List CTData) (h : ∀ D ∈ dl, ClearOfCutoffs c P.dtMax D) (hr : ∀ D ∈ dl, ∀ n < D.N, rateAtEvents P D n ≠ 0) :
    ctLogLik (rescaleCT c P) (dl.map (rescaleCTData c)) = ctLogLik P dl - ((dl.map fun D => D.N).sum : ℕ) * Real.log c := by
  have e : ∀ (P : CTParams) (dl : List CTData), ctLogLik P dl = (dl.map fun d => -(∑ k ∈ range P.K, integratedRate P d k) + ∑ n ∈ range d.N, Real.log (rateAtEvents P d n)).sum := by
    intro P dl
    unfold ctLogLik
    rw [show (fun (ll : ℝ) (d : CTData) => (ll - ∑ k ∈ range P.K, integratedRate P d k) + ∑ n ∈ range d.N, Real.log (rateAtEvents P d n))
      = fun ll d => ll + (-(∑ k ∈ range P.K, integratedRate P d k) + ∑ n ∈ range d.N, Real.log (rateAtEvents P d n)) from by funext ll d; ring, foldl_add_eq, zero_add]
  rw [e, e, foldl_ctUnits _ _ (fun D => (D.N : ℝ)) (Real.log c) dl]
  · congr 2
    induction dl with
    | nil => simp
    | cons D dl ih =>
      simp only [List.map_cons, List.sum_cons, Nat.cast_add]
      rw [ih (fun D' h' => h D' (List.mem_cons_of_mem _ h')) fun D' h' => hr D' (List.mem_cons_of_mem _ h')]
  · intro D hD
    have h1 : ∀ k, integratedRate (rescaleCT c P) (rescaleCTData c D) k = integratedRate P D k := by
      intro k
      show P.lam0 k / c * (c * D.T) + _ = _
      rw [← mul_assoc, div_mul_cancel₀ _ hc.ne']
      rfl
    simp only [h1]
    show -(∑ k ∈ range P.K, integratedRate P D k) + ∑ n ∈ range D.N, Real.log (rateAtEvents (rescaleCT c P) (rescaleCTData c D) n) = _
    have h2 : ∑ n ∈ range D.N, Real.log (rateAtEvents (rescaleCT c P) (rescaleCTData c D) n) = ∑ n ∈ range D.N, (Real.log (rateAtEvents P D n) - Real.log c) :=
      sum_congr rfl fun n hn => by rw [C109_rate_at_events_partial hc P D (h D hD) (mem_range.1 hn), Real.log_div (hr D hD n (mem_range.1 hn)) hc.ne']
    rw [h2, sum_sub_distrib, sum_const, card_range, nsmul_eq_mul]
    ring

/-- events of process `k` -/
noncomputable def procEvents (dl : List CTData) (k : ℕ) : ℝ := (dl.map fun d => ∑ n ∈ range d.N, if d.C n = k then (1 : ℝ) else 0).sum

theorem ctLLCol_units (hc : 0 < c) (P : CTParams) (dl : List CTData) (h : ∀ D ∈ dl, ClearOfCutoffs c P.dtMax D) (k : ℕ) (col : Vec ℝ)
    (hr : ∀ D ∈ dl, ∀ n < D.N, D.C n = k → P.lam0 k + ∑ k1 ∈ range P.K, col k1 * weightedImpulses P D n k1 ≠ 0) :
    ctLLCol (rescaleCT c P) (dl.map (rescaleCTData c)) k col = ctLLCol P dl k col - procEvents dl k * Real.log c := by
  rw [ctLLCol_sum, ctLLCol_sum]
  unfold procEvents
  refine foldl_ctUnits _ _ _ (Real.log c) dl fun D hD => ?_
  have e1 : -((rescaleCT c P).lam0 k * (rescaleCTData c D).T) = -(P.lam0 k * D.T) := by
    show -(P.lam0 k / c * (c * D.T)) = _
    rw [← mul_assoc, div_mul_cancel₀ _ hc.ne']
  rw [e1]
  show -(P.lam0 k * D.T) - ∑ k1 ∈ range P.K, col k1 * P.W k1 k * (D.Ns k1 : ℝ)
    + (∑ n ∈ range D.N, if D.C n = k then Real.log (P.lam0 k / c + ∑ k1 ∈ range P.K, col k1 * weightedImpulses (rescaleCT c P) (rescaleCTData c D) n k1) else 0) = _
  rw [add_sub_assoc, sum_mul, ← sum_sub_distrib]
  congr 1
  refine sum_congr rfl fun n hn => ?_
  have hn := mem_range.1 hn
  split_ifs with hk
  · rw [sum_congr rfl fun k1 _ => by rw [weightedImpulses_units hc (h D hD) hn, ← mul_div_assoc], ← sum_div, ← add_div, Real.log_div (hr D hD n hn hk) hc.ne']
    ring
  · ring

/-! ### edges -/

/-- what the edge updates need -/
structure CTPosParams (P : CTParams) (dl : List CTData) : Prop where
  lam0 : ∀ k < P.K, 0 < P.lam0 k
  W : ∀ i < P.K, ∀ j < P.K, 0 ≤ P.W i j
  dtMax : 0 < P.dtMax
  labels : ∀ D ∈ dl, LabelsOk P.K D

theorem lnImpulse_nonneg (dt mu tau dtMax : ℝ) (h : 0 < dtMax) : 0 ≤ lnImpulse dt mu tau dtMax := by
  unfold lnImpulse
  split_ifs with h1 h2
  · exact le_rfl
  · exact le_rfl
  · have e : (0 : ℝ) < 1e-8 := by norm_num
    have a : 0 < dt := by linarith [not_lt.1 h1]
    have b : 0 < dtMax - dt := by linarith [not_lt.1 h2]
    have : (0 : ℝ) < sqrt2pi := by unfold sqrt2pi; norm_num
    positivity

theorem irScan_nonneg {P : CTParams} {D : CTData} {dl : List CTData} (hP : CTPosParams P dl) (hD : D ∈ dl) {n : ℕ} (hn : n < D.N) (m : ℕ) (hm : m ≤ n) (v : Vec ℝ) (hv : ∀ k, 0 ≤ v k) (k : ℕ) :
    0 ≤ irScan P D n m v k := by
  induction m generalizing v with
  | zero => exact hv k
  | succ m ih =>
    rw [irScan]
    split_ifs
    · exact ih (Nat.le_of_succ_le hm) v hv
    · exact hv k
    · refine ih (Nat.le_of_succ_le hm) _ fun j => ?_
      unfold Vec.set
      split_ifs
      · exact add_nonneg (hv _) (mul_nonneg (hP.W _ (hP.labels D hD m (by omega)) _ (hP.labels D hD n hn)) (lnImpulse_nonneg _ _ _ _ hP.dtMax))
      · exact hv j

theorem ctLLCol_units' (hc : 0 < c) {P : CTParams} {dl : List CTData} (hP : CTPosParams P dl) (h : ∀ D ∈ dl, ClearOfCutoffs c P.dtMax D) {k : ℕ} (hk : k < P.K) (col : Vec ℝ) (hcol : ∀ i < P.K, 0 ≤ col i) :
    ctLLCol (rescaleCT c P) (dl.map (rescaleCTData c)) k col = ctLLCol P dl k col - procEvents dl k * Real.log c := by
  refine ctLLCol_units hc P dl h k col fun D hD n hn _ => ne_of_gt ?_
  have := hP.lam0 k hk
  have : 0 ≤ ∑ k1 ∈ range P.K, col k1 * weightedImpulses P D n k1 := sum_nonneg fun i hi =>
    mul_nonneg (hcol i (mem_range.1 hi)) (irScan_nonneg hP hD hn n le_rfl _ (fun _ => le_rfl) i)
  linarith

theorem ctColumn_units (hc : 0 < c) {P : CTParams} {p u A : Mat ℝ} {dl : List CTData} (hP : CTPosParams P dl) (h : ∀ D ∈ dl, ClearOfCutoffs c P.dtMax D) (hp : ∀ i < P.K, ∀ j < P.K, 0 ≤ p i j ∧ p i j ≤ 1)
    (hu : ∀ i j, 0 ≤ u i j ∧ u i j < 1) (hA : ∀ i < P.K, ∀ j < P.K, 0 ≤ A i j) {k : ℕ} (hk : k < P.K) :
    ctResampleColumn (rescaleCT c P) p u (dl.map (rescaleCTData c)) A k = ctResampleColumn P p u dl A k := by
  unfold ctResampleColumn
  have hll := fun (col : Vec ℝ) h' => ctLLCol_units' hc hP h hk col h'
  refine (forRange_congr_inv (fun v : Vec ℝ => ∀ i < P.K, 0 ≤ v i) P.K _ _ _ (fun i hi => hA i hi k hk) ?_ ?_).1
  · intro i hi v hv
    unfold colSite
    split_ifs
    · exact vecSet_nonneg hv i le_rfl
    · exact vecSet_nonneg hv i zero_le_one
    · exact vecSet_nonneg (vecSet_nonneg (vecSet_nonneg hv i le_rfl) i zero_le_one) i (edgeDraw_nonneg _ _ _ _)
  · intro i hi v hv
    unfold colSite
    dsimp only
    rw [hll _ (vecSet_nonneg hv i le_rfl), hll _ (vecSet_nonneg (vecSet_nonneg hv i le_rfl) i zero_le_one), edgeDraw_shift _ _ _ _ _ (hp i hi k hk) (hu i k)]

theorem ctSerial_units (hc : 0 < c) {P : CTParams} {p u A : Mat ℝ} {dl : List CTData} (hP : CTPosParams P dl) (h : ∀ D ∈ dl, ClearOfCutoffs c P.dtMax D) (hp : ∀ i < P.K, ∀ j < P.K, 0 ≤ p i j ∧ p i j ≤ 1)
    (hu : ∀ i j, 0 ≤ u i j ∧ u i j < 1) (hA : ∀ i < P.K, ∀ j < P.K, 0 ≤ A i j) : ctSerialSweep (rescaleCT c P) p u (dl.map (rescaleCTData c)) A = ctSerialSweep P p u dl A := by
  have hsite : ∀ i j, ∀ A : Mat ℝ, (∀ i < P.K, ∀ j < P.K, 0 ≤ A i j) → ∀ i' < P.K, ∀ j' < P.K, 0 ≤ ctSerialSite (rescaleCT c P) p u (dl.map (rescaleCTData c)) i j A i' j' := by
    intro i j A hA
    unfold ctSerialSite
    split_ifs
    · exact matSet_nonneg hA i j le_rfl
    · exact matSet_nonneg hA i j zero_le_one
    · exact matSet_nonneg (matSet_nonneg (matSet_nonneg hA i j le_rfl) i j zero_le_one) i j (edgeDraw_nonneg _ _ _ _)
  unfold ctSerialSweep
  refine (forRange_congr_inv (fun A : Mat ℝ => ∀ i < P.K, ∀ j < P.K, 0 ≤ A i j) P.K _ _ _ hA ?_ ?_).1
  · intro i hi A hA
    exact forRange_induct (fun _ (A : Mat ℝ) => ∀ i < P.K, ∀ j < P.K, 0 ≤ A i j) P.K _ A hA fun j hj A hA => hsite i j A hA
  · intro i hi A hA
    refine (forRange_congr_inv (fun A : Mat ℝ => ∀ i < P.K, ∀ j < P.K, 0 ≤ A i j) P.K _ _ _ hA (fun j hj A hA => hsite i j A hA) ?_).1
    intro j hj A hA
    unfold ctSerialSite
    split_ifs
    · rfl
    · rfl
    · dsimp only
      rw [ctLLCol_units' hc hP h hj _ fun i' hi' => matSet_nonneg hA i j le_rfl i' hi' j hj,
        ctLLCol_units' hc hP h hj _ fun i' hi' => matSet_nonneg (matSet_nonneg hA i j le_rfl) i j zero_le_one i' hi' j hj, edgeDraw_shift _ _ _ _ _ (hp i hi j hj) (hu i j)]

theorem ctParallel_entry (P : CTParams) (p u : Mat ℝ) (dl : List CTData) (order : List ℕ) (A : Mat ℝ) (i j : ℕ) :
    ctParallelSweep P p u dl order A i j = if dl.length = 0 then (if u i j < p i j then 1 else 0) else if j ∈ order then ctResampleColumn P p u dl A j i else 0 := by
  unfold ctParallelSweep
  by_cases h : dl.length = 0
  · rw [if_pos h, if_pos h]
  · rw [if_neg h, if_neg h]
    rw [slots_eq]
    split_ifs <;> rfl

theorem ctParallel_units (hc : 0 < c) {P : CTParams} {p u A : Mat ℝ} {dl : List CTData} (hP : CTPosParams P dl) (h : ∀ D ∈ dl, ClearOfCutoffs c P.dtMax D) (hp : ∀ i < P.K, ∀ j < P.K, 0 ≤ p i j ∧ p i j ≤ 1)
    (hu : ∀ i j, 0 ≤ u i j ∧ u i j < 1) (hA : ∀ i < P.K, ∀ j < P.K, 0 ≤ A i j) {order : List ℕ} (ho : order.Perm (List.range P.K)) :
    ctParallelSweep (rescaleCT c P) p u (dl.map (rescaleCTData c)) order A = ctParallelSweep P p u dl order A := by
  funext i j
  rw [ctParallel_entry, ctParallel_entry, List.length_map]
  by_cases hj : j ∈ order
  · rw [if_pos hj, if_pos hj, ctColumn_units hc hP h hp hu hA (List.mem_range.1 (ho.mem_iff.1 hj))]
  · rw [if_neg hj, if_neg hj]

theorem ctA_units (hc : 0 < c) {d : CTDraws} {s : CTState} {C : ℕ} (hd : CTDrawsOk s.P.K C d) (hn : NetOk s.P.K s.net) (hP : CTPosParams s.P s.data) (h : ∀ D ∈ s.data, ClearOfCutoffs c s.P.dtMax D)
    (hA : ∀ i < s.P.K, ∀ j < s.P.K, 0 ≤ s.P.A i j) : ctResampleA (rescaleCTDraws c d) (rescaleCTState c s) = rescaleCTState c (ctResampleA d s) := by
  have e : (if d.parallel then ctParallelSweep (rescaleCT c s.P) s.net.P d.u (s.data.map (rescaleCTData c)) d.order s.P.A
    else ctSerialSweep (rescaleCT c s.P) s.net.P d.u (s.data.map (rescaleCTData c)) s.P.A)
    = if d.parallel then ctParallelSweep s.P s.net.P d.u s.data d.order s.P.A else ctSerialSweep s.P s.net.P d.u s.data s.P.A := by
    rw [ctParallel_units hc hP h (netP_mem hn) hd.unif hA hd.order, ctSerial_units hc hP h (netP_mem hn) hd.unif hA]
  exact congrArg (fun A => ({ rescaleCTState c s with P := { rescaleCT c s.P with A := A } } : CTState)) e

/-! ### the other updates -/

theorem foldl_map_data {α : Type} (f : α → CTData → α) (f' : α → CTData → α) (h : ∀ a D, f' a (rescaleCTData c D) = f a D) (dl : List CTData) (a : α) :
    (dl.map (rescaleCTData c)).foldl f' a = dl.foldl f a := by
  induction dl generalizing a with
  | nil => rfl
  | cons D dl ih => simp only [List.map_cons, List.foldl_cons, h, ih]

theorem ctBias_units (hc : 0 < c) (d : CTDraws) (s : CTState) : ctResampleBias (rescaleCTDraws c d) (rescaleCTState c s) = rescaleCTState c (ctResampleBias d s) := by
  have e : ∀ k, (rescaleCTDraws c d).lam k (ctBiasArgs s.alpha (c * s.beta) (s.data.map (rescaleCTData c)) k) = d.lam k (ctBiasArgs s.alpha s.beta s.data k) / c := by
    intro k
    show d.lam k { ctBiasArgs s.alpha (c * s.beta) (s.data.map (rescaleCTData c)) k with scale := c * (ctBiasArgs s.alpha (c * s.beta) (s.data.map (rescaleCTData c)) k).scale } / c = _
    congr 2
    have hf : ∀ (dl : List CTData) (x : ℝ × ℝ), (dl.map (rescaleCTData c)).foldl (fun _ d => (d.bkgd k, d.T)) (x.1, c * x.2)
        = ((dl.foldl (fun _ d => (d.bkgd k, d.T)) x).1, c * (dl.foldl (fun _ d => (d.bkgd k, d.T)) x).2) := by
      intro dl
      induction dl with
      | nil => intro x; rfl
      | cons D dl ih => intro x; exact ih (D.bkgd k, D.T)
    have := hf s.data (0, 0)
    rw [mul_zero] at this
    unfold ctBiasArgs
    dsimp only
    rw [show (s.data.map (rescaleCTData c)).foldl (fun (_ : ℝ × ℝ) d => (d.bkgd k, d.T)) (0, 0) = _ from this]
    dsimp only
    rw [← mul_add, one_div, mul_inv, mul_inv_cancel_left₀ hc.ne', one_div]
  exact congrArg (fun l => ({ rescaleCTState c s with P := { rescaleCT c s.P with lam0 := l } } : CTState)) (funext e)

theorem ctImpulse_units (d : CTDraws) (s : CTState) : ctResampleImpulse (rescaleCTDraws c d) (rescaleCTState c s) = rescaleCTState c (ctResampleImpulse d s) := by
  have e : ∀ i j, ctImpulseArgs s.nig (s.data.map (rescaleCTData c)) i j = ctImpulseArgs s.nig s.data i j := by
    intro i j
    unfold ctImpulseArgs
    dsimp only
    rw [foldl_map_data (fun (acc : ℝ) d => acc + d.imp0 i j) _ fun _ _ => rfl, foldl_map_data (fun (acc : ℝ) d => acc + d.imp1 i j) _ fun _ _ => rfl,
      foldl_map_data (fun (acc : ℝ) d => acc + d.imp2 i j) _ fun _ _ => rfl]
  unfold ctResampleImpulse
  show ({ rescaleCTState c s with P := { rescaleCT c s.P with
      mu := fun i j => (sampleNig (d.nigGam i j) (d.nigNormal i j) (ctImpulseArgs s.nig (s.data.map (rescaleCTData c)) i j)).1
      tau := fun i j => (sampleNig (d.nigGam i j) (d.nigNormal i j) (ctImpulseArgs s.nig (s.data.map (rescaleCTData c)) i j)).2 } } : CTState) = _
  simp only [e]
  rfl

theorem ctNet_units (huge : ℝ) (d : CTDraws) (s : CTState) : ctResampleNet huge (rescaleCTDraws c d) (rescaleCTState c s) = rescaleCTState c (ctResampleNet huge d s) := rfl

theorem ctW_units (d : CTDraws) (s : CTState) : ctResampleW (rescaleCTDraws c d) (rescaleCTState c s) = rescaleCTState c (ctResampleW d s) := by
  have e : ∀ i j, ctWeightArgs s.net.kappa s.net.V s.P.A (s.data.map (rescaleCTData c)) i j = ctWeightArgs s.net.kappa s.net.V s.P.A s.data i j := by
    intro i j
    unfold ctWeightArgs
    dsimp only
    rw [foldl_map_data (fun (acc : ℝ) d => acc + d.weight i j) _ fun _ _ => rfl, foldl_map_data (fun (acc : ℝ) d => acc + (d.Ns i : ℝ)) _ fun _ _ => rfl]
  have e2 : (fun i j => d.weight i j (ctWeightArgs s.net.kappa s.net.V s.P.A (s.data.map (rescaleCTData c)) i j)) = fun i j => d.weight i j (ctWeightArgs s.net.kappa s.net.V s.P.A s.data i j) := by
    funext i j; rw [e]
  exact congrArg (fun W => ({ rescaleCTState c s with P := { rescaleCT c s.P with W := W } } : CTState)) e2

/-! ### adding data, simulation -/

theorem ctNew_units (a : CTArgs) : newCTData (rescaleCTArgs c a) = rescaleCTData c (newCTData a) := rfl

open Classical in
theorem ctAdd_units (hc : 0 < c) (K : ℕ) (a : CTArgs) (dl : List CTData) :
    ctAddData K (rescaleCTArgs c a) (dl.map (rescaleCTData c)) = (ctAddData K a dl).map (List.map (rescaleCTData c)) := by
  have h1 : (∀ n < a.nS, 0 ≤ c * a.S n) ↔ ∀ n < a.nS, 0 ≤ a.S n := forall₂_congr fun n _ => mul_nonneg_iff_of_pos_left hc
  have h2 : (∀ n < a.nS, c * a.S n < c * a.T) ↔ ∀ n < a.nS, a.S n < a.T := forall₂_congr fun n _ => mul_lt_mul_iff_right₀ hc
  have h3 : (∀ n, n + 1 < a.nS → 0 ≤ c * a.S (n + 1) - c * a.S n) ↔ ∀ n, n + 1 < a.nS → 0 ≤ a.S (n + 1) - a.S n :=
    forall₂_congr fun n _ => by rw [← mul_sub]; exact mul_nonneg_iff_of_pos_left hc
  unfold ctAddData
  show (if a.tIsFloat = false then _
    else if 0 < a.nS ∧ ¬ (a.sIsArray = true ∧ (∀ n < a.nS, 0 ≤ c * a.S n) ∧ (∀ n < a.nS, c * a.S n < c * a.T) ∧ a.sIsFloat = true) then _
    else if 0 < a.nS ∧ ¬ (∀ n, n + 1 < a.nS → 0 ≤ c * a.S (n + 1) - c * a.S n) then _
    else if 0 < a.nC ∧ ¬ (a.cIsArray = true ∧ a.nC = a.nS ∧ (∀ n < a.nC, 0 ≤ a.C n) ∧ (∀ n < a.nC, a.C n < K) ∧ a.cIsInt = true) then _
    else if a.sIsArray = false ∨ a.cIsArray = false then _
    else if ¬ (a.nS = a.nC) then _
    else if ¬ (a.cIsInt = true ∧ (a.nC = 0 ∨ ((∀ n < a.nC, 0 ≤ a.C n) ∧ ∀ n < a.nC, a.C n < K))) then _
    else (Except.ok (dl.map (rescaleCTData c) ++ [newCTData (rescaleCTArgs c a)]) : Except PyErr (List CTData))) = _
  rw [if_congr Iff.rfl rfl (if_congr (by rw [h1, h2]) rfl (if_congr (by rw [h3]) rfl rfl)), ctNew_units, show dl.map (rescaleCTData c) ++ [rescaleCTData c (newCTData a)] = (dl ++ [newCTData a]).map (rescaleCTData c) by simp]
  split_ifs <;> rfl

theorem childTimes_units (hc : 0 < c) {σ : Type} (P : CTParams) (T : ℝ) (rng : Rng σ) (s : ℝ) (k k' : ℕ) (st : σ) :
    childTimes (rescaleCT c P) (c * T) rng (c * s) k k' st = ((childTimes P T rng s k k' st).1.map (c * ·), (childTimes P T rng s k k' st).2) := by
  unfold childTimes
  refine Prod.ext ?_ rfl
  dsimp only
  show List.filter _ (List.map (fun z => c * s + c * P.dtMax * pyLogistic (P.mu k k' + Real.sqrt (1 / P.tau k k') * z) 1) _) = _
  rw [show (fun z : ℝ => c * s + c * P.dtMax * pyLogistic (P.mu k k' + Real.sqrt (1 / P.tau k k') * z) 1)
    = (c * ·) ∘ fun z => s + P.dtMax * pyLogistic (P.mu k k' + Real.sqrt (1 / P.tau k k') * z) 1 from by funext z; simp only [Function.comp]; ring, ← List.map_map, List.filter_map]
  congr 1
  refine List.filter_congr fun t _ => ?_
  simp only [Function.comp, mul_lt_mul_iff_right₀ hc]

/-- the simulation state in the new unit -/
noncomputable def scaleGen {σ : Type} (c : ℝ) (st : List GenEvent × σ) : List GenEvent × σ := (st.1.map (rescaleEvent c), st.2)

theorem genHelper_units (hc : 0 < c) {σ : Type} (P : CTParams) (T : ℝ) (rng : Rng σ) (fuel : ℕ) (s : ℝ) (k : ℕ) (st : List GenEvent × σ) :
    genHelper (rescaleCT c P) (c * T) rng fuel (c * s) k (scaleGen c st) = (genHelper P T rng fuel s k st).map (scaleGen c) := by
  induction fuel generalizing s k st with
  | zero => rfl
  | succ fuel ih =>
    rw [genHelper, genHelper]
    have := forListE_equiv (scaleGen c) (fun k' : ℕ => k') (fun c' (st : List GenEvent × σ) =>
      if P.W k c' = 0 ∨ P.A k c' = 0 then .ok st
      else if P.W k c' < 0 then .error .value
      else
        forListE (childTimes P T rng s k c' st.2).1 (fun t st => genHelper P T rng fuel t c' st) (st.1 ++ (childTimes P T rng s k c' st.2).1.map fun t => ⟨t, c', some (s, k)⟩, (childTimes P T rng s k c' st.2).2))
      (fun c' (st : List GenEvent × σ) =>
      if (rescaleCT c P).W k c' = 0 ∨ (rescaleCT c P).A k c' = 0 then .ok st
      else if (rescaleCT c P).W k c' < 0 then .error .value
      else
        forListE (childTimes (rescaleCT c P) (c * T) rng (c * s) k c' st.2).1 (fun t st => genHelper (rescaleCT c P) (c * T) rng fuel t c' st)
          (st.1 ++ (childTimes (rescaleCT c P) (c * T) rng (c * s) k c' st.2).1.map fun t => ⟨t, c', some (c * s, k)⟩, (childTimes (rescaleCT c P) (c * T) rng (c * s) k c' st.2).2))
      (List.range P.K) (fun c' _ st => ?_) st
    · rw [List.map_id'] at this
      exact this
    · show (if P.W k c' = 0 ∨ P.A k c' = 0 then _ else if P.W k c' < 0 then _ else _) = _
      split_ifs
      · rfl
      · rfl
      · rw [show (scaleGen c st).2 = st.2 from rfl, childTimes_units hc]
        dsimp only
        rw [show ((scaleGen c st).1 ++ List.map (fun t => (⟨t, c', some (c * s, k)⟩ : GenEvent)) ((childTimes P T rng s k c' st.2).1.map (c * ·)), (childTimes P T rng s k c' st.2).2)
          = scaleGen c (st.1 ++ (childTimes P T rng s k c' st.2).1.map fun t => ⟨t, c', some (s, k)⟩, (childTimes P T rng s k c' st.2).2) from by
            unfold scaleGen
            dsimp only
            rw [List.map_append, List.map_map, List.map_map]
            rfl]
        exact forListE_equiv (scaleGen c) (c * ·) (fun t st => genHelper P T rng fuel t c' st) (fun t st => genHelper (rescaleCT c P) (c * T) rng fuel t c' st) _ (fun t _ st => ih t c' st) _

theorem genAll_units (hc : 0 < c) {σ : Type} (P : CTParams) (T : ℝ) (maxRound : ℕ) (rng : Rng σ) (st : σ) :
    genAll (rescaleCT c P) (c * T) maxRound rng st = (genAll P T maxRound rng st).map (scaleGen c) := by
  unfold genAll
  have := forListE_equiv (scaleGen c) (fun k : ℕ => k) (fun k (st : List GenEvent × σ) =>
    if P.lam0 k * T < 0 then .error .value
    else
      let n := rng.poisson (P.lam0 k * T) st.2
      let u := drawN rng.rand n.1 n.2
      let times := u.1.map fun x => x * T
      let out := st.1 ++ times.map fun t => ⟨t, k, none⟩
      forListE times (fun t st => genHelper P T rng maxRound t k st) (out, u.2))
    (fun k (st : List GenEvent × σ) =>
    if (rescaleCT c P).lam0 k * (c * T) < 0 then .error .value
    else
      let n := rng.poisson ((rescaleCT c P).lam0 k * (c * T)) st.2
      let u := drawN rng.rand n.1 n.2
      let times := u.1.map fun x => x * (c * T)
      let out := st.1 ++ times.map fun t => ⟨t, k, none⟩
      forListE times (fun t st => genHelper (rescaleCT c P) (c * T) rng maxRound t k st) (out, u.2)) (List.range P.K) (fun k _ st => ?_) ([], st)
  · rw [List.map_id'] at this
    exact this
  · dsimp only
    rw [show (rescaleCT c P).lam0 k * (c * T) = P.lam0 k * T from by
      show P.lam0 k / c * (c * T) = _
      rw [← mul_assoc, div_mul_cancel₀ _ hc.ne'], show (scaleGen c st).2 = st.2 from rfl]
    split_ifs
    · rfl
    · rw [show (fun x : ℝ => x * (c * T)) = (c * ·) ∘ fun x => x * T from by funext x; simp only [Function.comp]; ring, ← List.map_map]
      generalize (drawN rng.rand (rng.poisson (P.lam0 k * T) st.2).1 (rng.poisson (P.lam0 k * T) st.2).2).1.map (fun x => x * T) = times
      generalize (drawN rng.rand (rng.poisson (P.lam0 k * T) st.2).1 (rng.poisson (P.lam0 k * T) st.2).2).2 = s2
      rw [show ((scaleGen c st).1 ++ List.map (fun t => (⟨t, k, none⟩ : GenEvent)) (times.map (c * ·)), s2) = scaleGen c (st.1 ++ times.map fun t => ⟨t, k, none⟩, s2) from by
        unfold scaleGen
        dsimp only
        rw [List.map_append, List.map_map, List.map_map]
        rfl]
      exact forListE_equiv (scaleGen c) (c * ·) _ _ _ (fun t _ st => genHelper_units hc P T rng maxRound t k st) _

theorem genArgs_units (evs : List GenEvent) (T : ℝ) : genArgs (evs.map (rescaleEvent c)) (c * T) = rescaleCTArgs c (genArgs evs T) := by
  unfold genArgs rescaleCTArgs
  have hS : (fun n => ((evs.map (rescaleEvent c)).map GenEvent.time).getD n 0) = fun n => c * (evs.map GenEvent.time).getD n 0 := by
    funext n
    rw [List.map_map, show GenEvent.time ∘ rescaleEvent c = (c * ·) ∘ GenEvent.time from rfl, ← List.map_map]
    simp only [List.getD_eq_getElem?_getD, List.getElem?_map]
    cases evs[n]? <;> simp
  have hC : (fun n => ((((evs.map (rescaleEvent c)).map GenEvent.proc).getD n 0 : ℕ) : ℤ)) = fun n => (((evs.map GenEvent.proc).getD n 0 : ℕ) : ℤ) := by
    funext n
    rw [List.map_map, show GenEvent.proc ∘ rescaleEvent c = GenEvent.proc from rfl]
  rw [hS, hC, List.length_map]

theorem rescaleEvent_inv (hc : 0 < c) (l : List GenEvent) : (l.map (rescaleEvent c)).map (rescaleEvent (1 / c)) = l := by
  rw [List.map_map]
  conv_rhs => rw [← List.map_id l]
  refine List.map_congr_left fun e _ => ?_
  obtain ⟨t, p, q⟩ := e
  simp only [Function.comp, rescaleEvent, id, one_div, inv_mul_cancel_left₀ hc.ne', Option.map_map]
  congr 1
  cases q with
  | none => rfl
  | some q => simp [inv_mul_cancel_left₀ hc.ne']

/-- C109: with the same random numbers, `generate` simulates the same events, expressed in the new unit, and stores them; or raises the same error. No assumption on parameters. -/
theorem C109_generate (hc : 0 < c) {σ : Type} (P : CTParams) (T : ℝ) (maxRound : ℕ) (keep : Bool) (rng : Rng σ) (sorter : List GenEvent → List GenEvent) (dl : List CTData) (st : σ) :
    ctGenerate (rescaleCT c P) (c * T) maxRound keep rng (rescaleSorter c sorter) (dl.map (rescaleCTData c)) st
      = (ctGenerate P T maxRound keep rng sorter dl st).map fun r => (r.1.map (rescaleEvent c), r.2.map (rescaleCTData c)) := by
  unfold ctGenerate
  rw [genAll_units hc]
  cases genAll P T maxRound rng st with
  | error e => rfl
  | ok r =>
    simp only [Except.map]
    rw [show (rescaleCT c P).K = P.K from rfl]
    split_ifs
    · rfl
    · have e : rescaleSorter c sorter (scaleGen c r).1 = (sorter r.1).map (rescaleEvent c) := by
        unfold rescaleSorter
        rw [show (scaleGen c r).1 = r.1.map (rescaleEvent c) from rfl, rescaleEvent_inv hc]
      simp only [e, genArgs_units, ctAdd_units hc]
      cases ctAddData P.K (genArgs (sorter r.1) T) dl <;> rfl
    · have e : rescaleSorter c sorter (scaleGen c r).1 = (sorter r.1).map (rescaleEvent c) := by
        unfold rescaleSorter
        rw [show (scaleGen c r).1 = r.1.map (rescaleEvent c) from rfl, rescaleEvent_inv hc]
      rw [e]

/-! ### histories -/

theorem ctStep_units (hc : 0 < c) (huge : ℝ) {K C : ℕ} {dtMax : ℝ} {sc : Bool} {s : CTState} (h : CTLifeOk K C dtMax sc s) (hcl : ∀ D ∈ s.data, ClearOfCutoffs c dtMax D) {d : CTDraws} (hd : CTDrawsOk K C d) :
    ctResampleModel huge (rescaleCTDraws c d) (rescaleCTState c s) = (ctResampleModel huge d s).map (rescaleCTState c) := by
  obtain ⟨hy, hp, ⟨rfl, rfl, rfl, rfl⟩, hD⟩ := h
  obtain ⟨s', hs', hy', hp', hK, hdt, hC, hS, -, -, -, hf⟩ := C69_resample_keeps_valid huge d s hd hy hp hD
  unfold ctResampleModel at hs' ⊢
  have e : ctResampleData (rescaleCTState c s).P (rescaleCTDraws c d).parU (rescaleCTDraws c d).sched (rescaleCTState c s).data
      = (ctResampleData s.P d.parU d.sched s.data).map (List.map (rescaleCTData c)) := ctResampleData_units hc s.P s.data hcl d.parU d.sched fun i N => (hd.sched i N).1
  rw [e]
  cases hdl : ctResampleData s.P d.parU d.sched s.data with
  | error e => rfl
  | ok dl =>
    rw [hdl] at hs'
    obtain rfl := Except.ok.inj hs'
    refine congrArg Except.ok ?_
    show ctResampleA _ (ctResampleW _ (ctResampleNet huge _ (ctResampleImpulse _ (ctResampleBias (rescaleCTDraws c d) (rescaleCTState c { s with data := dl }))))) = _
    rw [ctBias_units hc, ctImpulse_units, ctNet_units, ctW_units]
    have hf' : List.Forall₂ (fun D D' => SameEvents D D' ∧ CTDataOk s.P.K s.P.dtMax D' ∧ ∀ n < D.N, ValidParent s.P D n (D'.Z n)) s.data dl := hf
    refine ctA_units hc (C := blocks s.net) hd hp'.net ⟨hp'.lam0, fun i hi j hj => (hp'.W i hi j hj).le, hy'.dtMax, fun D' hD' => ?_⟩ (fun D' hD' => ?_) fun i hi j hj => ?_
    · obtain ⟨D, -, -, h2, -⟩ := forall₂_mem_right hf' D' hD'
      exact h2.labels
    · obtain ⟨D, hDm, h1, -, -⟩ := forall₂_mem_right hf' D' hD'
      have := hcl D hDm
      unfold ClearOfCutoffs at this ⊢
      rw [h1.1, h1.2.1]
      exact this
    · rcases hp.A i hi j hj with h | h
      · exact (le_of_eq h.symm)
      · exact zero_le_one.trans (le_of_eq h.symm)

theorem ctStep_grows (huge : ℝ) {K C : ℕ} {dtMax : ℝ} {sc : Bool} {s : CTState} (h : CTLifeOk K C dtMax sc s) (op : CTOp) (ho : CTOpOk K C op) :
    ∀ D ∈ s.data, ∃ D' ∈ (ctStep huge s op).data, SameEvents D D' := by
  intro D hD
  cases op with
  | addData a =>
    unfold ctStep
    dsimp only
    cases hadd : ctAddData s.P.K a s.data with
    | error e => exact ⟨D, hD, rfl, rfl, rfl, rfl⟩
    | ok dl =>
      obtain ⟨D1, rfl, -⟩ := (C25_add_data s.P.K s.P.dtMax a s.data).2 dl hadd
      exact ⟨D, List.mem_append_left _ hD, rfl, rfl, rfl, rfl⟩
  | generate T maxRound keep rng sorter st =>
    unfold ctStep
    dsimp only
    cases hg : ctGenerate s.P T maxRound keep rng sorter s.data st with
    | error e => exact ⟨D, hD, rfl, rfl, rfl, rfl⟩
    | ok r =>
      refine ⟨D, ?_, rfl, rfl, rfl, rfl⟩
      unfold ctGenerate at hg
      split at hg
      · cases hg
      · split at hg
        · cases hg
        · dsimp only at hg
          split at hg
          · split at hg
            · cases hg
            · rename_i hadd
              obtain ⟨D1, rfl, -⟩ := (C25_add_data s.P.K s.P.dtMax _ s.data).2 _ hadd
              cases hg
              exact List.mem_append_left _ hD
          · cases hg
            exact hD
  | resample d =>
    obtain ⟨hy, hp, ⟨rfl, rfl, rfl, rfl⟩, hD'⟩ := h
    obtain ⟨s', hs', -, -, -, -, -, -, -, -, -, hf⟩ := C69_resample_keeps_valid huge d s ho hy hp hD'
    have e : ctStep huge s (.resample d) = s' := by simp only [ctStep, hs']
    rw [e]
    obtain ⟨D2, h2, h3, -, -⟩ := forall₂_mem_right hf.flip D hD
    exact ⟨D2, h2, h3⟩

theorem sameEvents_clear {D D' : CTData} (h : SameEvents D D') {dtMax : ℝ} (hc : ClearOfCutoffs c dtMax D') : ClearOfCutoffs c dtMax D := by
  unfold ClearOfCutoffs at hc ⊢
  rw [h.1, h.2.1] at hc
  exact hc

theorem ctRun_grows (huge : ℝ) {K C : ℕ} {dtMax : ℝ} {sc : Bool} (ops : List CTOp) : ∀ {s : CTState}, CTLifeOk K C dtMax sc s → (∀ op ∈ ops, CTOpOk K C op) →
    (∀ D ∈ (ctRun huge ops s).data, ClearOfCutoffs c dtMax D) → ∀ D ∈ s.data, ClearOfCutoffs c dtMax D := by
  induction ops with
  | nil => intro s _ _ h; exact h
  | cons op ops ih =>
    intro s h ho hcl D hD
    have ho1 := ho op List.mem_cons_self
    obtain ⟨D', hD', hs⟩ := ctStep_grows huge h op ho1 D hD
    exact sameEvents_clear hs (ih (ct_life_step huge h op ho1) (fun o hm => ho o (List.mem_cons_of_mem _ hm)) hcl D' hD')

theorem ctRun_units (hc : 0 < c) (huge : ℝ) {K C : ℕ} {dtMax : ℝ} {sc : Bool} (ops : List CTOp) : ∀ {s : CTState}, CTLifeOk K C dtMax sc s → (∀ op ∈ ops, CTOpOk K C op) →
    (∀ D ∈ (ctRun huge ops s).data, ClearOfCutoffs c dtMax D) → ctRun huge (ops.map (rescaleCTOp c)) (rescaleCTState c s) = rescaleCTState c (ctRun huge ops s) := by
  induction ops with
  | nil => intro s _ _ _; rfl
  | cons op ops ih =>
    intro s h ho hcl
    have ho1 := ho op List.mem_cons_self
    have hcl0 := ctRun_grows huge (op :: ops) h ho hcl
    have e : ctStep huge (rescaleCTState c s) (rescaleCTOp c op) = rescaleCTState c (ctStep huge s op) := by
      cases op with
      | addData a =>
        show (match ctAddData s.P.K (rescaleCTArgs c a) (s.data.map (rescaleCTData c)) with | .ok dl => { rescaleCTState c s with data := dl } | .error _ => rescaleCTState c s) = _
        rw [ctAdd_units hc]
        simp only [ctStep]
        cases ctAddData s.P.K a s.data <;> rfl
      | generate T maxRound keep rng sorter st =>
        show (match ctGenerate (rescaleCT c s.P) (c * T) maxRound keep rng (rescaleSorter c sorter) (s.data.map (rescaleCTData c)) st with
          | .ok r => { rescaleCTState c s with data := r.2 } | .error _ => rescaleCTState c s) = _
        rw [C109_generate hc]
        simp only [ctStep]
        cases ctGenerate s.P T maxRound keep rng sorter s.data st <;> rfl
      | resample d =>
        show (match ctResampleModel huge (rescaleCTDraws c d) (rescaleCTState c s) with | .ok s' => s' | .error _ => rescaleCTState c s) = _
        rw [ctStep_units hc huge h hcl0 ho1]
        simp only [ctStep]
        cases ctResampleModel huge d s <;> rfl
    show ctRun huge (ops.map (rescaleCTOp c)) (ctStep huge (rescaleCTState c s) (rescaleCTOp c op)) = _
    rw [e]
    exact ih (ct_life_step huge h op ho1) (fun o hm => ho o (List.mem_cons_of_mem _ hm)) hcl

/-- C109 (partial: data clear of the cut-offs): construct a continuous-time model and make any sequence of `add_data`, `generate` and `resample_model` calls; do the same with all
durations in another unit and the same random numbers. If no recording held at the end has lags in the cut-off zones, the second model is the first one expressed in the other unit:
same edges, weights, impulse parameters, network and parents, background rates per new unit. -/
theorem C109_gibbs_partial (hc : 0 < c) (huge : ℝ) (K : ℕ) (dtMax alpha beta : ℝ) (nig : NigArgs) (net : Net) (d0 : CTDraws) (s0 : CTState) (ops : List CTOp)
    (hs : newCTModel K dtMax alpha beta nig net d0 = .ok s0) (hd : CTDrawsOk K (blocks net) d0) (hdt : 0 < dtMax) (ha : 0 < alpha) (hb : 0 < beta) (hn : NigOk nig)
    (hnet : NetOk K net) (hops : ∀ op ∈ ops, CTOpOk K (blocks net) op) (hcl : ∀ D ∈ (ctRun huge ops s0).data, ClearOfCutoffs c dtMax D) :
    newCTModel K (c * dtMax) alpha (c * beta) nig net (rescaleCTDraws c d0) = .ok (rescaleCTState c s0)
      ∧ ctRun huge (ops.map (rescaleCTOp c)) (rescaleCTState c s0) = rescaleCTState c (ctRun huge ops s0) := by
  obtain ⟨hy, hp, hdata, hK, hdM, hnt⟩ := C69_new_model_valid K dtMax alpha beta nig net d0 s0 hs hd hdt ha hb hn hnet
  have h0 : CTLifeOk K (blocks net) dtMax net.allowSelf s0 := ⟨hy, hp, ⟨hK, hdM, by rw [hnt], by rw [hnt]⟩, by rw [hdata]; intro D hD; cases hD⟩
  refine ⟨?_, ctRun_units hc huge ops h0 hops hcl⟩
  unfold newCTModel at hs ⊢
  split_ifs at hs ⊢ with hKn
  rw [← Except.ok.inj hs]
  refine congrArg Except.ok ?_
  set s : CTState := { P := { K := K, dtMax := dtMax, lam0 := fun _ => 0, W := fun _ _ => 0, A := fun _ _ => 1, mu := fun _ _ => 0, tau := fun _ _ => 0 },
                       alpha := alpha, beta := beta, nig := nig, net := net, data := [] } with hsdef
  have e : ({ P := { K := K, dtMax := c * dtMax, lam0 := fun _ => 0, W := fun _ _ => 0, A := fun _ _ => 1, mu := fun _ _ => 0, tau := fun _ _ => 0 },
              alpha := alpha, beta := c * beta, nig := nig, net := net, data := [] } : CTState) = rescaleCTState c s := by
    rw [hsdef]
    unfold rescaleCTState rescaleCT
    simp
  rw [e, ctBias_units hc, ctImpulse_units, ctW_units]
  rfl

/-! ### the cut-offs -/

/-- C109: the absolute cut-off of 1e-8 makes the result depend on the unit. Take a recording in which the second event follows the first after a lag that is an ordinary lag in the old
unit (neither it nor its distance to `dt_max` is below 1e-8), but below 1e-8 in the new one: 0.5 ms, say, with time in days. In the old unit the first event is drawn as parent of the second
with positive probability; in the new unit it never is, whatever the weight. -/
theorem C109_cutoff_violated (hc : 0 < c) (P : CTParams) (D : CTData) (h1 : 1e-8 ≤ D.S 1 - D.S 0) (h2 : D.S 1 - D.S 0 ≤ P.dtMax - 1e-8) (hnew : c * (D.S 1 - D.S 0) < 1e-8)
    (hl : 0 < P.lam0 (D.C 1)) (hW : 0 < P.A (D.C 0) (D.C 1) * P.W (D.C 0) (D.C 1)) (htau : 0 < P.tau (D.C 0) (D.C 1)) :
    (∃ x < 1, 0 ≤ x ∧ ∀ u : Vec ℝ, x ≤ u 1 → u 1 < 1 → resampleOne P D u 1 = .ok 0)
      ∧ ∀ u : Vec ℝ, u 1 < 1 → resampleOne (rescaleCT c P) (rescaleCTData c D) u 1 = .ok (-1) := by
  have hw : 0 < parWeight P D 1 0 := by
    unfold parWeight
    refine mul_pos hW ?_
    unfold lnImpulse
    rw [if_neg (not_lt.2 h1), if_neg (by linarith)]
    have e : (0 : ℝ) < 1e-8 := by norm_num
    have a : 0 < D.S 1 - D.S 0 := by linarith
    have b : 0 < P.dtMax - (D.S 1 - D.S 0) := by linarith
    have d : 0 < P.dtMax := by linarith
    have : (0 : ℝ) < sqrt2pi := by unfold sqrt2pi; norm_num
    have := Real.sqrt_pos.2 htau
    positivity
  have hb : backScan P D 1 1 (P.lam0 (D.C 1)) 0 = (P.lam0 (D.C 1) + parWeight P D 1 0, 0) := by
    rw [backScan, if_neg (not_lt.2 h1), if_neg (not_lt.2 h2), backScan]
  have hpos : 0 < P.lam0 (D.C 1) + parWeight P D 1 0 := by linarith
  constructor
  · refine ⟨P.lam0 (D.C 1) / (P.lam0 (D.C 1) + parWeight P D 1 0), (div_lt_one hpos).2 (by linarith), by positivity, fun u hu hu1 => ?_⟩
    unfold resampleOne
    rw [if_neg one_ne_zero, hb]
    dsimp only
    rw [if_neg hpos.ne', if_neg (not_lt.2 hu), show List.range' 0 (1 - 0) = [0] from rfl, fwdScan]
    dsimp only
    rw [if_neg (not_lt.2 h1), if_pos h2, ← add_div, div_self hpos.ne', if_pos hu1]
    rfl
  · intro u hu
    unfold resampleOne
    have hb' : backScan (rescaleCT c P) (rescaleCTData c D) 1 1 ((rescaleCT c P).lam0 ((rescaleCTData c D).C 1)) 0 = (P.lam0 (D.C 1) / c, 0) := by
      rw [backScan, lag_units, if_pos hnew, backScan]
      rfl
    rw [if_neg one_ne_zero, hb']
    dsimp only
    have : P.lam0 (D.C 1) / c ≠ 0 := (div_pos hl hc).ne'
    rw [if_neg this, show (rescaleCT c P).lam0 ((rescaleCTData c D).C 1) = P.lam0 (D.C 1) / c from rfl, div_self this, if_pos hu]

/-- two events half a millisecond apart, in a window of one second -/
noncomputable def msPair : CTData := { N := 2, S := fun n => n * 0.0005, C := fun _ => 0, T := 10, bkgd := fun k => if k = 0 then 2 else 0 }

/-- non-vacuity of `C109_cutoff_violated`: seconds and days -/
example (P : CTParams) (hP : P.dtMax = 1) (hl : P.lam0 0 = 1) (hA : P.A 0 0 = 1) (hW : P.W 0 0 = 1) (ht : P.tau 0 0 = 1) :
    ∀ u : Vec ℝ, u 1 < 1 → resampleOne (rescaleCT (1 / 86400) P) (rescaleCTData (1 / 86400) msPair) u 1 = .ok (-1) :=
  (C109_cutoff_violated (c := 1 / 86400) (by norm_num) P msPair (by norm_num [msPair]) (by norm_num [msPair, hP]) (by norm_num [msPair]) (by simp [msPair, hl])
    (by simp [msPair, hA, hW]) (by simp [msPair, ht])).2

/-- non-vacuity: the same recording is clear of the cut-offs for seconds and milliseconds -/
theorem msPair_clear : ClearOfCutoffs 1000 1 msPair := by
  intro n hn m hm
  have hn : n < 2 := hn
  have h1 : n = 1 := by omega
  have h0 : m = 0 := by omega
  subst h1 h0
  norm_num [msPair]

theorem resample_events (huge : ℝ) {K C : ℕ} {dtMax : ℝ} {sc : Bool} {s : CTState} (h : CTLifeOk K C dtMax sc s) {d : CTDraws} (hd : CTDrawsOk K C d) :
    List.Forall₂ SameEvents s.data (ctStep huge s (.resample d)).data := by
  obtain ⟨hy, hp, ⟨rfl, rfl, rfl, rfl⟩, hD⟩ := h
  obtain ⟨s', hs', -, -, -, -, -, -, -, -, -, hf⟩ := C69_resample_keeps_valid huge d s hd hy hp hD
  have e : ctStep huge s (.resample d) = s' := by simp only [ctStep, hs']
  rw [e]
  exact hf.imp fun _ _ h => h.1

/-- the arguments of `add_data` for this recording -/
noncomputable def msArgs : CTArgs := { nS := 2, S := msPair.S, sIsArray := true, sIsFloat := true, nC := 2, C := fun _ => 0, cIsArray := true, cIsInt := true, T := 10, tIsFloat := true }

/-- non-vacuity of `C109_gibbs_partial`: a one-process model to which this recording is added, resampled twice, in milliseconds instead of seconds -/
theorem C109_gibbs_demo_partial (huge : ℝ) : ∃ (n : ERFixed) (s0 : CTState), newCTModel 1 1 1 1 ⟨0, 1, 1, 1⟩ (.er n) (demoCTDraws 1) = .ok s0 ∧
    let ops := [CTOp.addData msArgs, .resample (demoCTDraws 1), .resample (demoCTDraws 1)]
    (∀ D ∈ (ctRun huge ops s0).data, D.N = 2) ∧ (ctRun huge ops s0).data ≠ [] ∧
      ctRun huge (ops.map (rescaleCTOp 1000)) (rescaleCTState 1000 s0) = rescaleCTState 1000 (ctRun huge ops s0) := by
  let n : ERFixed := { K := 1, p := 1/2, kappa := 1, v := 1, alpha := none, beta := none, allowSelf := true, mf := none }
  have hn : ErOk 1 n := ⟨rfl, by norm_num, by norm_num, by norm_num, by simp⟩
  have hnew : ∃ s0, newCTModel 1 1 1 1 ⟨0, 1, 1, 1⟩ (.er n) (demoCTDraws 1) = .ok s0 := by
    unfold newCTModel
    rw [if_neg (by simp [Net.K, n])]
    exact ⟨_, rfl⟩
  obtain ⟨s0, hs⟩ := hnew
  refine ⟨n, s0, hs, ?_⟩
  intro ops
  have hd := demoCTDraws_ok 1
  have hN : NigOk ⟨0, 1, 1, 1⟩ := ⟨one_pos, one_pos, one_pos⟩
  have hops : ∀ op ∈ ops, CTOpOk 1 1 op := by
    intro op hop
    simp only [ops, List.mem_cons, List.not_mem_nil, or_false] at hop
    rcases hop with rfl | rfl | rfl
    · show (0 : ℝ) ≤ 10
      norm_num
    · exact hd
    · exact hd
  obtain ⟨hy, hp, hdata, hK, hdM, hnt⟩ := C69_new_model_valid 1 1 1 1 ⟨0, 1, 1, 1⟩ (.er n) (demoCTDraws 1) s0 hs hd one_pos one_pos one_pos hN hn
  have h0 : CTLifeOk 1 1 1 true s0 := ⟨hy, hp, ⟨hK, hdM, by rw [hnt]; rfl, by rw [hnt]; rfl⟩, by rw [hdata]; intro D hD; cases hD⟩
  have hadd : ctAddData 1 msArgs [] = .ok [newCTData msArgs] := by
    unfold ctAddData
    have b1 : ∀ n < msArgs.nS, 0 ≤ msArgs.S n := fun n _ => by show (0 : ℝ) ≤ n * 0.0005; positivity
    have b2 : ∀ n < msArgs.nS, msArgs.S n < msArgs.T := fun n hn => by
      have : (n : ℝ) < 2 := by exact_mod_cast hn
      show (n : ℝ) * 0.0005 < 10
      linarith
    have b3 : ∀ n, n + 1 < msArgs.nS → 0 ≤ msArgs.S (n + 1) - msArgs.S n := fun n _ => by
      show (0 : ℝ) ≤ ((n + 1 : ℕ) : ℝ) * 0.0005 - n * 0.0005
      push_cast
      linarith
    have b4 : ∀ n < msArgs.nC, 0 ≤ msArgs.C n := fun _ _ => le_rfl
    have b5 : ∀ n < msArgs.nC, msArgs.C n < ((1 : ℕ) : ℤ) := fun _ _ => by show (0 : ℤ) < 1; norm_num
    rw [if_neg (by simp [msArgs]), if_neg (fun h => h.2 ⟨rfl, b1, b2, rfl⟩), if_neg (fun h => h.2 b3), if_neg (fun h => h.2 ⟨rfl, rfl, b4, b5, rfl⟩), if_neg (by simp [msArgs]),
      if_neg (fun h => h rfl), if_neg (fun h => h ⟨rfl, Or.inr ⟨b4, b5⟩⟩)]
    rfl
  have h1 : (ctStep huge s0 (.addData msArgs)).data = [newCTData msArgs] := by
    simp only [ctStep, hdata, hK, hadd]
  have l1 := ct_life_step huge h0 (.addData msArgs) (hops _ (by simp [ops]))
  have f1 := resample_events huge l1 hd
  have l2 := ct_life_step huge l1 (.resample (demoCTDraws 1)) hd
  have f2 := resample_events huge l2 hd
  rw [h1] at f1
  have hfin : ∀ D ∈ (ctRun huge ops s0).data, SameEvents (newCTData msArgs) D := by
    intro D hD
    obtain ⟨D2, hm2, e2⟩ := forall₂_mem_right f2 D hD
    obtain ⟨D1, hm1, e1⟩ := forall₂_mem_right f1 D2 hm2
    rw [List.mem_singleton.1 hm1] at e1
    exact ⟨e2.1.trans e1.1, e2.2.1.trans e1.2.1, e2.2.2.1.trans e1.2.2.1, e2.2.2.2.trans e1.2.2.2⟩
  refine ⟨fun D hD => (hfin D hD).1, ?_, ?_⟩
  · intro h
    have e : (ctRun huge ops s0).data.length = 1 := by
      have := f2.length_eq.symm.trans f1.length_eq.symm
      exact this
    rw [h] at e
    cases e
  · refine (C109_gibbs_partial (c := 1000) (by norm_num) huge 1 1 1 1 ⟨0, 1, 1, 1⟩ (.er n) (demoCTDraws 1) s0 ops hs hd one_pos one_pos one_pos hN hn hops fun D hD => ?_).2
    obtain ⟨e1, e2, -, -⟩ := hfin D hD
    have := msPair_clear
    unfold ClearOfCutoffs at this ⊢
    rw [e1, e2]
    exact this

end PyHawkes
