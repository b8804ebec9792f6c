import Verif.Model.CTInit
import Verif.Spec.CT
import Verif.Props.InitStd

/-!
# C76: starting a continuous-time model from a standard process
-/

set_option linter.unusedSectionVars false
set_option linter.unusedVariables false

namespace PyHawkes
open Finset Spec

/-- the nested loops set every pair to what the solver returned for it, started from the values before the call -/
theorem fitImpulses_eq (K : ℕ) (lsq : ℕ → ℕ → Vec ℝ → ℝ × ℝ → ℝ × ℝ) (G : Ten ℝ) (P : CTParams) :
    ∃ mu tau : Mat ℝ, fitImpulses K lsq G P = { P with mu := mu, tau := tau } ∧
      ∀ i < K, ∀ j < K, (mu i j, tau i j) = lsq i j (G i j) (P.mu i j, P.tau i j) := by
  have inner : ∀ k1 n : ℕ, ∀ Q : CTParams, ∃ mu tau : Mat ℝ,
      forRange n (fun k2 (P : CTParams) =>
        let r := lsq k1 k2 (G k1 k2) (P.mu k1 k2, P.tau k1 k2)
        { P with mu := fun i j => if i = k1 ∧ j = k2 then r.1 else P.mu i j
                 tau := fun i j => if i = k1 ∧ j = k2 then r.2 else P.tau i j }) Q = { Q with mu := mu, tau := tau } ∧
      (∀ j < n, (mu k1 j, tau k1 j) = lsq k1 j (G k1 j) (Q.mu k1 j, Q.tau k1 j)) ∧ ∀ i j, (i ≠ k1 ∨ n ≤ j) → mu i j = Q.mu i j ∧ tau i j = Q.tau i j := by
    intro k1 n Q
    induction n with
    | zero => exact ⟨Q.mu, Q.tau, rfl, fun j hj => absurd hj (by omega), fun i j _ => ⟨rfl, rfl⟩⟩
    | succ n ih =>
      obtain ⟨mu, tau, h1, h2, h3⟩ := ih
      rw [forRange_succ, h1]
      refine ⟨_, _, rfl, ?_, ?_⟩
      · intro j hj
        dsimp only
        obtain ⟨e1, e2⟩ := h3 k1 n (Or.inr le_rfl)
        rcases Nat.lt_or_ge j n with h | h
        · rw [if_neg (by omega), if_neg (by omega)]; exact h2 j h
        · have : j = n := by omega
          subst this
          rw [if_pos ⟨rfl, rfl⟩, if_pos ⟨rfl, rfl⟩, e1, e2]
      · intro i j hij
        dsimp only
        rw [if_neg (by omega), if_neg (by omega)]
        exact h3 i j (by omega)
  have outer : ∀ n : ℕ, ∃ mu tau : Mat ℝ,
      forRange n (fun k1 P => forRange K (fun k2 (P : CTParams) =>
        let r := lsq k1 k2 (G k1 k2) (P.mu k1 k2, P.tau k1 k2)
        { P with mu := fun i j => if i = k1 ∧ j = k2 then r.1 else P.mu i j
                 tau := fun i j => if i = k1 ∧ j = k2 then r.2 else P.tau i j }) P) P = { P with mu := mu, tau := tau } ∧
      (∀ i < n, ∀ j < K, (mu i j, tau i j) = lsq i j (G i j) (P.mu i j, P.tau i j)) ∧ ∀ i j, n ≤ i → mu i j = P.mu i j ∧ tau i j = P.tau i j := by
    intro n
    induction n with
    | zero => exact ⟨P.mu, P.tau, rfl, fun j hj => absurd hj (by omega), fun i j _ => ⟨rfl, rfl⟩⟩
    | succ n ih =>
      obtain ⟨mu, tau, h1, h2, h3⟩ := ih
      rw [forRange_succ, h1]
      obtain ⟨mu', tau', g1, g2, g3⟩ := inner n K { P with mu := mu, tau := tau }
      rw [g1]
      refine ⟨mu', tau', rfl, ?_, ?_⟩
      · intro i hi j hj
        rcases Nat.lt_or_ge i n with h | h
        · obtain ⟨e1, e2⟩ := g3 i j (Or.inl (by omega))
          rw [e1, e2]; exact h2 i h j hj
        · have : i = n := by omega
          subst this
          rw [g2 j hj]
          dsimp only
          rw [(h3 i j le_rfl).1, (h3 i j le_rfl).2]
      · intro i j hi
        obtain ⟨e1, e2⟩ := g3 i j (Or.inl (by omega))
        rw [e1, e2]; exact h3 i j (by omega)
  obtain ⟨mu, tau, h1, h2, -⟩ := outer K
  exact ⟨mu, tau, h1, h2⟩

/-- **C76.** For a standard process with as many processes as the continuous-time model, positive biases and, for every pair, a nonzero summed weight, and a network with one edge probability in `[0,1]`:
`initialize_with_standard_model` succeeds; background rates are the biases, weights the summed weights clipped below at `1e-16`, edges those whose weight exceeds a common threshold, at most
`⌈p * (K² - 1)⌉` of them and exactly that many if the weights are pairwise different, impulse parameters what the least-squares solver returned for each pair; everything else is unchanged. If the solver's
precisions are positive, the resulting parameters are legal. -/
theorem C76_continuous_time {M : StdProc} {s : CTState} {p : ℝ} (lsq : ℕ → ℕ → Vec ℝ → ℝ × ℝ → ℝ × ℝ) (hstd : M.isStd = true) (hK : M.proc.K = s.P.K) (hK0 : 0 < s.P.K)
    (hw : ∀ i < s.P.K, ∀ j < s.P.K, M.proc.getW i j ≠ 0) (hp : 0 ≤ p ∧ p ≤ 1) :
    ∃ s' G, ctInitWithStandard lsq p M s = .ok s' ∧ M.proc.getG = .ok G ∧
      (∀ k < s.P.K, s'.P.lam0 k = M.proc.getBias k) ∧
      (∀ i < s.P.K, ∀ j < s.P.K, s'.P.W i j = max (1e-16) (M.proc.getW i j)) ∧
      (∃ thr, ∀ i < s.P.K, ∀ j < s.P.K, s'.P.A i j = if thr < s'.P.W i j then 1 else 0) ∧
      ((range s.P.K ×ˢ range s.P.K).filter fun c : ℕ × ℕ => s'.P.A c.1 c.2 = 1).card ≤ ⌈p * ((s.P.K * s.P.K - 1 : ℕ) : ℝ)⌉₊ ∧
      ((∀ i < s.P.K, ∀ j < s.P.K, ∀ i' < s.P.K, ∀ j' < s.P.K, s'.P.W i j = s'.P.W i' j' → i = i' ∧ j = j') →
        ((range s.P.K ×ˢ range s.P.K).filter fun c : ℕ × ℕ => s'.P.A c.1 c.2 = 1).card = ⌈p * ((s.P.K * s.P.K - 1 : ℕ) : ℝ)⌉₊) ∧
      (∀ i < s.P.K, ∀ j < s.P.K, (s'.P.mu i j, s'.P.tau i j) = lsq i j (G i j) (s.P.mu i j, s.P.tau i j)) ∧
      s' = { s with P := { s.P with lam0 := s'.P.lam0, W := s'.P.W, A := s'.P.A, mu := s'.P.mu, tau := s'.P.tau } } ∧
      (0 < s.P.dtMax → (∀ k < s.P.K, 0 < M.proc.getBias k) → (∀ i j g mt, 0 < (lsq i j g mt).2) → CTOk s'.P) := by
  have hG : ∃ G, M.proc.getG = .ok G := by
    unfold NLProc.getG
    dsimp only
    rw [if_neg]
    · exact ⟨_, rfl⟩
    · rintro ⟨i, hi, j, hj, h⟩
      exact hw j (by omega) i (by omega) h
  obtain ⟨G, hG⟩ := hG
  obtain ⟨mu, tau, hf, hlsq⟩ := fitImpulses_eq s.P.K lsq G s.P
  set W : Mat ℝ := fun i j => max (1e-16) (M.proc.getW i j) with hWd
  have hlen : (flatK s.P.K W).length = s.P.K * s.P.K := by simp [flatK]
  obtain ⟨thr, hthr, hc1, hc2⟩ := percentile_count (l := flatK s.P.K W) (by rw [hlen]; positivity) hp.1 hp.2
  rw [hlen, flatK_countP hK0] at hc1 hc2
  have hcard : ((range s.P.K ×ˢ range s.P.K).filter fun c : ℕ × ℕ => (if W c.1 c.2 > thr then (1:ℝ) else 0) = 1) =
      ((range s.P.K ×ˢ range s.P.K).filter fun c : ℕ × ℕ => decide (thr < W c.1 c.2) = true) := by
    refine Finset.filter_congr ?_
    intro c _
    by_cases h : thr < W c.1 c.2 <;> simp [h]
  refine ⟨{ s with P := { s.P with lam0 := M.proc.getBias, A := fun i j => if W i j > thr then 1 else 0, W := W, mu := mu, tau := tau } }, G, ?_, hG, fun _ _ => rfl, fun _ _ _ _ => rfl,
    ⟨thr, fun i _ j _ => rfl⟩, ?_, ?_, hlsq, rfl, ?_⟩
  · unfold ctInitWithStandard
    rw [if_neg (by simp [hstd]), if_neg (by simpa using hK)]
    dsimp only
    rw [hG]
    dsimp only
    rw [if_neg (by omega)]
    have hthr' := hthr
    rw [hWd] at hthr'
    rw [hthr', hf]
  · dsimp only
    rw [hcard]; exact hc1
  · intro hinj
    dsimp only
    rw [hcard]; exact hc2 (flatK_nodup hK0 hinj)
  · intro h1 h2 h3
    refine ⟨h1, h2, ?_, ?_⟩
    · intro i hi j hj
      dsimp only
      have : 0 < W i j := lt_max_of_lt_left (by norm_num)
      split
      · rw [one_mul]; exact this.le
      · rw [zero_mul]
    · intro i hi j hj
      have := h3 i j (G i j) (s.P.mu i j, s.P.tau i j)
      rw [← hlsq i hi j hj] at this
      exact this

/-- **C76 (violated).** The solver is unconstrained and its result is stored as it is: if it returns a nonpositive precision, the parameters are not legal afterwards. -/
theorem C76_precision_unchecked_violated {M : StdProc} {s s' : CTState} {p : ℝ} (lsq : ℕ → ℕ → Vec ℝ → ℝ × ℝ → ℝ × ℝ) (hK0 : 0 < s.P.K) (h : ctInitWithStandard lsq p M s = .ok s')
    (hneg : ∀ g mt, (lsq 0 0 g mt).2 ≤ 0) : ¬ CTOk s'.P := by
  intro hok
  unfold ctInitWithStandard at h
  split at h
  · cases h
  · split at h
    · cases h
    · dsimp only at h
      split at h
      · cases h
      · next G hG =>
        rw [if_neg (by omega)] at h
        split at h
        · cases h
        · obtain ⟨mu, tau, hf, hlsq⟩ := fitImpulses_eq s.P.K lsq G s.P
          rw [hf] at h
          cases h
          have h1 := hok.tau 0 hK0 0 hK0
          have h2 := hneg (G 0 0) (s.P.mu 0 0, s.P.tau 0 0)
          rw [← hlsq 0 hK0 0 hK0] at h2
          dsimp only at h1 h2
          linarith

/-- a fitted process with two nodes: bias 1/2, weights 1 and 2 -/
noncomputable def demoFitted : StdProc :=
  { isStd := true
    proc := { nlNew .linear 2 1 2 1 (fun l _ => if l = 1 then 1 else 0) with
              nodes := [{ nlNode .linear 2 1 1 with w := fun c => if c = 0 then 1 / 2 else c }, { nlNode .linear 2 1 1 with w := fun c => if c = 0 then 1 / 2 else c }] } }

theorem demoFitted_W : ∀ i < 2, ∀ j < 2, demoFitted.proc.getW i j = i + 1 := by
  intro i hi j hj
  unfold NLProc.getW NLProc.fullW demoFitted nlNew
  interval_cases i <;> interval_cases j <;> norm_num [nlNode]

/-- the hypotheses of `C76_continuous_time` are met by it, with a solver that keeps the starting values -/
example (s : CTState) (hK : s.P.K = 2) (hd : 0 < s.P.dtMax) : ∃ s', ctInitWithStandard (fun _ _ _ _ => (0, 1)) (1 / 2) demoFitted s = .ok s' ∧ CTOk s'.P ∧ s'.P.W 1 0 = 2 := by
  obtain ⟨s', G, h, -, -, hW, -, -, -, -, -, hok⟩ := C76_continuous_time (M := demoFitted) (s := s) (p := 1 / 2) (fun _ _ _ _ => (0, 1)) rfl (by rw [hK]; rfl) (by omega)
    (by rw [hK]; intro i hi j hj; rw [demoFitted_W i hi j hj]; positivity) (by norm_num)
  refine ⟨s', h, hok hd ?_ (fun _ _ _ _ => one_pos), ?_⟩
  · rw [hK]
    intro k hk
    unfold NLProc.getBias NLProc.fullW demoFitted nlNew
    interval_cases k <;> norm_num
  · rw [hW 1 (by omega) 0 (by omega), demoFitted_W 1 (by omega) 0 (by omega)]
    norm_num

end PyHawkes
