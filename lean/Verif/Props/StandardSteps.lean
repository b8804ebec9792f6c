import Verif.Props.StandardHist

/-!
# What one gradient step of the standard model computes (C37)

Both optimisers loop over the processes and change the weights in place. The gradient of a process depends on its own weights only, so the loop is the simultaneous step.
-/

set_option linter.unusedVariables false

namespace PyHawkes
open Finset PyHawkes.Spec

/-- the gradient of process `k` reads no other row of the weight matrix -/
theorem stdLogGradient_row (M : StdModel) (w : Mat ℝ) (k : ℕ) (h : w k = M.weights k) (idx : IdxArg) :
    stdLogGradient { M with weights := w } k idx = stdLogGradient M k idx := by
  have hrate : ∀ D t, StdModel.rate { M with weights := w } D k t = M.rate D k t := fun D t => by
    unfold StdModel.rate; dsimp only; rw [h]
  have hbody : stdGradBody { M with weights := w } k = stdGradBody M k := by
    funext i g
    unfold stdGradBody stdComputeRate
    dsimp only
    unfold StdModel.gradData
    simp only [hrate]
    cases pyIdx M.data.length ((some i).getD 0) with
    | none => rfl
    | some j =>
      dsimp only
      cases M.data[j]? with
      | none => rfl
      | some D =>
        dsimp only
        cases (KsArg.int k).cols M.K with
        | error e => rfl
        | ok cs =>
          dsimp only
          by_cases hc : D.cols ≠ M.n
          · rw [if_pos hc, if_pos hc]
          · rw [if_neg hc, if_neg hc]
  unfold stdLogGradient stdGradient
  rw [hbody]
  unfold StdModel.gradPrior
  simp only [h]

/-- the loop body shared by the two optimisers: `vel k g` is the step taken in the logarithm of the weights, `out k g` the row reported -/
noncomputable def stepBody (idx : IdxArg) (vel out : ℕ → Vec ℝ → Vec ℝ) (k : ℕ) (st : StdModel × Mat ℝ) : Except PyErr (StdModel × Mat ℝ) :=
  match stdLogGradient st.1 k idx with
  | .error e => .error e
  | .ok g => match expStep st.1.n (st.1.weights k) (vel k g) with
    | .error e => .error e
    | .ok w => .ok (st.1.setRow k w, fun i => if i = k then out k g else st.2 i)

theorem stepBody_loop (M : StdModel) (idx : IdxArg) (vel out : ℕ → Vec ℝ → Vec ℝ) (G : ℕ → Vec ℝ) (l : List ℕ) (hl : l.Nodup)
    (hG : ∀ k ∈ l, stdLogGradient M k idx = .ok (G k)) (hp : ∀ k ∈ l, PosRow (1 + M.K * M.B) (M.weights k)) (st : StdModel × Mat ℝ)
    (hst : st.1 = { M with weights := st.1.weights }) (hrow : ∀ k ∈ l, st.1.weights k = M.weights k) :
    ∃ r, forListE l (stepBody idx vel out) st = .ok r ∧ r.1 = { M with weights := r.1.weights } ∧
      (∀ k ∈ l, r.2 k = out k (G k) ∧ ∀ c, r.1.weights k c = Real.exp (Real.log (M.weights k c) + vel k (G k) c)) ∧
      ∀ k, k ∉ l → r.1.weights k = st.1.weights k ∧ r.2 k = st.2 k := by
  induction l generalizing st with
  | nil => exact ⟨st, rfl, hst, fun k hk => (by cases hk), fun k _ => ⟨rfl, rfl⟩⟩
  | cons a l ih =>
    have ha := hrow a (by simp)
    have hstep : stepBody idx vel out a st
        = .ok (st.1.setRow a (fun c => Real.exp (Real.log (M.weights a c) + vel a (G a) c)), fun i => if i = a then out a (G a) else st.2 i) := by
      unfold stepBody
      have e1 : stdLogGradient st.1 a idx = .ok (G a) := by
        rw [hst, stdLogGradient_row M _ a ha idx]; exact hG a (by simp)
      rw [e1]
      dsimp only
      have e2 : expStep st.1.n (st.1.weights a) (vel a (G a)) = .ok fun c => Real.exp (Real.log (M.weights a c) + vel a (G a) c) := by
        unfold expStep
        rw [ha, if_neg]
        push Not
        have hn : st.1.n = 1 + M.K * M.B := by rw [hst]
        intro c hc
        exact hp a (by simp) c (by rw [← hn]; exact hc)
      rw [e2]
    obtain ⟨hna, hl'⟩ := List.nodup_cons.1 hl
    obtain ⟨r, h1, h2, h3, h4⟩ := ih hl' (fun k hk => hG k (List.mem_cons_of_mem _ hk)) (fun k hk => hp k (List.mem_cons_of_mem _ hk))
      (st.1.setRow a (fun c => Real.exp (Real.log (M.weights a c) + vel a (G a) c)), fun i => if i = a then out a (G a) else st.2 i)
      (by unfold StdModel.setRow; dsimp only; conv_lhs => rw [hst])
      (by
        intro k hk
        have hka : k ≠ a := fun e => hna (e ▸ hk)
        unfold StdModel.setRow
        dsimp only
        rw [if_neg hka]
        exact hrow k (List.mem_cons_of_mem _ hk))
    refine ⟨r, by simp [forListE, hstep, h1], h2, ?_, ?_⟩
    · intro k hk
      rcases List.mem_cons.1 hk with e | hk'
      · subst e
        obtain ⟨q1, q2⟩ := h4 k hna
        refine ⟨by rw [q2]; simp, fun c => ?_⟩
        rw [q1]
        simp [StdModel.setRow]
      · exact h3 k hk'
    · intro k hk
      rw [List.mem_cons, not_or] at hk
      obtain ⟨q1, q2⟩ := h4 k hk.2
      exact ⟨by rw [q1]; simp [StdModel.setRow, hk.1], by rw [q2]; simp [hk.1]⟩

/-- **C37 (the gradient step).** After any history of the kind described above, `gradient_descent_step(stepsz)` returns the gradient `G` of the log posterior with respect to the logarithms of the weights, taken
at the weights before the call for every process (the loop changes them in place, but no process sees another one's change); it multiplies the weight `(k, c)` by `exp(stepsz * G[k, c])`, touches nothing
else, and the value returned is the log likelihood at the new weights. -/
theorem C37_gradient_step_value {a : StdArgs} {M0 : StdModel} (hK : 0 < a.K) (hb : ∀ l < a.L, ∀ b < a.B, 0 ≤ a.basis l b) (h0 : stdNew a = .ok M0) (ops : List StdOp)
    (ho : ∀ op ∈ ops, StdOpOk a.K a.B a.allowSelf op) (M : StdModel) (hM : M = (stdRun ops ⟨M0, none⟩).M) (stepsz : ℝ) :
    ∃ M' ll G, gradStep stepsz M = .ok (M', ll, G) ∧ M' = { M with weights := M'.weights } ∧ stdLogLik M' .none .none = .ok ll ∧
      ∀ k < a.K, stdLogGradient M k .none = .ok (G k) ∧ ∀ c < 1 + a.K * a.B, M'.weights k c = M.weights k c * Real.exp (stepsz * G k c) := by
  subst hM
  obtain ⟨hI, ⟨e1, e2, -⟩, -⟩ := run_inv hK hb h0 ops ho
  set M := (stdRun ops ⟨M0, none⟩).M
  have hex : ∀ k, ∃ g, k < M.K → stdLogGradient M k .none = .ok g := fun k => by
    by_cases hk : k < M.K
    · obtain ⟨g, hg, -⟩ := stdLogGradient_ok hI hk (List.range M.data.length) (by simp)
      exact ⟨g, fun _ => by rw [stdLogGradient_none]; exact hg⟩
    · exact ⟨fun _ => 0, fun h => absurd h hk⟩
  choose G hG using hex
  obtain ⟨r, h1, h2, h3, -⟩ := stepBody_loop M .none (fun _ g c => stepsz * g c) (fun _ g => g) G (List.range M.K) List.nodup_range
    (fun k hk => hG k (List.mem_range.1 hk)) (fun k hk => hI.pos k (List.mem_range.1 hk)) (M, fun _ _ => 0) rfl (fun k _ => rfl)
  obtain ⟨q, hq, hqI, -, -⟩ := gradStep_inv hI stepsz
  have hrun : gradStep stepsz M = match stdLogLik r.1 .none .none with
      | .error e => .error e
      | .ok ll => .ok (r.1, ll, r.2) := by
    show (match (forListE (List.range M.K) (stepBody .none (fun _ g c => stepsz * g c) (fun _ g => g)) (M, fun _ _ => 0) : Except PyErr (StdModel × Mat ℝ)) with
      | .error e => (.error e : Except PyErr (StdModel × ℝ × Mat ℝ))
      | .ok st => match stdLogLik st.1 .none .none with
        | .error e => .error e
        | .ok ll => .ok (st.1, ll, st.2)) = _
    rw [h1]
  cases hll : stdLogLik r.1 .none .none with
  | error e => rw [hrun, hll] at hq; cases hq
  | ok ll =>
    rw [hll] at hrun
    refine ⟨r.1, ll, r.2, hrun, h2, hll, fun k hk => ?_⟩
    rw [← e1] at hk
    obtain ⟨p1, p2⟩ := h3 k (List.mem_range.2 hk)
    refine ⟨by rw [p1]; exact hG k hk, fun c hc => ?_⟩
    rw [p2, p1, Real.exp_add, Real.exp_log (hI.pos k hk c (by rw [e1, e2]; exact hc))]

/-- **C37 (the stochastic step).** After such a history with at least one data set, `sgd_step(prev, lr, momentum)` picks a data set `i`, computes for every process the gradient `g` of the log posterior of
that data set alone with respect to the logarithms of the weights (at the weights before the call), returns the velocity `momentum * prev + lr * g / T_i` (`prev = None` means zero) and multiplies every
weight by the exponential of its velocity; nothing else changes, and the value returned is the log likelihood of all data sets at the new weights. -/
theorem C37_sgd_step_value {a : StdArgs} {M0 : StdModel} (hK : 0 < a.K) (hb : ∀ l < a.L, ∀ b < a.B, 0 ≤ a.basis l b) (h0 : stdNew a = .ok M0) (ops : List StdOp)
    (ho : ∀ op ∈ ops, StdOpOk a.K a.B a.allowSelf op) (M : StdModel) (hM : M = (stdRun ops ⟨M0, none⟩).M) (mb : ℕ → ℕ) (hmb : mb M.data.length < M.data.length)
    (prev : Option (Mat ℝ)) (hp : ∀ v, prev = some v → a.allowSelf = false → ∀ k < a.K, ∀ c, IsSelf a.B k c → v k c = 0) (lr mom : ℝ) :
    ∃ M' ll V, stdSgdStep mb prev lr mom M = .ok (M', ll, V) ∧ M' = { M with weights := M'.weights } ∧ stdLogLik M' .none .none = .ok ll ∧
      ∀ k < a.K, ∃ g, stdLogGradient M k (.list [(mb M.data.length : ℤ)]) = .ok g ∧
        (∀ c, V k c = mom * (match prev with | none => 0 | some v => v k c) + lr * (g c / ((M.data[mb M.data.length]).T : ℝ))) ∧
        ∀ c < 1 + a.K * a.B, M'.weights k c = M.weights k c * Real.exp (V k c) := by
  subst hM
  obtain ⟨hI, ⟨e1, e2, -, e4, -⟩, -⟩ := run_inv hK hb h0 ops ho
  set M := (stdRun ops ⟨M0, none⟩).M
  have hd : 0 < M.data.length := by omega
  have hex : ∀ k, ∃ g, k < M.K → stdLogGradient M k (.list [(mb M.data.length : ℤ)]) = .ok g := fun k => by
    by_cases hk : k < M.K
    · obtain ⟨g, hg, -⟩ := stdLogGradient_ok hI hk [mb M.data.length] (by simpa using hmb)
      exact ⟨g, fun _ => hg⟩
    · exact ⟨fun _ => 0, fun h => absurd h hk⟩
  choose G hG using hex
  have hDT := hI.time _ (List.getElem_mem hmb)
  obtain ⟨r, h1, h2, h3, -⟩ := stepBody_loop M (.list [(mb M.data.length : ℤ)])
    (fun k g c => mom * (prev.getD fun _ _ => 0) k c + lr * (g c / ((M.data[mb M.data.length]).T : ℝ)))
    (fun k g c => mom * (prev.getD fun _ _ => 0) k c + lr * (g c / ((M.data[mb M.data.length]).T : ℝ))) G (List.range M.K) List.nodup_range
    (fun k hk => hG k (List.mem_range.1 hk)) (fun k hk => hI.pos k (List.mem_range.1 hk)) (M, fun _ _ => 0) rfl (fun k _ => rfl)
  obtain ⟨q, hq, -⟩ := sgd_inv hI hd hmb (prev := prev) (by rw [e1, e2, e4]; exact hp) lr mom
  have hrun : stdSgdStep mb prev lr mom M = match stdLogLik r.1 .none .none with
      | .error e => .error e
      | .ok ll => .ok (r.1, ll, r.2) := by
    unfold stdSgdStep
    dsimp only
    rw [if_neg hd.ne', List.getElem?_eq_getElem hmb]
    dsimp only
    rw [if_neg hDT.ne']
    show (match (forListE (List.range M.K) (stepBody (.list [(mb M.data.length : ℤ)])
        (fun k g c => mom * (prev.getD fun _ _ => 0) k c + lr * (g c / ((M.data[mb M.data.length]).T : ℝ)))
        (fun k g c => mom * (prev.getD fun _ _ => 0) k c + lr * (g c / ((M.data[mb M.data.length]).T : ℝ)))) (M, fun _ _ => 0) : Except PyErr (StdModel × Mat ℝ)) with
      | .error e => (.error e : Except PyErr (StdModel × ℝ × Mat ℝ))
      | .ok st => match stdLogLik st.1 .none .none with
        | .error e => .error e
        | .ok ll => .ok (st.1, ll, st.2)) = _
    rw [h1]
  cases hll : stdLogLik r.1 .none .none with
  | error e => rw [hrun, hll] at hq; cases hq
  | ok ll =>
    rw [hll] at hrun
    refine ⟨r.1, ll, r.2, hrun, h2, hll, fun k hk => ?_⟩
    rw [← e1] at hk
    obtain ⟨p1, p2⟩ := h3 k (List.mem_range.2 hk)
    have hp1 : ∀ c, r.2 k c = mom * (prev.getD fun _ _ => 0) k c + lr * (G k c / ((M.data[mb M.data.length]).T : ℝ)) := fun c => by rw [p1]
    refine ⟨G k, hG k hk, fun c => by rw [hp1]; cases prev <;> rfl, fun c hc => ?_⟩
    rw [p2, hp1, Real.exp_add, Real.exp_log (hI.pos k hk c (by rw [e1, e2]; exact hc))]

/-- the two theorems apply to the two-process model with two minibatches of data: here the stochastic step with the second minibatch and no previous velocity -/
example : ∃ M0, stdNew demoStdArgs = .ok M0 ∧ 1 < (stdRun [.addData demoStdAdd] ⟨M0, none⟩).M.data.length ∧
    ∃ M' ll V, stdSgdStep (fun n => n - 1) none 0.1 0.9 (stdRun [.addData demoStdAdd] ⟨M0, none⟩).M = .ok (M', ll, V) := by
  obtain ⟨M0, M1, h0, h1, h2⟩ := demoStd_data
  have hrun : (stdRun [.addData demoStdAdd] ⟨M0, none⟩).M = M1 := by simp [stdRun, stdStep, stdCall, h1]
  obtain ⟨-, hb, ho⟩ := demoStd_ops
  obtain ⟨M', ll, V, h, -⟩ := C37_sgd_step_value (by decide) hb h0 [.addData demoStdAdd] (fun op hop => ho op (by simp only [List.mem_singleton] at hop; simp [demoStdOps, hop])) M1 hrun.symm
    (fun n => n - 1) (by rw [h2]; decide) none (fun v hv => by cases hv) 0.1 0.9
  exact ⟨M0, h0, by rw [hrun, h2]; decide, M', ll, V, by rw [hrun]; exact h⟩

end PyHawkes
