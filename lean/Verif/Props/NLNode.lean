import Verif.Spec.Nonlinear
import Verif.Props.StandardFit
import Mathlib.Analysis.Convex.SpecificFunctions.Basic
import Mathlib.Analysis.Convex.Extrema
import Mathlib.Analysis.Complex.ExponentialBounds
import Mathlib.Topology.Algebra.Module.Basic

/-!
# Nonlinear models: links (C42), objective (C43), homogeneous node (C41)
-/

set_option linter.unusedSectionVars false

namespace PyHawkes
open Finset Spec

/-! ### C42 -/

/-- **C42 (inverse).** For every positive rate, `invlink` is defined and `link` of it gives the rate back (linear, exponential, homogeneous nodes). -/
theorem C42_link_invlink {kind : NLKind} (hk : kind ≠ .relu) {lam : ℝ} (hl : 0 < lam) : ∃ psi, kind.invlink lam = .ok psi ∧ kind.link psi = lam := by
  cases kind with
  | linear => exact ⟨lam, rfl, rfl⟩
  | relu => exact absurd rfl hk
  | exp => exact ⟨Real.log lam, by unfold NLKind.invlink; dsimp only; rw [if_neg (not_le.2 hl)], Real.exp_log hl⟩
  | homog => exact ⟨lam, rfl, rfl⟩

/-- **C42 (violated for the rectified-linear node).** There the result is too large by exactly `1e-16`. -/
theorem C42_relu_inverse_violated {lam : ℝ} (hl : 0 < lam) : ∃ psi, NLKind.relu.invlink lam = .ok psi ∧ NLKind.relu.link psi = lam + 1e-16 := by
  have h : 1 < Real.exp lam := Real.one_lt_exp_iff.2 hl
  refine ⟨Real.log (Real.exp lam - 1), by unfold NLKind.invlink; dsimp only; rw [if_neg (by linarith)], ?_⟩
  unfold NLKind.link
  dsimp only
  rw [Real.exp_log (by linarith), show (1:ℝ) + (Real.exp lam - 1) = Real.exp lam by ring, Real.log_exp, add_comm]

/-- **C42 (positivity).** The rectified-linear and exponential links are positive everywhere; the linear link is positive exactly at positive activations. -/
theorem C42_link_pos (psi : ℝ) : 0 < NLKind.relu.link psi ∧ 0 < NLKind.exp.link psi ∧ (0 < NLKind.linear.link psi ↔ 0 < psi) := by
  refine ⟨?_, Real.exp_pos _, Iff.rfl⟩
  unfold NLKind.link
  dsimp only
  have : 0 < Real.log (1 + Real.exp psi) := Real.log_pos (by linarith [Real.exp_pos psi])
  positivity

theorem nlPsi_eq (nd : NLNode) (D : NLData) (w : Vec ℝ) (t : ℕ) : nd.psi D w t = predictor (1 + nd.K * nd.B) w D t := rfl

/-- all rates of the node are positive for the weights `w` -/
def RatesPos (nd : NLNode) (w : Vec ℝ) : Prop := ∀ D ∈ nd.data, ∀ t < D.T, 0 < nd.kind.link (predictor (1 + nd.K * nd.B) w D t)

theorem llData_ok {nd : NLNode} {w : Vec ℝ} {D : NLData} (h : ∀ t < D.T, 0 < nd.kind.link (predictor (1 + nd.K * nd.B) w D t)) :
    nd.llData w D = .ok (∑ t ∈ range D.T, ((D.S t : ℝ) * Real.log (nd.kind.link (predictor (1 + nd.K * nd.B) w D t)) - nd.kind.link (predictor (1 + nd.K * nd.B) w D t) * nd.dt)) := by
  unfold NLNode.llData
  rw [if_neg]
  · rfl
  · rintro ⟨t, ht, hle⟩
    exact absurd (h t ht) (not_lt.2 hle)

theorem llData_error {nd : NLNode} {w : Vec ℝ} {D : NLData} (h : ¬ ∀ t < D.T, 0 < nd.kind.link (predictor (1 + nd.K * nd.B) w D t)) :
    nd.llData w D = .error .silentNan := by
  unfold NLNode.llData
  rw [if_pos]
  push Not at h
  exact h

/-- the Poisson log likelihood of the node's data as a function of the weights -/
noncomputable def nodeLL (nd : NLNode) (w : Vec ℝ) : ℝ := nlLL nd.dt nd.data fun D t => nd.kind.link (predictor (1 + nd.K * nd.B) w D t)

theorem nodeLogLik_ok {nd : NLNode} (h : RatesPos nd nd.w) : nd.logLik none = .ok (nodeLL nd nd.w) := by
  unfold NLNode.logLik
  dsimp only
  rw [forListE_ok_list nd.data nd.llStep (fun D s => s + ∑ t ∈ range D.T, ((D.S t : ℝ) * Real.log (nd.kind.link (predictor (1 + nd.K * nd.B) nd.w D t)) - nd.kind.link (predictor (1 + nd.K * nd.B) nd.w D t) * nd.dt)) 0]
  · rw [foldl_add_list, zero_add]; rfl
  · intro D hD s
    unfold NLNode.llStep
    rw [llData_ok (h D hD)]

theorem forListE_error {α σ : Type*} {xs : List α} {f : α → σ → Except PyErr σ} {e : PyErr} (g : ∀ x ∈ xs, ∀ s, (∃ s', f x s = .ok s') ∨ f x s = .error e)
    (h : ∃ x ∈ xs, ∀ s, f x s = .error e) (s : σ) : forListE xs f s = .error e := by
  induction xs generalizing s with
  | nil => obtain ⟨x, hx, _⟩ := h; cases hx
  | cons x xs ih =>
    unfold forListE
    rcases g x (by simp) s with ⟨s', hs'⟩ | he
    · rw [hs']
      dsimp only
      apply ih (fun y hy => g y (List.mem_cons_of_mem _ hy))
      obtain ⟨y, hy, hye⟩ := h
      rcases List.mem_cons.1 hy with rfl | hy
      · rw [hye s] at hs'; cases hs'
      · exact ⟨y, hy, hye⟩
    · rw [he]

theorem nodeLogLik_error {nd : NLNode} (h : ¬ RatesPos nd nd.w) : nd.logLik none = .error .silentNan := by
  unfold NLNode.logLik
  dsimp only
  apply forListE_error
  · intro D _ s
    unfold NLNode.llStep
    by_cases hD : ∀ t < D.T, 0 < nd.kind.link (predictor (1 + nd.K * nd.B) nd.w D t)
    · rw [llData_ok hD]; exact .inl ⟨_, rfl⟩
    · rw [llData_error hD]; exact .inr rfl
  · unfold RatesPos at h
    push Not at h
    obtain ⟨D, hD, t, ht, hle⟩ := h
    refine ⟨D, hD, fun s => ?_⟩
    unfold NLNode.llStep
    rw [llData_error fun hall => absurd (hall t ht) (not_lt.2 hle)]

/-- **C42 (log likelihood defined).** A rectified-linear or exponential node has a finite log likelihood for every list of data sets and all weights; a linear or homogeneous node exactly when all its rates are positive. When
defined, it is the Poisson log likelihood of the counts under the rates `link(F w)`. -/
theorem C42_log_likelihood_defined (nd : NLNode) :
    (nd.kind = .relu ∨ nd.kind = .exp → ∃ v, nd.logLik none = .ok v) ∧
    (nd.kind = .linear ∨ nd.kind = .homog → ((∃ v, nd.logLik none = .ok v) ↔ ∀ D ∈ nd.data, ∀ t < D.T, 0 < predictor (1 + nd.K * nd.B) nd.w D t)) ∧
    ∀ v, nd.logLik none = .ok v → v = nlLL nd.dt nd.data fun D t => nd.kind.link (predictor (1 + nd.K * nd.B) nd.w D t) := by
  refine ⟨fun hk => ⟨_, nodeLogLik_ok ?_⟩, fun hk => ?_, fun v hv => ?_⟩
  · intro D _ t _
    rcases hk with hk | hk <;> rw [hk]
    · exact (C42_link_pos _).1
    · exact (C42_link_pos _).2.1
  · have e : ∀ x, nd.kind.link x = x := by
      intro x; rcases hk with hk | hk <;> rw [hk] <;> rfl
    have e2 : RatesPos nd nd.w ↔ ∀ D ∈ nd.data, ∀ t < D.T, 0 < predictor (1 + nd.K * nd.B) nd.w D t := by
      unfold RatesPos
      simp only [e]
    rw [← e2]
    by_cases h : RatesPos nd nd.w
    · exact ⟨fun _ => h, fun _ => ⟨_, nodeLogLik_ok h⟩⟩
    · rw [nodeLogLik_error h]
      exact ⟨(fun ⟨_, h⟩ => by cases h), fun h' => absurd h' h⟩
  · by_cases h : RatesPos nd nd.w
    · rw [nodeLogLik_ok h] at hv
      exact (Except.ok.inj hv).symm
    · rw [nodeLogLik_error h] at hv
      cases hv

/-! ### C43 -/

theorem foldl_sub_list {α : Type*} (xs : List α) (f : α → ℝ) (N a : ℝ) : xs.foldl (fun s x => s - f x / N) a = a - (xs.map f).sum / N := by
  induction xs generalizing a with
  | nil => simp
  | cons x xs ih => simp only [List.foldl_cons, ih, List.map_cons, List.sum_cons]; ring

theorem events_cast (l : List NLData) : (l.map fun D => ∑ t ∈ range D.T, (D.S t : ℝ)).sum = (nlEvents l : ℝ) := by
  unfold nlEvents
  induction l with
  | nil => simp
  | cons D l ih => simp [ih]

theorem objective_ok {nd : NLNode} {w : Vec ℝ} (hN : 0 < nlEvents nd.data) (hs : nd.sigma ≠ some 0) {l : ℝ} (hl : nd.lmbda = some l) (hr : RatesPos nd w) :
    nd.objective w = .ok (-nodeLL nd w / nlEvents nd.data + nlPenalty (1 + nd.K * nd.B) nd.sigma l w / nlEvents nd.data) := by
  unfold NLNode.objective
  dsimp only
  rw [events_cast]
  have hN' : (nlEvents nd.data : ℝ) ≠ 0 := by exact_mod_cast hN.ne'
  rw [if_neg hN', forListE_ok_list nd.data _ (fun D s => s - (∑ t ∈ range D.T, ((D.S t : ℝ) * Real.log (nd.kind.link (predictor (1 + nd.K * nd.B) w D t)) - nd.kind.link (predictor (1 + nd.K * nd.B) w D t) * nd.dt)) / nlEvents nd.data) 0]
  · dsimp only
    rw [foldl_sub_list]
    have h1 : nd.l1 w = .ok (∑ c ∈ Ico 1 (1 + nd.K * nd.B), |w c| * l) := by unfold NLNode.l1; rw [hl]
    have h2 : nd.l2 w = .ok (nlRidge (1 + nd.K * nd.B) nd.sigma w) := by
      unfold NLNode.l2 nlRidge
      cases hsg : nd.sigma with
      | none => rfl
      | some s =>
        dsimp only
        rw [if_neg]
        · congr 1
          ring
        · intro h0
          apply hs
          rw [hsg, pow_eq_zero_iff (by norm_num)] at *
          rw [h0]
    rw [h2]
    dsimp only
    rw [h1]
    dsimp only
    unfold nlPenalty
    rw [← Finset.sum_mul]
    have e : nodeLL nd w = (nd.data.map fun D => ∑ t ∈ range D.T, ((D.S t : ℝ) * Real.log (nd.kind.link (predictor (1 + nd.K * nd.B) w D t)) - nd.kind.link (predictor (1 + nd.K * nd.B) w D t) * nd.dt)).sum := rfl
    rw [← e]
    congr 1
    ring
  · intro D hD s
    unfold NLNode.objStep
    rw [llData_ok (hr D hD)]

theorem objective_error {nd : NLNode} {w : Vec ℝ} (hr : ¬ RatesPos nd w) : nd.objective w = .error .silentNan := by
  unfold NLNode.objective
  dsimp only
  split
  · rfl
  · rw [forListE_error]
    · intro D _ s
      unfold NLNode.objStep
      by_cases hD : ∀ t < D.T, 0 < nd.kind.link (predictor (1 + nd.K * nd.B) w D t)
      · rw [llData_ok hD]; exact .inl ⟨_, rfl⟩
      · rw [llData_error hD]; exact .inr rfl
    · unfold RatesPos at hr
      push Not at hr
      obtain ⟨D, hD, t, ht, hle⟩ := hr
      refine ⟨D, hD, fun s => ?_⟩
      unfold NLNode.objStep
      rw [llData_error fun hall => absurd (hall t ht) (not_lt.2 hle)]

/-- **C43 (value).** With at least one event, a nonzero `sigma` and a finite `lmbda`, `objective(w)` is finite exactly when the log likelihood at `w` is, and then equals minus the log likelihood per event plus the penalties per event. -/
theorem C43_objective_value (nd : NLNode) (w : Vec ℝ) (hN : 0 < nlEvents nd.data) (hs : nd.sigma ≠ some 0) {l : ℝ} (hl : nd.lmbda = some l) :
    ((∃ v, nd.objective w = .ok v) ↔ ∃ ll, NLNode.logLik { nd with w := w } none = .ok ll) ∧
    ∀ ll, NLNode.logLik { nd with w := w } none = .ok ll →
      nd.objective w = .ok (-ll / nlEvents nd.data + nlPenalty (1 + nd.K * nd.B) nd.sigma l w / nlEvents nd.data) := by
  by_cases hr : RatesPos nd w
  · have h1 := nodeLogLik_ok (nd := { nd with w := w }) hr
    rw [objective_ok hN hs hl hr, h1]
    refine ⟨⟨fun _ => ⟨_, rfl⟩, fun _ => ⟨_, rfl⟩⟩, fun ll hll => ?_⟩
    cases hll
    rfl
  · have h1 := nodeLogLik_error (nd := { nd with w := w }) hr
    rw [objective_error hr, h1]
    exact ⟨⟨(fun ⟨_, h⟩ => by cases h), (fun ⟨_, h⟩ => by cases h)⟩, (fun ll h => by cases h)⟩

/-- **C43 (violated for a node with the default penalty).** A node constructed directly (`lmbda` defaults to `np.inf`) with at least one coupling weight has no finite objective at any weights, whatever the data. -/
theorem C43_default_node_violated {nd : NLNode} (hl : nd.lmbda = none) (hB : 0 < nd.K * nd.B) (w : Vec ℝ) : nd.objective w = .error .silentNan := by
  by_cases hr : RatesPos nd w
  · unfold NLNode.objective
    dsimp only
    split
    · rfl
    · rw [forListE_ok_list nd.data _ (fun D s => s - (∑ t ∈ range D.T, ((D.S t : ℝ) * Real.log (nd.kind.link (predictor (1 + nd.K * nd.B) w D t)) - nd.kind.link (predictor (1 + nd.K * nd.B) w D t) * nd.dt)) / ((nd.data.map fun D => ∑ t ∈ range D.T, (D.S t : ℝ)).sum)) 0]
      · dsimp only
        have h1 : nd.l1 w = .error .silentNan := by unfold NLNode.l1; rw [hl]; dsimp only; rw [if_pos (by show 1 < 1 + nd.K * nd.B; omega)]
        rw [h1]
        have h2 : (∃ p, nd.l2 w = .ok p) ∨ nd.l2 w = .error .silentNan := by
          unfold NLNode.l2
          cases nd.sigma with
          | none => exact .inl ⟨_, rfl⟩
          | some s => dsimp only; split; exacts [.inr rfl, .inl ⟨_, rfl⟩]
        rcases h2 with ⟨p, hp⟩ | hp <;> rw [hp]
      · intro D hD s
        unfold NLNode.objStep
        rw [llData_ok (hr D hD)]
  · exact objective_error hr

theorem predictor_comb (n : ℕ) (x y : Vec ℝ) (a b : ℝ) (D : NLData) (t : ℕ) : predictor n (a • x + b • y) D t = a * predictor n x D t + b * predictor n y D t := by
  unfold predictor
  rw [Finset.mul_sum, Finset.mul_sum, ← Finset.sum_add_distrib]
  apply Finset.sum_congr rfl
  intro c _
  simp only [Pi.add_apply, Pi.smul_apply, smul_eq_mul]
  ring

/-- cost of one bin is convex in the activation: on the positive half line for the linear node, everywhere for the exponential node -/
theorem cost_convex {kind : NLKind} (hk : kind = .linear ∨ kind = .exp) {dt : ℝ} (hdt : 0 ≤ dt) (s : ℕ) {x y a b : ℝ} (hx : 0 < kind.link x) (hy : 0 < kind.link y) (ha : 0 ≤ a) (hb : 0 ≤ b) (hab : a + b = 1) :
    -((s : ℝ) * Real.log (kind.link (a * x + b * y)) - kind.link (a * x + b * y) * dt)
      ≤ a * -((s : ℝ) * Real.log (kind.link x) - kind.link x * dt) + b * -((s : ℝ) * Real.log (kind.link y) - kind.link y * dt) := by
  rcases hk with rfl | rfl
  · have h := strictConcaveOn_log_Ioi.concaveOn.2 (x := x) hx (y := y) hy ha hb hab
    simp only [smul_eq_mul] at h
    have h' := mul_le_mul_of_nonneg_left h (Nat.cast_nonneg (α := ℝ) s)
    show -((s : ℝ) * Real.log (a * x + b * y) - (a * x + b * y) * dt) ≤ a * -((s : ℝ) * Real.log x - x * dt) + b * -((s : ℝ) * Real.log y - y * dt)
    nlinarith
  · have h := convexOn_exp.2 (x := x) (Set.mem_univ _) (y := y) (Set.mem_univ _) ha hb hab
    simp only [smul_eq_mul] at h
    have h' := mul_le_mul_of_nonneg_right h hdt
    show -((s : ℝ) * Real.log (Real.exp (a * x + b * y)) - Real.exp (a * x + b * y) * dt)
      ≤ a * -((s : ℝ) * Real.log (Real.exp x) - Real.exp x * dt) + b * -((s : ℝ) * Real.log (Real.exp y) - Real.exp y * dt)
    simp only [Real.log_exp]
    nlinarith

theorem ratesPos_convex {nd : NLNode} (hk : nd.kind = .linear ∨ nd.kind = .exp) : Convex ℝ {w | RatesPos nd w} := by
  intro x hx y hy a b ha hb hab D hD t ht
  rcases hk with hk | hk
  · have h1 := hx D hD t ht
    have h2 := hy D hD t ht
    rw [hk] at h1 h2 ⊢
    rw [predictor_comb]
    exact (convex_Ioi (0:ℝ)) (x := predictor (1 + nd.K * nd.B) x D t) h1 h2 ha hb hab
  · rw [hk]; exact Real.exp_pos _

theorem list_sum_le_comb {α : Type*} (l : List α) (f g h : α → ℝ) (a b : ℝ) (H : ∀ x ∈ l, f x ≤ a * g x + b * h x) :
    (l.map f).sum ≤ a * (l.map g).sum + b * (l.map h).sum := by
  induction l with
  | nil => simp
  | cons x l ih =>
    simp only [List.map_cons, List.sum_cons]
    have h1 := H x (by simp)
    have h2 := ih fun y hy => H y (List.mem_cons_of_mem _ hy)
    linarith

theorem list_sum_neg {α : Type*} (l : List α) (f : α → ℝ) : -(l.map f).sum = (l.map fun x => -f x).sum := by
  induction l with
  | nil => simp
  | cons x l ih => simp only [List.map_cons, List.sum_cons, ← ih]; ring

theorem nodeLL_convex {nd : NLNode} (hk : nd.kind = .linear ∨ nd.kind = .exp) (hdt : 0 ≤ nd.dt) {x y : Vec ℝ} (hx : RatesPos nd x) (hy : RatesPos nd y) {a b : ℝ} (ha : 0 ≤ a) (hb : 0 ≤ b) (hab : a + b = 1) :
    -nodeLL nd (a • x + b • y) ≤ a * -nodeLL nd x + b * -nodeLL nd y := by
  unfold nodeLL nlLL
  rw [list_sum_neg, list_sum_neg, list_sum_neg]
  apply list_sum_le_comb
  intro D hD
  rw [← Finset.sum_neg_distrib, ← Finset.sum_neg_distrib, ← Finset.sum_neg_distrib, Finset.mul_sum, Finset.mul_sum, ← Finset.sum_add_distrib]
  apply Finset.sum_le_sum
  intro t ht
  have ht := Finset.mem_range.1 ht
  dsimp only
  rw [predictor_comb]
  exact cost_convex hk hdt (D.S t) (hx D hD t ht) (hy D hD t ht) ha hb hab

theorem penalty_convex (n : ℕ) (sigma : Option ℝ) {l : ℝ} (hl : 0 ≤ l) (x y : Vec ℝ) {a b : ℝ} (ha : 0 ≤ a) (hb : 0 ≤ b) (hab : a + b = 1) :
    nlPenalty n sigma l (a • x + b • y) ≤ a * nlPenalty n sigma l x + b * nlPenalty n sigma l y := by
  unfold nlPenalty
  have h1 : ∑ c ∈ Ico 1 n, |(a • x + b • y) c| ≤ a * ∑ c ∈ Ico 1 n, |x c| + b * ∑ c ∈ Ico 1 n, |y c| := by
    rw [Finset.mul_sum, Finset.mul_sum, ← Finset.sum_add_distrib]
    apply Finset.sum_le_sum
    intro c _
    simp only [Pi.add_apply, Pi.smul_apply, smul_eq_mul]
    calc |a * x c + b * y c| ≤ |a * x c| + |b * y c| := abs_add_le _ _
      _ = a * |x c| + b * |y c| := by rw [abs_mul, abs_mul, abs_of_nonneg ha, abs_of_nonneg hb]
  have h2 : nlRidge n sigma (a • x + b • y) ≤ a * nlRidge n sigma x + b * nlRidge n sigma y := by
    unfold nlRidge
    cases sigma with
    | none => simp
    | some s =>
      dsimp only
      have h : ∑ c ∈ Ico 1 n, (a • x + b • y) c ^ 2 ≤ a * ∑ c ∈ Ico 1 n, x c ^ 2 + b * ∑ c ∈ Ico 1 n, y c ^ 2 := by
        rw [Finset.mul_sum, Finset.mul_sum, ← Finset.sum_add_distrib]
        apply Finset.sum_le_sum
        intro c _
        simp only [Pi.add_apply, Pi.smul_apply, smul_eq_mul]
        obtain rfl : b = 1 - a := by linarith
        nlinarith [mul_nonneg (mul_nonneg ha hb) (sq_nonneg (x c - y c))]
      calc _ ≤ (a * ∑ c ∈ Ico 1 n, x c ^ 2 + b * ∑ c ∈ Ico 1 n, y c ^ 2) / (2 * s ^ 2) := div_le_div_of_nonneg_right h (by positivity)
        _ = _ := by ring
  nlinarith [mul_le_mul_of_nonneg_left h1 hl]

/-- the objective as the API shows it, 0 where it is not finite -/
noncomputable def apiObj (nd : NLNode) (w : Vec ℝ) : ℝ := okD 0 (nd.objective w)

/-- **C43 (convexity).** For linear and exponential nodes with at least one event, `dt ≥ 0`, nonzero `sigma` and finite `lmbda ≥ 0`, the weights at which the objective is finite form a convex set (all weights, for the exponential
node) and the objective is convex on it; hence every local minimum is a global one. -/
theorem C43_convex {nd : NLNode} (hk : nd.kind = .linear ∨ nd.kind = .exp) (hdt : 0 ≤ nd.dt) (hN : 0 < nlEvents nd.data) (hs : nd.sigma ≠ some 0) {l : ℝ} (hl : nd.lmbda = some l) (hl0 : 0 ≤ l) :
    ConvexOn ℝ {w | ∃ v, nd.objective w = .ok v} (apiObj nd) ∧ (nd.kind = .exp → ∀ w, ∃ v, nd.objective w = .ok v) ∧
    ∀ w, (∃ v, nd.objective w = .ok v) → IsLocalMinOn (apiObj nd) {w | ∃ v, nd.objective w = .ok v} w → ∀ w' v', nd.objective w' = .ok v' → apiObj nd w ≤ v' := by
  have hset : {w | ∃ v, nd.objective w = .ok v} = {w | RatesPos nd w} := by
    ext w
    show (∃ v, nd.objective w = .ok v) ↔ RatesPos nd w
    by_cases hr : RatesPos nd w
    · rw [objective_ok hN hs hl hr]; exact ⟨fun _ => hr, fun _ => ⟨_, rfl⟩⟩
    · rw [objective_error hr]; exact ⟨(fun ⟨_, h⟩ => by cases h), fun h => absurd h hr⟩
  have hconv : ConvexOn ℝ {w | RatesPos nd w} (apiObj nd) := by
    refine ⟨ratesPos_convex hk, ?_⟩
    intro x hx y hy a b ha hb hab
    have hxy := ratesPos_convex hk hx hy ha hb hab
    unfold apiObj
    rw [objective_ok hN hs hl hx, objective_ok hN hs hl hy, objective_ok hN hs hl hxy]
    simp only [okD, smul_eq_mul]
    have h1 := nodeLL_convex hk hdt hx hy ha hb hab
    have h2 := penalty_convex (1 + nd.K * nd.B) nd.sigma hl0 x y ha hb hab
    have hN' : (0:ℝ) < nlEvents nd.data := by exact_mod_cast hN
    have h3 := div_le_div_of_nonneg_right (add_le_add h1 h2) hN'.le
    calc _ = (-nodeLL nd (a • x + b • y) + nlPenalty (1 + nd.K * nd.B) nd.sigma l (a • x + b • y)) / nlEvents nd.data := by ring
      _ ≤ _ := h3
      _ = _ := by ring
  refine ⟨hset ▸ hconv, fun hke w => ?_, fun w hw hmin w' v' hv' => ?_⟩
  · exact ⟨_, objective_ok hN hs hl fun D _ t _ => by rw [hke]; exact Real.exp_pos _⟩
  · have := IsMinOn.of_isLocalMinOn_of_convexOn (s := {w | ∃ v, nd.objective w = .ok v}) (a := w) hw hmin (hset ▸ hconv)
    have := this (show w' ∈ {w | ∃ v, nd.objective w = .ok v} from ⟨v', hv'⟩)
    simp only [Set.mem_ofPred_eq] at this
    have e : apiObj nd w' = v' := by unfold apiObj; rw [hv']; rfl
    rw [e] at this
    exact this

/-- a node with one weight (no coupling) and one bin with one event -/
noncomputable def reluNode : NLNode := { kind := .relu, K := 1, B := 0, dt := 1, sigma := none, lmbda := some 0, w := fun _ => 0, data := [⟨1, fun _ => 1, fun _ _ => 1⟩] }

/-- **C43 (remark).** The claim of convexity does not extend to the rectified-linear node: the `1e-16` added to its link makes the objective non-convex far to the left, already for one bin with one event and only a bias weight. -/
theorem C43_relu_not_convex : ¬ ConvexOn ℝ Set.univ (apiObj reluNode) := by
  intro hc
  have hval : ∀ x : ℝ, apiObj reluNode (fun _ => x) = -(Real.log (1e-16 + Real.log (1 + Real.exp x)) - (1e-16 + Real.log (1 + Real.exp x)) * 1) := by
    intro x
    have hr : RatesPos reluNode (fun _ => x) := fun D _ t _ => (C42_link_pos _).1
    unfold apiObj
    rw [objective_ok (by unfold reluNode nlEvents; simp) (by unfold reluNode; simp) (l := 0) rfl hr]
    simp [okD, nodeLL, nlLL, nlEvents, nlPenalty, nlRidge, reluNode, predictor, NLKind.link]
  have hb : ∀ u : ℝ, 0 < u → Real.log (1 + u) ≤ u ∧ u / (1 + u) ≤ Real.log (1 + u) := by
    intro u hu
    refine ⟨by have := Real.log_le_sub_one_of_pos (show (0:ℝ) < 1 + u by linarith); linarith, ?_⟩
    have := Real.one_sub_inv_le_log_of_pos (show (0:ℝ) < 1 + u by linarith)
    have e : u / (1 + u) = 1 - (1 + u)⁻¹ := by field_simp; ring
    rw [e]; exact this
  -- three points: activations with exponentials 1e-18, 1e-16, 1e-14
  obtain ⟨_, hc2⟩ := hc
  have h := @hc2 (fun _ => Real.log 1e-18) (Set.mem_univ _) (fun _ => Real.log 1e-14) (Set.mem_univ _) (1/2) (1/2) (by norm_num) (by norm_num) (by norm_num)
  have hmid : (1/2 : ℝ) • (fun _ : ℕ => Real.log 1e-18) + (1/2 : ℝ) • (fun _ : ℕ => Real.log 1e-14) = fun _ => Real.log 1e-16 := by
    funext _
    simp only [Pi.add_apply, Pi.smul_apply, smul_eq_mul]
    have : Real.log 1e-18 + Real.log 1e-14 = 2 * Real.log 1e-16 := by
      rw [← Real.log_mul (by norm_num) (by norm_num), show (1e-18 : ℝ) * 1e-14 = 1e-16 ^ 2 by norm_num, Real.log_pow]
      norm_num
    linarith
  rw [hmid, hval, hval, hval] at h
  simp only [smul_eq_mul] at h
  rw [Real.exp_log (by norm_num), Real.exp_log (by norm_num), Real.exp_log (by norm_num)] at h
  obtain ⟨a1, a2⟩ := hb 1e-18 (by norm_num)
  obtain ⟨b1, b2⟩ := hb 1e-16 (by norm_num)
  obtain ⟨c1, c2⟩ := hb 1e-14 (by norm_num)
  have a3 : (0:ℝ) ≤ Real.log (1 + 1e-18) := Real.log_nonneg (by norm_num)
  have c3 : (9e-15:ℝ) ≤ Real.log (1 + 1e-14) := le_trans (by norm_num) c2
  have b3 : (0:ℝ) ≤ Real.log (1 + 1e-16) := Real.log_nonneg (by norm_num)
  generalize Real.log (1 + 1e-18) = A at *
  generalize Real.log (1 + 1e-16) = Bm at *
  generalize Real.log (1 + 1e-14) = C at *
  have hlog : Real.log ((1e-16 + Bm) ^ 2) + Real.log 2 ≤ Real.log (1e-16 + A) + Real.log (1e-16 + C) := by
    rw [← Real.log_mul (by positivity) (by norm_num), ← Real.log_mul (by positivity) (by positivity)]
    apply Real.log_le_log (by positivity)
    have h1 : (1e-16 + Bm) ^ 2 * 2 ≤ (2e-16:ℝ) ^ 2 * 2 := by
      apply mul_le_mul_of_nonneg_right _ (by norm_num)
      exact pow_le_pow_left₀ (by positivity) (by norm_num at b1 ⊢; linarith) 2
    have h2 : (1e-16:ℝ) * 9e-15 ≤ (1e-16 + A) * (1e-16 + C) := by
      apply mul_le_mul <;> first | positivity | linarith
    have h3 : (2e-16:ℝ) ^ 2 * 2 ≤ 1e-16 * 9e-15 := by norm_num
    linarith
  rw [Real.log_pow] at hlog
  have h2 : (0.69:ℝ) < Real.log 2 := lt_trans (by norm_num) Real.log_two_gt_d9
  push_cast at hlog
  norm_num at h a1 b1 c1 hlog h2
  linarith

/-! ### C41, homogeneous node -/

theorem nodeInit_ok {nd : NLNode} (hd : nd.data ≠ []) (hT : nlTime nd.dt nd.data ≠ 0) :
    nd.initBackground = match nd.kind.invlink ((nlEvents nd.data : ℝ) / nlTime nd.dt nd.data) with
      | .error e => .error e
      | .ok x => .ok { nd with w := fun c => if c = 0 then x else 1e-6 * 1 } := by
  have h1 : nd.data.foldl (fun acc D => acc + ∑ t ∈ range D.T, (D.S t : ℝ)) 0 = (nlEvents nd.data : ℝ) := by
    rw [foldl_add_list, zero_add, events_cast]
  have h2 : nd.data.foldl (fun acc D => acc + (D.T : ℝ) * nd.dt) 0 = nlTime nd.dt nd.data := by
    rw [foldl_add_list, zero_add]; rfl
  unfold NLNode.initBackground
  dsimp only
  rw [if_pos (List.length_pos_iff.2 hd), h1, h2, if_neg hT]
  cases nd.kind.invlink ((nlEvents nd.data : ℝ) / nlTime nd.dt nd.data) <;> rfl

theorem nlLL_const (dt r : ℝ) (l : List NLData) : nlLL dt l (fun _ _ => r) = (nlEvents l : ℝ) * Real.log r - r * nlTime dt l := by
  unfold nlLL nlEvents nlTime
  induction l with
  | nil => simp
  | cons D l ih =>
    rw [List.map_cons, List.sum_cons, ih]
    simp only [List.map_cons, List.sum_cons, Finset.sum_sub_distrib, ← Finset.sum_mul, Finset.sum_const, Finset.card_range, nsmul_eq_mul]
    push_cast
    ring

theorem time_pos {dt : ℝ} (hdt : 0 < dt) {l : List NLData} (hN : 0 < nlEvents l) : 0 < nlTime dt l := by
  unfold nlTime nlEvents at *
  induction l with
  | nil => simp at hN
  | cons D l ih =>
    simp only [List.map_cons, List.sum_cons] at hN ⊢
    have h0 : ∀ l : List NLData, 0 ≤ (l.map fun D => (D.T : ℝ) * dt).sum := by
      intro l
      apply List.sum_nonneg
      intro x hx
      obtain ⟨D, _, rfl⟩ := List.mem_map.1 hx
      positivity
    rcases Nat.eq_zero_or_pos (∑ t ∈ range D.T, D.S t) with h | h
    · rw [h, zero_add] at hN
      have := ih hN
      have : 0 ≤ (D.T : ℝ) * dt := by positivity
      linarith
    · have : 0 < D.T := by
        by_contra hc
        have : D.T = 0 := by omega
        rw [this] at h
        simp at h
      have : (0:ℝ) < (D.T : ℝ) * dt := by positivity
      have := h0 l
      linarith

/-- **C41 (nonlinear models).** With at least one event, `dt > 0`, `initialize_to_background_rate` of any node class succeeds, keeps the data, and its bias alone gives the rate (number of events)/(observed time), up to the
`1e-16` of the rectified-linear link. -/
theorem C41_node_background (nd : NLNode) (hdt : 0 < nd.dt) (hN : 0 < nlEvents nd.data) :
    ∃ nd', nd.initBackground = .ok nd' ∧ nd'.data = nd.data ∧ nd'.kind = nd.kind ∧ (∀ c, 1 ≤ c → nd'.w c = 1e-6) ∧
      nd.kind.link (nd'.w 0) = (nlEvents nd.data : ℝ) / nlTime nd.dt nd.data + if nd.kind = .relu then 1e-16 else 0 := by
  have hT := time_pos hdt hN
  have hd : nd.data ≠ [] := by rintro h; rw [h] at hN; simp [nlEvents] at hN
  rw [nodeInit_ok hd hT.ne']
  have hr : 0 < (nlEvents nd.data : ℝ) / nlTime nd.dt nd.data := div_pos (by exact_mod_cast hN) hT
  have hinv : ∃ psi, nd.kind.invlink ((nlEvents nd.data : ℝ) / nlTime nd.dt nd.data) = .ok psi ∧ nd.kind.link psi = (nlEvents nd.data : ℝ) / nlTime nd.dt nd.data + if nd.kind = .relu then 1e-16 else 0 := by
    by_cases hk : nd.kind = .relu
    · obtain ⟨psi, h1, h2⟩ := C42_relu_inverse_violated hr
      rw [hk]
      exact ⟨psi, h1, by rw [h2]; simp⟩
    · obtain ⟨psi, h1, h2⟩ := C42_link_invlink hk hr
      exact ⟨psi, h1, by rw [h2, if_neg hk, add_zero]⟩
  obtain ⟨psi, h1, h2⟩ := hinv
  rw [h1]
  refine ⟨_, rfl, rfl, rfl, fun c hc => ?_, ?_⟩
  · dsimp only
    rw [if_neg (by omega), mul_one]
  · dsimp only
    rw [if_pos rfl, h2]

/-- **C41 (homogeneous Poisson model).** With at least one event, `dt > 0` and regressors that start with a 1, fitting a homogeneous node gives zero coupling and a rate equal to (number of events)/(observed time) in every bin,
and its log likelihood is the largest among all constant rates, uniquely. -/
theorem C41_homogeneous_fit (nd : NLNode) (hk : nd.kind = .homog) (hdt : 0 < nd.dt) (hN : 0 < nlEvents nd.data) (h1 : ∀ D ∈ nd.data, ∀ t < D.T, D.F t 0 = 1) (opt : NLNode → Vec ℝ) :
    ∃ nd', nd.fit opt = .ok nd' ∧ nd'.data = nd.data ∧ (∀ c, 1 ≤ c → nd'.w c = 0) ∧
      (∀ D ∈ nd.data, ∀ t < D.T, predictor (1 + nd.K * nd.B) nd'.w D t = (nlEvents nd.data : ℝ) / nlTime nd.dt nd.data) ∧
      ∃ v, nd'.logLik none = .ok v ∧ ∀ r : ℝ, 0 < r → nlLL nd.dt nd.data (fun _ _ => r) ≤ v ∧ (nlLL nd.dt nd.data (fun _ _ => r) = v → r = (nlEvents nd.data : ℝ) / nlTime nd.dt nd.data) := by
  have hT := time_pos hdt hN
  have hd : nd.data ≠ [] := by rintro h; rw [h] at hN; simp [nlEvents] at hN
  have hr : 0 < (nlEvents nd.data : ℝ) / nlTime nd.dt nd.data := div_pos (by exact_mod_cast hN) hT
  have hfit : nd.fit opt = .ok { nd with w := fun c => if 1 ≤ c then 0 else (nlEvents nd.data : ℝ) / nlTime nd.dt nd.data } := by
    unfold NLNode.fit
    rw [hk, nodeInit_ok hd hT.ne', hk]
    unfold NLKind.invlink
    dsimp only
    congr 2
    funext c
    by_cases hc : 1 ≤ c
    · rw [if_pos hc, if_pos hc]
    · rw [if_neg hc, if_neg hc, if_pos (by omega)]
  have hpred : ∀ D ∈ nd.data, ∀ t < D.T, predictor (1 + nd.K * nd.B) (fun c => if 1 ≤ c then 0 else (nlEvents nd.data : ℝ) / nlTime nd.dt nd.data) D t = (nlEvents nd.data : ℝ) / nlTime nd.dt nd.data := by
    intro D hD t ht
    unfold predictor
    rw [add_comm 1, Finset.sum_range_succ']
    rw [Finset.sum_eq_zero fun c _ => by dsimp only; rw [if_pos (by omega), mul_zero], h1 D hD t ht]
    dsimp only
    rw [if_neg (by omega)]
    ring
  refine ⟨_, hfit, rfl, fun c hc => by dsimp only; rw [if_pos hc], hpred, ?_⟩
  have hpos : RatesPos { nd with w := fun c => if 1 ≤ c then 0 else (nlEvents nd.data : ℝ) / nlTime nd.dt nd.data } (fun c => if 1 ≤ c then 0 else (nlEvents nd.data : ℝ) / nlTime nd.dt nd.data) := by
    intro D hD t ht
    dsimp only at hD ⊢
    rw [hk, hpred D hD t ht]
    exact hr
  refine ⟨_, nodeLogLik_ok hpos, fun r hr' => ?_⟩
  have hv : nodeLL { nd with w := fun c => if 1 ≤ c then 0 else (nlEvents nd.data : ℝ) / nlTime nd.dt nd.data } (fun c => if 1 ≤ c then 0 else (nlEvents nd.data : ℝ) / nlTime nd.dt nd.data)
      = nlLL nd.dt nd.data fun _ _ => (nlEvents nd.data : ℝ) / nlTime nd.dt nd.data := by
    unfold nodeLL nlLL
    dsimp only
    congr 1
    apply List.map_congr_left
    intro D hD
    apply Finset.sum_congr rfl
    intro t ht
    rw [hpred D hD t (Finset.mem_range.1 ht), hk]
    rfl
  rw [hv, nlLL_const, nlLL_const]
  have := poisson_opt (N := (nlEvents nd.data : ℝ)) (T := nlTime nd.dt nd.data) (r := r) (by exact_mod_cast hN) hT hr'
  exact this

/-- a data set that meets the hypotheses of the theorems above: two bins, one event, one regressor besides the bias -/
def demoNL : NLData := ⟨2, fun t => if t = 0 then 1 else 0, fun t c => if c = 0 then 1 else t⟩

example : 0 < nlEvents [demoNL] ∧ (∀ D ∈ [demoNL], ∀ t < D.T, D.F t 0 = 1) ∧
    RatesPos { nlNode .linear 1 1 1 none (some 0) with data := [demoNL], w := fun _ => 1 } (fun _ => 1) := by
  refine ⟨by unfold nlEvents demoNL; simp, ?_, ?_⟩
  · intro D hD t _
    rw [List.mem_singleton.1 hD]
    rfl
  · intro D hD t ht
    rw [show D = demoNL from List.mem_singleton.1 hD]
    show (0:ℝ) < predictor _ _ _ _
    unfold predictor demoNL nlNode
    dsimp only
    rw [Finset.sum_range_succ, Finset.sum_range_one]
    simp only [if_true, mul_one, one_ne_zero, if_false]
    positivity

end PyHawkes
