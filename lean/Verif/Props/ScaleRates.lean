import Verif.Spec.ScaleRates
import Verif.Props.Groups
import Verif.Props.Units
import Verif.Props.CTAdjacency
import Verif.Props.UnitsCT
set_option linter.unusedSectionVars false
set_option linter.unusedVariables false
/-! # C114: events add up, never inhibit, and a common factor of all rates is a matter of the total number of events -/
namespace PyHawkes
open Finset Spec

section generic
variable {R : Type*} [Field R] [LinearOrder R] [IsStrictOrderedRing R]

theorem computeRate_pos {P : NetParams R} {T KS : ℕ} {S : Mat R} {r : Mat R} (h : computeRate P T KS S = .ok r) : 0 < P.L ∧ 0 < P.B ∧ 0 < T ∧ 0 < KS := by
  unfold computeRate at h
  split at h
  · cases h
  · rename_i F hF; obtain ⟨a, b, c, d⟩ := convolve_ok_pos hF; exact ⟨c, d, a, b⟩

theorem filtered_add (L : ℕ) (basis S S' : Mat R) (t k b : ℕ) : filtered L basis (together S S') t k b = filtered L basis S t k b + filtered L basis S' t k b := by
  unfold filtered together
  rw [← sum_add_distrib]
  refine sum_congr rfl fun l _ => ?_
  split_ifs
  · ring
  · rw [add_zero]

/-- **C114 (events add up).** The excitation caused by two recordings together is the sum of the excitations caused by each: the rates for the joint recording are the sum of the rates for both, the background counted once. -/
theorem C114_superposition (P : NetParams R) (T KS : ℕ) (S S' r r' : Mat R) (h : computeRate P T KS S = .ok r) (h' : computeRate P T KS S' = .ok r') :
    ∃ q, computeRate P T KS (together S S') = .ok q ∧ ∀ t < T, ∀ k < P.K, q t k = r t k + r' t k - P.lam0 k := by
  obtain ⟨hL, hB, hT, hK⟩ := computeRate_pos h
  obtain ⟨e, v⟩ := C05_compute_rate_eq P T KS S r h
  obtain ⟨-, v'⟩ := C05_compute_rate_eq P T KS S' r' h'
  obtain ⟨q, hq⟩ := (C05_compute_rate_ok_iff P T KS (together S S') hL hB).2 ⟨hT, hK, e⟩
  refine ⟨q, hq, fun t ht k hk => ?_⟩
  rw [(C05_compute_rate_eq P T KS _ q hq).2 t ht k hk, v t ht k hk, v' t ht k hk]
  simp only [filtered_add, mul_add, sum_add_distrib]
  ring

/-- **C114 (events never inhibit).** With nonnegative weights, impulse weights and basis, more events, larger background rates or larger weights never lower any rate. -/
theorem C114_monotone (P P' : NetParams R) (T KS : ℕ) (S S' r r' : Mat R) (h : computeRate P T KS S = .ok r) (h' : computeRate P' T KS S' = .ok r')
    (eB : P'.B = P.B) (eL : P'.L = P.L) (eg : P'.g = P.g) (eb : P'.basis = P.basis)
    (hl : ∀ k < P.K, P.lam0 k ≤ P'.lam0 k) (hW0 : ∀ i < P.K, ∀ j < P.K, 0 ≤ P.Weff i j) (hW : ∀ i < P.K, ∀ j < P.K, P.Weff i j ≤ P'.Weff i j)
    (hg : ∀ i < P.K, ∀ j < P.K, ∀ b < P.B, 0 ≤ P.g i j b) (hb : ∀ l < P.L, ∀ b < P.B, 0 ≤ P.basis l b) (hS0 : ∀ t < T, ∀ k < P.K, 0 ≤ S t k) (hS : ∀ t < T, ∀ k < P.K, S t k ≤ S' t k) :
    ∀ t < T, ∀ k < P.K, r t k ≤ r' t k := by
  intro t ht k hk
  obtain ⟨e, v⟩ := C05_compute_rate_eq P T KS S r h
  obtain ⟨e', v'⟩ := C05_compute_rate_eq P' T KS S' r' h'
  have eK : P'.K = P.K := e'.symm.trans e
  rw [v t ht k hk, v' t ht k (by rw [eK]; exact hk), eK, eB, eL, eg, eb]
  refine add_le_add (hl k hk) (sum_le_sum fun i hi => sum_le_sum fun b hb' => ?_)
  have hi := mem_range.1 hi
  have hb' := mem_range.1 hb'
  have f0 : 0 ≤ filtered P.L P.basis S t i b := sum_nonneg fun l hl => by
    split_ifs
    · exact mul_nonneg (hb l (mem_range.1 hl) b hb') (hS0 _ (by omega) i hi)
    · exact le_rfl
  have f1 : filtered P.L P.basis S t i b ≤ filtered P.L P.basis S' t i b := sum_le_sum fun l hl => by
    split_ifs
    · exact mul_le_mul_of_nonneg_left (hS _ (by omega) i hi) (hb l (mem_range.1 hl) b hb')
    · exact le_rfl
  exact mul_le_mul (mul_le_mul_of_nonneg_right (hW i hi k hk) (hg i hi k hk b hb')) f1 f0 (mul_nonneg ((hW0 i hi k hk).trans (hW i hi k hk)) (hg i hi k hk b hb'))

end generic

variable {c : ℝ} {P : NetParams ℝ}

theorem scale_excitation (f : Mat ℝ) (k : ℕ) :
    (scaleParams c P).lam0 k + ∑ k1 ∈ range P.K, ∑ b ∈ range P.B, (scaleParams c P).Weff k1 k * P.g k1 k b * f k1 b
      = c * (P.lam0 k + ∑ k1 ∈ range P.K, ∑ b ∈ range P.B, P.Weff k1 k * P.g k1 k b * f k1 b) := by
  rw [mul_add, mul_sum]
  congr 1
  refine sum_congr rfl fun k1 _ => ?_
  rw [mul_sum]
  exact sum_congr rfl fun b _ => by show c * P.Weff k1 k * _ * _ = _; ring

/-- **C114 (scaling, rates).** Multiplying all background rates and weights by a factor multiplies every rate by it. -/
theorem C114_scaled_rates (c : ℝ) (P : NetParams ℝ) (T KS : ℕ) (S r : Mat ℝ) (h : computeRate P T KS S = .ok r) :
    ∃ q, computeRate (scaleParams c P) T KS S = .ok q ∧ ∀ t < T, ∀ k < P.K, q t k = c * r t k := by
  obtain ⟨hL, hB, hT, hK⟩ := computeRate_pos h
  obtain ⟨e, v⟩ := C05_compute_rate_eq P T KS S r h
  obtain ⟨q, hq⟩ := (C05_compute_rate_ok_iff (scaleParams c P) T KS S hL hB).2 ⟨hT, hK, e⟩
  refine ⟨q, hq, fun t ht k hk => ?_⟩
  rw [(C05_compute_rate_eq _ T KS _ q hq).2 t ht k hk, v t ht k hk]
  exact scale_excitation (fun k1 b => filtered P.L P.basis S t k1 b) k

/-- **C114 (scaling, parents).** It does not change the probabilities with which parents are drawn. -/
theorem C114_scaled_parents (hc : c ≠ 0) (P : NetParams ℝ) (k : ℕ) (f : Mat ℝ) :
    normalise (1 + P.K * P.B) (parentWeightsPy (scaleParams c P) k f) = normalise (1 + P.K * P.B) (parentWeightsPy P k f) ∧
    normalise (1 + P.K * P.B) (parentWeightsGsl (scaleParams c P) k f) = normalise (1 + P.K * P.B) (parentWeightsGsl P k f) := by
  have gen : ∀ (m : ℕ) (w : Vec ℝ), normalise m (fun j => c * w j) = normalise m w := by
    intro m w
    unfold normalise
    rw [← mul_sum]
    by_cases h0 : ∑ i ∈ range m, w i = 0
    · rw [h0, mul_zero, if_pos rfl, if_pos rfl]
    · rw [if_neg h0, if_neg (mul_ne_zero hc h0)]
      congr 1
      funext j
      exact mul_div_mul_left _ _ hc
  have h1 : parentWeightsPy (scaleParams c P) k f = fun j => c * parentWeightsPy P k f j := by
    funext j
    cases j with
    | zero => rfl
    | succ j =>
      show f (j / P.B) (j % P.B) * (c * P.Weff (j / P.B) k) * P.g (j / P.B) k (j % P.B) = c * (f (j / P.B) (j % P.B) * P.Weff (j / P.B) k * P.g (j / P.B) k (j % P.B))
      ring
  have h2 : parentWeightsGsl (scaleParams c P) k f = fun j => c * parentWeightsGsl P k f j := by
    funext j
    cases j with
    | zero => rfl
    | succ j =>
      show c * P.Weff (j / P.B) k * P.g (j / P.B) k (j % P.B) * f (j / P.B) (j % P.B) = c * (P.Weff (j / P.B) k * P.g (j / P.B) k (j % P.B) * f (j / P.B) (j % P.B))
      ring
  rw [h1, h2]
  exact ⟨gen _ _, gen _ _⟩

theorem llBin_scale (hc : 0 < c) (s : Vec ℕ) (f : Mat ℝ) (k : ℕ)
    (h : s k ≠ 0 → P.lam0 k + ∑ k1 ∈ range P.K, ∑ b ∈ range P.B, P.Weff k1 k * P.g k1 k b * f k1 b ≠ 0) :
    llBin (scaleParams c P) s f k = llBin P s f k + toU32 (s k) * Real.log c - (c - 1) * (P.lam0 k * P.dt + ∑ i ∈ range P.K, P.Weff i k * (s i : ℝ)) := by
  unfold llBin
  have e1 := scale_excitation (c := c) (P := P) f k
  have e2 : ∑ i ∈ range P.K, (scaleParams c P).Weff i k * (s i : ℝ) = c * ∑ i ∈ range P.K, P.Weff i k * (s i : ℝ) := by
    rw [mul_sum]
    exact sum_congr rfl fun i _ => by show c * P.Weff i k * _ = _; ring
  rw [show (scaleParams c P).K = P.K from rfl, show (scaleParams c P).B = P.B from rfl, show (scaleParams c P).g = P.g from rfl, e1, e2,
    show (scaleParams c P).lam0 k = c * P.lam0 k from rfl, show (scaleParams c P).dt = P.dt from rfl]
  by_cases hs : s k = 0
  · rw [hs, toU32_zero]; push_cast; ring
  · rw [Real.log_mul hc.ne' (h hs)]; ring

theorem llData_scale (hc : 0 < c) (D : DParents ℝ) (h : EventsPossible P D) :
    llData (scaleParams c P) D = llData P D + (observedEvents P.K D : ℝ) * Real.log c - (c - 1) * predicted P D := by
  have e : ∀ (Q : NetParams ℝ), llData Q D = ∑ k ∈ range Q.K, llSingle Q D k := fun Q => by unfold llData; rw [forRange_add, zero_add]
  rw [e, e, show (scaleParams c P).K = P.K from rfl]
  unfold observedEvents predicted
  push_cast
  rw [sum_mul, mul_sum, ← sum_add_distrib, ← sum_sub_distrib]
  refine sum_congr rfl fun k hk => ?_
  have hk := mem_range.1 hk
  rw [llSingle_eq_sum, llSingle_eq_sum, sum_congr (s₁ := range D.T) rfl fun t ht => llBin_scale (P := P) hc (D.S t) (D.F t) k fun hs => by
    rw [← rateProc_form]; exact (h t (mem_range.1 ht) k hk).2 hs]
  rw [sum_sub_distrib, sum_add_distrib, ← mul_sum, sum_add_distrib, sum_const, card_range, nsmul_eq_mul, sum_mul]
  congr 2
  · exact sum_congr rfl fun t ht => by rw [toU32_of_lt (h t (mem_range.1 ht) k hk).1]
  · ring

/-- **C114 (scaling, log likelihood).** It changes `log_likelihood()` by `N log c - (c - 1) Λ`, where `N` is the number of events and `Λ` the number the parameters predict. -/
theorem C114_scaled_log_likelihood (hc : 0 < c) (P : NetParams ℝ) (dl : List (DParents ℝ)) (h : ∀ D ∈ dl, EventsPossible P D) :
    llModel (scaleParams c P) dl = llModel P dl + ((dl.map (observedEvents P.K)).sum : ℕ) * Real.log c - (c - 1) * (dl.map (predicted P)).sum := by
  unfold llModel
  rw [foldl_add_eq, foldl_add_eq, zero_add, zero_add]
  induction dl with
  | nil => simp
  | cons D dl ih =>
    simp only [List.map_cons, List.sum_cons]
    rw [ih fun D' h' => h D' (List.mem_cons_of_mem _ h'), llData_scale hc D (h D List.mem_cons_self)]
    push_cast
    ring

/-- the best factor -/
theorem best_factor {N L : ℝ} (hN : 0 < N) (hL : 0 < L) {c : ℝ} (hc : 0 < c) :
    N * Real.log c - (c - 1) * L ≤ N * Real.log (N / L) - (N / L - 1) * L ∧ (c ≠ N / L → N * Real.log c - (c - 1) * L < N * Real.log (N / L) - (N / L - 1) * L) := by
  have hx : 0 < c * L / N := by positivity
  have e1 : Real.log c = Real.log (c * L / N) + Real.log (N / L) := by
    rw [← Real.log_mul hx.ne' (by positivity)]
    congr 1
    field_simp
  have e2 : (N / L - 1) * L = N - L := by field_simp
  have e3 : N * (c * L / N - 1) = c * L - N := by field_simp
  have e4 : ∀ y, N * (Real.log (c * L / N) + y) = N * Real.log (c * L / N) + N * y := fun y => by ring
  constructor
  · have := mul_le_mul_of_nonneg_left (Real.log_le_sub_one_of_pos hx) hN.le
    rw [e1, e2, e4]
    linarith
  · intro hne
    have h1 : c * L / N ≠ 1 := by
      intro h
      apply hne
      field_simp at h ⊢
      exact h
    have := mul_lt_mul_of_pos_left (Real.log_lt_sub_one_of_pos hx h1) hN
    rw [e1, e2, e4]
    linarith

theorem total_of_best {N L x : ℝ} (hN : 0 ≤ N) (hL : 0 < L) (h : ∀ c > 0, x + N * Real.log c - (c - 1) * L ≤ x) : L = N := by
  rcases hN.eq_or_lt with h0 | h0
  · have := h (1/2) (by norm_num)
    rw [← h0] at this
    norm_num at this
    linarith
  · by_contra hne
    have := (best_factor h0 hL one_pos).2 (by
      intro h1
      apply hne
      field_simp at h1
      linarith)
    have h2 := h (N / L) (by positivity)
    rw [Real.log_one, mul_zero, sub_self, zero_mul] at this
    linarith

/-- **C114 (best factor).** If the parameters predict `Λ > 0` events where `N > 0` happened, `N / Λ` is the one factor for all rates with the largest log likelihood. -/
theorem C114_best_factor (P : NetParams ℝ) (dl : List (DParents ℝ)) (h : ∀ D ∈ dl, EventsPossible P D) (hL : 0 < (dl.map (predicted P)).sum) (hN : 0 < (dl.map (observedEvents P.K)).sum) (hc : 0 < c) :
    llModel (scaleParams c P) dl ≤ llModel (scaleParams (((dl.map (observedEvents P.K)).sum : ℕ) / (dl.map (predicted P)).sum) P) dl ∧
    (c ≠ ((dl.map (observedEvents P.K)).sum : ℕ) / (dl.map (predicted P)).sum →
      llModel (scaleParams c P) dl < llModel (scaleParams (((dl.map (observedEvents P.K)).sum : ℕ) / (dl.map (predicted P)).sum) P) dl) := by
  have hN' : (0:ℝ) < ((dl.map (observedEvents P.K)).sum : ℕ) := by exact_mod_cast hN
  have hb := best_factor hN' hL hc
  rw [C114_scaled_log_likelihood hc P dl h, C114_scaled_log_likelihood (by positivity) P dl h]
  exact ⟨by linarith [hb.1], fun hne => by linarith [hb.2 hne]⟩

/-- **C114 (maximum likelihood).** At parameters whose log likelihood no common factor improves — in particular at maximum-likelihood parameters — the predicted number of events is the observed one. -/
theorem C114_maximum_likelihood (P : NetParams ℝ) (dl : List (DParents ℝ)) (h : ∀ D ∈ dl, EventsPossible P D) (hL : 0 < (dl.map (predicted P)).sum)
    (hmax : ∀ c > 0, llModel (scaleParams c P) dl ≤ llModel P dl) : (dl.map (predicted P)).sum = ((dl.map (observedEvents P.K)).sum : ℕ) :=
  total_of_best (Nat.cast_nonneg _) hL fun c hc => by rw [← C114_scaled_log_likelihood hc P dl h]; exact hmax c hc

/-! ### continuous time -/

variable {Q : CTParams} {D : CTData}

theorem scaleCT_Weff (i j : ℕ) : (scaleCT c Q).Weff i j = c * Q.Weff i j := by
  show Q.A i j * (c * Q.W i j) = c * (Q.A i j * Q.W i j)
  ring

theorem scaleCT_parWeight (n m : ℕ) : parWeight (scaleCT c Q) D n m = c * parWeight Q D n m := by
  unfold parWeight
  rw [scaleCT_Weff, mul_assoc]
  rfl

theorem scaleCT_backScan (n m : ℕ) (d : ℝ) (q : ℕ) : backScan (scaleCT c Q) D n m (c * d) q = (c * (backScan Q D n m d q).1, (backScan Q D n m d q).2) := by
  induction m generalizing d q with
  | zero => rfl
  | succ m ih =>
    unfold backScan
    dsimp only
    rw [scaleCT_parWeight, ← mul_add, ih, ih, show (scaleCT c Q).dtMax = Q.dtMax from rfl]
    split_ifs <;> rfl

theorem scaleCT_fwdScan (hc : c ≠ 0) (n : ℕ) (u d : ℝ) (l : List ℕ) (acc : ℝ) : fwdScan (scaleCT c Q) D n u (c * d) l acc = fwdScan Q D n u d l acc := by
  induction l generalizing acc with
  | nil => rfl
  | cons q l ih =>
    unfold fwdScan
    dsimp only
    rw [scaleCT_parWeight, mul_div_mul_left _ _ hc, ih, ih, show (scaleCT c Q).dtMax = Q.dtMax from rfl]

theorem scaleCT_resampleOne (hc : c ≠ 0) (u : Vec ℝ) (n : ℕ) : resampleOne (scaleCT c Q) D u n = resampleOne Q D u n := by
  unfold resampleOne
  dsimp only
  rw [show (scaleCT c Q).lam0 (D.C n) = c * Q.lam0 (D.C n) from rfl, scaleCT_backScan]
  dsimp only
  rw [mul_div_mul_left _ _ hc, scaleCT_fwdScan hc]
  simp only [mul_eq_zero, hc, false_or]

/-- **C114 (continuous time, parents).** A common factor of all background rates and weights does not change the parents drawn from the same uniforms (or the errors raised), under any schedule. -/
theorem C114_ct_parents (hc : c ≠ 0) (Q : CTParams) (D : CTData) (u : Vec ℝ) (sched : List ℕ) (Z : ℕ → ℤ) : ctResamplePar (scaleCT c Q) D u sched Z = ctResamplePar Q D u sched Z := by
  unfold ctResamplePar
  have : parStep (scaleCT c Q) D u = parStep Q D u := by
    funext n st
    unfold parStep
    rw [scaleCT_resampleOne hc]
  rw [this]

theorem scaleCT_rateScan (hc : 0 < c) (n m : ℕ) (l : ℝ) : rateScan (scaleCT c Q) D n m (c * l) = c * rateScan Q D n m l := by
  induction m generalizing l with
  | zero => rfl
  | succ m ih =>
    unfold rateScan
    dsimp only
    rw [scaleCT_parWeight, ← mul_add, ih, ih, scaleCT_Weff, show (scaleCT c Q).dtMax = Q.dtMax from rfl]
    simp only [mul_pos_iff_of_pos_left hc]
    split_ifs <;> rfl

/-- **C114 (continuous time, rates).** It multiplies the rate at every event. -/
theorem C114_ct_rates (hc : 0 < c) (Q : CTParams) (D : CTData) (n : ℕ) : rateAtEvents (scaleCT c Q) D n = c * rateAtEvents Q D n := by
  unfold rateAtEvents
  rw [show 0 + (scaleCT c Q).lam0 (D.C n) = c * (0 + Q.lam0 (D.C n)) by rw [zero_add, zero_add]; rfl, scaleCT_rateScan hc]

/-- **C114 (continuous time, weights never inhibit).** Larger background rates or weights never lower the rate at an event. -/
theorem C114_ct_monotone (Q Q' : CTParams) (D : CTData) (hL : LabelsOk Q.K D) (ed : Q'.dtMax = Q.dtMax) (em : Q'.mu = Q.mu) (et : Q'.tau = Q.tau) (hd : 0 < Q.dtMax)
    (hl : ∀ k < Q.K, Q.lam0 k ≤ Q'.lam0 k) (hW : ∀ i < Q.K, ∀ j < Q.K, Q.A i j * Q.W i j ≤ Q'.A i j * Q'.W i j) {n : ℕ} (hn : n < D.N) :
    rateAtEvents Q D n ≤ rateAtEvents Q' D n := by
  have key : ∀ m ≤ n, ∀ l l' : ℝ, l ≤ l' → rateScan Q D n m l ≤ rateScan Q' D n m l' := by
    intro m
    induction m with
    | zero => intro _ l l' h; exact h
    | succ m ih =>
      intro hm l l' h
      have hw : Q.Weff (D.C m) (D.C n) ≤ Q'.Weff (D.C m) (D.C n) := hW _ (hL m (by omega)) _ (hL n hn)
      have hi := lnImpulse_nonneg (D.S n - D.S m) (Q.mu (D.C m) (D.C n)) (Q.tau (D.C m) (D.C n)) Q.dtMax hd
      unfold rateScan
      dsimp only
      rw [ed]
      split_ifs with h1 h2 h3 h4 h4
      · exact ih (by omega) _ _ h
      · exact h
      · refine ih (by omega) _ _ (add_le_add h ?_)
        unfold parWeight
        rw [ed, em, et]
        exact mul_le_mul_of_nonneg_right hw hi
      · exact absurd (h3.trans_le hw) h4
      · refine ih (by omega) _ _ (h.trans (le_add_of_nonneg_right ?_))
        unfold parWeight
        rw [ed, em, et]
        exact mul_nonneg h4.le hi
      · exact ih (by omega) _ _ h
  unfold rateAtEvents
  exact key n le_rfl _ _ (add_le_add le_rfl (hl _ (hL n hn)))

theorem integrated_predicted (hL : LabelsOk Q.K D) : ∑ k ∈ range Q.K, integratedRate Q D k = predictedCT Q D := by
  unfold integratedRate predictedCT
  rw [sum_add_distrib, sum_comm (s := range D.N)]
  congr 1
  refine sum_congr rfl fun k _ => ?_
  simp only [CTData.Ns_eq_card, card_filter, Nat.cast_sum, mul_sum]
  rw [sum_comm]
  refine sum_congr rfl fun n hn => ?_
  rw [sum_eq_single (D.C n)]
  · rw [if_pos rfl, Nat.cast_one, mul_one]; rfl
  · intro i _ hne; rw [if_neg (Ne.symm hne), Nat.cast_zero, mul_zero]
  · intro h; exact absurd (mem_range.2 (hL n (mem_range.1 hn))) h

theorem predicted_scaleCT : predictedCT (scaleCT c Q) D = c * predictedCT Q D := by
  unfold predictedCT
  rw [mul_add, mul_sum, mul_sum]
  congr 1
  · exact sum_congr rfl fun k _ => by show c * Q.lam0 k * _ = _; ring
  · refine sum_congr rfl fun n _ => ?_
    rw [mul_sum]
    exact sum_congr rfl fun k _ => by show Q.A _ _ * (c * Q.W _ _) = _; ring

/-- **C114 (continuous time, log likelihood).** It changes `log_likelihood()` by `N log c - (c - 1) Λ`. -/
theorem C114_ct_log_likelihood (hc : 0 < c) (Q : CTParams) (dl : List CTData) (hL : ∀ D ∈ dl, LabelsOk Q.K D) (hr : ∀ D ∈ dl, ∀ n < D.N, rateAtEvents Q D n ≠ 0) :
    ctLogLik (scaleCT c Q) dl = ctLogLik Q dl + ((dl.map fun D => D.N).sum : ℕ) * Real.log c - (c - 1) * (dl.map (predictedCT Q)).sum := by
  rw [ctLogLik_sum, ctLogLik_sum]
  induction dl with
  | nil => simp
  | cons D dl ih =>
    simp only [List.map_cons, List.sum_cons]
    rw [ih (fun D' h' => hL D' (List.mem_cons_of_mem _ h')) fun D' h' => hr D' (List.mem_cons_of_mem _ h'), integrated_predicted (hL D List.mem_cons_self),
      integrated_predicted (Q := scaleCT c Q) (hL D List.mem_cons_self), predicted_scaleCT,
      sum_congr (s₁ := range D.N) rfl fun n hn => by rw [C114_ct_rates hc, Real.log_mul hc.ne' (hr D List.mem_cons_self n (mem_range.1 hn))],
      sum_add_distrib, sum_const, card_range, nsmul_eq_mul]
    push_cast
    ring

/-- **C114 (continuous time, best factor).** If `Λ > 0` events are predicted and `N > 0` happened, `N / Λ` is the one factor for all rates with the largest log likelihood. -/
theorem C114_ct_best_factor (Q : CTParams) (dl : List CTData) (hL : ∀ D ∈ dl, LabelsOk Q.K D) (hr : ∀ D ∈ dl, ∀ n < D.N, rateAtEvents Q D n ≠ 0) (hp : 0 < (dl.map (predictedCT Q)).sum)
    (hN : 0 < (dl.map fun D => D.N).sum) (hc : 0 < c) :
    ctLogLik (scaleCT c Q) dl ≤ ctLogLik (scaleCT (((dl.map fun D => D.N).sum : ℕ) / (dl.map (predictedCT Q)).sum) Q) dl ∧
    (c ≠ ((dl.map fun D => D.N).sum : ℕ) / (dl.map (predictedCT Q)).sum →
      ctLogLik (scaleCT c Q) dl < ctLogLik (scaleCT (((dl.map fun D => D.N).sum : ℕ) / (dl.map (predictedCT Q)).sum) Q) dl) := by
  have hN' : (0:ℝ) < ((dl.map fun D => D.N).sum : ℕ) := by exact_mod_cast hN
  have hb := best_factor hN' hp hc
  rw [C114_ct_log_likelihood hc Q dl hL hr, C114_ct_log_likelihood (by positivity) Q dl hL hr]
  exact ⟨by linarith [hb.1], fun hne => by linarith [hb.2 hne]⟩

/-- **C114 (continuous time, maximum likelihood).** At parameters whose log likelihood no common factor improves, the predicted number of events is the observed one. -/
theorem C114_ct_maximum_likelihood (Q : CTParams) (dl : List CTData) (hL : ∀ D ∈ dl, LabelsOk Q.K D) (hr : ∀ D ∈ dl, ∀ n < D.N, rateAtEvents Q D n ≠ 0) (hp : 0 < (dl.map (predictedCT Q)).sum)
    (hmax : ∀ c > 0, ctLogLik (scaleCT c Q) dl ≤ ctLogLik Q dl) : (dl.map (predictedCT Q)).sum = ((dl.map fun D => D.N).sum : ℕ) :=
  total_of_best (Nat.cast_nonneg _) hp fun c hc => by rw [← C114_ct_log_likelihood hc Q dl hL hr]; exact hmax c hc

/-! ### non-vacuity: one process with rate 1 and no weights, two bins with one event each: two events are predicted and two happened -/

noncomputable def unitNet : NetParams ℝ := { K := 1, B := 1, L := 1, dt := 1, basis := fun _ _ => 1, lam0 := fun _ => 1, Weff := fun _ _ => 0, g := fun _ _ _ => 1 }
noncomputable def unitData : DParents ℝ := { T := 2, S := fun _ _ => 1, F := fun _ _ _ => 0 }

theorem unitNet_possible : ∀ D ∈ [unitData], EventsPossible unitNet D := by
  intro D hD t ht k hk
  rw [List.mem_singleton.1 hD]
  refine ⟨by show 1 < 2 ^ 32; norm_num, fun _ => ?_⟩
  rw [rateProc_form]
  norm_num [unitNet, unitData]

theorem unitNet_predicted : ([unitData].map (predicted unitNet)).sum = 2 := by
  norm_num [predicted, unitNet, unitData]

theorem unitNet_events : ([unitData].map (observedEvents unitNet.K)).sum = 2 := by
  norm_num [observedEvents, unitNet, unitData]

example : ∀ c > 0, llModel (scaleParams c unitNet) [unitData] ≤ llModel unitNet [unitData] := by
  intro c hc
  have h := (C114_best_factor unitNet [unitData] unitNet_possible (by rw [unitNet_predicted]; norm_num) (by rw [unitNet_events]; norm_num) hc).1
  rw [unitNet_predicted, unitNet_events, C114_scaled_log_likelihood (c := (2 : ℕ) / 2) (by norm_num) unitNet [unitData] unitNet_possible] at h
  simpa using h

/-- hence its parameters meet the hypotheses of `C114_maximum_likelihood`, and with rate 3 instead of 1 they would not -/
example : ¬ ∀ c > 0, llModel (scaleParams c (scaleParams 3 unitNet)) [unitData] ≤ llModel (scaleParams 3 unitNet) [unitData] := by
  intro h
  have hp : ∀ D ∈ [unitData], EventsPossible (scaleParams 3 unitNet) D := by
    intro D hD t ht k hk
    rw [List.mem_singleton.1 hD]
    refine ⟨by show 1 < 2 ^ 32; norm_num, fun _ => ?_⟩
    rw [rateProc_form]
    norm_num [scaleParams, unitNet, unitData]
  have hs : ([unitData].map (predicted (scaleParams 3 unitNet))).sum = 6 := by norm_num [predicted, scaleParams, unitNet, unitData]
  have := C114_maximum_likelihood (scaleParams 3 unitNet) [unitData] hp (by rw [hs]; norm_num) h
  rw [hs, show (scaleParams 3 unitNet).K = unitNet.K from rfl, unitNet_events] at this
  norm_num at this

/-- continuous time: one process with rate 1 and no weights, two events in two units of time -/
noncomputable def unitCT : CTParams := { K := 1, dtMax := 1, lam0 := fun _ => 1, W := fun _ _ => 0, A := fun _ _ => 1, mu := fun _ _ => 0, tau := fun _ _ => 1 }
noncomputable def unitEvents : CTData := { N := 2, S := fun i => (i : ℝ), C := fun _ => 0, T := 2, bkgd := fun _ => 0 }

example : ∀ c > 0, ctLogLik (scaleCT c unitCT) [unitEvents] ≤ ctLogLik unitCT [unitEvents] := by
  intro c hc
  have hL : ∀ D ∈ [unitEvents], LabelsOk unitCT.K D := fun D hD n _ => by rw [List.mem_singleton.1 hD]; exact Nat.zero_lt_one
  have hr : ∀ D ∈ [unitEvents], ∀ n < D.N, rateAtEvents unitCT D n ≠ 0 := by
    intro D hD n hn
    rw [List.mem_singleton.1 hD]
    have : ∀ m l, rateScan unitCT unitEvents n m l = l := by
      intro m
      induction m with
      | zero => intro l; rfl
      | succ m ih =>
        intro l
        unfold rateScan
        dsimp only
        have h0 : unitCT.Weff (unitEvents.C m) (unitEvents.C n) = 0 := by norm_num [unitCT, CTParams.Weff]
        rw [h0, ih, if_neg (lt_irrefl _)]
        split_ifs <;> rfl
    unfold rateAtEvents
    rw [this]
    norm_num [unitCT]
  have hp : ([unitEvents].map (predictedCT unitCT)).sum = 2 := by norm_num [predictedCT, unitCT, unitEvents]
  have hN : ([unitEvents].map fun D => D.N).sum = 2 := rfl
  have h := (C114_ct_best_factor unitCT [unitEvents] hL hr (by rw [hp]; norm_num) (by rw [hN]; norm_num) hc).1
  rw [hp, hN, C114_ct_log_likelihood (c := (2 : ℕ) / 2) (by norm_num) unitCT [unitEvents] hL hr] at h
  simpa using h

end PyHawkes
