import Verif.Spec.Units
import Verif.Props.Sampler
import Verif.Props.LogLik
import Verif.Props.CTAdjacency

/-!
# C108: the unit of time carries no meaning (discrete time)
-/
set_option linter.unusedVariables false
set_option linter.unusedSectionVars false

namespace PyHawkes
open Finset Spec

/-! ### bases -/

theorem linspace_units (c hi : ℝ) (n j : ℕ) : linspace 0 (c * hi) n j = c * linspace 0 hi n j := by
  unfold linspace
  split_ifs
  · simp
  · ring

theorem lastLE_units {c : ℝ} (hc : 0 < c) (xp : Vec ℝ) (n : ℕ) (x : ℝ) : lastLE (fun j => c * xp j) n (c * x) = lastLE xp n x := by
  induction n with
  | zero => rfl
  | succ n ih => simp only [lastLE, ih, mul_le_mul_iff_right₀ hc]

theorem interp_units {c : ℝ} (hc : 0 < c) (n : ℕ) (xp fp : Vec ℝ) (x : ℝ) : interp n (fun j => c * xp j) fp (c * x) = interp n xp fp x := by
  unfold interp
  dsimp only
  rw [lastLE_units hc]
  simp only [mul_le_mul_iff_right₀ hc]
  split_ifs
  · rfl
  · rfl
  · rw [← mul_sub, ← mul_sub]
    field_simp

theorem interpRaw_units {c : ℝ} (hc : 0 < c) (L : ℕ) (basis : Mat ℝ) (dt dtMax : ℝ) : interpRaw L basis (c * dt) (c * dtMax) = interpRaw L basis dt dtMax := by
  funext i b
  unfold interpRaw
  simp only [linspace_units]
  rw [mul_assoc, interp_units hc]

theorem normCols_units {c : ℝ} (hc : 0 < c) (n B : ℕ) (dt : ℝ) (m : Mat ℝ) : normCols n B (c * dt) m = (normCols n B dt m).map fun m i b => m i b / c := by
  unfold normCols
  simp only [mul_assoc, mul_eq_zero, hc.ne', false_or]
  split_ifs
  · rfl
  · refine congrArg Except.ok ?_
    funext i b
    rw [mul_comm c]
    exact (div_div _ _ _).symm

theorem prependZero_units (c : ℝ) (m : Mat ℝ) : prependZero (fun i b => m i b / c) = fun i b => prependZero m i b / c := by
  funext i b
  cases i with
  | zero => simp [prependZero]
  | succ i => rfl

/-- a sampled basis with its values per new unit of time -/
noncomputable def perUnit (c : ℝ) (a : BasisArr ℝ) : BasisArr ℝ := { a with val := fun i b => a.val i b / c }

/-- C108: the normalised basis functions for bins and a maximal lag measured in the new unit are the old ones, per new unit of time: same number of rows, same columns,
same outcome of the checks. Holds for interpolated bases (cosine bumps) and for the identity basis. -/
theorem C108_basis {c : ℝ} (hc : 0 < c) (L B : ℕ) (basis : Mat ℝ) (dt dtMax : ℝ) (inst : Bool) :
    interpolateBasis L B basis (c * dt) (c * dtMax) true inst = (interpolateBasis L B basis dt dtMax true inst).map (perUnit c)
      ∧ identityBasis (c * dt) (c * dtMax) true inst = (identityBasis dt dtMax true inst).map (perUnit c) := by
  constructor
  · unfold interpolateBasis
    dsimp only
    have hn : arangeLen (c * dtMax) (c * dt) = arangeLen dtMax dt := by unfold arangeLen; rw [mul_div_mul_left _ _ hc.ne']
    rw [hn, interpRaw_units hc, if_pos rfl, if_pos rfl, normCols_units hc]
    cases normCols (arangeLen dtMax dt) B dt (interpRaw L basis dt dtMax) with
    | error e => rfl
    | ok m =>
      cases inst
      · exact congrArg Except.ok (congrArg (BasisArr.mk _ B) (prependZero_units c m))
      · rfl
  · unfold identityBasis
    dsimp only
    rw [mul_div_mul_left _ _ hc.ne', if_pos rfl, if_pos rfl, normCols_units hc]
    split_ifs
    · rfl
    · cases normCols (⌊dtMax / dt⌋₊ + 1) (⌊dtMax / dt⌋₊ + 1) dt (fun i j => if i = j then 1 else 0) <;> rfl
    · rfl
    · cases normCols (⌊dtMax / dt⌋₊ + 1) ⌊dtMax / dt⌋₊ dt (prependZero fun i j => if i = j then 1 else 0) <;> rfl

/-- C108: without normalisation the sampled basis functions do not depend on the unit at all, so they are not densities over lags -/
theorem C108_basis_unnormalised {c : ℝ} (hc : 0 < c) (L B : ℕ) (basis : Mat ℝ) (dt dtMax : ℝ) (inst : Bool) :
    interpolateBasis L B basis (c * dt) (c * dtMax) false inst = interpolateBasis L B basis dt dtMax false inst
      ∧ identityBasis (c * dt) (c * dtMax) false inst = identityBasis dt dtMax false inst := by
  constructor
  · unfold interpolateBasis
    dsimp only
    have hn : arangeLen (c * dtMax) (c * dt) = arangeLen dtMax dt := by unfold arangeLen; rw [mul_div_mul_left _ _ hc.ne']
    rw [hn, interpRaw_units hc]
    rfl
  · unfold identityBasis
    dsimp only
    rw [mul_div_mul_left _ _ hc.ne']
    simp only [Bool.false_eq_true, if_false]

/-! ### filtering and rates -/

theorem convRaw_units (c : ℝ) (T L : ℕ) (basis S : Mat ℝ) : convRaw T L (fun l b => basis l b / c) S = fun t k b => convRaw T L basis S t k b / c := by
  funext t k b
  unfold convRaw
  rw [sum_div]
  refine sum_congr rfl fun i _ => ?_
  rw [sum_div]
  refine sum_congr rfl fun l _ => ?_
  split_ifs
  · ring
  · simp

theorem nonneg_units {c : ℝ} (hc : 0 < c) (x : ℝ) : 0 ≤ x / c ↔ 0 ≤ x := by
  rw [le_div_iff₀ hc, zero_mul]

theorem convolve_units {c : ℝ} (hc : 0 < c) (T K L B : ℕ) (basis S : Mat ℝ) :
    convolve T K L B (fun l b => basis l b / c) S = (convolve T K L B basis S).map fun F t k b => F t k b / c := by
  unfold convolve
  dsimp only
  rw [convRaw_units]
  have hclip : clipLow (fun t k b => convRaw T L basis S t k b / c) = fun t k b => clipLow (convRaw T L basis S) t k b / c := by
    funext t k b
    unfold clipLow
    show max 0 (convRaw T L basis S t k b / c) = _
    rw [← max_div_div_right hc.le, zero_div]
  rw [hclip]
  simp only [nonneg_units hc]
  split_ifs <;> rfl

theorem rateAll_units (c : ℝ) (P : NetParams ℝ) (F : Ten ℝ) : rateAll (rescaleParams c P) (fun t k b => F t k b / c) = fun t k => rateAll P F t k / c := by
  have key : ∀ m, forRange m (fun k2 (r : Mat ℝ) => fun t k =>
      if k = k2 then r t k + ∑ b ∈ range P.B, ∑ k1 ∈ range P.K, F t k1 b / c * (P.Weff k1 k2 * P.g k1 k2 b) else r t k) (fun _ k => P.lam0 k / c)
      = fun t k => forRange m (fun k2 (r : Mat ℝ) => fun t k =>
        if k = k2 then r t k + ∑ b ∈ range P.B, ∑ k1 ∈ range P.K, F t k1 b * (P.Weff k1 k2 * P.g k1 k2 b) else r t k) (fun _ k => P.lam0 k) t k / c := by
    intro m
    induction m with
    | zero => rfl
    | succ m ih =>
      rw [forRange_succ, ih, forRange_succ]
      funext t k
      dsimp only
      split_ifs
      · rw [add_div, sum_div]
        congr 1
        refine sum_congr rfl fun b _ => ?_
        rw [sum_div]
        exact sum_congr rfl fun k1 _ => by ring
      · rfl
  exact key P.K

theorem rateProc_units (c : ℝ) (P : NetParams ℝ) (F : Ten ℝ) (k : ℕ) : rateProc (rescaleParams c P) (fun t k b => F t k b / c) k = fun t => rateProc P F k t / c := by
  funext t
  unfold rateProc
  show P.lam0 k / c + ∑ k1 ∈ range P.K, ∑ b ∈ range P.B, F t k1 b / c * (P.Weff k1 k * P.g k1 k b) = _
  rw [add_div, sum_div]
  congr 1
  refine sum_congr rfl fun b _ => ?_
  rw [sum_div]
  exact sum_congr rfl fun k1 _ => by ring

/-- C108: `compute_rate` returns the old rates per new unit of time, or raises the same error -/
theorem C108_compute_rate {c : ℝ} (hc : 0 < c) (P : NetParams ℝ) (T KS : ℕ) (S : Mat ℝ) :
    computeRate (rescaleParams c P) T KS S = (computeRate P T KS S).map (fun r t k => r t k / c)
      ∧ ∀ p, computeRateProc (rescaleParams c P) T KS S p = (computeRateProc P T KS S p).map (fun r t => r t / c) := by
  have h' : convolve T KS (rescaleParams c P).L (rescaleParams c P).B (rescaleParams c P).basis S = _ := convolve_units hc T KS P.L P.B P.basis S
  constructor
  · unfold computeRate
    rw [h']
    cases convolve T KS P.L P.B P.basis S with
    | error e => rfl
    | ok F =>
      show (if KS ≠ P.K then _ else Except.ok (rateAll (rescaleParams c P) fun t k b => F t k b / c)) = _
      rw [rateAll_units]
      dsimp only
      split_ifs <;> rfl
  · intro p
    unfold computeRateProc
    rw [h']
    cases convolve T KS P.L P.B P.basis S with
    | error e => rfl
    | ok F =>
      dsimp only [Except.map]
      rw [rateProc_units]
      show (if ¬ p < P.K then _ else if p < -(P.K : ℤ) then _ else if KS ≠ P.K then _ else _) = _
      split_ifs <;> rfl

/-! ### simulation -/

theorem genH_units (c : ℝ) (P : NetParams ℝ) (l k2 k1 : ℕ) : genH (rescaleParams c P) l k2 k1 = genH P l k2 k1 / c := by
  unfold genH
  show P.Weff k1 k2 * ∑ b ∈ range P.B, P.basis l b / c * P.g k1 k2 b = _
  rw [mul_div_assoc, sum_div]
  congr 1
  exact sum_congr rfl fun b _ => by ring

theorem genStep_units {c : ℝ} (hc : 0 < c) (P : NetParams ℝ) (draw : ℕ → ℕ → ℝ → ℕ) (t : ℕ) (st : Mat ℕ × Mat ℝ) :
    genStep (rescaleParams c P) draw t (st.1, fun s k => st.2 s k / c) = (genStep P draw t st).map fun st => (st.1, fun s k => st.2 s k / c) := by
  have hm : ∀ s k, st.2 s k / c * (c * P.dt) = st.2 s k * P.dt := fun s k => by field_simp
  unfold genStep
  dsimp only
  simp only [genH_units]
  show (if ∃ k < P.K, st.2 t k / c * (c * P.dt) < 0 then _ else _) = _
  have hrow : (fun k => draw t k (st.2 t k / c * (rescaleParams c P).dt)) = fun k => draw t k (st.2 t k * P.dt) := by
    funext k
    exact congrArg (draw t k) (hm t k)
  simp only [hm]
  split_ifs with h
  · rfl
  · refine congrArg Except.ok (Prod.ext ?_ ?_)
    · funext s k
      dsimp only
      split_ifs
      · exact congrFun hrow k
      · rfl
    · funext s k
      dsimp only
      show (if t ≤ s ∧ s < t + P.L then _ else _) = _
      split_ifs
      · rw [add_div, sum_div]
        congr 1
        refine sum_congr rfl fun k1 _ => ?_
        rw [show draw t k1 (st.2 t k1 / c * (rescaleParams c P).dt) = draw t k1 (st.2 t k1 * P.dt) from congrFun hrow k1]
        ring
      · rfl

/-- C108: with the same random numbers `generate` simulates the same counts, and returns the old rates per new unit of time -/
theorem C108_generate {c : ℝ} (hc : 0 < c) (P : NetParams ℝ) (draw : ℕ → ℕ → ℝ → ℕ) (T : ℕ) :
    generate (rescaleParams c P) draw T = (generate P draw T).map fun st => (st.1, fun s k => st.2 s k / c) := by
  unfold generate
  show (if P.lenIsInt = false then _ else _) = _
  split_ifs
  · rfl
  · have key : ∀ (l : List ℕ) (st : Mat ℕ × Mat ℝ), forListE l (genStep (rescaleParams c P) draw) (st.1, fun s k => st.2 s k / c)
        = (forListE l (genStep P draw) st).map fun st => (st.1, fun s k => st.2 s k / c) := by
      intro l
      induction l with
      | nil => intro st; rfl
      | cons t l ih =>
        intro st
        simp only [forListE]
        rw [genStep_units hc]
        cases genStep P draw t st with
        | error e => rfl
        | ok st' => exact ih st'
    exact key _ (fun _ _ => 0, fun _ k => P.lam0 k)

/-! ### log likelihoods -/

/-- the total rate of one bin -/
theorem lam_units (c : ℝ) (P : NetParams ℝ) (f : Mat ℝ) (k : ℕ) :
    P.lam0 k / c + ∑ k1 ∈ range P.K, ∑ b ∈ range P.B, P.Weff k1 k * P.g k1 k b * (f k1 b / c)
      = (P.lam0 k + ∑ k1 ∈ range P.K, ∑ b ∈ range P.B, P.Weff k1 k * P.g k1 k b * f k1 b) / c := by
  rw [add_div, sum_div]
  congr 1
  refine sum_congr rfl fun b _ => ?_
  rw [sum_div]
  exact sum_congr rfl fun k1 _ => by ring

theorem llBin_units {c : ℝ} (hc : 0 < c) (P : NetParams ℝ) (s : Vec ℕ) (f : Mat ℝ) (k : ℕ)
    (h : s k ≠ 0 → P.lam0 k + ∑ k1 ∈ range P.K, ∑ b ∈ range P.B, P.Weff k1 k * P.g k1 k b * f k1 b ≠ 0) :
    llBin (rescaleParams c P) s (fun k b => f k b / c) k = llBin P s f k - toU32 (s k) * Real.log c := by
  unfold llBin
  show (toU32 (s k) : ℝ) * Real.log (P.lam0 k / c + ∑ k1 ∈ range P.K, ∑ b ∈ range P.B, P.Weff k1 k * P.g k1 k b * (f k1 b / c)) - P.lam0 k / c * (c * P.dt)
    - ∑ k1 ∈ range P.K, P.Weff k1 k * (s k1 : ℝ) = _
  rw [lam_units]
  have hm : P.lam0 k / c * (c * P.dt) = P.lam0 k * P.dt := by field_simp
  rw [hm]
  by_cases hs : s k = 0
  · rw [hs, toU32_zero]; simp
  · rw [Real.log_div (h hs) hc.ne']; ring

theorem llSingle_units {c : ℝ} (hc : 0 < c) (P : NetParams ℝ) (D : DParents ℝ) (k : ℕ)
    (h : ∀ t < D.T, D.S t k ≠ 0 → P.lam0 k + ∑ k1 ∈ range P.K, ∑ b ∈ range P.B, P.Weff k1 k * P.g k1 k b * D.F t k1 b ≠ 0) :
    llSingle (rescaleParams c P) (rescaleData c D) k = llSingle P D k - (∑ t ∈ range D.T, (toU32 (D.S t k) : ℝ)) * Real.log c := by
  rw [llSingle_eq_sum, llSingle_eq_sum, sum_mul, ← sum_sub_distrib]
  exact sum_congr rfl fun t ht => llBin_units hc P (D.S t) (D.F t) k (h t (mem_range.1 ht))

theorem rateProc_form (P : NetParams ℝ) (F : Ten ℝ) (k t : ℕ) :
    rateProc P F k t = P.lam0 k + ∑ k1 ∈ range P.K, ∑ b ∈ range P.B, P.Weff k1 k * P.g k1 k b * F t k1 b := by
  unfold rateProc
  congr 1
  exact sum_congr rfl fun k1 _ => sum_congr rfl fun b _ => by ring

/-- every bin that contains an event of a process has a nonzero rate for that process, and the counts fit in 32 bits -/
def EventsPossible (P : NetParams ℝ) (D : DParents ℝ) : Prop :=
  ∀ t < D.T, ∀ k < P.K, D.S t k < 2 ^ 32 ∧ (D.S t k ≠ 0 → rateProc P D.F k t ≠ 0)

/-- C108: `log_likelihood()` changes by `-N log c`, where `N` is the number of events: the constant that turns a density per old unit into a density per new unit.
It does not depend on the parameters. -/
theorem C108_log_likelihood {c : ℝ} (hc : 0 < c) (P : NetParams ℝ) (dl : List (DParents ℝ)) (h : ∀ D ∈ dl, EventsPossible P D) :
    llModel (rescaleParams c P) (dl.map (rescaleData c)) = llModel P dl - ((dl.map (observedEvents P.K)).sum : ℕ) * Real.log c := by
  have hd : ∀ D ∈ dl, llData (rescaleParams c P) (rescaleData c D) = llData P D - (observedEvents P.K D : ℝ) * Real.log c := by
    intro D hD
    unfold llData
    show forRange P.K _ 0 = _
    rw [forRange_add, forRange_add, zero_add, zero_add]
    unfold observedEvents
    push_cast
    rw [sum_mul, ← sum_sub_distrib]
    refine sum_congr rfl fun k hk => ?_
    rw [llSingle_units hc P D k fun t ht hs => by rw [← rateProc_form]; exact (h D hD t ht k (mem_range.1 hk)).2 hs]
    congr 2
    exact sum_congr rfl fun t ht => by rw [toU32_of_lt (h D hD t (mem_range.1 ht) k (mem_range.1 hk)).1]
  have key : ∀ (l : List (DParents ℝ)), (∀ D ∈ l, llData (rescaleParams c P) (rescaleData c D) = llData P D - (observedEvents P.K D : ℝ) * Real.log c) → ∀ a b n : ℝ,
      a = b - n * Real.log c → (l.map (rescaleData c)).foldl (fun ll D => ll + llData (rescaleParams c P) D) a
        = l.foldl (fun ll D => ll + llData P D) b - (n + ((l.map (observedEvents P.K)).sum : ℕ)) * Real.log c := by
    intro l
    induction l with
    | nil => intro _ a b n e; simpa using e
    | cons D l ih =>
      intro hl a b n e
      have := ih (fun D' h' => hl D' (List.mem_cons_of_mem _ h')) (a + llData (rescaleParams c P) (rescaleData c D)) (b + llData P D) (n + observedEvents P.K D)
        (by rw [e, hl D List.mem_cons_self]; ring)
      simp only [List.map_cons, List.foldl_cons, List.sum_cons]
      rw [this]
      push_cast
      ring
  have := key dl hd 0 0 0 (by simp)
  rw [zero_add] at this
  exact this

/-- C108: `heldout_log_likelihood(S)` changes by the same constant, or raises the same error -/
theorem C108_heldout {c : ℝ} (hc : 0 < c) (P : NetParams ℝ) (T : ℕ) (S : Mat ℕ)
    (h : ∀ r, computeRate P T P.K (fun t k => (S t k : ℝ)) = .ok r → ∀ t < T, ∀ k < P.K, S t k ≠ 0 → r t k ≠ 0) :
    heldoutLL (rescaleParams c P) T S = (heldoutLL P T S).map fun x => x - ((∑ t ∈ range T, ∑ k ∈ range P.K, S t k : ℕ) : ℝ) * Real.log c := by
  unfold heldoutLL
  show (match computeRate (rescaleParams c P) T P.K (fun t k => (S t k : ℝ)) with | .error e => _ | .ok r => _) = _
  rw [(C108_compute_rate hc P T P.K fun t k => (S t k : ℝ)).1]
  cases e : computeRate P T P.K (fun t k => (S t k : ℝ)) with
  | error e => rfl
  | ok r =>
    refine congrArg Except.ok ?_
    show poissonLL (c * P.dt) T P.K S (fun t k => r t k / c) = poissonLL P.dt T P.K S r - _
    unfold poissonLL
    push_cast
    rw [sum_mul, ← sum_sub_distrib]
    refine sum_congr rfl fun t ht => ?_
    rw [sum_mul, ← sum_sub_distrib]
    refine sum_congr rfl fun k hk => ?_
    have hm : r t k / c * (c * P.dt) = r t k * P.dt := by field_simp
    rw [hm]
    by_cases hs : S t k = 0
    · rw [hs]; simp
    · rw [Real.log_div (h r e t (mem_range.1 ht) k (mem_range.1 hk) hs) hc.ne']; ring

end PyHawkes
