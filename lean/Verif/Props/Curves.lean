import Verif.Model.Curves
import Verif.Props.Rate
import Verif.Props.CTImpulse

/-!
# C87: impulse response curves; C89: the two implementations of the weighted impulses
-/

set_option linter.unusedSectionVars false
set_option linter.unusedVariables false

namespace PyHawkes
open Finset Spec

section
variable {R : Type*} [Field R] [LinearOrder R] [IsStrictOrderedRing R] [FloorSemiring R]

/-- **C87 (discrete time: the curves are what drives the rate).** The rate of process `k2` is its background rate plus, for every process `k1` and every lag `l` within the recording, effective weight times the
reported curve at lag `l` times the count `l` bins ago. -/
theorem C87_curves_give_rate (P : NetParams R) (T KS : ℕ) (S r : Mat R) (h : computeRate P T KS S = .ok r) :
    ∀ t < T, ∀ k2 < P.K, r t k2 = P.lam0 k2 + ∑ k1 ∈ range P.K, P.Weff k1 k2 * ∑ l ∈ range P.L, if l ≤ t then impulsesDT P l k1 k2 * S (t - l) k1 else 0 := by
  intro t ht k2 hk2
  rw [(C05_compute_rate_eq P T KS S r h).2 t ht k2 hk2]
  congr 1
  apply sum_congr rfl
  intro k1 _
  simp only [filtered, impulsesDT, mul_sum]
  rw [sum_comm]
  apply sum_congr rfl
  intro l _
  by_cases hl : l ≤ t
  · simp only [if_pos hl]
    rw [sum_mul, mul_sum]
    exact sum_congr rfl fun b _ => by ring
  · simp only [if_neg hl, mul_zero, sum_const_zero]

/-- **C87 (discrete time: area).** If every basis function has unit area and the impulse weights of each pair sum to one (as `C03` and `C24` guarantee for normalised bases and every sampler state), every reported
curve has unit area; with nonnegative basis and weights it is nonnegative, and it vanishes at lag 0 when the basis does. -/
theorem C87_unit_area (P : NetParams R) (harea : ∀ b < P.B, P.dt * ∑ l ∈ range P.L, P.basis l b = 1) {k1 k2 : ℕ} (hg : ∑ b ∈ range P.B, P.g k1 k2 b = 1) :
    P.dt * ∑ l ∈ range P.L, impulsesDT P l k1 k2 = 1 ∧
    ((∀ l < P.L, ∀ b < P.B, 0 ≤ P.basis l b) → (∀ b < P.B, 0 ≤ P.g k1 k2 b) → ∀ l < P.L, 0 ≤ impulsesDT P l k1 k2) ∧
    ((∀ b < P.B, P.basis 0 b = 0) → impulsesDT P 0 k1 k2 = 0) := by
  refine ⟨?_, fun h1 h2 l hl => sum_nonneg fun b hb => mul_nonneg (h1 l hl b (mem_range.1 hb)) (h2 b (mem_range.1 hb)), fun h => sum_eq_zero fun b hb => by rw [h b (mem_range.1 hb), zero_mul]⟩
  unfold impulsesDT
  rw [sum_comm, mul_sum, ← hg]
  apply sum_congr rfl
  intro b hb
  rw [← sum_mul, ← mul_assoc, harea b (mem_range.1 hb), one_mul]

end

theorem impulseFX_inside {mu tau d s : ℝ} (ht : 0 < tau) (h0 : 0 < s) (h1 : s < d) : impulseFX mu tau d s = FX.fin (pyImpulse mu tau d s) ∧ 0 < pyImpulse mu tau d s := by
  have hd : 0 < d := by linarith
  have hp : 0 < s / d / 1 := by rw [div_one]; exact div_pos h0 hd
  have hq : 0 < 1 - s / d / 1 := by rw [div_one, sub_pos, div_lt_one hd]; exact h1
  have hZ : 0 < s * (d - s) / d * Real.sqrt (2 * Real.pi / tau) :=
    mul_pos (div_pos (mul_pos h0 (by linarith)) hd) (Real.sqrt_pos.2 (div_pos (by positivity) ht))
  constructor
  · unfold impulseFX logitFX pyImpulse pyLogit
    dsimp only
    rw [FX.log_pos hp, FX.log_pos hq, FX.div, if_neg hZ.ne']
    simp only [FX.fin_sub, FX.fin_mul, FX.exp]
    congr 2
    rw [pow_two]
  · unfold pyImpulse
    dsimp only
    positivity

theorem impulseFX_zero {mu tau d : ℝ} (ht : 0 < tau) (hd : 0 < d) : impulseFX mu tau d 0 = FX.nan := by
  unfold impulseFX logitFX
  dsimp only
  rw [zero_div, zero_div, FX.log_zero, sub_zero (1:ℝ), FX.log_pos one_pos, zero_mul, zero_div, zero_mul, FX.div, if_pos rfl, if_neg one_ne_zero, if_pos one_pos]
  have h1 : (FX.ninf - FX.fin (Real.log 1) - FX.fin mu : FX) = FX.ninf := rfl
  rw [h1]
  have h2 : (FX.ninf * FX.ninf : FX) = FX.pinf := rfl
  rw [h2]
  have h3 : (FX.fin (-tau / 2) * FX.pinf : FX) = FX.ninf := by
    show FX.infMul _ _ _ = _
    unfold FX.infMul
    rw [if_neg (by linarith), if_neg (by linarith)]
  rw [h3]
  show FX.infMul 0 _ _ = _
  unfold FX.infMul
  rw [if_pos rfl]

theorem impulseFX_end {mu tau d : ℝ} (ht : 0 < tau) (hd : 0 < d) : impulseFX mu tau d d = FX.nan := by
  unfold impulseFX logitFX
  dsimp only
  rw [div_self hd.ne', div_one, FX.log_pos one_pos, sub_self (1:ℝ), sub_self d, FX.log_zero, mul_zero, zero_div, zero_mul, FX.div, if_pos rfl, if_neg one_ne_zero, if_pos one_pos]
  have h1 : (FX.fin (Real.log 1) - FX.ninf - FX.fin mu : FX) = FX.pinf := rfl
  rw [h1]
  have h2 : (FX.pinf * FX.pinf : FX) = FX.pinf := rfl
  rw [h2]
  have h3 : (FX.fin (-tau / 2) * FX.pinf : FX) = FX.ninf := by
    show FX.infMul _ _ _ = _
    unfold FX.infMul
    rw [if_neg (by linarith), if_neg (by linarith)]
  rw [h3]
  show FX.infMul 0 _ _ = _
  unfold FX.infMul
  rw [if_pos rfl]

/-- **C87 (continuous time, inside).** All but the first and last of the 50 values of `impulses` are the (positive, finite) impulse response at the lag reported with them, and these lags are evenly spaced. -/
theorem C87_continuous_partial (P : CTParams) (hd : 0 < P.dtMax) {k1 k2 : ℕ} (ht : 0 < P.tau k1 k2) {i : ℕ} (h1 : 1 ≤ i) (h2 : i ≤ 48) :
    (impulsesCT P).1 i = P.dtMax * i / 49 ∧
    (impulsesCT P).2 i k1 k2 = FX.fin (pyImpulse (P.mu k1 k2) (P.tau k1 k2) P.dtMax (P.dtMax * i / 49)) ∧ 0 < pyImpulse (P.mu k1 k2) (P.tau k1 k2) P.dtMax (P.dtMax * i / 49) := by
  have e : linspace 0 P.dtMax 50 i = P.dtMax * i / 49 := by
    unfold linspace
    rw [if_neg (by norm_num)]
    norm_num
  have hi1 : (1 : ℝ) ≤ i := by exact_mod_cast h1
  have hi2 : (i : ℝ) ≤ 48 := by exact_mod_cast h2
  have hs : 0 < P.dtMax * i / 49 := by positivity
  have hs' : P.dtMax * i / 49 < P.dtMax := by rw [div_lt_iff₀ (by norm_num)]; nlinarith
  refine ⟨e, ?_, (impulseFX_inside ht hs hs').2⟩
  unfold impulsesCT
  dsimp only
  rw [e]
  exact (impulseFX_inside ht hs hs').1

/-- **C87 (continuous time, ends).** The first and the last value of every curve are `nan`, in `impulses` (hence in `get_parameters`) and in `compute_impulses` for every positive step. -/
theorem C87_continuous_ends_violated (P : CTParams) (hd : 0 < P.dtMax) {k1 k2 : ℕ} (ht : 0 < P.tau k1 k2) :
    (impulsesCT P).2 0 k1 k2 = FX.nan ∧ (impulsesCT P).2 49 k1 k2 = FX.nan ∧
    ∀ dt : ℝ, 0 < dt → ∃ r, computeImpulses P dt = .ok r ∧ (r.1 k1 k2).head? = some FX.nan ∧ (r.1 k1 k2).getLast? = some FX.nan := by
  refine ⟨?_, ?_, fun dt hdt => ?_⟩
  · unfold impulsesCT
    dsimp only
    rw [show linspace 0 P.dtMax 50 0 = 0 by unfold linspace; rw [if_neg (by norm_num)]; norm_num]
    exact impulseFX_zero ht hd
  · unfold impulsesCT
    dsimp only
    rw [show linspace 0 P.dtMax 50 49 = P.dtMax by unfold linspace; rw [if_neg (by norm_num)]; norm_num]
    exact impulseFX_end ht hd
  · have hc : 0 < ⌈(P.dtMax - 0) / dt⌉ := Int.ceil_pos.2 (div_pos (by linarith) hdt)
    obtain ⟨n, hn⟩ : ∃ n, (⌈(P.dtMax - 0) / dt⌉).toNat = n + 1 := ⟨(⌈(P.dtMax - 0) / dt⌉).toNat - 1, by omega⟩
    refine ⟨_, by unfold computeImpulses npArange; rw [if_neg hdt.ne'], ?_, ?_⟩
    · dsimp only
      rw [hn, List.range_succ_eq_map]
      simp only [List.map_cons, List.cons_append, List.head?_cons]
      rw [show (0 : ℝ) + ((0 : ℕ) : ℝ) * dt = 0 by simp, impulseFX_zero ht hd]
    · dsimp only
      rw [List.map_append, List.getLast?_append]
      simp [impulseFX_end ht hd]

/-! ### The reference implementation -/

/-- no two events are closer than `1e-8` without being simultaneous, and no lag falls within `1e-8` below the window -/
def Spec.ClearGaps (P : CTParams) (D : CTData) : Prop :=
  ∀ n < D.N, ∀ m < n, (D.S n - D.S m = 0 ∨ 1e-8 ≤ D.S n - D.S m) ∧ (D.S n - D.S m < P.dtMax - 1e-8 ∨ P.dtMax ≤ D.S n - D.S m)

/-- **C89.** On data whose lags stay clear of the kernels' tolerance, the compiled and the reference implementation agree up to the rounded constant used for the square root of `2π` (within a factor `1 ± 1e-15`); one is
stored as `N × K`, the other as `K × N`. -/
theorem C89_agree_partial (P : CTParams) (D : CTData) (hC : ∀ n < D.N, D.C n < P.K) (ht : ∀ i < P.K, ∀ j < P.K, 0 < P.tau i j) (hgap : ClearGaps P D) :
    ∃ c : ℝ, |c - 1| < 1e-15 ∧ ∀ n < D.N, ∀ k, weightedImpulses P D n k = c * weightedImpulsesManual P D k n := by
  refine ⟨Real.sqrt (2 * Real.pi) / 2.5066282746310002, (C31_kernel_constant 0 1 1 (1 / 2) one_pos (by norm_num) (by norm_num)).2, fun n hn k => ?_⟩
  set c := Real.sqrt (2 * Real.pi) / 2.5066282746310002 with hc
  have key : ∀ m ≤ n, ∀ v v' : Vec ℝ, (∀ k, v k = c * v' k) → ∀ k, irScan P D n m v k = c * manualScan P D n m v' k := by
    intro m
    induction m with
    | zero => intro _ v v' h k; exact h k
    | succ m ih =>
      intro hm v v' h k
      obtain ⟨g1, g2⟩ := hgap n hn m (by omega)
      unfold irScan manualScan
      dsimp only
      by_cases e0 : D.S n - D.S m = 0
      · rw [if_pos (by rw [e0]; norm_num), if_pos e0]
        exact ih (by omega) v v' h k
      · have e1 : 1e-8 ≤ D.S n - D.S m := by tauto
        rw [if_neg (by linarith), if_neg e0]
        by_cases e2 : P.dtMax ≤ D.S n - D.S m
        · rw [if_pos (by norm_num at *; linarith), if_pos e2]
          exact h k
        · have e3 : D.S n - D.S m < P.dtMax - 1e-8 := by tauto
          rw [if_neg (by linarith), if_neg e2]
          refine ih (by omega) _ _ (fun k => ?_) k
          unfold Vec.set
          split
          · rw [h, (C31_kernel_constant _ _ _ _ (ht _ (hC m (by omega)) _ (hC n hn)) e1 e3.le).1]
            ring
          · exact h k
  exact key n le_rfl _ _ (fun k => by simp) k

/-- two events `5e-9` apart -/
noncomputable def closeEvents : CTData :=
  { N := 2, S := fun n => if n = 0 then 0 else 5e-9, C := fun _ => 0, T := 1, bkgd := fun _ => 2 }

/-- **C89 (close events).** For two events closer than `1e-8` the implementations disagree: the reference counts the earlier event, the compiled code ignores it. -/
theorem C89_close_events_violated (P : CTParams) (hd : P.dtMax = 1) (hW : 0 < P.W 0 0) (ht : 0 < P.tau 0 0) :
    weightedImpulses P closeEvents 1 0 = 0 ∧ 0 < weightedImpulsesManual P closeEvents 0 1 := by
  constructor
  · unfold weightedImpulses
    simp only [irScan, closeEvents]
    norm_num
  · unfold weightedImpulsesManual
    simp only [manualScan, closeEvents, hd]
    norm_num [Vec.set]
    exact mul_pos hW (impulseFX_inside ht (by norm_num) (by norm_num)).2

end PyHawkes
