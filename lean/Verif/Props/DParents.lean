import Verif.Props.LogLik
import Verif.Spec.Random

/-!
# C11–C15: discrete-time parents
-/
set_option linter.unusedSectionVars false

namespace PyHawkes
open Finset

section
variable {R : Type*} [Field R] [LinearOrder R] [IsStrictOrderedRing R]

/-- summing over the `K*B` flattened columns is summing over sources and basis functions -/
theorem sum_flat {M : Type*} [AddCommMonoid M] (K B : ℕ) (f : ℕ → M) :
    ∑ j ∈ range (K * B), f j = ∑ k1 ∈ range K, ∑ b ∈ range B, f (k1 * B + b) := by
  induction K with
  | zero => simp
  | succ K ih => rw [Nat.add_mul, one_mul, sum_range_add, ih, sum_range_succ]

theorem sum_one_add {M : Type*} [AddCommMonoid M] (n : ℕ) (f : ℕ → M) :
    ∑ c ∈ range (1 + n), f c = f 0 + ∑ j ∈ range n, f (1 + j) := by
  rw [sum_range_add]; simp

theorem flat_div {B b : ℕ} (k1 : ℕ) (hb : b < B) : (k1 * B + b) / B = k1 := by
  rw [Nat.add_div_of_dvd_right (Dvd.intro_left k1 rfl), Nat.mul_div_cancel _ (by omega), Nat.div_eq_of_lt hb, add_zero]

theorem flat_mod {B b : ℕ} (k1 : ℕ) (hb : b < B) : (k1 * B + b) % B = b := by
  rw [Nat.add_mod, Nat.mul_mod_left, zero_add, Nat.mod_mod, Nat.mod_eq_of_lt hb]

/-- the rate that the parent weights of an event bin add up to -/
theorem sum_parentWeights (P : NetParams R) (k2 : ℕ) (ft : Mat R) :
    ∑ c ∈ range (1 + P.K * P.B), parentWeightsPy P k2 ft c
      = P.lam0 k2 + ∑ k1 ∈ range P.K, ∑ b ∈ range P.B, P.Weff k1 k2 * P.g k1 k2 b * ft k1 b := by
  rw [sum_one_add]
  congr 1
  rw [sum_flat]
  refine sum_congr rfl fun k1 _ => sum_congr rfl fun b hb => ?_
  have hb := mem_range.1 hb
  rw [show 1 + (k1 * P.B + b) = (k1 * P.B + b) + 1 by ring]
  simp only [parentWeightsPy, consVec, ravel, flat_div k1 hb, flat_mod k1 hb]
  ring

/-- **C12 (same vector).** The python and GSL code paths compute the same unnormalised and hence the same normalised vector. -/
theorem C12_python_eq_gsl (P : NetParams R) (k2 : ℕ) (ft : Mat R) :
    normalise (1 + P.K * P.B) (parentWeightsGsl P k2 ft) = normalise (1 + P.K * P.B) (parentWeightsPy P k2 ft) := by
  have : parentWeightsGsl P k2 ft = parentWeightsPy P k2 ft := by
    funext c
    unfold parentWeightsGsl parentWeightsPy
    cases c with
    | zero => rfl
    | succ j => simp only [consVec, ravel]; ring
  rw [this]

/-- **C12 (valid probabilities).** For positive background and nonnegative weights, impulse weights and filtered counts, the normalised
vector exists, is a probability vector, has background mass `lambda0/rate` and its entry for source `k1` and basis function `b` is
weight times impulse weight times filtered count over the total rate. -/
theorem C12_probability_vector (P : NetParams R) (k2 : ℕ) (ft : Mat R) (hlam : 0 < P.lam0 k2)
    (hW : ∀ k1 < P.K, 0 ≤ P.Weff k1 k2) (hg : ∀ k1 < P.K, ∀ b < P.B, 0 ≤ P.g k1 k2 b)
    (hf : ∀ k1 < P.K, ∀ b < P.B, 0 ≤ ft k1 b) :
    ∃ p, normalise (1 + P.K * P.B) (parentWeightsPy P k2 ft) = .ok p ∧ Spec.IsProb (1 + P.K * P.B) p ∧
      let rate := P.lam0 k2 + ∑ k1 ∈ range P.K, ∑ b ∈ range P.B, P.Weff k1 k2 * P.g k1 k2 b * ft k1 b
      0 < rate ∧ p 0 = P.lam0 k2 / rate ∧
      ∀ k1 < P.K, ∀ b < P.B, p (1 + k1 * P.B + b) = P.Weff k1 k2 * P.g k1 k2 b * ft k1 b / rate := by
  have hrate : 0 < P.lam0 k2 + ∑ k1 ∈ range P.K, ∑ b ∈ range P.B, P.Weff k1 k2 * P.g k1 k2 b * ft k1 b :=
    add_pos_of_pos_of_nonneg hlam (sum_nonneg fun k1 h1 => sum_nonneg fun b hb =>
      mul_nonneg (mul_nonneg (hW k1 (mem_range.1 h1)) (hg k1 (mem_range.1 h1) b (mem_range.1 hb)))
        (hf k1 (mem_range.1 h1) b (mem_range.1 hb)))
  have hne := hrate.ne'
  unfold normalise
  rw [sum_parentWeights, if_neg hne]
  refine ⟨_, rfl, ⟨?_, ?_⟩, hrate, rfl, ?_⟩
  · intro c hc
    refine div_nonneg ?_ hrate.le
    cases c with
    | zero => exact hlam.le
    | succ j =>
      have hB : 0 < P.B := by
        rcases Nat.eq_zero_or_pos P.B with h | h
        · rw [h] at hc; omega
        · exact h
      have h1 : j / P.B < P.K := by
        rw [Nat.div_lt_iff_lt_mul hB]; omega
      have h2 : j % P.B < P.B := Nat.mod_lt _ hB
      simp only [parentWeightsPy, consVec, ravel]
      exact mul_nonneg (mul_nonneg (hf _ h1 _ h2) (hW _ h1)) (hg _ h1 _ h2)
  · rw [← sum_div, sum_parentWeights, div_self hne]
  · intro k1 _ b hb
    rw [show 1 + k1 * P.B + b = (k1 * P.B + b) + 1 by ring]
    simp only [parentWeightsPy, consVec, ravel, flat_div k1 hb, flat_mod k1 hb]
    congr 1; ring

theorem parentWeightsPy_col (P : NetParams R) (k2 k1 b : ℕ) (ft : Mat R) (hb : b < P.B) :
    parentWeightsPy P k2 ft (1 + k1 * P.B + b) = ft k1 b * P.Weff k1 k2 * P.g k1 k2 b := by
  rw [show 1 + k1 * P.B + b = (k1 * P.B + b) + 1 by ring]
  simp only [parentWeightsPy, consVec, ravel, flat_div k1 hb, flat_mod k1 hb]

theorem collectE_ok {α : Type*} {d : α} {f : ℕ → Except PyErr α} {n : ℕ} {g : ℕ → α}
    (h : collectE d f n = .ok g) : ∀ k < n, f k = .ok (g k) := by
  induction n generalizing g with
  | zero => intro k hk; omega
  | succ n ih =>
    unfold collectE at h
    split at h
    · cases h
    · rename_i g' hg'
      split at h
      · cases h
      · rename_i x hx
        cases h
        intro k hk
        by_cases hkn : k = n
        · subst hkn; simpa using hx
        · simpa [hkn] using ih hg' k (by omega)

theorem collectE_total {α : Type*} {d : α} {f : ℕ → Except PyErr α} {n : ℕ}
    (h : ∀ k < n, ∃ x, f k = .ok x) : ∃ g, collectE d f n = .ok g := by
  induction n with
  | zero => exact ⟨_, rfl⟩
  | succ n ih =>
    obtain ⟨g, hg⟩ := ih fun k hk => h k (by omega)
    obtain ⟨x, hx⟩ := h n (by omega)
    unfold collectE
    rw [hg, hx]
    exact ⟨_, rfl⟩

/-- what it means for one event bin's parent row to be right -/
def RowOk (P : NetParams R) (k2 : ℕ) (D : DParents R) (t : ℕ) (z : Vec ℕ) : Prop :=
  z 0 + ∑ k1 ∈ range P.K, ∑ b ∈ range P.B, z (1 + k1 * P.B + b) = D.S t k2 ∧
  (P.lam0 k2 = 0 → z 0 = 0) ∧
  ∀ k1 < P.K, ∀ b < P.B, P.Weff k1 k2 * P.g k1 k2 b * D.F t k1 b = 0 → z (1 + k1 * P.B + b) = 0

theorem rows_ok_aux (P : NetParams R) (useGsl : Bool) (k2 : ℕ) (D : DParents R)
    (hlam : 0 < P.lam0 k2) (hW : ∀ k1 < P.K, 0 ≤ P.Weff k1 k2) (hg : ∀ k1 < P.K, ∀ b < P.B, 0 ≤ P.g k1 k2 b)
    (l : List ℕ) (hl : ∀ t ∈ l, D.S t k2 ≠ 0 ∧ D.S t k2 < 2 ^ 32 ∧ ∀ k1 < P.K, ∀ b < P.B, 0 ≤ D.F t k1 b)
    (mult : ℕ → ℕ → Vec R → Vec ℕ) (hm : ∀ i, Spec.MultinomialSampler (1 + P.K * P.B) (mult i)) :
    ∃ zs, rowsE (if useGsl then resampleRowGsl P k2 else resampleRowPy P k2) mult
        (l.map fun t => (toU32 (D.S t k2), D.F t)) = .ok zs ∧ List.Forall₂ (RowOk P k2 D) l zs := by
  induction l generalizing mult with
  | nil => exact ⟨[], rfl, List.Forall₂.nil⟩
  | cons t l ih =>
    obtain ⟨hne, h32, hf⟩ := hl t (List.mem_cons_self ..)
    obtain ⟨zs, hzs, hfa⟩ := ih (fun t' ht' => hl t' (List.mem_cons_of_mem _ ht')) (fun i => mult (i + 1)) (fun i => hm (i + 1))
    obtain ⟨p, hp, hprob, hrate, hp0, hpc⟩ := C12_probability_vector P k2 (D.F t) hlam hW hg hf
    have hrow : (if useGsl then resampleRowGsl P k2 else resampleRowPy P k2) (mult 0) (toU32 (D.S t k2)) (D.F t)
        = .ok (mult 0 (D.S t k2) p) := by
      rw [toU32_of_lt h32]
      cases useGsl with
      | true =>
        simp only [if_true]
        unfold resampleRowGsl
        rw [C12_python_eq_gsl, hp]
      | false =>
        simp only [Bool.false_eq_true, if_false]
        unfold resampleRowPy
        rw [if_neg hne, hp]
    refine ⟨mult 0 (D.S t k2) p :: zs, ?_, List.Forall₂.cons ?_ hfa⟩
    · simp only [List.map_cons, rowsE, hrow, hzs]
    · obtain ⟨ms, mz⟩ := hm 0 (D.S t k2) p hprob
      refine ⟨?_, fun h => absurd h hlam.ne', ?_⟩
      · rw [sum_one_add, sum_flat] at ms
        simp only [add_assoc]
        exact ms
      · intro k1 hk1 b hb h0
        refine mz _ ?_ ?_
        · have : k1 * P.B + b < P.K * P.B := by
            calc k1 * P.B + b < k1 * P.B + P.B := by omega
              _ = (k1 + 1) * P.B := by ring
              _ ≤ P.K * P.B := Nat.mul_le_mul_right _ hk1
          omega
        · rw [hpc k1 hk1 b hb, h0, zero_div]

/-- **C11.** Resampling the parents of a data set (either implementation, every outcome of the multinomial draws) succeeds and
produces one row per event bin such that the background count plus the counts over all (source, basis) parents equals the observed count,
and parents with zero rate receive no events. Hypotheses: positive background rates, nonnegative weights and data, counts below 2^32. -/
theorem C11_parents_partition_events (P : NetParams R) (useGsl : Bool) (mult : ℕ → ℕ → ℕ → Vec R → Vec ℕ) (D : DParents R)
    (hlam : ∀ k < P.K, 0 < P.lam0 k) (hW : ∀ k1 < P.K, ∀ k2 < P.K, 0 ≤ P.Weff k1 k2)
    (hg : ∀ k1 < P.K, ∀ k2 < P.K, ∀ b < P.B, 0 ≤ P.g k1 k2 b)
    (hF : ∀ t < D.T, ∀ k1 < P.K, ∀ b < P.B, 0 ≤ D.F t k1 b) (h32 : ∀ t < D.T, ∀ k < P.K, D.S t k < 2 ^ 32)
    (hm : ∀ k i, Spec.MultinomialSampler (1 + P.K * P.B) (mult k i)) :
    ∃ D', resampleParents P useGsl mult D = .ok D' ∧ D'.T = D.T ∧ D'.S = D.S ∧ D'.F = D.F ∧ D'.EZ = D.EZ ∧
      ∀ k2 < P.K, List.Forall₂ (RowOk P k2 D) (D.ts k2) (D'.getZ k2) := by
  have hmem : ∀ k2 < P.K, ∀ t ∈ D.ts k2, D.S t k2 ≠ 0 ∧ D.S t k2 < 2 ^ 32 ∧ ∀ k1 < P.K, ∀ b < P.B, 0 ≤ D.F t k1 b := by
    intro k2 hk2 t ht
    unfold DParents.ts at ht
    rw [List.mem_filter] at ht
    have h1 := List.mem_range.1 ht.1
    exact ⟨by simpa using ht.2, h32 t h1 k2 hk2, hF t h1⟩
  have hrows := fun k2 (hk2 : k2 < P.K) => rows_ok_aux P useGsl k2 D (hlam k2 hk2) (fun k1 h1 => hW k1 h1 k2 hk2)
    (fun k1 h1 => hg k1 h1 k2 hk2) (D.ts k2) (hmem k2 hk2) (mult k2) (hm k2)
  obtain ⟨Z, hZ⟩ := collectE_total (d := ([] : List (Vec ℕ))) (n := P.K)
    (f := fun k2 => rowsE (if useGsl then resampleRowGsl P k2 else resampleRowPy P k2) (mult k2) ((D.Ss k2).zip (D.Fs k2)))
    (fun k2 hk2 => by obtain ⟨zs, h, -⟩ := hrows k2 hk2; exact ⟨zs, by rw [zip_Ss_Fs]; exact h⟩)
  refine ⟨{ D with Z := some Z }, by unfold resampleParents; rw [hZ], rfl, rfl, rfl, rfl, fun k2 hk2 => ?_⟩
  obtain ⟨zs, h, hfa⟩ := hrows k2 hk2
  have := collectE_ok hZ k2 hk2
  rw [zip_Ss_Fs, h] at this
  simp only [Except.ok.injEq] at this
  unfold DParents.getZ
  dsimp only
  rw [← this]; exact hfa

/-- **C11 (finding).** With a bin of `2^32` events the python implementation stops with an `AssertionError` (the count wraps to 0). -/
theorem C11_u32_wrap_violated (P : NetParams R) (hK : 0 < P.K) (mult : ℕ → ℕ → ℕ → Vec R → Vec ℕ) (F : Ten R) :
    ∃ e, resampleParents P false mult { T := 1, S := fun _ _ => 2 ^ 32, F := F } = .error e := by
  by_contra hne
  push Not at hne
  cases h : resampleParents P false mult { T := 1, S := fun _ _ => 2 ^ 32, F := F } with
  | error e => exact hne e h
  | ok D' =>
    unfold resampleParents at h
    split at h
    · cases h
    · rename_i Z hZ
      have := collectE_ok hZ 0 hK
      simp [zip_Ss_Fs, DParents.ts, rowsE, resampleRowPy, toU32] at this

/-! ### C13: conservation in the sufficient statistics -/

theorem forall2_sum {α β M : Type*} [AddCommMonoid M] (l : List α) (zs : List β) (f : α → M) (g : β → M)
    (h : List.Forall₂ (fun a z => g z = f a) l zs) : (zs.map g).sum = (l.map f).sum := by
  induction h with
  | nil => rfl
  | cons hd _ ih => simp [hd, ih]

theorem list_sum_finset_sum {β M : Type*} [AddCommMonoid M] (zs : List β) (n : ℕ) (g : ℕ → β → M) :
    (zs.map fun z => ∑ i ∈ range n, g i z).sum = ∑ i ∈ range n, (zs.map fun z => g i z).sum := by
  induction zs with
  | nil => simp
  | cons z l ih => simp [ih, sum_add_distrib]

/-- **C13 (events are conserved).** For parents that add up to the data (as C11 guarantees), background events plus children of all
sources are the events of each process; impulse statistics summed over basis functions are the weight statistics. -/
theorem C13_conservation (D : DParents R) (K B k2 : ℕ)
    (hZ : List.Forall₂ (fun t z => z 0 + ∑ k1 ∈ range K, ∑ b ∈ range B, z (1 + k1 * B + b) = D.S t k2) (D.ts k2) (D.getZ k2)) :
    bkgdSS0 D k2 + ∑ k1 ∈ range K, weightSS0 D B k1 k2 = ∑ t ∈ range D.T, D.S t k2 ∧
    ∀ k1, ∑ b ∈ range B, irSS D B k1 k2 b = weightSS0 D B k1 k2 := by
  refine ⟨?_, fun k1 => rfl⟩
  rw [← Ns_eq]
  unfold DParents.Ns
  rw [← forall2_sum _ _ (fun t => D.S t k2) _ hZ, List.sum_map_add]
  unfold bkgdSS0 weightSS0
  congr 1
  rw [list_sum_finset_sum]
  exact sum_congr rfl fun k1 _ => (list_sum_finset_sum _ _ _).symm

/-- **C13 (exposure).** Exposure entries are the observed time and the per-process event counts. -/
theorem C13_exposure (D : DParents R) (dt : R) (k1 k2 : ℕ) :
    bkgdSS1 D dt k1 = D.T * dt ∧ weightSS1 D k1 k2 = ∑ t ∈ range D.T, D.S t k1 := ⟨rfl, Ns_eq D k1⟩

/-- **C13 (expected statistics).** The same laws for expected parents (rows summing to the counts). -/
theorem C13_expected_conservation (D : DParents R) (K B k2 : ℕ)
    (hZ : List.Forall₂ (fun t (z : Vec R) => z 0 + ∑ k1 ∈ range K, ∑ b ∈ range B, z (1 + k1 * B + b) = (D.S t k2 : R))
      (D.ts k2) (D.getEZ k2)) :
    expBkgdSS0 D k2 + ∑ k1 ∈ range K, expWeightSS0 D B k1 k2 = ∑ t ∈ range D.T, (D.S t k2 : R) ∧
    ∀ k1, ∑ b ∈ range B, expIrSS D B k1 k2 b = expWeightSS0 D B k1 k2 := by
  refine ⟨?_, fun k1 => rfl⟩
  have : (∑ t ∈ range D.T, (D.S t k2 : R)) = ((D.ts k2).map fun t => (D.S t k2 : R)).sum := by
    rw [sum_ts]
    exact sum_congr rfl fun t _ => by by_cases h : D.S t k2 = 0 <;> simp [h]
  rw [this, ← forall2_sum _ _ (fun t => (D.S t k2 : R)) _ hZ, List.sum_map_add]
  unfold expBkgdSS0 expWeightSS0
  congr 1
  rw [list_sum_finset_sum]
  exact sum_congr rfl fun k1 _ => (list_sum_finset_sum _ _ _).symm

/-- **C13 (after a sampler step).** Directly after `resample` the statistics conserve events. -/
theorem C13_after_resample (P : NetParams R) (useGsl : Bool) (mult : ℕ → ℕ → ℕ → Vec R → Vec ℕ) (D D' : DParents R)
    (hlam : ∀ k < P.K, 0 < P.lam0 k) (hW : ∀ k1 < P.K, ∀ k2 < P.K, 0 ≤ P.Weff k1 k2)
    (hg : ∀ k1 < P.K, ∀ k2 < P.K, ∀ b < P.B, 0 ≤ P.g k1 k2 b)
    (hF : ∀ t < D.T, ∀ k1 < P.K, ∀ b < P.B, 0 ≤ D.F t k1 b) (h32 : ∀ t < D.T, ∀ k < P.K, D.S t k < 2 ^ 32)
    (hm : ∀ k i, Spec.MultinomialSampler (1 + P.K * P.B) (mult k i))
    (h : resampleParents P useGsl mult D = .ok D') (k2 : ℕ) (hk2 : k2 < P.K) :
    bkgdSS0 D' k2 + ∑ k1 ∈ range P.K, weightSS0 D' P.B k1 k2 = ∑ t ∈ range D.T, D.S t k2 := by
  obtain ⟨D'', h', hT, hS, -, -, hrow⟩ := C11_parents_partition_events P useGsl mult D hlam hW hg hF h32 hm
  rw [h] at h'
  cases h'
  have hts : D'.ts k2 = D.ts k2 := by unfold DParents.ts; rw [hT, hS]
  have := (C13_conservation D' P.K P.B k2 (by
    rw [hts]
    exact (hrow k2 hk2).imp fun t z hz => by rw [hS]; exact hz.1)).1
  rw [this, hT, hS]

/-! ### C14: mean-field rows -/

theorem mfRowPy_col (K B : ℕ) (p0 : R) (W : Vec R) (G : Mat R) (s : R) (ft : Mat R) (k1 b : ℕ) (hb : b < B) :
    mfRowPy K B p0 W G s ft (1 + k1 * B + b)
      = ft k1 b * W k1 * G k1 b / (p0 + ∑ j ∈ range K, ∑ c ∈ range B, ft j c * W j * G j c) * s := by
  rw [show 1 + k1 * B + b = (k1 * B + b) + 1 by ring]
  simp only [mfRowPy, consVec, ravel, flat_div k1 hb, flat_mod k1 hb]
  rw [sum_flat]
  have : ∑ j ∈ range K, ∑ c ∈ range B, ft ((j * B + c) / B) ((j * B + c) % B) * W ((j * B + c) / B) * G ((j * B + c) / B) ((j * B + c) % B)
      = ∑ j ∈ range K, ∑ c ∈ range B, ft j c * W j * G j c :=
    sum_congr rfl fun j _ => sum_congr rfl fun c hc => by rw [flat_div j (mem_range.1 hc), flat_mod j (mem_range.1 hc)]
  rw [this]

theorem mfRowPy_zero (K B : ℕ) (p0 : R) (W : Vec R) (G : Mat R) (s : R) (ft : Mat R) :
    mfRowPy K B p0 W G s ft 0 = p0 / (p0 + ∑ j ∈ range K, ∑ c ∈ range B, ft j c * W j * G j c) * s := by
  simp only [mfRowPy, consVec, ravel]
  rw [sum_flat]
  congr 3
  exact sum_congr rfl fun j _ => sum_congr rfl fun c hc => by rw [flat_div j (mem_range.1 hc), flat_mod j (mem_range.1 hc)]

/-- **C14 (conservation).** For a positive background term and nonnegative source terms, the mean-field update writes nonnegative expected
counts whose sum over background and all (source, basis) parents is the observed count. -/
theorem C14_rows_sum (K B : ℕ) (p0 : R) (W : Vec R) (G : Mat R) (s : R) (ft : Mat R) (hp : 0 < p0)
    (hW : ∀ k1 < K, 0 ≤ W k1) (hG : ∀ k1 < K, ∀ b < B, 0 ≤ G k1 b) (hf : ∀ k1 < K, ∀ b < B, 0 ≤ ft k1 b) (hs : 0 ≤ s) :
    mfRowPy K B p0 W G s ft 0 + ∑ k1 ∈ range K, ∑ b ∈ range B, mfRowPy K B p0 W G s ft (1 + k1 * B + b) = s ∧
    0 ≤ mfRowPy K B p0 W G s ft 0 ∧ ∀ k1 < K, ∀ b < B, 0 ≤ mfRowPy K B p0 W G s ft (1 + k1 * B + b) := by
  have hZ : 0 < p0 + ∑ j ∈ range K, ∑ c ∈ range B, ft j c * W j * G j c :=
    add_pos_of_pos_of_nonneg hp (sum_nonneg fun j hj => sum_nonneg fun c hc =>
      mul_nonneg (mul_nonneg (hf j (mem_range.1 hj) c (mem_range.1 hc)) (hW j (mem_range.1 hj))) (hG j (mem_range.1 hj) c (mem_range.1 hc)))
  refine ⟨?_, ?_, ?_⟩
  · have : ∑ k1 ∈ range K, ∑ b ∈ range B, mfRowPy K B p0 W G s ft (1 + k1 * B + b)
        = (∑ k1 ∈ range K, ∑ b ∈ range B, ft k1 b * W k1 * G k1 b) / (p0 + ∑ j ∈ range K, ∑ c ∈ range B, ft j c * W j * G j c) * s := by
      rw [sum_div, sum_mul]
      refine sum_congr rfl fun k1 _ => ?_
      rw [sum_div, sum_mul]
      exact sum_congr rfl fun b hb => mfRowPy_col K B p0 W G s ft k1 b (mem_range.1 hb)
    rw [this, mfRowPy_zero, ← add_mul, ← add_div, div_self hZ.ne', one_mul]
  · rw [mfRowPy_zero]; positivity
  · intro k1 h1 b hb
    rw [mfRowPy_col _ _ _ _ _ _ _ _ _ hb]
    exact mul_nonneg (div_nonneg (mul_nonneg (mul_nonneg (hf k1 h1 b hb) (hW k1 h1)) (hG k1 h1 b hb)) hZ.le) hs

/-- **C14 (data set).** After `meanfieldupdate` every data set's expected rows sum to its counts and are nonnegative. -/
theorem C14_update_data_set (K B : ℕ) (p0 : Vec R) (W : Mat R) (G : Ten R) (D : DParents R) (k2 : ℕ)
    (hp : 0 < p0 k2) (hW : ∀ k1 < K, 0 ≤ W k1 k2) (hG : ∀ k1 < K, ∀ b < B, 0 ≤ G k1 k2 b)
    (hF : ∀ t < D.T, ∀ k1 < K, ∀ b < B, 0 ≤ D.F t k1 b) (h32 : ∀ t < D.T, D.S t k2 < 2 ^ 32) :
    List.Forall₂ (fun t (z : Vec R) => z 0 + ∑ k1 ∈ range K, ∑ b ∈ range B, z (1 + k1 * B + b) = (D.S t k2 : R) ∧
        0 ≤ z 0 ∧ ∀ k1 < K, ∀ b < B, 0 ≤ z (1 + k1 * B + b))
      (D.ts k2) ((mfUpdateParents K B p0 W G D).getEZ k2) := by
  unfold mfUpdateParents DParents.getEZ
  dsimp only
  rw [zip_Ss_Fs, List.map_map, List.forall₂_map_right_iff]
  refine List.forall₂_same.2 fun t ht => ?_
  unfold DParents.ts at ht
  rw [List.mem_filter] at ht
  have h1 := List.mem_range.1 ht.1
  simp only [Function.comp_apply]
  rw [toU32_of_lt (h32 t h1)]
  exact C14_rows_sum K B (p0 k2) _ _ _ _ hp hW hG (hF t h1) (Nat.cast_nonneg _)

theorem mfZ_eq (K B : ℕ) (p0 : R) (W : Vec R) (G : Mat R) (ft : Mat R) :
    mfZ K B p0 W G ft = p0 + ∑ j ∈ range K, ∑ c ∈ range B, ft j c * W j * G j c := by
  unfold mfZ
  have : ∀ k1 (z : R), forRange B (fun b z => z + W k1 * G k1 b * ft k1 b) z = z + ∑ c ∈ range B, ft k1 c * W k1 * G k1 c := by
    intro k1 z
    rw [forRange_add]
    congr 1
    exact sum_congr rfl fun c _ => by ring
  simp only [this]
  rw [forRange_add, zero_add]

theorem set_get (m : Mat R) (i j a b : ℕ) (x : R) : Mat.set m i j x a b = if a = i ∧ b = j then x else m a b := rfl

/-- what the inner double loop of the kernel writes -/
theorem mfBody_write (K B t : ℕ) (c : ℕ → ℕ → R) (m : Mat R) :
    (∀ a col, a ≠ t → forRange K (fun k1 m => forRange B (fun b m => Mat.set m t (1 + k1 * B + b) (c k1 b)) m) m a col = m a col) ∧
    (forRange K (fun k1 m => forRange B (fun b m => Mat.set m t (1 + k1 * B + b) (c k1 b)) m) m t 0 = m t 0) ∧
    (∀ k1 < K, ∀ b < B, forRange K (fun k1 m => forRange B (fun b m => Mat.set m t (1 + k1 * B + b) (c k1 b)) m) m t (1 + k1 * B + b)
      = c k1 b) := by
  have inner : ∀ k1 n (m : Mat R), n ≤ B →
      (∀ a col, (∀ b < n, ¬ (a = t ∧ col = 1 + k1 * B + b)) →
        forRange n (fun b m => Mat.set m t (1 + k1 * B + b) (c k1 b)) m a col = m a col) ∧
      (∀ b < n, forRange n (fun b m => Mat.set m t (1 + k1 * B + b) (c k1 b)) m t (1 + k1 * B + b) = c k1 b) := by
    intro k1 n m hn
    induction n with
    | zero => exact ⟨fun _ _ _ => rfl, fun b hb => by omega⟩
    | succ n ih =>
      obtain ⟨i1, i2⟩ := ih (by omega)
      refine ⟨fun a col h => ?_, fun b hb => ?_⟩
      · rw [forRange_succ, set_get, if_neg (h n (by omega))]
        exact i1 a col fun b hb => h b (by omega)
      · rw [forRange_succ, set_get]
        by_cases hbn : b = n
        · subst hbn; rw [if_pos ⟨rfl, rfl⟩]
        · rw [if_neg (by omega)]; exact i2 b (by omega)
  have outer : ∀ n, n ≤ K →
      (∀ a col, (∀ k1 < n, ∀ b < B, ¬ (a = t ∧ col = 1 + k1 * B + b)) →
        forRange n (fun k1 m => forRange B (fun b m => Mat.set m t (1 + k1 * B + b) (c k1 b)) m) m a col = m a col) ∧
      (∀ k1 < n, ∀ b < B, forRange n (fun k1 m => forRange B (fun b m => Mat.set m t (1 + k1 * B + b) (c k1 b)) m) m t (1 + k1 * B + b)
        = c k1 b) := by
    intro n hn
    induction n with
    | zero => exact ⟨fun _ _ _ => rfl, fun b hb => by omega⟩
    | succ n ih =>
      obtain ⟨i1, i2⟩ := ih (by omega)
      refine ⟨fun a col h => ?_, fun k1 hk1 b hb => ?_⟩
      · rw [forRange_succ, (inner n B _ le_rfl).1 a col fun b hb => h n (by omega) b hb]
        exact i1 a col fun k1 hk1 b hb => h k1 (by omega) b hb
      · rw [forRange_succ]
        by_cases hkn : k1 = n
        · subst hkn; exact (inner k1 B _ le_rfl).2 b hb
        · have hlt : k1 < n := by omega
          rw [(inner n B _ le_rfl).1 t _ ?_]
          · exact i2 k1 hlt b hb
          · rintro b' hb' ⟨-, h⟩
            have : (k1 + 1) * B ≤ n * B := Nat.mul_le_mul_right _ hlt
            rw [Nat.add_mul, one_mul] at this
            omega
  obtain ⟨o1, o2⟩ := outer K le_rfl
  exact ⟨fun a col h => o1 a col fun _ _ _ _ hh => h hh.1, o1 t 0 (fun _ _ _ _ hh => by omega), o2⟩

/-- one iteration of the parallel loop writes row `t` with the python formula and touches no other row -/
theorem mfBodyCy_spec (K B : ℕ) (p0 : R) (W : Vec R) (G : Mat R) (s : Vec R) (F : Ten R) (t : ℕ) (EZ : Mat R) :
    (∀ a, a ≠ t → mfBodyCy K B p0 W G s F t EZ a = EZ a) ∧
    (s t ≠ 0 → mfBodyCy K B p0 W G s F t EZ t 0 = mfRowPy K B p0 W G (s t) (F t) 0 ∧
      ∀ k1 < K, ∀ b < B, mfBodyCy K B p0 W G s F t EZ t (1 + k1 * B + b) = mfRowPy K B p0 W G (s t) (F t) (1 + k1 * B + b)) := by
  unfold mfBodyCy
  by_cases hs : s t = 0
  · rw [if_pos hs]; exact ⟨fun _ _ => rfl, fun h => absurd hs h⟩
  · rw [if_neg hs]
    obtain ⟨w1, w2, w3⟩ := mfBody_write K B t (fun k1 b => W k1 * G k1 b * F t k1 b / mfZ K B p0 W G (F t) * s t)
      (Mat.set EZ t 0 (p0 / mfZ K B p0 W G (F t) * s t))
    refine ⟨fun a ha => ?_, fun _ => ⟨?_, fun k1 hk1 b hb => ?_⟩⟩
    · funext col; rw [w1 a col ha, set_get, if_neg (fun h => ha h.1)]
    · rw [w2, set_get, if_pos ⟨rfl, rfl⟩, mfZ_eq, mfRowPy_zero]
    · rw [w3 k1 hk1 b hb, mfZ_eq, mfRowPy_col _ _ _ _ _ _ _ _ _ hb]
      congr 2; ring

/-- **C14 (cython = python, every schedule).** Whatever the order in which the iterations of the parallel loop run, the kernel leaves in every
row with a nonzero count exactly the values of the python implementation. -/
theorem C14_cython_eq_python (K B T : ℕ) (p0 : R) (W : Vec R) (G : Mat R) (s : Vec R) (F : Ten R) (EZ : Mat R) (order : List ℕ)
    (hperm : order.Perm (List.range T)) :
    ∀ t < T, s t ≠ 0 →
      mfUpdateCy K B p0 W G s F order EZ t 0 = mfRowPy K B p0 W G (s t) (F t) 0 ∧
      ∀ k1 < K, ∀ b < B, mfUpdateCy K B p0 W G s F order EZ t (1 + k1 * B + b) = mfRowPy K B p0 W G (s t) (F t) (1 + k1 * B + b) := by
  intro t ht hs
  have hnd : order.Nodup := hperm.nodup_iff.2 List.nodup_range
  have hmem : t ∈ order := hperm.mem_iff.2 (List.mem_range.2 ht)
  unfold mfUpdateCy
  have keep : ∀ (l : List ℕ) (m : Mat R), t ∉ l → l.foldl (fun m t => mfBodyCy K B p0 W G s F t m) m t = m t := by
    intro l
    induction l with
    | nil => intro m _; rfl
    | cons a l ih =>
      intro m h
      rw [List.mem_cons, not_or] at h
      rw [List.foldl_cons, ih _ h.2, (mfBodyCy_spec K B p0 W G s F a m).1 t h.1]
  clear hperm
  induction order generalizing EZ with
  | nil => cases hmem
  | cons a l ih =>
    rw [List.foldl_cons]
    rw [List.nodup_cons] at hnd
    by_cases hat : a = t
    · subst hat
      rw [keep l _ hnd.1]
      exact (mfBodyCy_spec K B p0 W G s F a EZ).2 hs
    · rcases List.mem_cons.1 hmem with h | h
      · exact absurd h.symm hat
      · exact ih _ hnd.2 h

example : ∃ order : List ℕ, order.Perm (List.range 3) ∧ order ≠ List.range 3 := ⟨[2, 0, 1], by decide, by decide⟩

end
end PyHawkes
