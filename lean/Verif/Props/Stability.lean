import Verif.Model.Stability
import Verif.Model.Standard
import Verif.Spec.Stability
import Mathlib.LinearAlgebra.Matrix.ToLinearEquiv
import Mathlib.LinearAlgebra.Matrix.NonsingularInverse
import Mathlib.LinearAlgebra.Matrix.Charpoly.Coeff
import Mathlib.LinearAlgebra.Eigenspace.Minpoly
import Mathlib.LinearAlgebra.Matrix.Charpoly.Eigs
import Mathlib.Analysis.Complex.Polynomial.Basic
import Mathlib.Topology.Instances.Matrix
import Mathlib.Topology.Order.IntermediateValue
import Mathlib.Topology.Algebra.InfiniteSum.Real
import Mathlib.Analysis.SpecificLimits.Normed

/-!
# Stability (C47, C75) and parameter tuples (C46)
-/

set_option linter.unusedSectionVars false

namespace PyHawkes
open Finset Spec Matrix

/-! ### Nonnegative matrices -/

variable {n : Type*} [Fintype n] [DecidableEq n]

/-- all entries are nonnegative -/
def NonnegM (A : Matrix n n ℝ) : Prop := ∀ i j, 0 ≤ A i j

theorem NonnegM.mul {A B : Matrix n n ℝ} (hA : NonnegM A) (hB : NonnegM B) : NonnegM (A * B) := fun i j => by
  rw [Matrix.mul_apply]
  exact Finset.sum_nonneg fun k _ => mul_nonneg (hA i k) (hB k j)

theorem NonnegM.one : NonnegM (1 : Matrix n n ℝ) := fun i j => by
  rw [Matrix.one_apply]
  split <;> norm_num

theorem NonnegM.pow {A : Matrix n n ℝ} (hA : NonnegM A) (k : ℕ) : NonnegM (A ^ k) := by
  induction k with
  | zero => rw [pow_zero]; exact NonnegM.one
  | succ k ih => rw [pow_succ]; exact ih.mul hA

/-- minimum principle: if `c` exceeds all row sums of the nonnegative matrix `B` and `(c - B) x ≥ 0` then `x ≥ 0` -/
theorem min_principle {B : Matrix n n ℝ} (hB : NonnegM B) {c : ℝ} (hc : ∀ i, ∑ j, B i j < c) {x : n → ℝ} (hx : ∀ i, 0 ≤ ((c • (1 : Matrix n n ℝ) - B) *ᵥ x) i) (i : n) : 0 ≤ x i := by
  obtain ⟨m, _, hm⟩ := Finset.exists_min_image Finset.univ x ⟨i, Finset.mem_univ _⟩
  by_contra hneg
  push Not at hneg
  have hxm : x m < 0 := lt_of_le_of_lt (hm i (Finset.mem_univ _)) hneg
  have h := hx m
  rw [Matrix.sub_mulVec, Matrix.smul_mulVec, Matrix.one_mulVec] at h
  simp only [Pi.sub_apply, Pi.smul_apply, smul_eq_mul, Matrix.mulVec, dotProduct] at h
  have h2 : (∑ j, B m j) * x m ≤ ∑ j, B m j * x j := by
    rw [Finset.sum_mul]
    exact Finset.sum_le_sum fun j _ => mul_le_mul_of_nonneg_left (hm j (Finset.mem_univ _)) (hB m j)
  have h3 := mul_lt_mul_of_neg_right (hc m) hxm
  linarith

theorem inv_nonneg_of_rowsum {B : Matrix n n ℝ} (hB : NonnegM B) {c : ℝ} (hc : ∀ i, ∑ j, B i j < c) : IsUnit (c • (1 : Matrix n n ℝ) - B) ∧ NonnegM (c • (1 : Matrix n n ℝ) - B)⁻¹ := by
  have hu : IsUnit (c • (1 : Matrix n n ℝ) - B) := by
    rw [← Matrix.mulVec_injective_iff_isUnit]
    intro x y hxy
    have h0 : (c • (1 : Matrix n n ℝ) - B) *ᵥ (x - y) = 0 := by
      rw [Matrix.mulVec_sub]
      exact sub_eq_zero.2 hxy
    have h1 := min_principle hB hc (x := x - y) (fun i => by rw [h0]; exact le_refl _)
    have h2 := min_principle hB hc (x := -(x - y)) (fun i => by rw [Matrix.mulVec_neg, h0]; simp)
    funext i
    have := h1 i
    have := h2 i
    simp only [Pi.sub_apply, Pi.neg_apply] at *
    linarith
  refine ⟨hu, fun i j => ?_⟩
  have := min_principle hB hc (x := fun i => (c • (1 : Matrix n n ℝ) - B)⁻¹ i j) (fun i => by
    have e : ((c • (1 : Matrix n n ℝ) - B) *ᵥ fun i => (c • (1 : Matrix n n ℝ) - B)⁻¹ i j) i = ((c • (1 : Matrix n n ℝ) - B) * (c • (1 : Matrix n n ℝ) - B)⁻¹) i j := by
      rw [Matrix.mul_apply]; rfl
    rw [e, Matrix.mul_nonsing_inv _ ((Matrix.isUnit_iff_isUnit_det _).1 hu)]
    exact NonnegM.one i j) i
  exact this

/-- if no real number `≥ 1` is an eigenvalue of the nonnegative matrix `A`, the inverse of `1 - A` is nonnegative: go down from a large `c` to 1 -/
theorem resolvent_nonneg {A : Matrix n n ℝ} (hA : NonnegM A) (h : ∀ c : ℝ, 1 ≤ c → IsUnit (c • (1 : Matrix n n ℝ) - A)) : NonnegM (1 - A)⁻¹ := by
  set M : ℝ := 1 + ∑ i, ∑ j, A i j + 1 with hM
  have hrow : ∀ i, ∑ j, A i j ≤ ∑ i, ∑ j, A i j := fun i => Finset.single_le_sum (f := fun i => ∑ j, A i j) (fun i _ => Finset.sum_nonneg fun j _ => hA i j) (Finset.mem_univ i)
  have htot : 0 ≤ ∑ i, ∑ j, A i j := Finset.sum_nonneg fun i _ => Finset.sum_nonneg fun j _ => hA i j
  let f : ℝ → Matrix n n ℝ := fun t => (M - t) • (1 : Matrix n n ℝ) - A
  let s : Set ℝ := {t | NonnegM (f t)⁻¹}
  have hunit : ∀ t ∈ Set.Icc (0:ℝ) (M - 1), IsUnit (f t) := fun t ht => h _ (by linarith [ht.2])
  have hfc : Continuous f := by fun_prop
  have hcont : ∀ i j, ContinuousOn (fun t => (f t)⁻¹ i j) (Set.Icc (0:ℝ) (M - 1)) := by
    intro i j
    have e : ∀ t, (f t)⁻¹ i j = Ring.inverse (f t).det * (f t).adjugate i j := by
      intro t; rw [Matrix.inv_def, Matrix.smul_apply, smul_eq_mul]
    simp only [e, Ring.inverse_eq_inv']
    have hdet : Continuous fun t => (f t).det := hfc.matrix_det
    have hadj : Continuous fun t => (f t).adjugate i j := (hfc.matrix_adjugate).matrix_elem i j
    apply ContinuousOn.mul _ hadj.continuousOn
    apply ContinuousOn.inv₀ hdet.continuousOn
    intro t ht
    exact ((Matrix.isUnit_iff_isUnit_det _).1 (hunit t ht)).ne_zero
  have hclosed : IsClosed (s ∩ Set.Icc (0:ℝ) (M - 1)) := by
    have e : s ∩ Set.Icc (0:ℝ) (M - 1) = Set.Icc (0:ℝ) (M - 1) ∩ ⋂ i, ⋂ j, (Set.Icc (0:ℝ) (M - 1) ∩ (fun t => (f t)⁻¹ i j) ⁻¹' Set.Ici 0) := by
      ext t
      simp only [Set.mem_inter_iff, Set.mem_iInter, Set.mem_preimage, Set.mem_Ici]
      exact ⟨fun ⟨h1, h2⟩ => ⟨h2, fun i j => ⟨h2, h1 i j⟩⟩, fun ⟨h1, h2⟩ => ⟨fun i j => (h2 i j).2, h1⟩⟩
    rw [e]
    apply isClosed_Icc.inter
    apply isClosed_iInter
    intro i
    apply isClosed_iInter
    intro j
    exact (hcont i j).preimage_isClosed_of_isClosed isClosed_Icc isClosed_Ici
  have h0 : (0:ℝ) ∈ s := by
    have := (inv_nonneg_of_rowsum hA (c := M) fun i => by have := hrow i; linarith).2
    show NonnegM ((M - 0) • (1 : Matrix n n ℝ) - A)⁻¹
    rw [sub_zero]
    exact this
  have hstep : ∀ t ∈ s ∩ Set.Ico (0:ℝ) (M - 1), s ∈ nhdsWithin t (Set.Ioi t) := by
    rintro t ⟨hts, ht0, ht1⟩
    set R := (f t)⁻¹ with hR
    have hRn : NonnegM R := hts
    have hRtot : 0 ≤ ∑ i, ∑ j, R i j := Finset.sum_nonneg fun i _ => Finset.sum_nonneg fun j _ => hRn i j
    have hRrow : ∀ i, ∑ j, R i j ≤ ∑ i, ∑ j, R i j := fun i => Finset.single_le_sum (f := fun i => ∑ j, R i j) (fun i _ => Finset.sum_nonneg fun j _ => hRn i j) (Finset.mem_univ i)
    set δ : ℝ := 1 / (∑ i, ∑ j, R i j + 1) with hδ
    have hδ0 : 0 < δ := by positivity
    have hut : IsUnit (f t) := hunit t ⟨ht0, ht1.le⟩
    rw [mem_nhdsGT_iff_exists_Ioo_subset]
    refine ⟨t + δ, by simpa using hδ0, ?_⟩
    rintro u ⟨hu1, hu2⟩
    have hε : 0 < u - t := by linarith
    -- f u = f t * (1 - (u-t) R)
    have e1 : f u = f t * (1 - (u - t) • R) := by
      rw [mul_sub, mul_one, Matrix.mul_smul, hR, Matrix.mul_nonsing_inv _ ((Matrix.isUnit_iff_isUnit_det _).1 hut)]
      show (M - u) • (1 : Matrix n n ℝ) - A = (M - t) • (1 : Matrix n n ℝ) - A - (u - t) • 1
      rw [show M - u = (M - t) - (u - t) by ring, sub_smul]
      abel
    have e2 : (1 : Matrix n n ℝ) - (u - t) • R = (u - t) • ((1 / (u - t)) • (1 : Matrix n n ℝ) - R) := by
      rw [smul_sub, smul_smul, mul_one_div_cancel hε.ne', one_smul]
    have hc : ∀ i, ∑ j, R i j < 1 / (u - t) := by
      intro i
      have h1 : u - t < δ := by linarith
      rw [lt_div_iff₀ hε]
      have h2 : (∑ j, R i j) * (u - t) ≤ (∑ i, ∑ j, R i j) * (u - t) := mul_le_mul_of_nonneg_right (hRrow i) hε.le
      have h3 : (∑ i, ∑ j, R i j) * (u - t) ≤ (∑ i, ∑ j, R i j) * δ := mul_le_mul_of_nonneg_left h1.le hRtot
      have h4 : (∑ i, ∑ j, R i j) * δ < 1 := by
        rw [hδ, mul_one_div, div_lt_one (by linarith)]
        linarith
      linarith
    obtain ⟨_, q2⟩ := inv_nonneg_of_rowsum hRn hc
    show NonnegM (f u)⁻¹
    rw [e1, Matrix.mul_inv_rev, ← hR]
    apply NonnegM.mul _ hRn
    rw [e2]
    have e3 : ((u - t) • ((1 / (u - t)) • (1 : Matrix n n ℝ) - R))⁻¹ = (1 / (u - t)) • ((1 / (u - t)) • (1 : Matrix n n ℝ) - R)⁻¹ := by
      apply Matrix.inv_eq_right_inv
      obtain ⟨q1, _⟩ := inv_nonneg_of_rowsum hRn hc
      rw [Matrix.smul_mul, Matrix.mul_smul, Matrix.mul_nonsing_inv _ ((Matrix.isUnit_iff_isUnit_det _).1 q1), smul_smul, mul_one_div_cancel hε.ne', one_smul]
    rw [e3]
    intro i j
    rw [Matrix.smul_apply, smul_eq_mul]
    exact mul_nonneg (by positivity) (q2 i j)
  have := hclosed.Icc_subset_of_forall_mem_nhdsWithin h0 hstep
  have hend := this (show M - 1 ∈ Set.Icc (0:ℝ) (M - 1) from ⟨by linarith, le_refl _⟩)
  have e : f (M - 1) = 1 - A := by
    show (M - (M - 1)) • (1 : Matrix n n ℝ) - A = 1 - A
    rw [show M - (M - 1) = 1 by ring, one_smul]
  have : NonnegM (f (M - 1))⁻¹ := hend
  rwa [e] at this

theorem partial_sums_le {A : Matrix n n ℝ} (hA : NonnegM A) (hu : IsUnit (1 - A)) (hR : NonnegM (1 - A)⁻¹) (N : ℕ) (i j : n) :
    ∑ k ∈ range N, (A ^ k) i j ≤ (1 - A)⁻¹ i j := by
  have h1 : (1 - A) * ∑ k ∈ range N, A ^ k = 1 - A ^ N := mul_neg_geom_sum A N
  have h2 : ∑ k ∈ range N, A ^ k = (1 - A)⁻¹ * (1 - A ^ N) := by
    rw [← h1, ← Matrix.mul_assoc, Matrix.nonsing_inv_mul _ ((Matrix.isUnit_iff_isUnit_det _).1 hu), Matrix.one_mul]
  have h3 : ∑ k ∈ range N, (A ^ k) i j = (∑ k ∈ range N, A ^ k) i j := by rw [Matrix.sum_apply]
  rw [h3, h2, Matrix.mul_sub, Matrix.mul_one, Matrix.sub_apply]
  have := hR.mul (hA.pow N) i j
  linarith

theorem summable_pow {A : Matrix n n ℝ} (hA : NonnegM A) (h : ∀ c : ℝ, 1 ≤ c → IsUnit (c • (1 : Matrix n n ℝ) - A)) (i j : n) : Summable fun k => (A ^ k) i j := by
  have hu : IsUnit (1 - A) := by have := h 1 (le_refl _); rwa [one_smul] at this
  exact summable_of_sum_range_le (fun k => hA.pow k i j) (fun N => partial_sums_le hA hu (resolvent_nonneg hA h) N i j)

/-! ### Eigenvalues -/

/-- the `K × K` array as a real matrix -/
noncomputable def rMat (K : ℕ) (W : Mat ℝ) : Matrix (Fin K) (Fin K) ℝ := Matrix.of fun i j => W i j

theorem cMat_eq (K : ℕ) (W : Mat ℝ) : cMat K W = (rMat K W).map (algebraMap ℝ ℂ) := rfl

theorem eigen_iff (K : ℕ) (W : Mat ℝ) (z : ℂ) : IsEigenvalue K W z ↔ z ∈ eigvals K W := by
  unfold eigvals
  rw [Multiset.mem_toList, Polynomial.mem_roots (Matrix.charpoly_monic _).ne_zero, Polynomial.IsRoot.def, Matrix.eval_charpoly, ← Matrix.exists_mulVec_eq_zero_iff]
  have e : ∀ x : Fin K → ℂ, (Matrix.scalar (Fin K) z - cMat K W) *ᵥ x = 0 ↔ ∀ i : Fin K, ∑ j : Fin K, (W i j : ℂ) * x j = z * x i := by
    intro x
    rw [Matrix.sub_mulVec, sub_eq_zero, funext_iff]
    apply forall_congr'
    intro i
    have h1 : (Matrix.scalar (Fin K) z *ᵥ x) i = z * x i := by
      rw [Matrix.scalar_apply, Matrix.mulVec_diagonal]
    rw [h1]
    exact eq_comm
  constructor
  · rintro ⟨x, ⟨i, hi, hxi⟩, hx⟩
    refine ⟨fun i => x i, fun h0 => hxi (congrFun h0 ⟨i, hi⟩), (e _).2 fun i => ?_⟩
    rw [← hx i.1 i.2, Finset.sum_range]
  · rintro ⟨x, hx0, hx⟩
    have hx := (e _).1 hx
    obtain ⟨i, hi⟩ := Function.ne_iff.1 hx0
    refine ⟨fun i => if h : i < K then x ⟨i, h⟩ else 0, ⟨i.1, i.2, by simpa using hi⟩, fun i hi => ?_⟩
    dsimp only
    rw [dif_pos hi, ← hx ⟨i, hi⟩, Finset.sum_range]
    apply Finset.sum_congr rfl
    intro j _
    rw [dif_pos j.2]

theorem descendants_pow (K : ℕ) (W : Mat ℝ) (k : ℕ) (i j : Fin K) : descendants K W k i j = (rMat K W ^ k) i j := by
  induction k generalizing j with
  | zero =>
    rw [pow_zero, Matrix.one_apply]
    simp only [descendants, Fin.ext_iff]
  | succ k ih =>
    rw [pow_succ, Matrix.mul_apply]
    unfold descendants
    rw [Finset.sum_range]
    apply Finset.sum_congr rfl
    intro l _
    rw [ih]
    rfl

theorem unit_of_no_eigen {K : ℕ} {W : Mat ℝ} {c : ℝ} (h : ¬ IsEigenvalue K W c) : IsUnit (c • (1 : Matrix (Fin K) (Fin K) ℝ) - rMat K W) := by
  rw [Matrix.isUnit_iff_isUnit_det, isUnit_iff_ne_zero]
  intro h0
  apply h
  obtain ⟨x, hx0, hx⟩ := Matrix.exists_mulVec_eq_zero_iff.2 h0
  rw [Matrix.sub_mulVec, Matrix.smul_mulVec, Matrix.one_mulVec, sub_eq_zero] at hx
  obtain ⟨i, hi⟩ := Function.ne_iff.1 hx0
  refine ⟨fun i => if h : i < K then ((x ⟨i, h⟩ : ℝ) : ℂ) else 0, ⟨i.1, i.2, ?_⟩, fun i hi => ?_⟩
  · dsimp only
    rw [dif_pos i.2]
    exact_mod_cast hi
  · dsimp only
    rw [dif_pos hi]
    have := congrFun hx ⟨i, hi⟩
    simp only [Pi.smul_apply, smul_eq_mul, Matrix.mulVec, dotProduct] at this
    rw [Finset.sum_range]
    have e : ∑ j : Fin K, (W i j : ℂ) * (if h : j.1 < K then ((x ⟨j, h⟩ : ℝ) : ℂ) else 0) = ((∑ j : Fin K, rMat K W ⟨i, hi⟩ j * x j : ℝ) : ℂ) := by
      push_cast
      apply Finset.sum_congr rfl
      intro j _
      rw [dif_pos j.2]
      rfl
    rw [e, ← this]
    push_cast
    rfl

/-- finite cascades exclude eigenvalues of modulus 1 or more -/
theorem eigen_lt_of_finite {K : ℕ} {W : Mat ℝ} (h : FiniteCascades K W) {z : ℂ} (hz : IsEigenvalue K W z) : ‖z‖ < 1 := by
  by_contra hge
  push Not at hge
  obtain ⟨x, ⟨i, hi, hxi⟩, hx⟩ := hz
  have hpow : ∀ k : ℕ, ∀ i < K, ∑ j ∈ range K, (descendants K W k i j : ℂ) * x j = z ^ k * x i := by
    intro k
    induction k with
    | zero =>
      intro i hi
      simp only [descendants, pow_zero, one_mul]
      rw [Finset.sum_eq_single i]
      · simp
      · intro j _ hj
        rw [if_neg (Ne.symm hj)]
        simp
      · intro hn
        exact absurd (Finset.mem_range.2 hi) hn
    | succ k ih =>
      intro i hi
      simp only [descendants]
      push_cast
      simp only [Finset.sum_mul]
      rw [Finset.sum_comm]
      have : ∀ l ∈ range K, ∑ j ∈ range K, (descendants K W k i l : ℂ) * (W l j : ℂ) * x j = (descendants K W k i l : ℂ) * (z * x l) := by
        intro l hl
        rw [← hx l (Finset.mem_range.1 hl), Finset.mul_sum]
        apply Finset.sum_congr rfl
        intro j _
        ring
      rw [Finset.sum_congr rfl this]
      have e : ∑ l ∈ range K, (descendants K W k i l : ℂ) * (z * x l) = z * ∑ l ∈ range K, (descendants K W k i l : ℂ) * x l := by
        rw [Finset.mul_sum]
        apply Finset.sum_congr rfl
        intro l _
        ring
      rw [e, ih i hi, pow_succ]
      ring
  have hlim : Filter.Tendsto (fun k => ∑ j ∈ range K, (descendants K W k i j : ℂ) * x j) Filter.atTop (nhds 0) := by
    have : Filter.Tendsto (fun k => ∑ j ∈ range K, (descendants K W k i j : ℂ) * x j) Filter.atTop (nhds (∑ j ∈ range K, (0:ℂ) * x j)) := by
      apply tendsto_finsetSum
      intro j hj
      apply Filter.Tendsto.mul_const
      have h1 := (h i hi j (Finset.mem_range.1 hj)).tendsto_atTop_zero
      have := (Complex.continuous_ofReal.tendsto 0).comp h1
      simpa [Function.comp_def] using this
    simpa using this
  simp only [hpow _ i hi] at hlim
  have hnorm := hlim.norm
  rw [norm_zero] at hnorm
  have hpos : 0 < ‖x i‖ := norm_pos_iff.2 hxi
  obtain ⟨k, hk⟩ := ((hnorm.eventually (gt_mem_nhds hpos)).exists)
  rw [norm_mul, norm_pow] at hk
  have : 1 ≤ ‖z‖ ^ k := one_le_pow₀ hge
  nlinarith

/-- stability in terms of eigenvalues is stability in terms of cascades -/
theorem finite_iff {K : ℕ} {W : Mat ℝ} (hW : ∀ i < K, ∀ j < K, 0 ≤ W i j) : FiniteCascades K W ↔ ∀ z, IsEigenvalue K W z → z.re < 1 := by
  constructor
  · intro h z hz
    exact lt_of_le_of_lt (Complex.re_le_norm z) (eigen_lt_of_finite h hz)
  · intro h i hi j hj
    have hA : NonnegM (rMat K W) := fun i j => hW i.1 i.2 j.1 j.2
    have := summable_pow hA (fun c hc => unit_of_no_eigen fun hz => by
      have := h c hz
      rw [Complex.ofReal_re] at this
      linarith) ⟨i, hi⟩ ⟨j, hj⟩
    refine this.congr fun k => ?_
    exact (descendants_pow K W k ⟨i, hi⟩ ⟨j, hj⟩).symm

theorem amax_lt {l : List ℝ} (hl : l ≠ []) : ∃ m, npAmax l = .ok m ∧ ∀ b, m < b ↔ ∀ x ∈ l, x < b := by
  cases l with
  | nil => exact absurd rfl hl
  | cons x xs =>
    refine ⟨_, rfl, fun b => ?_⟩
    induction xs generalizing x with
    | nil => simp
    | cons y ys ih =>
      rw [List.foldl_cons, ih (max x y) (by simp)]
      simp only [List.mem_cons, forall_eq_or_imp, max_lt_iff, and_assoc]

theorem eigvals_ne_nil {K : ℕ} (hK : 0 < K) (W : Mat ℝ) : eigvals K W ≠ [] := by
  unfold eigvals
  intro h
  have h1 : (cMat K W).charpoly.roots = 0 := by rwa [Multiset.toList_eq_nil] at h
  have h2 := IsAlgClosed.splits (cMat K W).charpoly
  have h3 := h2.natDegree_eq_card_roots
  rw [h1, Multiset.card_zero, Matrix.charpoly_natDegree_eq_dim, Fintype.card_fin] at h3
  omega

theorem eigen_le_rowsum {K : ℕ} {W : Mat ℝ} {c : ℝ} (hW : ∀ i < K, ∀ j < K, 0 ≤ W i j) (hc : ∀ i < K, ∑ j ∈ range K, W i j ≤ c) {z : ℂ} (hz : IsEigenvalue K W z) : ‖z‖ ≤ c := by
  obtain ⟨x, ⟨i, hi, hxi⟩, hx⟩ := hz
  obtain ⟨m, hm, hmax⟩ := Finset.exists_max_image (range K) (fun j => ‖x j‖) ⟨i, Finset.mem_range.2 hi⟩
  have hpos : 0 < ‖x m‖ := lt_of_lt_of_le (norm_pos_iff.2 hxi) (hmax i (Finset.mem_range.2 hi))
  have h1 : ‖z‖ * ‖x m‖ ≤ ∑ j ∈ range K, W m j * ‖x m‖ := by
    rw [← norm_mul, ← hx m (Finset.mem_range.1 hm)]
    refine (norm_sum_le _ _).trans (Finset.sum_le_sum fun j hj => ?_)
    have hn := hW m (Finset.mem_range.1 hm) j (Finset.mem_range.1 hj)
    rw [norm_mul, Complex.norm_real, Real.norm_of_nonneg hn]
    exact mul_le_mul_of_nonneg_left (hmax j hj) hn
  rw [← Finset.sum_mul] at h1
  exact le_of_mul_le_mul_right (h1.trans (mul_le_mul_of_nonneg_right (hc m (Finset.mem_range.1 hm)) hpos.le)) hpos

/-! ### C47, C75 -/

/-- **C47.** With `0 < K < 100` processes, `check_stability()` of the discrete- and continuous-time network models succeeds and returns `True` exactly if the effective weight matrix has no complex eigenvalue with real part 1 or more. -/
theorem C47_true_iff {K : ℕ} (hK : 0 < K) (h100 : K < 100) (sp : ℕ → Mat ℝ → ℂ) (W : Mat ℝ) :
    ∃ b, checkStability sp K W = .ok b ∧ (b = true ↔ ∀ z, IsEigenvalue K W z → z.re < 1) := by
  unfold checkStability
  rw [if_pos h100]
  obtain ⟨m, hm, hlt⟩ := amax_lt (l := (eigvals K W).map Complex.re) (by simp [eigvals_ne_nil hK])
  rw [hm]
  refine ⟨_, rfl, ?_⟩
  rw [decide_eq_true_iff, hlt]
  simp only [List.mem_map, forall_exists_index, and_imp, forall_apply_eq_imp_iff₂, eigen_iff]

/-- **C75.** For nonnegative effective weights and `0 < K < 100`, `check_stability()` returns `True` exactly if every event has, in expectation, finitely many descendants over all generations (the process does not explode). -/
theorem C75_stable_iff_finite_cascades {K : ℕ} (hK : 0 < K) (h100 : K < 100) (sp : ℕ → Mat ℝ → ℂ) {W : Mat ℝ} (hW : ∀ i < K, ∀ j < K, 0 ≤ W i j) :
    checkStability sp K W = .ok true ↔ FiniteCascades K W := by
  obtain ⟨b, hb, hiff⟩ := C47_true_iff hK h100 sp W
  rw [finite_iff hW, ← hiff, hb]
  exact ⟨fun h => Except.ok.inj h, fun h => congrArg _ h⟩

/-- **C75 (size of a cascade).** When the check passes, the expected total number of descendants is the entry of the inverse of `1 - W`, that is, the solution `X` of `X = 1 + X W`; in particular it is finite and nonnegative. -/
theorem C75_cascade_size {K : ℕ} (hK : 0 < K) (h100 : K < 100) (sp : ℕ → Mat ℝ → ℂ) {W : Mat ℝ} (hW : ∀ i < K, ∀ j < K, 0 ≤ W i j) (h : checkStability sp K W = .ok true) :
    ∃ X : Mat ℝ, (∀ i < K, ∀ j < K, HasSum (fun n => descendants K W n i j) (X i j)) ∧ (∀ i < K, ∀ j < K, 0 ≤ X i j) ∧
      ∀ i < K, ∀ j < K, X i j = (if i = j then 1 else 0) + ∑ k ∈ range K, X i k * W k j := by
  have hf := (C75_stable_iff_finite_cascades hK h100 sp hW).1 h
  have hnn : ∀ n, ∀ i < K, ∀ j < K, 0 ≤ descendants K W n i j := by
    intro n
    induction n with
    | zero => intro i _ j _; simp only [descendants]; split <;> norm_num
    | succ n ih =>
      intro i hi j hj
      simp only [descendants]
      exact Finset.sum_nonneg fun k hk => mul_nonneg (ih i hi k (Finset.mem_range.1 hk)) (hW k (Finset.mem_range.1 hk) j hj)
  refine ⟨fun i j => ∑' n, descendants K W n i j, fun i hi j hj => (hf i hi j hj).hasSum, fun i hi j hj => tsum_nonneg fun n => hnn n i hi j hj, fun i hi j hj => ?_⟩
  dsimp only
  rw [(hf i hi j hj).tsum_eq_zero_add]
  congr 1
  have h1 : ∀ k ∈ range K, HasSum (fun n => descendants K W n i k * W k j) ((∑' n, descendants K W n i k) * W k j) := fun k hk => (hf i hi k (Finset.mem_range.1 hk)).hasSum.mul_right _
  exact (hasSum_sum h1).tsum_eq

/-- a stable two-process example: mutual excitation with weights 1/2 -/
example : ∀ sp, checkStability sp 2 (fun i j => if i = j then 0 else 1/2) = .ok true := by
  intro sp
  have hW : ∀ i < 2, ∀ j < 2, (0:ℝ) ≤ (fun i j => if i = j then 0 else 1/2 : Mat ℝ) i j := fun i _ j _ => by dsimp only; split <;> norm_num
  rw [C75_stable_iff_finite_cascades (by norm_num) (by norm_num) sp hW, finite_iff hW]
  intro z hz
  have := eigen_le_rowsum (c := 1/2) hW (fun i hi => by rw [Finset.sum_range_succ, Finset.sum_range_one]; interval_cases i <;> norm_num) hz
  have := Complex.re_le_norm z
  linarith

/-- an unstable one: mutual excitation with weights 2 -/
example : ∀ sp, checkStability sp 2 (fun i j => if i = j then 0 else 2) = .ok false := by
  intro sp
  obtain ⟨b, hb, hiff⟩ := C47_true_iff (K := 2) (by norm_num) (by norm_num) sp (fun i j => if i = j then 0 else 2)
  rw [hb]
  cases b with
  | false => rfl
  | true =>
    have := hiff.1 rfl 2 ⟨fun _ => 1, ⟨0, by norm_num, one_ne_zero⟩, fun i hi => by rw [Finset.sum_range_succ, Finset.sum_range_one]; interval_cases i <;> norm_num⟩
    norm_num at this

/-- **C47 (violated for the standard model).** `check_stability()` of `DiscreteTimeStandardHawkesModel` raises `AxisError` on every model. -/
theorem C47_standard_violated (M : StdModel) : M.checkStability = .error .axis := rfl

/-- what `scipy.sparse.linalg.eigs(W, k=1)` promises: an eigenvalue of largest modulus (any one of them) -/
def SparseContract (K : ℕ) (W : Mat ℝ) (z : ℂ) : Prop := IsEigenvalue K W z ∧ ∀ z', IsEigenvalue K W z' → ‖z'‖ ≤ ‖z‖

/-- `W[0,1] = W[1,0] = 2`, all other weights 0 -/
def pairW : Mat ℝ := fun i j => if (i = 0 ∧ j = 1) ∨ (i = 1 ∧ j = 0) then 2 else 0

theorem pairW_eigen {K : ℕ} (hK : 2 ≤ K) (z : ℂ) (hz : z = 2 ∨ z = -2) : IsEigenvalue K pairW z := by
  refine ⟨fun i => if i = 0 then 1 else if i = 1 then z / 2 else 0, ⟨0, by omega, by simp⟩, fun i hi => ?_⟩
  have hz2 : z * z = 4 := by rcases hz with rfl | rfl <;> norm_num
  have hsplit : ∀ f : ℕ → ℂ, (∀ j, 2 ≤ j → f j = 0) → ∑ j ∈ range K, f j = f 0 + f 1 := by
    intro f hf
    obtain ⟨d, rfl⟩ := Nat.exists_eq_add_of_le hK
    rw [Finset.sum_range_add, Finset.sum_range_succ, Finset.sum_range_one, Finset.sum_eq_zero (s := range d) fun j _ => hf _ (by omega), add_zero]
  rw [hsplit _ fun j hj => by dsimp only; rw [if_neg (by omega), if_neg (by omega), mul_zero]]
  unfold pairW
  rcases Nat.lt_or_ge i 2 with h | h
  · interval_cases i
    · norm_num; ring
    · norm_num
      rw [← mul_div_assoc, hz2]; norm_num
  · dsimp only
    have h0 : ¬ i = 0 := by omega
    have h1 : ¬ i = 1 := by omega
    simp [h0, h1]

theorem pairW_nonneg (i j : ℕ) : 0 ≤ pairW i j := by unfold pairW; split <;> norm_num

theorem pairW_bound {K : ℕ} {z : ℂ} (hz : IsEigenvalue K pairW z) : ‖z‖ ≤ 2 := by
  refine eigen_le_rowsum (fun i _ j _ => pairW_nonneg i j) (fun m _ => ?_) hz
  have : ∑ j ∈ range K, pairW m j ≤ ∑ j ∈ range K, if j = 1 - m then (2:ℝ) else 0 := by
    apply Finset.sum_le_sum
    intro j _
    unfold pairW
    split
    · rw [if_pos (by omega)]
    · split <;> norm_num
  refine this.trans ?_
  rw [Finset.sum_ite_eq']
  split <;> norm_num

/-- **C47, C75 (violated from 100 processes on).** For every `K ≥ 100` there are nonnegative weights and an answer that `scipy.sparse.linalg.eigs` is allowed to give for which `check_stability()` returns `True` although the matrix has an
eigenvalue with real part 2 and cascades are infinite: eigenvalues `2` and `-2` have the same modulus. -/
theorem C47_large_violated {K : ℕ} (hK : 100 ≤ K) : ∃ W : Mat ℝ, (∀ i < K, ∀ j < K, 0 ≤ W i j) ∧ ∃ sp : ℕ → Mat ℝ → ℂ, SparseContract K W (sp K W) ∧ checkStability sp K W = .ok true ∧
    IsEigenvalue K W 2 ∧ ¬ FiniteCascades K W := by
  have h2 := pairW_eigen (K := K) (by omega) 2 (.inl rfl)
  refine ⟨pairW, fun i _ j _ => by unfold pairW; split <;> norm_num, fun _ _ => -2, ⟨pairW_eigen (by omega) (-2) (.inr rfl), fun z hz => ?_⟩, ?_, h2, ?_⟩
  · refine (pairW_bound hz).trans ?_
    simp
  · unfold checkStability
    rw [if_neg (by omega)]
    congr 1
    exact @decide_eq_true _ (Classical.propDecidable _) (.inl (by norm_num))
  · intro hf
    have := eigen_lt_of_finite hf h2
    norm_num at this

/-- **C47, C75 (from 100 processes on, what remains true).** If the check fails the process does explode; and if the solver returns the nonnegative real eigenvalue of largest modulus, the check is exact. -/
theorem C75_large_partial {K : ℕ} (hK : 100 ≤ K) {W : Mat ℝ} (hW : ∀ i < K, ∀ j < K, 0 ≤ W i j) {sp : ℕ → Mat ℝ → ℂ} (hc : SparseContract K W (sp K W)) :
    (checkStability sp K W = .ok false → ¬ FiniteCascades K W) ∧ ((sp K W).im = 0 → 0 ≤ (sp K W).re → (checkStability sp K W = .ok true ↔ FiniteCascades K W)) := by
  have hcs : checkStability sp K W = .ok (@decide (complexLtOne (sp K W)) (Classical.propDecidable _)) := by
    unfold checkStability
    rw [if_neg (by omega)]
  constructor
  · intro h hf
    rw [hcs] at h
    have h := @of_decide_eq_false _ (Classical.propDecidable _) (Except.ok.inj h)
    have hn := eigen_lt_of_finite hf hc.1
    apply h
    exact .inl (lt_of_le_of_lt (Complex.re_le_norm _) hn)
  · intro him hre
    have hnorm : ‖sp K W‖ = (sp K W).re := by
      have : sp K W = (((sp K W).re : ℝ) : ℂ) := Complex.ext (by simp) (by simp [him])
      rw [this, Complex.norm_real, Real.norm_of_nonneg (by simpa using hre)]
      simp
    rw [hcs, finite_iff hW]
    constructor
    · intro h z hz
      have h := @of_decide_eq_true _ (Classical.propDecidable _) (Except.ok.inj h)
      have hlt : (sp K W).re < 1 := by
        rcases h with h | ⟨_, h⟩
        · exact h
        · linarith
      calc z.re ≤ ‖z‖ := Complex.re_le_norm z
        _ ≤ ‖sp K W‖ := hc.2 z hz
        _ < 1 := by rw [hnorm]; exact hlt
    · intro h
      congr 1
      exact @decide_eq_true _ (Classical.propDecidable _) (.inl (h _ hc.1))

/-! ### C46 -/

/-- **C46 (violated).** For every model `set_parameters(get_parameters())` raises `ValueError`: six values are returned, eight are unpacked. -/
theorem C46_round_trip_violated (s s' : ParamState) : setParameters (getParameters s) s' = .error .value := rfl

/-- **C46 (what does hold).** Eight valid values are all stored: afterwards `get_parameters()` returns the adjacency, weights, impulses, rates, `p` and `v` that were given. -/
theorem C46_set_then_get_partial {s s' : ParamState} {A W g l c p v m : PVal} (h : setParameters [A, W, g, l, c, p, v, m] s = .ok s') :
    getParameters s' = [A, W, g, l, p, v] ∧ s'.c = c ∧ s'.m = m ∧ s'.K = s.K ∧ s'.B = s.B := by
  unfold setParameters at h
  dsimp only at h
  split_ifs at h
  cases h
  exact ⟨rfl, rfl, rfl, rfl, rfl⟩

/-- valid values exist: one process, one basis function -/
example (s : ParamState) (hK : s.K = 1) (hB : s.B = 1) :
    ∃ s', setParameters [.mat 1 1 fun _ _ => 1, .mat 1 1 fun _ _ => 0.5, .ten 1 1 1 fun _ _ _ => 1, .vec 1 fun _ => 1, .other, .other, .other, .other] s = .ok s' := by
  unfold setParameters
  dsimp only
  rw [hK, hB, if_neg, if_neg, if_neg, if_neg]
  · exact ⟨_, rfl⟩
  · rw [not_not]; exact ⟨_, rfl, fun _ _ => by norm_num⟩
  · rw [not_not]; refine ⟨_, rfl, fun _ _ _ _ => ?_⟩; simp; norm_num
  · rw [not_not]; exact ⟨_, rfl, fun _ _ _ _ => by norm_num⟩
  · rw [not_not]; exact ⟨_, rfl⟩

end PyHawkes
