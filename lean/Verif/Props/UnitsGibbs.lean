import Verif.Props.Units
import Verif.Props.LogJointModel

/-!
# C108: the unit of time carries no meaning for the Gibbs samplers
-/
set_option linter.unusedVariables false
set_option linter.unusedSectionVars false

namespace PyHawkes
open Finset Spec

variable {c : ℝ}

/-! ### sufficient statistics -/

theorem ssSum_map (dl : List (DParents ℝ)) (g : DParents ℝ → DParents ℝ) (f : DParents ℝ → ℝ) : ssSum (dl.map g) f = ssSum dl fun d => f (g d) := by
  unfold ssSum
  rw [List.foldl_map]

theorem ssSum_mul (dl : List (DParents ℝ)) (f : DParents ℝ → ℝ) (x : ℝ) : (ssSum dl fun d => x * f d) = x * ssSum dl f := by
  have key : ∀ (l : List (DParents ℝ)) (a : ℝ), l.foldl (fun acc d => acc + x * f d) (x * a) = x * l.foldl (fun acc d => acc + f d) a := by
    intro l
    induction l with
    | nil => intro a; rfl
    | cons d l ih => intro a; simp only [List.foldl_cons]; rw [← mul_add, ih]
  unfold ssSum
  have := key dl 0
  rw [mul_zero] at this
  rw [this]; ring

theorem biasArgs_units (hc : 0 < c) (alpha beta dt : ℝ) (dl : List (DParents ℝ)) (k : ℕ) :
    biasArgs alpha (c * beta) (c * dt) (dl.map (rescaleData c)) k = { shape := (biasArgs alpha beta dt dl k).shape, scale := (biasArgs alpha beta dt dl k).scale / c } := by
  unfold biasArgs
  simp only [ssSum_map]
  have h1 : (ssSum dl fun d => bkgdSS1 (rescaleData c d) (c * dt) k) = c * ssSum dl fun d => bkgdSS1 d dt k := by
    rw [← ssSum_mul]
    refine congrArg (ssSum dl) (funext fun d => ?_)
    show (d.T : ℝ) * (c * dt) = c * (d.T * dt)
    ring
  rw [h1, ← mul_add]
  refine congrArg₂ GammaArgs.mk rfl ?_
  rw [div_div, mul_comm c]

theorem units_bias (hc : 0 < c) (d : StepDraws) (s : HawkesState) : resampleBias (rescaleDraws c d) (rescaleState c s) = rescaleState c (resampleBias d s) := by
  have h : ∀ k, (rescaleDraws c d).lam k (biasArgs s.alpha (c * s.beta) (c * s.base.dt) (s.data.map (rescaleData c)) k) = d.lam k (biasArgs s.alpha s.beta s.base.dt s.data k) / c := by
    intro k
    rw [biasArgs_units hc]
    show d.lam k { shape := _, scale := c * ((biasArgs s.alpha s.beta s.base.dt s.data k).scale / c) } / c = _
    rw [mul_div_cancel₀ _ hc.ne']
  unfold resampleBias
  exact congrArg (fun l => ({ rescaleState c s with base := { rescaleParams c s.base with lam0 := l } } : HawkesState)) (funext h)

theorem units_impulse (d : StepDraws) (s : HawkesState) : resampleImpulse (rescaleDraws c d) (rescaleState c s) = rescaleState c (resampleImpulse d s) := by
  have h : ∀ i j, impulseArgs s.base.B s.gamma (s.data.map (rescaleData c)) i j = impulseArgs s.base.B s.gamma s.data i j := by
    intro i j
    unfold impulseArgs
    simp only [ssSum_map]
    rfl
  unfold resampleImpulse
  show ({ rescaleState c s with base := { rescaleParams c s.base with g := fun k1 k2 => d.dir k1 k2 (impulseArgs s.base.B s.gamma (s.data.map (rescaleData c)) k1 k2) } } : HawkesState) = _
  simp only [h]
  rfl

theorem units_net (huge : ℝ) (d : StepDraws) (s : HawkesState) : resampleNet huge (rescaleDraws c d) (rescaleState c s) = rescaleState c (resampleNet huge d s) := rfl

theorem units_W (d : StepDraws) (s : HawkesState) : resampleWSS (rescaleDraws c d) (rescaleState c s) = rescaleState c (resampleWSS d s) := by
  have h : ∀ i j, weightArgs s.base.B s.net.kappa s.net.V s.A (s.data.map (rescaleData c)) i j = weightArgs s.base.B s.net.kappa s.net.V s.A s.data i j := by
    intro i j
    unfold weightArgs
    simp only [ssSum_map]
    rfl
  unfold resampleWSS
  show ({ rescaleState c s with W := fun k1 k2 => d.weight k1 k2 (weightArgs s.base.B s.net.kappa s.net.V s.A (s.data.map (rescaleData c)) k1 k2) } : HawkesState) = _
  simp only [h]
  rfl

theorem units_AMix (k0 n0 : ℝ) (d : StepDraws) (s : HawkesState) : resampleAMix k0 n0 (rescaleDraws c d) (rescaleState c s) = rescaleState c (resampleAMix k0 n0 d s) := by
  have h : mixA s.base.B k0 n0 s.net.kappa s.net.V s.net.P d.u (s.data.map (rescaleData c)) = mixA s.base.B k0 n0 s.net.kappa s.net.V s.net.P d.u s.data := by
    funext i j
    unfold mixA
    simp only [ssSum_map]
    rfl
  unfold resampleAMix
  exact congrArg (fun A => ({ rescaleState c s with A := A } : HawkesState)) h

theorem units_WMix (k0 n0 : ℝ) (d : StepDraws) (s : HawkesState) : resampleWMix k0 n0 (rescaleDraws c d) (rescaleState c s) = rescaleState c (resampleWMix k0 n0 d s) := by
  have h : ∀ i j, mixWArgs s.base.B k0 n0 s.net.kappa s.net.V s.A (s.data.map (rescaleData c)) i j = mixWArgs s.base.B k0 n0 s.net.kappa s.net.V s.A s.data i j := by
    intro i j
    unfold mixWArgs
    simp only [ssSum_map]
    rfl
  unfold resampleWMix
  show ({ rescaleState c s with W := fun k1 k2 => max (d.weight k1 k2 (mixWArgs s.base.B k0 n0 s.net.kappa s.net.V s.A (s.data.map (rescaleData c)) k1 k2)) 1e-32 } : HawkesState) = _
  simp only [h]
  rfl

/-! ### parents -/

theorem normalise_units (hc : 0 < c) (n : ℕ) (p : Vec ℝ) : normalise n (fun j => p j / c) = normalise n p := by
  unfold normalise
  have h : ∑ j ∈ range n, p j / c = (∑ j ∈ range n, p j) / c := (sum_div _ _ _).symm
  simp only [h, div_eq_zero_iff, hc.ne', or_false]
  split_ifs
  · rfl
  · refine congrArg Except.ok (funext fun j => ?_)
    rw [div_div_div_cancel_right₀ hc.ne']

theorem weights_units (P : NetParams ℝ) (k : ℕ) (ft : Mat ℝ) :
    parentWeightsPy (rescaleParams c P) k (fun k b => ft k b / c) = (fun j => parentWeightsPy P k ft j / c)
      ∧ parentWeightsGsl (rescaleParams c P) k (fun k b => ft k b / c) = fun j => parentWeightsGsl P k ft j / c := by
  constructor
  · funext j
    unfold parentWeightsPy
    cases j with
    | zero => rfl
    | succ j =>
      show ft (j / P.B) (j % P.B) / c * P.Weff (j / P.B) k * P.g (j / P.B) k (j % P.B) = ft (j / P.B) (j % P.B) * P.Weff (j / P.B) k * P.g (j / P.B) k (j % P.B) / c
      ring
  · funext j
    unfold parentWeightsGsl
    cases j with
    | zero => rfl
    | succ j =>
      show P.Weff (j / P.B) k * P.g (j / P.B) k (j % P.B) * (ft (j / P.B) (j % P.B) / c) = P.Weff (j / P.B) k * P.g (j / P.B) k (j % P.B) * ft (j / P.B) (j % P.B) / c
      ring

theorem row_units (hc : 0 < c) (P : NetParams ℝ) (gsl : Bool) (k : ℕ) (mult : ℕ → Vec ℝ → Vec ℕ) (st : ℕ) (ft : Mat ℝ) :
    (if gsl then resampleRowGsl (rescaleParams c P) k else resampleRowPy (rescaleParams c P) k) mult st (fun k b => ft k b / c)
      = (if gsl then resampleRowGsl P k else resampleRowPy P k) mult st ft := by
  obtain ⟨h1, h2⟩ := weights_units (c := c) P k ft
  cases gsl
  · simp only [Bool.false_eq_true, if_false]
    unfold resampleRowPy
    rw [h1, normalise_units hc]
    rfl
  · simp only [if_true]
    unfold resampleRowGsl
    rw [h2, normalise_units hc]
    rfl

theorem rows_units (hc : 0 < c) (P : NetParams ℝ) (gsl : Bool) (k : ℕ) : ∀ (l : List (ℕ × Mat ℝ)) (mult : ℕ → ℕ → Vec ℝ → Vec ℕ),
    rowsE (if gsl then resampleRowGsl (rescaleParams c P) k else resampleRowPy (rescaleParams c P) k) mult (l.map fun p => (p.1, fun k b => p.2 k b / c))
      = rowsE (if gsl then resampleRowGsl P k else resampleRowPy P k) mult l := by
  intro l
  induction l with
  | nil => intro mult; rfl
  | cons p l ih =>
    intro mult
    obtain ⟨st, ft⟩ := p
    simp only [List.map_cons, rowsE]
    rw [row_units hc, ih]

theorem units_zip (D : DParents ℝ) (k : ℕ) : ((rescaleData c D).Ss k).zip ((rescaleData c D).Fs k) = ((D.Ss k).zip (D.Fs k)).map fun p => (p.1, fun k b => p.2 k b / c) := by
  unfold DParents.Ss DParents.Fs
  show ((D.ts k).map fun t => toU32 (D.S t k)).zip ((D.ts k).map fun t k b => D.F t k b / c) = _
  generalize D.ts k = l
  induction l with
  | nil => rfl
  | cons t l ih => simp only [List.map_cons, List.zip_cons_cons, ih]

theorem units_parents (hc : 0 < c) (P : NetParams ℝ) (gsl : Bool) (mult : ℕ → ℕ → ℕ → Vec ℝ → Vec ℕ) (D : DParents ℝ) :
    resampleParents (rescaleParams c P) gsl mult (rescaleData c D) = (resampleParents P gsl mult D).map (rescaleData c) := by
  unfold resampleParents
  have h : (fun k2 => rowsE (if gsl then resampleRowGsl (rescaleParams c P) k2 else resampleRowPy (rescaleParams c P) k2) (mult k2) (((rescaleData c D).Ss k2).zip ((rescaleData c D).Fs k2)))
      = fun k2 => rowsE (if gsl then resampleRowGsl P k2 else resampleRowPy P k2) (mult k2) ((D.Ss k2).zip (D.Fs k2)) := by
    funext k2
    rw [units_zip, rows_units hc]
  rw [h, show (rescaleParams c P).K = P.K from rfl]
  cases collectE [] (fun k2 => rowsE (if gsl then resampleRowGsl P k2 else resampleRowPy P k2) (mult k2) ((D.Ss k2).zip (D.Fs k2))) P.K <;> rfl

theorem units_dataList (hc : 0 < c) (P : NetParams ℝ) (gsl : Bool) : ∀ (dl : List (DParents ℝ)) (mult : ℕ → ℕ → ℕ → ℕ → Vec ℝ → Vec ℕ),
    resampleDataList (rescaleParams c P) gsl mult (dl.map (rescaleData c)) = (resampleDataList P gsl mult dl).map fun l => l.map (rescaleData c) := by
  intro dl
  induction dl with
  | nil => intro mult; rfl
  | cons D dl ih =>
    intro mult
    simp only [List.map_cons, resampleDataList]
    rw [units_parents hc, ih]
    cases resampleParents P gsl (mult 0) D with
    | error e => rfl
    | ok D' => cases resampleDataList P gsl (fun i => mult (i + 1)) dl <;> rfl

/-! ### edges -/

theorem edgeDraw_shift (a b n p u : ℝ) (hp : 0 ≤ p ∧ p ≤ 1) (hu : 0 ≤ u ∧ u < 1) : edgeDraw (a - n) (b - n) p u = edgeDraw a b p u := by
  rw [edgeDraw_eq _ _ _ _ hp.1 hp.2 hu.1 hu.2, edgeDraw_eq _ _ _ _ hp.1 hp.2 hu.1 hu.2]
  have h := bernPost_scale p (Real.exp a) (Real.exp b) (Real.exp (-n)) (Real.exp_pos _).ne'
  rw [← Real.exp_add, ← Real.exp_add] at h
  rw [show a - n = -n + a by ring, show b - n = -n + b by ring, h]

/-- nonnegative parameters with positive background rates -/
structure PosParams (P : NetParams ℝ) (W : Mat ℝ) (dl : List (DParents ℝ)) : Prop where
  lam0 : ∀ k < P.K, 0 < P.lam0 k
  W : ∀ i < P.K, ∀ j < P.K, 0 ≤ W i j
  g : ∀ i < P.K, ∀ j < P.K, ∀ b < P.B, 0 ≤ P.g i j b
  F : ∀ D ∈ dl, ∀ t < D.T, ∀ k < P.K, ∀ b < P.B, 0 ≤ D.F t k b

/-- the number of events of process `k` that the likelihood sees -/
noncomputable def seenEvents (dl : List (DParents ℝ)) (k : ℕ) : ℝ := (dl.map fun D => ∑ t ∈ range D.T, (toU32 (D.S t k) : ℝ)).sum

theorem foldl_units (f f' : DParents ℝ → ℝ) (n : DParents ℝ → ℝ) (x : ℝ) (dl : List (DParents ℝ)) (h : ∀ D ∈ dl, f' (rescaleData c D) = f D - n D * x) :
    (dl.map (rescaleData c)).foldl (fun acc d => acc + f' d) 0 = dl.foldl (fun acc d => acc + f d) 0 - (dl.map n).sum * x := by
  have key : ∀ (l : List (DParents ℝ)), (∀ D ∈ l, f' (rescaleData c D) = f D - n D * x) → ∀ a b m : ℝ, a = b - m * x →
      (l.map (rescaleData c)).foldl (fun acc d => acc + f' d) a = l.foldl (fun acc d => acc + f d) b - (m + (l.map n).sum) * x := by
    intro l
    induction l with
    | nil => intro _ a b m e; simpa using e
    | cons D l ih =>
      intro hl a b m e
      have := ih (fun D' h' => hl D' (List.mem_cons_of_mem _ h')) (a + f' (rescaleData c D)) (b + f D) (m + n D) (by rw [e, hl D List.mem_cons_self]; ring)
      simp only [List.map_cons, List.foldl_cons, List.sum_cons]
      rw [this]; ring
  have := key dl h 0 0 0 (by simp)
  rwa [zero_add] at this

theorem llSinglePar_units (hc : 0 < c) {P : NetParams ℝ} {W : Mat ℝ} {dl : List (DParents ℝ)} (hP : PosParams P W dl) {k : ℕ} (hk : k < P.K) (col : Vec ℝ) (hcol : ∀ i < P.K, 0 ≤ col i) :
    (dl.map (rescaleData c)).foldl (fun acc d => acc + llSinglePar (rescaleParams c P) d k (fun k1 => col k1 * W k1 k)) 0
      = dl.foldl (fun acc d => acc + llSinglePar P d k (fun k1 => col k1 * W k1 k)) 0 - seenEvents dl k * Real.log c := by
  refine foldl_units _ _ (fun D => ∑ t ∈ range D.T, (toU32 (D.S t k) : ℝ)) (Real.log c) dl fun D hD => ?_
  refine llSingle_units hc { P with Weff := fun i _ => col i * W i k } D k fun t ht _ => ne_of_gt ?_
  have : 0 ≤ ∑ k1 ∈ range P.K, ∑ b ∈ range P.B, col k1 * W k1 k * P.g k1 k b * D.F t k1 b :=
    sum_nonneg fun i hi => sum_nonneg fun b hb => mul_nonneg (mul_nonneg (mul_nonneg (hcol i (mem_range.1 hi)) (hP.W i (mem_range.1 hi) k hk))
      (hP.g i (mem_range.1 hi) k hk b (mem_range.1 hb))) (hP.F D hD t ht i (mem_range.1 hi) b (mem_range.1 hb))
  have := hP.lam0 k hk
  show 0 < P.lam0 k + _
  linarith

theorem vecSet_nonneg {K : ℕ} {v : Vec ℝ} (hv : ∀ i < K, 0 ≤ v i) (k : ℕ) {x : ℝ} (hx : 0 ≤ x) : ∀ i < K, 0 ≤ Vec.set v k x i := by
  intro i hi
  unfold Vec.set
  split_ifs
  · exact hx
  · exact hv i hi

theorem edgeDraw_nonneg (a b p u : ℝ) : 0 ≤ edgeDraw a b p u := by
  rcases edgeDraw_01 a b p u with h | h <;> simp [h]

theorem units_column (hc : 0 < c) {P : NetParams ℝ} {W p u A : Mat ℝ} {dl : List (DParents ℝ)} (hP : PosParams P W dl) (hp : ∀ i < P.K, ∀ j < P.K, 0 ≤ p i j ∧ p i j ≤ 1)
    (hu : ∀ i j, 0 ≤ u i j ∧ u i j < 1) (hA : ∀ i < P.K, ∀ j < P.K, 0 ≤ A i j) {k : ℕ} (hk : k < P.K) :
    resampleColumn (rescaleParams c P) W p u (dl.map (rescaleData c)) A k = resampleColumn P W p u dl A k := by
  unfold resampleColumn
  dsimp only
  have hll := fun (col : Vec ℝ) h => llSinglePar_units hc hP hk col h
  refine (forRange_congr_inv (fun v : Vec ℝ => ∀ i < P.K, 0 ≤ v i) P.K _ _ _ (fun i hi => hA i hi k hk) ?_ ?_).1
  · intro i hi v hv
    unfold colSite
    split_ifs
    · exact vecSet_nonneg hv i le_rfl
    · exact vecSet_nonneg hv i zero_le_one
    · exact vecSet_nonneg (vecSet_nonneg (vecSet_nonneg hv i le_rfl) i zero_le_one) i (edgeDraw_nonneg _ _ _ _)
  · intro i hi v hv
    unfold colSite
    dsimp only
    rw [hll _ (vecSet_nonneg hv i le_rfl), hll _ (vecSet_nonneg (vecSet_nonneg hv i le_rfl) i zero_le_one), edgeDraw_shift _ _ _ _ _ (hp i hi k hk) (hu i k)]

theorem matSet_nonneg {K : ℕ} {A : Mat ℝ} (hA : ∀ i < K, ∀ j < K, 0 ≤ A i j) (k1 k2 : ℕ) {x : ℝ} (hx : 0 ≤ x) : ∀ i < K, ∀ j < K, 0 ≤ Mat.set A k1 k2 x i j := by
  intro i hi j hj
  unfold Mat.set
  split_ifs
  · exact hx
  · exact hA i hi j hj

theorem units_serial (hc : 0 < c) {P : NetParams ℝ} {W p u A : Mat ℝ} {dl : List (DParents ℝ)} (hP : PosParams P W dl) (hp : ∀ i < P.K, ∀ j < P.K, 0 ≤ p i j ∧ p i j ≤ 1)
    (hu : ∀ i j, 0 ≤ u i j ∧ u i j < 1) (hA : ∀ i < P.K, ∀ j < P.K, 0 ≤ A i j) : serialSweep (rescaleParams c P) W p u (dl.map (rescaleData c)) A = serialSweep P W p u dl A := by
  have hll : ∀ k < P.K, ∀ A : Mat ℝ, (∀ i < P.K, ∀ j < P.K, 0 ≤ A i j) → (dl.map (rescaleData c)).foldl (fun acc d => acc + llSingle (withA (rescaleParams c P) W A) d k) 0
      = dl.foldl (fun acc d => acc + llSingle (withA P W A) d k) 0 - seenEvents dl k * Real.log c := fun k hk A hA => llSinglePar_units hc hP hk (fun i => A i k) fun i hi => hA i hi k hk
  have hsite : ∀ i j, ∀ A : Mat ℝ, (∀ i < P.K, ∀ j < P.K, 0 ≤ A i j) → ∀ i' < P.K, ∀ j' < P.K, 0 ≤ serialSite (rescaleParams c P) W p u (dl.map (rescaleData c)) i j A i' j' := by
    intro i j A hA
    unfold serialSite
    exact matSet_nonneg (matSet_nonneg (matSet_nonneg hA i j le_rfl) i j zero_le_one) i j (edgeDraw_nonneg _ _ _ _)
  unfold serialSweep
  refine (forRange_congr_inv (fun A : Mat ℝ => ∀ i < P.K, ∀ j < P.K, 0 ≤ A i j) P.K _ _ _ hA ?_ ?_).1
  · intro i hi A hA
    exact forRange_induct (fun _ (A : Mat ℝ) => ∀ i < P.K, ∀ j < P.K, 0 ≤ A i j) P.K _ A hA fun j hj A hA => hsite i j A hA
  · intro i hi A hA
    refine (forRange_congr_inv (fun A : Mat ℝ => ∀ i < P.K, ∀ j < P.K, 0 ≤ A i j) P.K _ _ _ hA (fun j hj A hA => hsite i j A hA) ?_).1
    intro j hj A hA
    unfold serialSite
    dsimp only
    rw [hll j hj _ (matSet_nonneg hA i j le_rfl), hll j hj _ (matSet_nonneg (matSet_nonneg hA i j le_rfl) i j zero_le_one), edgeDraw_shift _ _ _ _ _ (hp i hi j hj) (hu i j)]

theorem units_parallel (hc : 0 < c) {P : NetParams ℝ} {W p u A : Mat ℝ} {dl : List (DParents ℝ)} (hP : PosParams P W dl) (hp : ∀ i < P.K, ∀ j < P.K, 0 ≤ p i j ∧ p i j ≤ 1)
    (hu : ∀ i j, 0 ≤ u i j ∧ u i j < 1) (hA : ∀ i < P.K, ∀ j < P.K, 0 ≤ A i j) {order : List ℕ} (ho : order.Perm (List.range P.K)) :
    parallelSweep (rescaleParams c P) W p u (dl.map (rescaleData c)) order A = parallelSweep P W p u dl order A := by
  unfold parallelSweep
  rw [List.length_map]
  split_ifs
  · rfl
  · have hk : ∀ k ∈ order, k < P.K := fun k h => List.mem_range.1 (ho.mem_iff.1 h)
    have key : ∀ (l : List ℕ), (∀ k ∈ l, k < P.K) → ∀ s : ℕ → Vec ℝ,
        l.foldl (fun s k2 => fun j => if j = k2 then resampleColumn (rescaleParams c P) W p u (dl.map (rescaleData c)) A k2 else s j) s
          = l.foldl (fun s k2 => fun j => if j = k2 then resampleColumn P W p u dl A k2 else s j) s := by
      intro l
      induction l with
      | nil => intro _ s; rfl
      | cons k l ih =>
        intro hl s
        simp only [List.foldl_cons]
        rw [units_column hc hP hp hu hA (hl k List.mem_cons_self), ih fun k' h => hl k' (List.mem_cons_of_mem _ h)]
    dsimp only
    rw [key order hk]

theorem units_A (hc : 0 < c) {d : StepDraws} {s : HawkesState} {B C : ℕ} (hd : DrawsOk s.base.K B C d) (hn : NetOk s.base.K s.net) (hP : PosParams s.base s.W s.data)
    (hA : ∀ i < s.base.K, ∀ j < s.base.K, 0 ≤ s.A i j) : resampleASS (rescaleDraws c d) (rescaleState c s) = rescaleState c (resampleASS d s) := by
  unfold resampleASS
  refine congrArg (fun A => ({ rescaleState c s with A := A } : HawkesState)) ?_
  show (if d.parallel then parallelSweep (rescaleParams c s.base) s.W s.net.P d.u (s.data.map (rescaleData c)) d.order s.A
    else serialSweep (rescaleParams c s.base) s.W s.net.P d.u (s.data.map (rescaleData c)) s.A) = _
  rw [units_parallel hc hP (netP_mem hn) hd.unif hA hd.order, units_serial hc hP (netP_mem hn) hd.unif hA]

/-! ### histories -/

theorem units_stepSS (hc : 0 < c) (huge : ℝ) {K B C : ℕ} {sc : Bool} {s : HawkesState} (h : LifeOk K B C sc s) {d : StepDraws} (hd : DrawsOk K B C d) :
    resampleModelSS huge (rescaleDraws c d) (rescaleState c s) = (resampleModelSS huge d s).map (rescaleState c) := by
  obtain ⟨hy, hp, ⟨rfl, rfl, rfl, rfl⟩, hD⟩ := h
  have hWe : ∀ i < s.base.K, ∀ j < s.base.K, 0 ≤ s.params.Weff i j := by
    intro i hi j hj
    change 0 ≤ s.A i j * s.W i j
    rcases hp.A i hi j hj with h | h <;> rw [h]
    · simp
    · rw [one_mul]; exact (hp.W i hi j hj).le
  obtain ⟨dl, hdl, hf⟩ := resampleDataList_ok s.params d.useGsl hp.lam0 hWe (fun i hi j hj b hb => (hp.g i hi j hj).1 b hb) s.data d.mult (fun D h => (hD D h).1) hd.mult
  have e := units_dataList hc s.params d.useGsl s.data d.mult
  rw [hdl] at e
  unfold resampleModelSS
  rw [hdl, show resampleDataList (rescaleState c s).params (rescaleDraws c d).useGsl (rescaleDraws c d).mult (rescaleState c s).data = .ok (dl.map (rescaleData c)) from e]
  refine congrArg Except.ok ?_
  show resampleASS _ (resampleWSS _ (resampleNet huge _ (resampleImpulse _ (resampleBias (rescaleDraws c d) (rescaleState c { s with data := dl }))))) = _
  rw [units_bias hc, units_impulse, units_net, units_W]
  have hy1 : HyperOk { s with data := dl } := ⟨hy.alpha, hy.beta, hy.gamma, hy.dt, hy.basis⟩
  have hlam := bias_pos hd hy1
  have hy2 : HyperOk (resampleBias d { s with data := dl }) := ⟨hy.alpha, hy.beta, hy.gamma, hy.dt, hy.basis⟩
  have hg := impulse_prob (s := resampleBias d { s with data := dl }) hd hy2
  have hn := C24_network_stays_valid huge hd hp.A hp.W hp.net
  have hW := weight_pos (K := s.base.K) (s := resampleNet huge d (resampleImpulse d (resampleBias d { s with data := dl }))) hd hn.1 hp.A
  refine units_A (B := s.base.B) (C := blocks s.net) (d := d) (s := resampleWSS d (resampleNet huge d (resampleImpulse d (resampleBias d { s with data := dl })))) hc hd hn.1
    ⟨fun k _ => hlam k, fun i hi j hj => (hW i hi j hj).le, fun i _ j _ b hb => (hg i j).1 b hb, ?_⟩ fun i hi j hj => by show 0 ≤ s.A i j; rcases hp.A i hi j hj with h | h <;> linarith
  intro D' hD' t ht k hk b hb
  obtain ⟨D, hDm, ⟨hT, hS, hF⟩, -⟩ := forall₂_mem_right hf D' hD'
  rw [hF]
  exact (hD D hDm).1.1 t (hT ▸ ht) k hk b hb

theorem units_stepMix (hc : 0 < c) (huge k0 n0 : ℝ) (b : Bool) (d : StepDraws) (s : HawkesState) :
    resampleModelMix huge k0 n0 b (rescaleDraws c d) (rescaleState c s) = (resampleModelMix huge k0 n0 b d s).map (rescaleState c) := by
  unfold resampleModelMix
  rw [show resampleDataList (rescaleState c s).paramsMix (rescaleDraws c d).useGsl (rescaleDraws c d).mult (rescaleState c s).data = _ from units_dataList hc s.paramsMix d.useGsl s.data d.mult]
  cases resampleDataList s.paramsMix d.useGsl d.mult s.data with
  | error e => rfl
  | ok dl =>
    refine congrArg Except.ok ?_
    have e : resampleWMix k0 n0 (rescaleDraws c d) (resampleAMix k0 n0 (rescaleDraws c d) (resampleImpulse (rescaleDraws c d) (resampleBias (rescaleDraws c d) (rescaleState c { s with data := dl }))))
        = rescaleState c (resampleWMix k0 n0 d (resampleAMix k0 n0 d (resampleImpulse d (resampleBias d { s with data := dl })))) := by
      rw [units_bias hc, units_impulse, units_AMix, units_WMix]
    cases b
    · exact e
    · show resampleNet huge (rescaleDraws c d) (resampleWMix k0 n0 (rescaleDraws c d) (resampleAMix k0 n0 (rescaleDraws c d) (resampleImpulse (rescaleDraws c d) (resampleBias (rescaleDraws c d)
        (rescaleState c { s with data := dl }))))) = _
      rw [e]
      rfl

theorem units_slice (S : Mat ℕ) (F : Ten ℝ) (a b : ℕ) : sliceData S (fun t k b => F t k b / c) a b = rescaleData c (sliceData S F a b) := rfl

theorem units_addData (hc : 0 < c) (P : NetParams ℝ) (a : AddArgs ℝ) (dl : List (DParents ℝ)) :
    addData (rescaleParams c P) (rescaleArgs c a) (dl.map (rescaleData c)) = (addData P a dl).map fun l => l.map (rescaleData c) := by
  obtain ⟨T, KS, isInt, S, F, mb⟩ := a
  have tail : ∀ F : Ten ℝ, (match mb with
      | none => .ok (dl.map (rescaleData c) ++ [{ T := T, S := fun t k => (S t k).toNat, F := fun t k b => F t k b / c }])
      | some m =>
        if m = 0 then .error .exception
        else if m < 0 then .ok (dl.map (rescaleData c))
        else .ok (dl.map (rescaleData c) ++ (mbBounds T m.toNat).map fun b => sliceData (fun t k => (S t k).toNat) (fun t k b => F t k b / c) b.1 b.2) : Except PyErr (List (DParents ℝ)))
      = Except.map (fun l => l.map (rescaleData c)) (match mb with
      | none => .ok (dl ++ [{ T := T, S := fun t k => (S t k).toNat, F := F }])
      | some m =>
        if m = 0 then .error .exception
        else if m < 0 then .ok dl
        else .ok (dl ++ (mbBounds T m.toNat).map fun b => sliceData (fun t k => (S t k).toNat) F b.1 b.2)) := by
    intro F
    cases mb with
    | none => simp [rescaleData, Except.map]
    | some m =>
      dsimp only
      split_ifs
      · rfl
      · rfl
      · refine congrArg Except.ok ?_
        show _ = List.map (rescaleData c) (dl ++ _)
        rw [List.map_append, List.map_map]
        rfl
  unfold addData
  cases F with
  | none =>
    dsimp only [rescaleArgs, Option.map]
    rw [show convolve T (rescaleParams c P).K (rescaleParams c P).L (rescaleParams c P).B (rescaleParams c P).basis (fun t k => (S t k : ℝ)) = _ from
      convolve_units hc T P.K P.L P.B P.basis fun t k => (S t k : ℝ)]
    simp only [show (rescaleParams c P).K = P.K from rfl, show (rescaleParams c P).B = P.B from rfl]
    by_cases h1 : KS ≠ P.K
    · rw [if_pos h1]; erw [if_pos h1]; rfl
    rw [if_neg h1]; erw [if_neg h1]
    by_cases h2 : T = 0 ∨ KS = 0
    · rw [if_pos h2]; erw [if_pos h2]; rfl
    rw [if_neg h2]; erw [if_neg h2]
    by_cases h3 : ¬ ((∀ t < T, ∀ k < KS, 0 ≤ S t k) ∧ isInt = true)
    · rw [if_pos h3]; erw [if_pos h3]; rfl
    rw [if_neg h3]; erw [if_neg h3]
    cases convolve T P.K P.L P.B P.basis (fun t k => (S t k : ℝ)) with
    | error e => rfl
    | ok F => exact tail F
  | some q =>
    obtain ⟨T', K', B', F⟩ := q
    dsimp only [rescaleArgs, Option.map]
    simp only [show (rescaleParams c P).K = P.K from rfl, show (rescaleParams c P).B = P.B from rfl]
    by_cases h1 : KS ≠ P.K
    · rw [if_pos h1]; erw [if_pos h1]; rfl
    rw [if_neg h1]; erw [if_neg h1]
    by_cases h2 : T = 0 ∨ KS = 0
    · rw [if_pos h2]; erw [if_pos h2]; rfl
    rw [if_neg h2]; erw [if_neg h2]
    by_cases h3 : ¬ ((∀ t < T, ∀ k < KS, 0 ≤ S t k) ∧ isInt = true)
    · rw [if_pos h3]; erw [if_pos h3]; rfl
    rw [if_neg h3]; erw [if_neg h3]
    by_cases h4 : T' = T ∧ K' = P.K ∧ B' = P.B
    · rw [if_pos h4]; erw [if_pos h4]; exact tail F
    · rw [if_neg h4]; erw [if_neg h4]; rfl

theorem units_add (hc : 0 < c) (a : AddArgs ℝ) (s : HawkesState) : addDataState (rescaleArgs c a) (rescaleState c s) = (addDataState a s).map (rescaleState c) := by
  unfold addDataState
  rw [show addData (rescaleState c s).base (rescaleArgs c a) (rescaleState c s).data = _ from units_addData hc s.base a s.data]
  cases addData s.base a s.data <;> rfl

theorem units_run (hc : 0 < c) (huge : ℝ) {K B C : ℕ} {sc : Bool} (ops : List Op) : ∀ {s : HawkesState}, LifeOk K B C sc s → (∀ op ∈ ops, OpOk K B C op) →
    runSS huge (ops.map (rescaleOp c)) (rescaleState c s) = rescaleState c (runSS huge ops s) := by
  induction ops with
  | nil => intro s _ _; rfl
  | cons op ops ih =>
    intro s h ho
    have hop := ho op List.mem_cons_self
    have hl := (life_step huge h op hop).1
    have ih' := fun {s'} (h' : LifeOk K B C sc s') => ih h' fun o hm => ho o (List.mem_cons_of_mem _ hm)
    cases op with
    | addData a =>
      simp only [runSS] at hl
      simp only [List.map_cons, rescaleOp, runSS, units_add hc a s]
      cases e : addDataState a s with
      | error _ => exact ih' h
      | ok s1 => rw [e] at hl; exact ih' hl
    | resample d =>
      simp only [runSS] at hl
      simp only [List.map_cons, rescaleOp, runSS, units_stepSS hc huge h hop]
      cases e : resampleModelSS huge d s with
      | error _ => exact ih' h
      | ok s1 => rw [e] at hl; exact ih' hl

theorem units_new (hc : 0 < c) (a : ModelArgs) (d : StepDraws) : newModelSS (rescaleModelArgs c a) (rescaleDraws c d) = (newModelSS a d).map (rescaleState c) := by
  unfold newModelSS
  show (if a.net.K ≠ a.K then _ else if a.allowInstantaneous && a.net.allowSelf then _ else _) = _
  split_ifs
  · rfl
  · rfl
  · have he : emptyState (rescaleModelArgs c a) = rescaleState c (emptyState a) := by
      unfold emptyState rescaleModelArgs rescaleState rescaleParams
      simp
    refine congrArg Except.ok ?_
    rw [he, units_bias hc, units_impulse, units_W]
    set s := resampleWSS d (resampleImpulse d (resampleBias d (emptyState a)))
    have hs : s.data = [] := rfl
    unfold resampleASS
    refine congrArg (fun A => ({ rescaleState c s with A := A } : HawkesState)) ?_
    rfl

/-- C108: construct a spike-and-slab model and run any history of `add_data` and `resample_model` calls on it; do the same with all durations and densities given in
another unit of time and the same random numbers. The second model is always the first one expressed in the other unit: same edges, weights, impulse weights, network and
parents, background rates per new unit. -/
theorem C108_gibbs_spike_and_slab (hc : 0 < c) (huge : ℝ) (a : ModelArgs) (d0 : StepDraws) (s0 : HawkesState) (ops : List Op) (hs : newModelSS a d0 = .ok s0)
    (hd : DrawsOk a.K a.B (blocks a.net) d0) (ha : 0 < a.alpha ∧ 0 < a.beta) (hg : ∀ b < a.B, 0 < a.gamma b) (hdt : 0 < a.dt)
    (hb : ∀ l < a.L, ∀ b < a.B, 0 ≤ a.basis l b) (hn : NetOk a.K a.net) (hops : ∀ op ∈ ops, OpOk a.K a.B (blocks a.net) op) :
    newModelSS (rescaleModelArgs c a) (rescaleDraws c d0) = .ok (rescaleState c s0)
      ∧ runSS huge (ops.map (rescaleOp c)) (rescaleState c s0) = rescaleState c (runSS huge ops s0) := by
  refine ⟨by rw [units_new hc, hs]; rfl, ?_⟩
  obtain ⟨hy, hp, hdata, hK, hB, hnet⟩ := C24_new_model_valid a d0 s0 hs hd ha hg hdt hb hn
  have h0 : LifeOk a.K a.B (blocks a.net) a.net.allowSelf s0 :=
    ⟨hy, hp, ⟨hK, hB, by rw [hnet], by rw [hnet]⟩, by rw [hdata]; intro D hD; cases hD⟩
  exact units_run hc huge ops h0 hops

/-- C108: the same for the gamma-mixture model; no assumption on parameters, data or draws is needed -/
theorem C108_gibbs_mixture (hc : 0 < c) (huge k0 n0 : ℝ) (a : ModelArgs) (d0 : StepDraws) (s : HawkesState) (ops : List (Op × Bool)) :
    newModelMix k0 n0 (rescaleModelArgs c a) (rescaleDraws c d0) = (newModelMix k0 n0 a d0).map (rescaleState c)
      ∧ runMix huge k0 n0 (ops.map fun o => (rescaleOp c o.1, o.2)) (rescaleState c s) = rescaleState c (runMix huge k0 n0 ops s) := by
  constructor
  · unfold newModelMix
    show (if a.net.K ≠ a.K then _ else if a.allowInstantaneous && a.net.allowSelf then _ else _) = _
    split_ifs
    · rfl
    · rfl
    · have he : emptyState (rescaleModelArgs c a) = rescaleState c (emptyState a) := by
        unfold emptyState rescaleModelArgs rescaleState rescaleParams
        simp
      refine congrArg Except.ok ?_
      rw [he, units_bias hc, units_impulse, units_AMix, units_WMix]
  · induction ops generalizing s with
    | nil => rfl
    | cons op ops ih =>
      obtain ⟨op, b⟩ := op
      cases op with
      | addData a =>
        simp only [List.map_cons, rescaleOp, runMix, units_add hc a s]
        cases e : addDataState a s with
        | error _ => exact ih s
        | ok s1 => exact ih s1
      | resample d =>
        simp only [List.map_cons, rescaleOp, runMix, units_stepMix hc]
        cases e : resampleModelMix huge k0 n0 b d s with
        | error _ => exact ih s
        | ok s1 => exact ih s1

/-- C108: `log_probability()` of both models changes by `-N log c` only, so differences between parameter values, and with them every comparison of samples, do not depend on the unit -/
theorem C108_log_probability (hc : 0 < c) (huge k0 n0 : ℝ) (s : HawkesState) :
    ((∀ D ∈ s.data, EventsPossible s.params D) →
      logProbSS huge (rescaleState c s) = logProbSS huge s + FX.fin (-(((s.data.map (observedEvents s.base.K)).sum : ℕ) * Real.log c)))
    ∧ ((∀ D ∈ s.data, EventsPossible s.paramsMix D) →
      logProbMix k0 n0 (rescaleState c s) = logProbMix k0 n0 s + FX.fin (-(((s.data.map (observedEvents s.base.K)).sum : ℕ) * Real.log c))) := by
  constructor
  · intro h
    unfold logProbSS
    rw [show llModel (rescaleState c s).params (rescaleState c s).data = _ from C108_log_likelihood hc s.params s.data h, show logPriorSS huge (rescaleState c s) = logPriorSS huge s from rfl,
      add_right_comm]
    rfl
  · intro h
    unfold logProbMix
    rw [show llModel (rescaleState c s).paramsMix (rescaleState c s).data = _ from C108_log_likelihood hc s.paramsMix s.data h,
      show logPriorMix k0 n0 (rescaleState c s) = logPriorMix k0 n0 s from rfl, add_right_comm]
    rfl

end PyHawkes
