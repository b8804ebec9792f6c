import Verif.Props.CTNigLaw
import Verif.Props.AugSystem
import Verif.Props.CTSampler
import Verif.Props.CTLogLik

/-!
# The continuous-time sampler as a data-augmentation sampler (used for C84)
-/
set_option linter.unusedSectionVars false
set_option linter.unusedVariables false

namespace PyHawkes
open Finset Spec MeasureTheory ProbabilityTheory

/-- background rates and impulse responses -/
abbrev PhiCT (K : ℕ) := (Fin K → ℝ) × (Pair K → ℝ × ℝ)

/-- parents of all events -/
abbrev ZCT (D : CTData) := Fin D.N → ℤ

/-- the parents as a function on all numbers -/
def zN {D : CTData} (z : ZCT D) : ℕ → ℤ := fun n => if h : n < D.N then z ⟨n, h⟩ else -1

/-- the parent selected by a uniform draw `x`, when the cumulative probabilities are `f` -/
noncomputable def zSel (f : ℕ → ℝ) (n : ℕ) (x : ℝ) : ℤ := if x < f 0 then -1 else ∑ m ∈ range n, if f m ≤ x ∧ x < f (m + 1) then (m : ℤ) else 0

theorem zSel_eq (P : CTParams) (D : CTData) (hP : CTOk P) (hL : LabelsOk P.K D) (hS : SortedTimes D) (n : ℕ) (hn : n < D.N) (x : ℝ) (hx1 : x < 1) :
    zSel (cumProb P D n) n x = selParent P D n x := by
  unfold zSel
  by_cases h0 : x < cumProb P D n 0
  · rw [if_pos h0, (sel_bkgd_iff P D hP hL hS n hn x hx1).2 h0]
  · rw [if_neg h0]
    rcases resampleOne_cases P D hP hL hS n hn (fun _ => x) hx1 with ⟨-, h⟩ | ⟨m, hm, -, h1, h2⟩
    · exact absurd h h0
    · rw [(sel_parent_iff P D hP hL hS n hn x hx1 m hm).2 ⟨h1, h2⟩, sum_eq_single m]
      · rw [if_pos ⟨h1, h2⟩]
      · intro j hj hne
        rw [if_neg]
        rintro ⟨h3, h4⟩
        have hj' := mem_range.1 hj
        rcases lt_or_gt_of_ne hne with h | h
        · have := cumProb_mono P D hP hL n hn (a := j + 1) (b := m) h hm.le
          linarith
        · have := cumProb_mono P D hP hL n hn (a := m + 1) (b := j) h hj'.le
          linarith
      · exact fun h => absurd (mem_range.2 hm) h

/-- every parent of the assignment is possible -/
def GoodZ (D : CTData) (dtMax : ℝ) (z : ZCT D) : Prop :=
  ∀ n : Fin D.N, z n = -1 ∨ ∃ m : ℕ, z n = m ∧ m < n ∧ 1e-8 ≤ D.S n - D.S m ∧ D.S n - D.S m ≤ dtMax - 1e-8

section
variable {U : Type*} [MeasurableSpace U] {μ : Measure U} (G : Generator μ) (N : NormalSampler μ) (c : CTState) (D : CTData)

/-- scaled lags between parents and children of a pair -/
noncomputable def lagsOf (z : ZCT D) (e : Pair c.P.K) : List ℝ := (children D (zN z) e.1 e.2).toList.map (childLag D c.P.dtMax (zN z))

/-- likelihood factor of one pair's impulse response -/
noncomputable def impFac (z : ZCT D) (e : Pair c.P.K) (m : ℝ × ℝ) : ℝ := ∏ n ∈ children D (zN z) e.1 e.2, impulse m.1 m.2 c.P.dtMax (D.S n - D.S (zN z n).toNat)

open Classical in
/-- the ingredients of the sampler -/
noncomputable def ctSys : AugSys c.P.K (PhiCT c.P.K) (ZCT D) (Fin D.N → U) ((Fin c.P.K → U) × (Pair c.P.K → U × U)) where
  ν := (Measure.pi fun _ => gammaMeasure c.alpha c.beta).prod (Measure.pi fun _ => nigLaw c.nig)
  L := fun A W φ => Real.exp (ctLogLik (ctRateParams c.P A W φ.1 φ.2) c.data)
  μX := Measure.pi fun _ => μ
  μY := (Measure.pi fun _ => μ).prod (Measure.pi fun _ => μ.prod μ)
  z := fun A W φ x n => zSel (cumProb (ctRateParams c.P A W φ.1 φ.2) D n) n (G.unif (x n))
  sφ := fun z y => (fun k => G.gam ⟨c.alpha + bkgdCount D (zN z) k, 1 / (c.beta + D.T)⟩ (y.1 k), fun e => nigDraw G N (nigPosterior c.nig (lagsOf c D z e)) (y.2 e))
  kz := fun φ A W z => ∏ n : Fin D.N, μ.map (fun u => zSel (cumProb (ctRateParams c.P A W φ.1 φ.2) D n) n (G.unif u)) {z n}
  fφ := fun φ z => if GoodZ D c.P.dtMax z then
      (∏ k : Fin c.P.K, ENNReal.ofReal (φ.1 k ^ (bkgdCount D (zN z) k : ℝ) * Real.exp (-(φ.1 k * D.T)))) * ∏ e, ENNReal.ofReal (impFac c D z e (φ.2 e))
    else 0
  via := fun z e => (children D (zN z) e.1 e.2).card
  ev := fun k => D.Ns k

end

/-! ### access to the parameters -/

section
variable {K : ℕ} (P : CTParams) (A W : Pair K → ℝ) (lam : Fin K → ℝ) (m : Pair K → ℝ × ℝ)

theorem padM_in {i j : ℕ} (hi : i < K) (hj : j < K) : padM A i j = A (⟨i, hi⟩, ⟨j, hj⟩) := dif_pos (show i < K ∧ j < K from ⟨hi, hj⟩)

theorem ctRate_lam {k : ℕ} (hk : k < K) : (ctRateParams P A W lam m).lam0 k = lam ⟨k, hk⟩ := dif_pos hk

theorem ctRate_ok (hK : P.K = K) (hdt : 0 < P.dtMax) (hAW : ∀ e, 0 ≤ A e * W e) (hlam : ∀ k, 0 < lam k) (hm : ∀ e, 0 < (m e).2) : CTOk (ctRateParams P A W lam m) where
  dtMax := hdt
  lam0 := fun k hk => by
    have hk' : k < K := hK ▸ hk
    rw [ctRate_lam _ _ _ _ _ hk']; exact hlam _
  W := fun i hi j hj => by
    have hi' : i < K := hK ▸ hi
    have hj' : j < K := hK ▸ hj
    change 0 ≤ padM A i j * padM W i j
    rw [padM_in _ hi' hj', padM_in _ hi' hj']; exact hAW _
  tau := fun i hi j hj => by
    have hi' : i < K := hK ▸ hi
    have hj' : j < K := hK ▸ hj
    change 0 < padM (fun e => (m e).2) i j
    rw [padM_in _ hi' hj']; exact hm _

end

/-! ### measurability -/

section
variable {K : ℕ} (P : CTParams) (D : CTData)

theorem measurable_padM (i j : ℕ) : Measurable fun A : Pair K → ℝ => padM A i j := by
  unfold padM
  split_ifs with h
  · fun_prop
  · exact measurable_const

/-- all parameters -/
abbrev AWP (K : ℕ) := (Pair K → ℝ) × (Pair K → ℝ) × PhiCT K

theorem meas_lam (k : ℕ) : Measurable fun x : AWP K => (ctRateParams P x.1 x.2.1 x.2.2.1 x.2.2.2).lam0 k := by
  change Measurable fun x : AWP K => if h : k < K then x.2.2.1 ⟨k, h⟩ else 0
  split_ifs
  · fun_prop
  · exact measurable_const

theorem meas_A (i j : ℕ) : Measurable fun x : AWP K => (ctRateParams P x.1 x.2.1 x.2.2.1 x.2.2.2).A i j := (measurable_padM i j).comp (f := fun x : AWP K => x.1) (by fun_prop)

theorem meas_W (i j : ℕ) : Measurable fun x : AWP K => (ctRateParams P x.1 x.2.1 x.2.2.1 x.2.2.2).W i j := (measurable_padM i j).comp (f := fun x : AWP K => x.2.1) (by fun_prop)

theorem meas_mu (i j : ℕ) : Measurable fun x : AWP K => (ctRateParams P x.1 x.2.1 x.2.2.1 x.2.2.2).mu i j :=
  (measurable_padM i j).comp (f := fun (x : AWP K) e => (x.2.2.2 e).1) (by fun_prop)

theorem meas_tau (i j : ℕ) : Measurable fun x : AWP K => (ctRateParams P x.1 x.2.1 x.2.2.1 x.2.2.2).tau i j :=
  (measurable_padM i j).comp (f := fun (x : AWP K) e => (x.2.2.2 e).2) (by fun_prop)

theorem meas_impulse (d s : ℝ) : Measurable fun x : ℝ × ℝ => impulse x.1 x.2 d s := by unfold impulse; fun_prop

theorem meas_lnImpulse (d s : ℝ) : Measurable fun x : ℝ × ℝ => lnImpulse s x.1 x.2 d := by
  unfold lnImpulse
  split_ifs
  · exact measurable_const
  · exact measurable_const
  · dsimp only; fun_prop

theorem meas_Weff (i j : ℕ) : Measurable fun x : AWP K => (ctRateParams P x.1 x.2.1 x.2.2.1 x.2.2.2).Weff i j := (meas_A P i j).mul (meas_W P i j)

theorem meas_contribution (n m : ℕ) : Measurable fun x : AWP K => contribution (ctRateParams P x.1 x.2.1 x.2.2.1 x.2.2.2) D n m := by
  unfold contribution
  change Measurable fun x : AWP K => if 1e-8 ≤ D.S n - D.S m ∧ D.S n - D.S m ≤ P.dtMax - 1e-8 then _ else (0 : ℝ)
  split_ifs
  · refine ((meas_A P _ _).mul (meas_W P _ _)).mul ?_
    exact (meas_impulse P.dtMax (D.S n - D.S m)).comp ((meas_mu P _ _).prodMk (meas_tau P _ _))
  · exact measurable_const

theorem meas_cumProb (n m : ℕ) : Measurable fun x : AWP K => cumProb (ctRateParams P x.1 x.2.1 x.2.2.1 x.2.2.2) D n m := by
  unfold cumProb totalRate
  exact ((meas_lam P _).add (Finset.measurable_sum _ fun j _ => meas_contribution P D n j)).div ((meas_lam P _).add (Finset.measurable_sum _ fun j _ => meas_contribution P D n j))

theorem meas_parWeight (n m : ℕ) : Measurable fun x : AWP K => parWeight (ctRateParams P x.1 x.2.1 x.2.2.1 x.2.2.2) D n m := by
  have h : Measurable fun x : AWP K => lnImpulse (D.S n - D.S m) ((ctRateParams P x.1 x.2.1 x.2.2.1 x.2.2.2).mu (D.C m) (D.C n)) ((ctRateParams P x.1 x.2.1 x.2.2.1 x.2.2.2).tau (D.C m) (D.C n)) P.dtMax :=
    (meas_lnImpulse P.dtMax (D.S n - D.S m)).comp (f := fun x : AWP K => ((ctRateParams P x.1 x.2.1 x.2.2.1 x.2.2.2).mu (D.C m) (D.C n), (ctRateParams P x.1 x.2.1 x.2.2.1 x.2.2.2).tau (D.C m) (D.C n)))
      ((meas_mu P _ _).prodMk (meas_tau P _ _))
  exact (meas_Weff P (D.C m) (D.C n)).mul h

theorem meas_rateScan (n m : ℕ) {lam : AWP K → ℝ} (hl : Measurable lam) : Measurable fun x : AWP K => rateScan (ctRateParams P x.1 x.2.1 x.2.2.1 x.2.2.2) D n m (lam x) := by
  induction m generalizing lam with
  | zero => exact hl
  | succ m ih =>
    unfold rateScan
    dsimp only
    change Measurable fun x : AWP K => if D.S n - D.S m < 1e-8 then _ else if P.dtMax - 1e-8 ≤ D.S n - D.S m then _ else _
    split_ifs
    · exact ih hl
    · exact hl
    · refine Measurable.ite (measurableSet_lt measurable_const (meas_Weff P _ _)) (ih (hl.add ?_)) (ih hl)
      exact meas_parWeight P D n m

theorem meas_ctLogLik (dl : List CTData) : Measurable fun x : AWP K => ctLogLik (ctRateParams P x.1 x.2.1 x.2.2.1 x.2.2.2) dl := by
  simp only [ctLogLik_sum]
  have : ∀ d, Measurable fun x : AWP K => -(∑ k ∈ range P.K, integratedRate (ctRateParams P x.1 x.2.1 x.2.2.1 x.2.2.2) d k) +
      ∑ n ∈ range d.N, Real.log (rateAtEvents (ctRateParams P x.1 x.2.1 x.2.2.1 x.2.2.2) d n) := by
    intro d
    refine (Finset.measurable_sum _ fun k _ => ?_).neg.add (Finset.measurable_sum _ fun n _ => Real.measurable_log.comp ?_)
    · unfold integratedRate
      exact ((meas_lam P k).mul_const _).add (Finset.measurable_sum (range P.K) fun i _ => (meas_Weff P i k).mul_const _)
    · unfold rateAtEvents
      exact meas_rateScan P d n n (measurable_const.add (meas_lam P _))
  induction dl with
  | nil => exact measurable_const
  | cons d dl ih => simp only [List.map_cons, List.sum_cons]; exact (this d).add ih

theorem meas_zSel {X : Type*} [MeasurableSpace X] {f : X → ℕ → ℝ} (hf : ∀ m, Measurable fun x => f x m) (n : ℕ) {u : X → ℝ} (hu : Measurable u) : Measurable fun x => zSel (f x) n (u x) := by
  unfold zSel
  refine Measurable.ite (measurableSet_lt hu (hf 0)) measurable_const (Finset.measurable_sum _ fun m _ => ?_)
  exact Measurable.ite ((measurableSet_le (hf m) hu).inter (measurableSet_lt hu (hf (m + 1)))) measurable_const measurable_const

end

/-! ### conditional probabilities of the parents -/

/-- weight of the parent `w` of event `n` -/
noncomputable def parFac (P : CTParams) (D : CTData) (n : ℕ) (w : ℤ) : ℝ := if w = -1 then P.lam0 (D.C n) else if 0 ≤ w ∧ w < n then contribution P D n w.toNat else 0

section
variable {U : Type*} [MeasurableSpace U] {μ : Measure U} (G : Generator μ)

theorem sel_law (P : CTParams) (D : CTData) (hP : CTOk P) (hL : LabelsOk P.K D) (hS : SortedTimes D) (n : ℕ) (hn : n < D.N) (w : ℤ) :
    μ.map (fun u => zSel (cumProb P D n) n (G.unif u)) {w} = ENNReal.ofReal (parFac P D n w / totalRate P D n) := by
  have mz : Measurable fun x : ℝ => zSel (cumProb P D n) n x := meas_zSel (f := fun _ => cumProb P D n) (fun m => measurable_const) n measurable_id
  have e1 : (fun u => zSel (cumProb P D n) n (G.unif u)) = (fun x => zSel (cumProb P D n) n x) ∘ G.unif := rfl
  rw [e1, ← Measure.map_map mz G.unif_meas, G.unif_law, Measure.map_apply mz (measurableSet_singleton _), Measure.restrict_apply (mz (measurableSet_singleton _))]
  have e2 : (fun x => zSel (cumProb P D n) n x) ⁻¹' {w} ∩ Set.Ico 0 1 = {x : ℝ | 0 ≤ x ∧ x < 1 ∧ selParent P D n x = w} := by
    ext x
    simp only [Set.mem_inter_iff, Set.mem_preimage, Set.mem_singleton_iff, Set.mem_Ico, Set.mem_ofPred_eq]
    constructor
    · rintro ⟨h1, h2, h3⟩; exact ⟨h2, h3, by rw [← zSel_eq P D hP hL hS n hn x h3]; exact h1⟩
    · rintro ⟨h1, h2, h3⟩; exact ⟨by rw [zSel_eq P D hP hL hS n hn x h2]; exact h3, h1, h2⟩
  rw [e2]
  unfold parFac
  by_cases hw : w = -1
  · subst hw
    rw [if_pos rfl]; exact sel_prob_bkgd P D hP hL hS n hn
  · rw [if_neg hw]
    by_cases hw2 : 0 ≤ w ∧ w < n
    · rw [if_pos hw2]
      have := sel_prob P D hP hL hS n hn w.toNat (by omega)
      rw [Int.toNat_of_nonneg hw2.1] at this
      exact this
    · rw [if_neg hw2, zero_div, ENNReal.ofReal_zero]
      convert measure_empty (μ := volume)
      ext x
      simp only [Set.mem_ofPred_eq, Set.mem_empty_iff_false, iff_false]
      rintro ⟨h0, h1, h2⟩
      rcases sel_valid P D hP hL hS n hn x h1 with h | ⟨m, h, hm, -⟩
      · exact hw (h2 ▸ h)
      · rw [h2] at h; exact hw2 (by omega)

end

/-! ### the product over events, sorted by parent and child process -/

theorem prod_by_parent {K : ℕ} {D : CTData} (hL : LabelsOk K D) {Z : ℕ → ℤ} (hZ : ∀ n < D.N, Z n = -1 ∨ (0 ≤ Z n ∧ Z n < n)) (a : ℕ → ℝ) (b : ℕ → ℕ → ℕ → ℝ) :
    ∏ n ∈ range D.N, (if Z n = -1 then a (D.C n) else b (D.C (Z n).toNat) (D.C n) n)
      = (∏ k : Fin K, a k ^ bkgdCount D Z k) * ∏ e : Pair K, ∏ n ∈ children D Z e.1 e.2, b e.1 e.2 n := by
  rw [prod_ite]
  congr 1
  · have : ∀ n ∈ (range D.N).filter (fun n => Z n = -1), D.C n ∈ range K := fun n hn => mem_range.2 (hL n (mem_range.1 (mem_filter.1 hn).1))
    rw [← prod_fiberwise_of_maps_to this, ← Fin.prod_univ_eq_prod_range]
    refine prod_congr rfl fun k _ => ?_
    rw [prod_congr rfl (g := fun _ => a k) fun n hn => by rw [(mem_filter.1 hn).2], prod_const, filter_filter]
    rfl
  · have : ∀ n ∈ (range D.N).filter (fun n => ¬ Z n = -1), (D.C (Z n).toNat, D.C n) ∈ range K ×ˢ range K := fun n hn => by
      have h1 := mem_range.1 (mem_filter.1 hn).1
      have h2 := (hZ n h1).resolve_left (mem_filter.1 hn).2
      exact mem_product.2 ⟨mem_range.2 (hL _ (by omega)), mem_range.2 (hL n h1)⟩
    rw [← prod_fiberwise_of_maps_to this, prod_product, Fintype.prod_prod_type, ← Fin.prod_univ_eq_prod_range]
    refine prod_congr rfl fun i _ => ?_
    rw [← Fin.prod_univ_eq_prod_range]
    refine prod_congr rfl fun j _ => ?_
    dsimp only
    have e : ((range D.N).filter fun n => ¬ Z n = -1).filter (fun n => (D.C (Z n).toNat, D.C n) = ((i : ℕ), (j : ℕ))) = children D Z i j := by
      ext n
      unfold children
      simp only [mem_filter, mem_range, Prod.mk.injEq]
      constructor
      · rintro ⟨⟨h1, h2⟩, h3⟩; exact ⟨h1, ((hZ n h1).resolve_left h2).1, h3⟩
      · rintro ⟨h1, h2, h3⟩; exact ⟨⟨h1, by omega⟩, h3⟩
    rw [e]
    refine prod_congr rfl fun n hn => ?_
    unfold children at hn
    obtain ⟨-, -, h1, h2⟩ := mem_filter.1 hn
    rw [h1, h2]

theorem zN_in {D : CTData} (z : ZCT D) {n : ℕ} (hn : n < D.N) : zN z n = z ⟨n, hn⟩ := dif_pos hn

theorem good_range {D : CTData} {d : ℝ} {z : ZCT D} (h : GoodZ D d z) : ∀ n < D.N, zN z n = -1 ∨ (0 ≤ zN z n ∧ zN z n < n) := by
  intro n hn
  rw [zN_in z hn]
  rcases h ⟨n, hn⟩ with h | ⟨m, h, hm, -⟩
  · exact .inl h
  · right; rw [h]; dsimp only at hm; omega

/-- the product of the parents' weights -/
theorem parFac_prod (c : CTParams) {D : CTData} (hL : LabelsOk c.K D) (A W : Pair c.K → ℝ) (φ : PhiCT c.K) (z : ZCT D) (h : GoodZ D c.dtMax z) :
    ∏ n : Fin D.N, parFac (ctRateParams c A W φ.1 φ.2) D n (z n) = (∏ k : Fin c.K, φ.1 k ^ bkgdCount D (zN z) k) *
      ∏ e : Pair c.K, ((A e * W e) ^ (children D (zN z) e.1 e.2).card * ∏ n ∈ children D (zN z) e.1 e.2, impulse (φ.2 e).1 (φ.2 e).2 c.dtMax (D.S n - D.S (zN z n).toNat)) := by
  set P := ctRateParams c A W φ.1 φ.2 with hP
  have e1 : ∏ n : Fin D.N, parFac P D n (z n) = ∏ n ∈ range D.N, parFac P D n (zN z n) := by
    rw [← Fin.prod_univ_eq_prod_range (fun n => parFac P D n (zN z n))]
    exact prod_congr rfl fun n _ => by rw [zN_in z n.2]
  have e2 : ∀ n ∈ range D.N, parFac P D n (zN z n) = if zN z n = -1 then P.lam0 (D.C n) else
      (fun i j n => P.A i j * P.W i j * impulse (P.mu i j) (P.tau i j) c.dtMax (D.S n - D.S (zN z n).toNat)) (D.C (zN z n).toNat) (D.C n) n := by
    intro n hn
    have hn' := mem_range.1 hn
    unfold parFac
    by_cases h1 : zN z n = -1
    · rw [if_pos h1, if_pos h1]
    · rw [if_neg h1, if_neg h1]
      have h2 := (good_range h n hn').resolve_left h1
      rw [if_pos h2]
      unfold contribution
      dsimp only
      rw [if_pos]
      · rfl
      · rw [zN_in z hn'] at h1 ⊢
        rcases h ⟨n, hn'⟩ with h | ⟨m, h, hm, hw⟩
        · exact absurd h h1
        · rw [h, Int.toNat_natCast]; exact hw
  rw [e1, prod_congr rfl e2, prod_by_parent hL (good_range h) P.lam0 (fun i j n => P.A i j * P.W i j * impulse (P.mu i j) (P.tau i j) c.dtMax (D.S n - D.S (zN z n).toNat))]
  congr 1
  · exact prod_congr rfl fun k _ => by rw [hP, ctRate_lam _ _ _ _ _ k.2]
  · refine prod_congr rfl fun e _ => ?_
    have ha : P.A e.1 e.2 = A e := padM_in A e.1.2 e.2.2
    have hw : P.W e.1 e.2 = W e := padM_in W e.1.2 e.2.2
    have hm : P.mu e.1 e.2 = (φ.2 e).1 := padM_in (fun e => (φ.2 e).1) e.1.2 e.2.2
    have ht : P.tau e.1 e.2 = (φ.2 e).2 := padM_in (fun e => (φ.2 e).2) e.1.2 e.2.2
    rw [ha, hw, hm, ht, prod_mul_distrib, prod_const]

theorem parFac_bad (c : CTParams) {D : CTData} (P : CTParams) (hdt : P.dtMax = c.dtMax) (z : ZCT D) (h : ¬ GoodZ D c.dtMax z) : ∃ n : Fin D.N, parFac P D n (z n) = 0 := by
  unfold GoodZ at h
  push Not at h
  obtain ⟨n, h1, h2⟩ := h
  refine ⟨n, ?_⟩
  unfold parFac
  rw [if_neg h1]
  split_ifs with h3
  · unfold contribution
    dsimp only
    rw [if_neg]
    rintro ⟨h4, h5⟩
    have := h2 (z n).toNat (by omega) (by omega) h4
    rw [hdt] at h5
    exact absurd h5 (not_le.2 this)
  · rfl

/-- the likelihood of one data set -/
theorem ctLik_eq (P : CTParams) (D : CTData) (hP : CTOk P) (hL : LabelsOk P.K D) (hS : SortedTimes D) (hb : ∀ n < D.N, ∀ j < n, ¬ BoundaryLag P D n j) :
    Real.exp (ctLogLik P [D]) = (∏ n : Fin D.N, totalRate P D n) * ((∏ k : Fin P.K, Real.exp (-(P.lam0 k * D.T))) * ∏ e : Pair P.K, Real.exp (-(P.A e.1 e.2 * P.W e.1 e.2 * D.Ns e.1))) := by
  obtain ⟨h1, h2⟩ := C70_log_likelihood P [D] hP (by intro D' hD'; rw [List.mem_singleton.1 hD']; exact ⟨hL, hS, hb⟩)
  have hpos := h2 D (List.mem_singleton.2 rfl)
  rw [h1, List.map_singleton, List.sum_singleton, sub_eq_add_neg, Real.exp_add, Real.exp_sum]
  congr 1
  · rw [← Fin.prod_univ_eq_prod_range (fun n => Real.exp (Real.log (totalRate P D n)))]
    exact prod_congr rfl fun n _ => Real.exp_log (hpos n n.2)
  · rw [← Real.exp_sum, ← Real.exp_sum, ← Real.exp_add]
    congr 1
    rw [sum_add_distrib, neg_add, ← sum_neg_distrib, ← sum_neg_distrib, ← Fin.sum_univ_eq_sum_range]
    congr 1
    rw [← Fin.sum_univ_eq_sum_range, Fintype.sum_prod_type, sum_comm]
    refine sum_congr rfl fun k _ => ?_
    rw [Ns_sum D P.K hL (fun i => P.A i k * P.W i k), ← Fin.sum_univ_eq_sum_range, ← sum_neg_distrib]

end PyHawkes
