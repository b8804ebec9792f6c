import Verif.Props.NetErgodic
import Verif.Spec.PosteriorLabels

/-!
# Gibbs updates of block labels, one node at a time (used for C96)
-/
set_option linter.unusedSectionVars false
set_option linter.unusedVariables false

namespace PyHawkes
open Finset Spec MeasureTheory ProbabilityTheory

section
variable {U : Type*} [MeasurableSpace U] {μ : Measure U} (Ls : LabelSampler μ) {C : ℕ} (hC : 0 < C)

/-- the drawn label -/
def pick (lp : Vec ℝ) (u : U) : Fin C := ⟨Ls.lab C (arr C lp) u, Ls.lab_lt C _ u hC⟩

theorem arr_meas (n : ℕ) : Measurable fun p : Vec ℝ => arr n p := by
  rw [measurable_pi_iff]; intro j
  unfold arr
  split_ifs <;> fun_prop

theorem pick_meas : Measurable fun x : Vec ℝ × U => pick Ls hC x.1 x.2 := by
  have h : Measurable fun x : Vec ℝ × U => Ls.lab C (arr C x.1) x.2 :=
    (Ls.lab_meas C).comp (f := fun x : Vec ℝ × U => (arr C x.1, x.2)) (((arr_meas C).comp measurable_fst).prodMk measurable_snd)
  refine measurable_to_countable' fun b => ?_
  have e : (fun x : Vec ℝ × U => pick Ls hC x.1 x.2) ⁻¹' {b} = (fun x : Vec ℝ × U => Ls.lab C (arr C x.1) x.2) ⁻¹' {(b : ℕ)} := by
    ext x
    simp only [Set.mem_preimage, Set.mem_singleton_iff, pick, Fin.ext_iff]
  rw [e]
  exact h (measurableSet_singleton _)

theorem exp_sum_pos (hC : 0 < C) (lp : Vec ℝ) : 0 < ∑ j ∈ range C, Real.exp (lp j) := sum_pos (fun j _ => Real.exp_pos _) ⟨0, mem_range.2 hC⟩

theorem pick_lintegral (lp : Vec ℝ) (F : Fin C → ENNReal) :
    ∫⁻ u, F (pick Ls hC lp u) ∂μ = ∑ b : Fin C, ENNReal.ofReal (Real.exp (lp b) / ∑ j ∈ range C, Real.exp (lp j)) * F b := by
  have m : Measurable fun u => pick Ls hC lp u := (pick_meas Ls hC).comp (f := fun u => (lp, u)) (by fun_prop)
  rw [← lintegral_map (μ := μ) (f := F) (g := fun u => pick Ls hC lp u) (measurable_of_finite F) m, lintegral_fintype]
  refine sum_congr rfl fun b _ => ?_
  rw [Measure.map_apply m (measurableSet_singleton b), mul_comm]
  congr 1
  have := Ls.lab_law C (arr C lp) b b.2
  have e1 : ∀ j < C, arr C lp j = lp j := fun j hj => if_pos hj
  have e2 : ∑ j ∈ range C, Real.exp (arr C lp j) = ∑ j ∈ range C, Real.exp (lp j) := sum_congr rfl fun j hj => by rw [e1 j (mem_range.1 hj)]
  rw [e1 b b.2, e2] at this
  rw [← this]
  congr 1
  ext u
  simp only [Set.mem_preimage, Set.mem_singleton_iff, pick, Fin.ext_iff, Set.mem_ofPred_eq]

variable {ι : Type*} [Fintype ι] [DecidableEq ι]

/-- redraw the label of node `k` -/
def labStep (lp : (ι → Fin C) → ι → Vec ℝ) (k : ι) (u : U) (c : ι → Fin C) : ι → Fin C := Function.update c k (pick Ls hC (lp c k) u)

/-- redraw the labels of the nodes of `l` in order -/
def labSweep (lp : (ι → Fin C) → ι → Vec ℝ) (x : ι → U) (l : List ι) (c : ι → Fin C) : ι → Fin C := l.foldl (fun c k => labStep Ls hC lp k (x k) c) c

theorem labSweep_cons (lp : (ι → Fin C) → ι → Vec ℝ) (x : ι → U) (k : ι) (l : List ι) (c : ι → Fin C) :
    labSweep Ls hC lp x (k :: l) c = labSweep Ls hC lp x l (labStep Ls hC lp k (x k) c) := rfl

theorem labSweep_congr (lp : (ι → Fin C) → ι → Vec ℝ) (l : List ι) {x y : ι → U} (h : ∀ k ∈ l, x k = y k) (c : ι → Fin C) : labSweep Ls hC lp x l c = labSweep Ls hC lp y l c := by
  unfold labSweep
  induction l generalizing c with
  | nil => rfl
  | cons k l ih => rw [List.foldl_cons, List.foldl_cons, h k List.mem_cons_self]; exact ih (fun e he => h e (List.mem_cons_of_mem _ he)) _

theorem labStep_meas {Z : Type*} [MeasurableSpace Z] {lp : Z → (ι → Fin C) → ι → Vec ℝ} (hlp : ∀ c k, Measurable fun z => lp z c k) (k : ι) :
    Measurable fun x : Z × U × (ι → Fin C) => labStep Ls hC (lp x.1) k x.2.1 x.2.2 := by
  have : Measurable fun y : (ι → Fin C) × (Z × U) => labStep Ls hC (lp y.2.1) k y.2.2 y.1 := by
    refine measurable_from_prod_countable_right fun c => ?_
    unfold labStep
    have hp : Measurable fun y : Z × U => pick Ls hC (lp y.1 c k) y.2 := (pick_meas Ls hC).comp (f := fun y : Z × U => (lp y.1 c k, y.2)) (((hlp c k).comp measurable_fst).prodMk measurable_snd)
    exact (measurable_of_finite fun b : Fin C => Function.update c k b).comp hp
  exact this.comp (f := fun x : Z × U × (ι → Fin C) => (x.2.2, (x.1, x.2.1))) (by fun_prop)

theorem labSweep_meas {Z : Type*} [MeasurableSpace Z] {lp : Z → (ι → Fin C) → ι → Vec ℝ} (hlp : ∀ c k, Measurable fun z => lp z c k) (l : List ι) :
    Measurable fun x : Z × (ι → U) × (ι → Fin C) => labSweep Ls hC (lp x.1) x.2.1 l x.2.2 := by
  unfold labSweep
  have : ∀ f : Z × (ι → U) × (ι → Fin C) → ι → Fin C, Measurable f → Measurable fun x => l.foldl (fun c k => labStep Ls hC (lp x.1) k (x.2.1 k) c) (f x) := by
    induction l with
    | nil => exact fun f hf => hf
    | cons k l ih =>
      intro f hf
      exact ih _ ((labStep_meas Ls hC hlp k).comp (f := fun x : Z × (ι → U) × (ι → Fin C) => (x.1, x.2.1 k, f x)) (by fun_prop))
  exact this _ (by fun_prop)

variable [IsProbabilityMeasure μ]

/-- the seed of one node integrated out first -/
theorem labSweep_split (lp : (ι → Fin C) → ι → Vec ℝ) (k : ι) (l : List ι) (hk : k ∉ l) (T : (ι → Fin C) → ENNReal) (c : ι → Fin C) :
    ∫⁻ x, T (labSweep Ls hC lp x (k :: l) c) ∂Measure.pi (fun _ => μ)
      = ∑ b : Fin C, ENNReal.ofReal (Real.exp (lp c k b) / ∑ j ∈ range C, Real.exp (lp c k j)) * ∫⁻ x, T (labSweep Ls hC lp x l (Function.update c k b)) ∂Measure.pi (fun _ => μ) := by
  have mS : ∀ l : List ι, Measurable fun y : (ι → U) × (ι → Fin C) => T (labSweep Ls hC lp y.1 l y.2) := fun l =>
    (measurable_of_finite T).comp ((labSweep_meas Ls hC (Z := Unit) (lp := fun _ => lp) (fun c k => measurable_const) l).comp (f := fun y : (ι → U) × (ι → Fin C) => ((), y)) (by fun_prop))
  have m1 : Measurable fun x => T (labSweep Ls hC lp x (k :: l) c) := (mS (k :: l)).comp (f := fun x => (x, c)) (by fun_prop)
  have m2 : Measurable fun y : (ι → U) × U => T (labSweep Ls hC lp y.1 l (labStep Ls hC lp k y.2 c)) :=
    (mS l).comp (f := fun y : (ι → U) × U => (y.1, labStep Ls hC lp k y.2 c)) (measurable_fst.prodMk
      ((labStep_meas Ls hC (Z := Unit) (lp := fun _ => lp) (fun c k => measurable_const) k).comp (f := fun y : (ι → U) × U => ((), y.2, c)) (by fun_prop)))
  rw [lintegral_update (fun _ => μ) k m1]
  calc _ = ∫⁻ x, ∫⁻ t, T (labSweep Ls hC lp x l (labStep Ls hC lp k t c)) ∂μ ∂Measure.pi (fun _ => μ) := by
        refine lintegral_congr fun x => lintegral_congr fun t => ?_
        rw [labSweep_cons, Function.update_self]
        congr 1
        exact labSweep_congr Ls hC lp l (fun j hj => Function.update_of_ne (show j ≠ k from fun h => hk (h ▸ hj)) _ _) _
    _ = ∫⁻ t, ∫⁻ x, T (labSweep Ls hC lp x l (labStep Ls hC lp k t c)) ∂Measure.pi (fun _ => μ) ∂μ := lintegral_lintegral_swap m2.aemeasurable
    _ = _ := pick_lintegral Ls hC (lp c k) fun b => ∫⁻ x, T (labSweep Ls hC lp x l (Function.update c k b)) ∂Measure.pi (fun _ => μ)

/-- exchanging the label of one node -/
theorem sum_exchange (k : ι) (F : (ι → Fin C) → (Fin C) → ENNReal) : ∑ c : ι → Fin C, ∑ b, F c b = ∑ c : ι → Fin C, ∑ b, F (Function.update c k b) (c k) := by
  rw [← Fintype.sum_prod_type', ← Fintype.sum_prod_type' (f := fun c b => F (Function.update c k b) (c k))]
  let σ : (ι → Fin C) × Fin C → (ι → Fin C) × Fin C := fun y => (Function.update y.1 k y.2, y.1 k)
  have hσ : Function.Involutive σ := fun y => by
    refine Prod.ext ?_ ?_
    · change Function.update (Function.update y.1 k y.2) k (y.1 k) = y.1
      rw [Function.update_idem, Function.update_eq_self]
    · change Function.update y.1 k y.2 k = y.2
      rw [Function.update_self]
  exact (Equiv.sum_comp hσ.toPerm fun y => F y.1 y.2).symm

include hC in
/-- one node: redrawing its label given the others leaves the distribution of the labels invariant -/
theorem lab_site_invariant (lp : (ι → Fin C) → ι → Vec ℝ) {w : (ι → Fin C) → ℝ} (hw : ∀ c, 0 < w c) (k : ι) (hlp : ∀ c, ∃ a, ∀ b : Fin C, lp c k b = a + Real.log (w (Function.update c k b)))
    (T : (ι → Fin C) → ENNReal) :
    ∑ c : ι → Fin C, ENNReal.ofReal (w c) * ∑ b : Fin C, ENNReal.ofReal (Real.exp (lp c k b) / ∑ j ∈ range C, Real.exp (lp c k j)) * T (Function.update c k b)
      = ∑ c : ι → Fin C, ENNReal.ofReal (w c) * T c := by
  have hq : ∀ (c : ι → Fin C) (b : Fin C), Real.exp (lp c k b) / ∑ j ∈ range C, Real.exp (lp c k j) = w (Function.update c k b) / ∑ j : Fin C, w (Function.update c k j) := by
    intro c b
    obtain ⟨a, ha⟩ := hlp c
    rw [← Fin.sum_univ_eq_sum_range (fun j => Real.exp (lp c k j)) C]
    simp only [ha, Real.exp_add, Real.exp_log (hw _)]
    rw [← mul_sum, mul_div_mul_left _ _ (Real.exp_pos a).ne']
  have hS : ∀ c : ι → Fin C, 0 < ∑ j : Fin C, w (Function.update c k j) := fun c => sum_pos (fun j _ => hw _) ⟨⟨0, hC⟩, mem_univ _⟩
  simp only [hq, mul_sum]
  rw [sum_exchange k]
  refine sum_congr rfl fun c _ => ?_
  simp only [Function.update_idem, Function.update_eq_self]
  rw [← sum_mul, ← ENNReal.ofReal_sum_of_nonneg fun b _ => (hw _).le, ← mul_assoc, ← ENNReal.ofReal_mul (hS c).le, mul_div_cancel₀ _ (hS c).ne']

/-- **Redrawing the labels one after the other leaves the distribution of the labels invariant.** -/
theorem labels_invariant (lp : (ι → Fin C) → ι → Vec ℝ) {w : (ι → Fin C) → ℝ} (hw : ∀ c, 0 < w c) (hlp : ∀ c k, ∃ a, ∀ b : Fin C, lp c k b = a + Real.log (w (Function.update c k b)))
    (l : List ι) (hl : l.Nodup) (T : (ι → Fin C) → ENNReal) :
    ∑ c : ι → Fin C, ENNReal.ofReal (w c) * ∫⁻ x, T (labSweep Ls hC lp x l c) ∂Measure.pi (fun _ => μ) = ∑ c : ι → Fin C, ENNReal.ofReal (w c) * T c := by
  induction l with
  | nil =>
    refine sum_congr rfl fun c _ => ?_
    change _ * ∫⁻ _, T c ∂_ = _
    rw [lintegral_const, measure_univ, mul_one]
  | cons k l ih =>
    obtain ⟨hk, hl⟩ := List.nodup_cons.1 hl
    simp only [labSweep_split Ls hC lp k l hk T]
    rw [lab_site_invariant hC lp hw k (fun c => hlp c k) fun c => ∫⁻ x, T (labSweep Ls hC lp x l c) ∂Measure.pi (fun _ => μ)]
    exact ih hl

/-- every labelling of the nodes of `l` is possible -/
theorem labels_null (lp : (ι → Fin C) → ι → Vec ℝ) (l : List ι) (hl : l.Nodup) (T : (ι → Fin C) → ENNReal) (c : ι → Fin C) :
    ∫⁻ x, T (labSweep Ls hC lp x l c) ∂Measure.pi (fun _ => μ) = 0 ↔ ∀ c', (∀ k, k ∉ l → c' k = c k) → T c' = 0 := by
  induction l generalizing c with
  | nil =>
    have e : ∀ x : ι → U, labSweep Ls hC lp x [] c = c := fun _ => rfl
    simp only [e, lintegral_const, measure_univ, mul_one]
    constructor
    · intro h c' hc'
      rw [funext fun k => hc' k (by simp)]; exact h
    · exact fun h => h c fun _ _ => rfl
  | cons k l ih =>
    obtain ⟨hk, hl⟩ := List.nodup_cons.1 hl
    rw [labSweep_split Ls hC lp k l hk T, sum_eq_zero_iff]
    have hpos : ∀ b : Fin C, ENNReal.ofReal (Real.exp (lp c k b) / ∑ j ∈ range C, Real.exp (lp c k j)) ≠ 0 := fun b => by
      rw [Ne, ENNReal.ofReal_eq_zero, not_le]
      exact div_pos (Real.exp_pos _) (exp_sum_pos hC _)
    constructor
    · intro h c' hc'
      have h1 := (mul_eq_zero.1 (h (c' k) (mem_univ _))).resolve_left (hpos _)
      refine (ih hl _).1 h1 c' fun j hj => ?_
      by_cases e : j = k
      · subst e; rw [Function.update_self]
      · rw [Function.update_of_ne e]
        exact hc' j (by simp [e, hj])
    · intro h b _
      refine mul_eq_zero_of_right _ ((ih hl _).2 fun c' hc' => h c' fun j hj => ?_)
      rw [List.mem_cons, not_or] at hj
      rw [hc' j hj.2, Function.update_of_ne hj.1]

end

end PyHawkes
