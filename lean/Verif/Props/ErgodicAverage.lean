import Verif.Props.ChainConverge
import Verif.Props.ChainSpace
import Mathlib.MeasureTheory.Integral.Layercake
import Mathlib.Analysis.Asymptotics.SpecificAsymptotics
import Mathlib.MeasureTheory.Function.ConvergenceInMeasure

/-!
# Averages along a chain that converges from every start (used for C95)
-/
set_option linter.unusedSectionVars false
set_option linter.unusedVariables false

namespace PyHawkes
open Spec MeasureTheory ProbabilityTheory Filter Topology

/-- a chain driven by fresh seeds -/
structure IsChain {Ω Θ Sd : Type*} [MeasurableSpace Ω] [MeasurableSpace Θ] [MeasurableSpace Sd] (Pr : Measure Ω) (sl : Measure Sd) (sweep : Θ → Sd → Θ) (X : ℕ → Ω → Θ) (y : ℕ → Ω → Sd) : Prop where
  succ : ∀ t ω, X (t + 1) ω = sweep (X t ω) (y t ω)
  meas : AEMeasurable (X 0) Pr
  law : ∀ t, HasLaw (y t) sl Pr
  fresh : ∀ t, IndepFun (fun ω => (X 0 ω, fun i : Fin t => y i ω)) (y t) Pr

/-- expectation after one step -/
noncomputable def tOp {Θ Sd : Type*} [MeasurableSpace Sd] (sl : Measure Sd) (sweep : Θ → Sd → Θ) (G : Θ → ℝ) (θ : Θ) : ℝ := ∫ v, G (sweep θ v) ∂sl

section
variable {Ω Θ Sd : Type*} [MeasurableSpace Ω] [MeasurableSpace Θ] [MeasurableSpace Sd] {Pr : Measure Ω} [IsProbabilityMeasure Pr]
  {sl : Measure Sd} [IsProbabilityMeasure sl] {sweep : Θ → Sd → Θ} (ms : Measurable fun y : Θ × Sd => sweep y.1 y.2) {X : ℕ → Ω → Θ} {y : ℕ → Ω → Sd}

theorem bounded_integrable {α : Type*} [MeasurableSpace α] {μ : Measure α} [IsFiniteMeasure μ] {g : α → ℝ} (hg : AEStronglyMeasurable g μ) {C : ℝ} (hC : ∀ a, |g a| ≤ C) : Integrable g μ :=
  Integrable.of_bound hg C (Eventually.of_forall hC)

include ms in
theorem tOp_meas {G : Θ → ℝ} (mG : Measurable G) : Measurable (tOp sl sweep G) := by
  have := (mG.comp ms).stronglyMeasurable.integral_prod_right' (ν := sl)
  exact this.measurable

theorem tOp_bound {G : Θ → ℝ} {C : ℝ} (hC : ∀ θ, |G θ| ≤ C) (θ : Θ) : |tOp sl sweep G θ| ≤ C := by
  unfold tOp
  refine (norm_integral_le_of_norm_le_const (μ := sl) (C := C) (f := fun v => G (sweep θ v)) (Eventually.of_forall fun v => hC _)).trans ?_
  simp

include ms in
theorem tOp_iter_meas {G : Θ → ℝ} (mG : Measurable G) (n : ℕ) : Measurable ((tOp sl sweep)^[n] G) := by
  induction n with
  | zero => exact mG
  | succ n ih => rw [Function.iterate_succ_apply']; exact tOp_meas ms ih

theorem tOp_iter_bound {G : Θ → ℝ} {C : ℝ} (hC : ∀ θ, |G θ| ≤ C) (n : ℕ) (θ : Θ) : |(tOp sl sweep)^[n] G θ| ≤ C := by
  induction n generalizing θ with
  | zero => exact hC θ
  | succ n ih => rw [Function.iterate_succ_apply']; exact tOp_bound ih θ

theorem tOp_nonneg {G : Θ → ℝ} (h0 : ∀ θ, 0 ≤ G θ) (n : ℕ) (θ : Θ) : 0 ≤ (tOp sl sweep)^[n] G θ := by
  induction n generalizing θ with
  | zero => exact h0 θ
  | succ n ih => rw [Function.iterate_succ_apply']; exact integral_nonneg fun v => ih _

include ms in
theorem IsChain.fun (hc : IsChain Pr sl sweep X y) (t : ℕ) : ∃ Φ : Θ × (Fin t → Sd) → Θ, Measurable Φ ∧ ∀ ω, X t ω = Φ (X 0 ω, fun i : Fin t => y i ω) := by
  induction t with
  | zero => exact ⟨Prod.fst, measurable_fst, fun ω => rfl⟩
  | succ t ih =>
    obtain ⟨Φ, hΦ, hΦe⟩ := ih
    refine ⟨fun z => sweep (Φ (z.1, fun i => z.2 i.castSucc)) (z.2 (Fin.last t)), ?_, fun ω => ?_⟩
    · refine ms.comp (f := fun z : Θ × (Fin (t + 1) → Sd) => (Φ (z.1, fun i => z.2 i.castSucc), z.2 (Fin.last t))) ?_
      exact (hΦ.comp (f := fun z : Θ × (Fin (t + 1) → Sd) => (z.1, fun i : Fin t => z.2 i.castSucc)) (by fun_prop)).prodMk (by fun_prop)
    · rw [hc.succ, hΦe]; rfl

theorem IsChain.past_meas (hc : IsChain Pr sl sweep X y) (t : ℕ) : AEMeasurable (fun ω => (X 0 ω, fun i : Fin t => y i ω)) Pr :=
  hc.meas.prodMk (aemeasurable_pi_lambda _ fun i => (hc.law i).aemeasurable)

include ms in
theorem IsChain.aemeas (hc : IsChain Pr sl sweep X y) (t : ℕ) : AEMeasurable (X t) Pr := by
  obtain ⟨Φ, hΦ, hΦe⟩ := hc.fun ms t
  rw [show X t = _ from funext hΦe]
  exact hΦ.comp_aemeasurable (hc.past_meas t)

/-- average over the seeds of the next step -/
theorem IsChain.int_past (hc : IsChain Pr sl sweep X y) {t : ℕ} {A : Type*} [MeasurableSpace A] {Φ : Θ × (Fin t → Sd) → A} (hΦ : Measurable Φ) {H : A × Sd → ℝ} (mH : Measurable H) {C : ℝ} (bH : ∀ z, |H z| ≤ C) :
    ∫ ω, H (Φ (X 0 ω, fun i : Fin t => y i ω), y t ω) ∂Pr = ∫ ω, (∫ v, H (Φ (X 0 ω, fun i : Fin t => y i ω), v) ∂sl) ∂Pr := by
  set Z : Ω → A := fun ω => Φ (X 0 ω, fun i : Fin t => y i ω) with hZ
  have mZ : AEMeasurable Z Pr := hΦ.comp_aemeasurable (hc.past_meas t)
  have iZ : IsProbabilityMeasure (Pr.map Z) := Measure.isProbabilityMeasure_map mZ
  have hi : IndepFun Z (y t) Pr := (hc.fresh t).comp hΦ measurable_id
  have hl := (indepFun_iff_hasLaw_prodMk_prod (⟨mZ, rfl⟩ : HasLaw Z (Pr.map Z) Pr) (hc.law t)).1 hi
  have e1 : ∫ ω, H (Z ω, y t ω) ∂Pr = ∫ z, H z ∂((Pr.map Z).prod sl) := by
    rw [← hl.map_eq, integral_map hl.aemeasurable mH.aestronglyMeasurable]
  have mi : StronglyMeasurable fun a => ∫ v, H (a, v) ∂sl := mH.stronglyMeasurable.integral_prod_right'
  rw [e1, integral_prod _ (bounded_integrable mH.aestronglyMeasurable bH), integral_map mZ mi.aestronglyMeasurable]

include ms in
/-- the correlation of a bounded function of the start with a bounded function of the state after `n` steps -/
theorem IsChain.int_iter (hc : IsChain Pr sl sweep X y) {F G : Θ → ℝ} (mF : Measurable F) (mG : Measurable G) {C : ℝ} (bF : ∀ θ, |F θ| ≤ C) (bG : ∀ θ, |G θ| ≤ C) (n : ℕ) :
    ∫ ω, F (X 0 ω) * G (X n ω) ∂Pr = ∫ ω, F (X 0 ω) * (tOp sl sweep)^[n] G (X 0 ω) ∂Pr := by
  induction n generalizing G with
  | zero => rfl
  | succ n ih =>
    obtain ⟨Φ, hΦ, hΦe⟩ := hc.fun ms n
    rw [Function.iterate_succ_apply, ← ih (tOp_meas ms mG) (tOp_bound bG)]
    have hH : Measurable fun z : (Θ × Θ) × Sd => F z.1.1 * G (sweep z.1.2 z.2) := by
      refine (mF.comp (f := fun z : (Θ × Θ) × Sd => z.1.1) (by fun_prop)).mul (mG.comp (f := fun z : (Θ × Θ) × Sd => sweep z.1.2 z.2) ?_)
      exact ms.comp (f := fun z : (Θ × Θ) × Sd => (z.1.2, z.2)) (by fun_prop)
    have key := hc.int_past (t := n) (A := Θ × Θ) (Φ := fun z => (z.1, Φ z)) (measurable_fst.prodMk hΦ) hH (C := C * C)
      (fun z => by rw [abs_mul]; exact mul_le_mul (bF _) (bG _) (abs_nonneg _) ((abs_nonneg _).trans (bF z.1.1)))
    simp only [hc.succ, hΦe]
    rw [key]
    refine integral_congr_ae (Eventually.of_forall fun ω => ?_)
    dsimp only
    rw [integral_const_mul]
    rfl

include ms in
theorem IsChain.shift (hc : IsChain Pr sl sweep X y) (b : ℕ) : IsChain Pr sl sweep (fun t => X (b + t)) (fun t => y (b + t)) := by
  refine ⟨fun t ω => hc.succ (b + t) ω, hc.aemeas ms b, fun t => hc.law _, fun t => ?_⟩
  obtain ⟨Φ, hΦ, hΦe⟩ := hc.fun ms b
  have := (hc.fresh (b + t)).comp (φ := fun z : Θ × (Fin (b + t) → Sd) => (Φ (z.1, fun i : Fin b => z.2 ⟨i, by omega⟩), fun i : Fin t => z.2 ⟨b + i, by omega⟩)) (ψ := id)
    ((hΦ.comp (f := fun z : Θ × (Fin (b + t) → Sd) => (z.1, fun i : Fin b => z.2 ⟨i, by omega⟩)) (by fun_prop)).prodMk (by fun_prop)) measurable_id
  have e : (fun ω => (X (b + 0) ω, fun i : Fin t => y (b + i) ω)) =
      (fun z : Θ × (Fin (b + t) → Sd) => (Φ (z.1, fun i : Fin b => z.2 ⟨i, by omega⟩), fun i : Fin t => z.2 ⟨b + i, by omega⟩)) ∘ fun ω => (X 0 ω, fun i : Fin (b + t) => y i ω) := by
    funext ω
    simp only [Function.comp_apply, add_zero, hΦe]
  rw [e]
  exact this

/-- another chain driven by the same seeds -/
theorem IsChain.augment (hc : IsChain Pr sl sweep X y) {Θ' : Type*} [MeasurableSpace Θ'] {sweep' : Θ' → Sd → Θ'} {X' : ℕ → Ω → Θ'} {u : Θ → Θ'} (hu : Measurable u) (h0 : ∀ ω, X' 0 ω = u (X 0 ω))
    (hs : ∀ t ω, X' (t + 1) ω = sweep' (X' t ω) (y t ω)) : IsChain Pr sl sweep' X' y := by
  refine ⟨hs, ?_, hc.law, fun t => ?_⟩
  · rw [show X' 0 = _ from funext h0]; exact hu.comp_aemeasurable hc.meas
  · have := (hc.fresh t).comp (φ := fun z : Θ × (Fin t → Sd) => (u z.1, z.2)) (ψ := id) ((hu.comp measurable_fst).prodMk measurable_snd) measurable_id
    simp only [h0]
    exact this

include ms in
theorem IsChain.map_succ (hc : IsChain Pr sl sweep X y) (t : ℕ) : Pr.map (X (t + 1)) = ((Pr.map (X t)).prod sl).map fun z => sweep z.1 z.2 := by
  obtain ⟨Φ, hΦ, hΦe⟩ := hc.fun ms t
  have hi : IndepFun (X t) (y t) Pr := by
    have := (hc.fresh t).comp hΦ measurable_id
    rw [show X t = Φ ∘ fun ω => (X 0 ω, fun i : Fin t => y i ω) from funext hΦe]; exact this
  have hl := (indepFun_iff_hasLaw_prodMk_prod (⟨hc.aemeas ms t, rfl⟩ : HasLaw (X t) (Pr.map (X t)) Pr) (hc.law t)).1 hi
  rw [← hl.map_eq, AEMeasurable.map_map_of_aemeasurable ms.aemeasurable hl.aemeasurable]
  congr 1
  funext ω
  exact hc.succ t ω

/-- a chain with any given starting distribution exists -/
theorem exists_chain (ν : Measure Θ) [IsProbabilityMeasure ν] : ∃ (X : ℕ → (Θ × (ℕ → Sd)) → Θ) (y : ℕ → (Θ × (ℕ → Sd)) → Sd),
    IsChain (ν.prod (Measure.infinitePi fun _ : ℕ => sl)) sl sweep X y ∧ X 0 = Prod.fst := by
  set ρ : Measure (ℕ → Sd) := Measure.infinitePi fun _ : ℕ => sl with hρ
  refine ⟨fun t ω => Nat.rec ω.1 (fun t θ => sweep θ (ω.2 t)) t, fun t ω => ω.2 t, ⟨fun t ω => rfl, measurable_fst.aemeasurable, fun t => ⟨by fun_prop, ?_⟩, fun t => ?_⟩, rfl⟩
  · rw [show (fun ω : Θ × (ℕ → Sd) => ω.2 t) = (fun z : ℕ → Sd => z t) ∘ Prod.snd from rfl, ← Measure.map_map (by fun_prop) measurable_snd, Measure.map_snd_prod, measure_univ, one_smul]
    exact (measurePreserving_eval_infinitePi (fun _ : ℕ => sl) t).map_eq
  · have hcall : iIndepFun (fun (t : ℕ) (z : ℕ → Sd) => z t) ρ := by
      rw [iIndepFun_iff_map_fun_eq_infinitePi_map (by fun_prop)]
      have h2 : ∀ t : ℕ, ρ.map (fun z : ℕ → Sd => z t) = sl := fun t => (measurePreserving_eval_infinitePi (fun _ : ℕ => sl) t).map_eq
      simp only [h2]
      exact Measure.map_id
    have h1 := hcall.indepFun_finset (Finset.range t) {t} (by simp) (fun i => by fun_prop)
    have h2 : IndepFun (fun (z : ℕ → Sd) (i : Fin t) => z i) (fun z : ℕ → Sd => z t) ρ :=
      h1.comp (φ := fun (z : Finset.range t → Sd) (i : Fin t) => z ⟨i, Finset.mem_range.2 i.2⟩) (ψ := fun (z : ({t} : Finset ℕ) → Sd) => z ⟨t, Finset.mem_singleton_self t⟩) (by fun_prop) (by fun_prop)
    exact indep_extend (ν := ν) (f := id) measurable_id (by fun_prop) (by fun_prop) h2

end

end PyHawkes
