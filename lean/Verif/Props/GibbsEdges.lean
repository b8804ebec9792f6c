import Verif.Props.GibbsLaws

/-!
# The adjacency sweep leaves the conditional distribution of the adjacency matrix invariant (used for C83)
-/
set_option linter.unusedSectionVars false
set_option linter.unusedVariables false

namespace PyHawkes
open Finset Spec MeasureTheory ProbabilityTheory

theorem coinLaw_prob {p : ℝ} (h0 : 0 ≤ p) (h1 : p ≤ 1) : IsProbabilityMeasure (coinLaw p) := by
  refine ⟨?_⟩
  unfold coinLaw
  rw [Measure.add_apply, Measure.smul_apply, Measure.smul_apply, measure_univ, measure_univ, smul_eq_mul, smul_eq_mul, mul_one, mul_one, ← ENNReal.ofReal_add h0 (by linarith)]
  norm_num

theorem lintegral_coin (p : ℝ) (f : ℝ → ENNReal) : ∫⁻ t, f t ∂coinLaw p = ENNReal.ofReal p * f 1 + ENNReal.ofReal (1 - p) * f 0 := by
  unfold coinLaw
  rw [lintegral_add_measure, lintegral_smul_measure, lintegral_smul_measure, lintegral_dirac, lintegral_dirac]
  rfl

theorem coin_values {p : ℝ} : ∀ᵐ t ∂coinLaw p, t = 0 ∨ t = 1 := by
  have hm : MeasurableSet {t : ℝ | t = 0 ∨ t = 1} := (measurableSet_singleton 0).union (measurableSet_singleton 1)
  change coinLaw p {t : ℝ | t = 0 ∨ t = 1}ᶜ = 0
  unfold coinLaw
  rw [Measure.add_apply, Measure.smul_apply, Measure.smul_apply, Measure.dirac_apply' _ hm.compl, Measure.dirac_apply' _ hm.compl]
  simp

section
variable {U : Type*} [MeasurableSpace U] {μ : Measure U} (G : Generator μ)

/-- a comparison of a uniform draw with `q` is a coin with probability `q` -/
theorem unif_coin {q : ℝ} (h0 : 0 ≤ q) (h1 : q ≤ 1) (T : ℝ → ENNReal) :
    ∫⁻ u, T (if G.unif u < q then 1 else 0) ∂μ = ENNReal.ofReal q * T 1 + ENNReal.ofReal (1 - q) * T 0 := by
  have hμ := gen_prob G
  have hm : MeasurableSet {u | G.unif u < q} := G.unif_meas measurableSet_Iio
  have hv : μ {u | G.unif u < q} = ENNReal.ofReal q := by
    have := congrArg (fun m => m (Set.Iio q)) G.unif_law
    rw [Measure.map_apply G.unif_meas measurableSet_Iio, Measure.restrict_apply measurableSet_Iio] at this
    have e : Set.Iio q ∩ Set.Ico 0 1 = Set.Ico 0 q := by
      ext x; simp only [Set.mem_inter_iff, Set.mem_Iio, Set.mem_Ico]
      constructor
      · rintro ⟨h, h', -⟩; exact ⟨h', h⟩
      · rintro ⟨h, h'⟩; exact ⟨h', h, by linarith⟩
    rw [e, Real.volume_Ico, sub_zero] at this
    exact this
  have hc : μ {u | G.unif u < q}ᶜ = ENNReal.ofReal (1 - q) := by
    rw [measure_compl hm (measure_ne_top _ _), measure_univ, hv, ENNReal.ofReal_sub _ h0, ENNReal.ofReal_one]
  rw [← lintegral_add_compl _ hm]
  have e1 : ∫⁻ u in {u | G.unif u < q}, T (if G.unif u < q then 1 else 0) ∂μ = ∫⁻ u in {u | G.unif u < q}, T 1 ∂μ :=
    setLIntegral_congr_fun hm fun u hu => by
      have hu' : G.unif u < q := hu
      simp only [if_pos hu']
  have e2 : ∫⁻ u in {u | G.unif u < q}ᶜ, T (if G.unif u < q then 1 else 0) ∂μ = ∫⁻ u in {u | G.unif u < q}ᶜ, T 0 ∂μ :=
    setLIntegral_congr_fun hm.compl fun u hu => by
      have hu' : ¬ G.unif u < q := hu
      simp only [if_neg hu']
  rw [e1, e2, setLIntegral_const, setLIntegral_const, hv, hc]
  ring

theorem lintegral_update {ι X : Type*} [Fintype ι] [DecidableEq ι] [MeasurableSpace X] (ν : ι → Measure X) [∀ i, IsProbabilityMeasure (ν i)] (e : ι) {F : (ι → X) → ENNReal} (hF : Measurable F) :
    ∫⁻ x, F x ∂Measure.pi ν = ∫⁻ x, ∫⁻ t, F (Function.update x e t) ∂ν e ∂Measure.pi ν := by
  refine lintegral_eq_of_lmarginal_eq {e} hF ?_ ?_
  · have := hF.lmarginal ν (s := {e})
    rwa [lmarginal_singleton] at this
  · rw [lmarginal_singleton, lmarginal_singleton]
    funext x
    simp only [Function.update_idem]
    rw [lintegral_const, measure_univ, mul_one]

variable {ι : Type*} [Fintype ι] [DecidableEq ι]

/-- the update of one entry of a 0/1 array with likelihood `L` -/
noncomputable def siteStep (p : ι → ℝ) (L : (ι → ℝ) → ℝ) (e : ι) (u : U) (A : ι → ℝ) : ι → ℝ :=
  Function.update A e (if G.unif u < bernPost (p e) (L (Function.update A e 0)) (L (Function.update A e 1)) then 1 else 0)

variable {p : ι → ℝ} {L : (ι → ℝ) → ℝ}

theorem measurable_update_fun {Z : Type*} [MeasurableSpace Z] {f : Z → ι → ℝ} {t : Z → ℝ} (hf : Measurable f) (ht : Measurable t) (e : ι) : Measurable fun z => Function.update (f z) e (t z) := by
  rw [measurable_pi_iff]
  intro j
  by_cases h : j = e
  · subst h; simpa using ht
  · simp only [Function.update_of_ne h]
    exact (measurable_pi_apply j).comp hf

theorem measurable_ite_lt {Z : Type*} [MeasurableSpace Z] {f g : Z → ℝ} (hf : Measurable f) (hg : Measurable g) : Measurable fun z => if f z < g z then (1:ℝ) else 0 :=
  Measurable.ite (measurableSet_lt hf hg) measurable_const measurable_const

theorem measurable_siteStep {Z : Type*} [MeasurableSpace Z] {L : Z → (ι → ℝ) → ℝ} (hL : Measurable fun x : Z × (ι → ℝ) => L x.1 x.2) (e : ι) :
    Measurable fun x : Z × U × (ι → ℝ) => siteStep G p (L x.1) e x.2.1 x.2.2 := by
  unfold siteStep bernPost
  have hA : Measurable fun x : Z × U × (ι → ℝ) => x.2.2 := by fun_prop
  have h0 : ∀ t : ℝ, Measurable fun x : Z × U × (ι → ℝ) => L x.1 (Function.update x.2.2 e t) := fun t =>
    hL.comp (f := fun x : Z × U × (ι → ℝ) => (x.1, Function.update x.2.2 e t)) ((measurable_fst).prodMk (measurable_update_fun hA measurable_const e))
  refine measurable_update_fun hA (measurable_ite_lt (G.unif_meas.comp (by fun_prop)) ?_) e
  have := h0 0
  have := h0 1
  fun_prop

/-- **one entry** -/
theorem site_invariant (hp : ∀ e, 0 ≤ p e ∧ p e ≤ 1) (hL : Measurable L) (hpos : ∀ A, 0 < L A) (e : ι) {T : (ι → ℝ) → ENNReal} (hT : Measurable T) :
    ∫⁻ A, ENNReal.ofReal (L A) * ∫⁻ u, T (siteStep G p L e u A) ∂μ ∂Measure.pi (fun e => coinLaw (p e)) = ∫⁻ A, ENNReal.ofReal (L A) * T A ∂Measure.pi fun e => coinLaw (p e) := by
  have hμ := gen_prob G
  have hP : ∀ e, IsProbabilityMeasure (coinLaw (p e)) := fun e => coinLaw_prob (hp e).1 (hp e).2
  have hms : Measurable fun x : (ι → ℝ) × U => T (siteStep G p L e x.2 x.1) :=
    hT.comp ((measurable_siteStep G (Z := Unit) (L := fun _ => L) (hL.comp measurable_snd) e).comp (f := fun x : (ι → ℝ) × U => ((), x.2, x.1)) (by fun_prop))
  have hm1 : Measurable fun A => ∫⁻ u, T (siteStep G p L e u A) ∂μ := hms.lintegral_prod_right'
  rw [lintegral_update _ e (by fun_prop), lintegral_update (fun e => coinLaw (p e)) e (F := fun A => ENNReal.ofReal (L A) * T A) (by fun_prop)]
  refine lintegral_congr fun A => ?_
  set l0 := L (Function.update A e 0) with hl0
  set l1 := L (Function.update A e 1) with hl1
  have h0 : 0 < l0 := hpos _
  have h1 : 0 < l1 := hpos _
  obtain ⟨q0, q1⟩ := bernPost_mem (hp e).1 (hp e).2 h0 h1
  have hstep : ∀ t, ∫⁻ u, T (siteStep G p L e u (Function.update A e t)) ∂μ
      = ENNReal.ofReal (bernPost (p e) l0 l1) * T (Function.update A e 1) + ENNReal.ofReal (1 - bernPost (p e) l0 l1) * T (Function.update A e 0) := by
    intro t
    unfold siteStep
    simp only [Function.update_idem]
    exact unif_coin G q0 q1 fun t => T (Function.update A e t)
  rw [lintegral_coin, lintegral_coin, hstep, hstep, ← hl0, ← hl1]
  have hd : 0 < p e * l1 + (1 - p e) * l0 := by
    rcases (hp e).1.lt_or_eq with h | h
    · exact add_pos_of_pos_of_nonneg (mul_pos h h1) (mul_nonneg (by linarith [(hp e).2]) h0.le)
    · rw [← h]; simpa using h0
  have a1 : ENNReal.ofReal (p e * l1 + (1 - p e) * l0) * ENNReal.ofReal (bernPost (p e) l0 l1) = ENNReal.ofReal (p e) * ENNReal.ofReal l1 := by
    rw [← ENNReal.ofReal_mul hd.le, ← ENNReal.ofReal_mul (hp e).1]
    congr 1; unfold bernPost; field_simp
  have a2 : ENNReal.ofReal (p e * l1 + (1 - p e) * l0) * ENNReal.ofReal (1 - bernPost (p e) l0 l1) = ENNReal.ofReal (1 - p e) * ENNReal.ofReal l0 := by
    rw [← ENNReal.ofReal_mul hd.le, ← ENNReal.ofReal_mul (by linarith [(hp e).2])]
    congr 1; unfold bernPost; field_simp; ring
  have a3 : ENNReal.ofReal (p e) * ENNReal.ofReal l1 + ENNReal.ofReal (1 - p e) * ENNReal.ofReal l0 = ENNReal.ofReal (p e * l1 + (1 - p e) * l0) := by
    rw [← ENNReal.ofReal_mul (hp e).1, ← ENNReal.ofReal_mul (by linarith [(hp e).2]), ← ENNReal.ofReal_add (mul_nonneg (hp e).1 h1.le) (mul_nonneg (by linarith [(hp e).2]) h0.le)]
  calc _ = (ENNReal.ofReal (p e) * ENNReal.ofReal l1 + ENNReal.ofReal (1 - p e) * ENNReal.ofReal l0) *
        (ENNReal.ofReal (bernPost (p e) l0 l1) * T (Function.update A e 1) + ENNReal.ofReal (1 - bernPost (p e) l0 l1) * T (Function.update A e 0)) := by ring
    _ = (ENNReal.ofReal (p e * l1 + (1 - p e) * l0) * ENNReal.ofReal (bernPost (p e) l0 l1)) * T (Function.update A e 1)
        + (ENNReal.ofReal (p e * l1 + (1 - p e) * l0) * ENNReal.ofReal (1 - bernPost (p e) l0 l1)) * T (Function.update A e 0) := by rw [a3]; ring
    _ = _ := by rw [a1, a2]; ring

/-- entries updated in the order of a list, entry `e` with the seed `x e` -/
noncomputable def sitesStep (p : ι → ℝ) (L : (ι → ℝ) → ℝ) (x : ι → U) (l : List ι) (A : ι → ℝ) : ι → ℝ := l.foldl (fun A e => siteStep G p L e (x e) A) A

theorem measurable_sitesStep {Z : Type*} [MeasurableSpace Z] {L : Z → (ι → ℝ) → ℝ} (hL : Measurable fun x : Z × (ι → ℝ) => L x.1 x.2) (l : List ι) :
    Measurable fun x : Z × (ι → U) × (ι → ℝ) => sitesStep G p (L x.1) x.2.1 l x.2.2 := by
  unfold sitesStep
  have : ∀ f : Z × (ι → U) × (ι → ℝ) → ι → ℝ, Measurable f → Measurable fun x => l.foldl (fun A e => siteStep G p (L x.1) e (x.2.1 e) A) (f x) := by
    induction l with
    | nil => exact fun f hf => hf
    | cons e l ih =>
      intro f hf
      exact ih _ ((measurable_siteStep G hL e).comp (f := fun x : Z × (ι → U) × (ι → ℝ) => (x.1, x.2.1 e, f x)) (by fun_prop))
  exact this _ (by fun_prop)

theorem sitesStep_congr (x x' : ι → U) (l : List ι) (h : ∀ e ∈ l, x e = x' e) (A : ι → ℝ) : sitesStep G p L x l A = sitesStep G p L x' l A := by
  unfold sitesStep
  induction l generalizing A with
  | nil => rfl
  | cons e l ih => rw [List.foldl_cons, List.foldl_cons, h e List.mem_cons_self]; exact ih (fun e he => h e (List.mem_cons_of_mem _ he)) _

/-- **all entries of a list without repetitions** -/
theorem sites_invariant (hp : ∀ e, 0 ≤ p e ∧ p e ≤ 1) (hL : Measurable L) (hpos : ∀ A, 0 < L A) (l : List ι) (hl : l.Nodup) {T : (ι → ℝ) → ENNReal} (hT : Measurable T) :
    ∫⁻ A, ENNReal.ofReal (L A) * ∫⁻ x, T (sitesStep G p L x l A) ∂Measure.pi (fun _ => μ) ∂Measure.pi (fun e => coinLaw (p e))
      = ∫⁻ A, ENNReal.ofReal (L A) * T A ∂Measure.pi fun e => coinLaw (p e) := by
  have hμ := gen_prob G
  have hP : ∀ e, IsProbabilityMeasure (coinLaw (p e)) := fun e => coinLaw_prob (hp e).1 (hp e).2
  induction l with
  | nil =>
    refine lintegral_congr fun A => ?_
    change _ * ∫⁻ _, T A ∂_ = _
    rw [lintegral_const, measure_univ, mul_one]
  | cons e l ih =>
    obtain ⟨he, hl⟩ := List.nodup_cons.1 hl
    have mS : ∀ l : List ι, Measurable fun y : (ι → U) × (ι → ℝ) => T (sitesStep G p L y.1 l y.2) := fun l =>
      hT.comp ((measurable_sitesStep G (Z := Unit) (L := fun _ => L) (hL.comp measurable_snd) l).comp (f := fun y : (ι → U) × (ι → ℝ) => ((), y)) (by fun_prop))
    have m1 : Measurable fun y : (ι → U) × U × (ι → ℝ) => siteStep G p L e y.2.1 y.2.2 :=
      (measurable_siteStep G (Z := Unit) (L := fun _ => L) (hL.comp measurable_snd) e).comp (f := fun y : (ι → U) × U × (ι → ℝ) => ((), y.2)) (by fun_prop)
    have m2 : Measurable fun y : (ι → U) × U × (ι → ℝ) => T (sitesStep G p L y.1 l (siteStep G p L e y.2.1 y.2.2)) :=
      (mS l).comp (f := fun y : (ι → U) × U × (ι → ℝ) => (y.1, siteStep G p L e y.2.1 y.2.2)) (measurable_fst.prodMk m1)
    have m3 : Measurable fun y : (ι → ℝ) × (ι → U) => ∫⁻ t, T (sitesStep G p L y.2 l (siteStep G p L e t y.1)) ∂μ :=
      Measurable.lintegral_prod_right' (f := fun y : ((ι → ℝ) × (ι → U)) × U => T (sitesStep G p L y.1.2 l (siteStep G p L e y.2 y.1.1)))
        (m2.comp (f := fun y : ((ι → ℝ) × (ι → U)) × U => (y.1.2, y.2, y.1.1)) (by fun_prop))
    have m4 : Measurable fun y : (ι → ℝ) × (ι → U) => T (sitesStep G p L y.2 l y.1) := (mS l).comp (f := fun y : (ι → ℝ) × (ι → U) => (y.2, y.1)) (by fun_prop)
    have hL' : Measurable fun y : (ι → ℝ) × (ι → U) => ENNReal.ofReal (L y.1) := (hL.comp measurable_fst).ennreal_ofReal
    rw [← ih hl]
    calc _ = ∫⁻ A, ∫⁻ x, ENNReal.ofReal (L A) * ∫⁻ t, T (sitesStep G p L x l (siteStep G p L e t A)) ∂μ ∂Measure.pi (fun _ => μ) ∂Measure.pi (fun e => coinLaw (p e)) := by
          refine lintegral_congr fun A => ?_
          have m3A : Measurable fun x => ∫⁻ t, T (sitesStep G p L x l (siteStep G p L e t A)) ∂μ := m3.comp (f := fun x => (A, x)) (by fun_prop)
          rw [lintegral_const_mul _ m3A]
          congr 1
          rw [lintegral_update (fun _ => μ) e (show Measurable fun x => T (sitesStep G p L x (e :: l) A) from (mS (e :: l)).comp (f := fun x => (x, A)) (by fun_prop))]
          refine lintegral_congr fun x => lintegral_congr fun t => ?_
          change T (sitesStep G p L (Function.update x e t) l (siteStep G p L e (Function.update x e t e) A)) = _
          rw [Function.update_self]
          congr 1
          exact sitesStep_congr G _ _ l (fun j hj => Function.update_of_ne (show j ≠ e from fun h => he (h ▸ hj)) _ _) _
      _ = ∫⁻ x, ∫⁻ A, ENNReal.ofReal (L A) * ∫⁻ t, T (sitesStep G p L x l (siteStep G p L e t A)) ∂μ ∂Measure.pi (fun e => coinLaw (p e)) ∂Measure.pi (fun _ => μ) :=
          lintegral_lintegral_swap (hL'.mul m3).aemeasurable
      _ = ∫⁻ x, ∫⁻ A, ENNReal.ofReal (L A) * T (sitesStep G p L x l A) ∂Measure.pi (fun e => coinLaw (p e)) ∂Measure.pi (fun _ => μ) := by
          refine lintegral_congr fun x => ?_
          exact site_invariant G hp hL hpos e (T := fun A => T (sitesStep G p L x l A)) (m4.comp (f := fun A => (A, x)) (by fun_prop))
      _ = ∫⁻ A, ∫⁻ x, ENNReal.ofReal (L A) * T (sitesStep G p L x l A) ∂Measure.pi (fun _ => μ) ∂Measure.pi (fun e => coinLaw (p e)) :=
          (lintegral_lintegral_swap (hL'.mul m4).aemeasurable).symm
      _ = _ := by
          refine lintegral_congr fun A => ?_
          have m4A : Measurable fun x => T (sitesStep G p L x l A) := m4.comp (f := fun x => (A, x)) (by fun_prop)
          rw [lintegral_const_mul _ m4A]

end

end PyHawkes
