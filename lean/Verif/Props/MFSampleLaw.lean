import Verif.Props.MFSample
import Mathlib.Probability.Independence.Integration

/-! # C82: the parameters drawn by `resample_from_mf` have the reported expectations -/
set_option linter.unusedSectionVars false
set_option linter.unusedVariables false

namespace PyHawkes
open Finset Spec MeasureTheory ProbabilityTheory

variable {Ω : Type*} [MeasurableSpace Ω] {P : Measure Ω} [IsProbabilityMeasure P] {d : Ω → MFDraws}

/-! ### Single draws -/

theorem npGammaLaw_eq {a b : ℝ} : npGammaLaw ⟨a, 1 / b⟩ = gammaMeasure a b := by simp [npGammaLaw]

/-- functions of a gamma draw -/
theorem gamma_draw {X : Ω → ℝ} {a b : ℝ} (ha : 0 < a) (hb : 0 < b) (hX : HasLaw X (gammaMeasure a b) P) {f : ℝ → ℝ} (hf : Measurable f) :
    ∫ ω, f (X ω) ∂P = expGamma a b f := by
  rw [← integral_gammaMeasure ha hb]
  exact hX.integral_comp hf.aestronglyMeasurable

theorem gamma_draw_integrable {X : Ω → ℝ} {a b : ℝ} (ha : 0 < a) (hb : 0 < b) (hX : HasLaw X (gammaMeasure a b) P) {f : ℝ → ℝ}
    (hf : IntegrableOn (fun x => gammaPDFReal a b x * f x) (Set.Ioi 0) volume) : Integrable (fun ω => f (X ω)) P := by
  rw [← integrable_gammaMeasure ha hb, ← hX.map_eq] at hf
  exact hf.comp_aemeasurable hX.aemeasurable

theorem gammaId_integrable {X : Ω → ℝ} {a b : ℝ} (ha : 0 < a) (hb : 0 < b) (hX : HasLaw X (gammaMeasure a b) P) : Integrable X P :=
  gamma_draw_integrable ha hb hX (f := fun x => x) (gamma_mean ha hb).1

theorem gammaLog_integrable {X : Ω → ℝ} {a b : ℝ} (ha : 0 < a) (hb : 0 < b) (hX : HasLaw X (gammaMeasure a b) P) : Integrable (fun ω => Real.log (X ω)) P :=
  gamma_draw_integrable ha hb hX (gamma_mean_log ha hb).1

theorem integral_betaMeasure {a b : ℝ} (ha : 0 < a) (hb : 0 < b) (f : ℝ → ℝ) : ∫ x, f x ∂betaMeasure a b = expBeta a b f := by
  unfold betaMeasure expBeta
  have hm : Measurable (betaPDF a b) := (measurable_betaPDFReal a b).ennreal_ofReal
  rw [integral_withDensity_eq_integral_toReal_smul hm (Filter.Eventually.of_forall fun x => by unfold betaPDF; exact ENNReal.ofReal_lt_top)]
  rw [← integral_indicator measurableSet_Ioo]
  refine integral_congr_ae (Filter.Eventually.of_forall fun x => ?_)
  show (betaPDF a b x).toReal • f x = _
  rw [smul_eq_mul]
  by_cases hx : x ∈ Set.Ioo (0:ℝ) 1
  · rw [Set.indicator_of_mem hx]
    unfold betaPDF
    rw [ENNReal.toReal_ofReal (betaPDFReal_pos hx.1 hx.2 ha hb).le]
  · rw [Set.indicator_of_notMem hx]
    have : betaPDF a b x = 0 := by
      rcases le_or_gt x 0 with h | h
      · exact betaPDF_eq_zero_of_nonpos h
      · exact betaPDF_eq_zero_of_one_le (by by_contra h1; exact hx ⟨h, not_le.1 h1⟩)
    rw [this]; simp

theorem integrable_betaMeasure {a b : ℝ} (ha : 0 < a) (hb : 0 < b) (f : ℝ → ℝ) :
    Integrable f (betaMeasure a b) ↔ IntegrableOn (fun x => betaPDFReal a b x * f x) (Set.Ioo 0 1) volume := by
  unfold betaMeasure
  have hm : Measurable (betaPDF a b) := (measurable_betaPDFReal a b).ennreal_ofReal
  rw [integrable_withDensity_iff_integrable_smul' hm (Filter.Eventually.of_forall fun x => by unfold betaPDF; exact ENNReal.ofReal_lt_top),
    ← integrable_indicator_iff measurableSet_Ioo]
  refine integrable_congr (Filter.Eventually.of_forall fun x => ?_)
  show (betaPDF a b x).toReal • f x = _
  rw [smul_eq_mul]
  by_cases hx : x ∈ Set.Ioo (0:ℝ) 1
  · rw [Set.indicator_of_mem hx]
    unfold betaPDF
    rw [ENNReal.toReal_ofReal (betaPDFReal_pos hx.1 hx.2 ha hb).le]
  · rw [Set.indicator_of_notMem hx]
    have : betaPDF a b x = 0 := by
      rcases le_or_gt x 0 with h | h
      · exact betaPDF_eq_zero_of_nonpos h
      · exact betaPDF_eq_zero_of_one_le (by by_contra h1; exact hx ⟨h, not_le.1 h1⟩)
    rw [this]; simp

open Classical in
/-- the coin: a uniform draw is below `p` with probability `p` -/
theorem coin {u : Ω → ℝ} {p : ℝ} (hu : HasLaw u (volume.restrict (Set.Ico 0 1)) P) (h0 : 0 ≤ p) (h1 : p ≤ 1) :
    Integrable (fun ω => if u ω < p then (1:ℝ) else 0) P ∧ ∫ ω, (if u ω < p then (1:ℝ) else 0) ∂P = p := by
  have hm : Measurable fun x : ℝ => if x < p then (1:ℝ) else 0 := Measurable.ite measurableSet_Iio measurable_const measurable_const
  have e : ∫ ω, (if u ω < p then (1:ℝ) else 0) ∂P = ∫ x in Set.Ico (0:ℝ) 1, if x < p then (1:ℝ) else 0 := hu.integral_comp hm.aestronglyMeasurable
  refine ⟨?_, ?_⟩
  · refine Integrable.mono' (integrable_const (1:ℝ)) (hm.comp_aemeasurable hu.aemeasurable).aestronglyMeasurable ?_
    refine Filter.Eventually.of_forall fun ω => ?_
    split_ifs <;> simp
  · rw [e]
    have h2 : (fun x : ℝ => if x < p then (1:ℝ) else 0) = (Set.Iio p).indicator fun _ => 1 := by
      funext x; simp [Set.indicator_apply]
    rw [h2, integral_indicator measurableSet_Iio, Measure.restrict_restrict measurableSet_Iio]
    have h3 : Set.Iio p ∩ Set.Ico 0 1 = Set.Ico 0 p := by
      ext x; simp only [Set.mem_inter_iff, Set.mem_Iio, Set.mem_Ico]
      constructor
      · rintro ⟨a, b, c⟩; exact ⟨b, a⟩
      · rintro ⟨a, b⟩; exact ⟨b, a, by linarith⟩
    rw [h3]
    simp [h0]

/-! ### Labels -/

theorem choiceLaw_real {C : ℕ} {p : ℕ → ℝ} (hp : ∀ c < C, 0 ≤ p c) {c : ℕ} (hc : c < C) : (choiceLaw C p).real {c} = p c := by
  classical
  unfold choiceLaw
  rw [Measure.real, Measure.finsetSum_apply]
  have : ∀ e ∈ range C, (ENNReal.ofReal (p e) • Measure.dirac e) {c} = if e = c then ENNReal.ofReal (p e) else 0 := by
    intro e _
    rw [Measure.smul_apply, Measure.dirac_apply' _ (measurableSet_singleton c), smul_eq_mul]
    by_cases h : e = c
    · simp [h]
    · simp [h]
  rw [sum_congr rfl this, sum_ite_eq' (range C) c, if_pos (mem_range.2 hc), ENNReal.toReal_ofReal (hp c hc)]

theorem choiceLaw_range {C : ℕ} {p : ℕ → ℝ} : ∀ᵐ c ∂choiceLaw C p, c < C := by
  rw [ae_iff]
  unfold choiceLaw
  rw [Measure.finsetSum_apply]
  refine sum_eq_zero fun e he => ?_
  rw [Measure.smul_apply, Measure.dirac_apply' _ (MeasurableSet.of_discrete), smul_eq_mul]
  simp [mem_range.1 he]

theorem choiceLaw_prob {C : ℕ} {p : ℕ → ℝ} (hp : IsProb C p) : IsProbabilityMeasure (choiceLaw C p) := by
  refine ⟨?_⟩
  unfold choiceLaw
  rw [Measure.finsetSum_apply]
  have : ∀ e ∈ range C, (ENNReal.ofReal (p e) • Measure.dirac e) (Set.univ : Set ℕ) = ENNReal.ofReal (p e) := by
    intro e _
    rw [Measure.smul_apply, measure_univ, smul_eq_mul, mul_one]
  rw [sum_congr rfl this, ← ENNReal.ofReal_sum_of_nonneg fun c hc => hp.1 c (mem_range.1 hc), hp.2, ENNReal.ofReal_one]

/-- probability that a label is `c`, as the mean of an indicator -/
theorem label_mean {l : Ω → ℕ} {C : ℕ} {p : ℕ → ℝ} (hp : IsProb C p) (hl : HasLaw l (choiceLaw C p) P) {c : ℕ} (hc : c < C) :
    Integrable (fun ω => if l ω = c then (1:ℝ) else 0) P ∧ ∫ ω, (if l ω = c then (1:ℝ) else 0) ∂P = p c := by
  have hm : Measurable fun x : ℕ => if x = c then (1:ℝ) else 0 := measurable_of_countable _
  have := choiceLaw_prob hp
  constructor
  · refine Integrable.mono' (integrable_const (1:ℝ)) (hm.comp_aemeasurable hl.aemeasurable).aestronglyMeasurable ?_
    refine Filter.Eventually.of_forall fun ω => ?_
    split_ifs <;> simp
  · have e : ∫ ω, (if l ω = c then (1:ℝ) else 0) ∂P = ∫ x, (if x = c then (1:ℝ) else 0) ∂choiceLaw C p := hl.integral_comp hm.aestronglyMeasurable
    rw [e]
    have h2 : (fun x : ℕ => if x = c then (1:ℝ) else 0) = ({c} : Set ℕ).indicator fun _ => 1 := by
      funext x; simp [Set.indicator_apply]
    rw [h2, integral_indicator (measurableSet_singleton c)]
    rw [integral_const, smul_eq_mul, mul_one, measureReal_restrict_apply_univ, choiceLaw_real hp.1 hc]

/-! ### Measurability of all calls with legal arguments -/

/-- legal arguments -/
structure LegalArgs (B C : ℕ) (a : MFCallArgs) : Prop where
  lam : ∀ k, 0 < (a.lam k).shape ∧ 0 < (a.lam k).scale
  spike : ∀ i j, 0 < (a.spike i j).shape ∧ 0 < (a.spike i j).scale
  slab : ∀ i j, 0 < (a.slab i j).shape ∧ 0 < (a.slab i j).scale
  imp : ∀ i j, ∀ b < B, 0 < a.imp i j b
  blockM : ∀ c < C, 0 < a.blockM c
  blockP : ∀ c e, 0 < (a.blockP c e).a ∧ 0 < (a.blockP c e).b
  blockV : ∀ c e, 0 < (a.blockV c e).shape ∧ 0 < (a.blockV c e).scale
  label : ∀ k, IsProb C (a.label k)
  erV : 0 < a.erV.shape ∧ 0 < a.erV.scale

theorem value_aemeasurable {B C : ℕ} (hl : MFLaws P B C d) {a : MFCallArgs} (ha : LegalArgs B C a) : ∀ s, AEMeasurable (fun ω => MFDraws.value (d ω) a s) P
  | .lam k => (hl.lam k _ (ha.lam k).1 (ha.lam k).2).aemeasurable
  | .unif i j => (hl.unif i j).aemeasurable
  | .spike i j => (hl.spike i j _ (ha.spike i j).1 (ha.spike i j).2).aemeasurable
  | .slab i j => (hl.slab i j _ (ha.slab i j).1 (ha.slab i j).2).aemeasurable
  | .imp i j => (hl.dir i j _ (ha.imp i j)).aemeasurable
  | .blockM => (hl.netDir _ ha.blockM).aemeasurable
  | .blockP c e => (hl.beta c e _ (ha.blockP c e).1 (ha.blockP c e).2).aemeasurable
  | .blockV c e => (hl.gamma c e _ (ha.blockV c e).1 (ha.blockV c e).2).aemeasurable
  | .label k => (hl.label k _ (ha.label k)).aemeasurable
  | .erV => (hl.erGamma _ ha.erV.1 ha.erV.2).aemeasurable

/-- legal arguments that agree with given ones at chosen places -/
noncomputable def defaultArgs : MFCallArgs where
  lam := fun _ => ⟨1, 1⟩
  spike := fun _ _ => ⟨1, 1⟩
  slab := fun _ _ => ⟨1, 1⟩
  imp := fun _ _ _ => 1
  blockM := fun _ => 1
  blockP := fun _ _ => ⟨1, 1⟩
  blockV := fun _ _ => ⟨1, 1⟩
  label := fun _ c => if c = 0 then 1 else 0
  erV := ⟨1, 1⟩

theorem delta_prob {C : ℕ} (hC : 0 < C) : IsProb C (fun c => if c = 0 then (1:ℝ) else 0) :=
  ⟨fun c _ => by dsimp only; split_ifs <;> norm_num, by rw [sum_ite_eq' (range C) 0 (fun _ => (1:ℝ)), if_pos (mem_range.2 hC)]⟩

theorem defaultArgs_legal (B : ℕ) {C : ℕ} (hC : 0 < C) : LegalArgs B C defaultArgs := by
  refine ⟨?_, ?_, ?_, ?_, ?_, ?_, ?_, ?_, ?_⟩ <;> simp [defaultArgs]
  exact delta_prob hC

/-! ### Weights -/

section weights
variable {B C : ℕ} (hl : MFLaws P B C d) (hind : Independent P d) (hC : 0 < C)
include hl hind hC

open Classical in
/-- mean of a function of the drawn weight times a function of an independent draw (which may be constant): the weight is a mixture -/
theorem weight_times {i j : ℕ} {p k0 v0 k1 v1 : ℝ} (h0 : 0 < k0 ∧ 0 < v0) (h1 : 0 < k1 ∧ 0 < v1) (hp : 0 ≤ p ∧ p ≤ 1) {v : Vec ℝ} (hv : ∀ b < B, 0 < v b)
    {f : ℝ → ℝ} (hf : Measurable f) (i0 : IntegrableOn (fun x => gammaPDFReal k0 v0 x * f x) (Set.Ioi 0) volume)
    (i1 : IntegrableOn (fun x => gammaPDFReal k1 v1 x * f x) (Set.Ioi 0) volume)
    {h : Vec ℝ → ℝ} (hh : Measurable h) (ih : Integrable h (dirichletLaw B v)) :
    Integrable (fun ω => f (if (d ω).u i j < p then (d ω).slab i j ⟨k1, 1 / v1⟩ else (d ω).spike i j ⟨k0, 1 / v0⟩) * h ((d ω).dir i j v)) P ∧
    ∫ ω, f (if (d ω).u i j < p then (d ω).slab i j ⟨k1, 1 / v1⟩ else (d ω).spike i j ⟨k0, 1 / v0⟩) * h ((d ω).dir i j v) ∂P
      = (p * expGamma k1 v1 f + (1 - p) * expGamma k0 v0 f) * ∫ x, h x ∂dirichletLaw B v := by
  let a : MFCallArgs := { defaultArgs with spike := fun _ _ => ⟨k0, 1 / v0⟩, slab := fun _ _ => ⟨k1, 1 / v1⟩, imp := fun _ _ => v }
  have hD := defaultArgs_legal B hC
  have ha : LegalArgs B C a := ⟨hD.lam, fun _ _ => ⟨h0.1, one_div_pos.2 h0.2⟩, fun _ _ => ⟨h1.1, one_div_pos.2 h1.2⟩, fun _ _ => hv, hD.blockM, hD.blockP, hD.blockV, hD.label, hD.erV⟩
  have hm := value_aemeasurable hl ha
  have I := hind a
  have lu := hl.unif i j
  have l0 : HasLaw (fun ω => (d ω).spike i j ⟨k0, 1 / v0⟩) (gammaMeasure k0 v0) P := npGammaLaw_eq ▸ hl.spike i j _ h0.1 (one_div_pos.2 h0.2)
  have l1 : HasLaw (fun ω => (d ω).slab i j ⟨k1, 1 / v1⟩) (gammaMeasure k1 v1) P := npGammaLaw_eq ▸ hl.slab i j _ h1.1 (one_div_pos.2 h1.2)
  have ld := hl.dir i j v hv
  obtain ⟨ci, cv⟩ := coin lu hp.1 hp.2
  have mc : Measurable fun x : ℝ => if x < p then (1:ℝ) else 0 := Measurable.ite measurableSet_Iio measurable_const measurable_const
  have hI : Integrable (fun ω => h ((d ω).dir i j v)) P := by
    have := ih; rw [← ld.map_eq] at this
    exact this.comp_aemeasurable ld.aemeasurable
  have hV : ∫ ω, h ((d ω).dir i j v) ∂P = ∫ x, h x ∂dirichletLaw B v := ld.integral_comp hh.aestronglyMeasurable
  -- one half of the mixture
  have half : ∀ {X : Ω → ℝ} {k r : ℝ} (hk : 0 < k) (hr : 0 < r) (hX : HasLaw X (gammaMeasure k r) P) (hux : IndepFun (fun ω => (d ω).u i j) X P)
      (huxd : IndepFun (fun ω => ((d ω).u i j, X ω)) (fun ω => (d ω).dir i j v) P) (ifx : IntegrableOn (fun x => gammaPDFReal k r x * f x) (Set.Ioi 0) volume)
      {q : ℝ → ℝ} (hq : Measurable q) (iq : Integrable (fun ω => q ((d ω).u i j)) P),
      Integrable (fun ω => q ((d ω).u i j) * f (X ω) * h ((d ω).dir i j v)) P ∧
      ∫ ω, q ((d ω).u i j) * f (X ω) * h ((d ω).dir i j v) ∂P = (∫ ω, q ((d ω).u i j) ∂P) * expGamma k r f * ∫ x, h x ∂dirichletLaw B v := by
    intro X k r hk hr hX hux huxd ifx q hq iq
    have e1 : IndepFun (fun ω => q ((d ω).u i j)) (fun ω => f (X ω)) P := hux.comp hq hf
    have iX := gamma_draw_integrable hk hr hX ifx
    have iqX : Integrable (fun ω => q ((d ω).u i j) * f (X ω)) P := e1.integrable_mul iq iX
    have hqf : Measurable fun z : ℝ × ℝ => q z.1 * f z.2 := (hq.comp measurable_fst).mul (hf.comp measurable_snd)
    have e2 : IndepFun (fun ω => q ((d ω).u i j) * f (X ω)) (fun ω => h ((d ω).dir i j v)) P := huxd.comp hqf hh
    refine ⟨e2.integrable_mul iqX hI, ?_⟩
    rw [e2.integral_fun_mul_eq_mul_integral iqX.aestronglyMeasurable hI.aestronglyMeasurable,
      e1.integral_fun_mul_eq_mul_integral iq.aestronglyMeasurable iX.aestronglyMeasurable, gamma_draw hk hr hX hf, hV]
  obtain ⟨s1, s2⟩ := half h1.1 h1.2 l1 (I.indepFun (i := .unif i j) (j := .slab i j) (by simp)) (I.indepFun_prodMk₀ hm (.unif i j) (.slab i j) (.imp i j) (by simp) (by simp)) i1 mc ci
  have mc' : Measurable fun x : ℝ => 1 - if x < p then (1:ℝ) else 0 := measurable_const.sub mc
  obtain ⟨t1, t2⟩ := half h0.1 h0.2 l0 (I.indepFun (i := .unif i j) (j := .spike i j) (by simp)) (I.indepFun_prodMk₀ hm (.unif i j) (.spike i j) (.imp i j) (by simp) (by simp)) i0 mc'
    ((integrable_const 1).sub ci)
  have e : (fun ω => f (if (d ω).u i j < p then (d ω).slab i j ⟨k1, 1 / v1⟩ else (d ω).spike i j ⟨k0, 1 / v0⟩) * h ((d ω).dir i j v))
      = fun ω => (if (d ω).u i j < p then (1:ℝ) else 0) * f ((d ω).slab i j ⟨k1, 1 / v1⟩) * h ((d ω).dir i j v)
        + (1 - if (d ω).u i j < p then (1:ℝ) else 0) * f ((d ω).spike i j ⟨k0, 1 / v0⟩) * h ((d ω).dir i j v) := by
    funext ω
    split_ifs <;> ring
  rw [e]
  refine ⟨s1.add t1, ?_⟩
  rw [integral_add s1 t1, s2, t2, integral_sub (integrable_const 1) ci, cv]
  simp only [integral_const, probReal_univ, smul_eq_mul, mul_one]
  ring

end weights

/-! ### Block networks -/

section network
variable {B C : ℕ} (hl : MFLaws P B C d) (hind : Independent P d) (hC : 0 < C)
include hl hind hC

/-- mean of a quantity `X c e` of the block pair, at the drawn labels of two different nodes -/
theorem labels_mean {i j : ℕ} (hij : i ≠ j) {a : MFCallArgs} (ha : LegalArgs B C a) {s : ℕ → ℕ → MFSite} (hs : ∀ c e k, s c e ≠ .label k)
    {f : ∀ c e, (s c e).Val → ℝ} (hf : ∀ c e, Measurable (f c e)) (hi : ∀ c < C, ∀ e < C, Integrable (fun ω => f c e (MFDraws.value (d ω) a (s c e))) P) :
    ∫ ω, f ((d ω).net.label i (a.label i)) ((d ω).net.label j (a.label j)) (MFDraws.value (d ω) a (s ((d ω).net.label i (a.label i)) ((d ω).net.label j (a.label j)))) ∂P
      = ∑ c ∈ range C, ∑ e ∈ range C, a.label i c * a.label j e * ∫ ω, f c e (MFDraws.value (d ω) a (s c e)) ∂P := by
  have hm := value_aemeasurable hl ha
  have I := hind a
  have li := hl.label i _ (ha.label i)
  have lj := hl.label j _ (ha.label j)
  have ri : ∀ᵐ ω ∂P, (d ω).net.label i (a.label i) < C := by
    have h := choiceLaw_range (C := C) (p := a.label i)
    rw [← li.map_eq] at h
    exact ae_of_ae_map li.aemeasurable h
  have rj : ∀ᵐ ω ∂P, (d ω).net.label j (a.label j) < C := by
    have h := choiceLaw_range (C := C) (p := a.label j)
    rw [← lj.map_eq] at h
    exact ae_of_ae_map lj.aemeasurable h
  have mI : ∀ c : ℕ, Measurable fun x : ℕ => if x = c then (1:ℝ) else 0 := fun c => measurable_of_countable _
  have term : ∀ c < C, ∀ e < C, Integrable (fun ω => ((if (d ω).net.label i (a.label i) = c then (1:ℝ) else 0) * if (d ω).net.label j (a.label j) = e then (1:ℝ) else 0)
        * f c e (MFDraws.value (d ω) a (s c e))) P ∧
      ∫ ω, ((if (d ω).net.label i (a.label i) = c then (1:ℝ) else 0) * if (d ω).net.label j (a.label j) = e then (1:ℝ) else 0) * f c e (MFDraws.value (d ω) a (s c e)) ∂P
        = a.label i c * a.label j e * ∫ ω, f c e (MFDraws.value (d ω) a (s c e)) ∂P := by
    intro c hc e he
    obtain ⟨i1, v1⟩ := label_mean (ha.label i) li hc
    obtain ⟨i2, v2⟩ := label_mean (ha.label j) lj he
    have h1 : IndepFun (fun ω => (d ω).net.label i (a.label i)) (fun ω => (d ω).net.label j (a.label j)) P := I.indepFun (i := .label i) (j := .label j) (by simpa using hij)
    have h2 : IndepFun (fun ω => if (d ω).net.label i (a.label i) = c then (1:ℝ) else 0) (fun ω => if (d ω).net.label j (a.label j) = e then (1:ℝ) else 0) P := h1.comp (mI c) (mI e)
    have h3 : IndepFun (fun ω => ((d ω).net.label i (a.label i), (d ω).net.label j (a.label j))) (fun ω => MFDraws.value (d ω) a (s c e)) P :=
      I.indepFun_prodMk₀ hm (.label i) (.label j) (s c e) (hs c e i).symm (hs c e j).symm
    have mp : Measurable fun z : ℕ × ℕ => (if z.1 = c then (1:ℝ) else 0) * if z.2 = e then (1:ℝ) else 0 := measurable_of_countable _
    have h4 : IndepFun (fun ω => (if (d ω).net.label i (a.label i) = c then (1:ℝ) else 0) * if (d ω).net.label j (a.label j) = e then (1:ℝ) else 0)
        (fun ω => f c e (MFDraws.value (d ω) a (s c e))) P := h3.comp mp (hf c e)
    have i12 := h2.integrable_mul i1 i2
    refine ⟨h4.integrable_mul i12 (hi c hc e he), ?_⟩
    rw [h4.integral_fun_mul_eq_mul_integral i12.aestronglyMeasurable (hi c hc e he).aestronglyMeasurable,
      h2.integral_fun_mul_eq_mul_integral i1.aestronglyMeasurable i2.aestronglyMeasurable, v1, v2]
  have e : (fun ω => f ((d ω).net.label i (a.label i)) ((d ω).net.label j (a.label j)) (MFDraws.value (d ω) a (s ((d ω).net.label i (a.label i)) ((d ω).net.label j (a.label j)))))
      =ᵐ[P] fun ω => ∑ c ∈ range C, ∑ e ∈ range C, ((if (d ω).net.label i (a.label i) = c then (1:ℝ) else 0) * if (d ω).net.label j (a.label j) = e then (1:ℝ) else 0)
        * f c e (MFDraws.value (d ω) a (s c e)) := by
    filter_upwards [ri, rj] with ω h1 h2
    rw [sum_eq_single_of_mem _ (mem_range.2 h1) fun c _ hc => ?_]
    · rw [sum_eq_single_of_mem _ (mem_range.2 h2) fun c _ hc => ?_]
      · simp
      · rw [if_neg (Ne.symm hc)]; simp
    · refine sum_eq_zero fun e _ => ?_
      rw [if_neg (Ne.symm hc)]; simp
  rw [integral_congr_ae e, integral_finsetSum _ fun c hc => integrable_finsetSum _ fun e he => (term c (mem_range.1 hc) e (mem_range.1 he)).1]
  refine sum_congr rfl fun c hc => ?_
  rw [integral_finsetSum _ fun e he => (term c (mem_range.1 hc) e (mem_range.1 he)).1]
  exact sum_congr rfl fun e he => (term c (mem_range.1 hc) e (mem_range.1 he)).2

end network

end PyHawkes
