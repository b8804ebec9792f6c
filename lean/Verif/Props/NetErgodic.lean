import Verif.Props.NetSystem
import Verif.Props.Ergodic

/-!
# One sweep reaches exactly the sets of positive posterior probability (used for C94)
-/
set_option linter.unusedSectionVars false
set_option linter.unusedVariables false
set_option linter.unnecessarySeqFocus false

namespace PyHawkes
open Finset Spec MeasureTheory ProbabilityTheory

/-! ### measures with the same null sets -/

theorem lint_zero_iff {X : Type*} [MeasurableSpace X] {m1 m2 : Measure X} (h1 : m1 ≪ m2) (h2 : m2 ≪ m1) {F : X → ENNReal} (hF : Measurable F) :
    ∫⁻ x, F x ∂m1 = 0 ↔ ∫⁻ x, F x ∂m2 = 0 := by
  rw [lintegral_eq_zero_iff hF, lintegral_eq_zero_iff hF]
  exact ⟨fun h => h2.ae_le h, fun h => h1.ae_le h⟩

theorem gammaMeasure_ac {a r a' r' : ℝ} (ha : 0 < a') (hr : 0 < r') : gammaMeasure a r ≪ gammaMeasure a' r' := by
  refine Measure.AbsolutelyContinuous.mk fun s hs h0 => ?_
  unfold gammaMeasure at h0 ⊢
  have m : ∀ a r, Measurable (gammaPDF a r) := fun a r => (measurable_gammaPDFReal a r).ennreal_ofReal
  rw [withDensity_apply _ hs] at h0 ⊢
  rw [lintegral_eq_zero_iff (m a' r')] at h0
  rw [lintegral_eq_zero_iff (m a r)]
  filter_upwards [h0, ae_restrict_of_ae (Measure.ae_ne volume (0 : ℝ))] with x hx hx0
  have hneg : x < 0 := by
    by_contra hc
    have : 0 < x := lt_of_le_of_ne (not_lt.1 hc) (Ne.symm hx0)
    have hp : 0 < gammaPDF a' r' x := ENNReal.ofReal_pos.2 (gammaPDFReal_pos ha hr this)
    exact hp.ne' hx
  unfold gammaPDF
  rw [gammaPDFReal_zero_of_neg hneg, ENNReal.ofReal_zero]
  rfl

theorem pi_ac {ι X : Type*} [Fintype ι] [MeasurableSpace X] {ν ρ : ι → Measure X} [∀ i, IsProbabilityMeasure (ν i)] [∀ i, IsProbabilityMeasure (ρ i)] (h : ∀ i, ν i ≪ ρ i) :
    Measure.pi ν ≪ Measure.pi ρ := by
  have e : ∀ i, (ρ i).withDensity ((ν i).rnDeriv (ρ i)) = ν i := fun i => Measure.withDensity_rnDeriv_eq _ _ (h i)
  have hp : ∀ i, IsProbabilityMeasure ((ρ i).withDensity ((ν i).rnDeriv (ρ i))) := fun i => by rw [e i]; infer_instance
  have := pi_withDensity' (μ := ρ) (fun i => (ν i).rnDeriv (ρ i)) fun i => Measure.measurable_rnDeriv _ _
  simp only [e] at this
  rw [this]
  exact withDensity_absolutelyContinuous _ _

/-- a draw from the distribution proportional to an almost everywhere positive `f` -/
theorem BayesStep.ac {X Y : Type*} [MeasurableSpace X] [MeasurableSpace Y] {ν : Measure X} [IsProbabilityMeasure ν] {f : X → ENNReal} {μ : Measure Y} {s : Y → X}
    (h : BayesStep ν f μ s) (hf : Measurable f) (hpos : ∀ᵐ x ∂ν, f x ≠ 0) : μ.map s ≪ ν ∧ ν ≪ μ.map s := by
  have h0 : ∫⁻ x, f x ∂ν ≠ 0 := by
    rw [Ne, lintegral_eq_zero_iff hf]
    intro hz
    have : ∀ᵐ x ∂ν, False := by filter_upwards [hz, hpos] with x h1 h2 using h2 h1
    rw [Filter.eventually_false_iff_eq_bot, ae_eq_bot] at this
    exact IsProbabilityMeasure.ne_zero ν this
  have h1 : μ.map s ≪ ν.withDensity f := by
    rw [h.2]
    refine Measure.AbsolutelyContinuous.mk fun t ht hz => ?_
    rw [Measure.smul_apply, smul_eq_mul, mul_eq_zero] at hz
    exact hz.resolve_left h0
  have h2 : ν.withDensity f ≪ μ.map s := by
    rw [h.2]
    refine Measure.AbsolutelyContinuous.mk fun t ht hz => ?_
    rw [Measure.smul_apply, smul_eq_mul, hz, mul_zero]
  exact ⟨h1.trans (withDensity_absolutelyContinuous _ _), (withDensity_absolutelyContinuous' hf.aemeasurable hpos).trans h2⟩

/-! ### the adjacency update -/

section
variable {U : Type*} [MeasurableSpace U] {μ : Measure U} (G : Generator μ) {ι : Type*} [Fintype ι] [DecidableEq ι] {p : ι → ℝ} {L : (ι → ℝ) → ℝ}

theorem bernPost_zero_iff {q l0 l1 : ℝ} (hq : 0 ≤ q) (hq1 : q ≤ 1) (h0 : 0 < l0) (h1 : 0 < l1) :
    (bernPost q l0 l1 = 0 ↔ q = 0) ∧ (1 - bernPost q l0 l1 = 0 ↔ 1 - q = 0) := by
  have hd : 0 < q * l1 + (1 - q) * l0 := by
    rcases hq.lt_or_eq with h | h
    · exact add_pos_of_pos_of_nonneg (mul_pos h h1) (mul_nonneg (by linarith) h0.le)
    · rw [← h]; simpa using h0
  have e : 1 - bernPost q l0 l1 = (1 - q) * l0 / (q * l1 + (1 - q) * l0) := by unfold bernPost; field_simp; ring
  rw [e]
  unfold bernPost
  rw [div_eq_zero_iff, div_eq_zero_iff, mul_eq_zero, mul_eq_zero]
  constructor
  · exact ⟨fun h => (h.resolve_right hd.ne').resolve_right h1.ne', fun h => .inl (.inl h)⟩
  · exact ⟨fun h => (h.resolve_right hd.ne').resolve_right h0.ne', fun h => .inl (.inl h)⟩

/-- the entries of `l` from `A'`, the others from `A` -/
def mixOn (l : List ι) (A' A : ι → ℝ) : ι → ℝ := fun e => if e ∈ l then A' e else A e

theorem mixOn_cons (e : ι) (l : List ι) (he : e ∉ l) (A' A : ι → ℝ) (b : ℝ) : mixOn (e :: l) (Function.update A' e b) A = mixOn l A' (Function.update A e b) := by
  funext j
  unfold mixOn
  by_cases h : j = e
  · subst h; simp [he]
  · simp [h]

theorem sites_null (hp : ∀ e, 0 ≤ p e ∧ p e ≤ 1) (hL : Measurable L) (hpos : ∀ A, 0 < L A) (l : List ι) (hl : l.Nodup) {T : (ι → ℝ) → ENNReal} (hT : Measurable T) (A : ι → ℝ) :
    ∫⁻ x, T (sitesStep G p L x l A) ∂Measure.pi (fun _ => μ) = 0 ↔ ∫⁻ A', T (mixOn l A' A) ∂Measure.pi (fun e => coinLaw (p e)) = 0 := by
  have hμ := gen_prob G
  have hP : ∀ e, IsProbabilityMeasure (coinLaw (p e)) := fun e => coinLaw_prob (hp e).1 (hp e).2
  have mmix : ∀ l : List ι, Measurable fun y : (ι → ℝ) × (ι → ℝ) => mixOn l y.1 y.2 := fun l => by
    rw [measurable_pi_iff]; intro e
    unfold mixOn
    split_ifs <;> fun_prop
  induction l generalizing A with
  | nil =>
    have e1 : ∀ x, sitesStep G p L x [] A = A := fun _ => rfl
    have e2 : ∀ A', mixOn [] A' A = A := fun A' => by funext j; simp [mixOn]
    simp only [e1, e2, lintegral_const, measure_univ, mul_one]
  | cons e l ih =>
    obtain ⟨he, hl⟩ := List.nodup_cons.1 hl
    have mS : ∀ l : List ι, Measurable fun y : (ι → U) × (ι → ℝ) => T (sitesStep G p L y.1 l y.2) := fun l =>
      hT.comp ((measurable_sitesStep G (Z := Unit) (L := fun _ => L) (hL.comp measurable_snd) l).comp (f := fun y : (ι → U) × (ι → ℝ) => ((), y)) (by fun_prop))
    have m1 : Measurable fun y : (ι → U) × U => siteStep G p L e y.2 A :=
      (measurable_siteStep G (Z := Unit) (L := fun _ => L) (hL.comp measurable_snd) e).comp (f := fun y : (ι → U) × U => ((), y.2, A)) (by fun_prop)
    have m2 : Measurable fun y : (ι → U) × U => T (sitesStep G p L y.1 l (siteStep G p L e y.2 A)) :=
      (mS l).comp (f := fun y : (ι → U) × U => (y.1, siteStep G p L e y.2 A)) (measurable_fst.prodMk m1)
    set q := bernPost (p e) (L (Function.update A e 0)) (L (Function.update A e 1)) with hq
    obtain ⟨q0, q1⟩ := bernPost_mem (hp e).1 (hp e).2 (hpos (Function.update A e 0)) (hpos (Function.update A e 1))
    obtain ⟨z0, z1⟩ := bernPost_zero_iff (hp e).1 (hp e).2 (hpos (Function.update A e 0)) (hpos (Function.update A e 1))
    have eL : ∫⁻ x, T (sitesStep G p L x (e :: l) A) ∂Measure.pi (fun _ => μ)
        = ENNReal.ofReal q * ∫⁻ x, T (sitesStep G p L x l (Function.update A e 1)) ∂Measure.pi (fun _ => μ)
          + ENNReal.ofReal (1 - q) * ∫⁻ x, T (sitesStep G p L x l (Function.update A e 0)) ∂Measure.pi (fun _ => μ) := by
      calc _ = ∫⁻ x, ∫⁻ t, T (sitesStep G p L x l (siteStep G p L e t A)) ∂μ ∂Measure.pi (fun _ => μ) := by
            rw [lintegral_update (fun _ => μ) e (show Measurable fun x => T (sitesStep G p L x (e :: l) A) from (mS (e :: l)).comp (f := fun x => (x, A)) (by fun_prop))]
            refine lintegral_congr fun x => lintegral_congr fun t => ?_
            change T (sitesStep G p L (Function.update x e t) l (siteStep G p L e (Function.update x e t e) A)) = _
            rw [Function.update_self]
            congr 1
            exact sitesStep_congr G _ _ l (fun j hj => Function.update_of_ne (show j ≠ e from fun h => he (h ▸ hj)) _ _) _
        _ = ∫⁻ t, ∫⁻ x, T (sitesStep G p L x l (siteStep G p L e t A)) ∂Measure.pi (fun _ => μ) ∂μ := lintegral_lintegral_swap m2.aemeasurable
        _ = _ := by
            unfold siteStep
            exact unif_coin G q0 q1 fun b => ∫⁻ x, T (sitesStep G p L x l (Function.update A e b)) ∂Measure.pi (fun _ => μ)
    have mT : ∀ l A, Measurable fun A' => T (mixOn l A' A) := fun l A => hT.comp ((mmix l).comp (f := fun A' => (A', A)) (by fun_prop))
    have eR : ∫⁻ A', T (mixOn (e :: l) A' A) ∂Measure.pi (fun e => coinLaw (p e))
        = ENNReal.ofReal (p e) * ∫⁻ A', T (mixOn l A' (Function.update A e 1)) ∂Measure.pi (fun e => coinLaw (p e))
          + ENNReal.ofReal (1 - p e) * ∫⁻ A', T (mixOn l A' (Function.update A e 0)) ∂Measure.pi (fun e => coinLaw (p e)) := by
      rw [lintegral_update (fun e => coinLaw (p e)) e (mT (e :: l) A)]
      simp only [lintegral_coin, mixOn_cons e l he]
      have a1 := mT l (Function.update A e 1)
      have a0 := mT l (Function.update A e 0)
      rw [lintegral_add_left (a1.const_mul _), lintegral_const_mul _ a1, lintegral_const_mul _ a0]
    have i1 := ih hl (Function.update A e 1)
    have i0 := ih hl (Function.update A e 0)
    rw [eL, eR, add_eq_zero, add_eq_zero, mul_eq_zero, mul_eq_zero, mul_eq_zero, mul_eq_zero, ENNReal.ofReal_eq_zero, ENNReal.ofReal_eq_zero, ENNReal.ofReal_eq_zero, ENNReal.ofReal_eq_zero]
    have f1 : q ≤ 0 ↔ p e ≤ 0 := by
      rw [le_antisymm_iff.trans (and_iff_left q0) |>.symm, z0]; exact ⟨fun h => h.le, fun h => le_antisymm h (hp e).1⟩
    have f2 : 1 - q ≤ 0 ↔ 1 - p e ≤ 0 := by
      have g1 : 0 ≤ 1 - q := by rw [hq]; linarith
      have g2 : 0 ≤ 1 - p e := by linarith [(hp e).2]
      exact ⟨fun h => (z1.1 (le_antisymm h g1)).le, fun h => (z1.2 (le_antisymm h g2)).le⟩
    exact and_congr (or_congr f1 i1) (or_congr f2 i0)

end

/-! ### one call -/

section
variable {U V N Φ Z X Y : Type*} [MeasurableSpace U] [MeasurableSpace V] [MeasurableSpace N] [MeasurableSpace Φ] [MeasurableSpace Z] [MeasurableSpace X] [MeasurableSpace Y]
  {K : ℕ} (S : AugSys K Φ Z X Y) (Q : NetSys K N V)

/-- the latent variables and the further parameters are drawn from distributions with full support when started in `D` -/
structure AugSys.Pos (D : Set Φ) : Prop where
  D_meas : MeasurableSet D
  D_ae : ∀ᵐ φ ∂S.ν, φ ∈ D
  z_law : ∀ A W, (∀ e, 0 ≤ A e * W e) → ∀ φ ∈ D, ∀ F : Z → ENNReal, ∫⁻ x, F (S.z A W φ x) ∂S.μX = ∑' z, S.kz φ A W z * F z
  f_pos : ∀ A W, (∀ e, 0 ≤ A e * W e) → ∀ φ ∈ D, ∀ z, S.kz φ A W z ≠ 0 → ∀ᵐ φ' ∂S.ν, S.fφ φ' z ≠ 0

/-- the network update reaches exactly the sets of positive prior probability when started in `D` -/
structure NetSys.Pos (D : Set N) : Prop where
  D_meas : MeasurableSet D
  D_ae : ∀ᵐ η ∂Q.ν, η ∈ D
  step_ac : ∀ η ∈ D, ∀ A W, (∀ e, A e = 0 ∨ A e = 1) → (∀ e, 0 ≤ W e) → (Q.μV.map fun u => Q.step u η A W) ≪ Q.ν ∧ Q.ν ≪ Q.μV.map fun u => Q.step u η A W

/-- the valid parameters -/
def netValid (K : ℕ) (DN : Set N) (DΦ : Set Φ) : Set (NetTheta K N Φ) := {θ | (∀ e, θ.1 e = 0 ∨ θ.1 e = 1) ∧ θ.2.1 ∈ DN ∧ (∀ e, 0 ≤ θ.2.2.1 e) ∧ θ.2.2.2 ∈ DΦ}

variable {S Q} {μ : Measure U} (G : Generator μ) [Countable Z] [MeasurableSingletonClass Z] (h : S.Ok) (hQ : Q.Ok) {DN : Set N} {DΦ : Set Φ}

theorem netValid_meas (hN : MeasurableSet DN) (hΦ : MeasurableSet DΦ) : MeasurableSet (netValid K DN DΦ) := by
  have e : netValid K DN DΦ = (⋂ e, {θ : NetTheta K N Φ | θ.1 e = 0} ∪ {θ | θ.1 e = 1}) ∩ ((fun θ : NetTheta K N Φ => θ.2.1) ⁻¹' DN ∩ ((⋂ e, {θ : NetTheta K N Φ | 0 ≤ θ.2.2.1 e}) ∩ (fun θ : NetTheta K N Φ => θ.2.2.2) ⁻¹' DΦ)) := by
    ext θ; simp [netValid]
  rw [e]
  refine (MeasurableSet.iInter fun e => (measurableSet_eq_fun (by fun_prop) measurable_const).union (measurableSet_eq_fun (by fun_prop) measurable_const)).inter
    ((measurable_fst.comp measurable_snd hN).inter ((MeasurableSet.iInter fun e => measurableSet_le measurable_const (by fun_prop)).inter ?_))
  exact (measurable_snd.comp (measurable_snd.comp measurable_snd)) hΦ

include h hQ in
theorem netW_law (z : Z) {A : Pair K → ℝ} (hA : ∀ e, A e = 0 ∨ A e = 1) {η : N} (hη : ∀ e, 0 < Q.s η e) :
    (Measure.pi fun _ : Pair K => μ).map (netW S Q G z η A) = Measure.pi fun e => gammaMeasure (Q.κ + S.via z e) (Q.s η e + S.ev e.1 * A e) := by
  have hμ := gen_prob G
  have hA0 : ∀ e, 0 ≤ A e := fun e => by rcases hA e with h | h <;> rw [h] <;> norm_num
  have hr : ∀ e, 0 < Q.s η e + S.ev e.1 * A e := fun e => add_pos_of_pos_of_nonneg (hη e) (mul_nonneg (h.ev_nonneg _) (hA0 e))
  have hk : ∀ e, 0 < Q.κ + (S.via z e : ℝ) := fun e => add_pos_of_pos_of_nonneg hQ.κ_pos (Nat.cast_nonneg _)
  have hP : ∀ e, IsProbabilityMeasure (μ.map (G.gam ⟨Q.κ + S.via z e, 1 / (Q.s η e + S.ev e.1 * A e)⟩)) := fun e => Measure.isProbabilityMeasure_map (gam_measurable G _).aemeasurable
  have := Measure.pi_map_pi (μ := fun _ : Pair K => μ) (f := fun e => G.gam ⟨Q.κ + S.via z e, 1 / (Q.s η e + S.ev e.1 * A e)⟩) fun e => (gam_measurable G _).aemeasurable
  unfold netW
  rw [this]
  congr 1
  funext e
  rw [G.gam_law _ (hk e) (by dsimp only; exact one_div_pos.2 (hr e))]
  simp

include h hQ in
/-- **One call started in a valid state reaches exactly the sets of positive prior probability.** -/
theorem netSweep_null (pS : S.Pos DΦ) (pQ : Q.Pos DN) {θ : NetTheta K N Φ} (hθ : θ ∈ netValid K DN DΦ) {T : NetTheta K N Φ → ENNReal} (hT : Measurable T) :
    ∫⁻ x, T (netSweep S Q G θ x) ∂netSeedLaw S Q μ = 0 ↔ ∫⁻ θ, T θ ∂netPrior S Q = 0 := by
  obtain ⟨A, η, W, φ⟩ := θ
  obtain ⟨hA, hη, hW, hφ⟩ := hθ
  dsimp only at hA hη hW hφ
  have hμ := gen_prob G
  have hS := hQ.ν_prob
  have hV := hQ.V_prob
  have hΦ := h.ν_prob
  have hXp := h.X_prob
  have hYp := h.Y_prob
  have hAW : ∀ e, 0 ≤ A e * W e := fun e => by rcases hA e with h | h <;> rw [h] <;> simp [hW e]
  have mD : Measurable fun θ : NetTheta K N Φ => Q.dens θ.2.1 θ.1 θ.2.2.1 := (NetSys.dens_meas hQ).comp (f := fun θ : NetTheta K N Φ => (θ.2.1, θ.1, θ.2.2.1)) (by fun_prop)
  -- the prior: `C r = 0` for almost all `r`
  set C : N × (Pair K → ℝ) × Φ → ENNReal := fun r => ∫⁻ A', Q.pA r.1 A' * T (A', r) ∂coins01 K with hC
  have mC0 : Measurable fun y : (N × (Pair K → ℝ) × Φ) × (Pair K → ℝ) => Q.pA y.1.1 y.2 * T (y.2, y.1) :=
    ((NetSys.pA_meas hQ).comp (f := fun y : (N × (Pair K → ℝ) × Φ) × (Pair K → ℝ) => (y.1.1, y.2)) (by fun_prop)).mul (hT.comp (by fun_prop))
  have mC : Measurable C := mC0.lintegral_prod_right'
  have mpW : Measurable fun r : N × (Pair K → ℝ) × Φ => Q.pW r.1 r.2.1 := (NetSys.pW_meas hQ).comp (f := fun r : N × (Pair K → ℝ) × Φ => (r.1, r.2.1)) (by fun_prop)
  have eP : ∫⁻ θ, T θ ∂netPrior S Q = ∫⁻ r, Q.pW r.1 r.2.1 * C r ∂Q.ν.prod ((Measure.pi fun _ : Pair K => volume).prod S.ν) := by
    unfold netPrior
    rw [lintegral_withDensity_eq_lintegral_mul _ mD hT, lintegral_prod_symm _ (mD.mul hT).aemeasurable]
    refine lintegral_congr fun r => ?_
    have m1 : Measurable fun A : Pair K → ℝ => Q.pA r.1 A * T (A, r) := mC0.comp (f := fun A => (r, A)) (by fun_prop)
    rw [hC]
    dsimp only
    rw [← lintegral_const_mul _ m1]
    refine lintegral_congr fun A => ?_
    simp only [Pi.mul_apply, NetSys.dens]
    ring
  have mH : Measurable fun r : N × (Pair K → ℝ) × Φ => Q.pW r.1 r.2.1 * C r := mpW.mul mC
  have eP2 : ∫⁻ r, Q.pW r.1 r.2.1 * C r ∂Q.ν.prod ((Measure.pi fun _ : Pair K => volume).prod S.ν)
      = ∫⁻ φ, ∫⁻ η, ∫⁻ W, Q.pW η W * C (η, W, φ) ∂Measure.pi (fun _ => volume) ∂Q.ν ∂S.ν := by
    rw [lintegral_prod _ mH.aemeasurable]
    have e1 : ∀ η, ∫⁻ y : (Pair K → ℝ) × Φ, Q.pW η y.1 * C (η, y) ∂(Measure.pi fun _ : Pair K => volume).prod S.ν
        = ∫⁻ φ, ∫⁻ W, Q.pW η W * C (η, W, φ) ∂Measure.pi (fun _ => volume) ∂S.ν := fun η => by
      have m : Measurable fun y : (Pair K → ℝ) × Φ => Q.pW η y.1 * C (η, y) := mH.comp (f := fun y => (η, y)) (by fun_prop)
      exact lintegral_prod_symm _ m.aemeasurable
    dsimp only at e1 ⊢
    simp only [e1]
    have m2 : Measurable fun y : N × Φ => ∫⁻ W, Q.pW y.1 W * C (y.1, W, y.2) ∂Measure.pi (fun _ : Pair K => (volume : Measure ℝ)) :=
      Measurable.lintegral_prod_right' (f := fun y : (N × Φ) × (Pair K → ℝ) => Q.pW y.1.1 y.2 * C (y.1.1, y.2, y.1.2)) (mH.comp (f := fun y : (N × Φ) × (Pair K → ℝ) => (y.1.1, y.2, y.1.2)) (by fun_prop))
    exact lintegral_lintegral_swap m2.aemeasurable
  -- the adjacency update
  set E : N × (Pair K → ℝ) × Φ → ENNReal := fun r => ∫⁻ t, T (netEdges S Q G (A, r) t) ∂Measure.pi (fun _ => μ) with hE
  have mE0 : Measurable fun y : (N × (Pair K → ℝ) × Φ) × (Pair K → U) => T (netEdges S Q G (A, y.1) y.2) :=
    hT.comp ((netEdges_meas G h hQ).comp (f := fun y : (N × (Pair K → ℝ) × Φ) × (Pair K → U) => ((A, y.1), y.2)) (by fun_prop))
  have mE : Measurable E := mE0.lintegral_prod_right'
  have hEC : ∀ r : N × (Pair K → ℝ) × Φ, (∀ e, 0 ≤ Q.P r.1 e ∧ Q.P r.1 e ≤ 1) → (E r = 0 ↔ C r = 0) := fun r hr => by
    have mF : Measurable fun A : Pair K → ℝ => T (A, r) := hT.comp (by fun_prop)
    have mL : Measurable fun A : Pair K → ℝ => S.L A r.2.1 r.2.2 := h.L_meas.comp (f := fun A => (A, r.2)) (by fun_prop)
    have := sites_null G (p := Q.P r.1) (L := fun A => S.L A r.2.1 r.2.2) hr mL (fun A => h.L_pos _ _ _) (pairList K) (nodup_pairList _) mF A
    have em : ∀ A' : Pair K → ℝ, mixOn (pairList K) A' A = A' := fun A' => by funext e; simp [mixOn, mem_pairList]
    simp only [em] at this
    rw [hE, hC]
    dsimp only
    rw [NetSys.pA_conv hr mF, ← this]
    rfl
  -- the seeds
  have mg : Measurable fun x : NetSeeds K U V X Y => netGlobal S Q G (A, η, W, φ) x := (netGlobal_meas G h hQ).comp (f := fun x => ((A, η, W, φ), x)) (by fun_prop)
  set J : Z → Φ → N → ENNReal := fun z φ' η' => ∫⁻ y', E (η', netW S Q G z η' A y', φ') ∂Measure.pi (fun _ => μ) with hJ
  have mJ : ∀ z, Measurable fun y : Φ × N => J z y.1 y.2 := fun z => by
    have mw : Measurable fun y : (Φ × N) × (Pair K → U) => netW S Q G z y.1.2 A y.2 := (netW_meas G hQ z).comp (f := fun y : (Φ × N) × (Pair K → U) => (y.1.2, A, y.2)) (by fun_prop)
    exact (mE.comp (f := fun y : (Φ × N) × (Pair K → U) => (y.1.2, netW S Q G z y.1.2 A y.2, y.1.1)) (by fun_prop)).lintegral_prod_right'
  have mstep : Measurable fun u => Q.step u η A W := hQ.step_meas.comp (f := fun u => (u, η, A, W)) (by fun_prop)
  have eI : ∫⁻ x, T (netSweep S Q G (A, η, W, φ) x) ∂netSeedLaw S Q μ = ∑' z, S.kz φ A W z * ∫⁻ y, ∫⁻ u, J z (S.sφ z y) (Q.step u η A W) ∂Q.μV ∂S.μY := by
    rw [← pS.z_law A W hAW φ hφ fun z => ∫⁻ y, ∫⁻ u, J z (S.sφ z y) (Q.step u η A W) ∂Q.μV ∂S.μY]
    have ms : Measurable fun x : NetSeeds K U V X Y => T (netSweep S Q G (A, η, W, φ) x) := hT.comp ((netSweep_meas G h hQ).comp (f := fun x => ((A, η, W, φ), x)) (by fun_prop))
    simp only [netSeedLaw]
    rw [lintegral_prod _ ms.aemeasurable]
    refine lintegral_congr fun x1 => ?_
    have a2 : Measurable fun x : Y × V × (Pair K → U) × (Pair K → U) => T (netSweep S Q G (A, η, W, φ) (x1, x)) := ms.comp (f := fun x => (x1, x)) (by fun_prop)
    rw [lintegral_prod _ a2.aemeasurable]
    refine lintegral_congr fun x2 => ?_
    have a3 : Measurable fun x : V × (Pair K → U) × (Pair K → U) => T (netSweep S Q G (A, η, W, φ) (x1, x2, x)) := a2.comp (f := fun x => (x2, x)) (by fun_prop)
    rw [lintegral_prod _ a3.aemeasurable]
    refine lintegral_congr fun x3 => ?_
    have a4 : Measurable fun x : (Pair K → U) × (Pair K → U) => T (netSweep S Q G (A, η, W, φ) (x1, x2, x3, x)) := a3.comp (f := fun x => (x3, x)) (by fun_prop)
    rw [lintegral_prod _ a4.aemeasurable]
    rfl
  -- for every possible value of the latent variables
  have key : ∀ z, S.kz φ A W z ≠ 0 → (∫⁻ y, ∫⁻ u, J z (S.sφ z y) (Q.step u η A W) ∂Q.μV ∂S.μY = 0 ↔ ∫⁻ θ, T θ ∂netPrior S Q = 0) := by
    intro z hz
    rw [eP, eP2]
    obtain ⟨b1, b2⟩ := (h.phi_step z).ac (h.fφ_meas z) (pS.f_pos A W hAW φ hφ z hz)
    obtain ⟨c1, c2⟩ := pQ.step_ac η hη A W hA hW
    have mu : Measurable fun φ' => ∫⁻ u, J z φ' (Q.step u η A W) ∂Q.μV :=
      Measurable.lintegral_prod_right' (f := fun y : Φ × V => J z y.1 (Q.step y.2 η A W)) ((mJ z).comp (f := fun y : Φ × V => (y.1, Q.step y.2 η A W)) (by fun_prop))
    have mη : Measurable fun φ' => ∫⁻ η', ∫⁻ W', Q.pW η' W' * C (η', W', φ') ∂Measure.pi (fun _ => volume) ∂Q.ν := by
      refine Measurable.lintegral_prod_right' (f := fun y : Φ × N => ∫⁻ W', Q.pW y.2 W' * C (y.2, W', y.1) ∂Measure.pi (fun _ => volume)) ?_
      exact Measurable.lintegral_prod_right' (f := fun y : (Φ × N) × (Pair K → ℝ) => Q.pW y.1.2 y.2 * C (y.1.2, y.2, y.1.1)) (mH.comp (f := fun y : (Φ × N) × (Pair K → ℝ) => (y.1.2, y.2, y.1.1)) (by fun_prop))
    rw [← lintegral_map (μ := S.μY) (f := fun φ' => ∫⁻ u, J z φ' (Q.step u η A W) ∂Q.μV) mu (h.sφ_meas z), lint_zero_iff b1 b2 mu, lintegral_eq_zero_iff mu, lintegral_eq_zero_iff mη]
    refine Filter.eventually_congr (Filter.Eventually.of_forall fun φ' => ?_)
    dsimp only [Pi.zero_apply]
    have mJφ : Measurable fun η' => J z φ' η' := (mJ z).comp (f := fun η' => (φ', η')) (by fun_prop)
    have mW : Measurable fun η' => ∫⁻ W', Q.pW η' W' * C (η', W', φ') ∂Measure.pi (fun _ : Pair K => (volume : Measure ℝ)) :=
      Measurable.lintegral_prod_right' (f := fun y : N × (Pair K → ℝ) => Q.pW y.1 y.2 * C (y.1, y.2, φ')) (mH.comp (f := fun y : N × (Pair K → ℝ) => (y.1, y.2, φ')) (by fun_prop))
    rw [← lintegral_map (μ := Q.μV) (f := fun η' => J z φ' η') mJφ mstep, lint_zero_iff c1 c2 mJφ, lintegral_eq_zero_iff mJφ, lintegral_eq_zero_iff mW]
    refine Filter.eventually_congr ?_
    filter_upwards [hQ.P_mem, hQ.s_pos] with η' hp hs
    dsimp only [Pi.zero_apply]
    have hA0 : ∀ e, 0 ≤ A e := fun e => by rcases hA e with h | h <;> rw [h] <;> norm_num
    have hr : ∀ e, 0 < Q.s η' e + S.ev e.1 * A e := fun e => add_pos_of_pos_of_nonneg (hs e) (mul_nonneg (h.ev_nonneg _) (hA0 e))
    have hk : ∀ e, 0 < Q.κ + (S.via z e : ℝ) := fun e => add_pos_of_pos_of_nonneg hQ.κ_pos (Nat.cast_nonneg _)
    have hg1 := fun e => isProbabilityMeasure_gammaMeasure hQ.κ_pos (hs e)
    have hg2 := fun e => isProbabilityMeasure_gammaMeasure (hk e) (hr e)
    have mEη : Measurable fun W' => E (η', W', φ') := mE.comp (f := fun W' => (η', W', φ')) (by fun_prop)
    have mCη : Measurable fun W' => C (η', W', φ') := mC.comp (f := fun W' => (η', W', φ')) (by fun_prop)
    have mw : Measurable fun y => netW S Q G z η' A y := (netW_meas G hQ z).comp (f := fun y => (η', A, y)) (by fun_prop)
    rw [hJ]
    dsimp only
    rw [← lintegral_map (f := fun W' => E (η', W', φ')) mEη mw, netW_law G h hQ z hA hs,
      lint_zero_iff (pi_ac fun e => gammaMeasure_ac hQ.κ_pos (hs e)) (pi_ac fun e => gammaMeasure_ac (hk e) (hr e)) mEη,
      NetSys.pW_conv hQ hs mCη, lintegral_eq_zero_iff mEη, lintegral_eq_zero_iff mCη]
    exact Filter.eventually_congr (Filter.Eventually.of_forall fun W' => hEC (η', W', φ') hp)
  rw [eI, ENNReal.tsum_eq_zero]
  constructor
  · intro hz
    have h1 := pS.z_law A W hAW φ hφ fun _ => 1
    rw [lintegral_one, measure_univ] at h1
    simp only [mul_one] at h1
    have : ∃ z, S.kz φ A W z ≠ 0 := by
      by_contra hc
      push Not at hc
      simp only [hc, tsum_zero] at h1
      exact one_ne_zero h1
    obtain ⟨z, hkz⟩ := this
    exact (key z hkz).1 ((mul_eq_zero.1 (hz z)).resolve_left hkz)
  · intro hp z
    by_cases hkz : S.kz φ A W z = 0
    · rw [hkz, zero_mul]
    · rw [(key z hkz).2 hp, mul_zero]

end

end PyHawkes
