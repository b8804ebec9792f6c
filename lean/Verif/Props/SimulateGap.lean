import Verif.Props.SimulateBayes
import Verif.Props.ChainSpace

/-!
# C91: late events, the exact difference between training likelihood and probability of the data
-/
set_option linter.unusedSectionVars false
set_option linter.unusedVariables false

namespace PyHawkes
open Finset Spec MeasureTheory ProbabilityTheory

theorem lost_eq {P : NetParams ℝ} (h : UnitSim P) (D : DParents ℝ) (i b : ℕ) (hb : b < P.B) :
    ∑ t ∈ range D.T, (D.S t i : ℝ) - P.dt * ∑ t ∈ range D.T, filtered P.L P.basis (fun t k => (D.S t k : ℝ)) t i b = lostMass P D i b := by
  unfold lostMass
  rw [sum_filtered, mul_sum, ← sum_sub_distrib]
  refine sum_congr rfl fun s _ => ?_
  have e : ∑ l ∈ range P.L, (if s + l < D.T then P.basis l b else 0) + ∑ l ∈ range P.L, (if D.T ≤ s + l then P.basis l b else 0) = ∑ l ∈ range P.L, P.basis l b := by
    rw [← sum_add_distrib]
    refine sum_congr rfl fun l _ => ?_
    by_cases hl : s + l < D.T
    · rw [if_pos hl, if_neg (by omega), add_zero]
    · rw [if_neg hl, if_pos (by omega), zero_add]
  have ha := h.area b hb
  rw [← e, mul_add] at ha
  linear_combination (D.S s i : ℝ) * (-ha)

/-- **C91 (exact difference).** For legal parameters the held-out log likelihood of a stored data set is the training log likelihood plus the expected number of events that the observed events
trigger after the end of the recording. -/
theorem C91_training_gap {P : NetParams ℝ} (h : UnitSim P) (hp : RateOk P) {D : DParents ℝ} (hs : StoredOk P D) (h32 : ∀ t < D.T, ∀ k < P.K, D.S t k < 2 ^ 32) :
    heldoutLL P D.T D.S = .ok (llData P D + cutOff P D) := by
  obtain ⟨r, hr⟩ := (C05_compute_rate_ok_iff P D.T P.K (fun t k => (D.S t k : ℝ)) h.L h.B).2 ⟨hs.T, h.K, rfl⟩
  have hr' := (C05_compute_rate_eq P D.T P.K _ r hr).2
  have hF' := convolve_ok_eq hs.F
  have hv : heldoutLL P D.T D.S = .ok (poissonLL P.dt D.T P.K D.S r) := by unfold heldoutLL; rw [hr]
  rw [hv]
  refine congrArg _ ?_
  have hll : llData P D = ∑ k2 ∈ range P.K, ((∑ t ∈ range D.T, (D.S t k2 : ℝ) * Real.log (r t k2))
      - P.lam0 k2 * (D.T * P.dt) - ∑ k1 ∈ range P.K, P.Weff k1 k2 * ∑ t ∈ range D.T, (D.S t k1 : ℝ)) := by
    rw [llData_eq_sum, sum_comm]
    refine sum_congr rfl fun k2 hk2 => ?_
    unfold llBin
    rw [sum_sub_distrib, sum_sub_distrib]
    congr 1
    · congr 1
      · refine sum_congr rfl fun t ht => ?_
        rw [toU32_of_lt (h32 t (mem_range.1 ht) k2 (mem_range.1 hk2)), hr' t (mem_range.1 ht) k2 (mem_range.1 hk2)]
        congr 3
        refine sum_congr rfl fun k1 hk1 => sum_congr rfl fun b hb => ?_
        rw [hF' t (mem_range.1 ht) k1 (mem_range.1 hk1) b (mem_range.1 hb)]
      · rw [sum_const, card_range, nsmul_eq_mul]; ring
    · rw [sum_comm]; exact sum_congr rfl fun k1 _ => by rw [mul_sum]
  have hho : poissonLL P.dt D.T P.K D.S r = ∑ k2 ∈ range P.K, ((∑ t ∈ range D.T, (D.S t k2 : ℝ) * Real.log (r t k2))
      - P.lam0 k2 * (D.T * P.dt) - ∑ k1 ∈ range P.K, P.Weff k1 k2 * ∑ b ∈ range P.B, P.g k1 k2 b *
        (P.dt * ∑ t ∈ range D.T, Spec.filtered P.L P.basis (fun t k => (D.S t k : ℝ)) t k1 b)) := by
    unfold poissonLL
    rw [sum_comm]
    refine sum_congr rfl fun k2 hk2 => ?_
    rw [sum_sub_distrib, sub_sub]
    congr 1
    have : ∀ t ∈ range D.T, r t k2 * P.dt = P.lam0 k2 * P.dt + ∑ k1 ∈ range P.K, P.Weff k1 k2 * ∑ b ∈ range P.B,
        P.g k1 k2 b * (P.dt * Spec.filtered P.L P.basis (fun t k => (D.S t k : ℝ)) t k1 b) := by
      intro t ht
      rw [hr' t (mem_range.1 ht) k2 (mem_range.1 hk2), add_mul, sum_mul]
      congr 1
      refine sum_congr rfl fun k1 _ => ?_
      rw [sum_mul, mul_sum]
      exact sum_congr rfl fun b _ => by ring
    rw [sum_congr rfl this, sum_add_distrib, sum_const, card_range, nsmul_eq_mul]
    congr 1
    · ring
    · rw [sum_comm]
      refine sum_congr rfl fun k1 _ => ?_
      rw [← mul_sum, sum_comm]
      congr 1
      refine sum_congr rfl fun b _ => ?_
      rw [← mul_sum, ← mul_sum]
  rw [hll, hho]
  unfold cutOff
  rw [← sum_add_distrib]
  refine sum_congr rfl fun j hj => ?_
  have e : ∑ i ∈ range P.K, P.Weff i j * ∑ b ∈ range P.B, P.g i j b * (P.dt * ∑ t ∈ range D.T, Spec.filtered P.L P.basis (fun t k => (D.S t k : ℝ)) t i b)
      = ∑ i ∈ range P.K, P.Weff i j * ∑ t ∈ range D.T, (D.S t i : ℝ) - ∑ i ∈ range P.K, P.Weff i j * ∑ b ∈ range P.B, P.g i j b * lostMass P D i b := by
    rw [← sum_sub_distrib]
    refine sum_congr rfl fun i hi => ?_
    rw [← mul_sub]
    congr 1
    have hg := (hp.g i (mem_range.1 hi) j (mem_range.1 hj)).2
    have e2 : ∑ t ∈ range D.T, (D.S t i : ℝ) = ∑ b ∈ range P.B, P.g i j b * ∑ t ∈ range D.T, (D.S t i : ℝ) := by rw [← sum_mul, hg, one_mul]
    rw [e2, ← sum_sub_distrib]
    refine sum_congr rfl fun b hb => ?_
    rw [← lost_eq h D i b (mem_range.1 hb)]; ring
  rw [e]; ring

theorem lost_nonneg {P : NetParams ℝ} (h : UnitSim P) (D : DParents ℝ) (i b : ℕ) (hb : b < P.B) : 0 ≤ lostMass P D i b := by
  unfold lostMass
  refine sum_nonneg fun s _ => mul_nonneg (Nat.cast_nonneg _) (mul_nonneg h.dt.le (sum_nonneg fun l hl => ?_))
  split_ifs
  · exact h.basis l (mem_range.1 hl) b hb
  · exact le_rfl

/-- probability of the counts of one data set, in general -/
theorem data_prob_gap {P : NetParams ℝ} (h : UnitSim P) (hp : RateOk P) {D : DParents ℝ} (hs : StoredOk P D) (h32 : ∀ t < D.T, ∀ k < P.K, D.S t k < 2 ^ 32) :
    countProb P D.T D.S = Real.exp (llData P D) * Real.exp (cutOff P D) * countConst P.dt D.T P.K D.S := by
  rw [countProb_heldout h.toSimOk hp hs.T D.S (C91_training_gap h hp hs h32), Real.exp_add]

/-! ### late events: the invariant distribution of the sampler is not the conditional distribution -/

theorem cut_nonneg {P : NetParams ℝ} (h : UnitSim P) (hp : RateOk P) (D : DParents ℝ) : 0 ≤ cutOff P D := by
  unfold cutOff
  exact sum_nonneg fun j hj => sum_nonneg fun i hi => mul_nonneg (hp.W i (mem_range.1 hi) j (mem_range.1 hj))
    (sum_nonneg fun b hb => mul_nonneg ((hp.g i (mem_range.1 hi) j (mem_range.1 hj)).1 b (mem_range.1 hb)) (lost_nonneg h D i b (mem_range.1 hb)))

theorem cut_pos {P : NetParams ℝ} (h : UnitSim P) (hp : RateOk P) {D : DParents ℝ} {i j : ℕ} (hi : i < P.K) (hj : j < P.K) (hW : 0 < P.Weff i j) (hlost : ∀ b < P.B, 0 < lostMass P D i b) : 0 < cutOff P D := by
  have nn : ∀ j ∈ range P.K, ∀ i ∈ range P.K, 0 ≤ P.Weff i j * ∑ b ∈ range P.B, P.g i j b * lostMass P D i b := fun j hj i hi => mul_nonneg (hp.W i (mem_range.1 hi) j (mem_range.1 hj))
    (sum_nonneg fun b hb => mul_nonneg ((hp.g i (mem_range.1 hi) j (mem_range.1 hj)).1 b (mem_range.1 hb)) (lost_nonneg h D i b (mem_range.1 hb)))
  unfold cutOff
  refine lt_of_lt_of_le ?_ (single_le_sum (f := fun j => ∑ i ∈ range P.K, P.Weff i j * ∑ b ∈ range P.B, P.g i j b * lostMass P D i b) (fun j hj => sum_nonneg (nn j hj)) (mem_range.2 hj))
  refine lt_of_lt_of_le ?_ (single_le_sum (f := fun i => P.Weff i j * ∑ b ∈ range P.B, P.g i j b * lostMass P D i b) (nn j (mem_range.2 hj)) (mem_range.2 hi))
  refine mul_pos hW ?_
  obtain ⟨g0, g1⟩ := hp.g i hi j hj
  have : ∃ b ∈ range P.B, 0 < P.g i j b := by
    by_contra hn
    push Not at hn
    have := sum_nonpos hn
    rw [g1] at this
    exact absurd this (by norm_num)
  obtain ⟨b, hb, hgb⟩ := this
  exact sum_pos' (fun b hb => mul_nonneg (g0 b (mem_range.1 hb)) (lost_nonneg h D i b (mem_range.1 hb))) ⟨b, hb, mul_pos hgb (hlost b (mem_range.1 hb))⟩

/-- the adjacency matrix has independent Bernoulli entries under the prior -/
theorem prior_edges {c : HawkesState} {n : ERFixed} (h : CfgOk c n) {S : Set (Pair c.base.K → ℝ)} (hS : MeasurableSet S) :
    prior c n {θ | θ.1 ∈ S} = Measure.pi (fun e : Pair c.base.K => coinLaw (n.P e.1 e.2)) S := by
  obtain ⟨G⟩ := C83_generator_exists
  have hP : ∀ e : Pair c.base.K, IsProbabilityMeasure (coinLaw (n.P e.1 e.2)) := fun e => coinLaw_prob (P_mem h e).1 (P_mem h e).2
  have hSp := scale_prob G h
  have hΦ := phi_prob h
  have mS : MeasurableSet {θ : Theta c.base.K | θ.1 ∈ S} := hS.preimage measurable_fst
  have mi : Measurable fun θ : Theta c.base.K => Set.indicator S (1 : (Pair c.base.K → ℝ) → ENNReal) θ.1 := (measurable_one.indicator hS).comp measurable_fst
  rw [← lintegral_indicator_one mS, ← lintegral_indicator_one hS]
  have e0 : ({θ : Theta c.base.K | θ.1 ∈ S}.indicator 1 : Theta c.base.K → ENNReal) = fun θ => Set.indicator S (1 : (Pair c.base.K → ℝ) → ENNReal) θ.1 := rfl
  rw [e0, prior_lintegral G h mi]
  refine lintegral_congr fun A => ?_
  have mw : ∀ η, Measurable fun W => wDens (c := c) n η W := fun η => measurable_wDens.comp (f := fun W : Pair c.base.K → ℝ => (η, W)) (by fun_prop)
  have e1 : ∫⁻ η, ∫⁻ W, ∫⁻ φ, wDens (c := c) n η W * Set.indicator S 1 A ∂phiPrior c ∂Measure.pi (fun _ => volume) ∂scalePrior n = ∫⁻ η, Set.indicator S 1 A ∂scalePrior n := by
    refine lintegral_congr_ae ?_
    filter_upwards [scale_pos G h] with η hη
    simp only [lintegral_const, measure_univ, mul_one]
    rw [lintegral_mul_const _ (mw η), wDens_integral h hη, one_mul]
  refine e1.trans ?_
  rw [lintegral_const, measure_univ, mul_one]

theorem coin_one {p : ℝ} : coinLaw p {1} = ENNReal.ofReal p := by
  unfold coinLaw; simp

theorem coin_zero {p : ℝ} : coinLaw p {0} = ENNReal.ofReal (1 - p) := by
  unfold coinLaw; simp

/-- a density that agrees on a set of positive mass and is larger elsewhere has a different normalised value on that set -/
theorem ratio_ne {E : Type*} [MeasurableSpace E] {π : Measure E} {f g : E → ENNReal} (hf : Measurable f) (hg : AEMeasurable g π) {B0 E1 : Set E} (hB0 : MeasurableSet B0) (hfT : ∫⁻ t, f t ∂π ≠ ⊤)
    (hle : f ≤ᵐ[π] g) (heq : ∀ᵐ t ∂π, t ∈ B0 → g t = f t) (hlt : ∀ᵐ t ∂π, t ∈ E1 → f t < g t) (h1 : π E1 ≠ 0) (h0 : ∫⁻ t in B0, f t ∂π ≠ 0) :
    ∫⁻ t in B0, g t ∂π ≠ (∫⁻ t, g t ∂π) * ((∫⁻ t, f t ∂π)⁻¹ * ∫⁻ t in B0, f t ∂π) := by
  have hs := lintegral_strict_mono_of_ae_le_of_ae_lt_on hg hfT hle h1 hlt
  have hleB : ∫⁻ t in B0, f t ∂π ≤ ∫⁻ t, f t ∂π := setLIntegral_le_lintegral _ _
  have e : ∫⁻ t in B0, g t ∂π = ∫⁻ t in B0, f t ∂π := by
    refine lintegral_congr_ae ?_
    rw [Filter.EventuallyEq, ae_restrict_iff' hB0]
    exact heq
  rw [e]
  intro hc
  set a := ∫⁻ t in B0, f t ∂π
  set F := ∫⁻ t, f t ∂π
  set Gt := ∫⁻ t, g t ∂π
  have hF0 : F ≠ 0 := fun hF => h0 (le_antisymm (hF ▸ hleB) bot_le)
  have haT : a ≠ ⊤ := ne_top_of_le_ne_top hfT hleB
  rw [← mul_assoc] at hc
  have h2 : (1 : ENNReal) = Gt * F⁻¹ := by
    have := congrArg (fun z => z * a⁻¹) hc
    simp only [mul_assoc, ENNReal.mul_inv_cancel h0 haT, mul_one] at this
    exact this
  have h3 := congrArg (fun z => z * F) h2
  simp only [one_mul, mul_assoc, ENNReal.inv_mul_cancel hF0 hfT, mul_one] at h3
  exact absurd h3 hs.ne

section
variable {U Ω : Type*} [MeasurableSpace U] [MeasurableSpace Ω] {μ : Measure U} {Pr : Measure Ω} (Ps : PoissonSampler μ) {c : HawkesState}

/-- **C91 fails for late events.** If no connection is certain, the connection from `i` to `j` is possible, and in one of the data sets some response to the events of `i` is cut off by the end of the
recording, then the distribution that `resample_model` leaves invariant is not the conditional distribution of the parameters given the simulated data: the probability of an empty network differs. -/
theorem C91_late_events_violated [IsProbabilityMeasure Pr] {n : ERFixed} (h : CfgOk c n) (hu : UnitSim c.base) (hst : ∀ D ∈ c.data, StoredOk c.base D)
    (hP1 : ∀ i < c.base.K, ∀ j < c.base.K, n.P i j < 1) {i j : ℕ} (hi : i < c.base.K) (hj : j < c.base.K) (hP0 : 0 < n.P i j) {D : DParents ℝ} (hD : D ∈ c.data)
    (hlost : ∀ b < c.base.B, 0 < lostMass c.base D i b)
    {θ : Ω → Theta c.base.K} (hθ : HasLaw θ (prior c n) Pr) {x : Ω → ℕ × ℕ × ℕ → U} (hx : FreshSim μ Pr θ x) :
    Pr {ω | (∀ e, (θ ω).1 e = 0) ∧ Observed Ps c (parSS c (θ ω)) (x ω)} ≠ Pr {ω | Observed Ps c (parSS c (θ ω)) (x ω)} * posterior c n {θ | ∀ e, θ.1 e = 0} := by
  obtain ⟨hL0, hL1, -⟩ := C83_posterior_proper h (stored_filtered hst)
  have hP : ∀ e : Pair c.base.K, IsProbabilityMeasure (coinLaw (n.P e.1 e.2)) := fun e => coinLaw_prob (P_mem h e).1 (P_mem h e).2
  have hval : ∀ᵐ t ∂prior c n, ThetaOk c n t ∧ RateOk (parSS c t) := by
    filter_upwards [prior_valid h] with t ht
    exact ⟨ht, rateOk_of (fun e => by rcases ht.A e with h | h <;> rw [h] <;> simp [(ht.W e).le]) ht.lam ht.g⟩
  have hm : ∀ F t k, Measurable fun θ : Theta c.base.K => rate c.base.K c.base.B (parSS c θ).lam0 (parSS c θ).Weff (parSS c θ).g F t k := fun F t k =>
    (measurable_rateParams c F t k).comp (f := fun θ : Theta c.base.K => (θ.1, θ.2.2.1, θ.2.2.2.1, θ.2.2.2.2)) (by fun_prop)
  have hsim : ∀ t : Theta c.base.K, UnitSim (parSS c t) := fun t => unitSim_of hu _ _ _ _
  set B0 : Set (Theta c.base.K) := {θ | ∀ e, θ.1 e = 0} with hB0
  have mB0' : MeasurableSet {A : Pair c.base.K → ℝ | ∀ e, A e = 0} := by
    rw [show {A : Pair c.base.K → ℝ | ∀ e, A e = 0} = {0} by ext A; simp [funext_iff]]
    exact measurableSet_singleton _
  have mB0 : MeasurableSet B0 := mB0'.preimage measurable_fst
  set C : ENNReal := ENNReal.ofReal (∏ i : Fin c.data.length, countConst c.base.dt c.data[i].T c.base.K c.data[i].S) with hC
  have hcc : ∀ i : Fin c.data.length, 0 < countConst c.base.dt c.data[i].T c.base.K c.data[i].S := fun i => by
    have := hu.dt
    unfold countConst
    exact prod_pos fun t _ => prod_pos fun k _ => by positivity
  have hC0 : 0 < C := ENNReal.ofReal_pos.2 (prod_pos fun i _ => hcc i)
  have hCT : C ≠ ⊤ := ENNReal.ofReal_ne_top
  set q : Theta c.base.K → ENNReal := fun t => ENNReal.ofReal (∏ i : Fin c.data.length, countProb (parSS c t) c.data[i].T c.data[i].S) with hq
  have key : ∀ᵐ t ∂prior c n, q t = C * likelihood c t * ENNReal.ofReal (Real.exp (∑ i : Fin c.data.length, cutOff (parSS c t) c.data[i])) := by
    filter_upwards [hval] with t ht
    have e : ∀ i : Fin c.data.length, countProb (parSS c t) c.data[i].T c.data[i].S = countConst c.base.dt c.data[i].T c.base.K c.data[i].S * Real.exp (llData (parSS c t) c.data[i]) * Real.exp (cutOff (parSS c t) c.data[i]) := by
      intro i
      have hD : c.data[i] ∈ c.data := List.getElem_mem _
      rw [data_prob_gap (hsim t) ht.2 (D := c.data[i]) ⟨(hst _ hD).T, (hst _ hD).F⟩ (fun t ht k hk => (h.data _ hD).2 t ht k hk)]
      change Real.exp (llData (parSS c t) c.data[i]) * Real.exp (cutOff (parSS c t) c.data[i]) * countConst c.base.dt c.data[i].T c.base.K c.data[i].S = _
      ring
    rw [hq]
    dsimp only
    rw [prod_congr rfl fun i _ => e i, prod_mul_distrib, prod_mul_distrib, ← Real.exp_sum, ← Real.exp_sum, hC, ENNReal.ofReal_mul (by have := prod_nonneg fun i (_ : i ∈ univ) => (hcc i).le; positivity),
      ENNReal.ofReal_mul (prod_nonneg fun i _ => (hcc i).le)]
    congr 3
    rw [C08_model_sum]
    congr 1
    exact Fin.sum_univ_fun_getElem c.data (llData (parSS c t))
  have mq : AEMeasurable q (prior c n) := by
    refine Measurable.aemeasurable ?_
    refine Measurable.ennreal_ofReal (Finset.measurable_prod _ fun i _ => ?_)
    unfold countProb
    refine Finset.measurable_prod _ fun t _ => ?_
    change Measurable fun θ : Theta c.base.K => ∏ k ∈ range c.base.K, poissonPmf (rate c.base.K c.base.B (parSS c θ).lam0 (parSS c θ).Weff (parSS c θ).g (filtered c.base.L c.base.basis fun t k => (c.data[i].S t k : ℝ)) t k * c.base.dt) (c.data[i].S t k)
    refine Finset.measurable_prod _ fun k _ => ?_
    have := (hm (filtered c.base.L c.base.basis fun t k => (c.data[i].S t k : ℝ)) t k).mul_const c.base.dt
    unfold poissonPmf
    fun_prop
  have ml := measurable_likelihood c h.data
  have mCl : Measurable fun t => C * likelihood c t := ml.const_mul C
  have joint := fun B (hB : MeasurableSet B) => joint_prob Ps (par := parSS c) (π := prior c n) (fun _ => ⟨rfl, rfl, rfl, rfl, rfl⟩) hm (fun t => (hsim t).toSimOk) (hval.mono fun _ h => h.2) (fun D hD => (hst D hD).T) hθ hx hB
  have j0 := joint B0 mB0
  have j1 := joint Set.univ MeasurableSet.univ
  rw [Measure.restrict_univ] at j1
  simp only [Set.mem_univ, true_and] at j1
  change Pr {ω | θ ω ∈ B0 ∧ Observed Ps c (parSS c (θ ω)) (x ω)} ≠ _
  rw [j0, j1]
  have hpost : posterior c n B0 = (∫⁻ t, C * likelihood c t ∂prior c n)⁻¹ * ∫⁻ t in B0, C * likelihood c t ∂prior c n := by
    unfold posterior
    rw [Measure.smul_apply, withDensity_apply _ mB0, smul_eq_mul, lintegral_const_mul C ml, lintegral_const_mul C ml, ENNReal.mul_inv (Or.inl hC0.ne') (Or.inl hCT)]
    rw [mul_mul_mul_comm, ENNReal.inv_mul_cancel hC0.ne' hCT, one_mul]
  rw [hpost]
  have hcut : ∀ t, RateOk (parSS c t) → ∀ i : Fin c.data.length, 0 ≤ cutOff (parSS c t) c.data[i] := fun t ht i => cut_nonneg (hsim t) ht _
  have hlf : ∀ t, likelihood c t ≠ 0 ∧ likelihood c t ≠ ⊤ := fun t => ⟨(ENNReal.ofReal_pos.2 (Real.exp_pos _)).ne', ENNReal.ofReal_ne_top⟩
  refine ratio_ne (E1 := {θ | θ.1 ∈ {A : Pair c.base.K → ℝ | A (⟨i, hi⟩, ⟨j, hj⟩) = 1}}) mCl mq mB0 ?_ ?_ ?_ ?_ ?_ ?_
  · rw [lintegral_const_mul C ml]; exact ENNReal.mul_ne_top hCT hL1
  · filter_upwards [key, hval] with t hk ht
    rw [hk]
    refine le_mul_of_one_le_right bot_le ?_
    rw [ENNReal.one_le_ofReal]
    exact Real.one_le_exp (sum_nonneg fun i _ => hcut t ht.2 i)
  · filter_upwards [key] with t hk ht
    rw [hk]
    have : ∀ D : DParents ℝ, cutOff (parSS c t) D = 0 := by
      intro D
      unfold cutOff
      refine sum_eq_zero fun j hj => sum_eq_zero fun i hi => ?_
      have : (parSS c t).Weff i j = 0 := by
        unfold parSS rateParams
        dsimp only
        split_ifs with hij
        · rw [ht, zero_mul]
        · rfl
      rw [this, zero_mul]
    simp only [this, sum_const_zero, Real.exp_zero, ENNReal.ofReal_one, mul_one]
  · filter_upwards [key, hval] with t hk ht h1
    rw [hk]
    have hpos : 0 < ∑ i : Fin c.data.length, cutOff (parSS c t) c.data[i] := by
      obtain ⟨d, hd, rfl⟩ := List.getElem_of_mem hD
      refine sum_pos' (fun i _ => hcut t ht.2 i) ⟨⟨d, hd⟩, mem_univ _, ?_⟩
      refine cut_pos (hsim t) ht.2 (i := i) (j := j) hi hj ?_ hlost
      change 0 < (rateParams c.base t.1 t.2.2.1 t.2.2.2.1 t.2.2.2.2).Weff i j
      rw [rate_W (K := c.base.K) _ _ _ _ _ hi hj, show t.1 (⟨i, hi⟩, ⟨j, hj⟩) = 1 from h1, one_mul]
      exact ht.1.W _
    have h2 : (1 : ENNReal) < ENNReal.ofReal (Real.exp (∑ i : Fin c.data.length, cutOff (parSS c t) c.data[i])) := by
      rw [← ENNReal.ofReal_one]
      exact (ENNReal.ofReal_lt_ofReal_iff (Real.exp_pos _)).2 (Real.one_lt_exp_iff.2 hpos)
    have h3 : C * likelihood c t ≠ 0 := mul_ne_zero hC0.ne' (hlf t).1
    have h4 : C * likelihood c t ≠ ⊤ := ENNReal.mul_ne_top hCT (hlf t).2
    calc C * likelihood c t = C * likelihood c t * 1 := (mul_one _).symm
      _ < _ := (ENNReal.mul_lt_mul_iff_right h3 h4).2 h2
  · have mE : MeasurableSet {A : Pair c.base.K → ℝ | A (⟨i, hi⟩, ⟨j, hj⟩) = 1} := (measurableSet_singleton (1 : ℝ)).preimage (f := fun A : Pair c.base.K → ℝ => A (⟨i, hi⟩, ⟨j, hj⟩)) (by fun_prop)
    rw [prior_edges h mE]
    have := (measurePreserving_eval (fun e : Pair c.base.K => coinLaw (n.P e.1 e.2)) (⟨i, hi⟩, ⟨j, hj⟩)).measure_preimage (s := {1}) (measurableSet_singleton (1 : ℝ)).nullMeasurableSet
    rw [coin_one] at this
    rw [show {A : Pair c.base.K → ℝ | A (⟨i, hi⟩, ⟨j, hj⟩) = 1} = Function.eval (⟨i, hi⟩, ⟨j, hj⟩) ⁻¹' {1} from rfl, this]
    exact (ENNReal.ofReal_pos.2 hP0).ne'
  · intro h0
    rw [lintegral_eq_zero_iff mCl] at h0
    have h1 : ∀ᵐ t ∂(prior c n).restrict B0, False := by
      filter_upwards [h0] with t ht
      exact mul_ne_zero hC0.ne' (hlf t).1 ht
    rw [ae_restrict_iff' mB0] at h1
    have h2 : prior c n B0 = 0 := by
      rw [measure_eq_zero_iff_ae_notMem]
      exact h1
    have h3 := prior_edges h mB0'
    rw [show {θ : Theta c.base.K | θ.1 ∈ {A : Pair c.base.K → ℝ | ∀ e, A e = 0}} = B0 from rfl, h2, show {A : Pair c.base.K → ℝ | ∀ e, A e = 0} = Set.univ.pi fun _ => {0} by ext A; simp [Set.mem_pi], Measure.pi_pi] at h3
    refine (Finset.prod_ne_zero_iff.2 fun (e : Pair c.base.K) _ => ?_) h3.symm
    rw [coin_zero]
    refine ne_of_gt ?_
    exact ENNReal.ofReal_pos.2 (by have := hP1 e.1 e.1.2 e.2 e.2.2; linarith)

end

end PyHawkes
