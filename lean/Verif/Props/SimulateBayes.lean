import Verif.Spec.SimulateBayes
import Verif.Props.SimulateLaw
import Verif.Props.MixBlockPosterior

/-!
# C91: the distribution sampled by `resample_model` is the conditional distribution of the parameters given data that the model generated
-/
set_option linter.unusedSectionVars false
set_option linter.unusedVariables false

namespace PyHawkes
open Finset Spec MeasureTheory ProbabilityTheory

/-- one data set: training likelihood and probability of the counts -/
theorem data_prob {P : NetParams ℝ} (h : UnitSim P) (hp : RateOk P) {D : DParents ℝ} (hs : StoredOk P D) (h32 : ∀ t < D.T, ∀ k < P.K, D.S t k < 2 ^ 32) (hl : NoLateEvents P D) :
    countProb P D.T D.S = Real.exp (llData P D) * countConst P.dt D.T P.K D.S := by
  obtain ⟨r', hr'⟩ := (C05_compute_rate_ok_iff P D.T P.K (fun t k => (D.S t k : ℝ)) h.L h.B).2 ⟨hs.T, h.K, rfl⟩
  have hv : heldoutLL P D.T D.S = .ok (poissonLL P.dt D.T P.K D.S r') := by unfold heldoutLL; rw [hr']
  have e := (C09_training_le_heldout P D.T D.S D.F _ h.dt hs.F h32 h.basis h.area hp.W (fun i hi j hj => (hp.g i hi j hj).1) (fun i hi j hj => (hp.g i hi j hj).2) hp.lam hv).2 hl
  have e2 : llData P D = llData P { T := D.T, S := D.S, F := D.F } := by rw [llData_eq_sum, llData_eq_sum]
  rw [countProb_heldout h.toSimOk hp hs.T D.S hv, ← e, e2]

section
variable {U Ω : Type*} [MeasurableSpace U] [MeasurableSpace Ω] {μ : Measure U} {Pr : Measure Ω} (Ps : PoissonSampler μ) {c : HawkesState}

/-- index of the counts of all data sets -/
abbrev CountIx (c : HawkesState) := Σ i : Fin c.data.length, Fin (c.data[i].T) × Fin c.base.K

def countSeed (c : HawkesState) (σ : CountIx c) : ℕ × ℕ × ℕ := (σ.1, σ.2.1, σ.2.2)

theorem countSeed_inj (c : HawkesState) : Function.Injective (countSeed c) := by
  rintro ⟨i, t, k⟩ ⟨i', t', k'⟩ h
  simp only [countSeed, Prod.mk.injEq] at h
  obtain ⟨h1, h2, h3⟩ := h
  have hi : i = i' := Fin.ext h1
  subst hi
  have ht : t = t' := Fin.ext h2
  have hk : k = k' := Fin.ext h3
  subst ht hk
  rfl

/-- Poisson mean of a count -/
noncomputable def countMean (c : HawkesState) (P : NetParams ℝ) (σ : CountIx c) : ℝ :=
  rate P.K P.B P.lam0 P.Weff P.g (filtered P.L P.basis fun t k => (c.data[σ.1].S t k : ℝ)) σ.2.1 σ.2.2 * P.dt

theorem observed_iff {P : NetParams ℝ} (h : SimOk P) (hp : RateOk P) (hK : P.K = c.base.K) (hT : ∀ D ∈ c.data, 0 < D.T) (x : ℕ × ℕ × ℕ → U) :
    Observed Ps c P x ↔ ∀ σ : CountIx c, Ps.pois (countMean c P σ) (x (countSeed c σ)) = c.data[σ.1].S σ.2.1 σ.2.2 := by
  constructor
  · rintro ho ⟨i, t, k⟩
    exact (simulates_iff h hp _ (hT _ (List.getElem_mem _)) _).1 (ho i i.2) t t.2 k (by rw [hK]; exact k.2)
  · intro ho i hi
    refine (simulates_iff h hp _ (hT _ (List.getElem_mem _)) _).2 fun t ht k hk => ?_
    exact ho ⟨⟨i, hi⟩, ⟨t, ht⟩, ⟨k, by rw [← hK]; exact hk⟩⟩

theorem prod_counts {P : NetParams ℝ} (hK : P.K = c.base.K) :
    ∏ σ : CountIx c, poissonPmf (countMean c P σ) (c.data[σ.1].S σ.2.1 σ.2.2) = ∏ i : Fin c.data.length, countProb P c.data[i].T c.data[i].S := by
  rw [Fintype.prod_sigma]
  refine prod_congr rfl fun i _ => ?_
  unfold countProb countMean
  rw [Fintype.prod_prod_type, hK, ← Fin.prod_univ_eq_prod_range]
  refine prod_congr rfl fun t _ => ?_
  rw [← Fin.prod_univ_eq_prod_range]

/-- joint probability of a set of parameter values and the observed data -/
theorem joint_prob [IsProbabilityMeasure Pr] {E : Type*} [MeasurableSpace E] {π : Measure E} {par : E → NetParams ℝ}
    (hfix : ∀ θ, (par θ).K = c.base.K ∧ (par θ).B = c.base.B ∧ (par θ).L = c.base.L ∧ (par θ).dt = c.base.dt ∧ (par θ).basis = c.base.basis)
    (hm : ∀ F t k, Measurable fun θ => rate c.base.K c.base.B (par θ).lam0 (par θ).Weff (par θ).g F t k)
    (hsim : ∀ θ, SimOk (par θ)) (hval : ∀ᵐ θ ∂π, RateOk (par θ)) (hT : ∀ D ∈ c.data, 0 < D.T)
    {θ : Ω → E} (hθ : HasLaw θ π Pr) {x : Ω → ℕ × ℕ × ℕ → U} (hx : FreshSim μ Pr θ x) {B : Set E} (hB : MeasurableSet B) :
    Pr {ω | θ ω ∈ B ∧ Observed Ps c (par (θ ω)) (x ω)} = ∫⁻ t in B, ENNReal.ofReal (∏ i : Fin c.data.length, countProb (par t) c.data[i].T c.data[i].S) ∂π := by
  have hμ : IsProbabilityMeasure μ := by rw [← (hx.law (0, 0, 0)).map_eq]; exact Measure.isProbabilityMeasure_map (hx.law (0, 0, 0)).aemeasurable
  have hπ : IsProbabilityMeasure π := by rw [← hθ.map_eq]; exact Measure.isProbabilityMeasure_map hθ.aemeasurable
  have hval' : ∀ᵐ ω ∂Pr, RateOk (par (θ ω)) := by
    have : ∀ᵐ t ∂Pr.map θ, RateOk (par t) := by rw [hθ.map_eq]; exact hval
    exact ae_of_ae_map hθ.aemeasurable this
  have mmean : ∀ σ : CountIx c, Measurable fun t => countMean c (par t) σ := by
    intro σ
    unfold countMean
    have e : (fun t => rate (par t).K (par t).B (par t).lam0 (par t).Weff (par t).g (filtered (par t).L (par t).basis fun t k => (c.data[σ.1].S t k : ℝ)) σ.2.1 σ.2.2 * (par t).dt)
        = fun t => rate c.base.K c.base.B (par t).lam0 (par t).Weff (par t).g (filtered c.base.L c.base.basis fun t k => (c.data[σ.1].S t k : ℝ)) σ.2.1 σ.2.2 * c.base.dt := by
      funext t
      obtain ⟨h1, h2, h3, h4, h5⟩ := hfix t
      rw [h1, h2, h3, h4, h5]
    rw [e]
    exact (hm _ _ _).mul_const _
  -- the event in terms of parameters and seeds
  set y : Ω → CountIx c → U := fun ω σ => x ω (countSeed c σ) with hy
  set A : Set (E × (CountIx c → U)) := {z | z.1 ∈ B ∧ ∀ σ : CountIx c, Ps.pois (countMean c (par z.1) σ) (z.2 σ) = c.data[σ.1].S σ.2.1 σ.2.2} with hA
  have e1 : Pr {ω | θ ω ∈ B ∧ Observed Ps c (par (θ ω)) (x ω)} = Pr {ω | (θ ω, y ω) ∈ A} := by
    refine measure_congr ?_
    filter_upwards [hval'] with ω hω
    refine propext ?_
    exact and_congr_right fun _ => observed_iff Ps (hsim _) hω (hfix _).1 hT (x ω)
  have mA : MeasurableSet A := by
    refine (hB.preimage measurable_fst).inter ?_
    have : {z : E × (CountIx c → U) | ∀ σ : CountIx c, Ps.pois (countMean c (par z.1) σ) (z.2 σ) = c.data[σ.1].S σ.2.1 σ.2.2} =
        ⋂ σ : CountIx c, {z | Ps.pois (countMean c (par z.1) σ) (z.2 σ) = c.data[σ.1].S σ.2.1 σ.2.2} := by ext z; simp
    change MeasurableSet {z : E × (CountIx c → U) | ∀ σ : CountIx c, Ps.pois (countMean c (par z.1) σ) (z.2 σ) = c.data[σ.1].S σ.2.1 σ.2.2}
    rw [this]
    refine MeasurableSet.iInter fun σ => measurableSet_eq_fun ?_ measurable_const
    exact Ps.pois_meas.comp (f := fun z : E × (CountIx c → U) => (countMean c (par z.1) σ, z.2 σ)) (((mmean σ).comp measurable_fst).prodMk (by fun_prop))
  have hyi : iIndepFun (fun (σ : CountIx c) ω => y ω σ) Pr := hx.indep.precomp (countSeed_inj c)
  have hyl : HasLaw y (Measure.pi fun _ => μ) Pr := iIndepFun.hasLaw_pi (fun σ => hx.law _) hyi
  have hind : IndepFun θ y Pr := hx.fresh.comp (φ := id) (ψ := fun z : ℕ × ℕ × ℕ → U => fun σ : CountIx c => z (countSeed c σ)) measurable_id (by fun_prop)
  have hlaw := (indepFun_iff_hasLaw_prodMk_prod hθ hyl).1 hind
  rw [e1, show {ω | (θ ω, y ω) ∈ A} = (fun ω => (θ ω, y ω)) ⁻¹' A from rfl, ← Measure.map_apply_of_aemeasurable hlaw.aemeasurable mA, hlaw.map_eq, Measure.prod_apply mA, ← lintegral_indicator hB]
  refine lintegral_congr_ae ?_
  filter_upwards [hval] with t ht
  by_cases htB : t ∈ B
  · rw [Set.indicator_of_mem htB, ← prod_counts (hfix t).1]
    have e2 : Prod.mk t ⁻¹' A = {z : CountIx c → U | ∀ σ ∈ (univ : Finset (CountIx c)), Ps.pois (countMean c (par t) σ) (z σ) = c.data[σ.1].S σ.2.1 σ.2.2} := by
      ext z
      simp only [hA, Set.mem_preimage, Set.mem_ofPred_eq, htB, true_and, mem_univ, forall_true_left]
    have e3 : (Measure.pi fun _ : CountIx c => μ) {z | ∀ σ ∈ (univ : Finset (CountIx c)), Ps.pois (countMean c (par t) σ) (z σ) = c.data[σ.1].S σ.2.1 σ.2.2}
        = Pr {ω | ∀ σ ∈ (univ : Finset (CountIx c)), Ps.pois (countMean c (par t) σ) (y ω σ) = c.data[σ.1].S σ.2.1 σ.2.2} := by
      have hmS : MeasurableSet {z : CountIx c → U | ∀ σ ∈ (univ : Finset (CountIx c)), Ps.pois (countMean c (par t) σ) (z σ) = c.data[σ.1].S σ.2.1 σ.2.2} := by
        rw [← e2]; exact mA.preimage measurable_prodMk_left
      have := hyl.map_eq
      have h5 := congrArg (fun ν : Measure (CountIx c → U) => ν {z : CountIx c → U | ∀ σ ∈ (univ : Finset (CountIx c)), Ps.pois (countMean c (par t) σ) (z σ) = c.data[σ.1].S σ.2.1 σ.2.2}) this
      rw [← h5, Measure.map_apply_of_aemeasurable hyl.aemeasurable hmS]
      rfl
    rw [e2, e3, pois_prob Ps hyi (fun σ => hx.law _)]
    intro σ _
    exact mul_nonneg (rate_pos (hsim t) ht _ (by rw [(hfix t).1]; exact σ.2.2.2)).le (hsim t).dt.le
  · rw [Set.indicator_of_notMem htB]
    have e2 : Prod.mk t ⁻¹' A = ∅ := by
      ext z
      simp only [hA, Set.mem_preimage, Set.mem_ofPred_eq, htB, false_and, Set.mem_empty_iff_false]
    rw [e2, measure_empty]

/-- Bayes' rule: if the probability of the data given the parameters is the training likelihood times a constant, the normalised product of prior and likelihood is the conditional distribution -/
theorem bayes_core [IsProbabilityMeasure Pr] {E : Type*} [MeasurableSpace E] {π : Measure E} {par : E → NetParams ℝ} {lik : E → ENNReal}
    (hfix : ∀ θ, (par θ).K = c.base.K ∧ (par θ).B = c.base.B ∧ (par θ).L = c.base.L ∧ (par θ).dt = c.base.dt ∧ (par θ).basis = c.base.basis)
    (hm : ∀ F t k, Measurable fun θ => rate c.base.K c.base.B (par θ).lam0 (par θ).Weff (par θ).g F t k)
    (hlik : ∀ θ, lik θ = ENNReal.ofReal (Real.exp (llModel (par θ) c.data))) (mlik : Measurable lik)
    (hsim : ∀ θ, UnitSim (par θ)) (hval : ∀ᵐ θ ∂π, RateOk (par θ)) (hst : ∀ D ∈ c.data, StoredOk c.base D) (h32 : ∀ D ∈ c.data, ∀ t < D.T, ∀ k < c.base.K, D.S t k < 2 ^ 32)
    (hlate : ∀ D ∈ c.data, NoLateEvents c.base D) (h0 : ∫⁻ θ, lik θ ∂π ≠ 0) (hTop : ∫⁻ θ, lik θ ∂π ≠ ⊤)
    {θ : Ω → E} (hθ : HasLaw θ π Pr) {x : Ω → ℕ × ℕ × ℕ → U} (hx : FreshSim μ Pr θ x) :
    0 < Pr {ω | Observed Ps c (par (θ ω)) (x ω)} ∧ ∀ B, MeasurableSet B →
      Pr {ω | θ ω ∈ B ∧ Observed Ps c (par (θ ω)) (x ω)} = Pr {ω | Observed Ps c (par (θ ω)) (x ω)} * ((∫⁻ θ, lik θ ∂π)⁻¹ • π.withDensity lik) B := by
  set C : ENNReal := ENNReal.ofReal (∏ i : Fin c.data.length, countConst c.base.dt c.data[i].T c.base.K c.data[i].S) with hC
  have hdt : 0 < c.base.dt := by
    have ⟨ω⟩ := nonempty_of_isProbabilityMeasure Pr
    have := (hsim (θ ω)).dt
    rwa [(hfix _).2.2.2.1] at this
  have hcc : ∀ i : Fin c.data.length, 0 < countConst c.base.dt c.data[i].T c.base.K c.data[i].S := fun i => by
    unfold countConst
    exact prod_pos fun t _ => prod_pos fun k _ => by positivity
  have hC0 : 0 < C := ENNReal.ofReal_pos.2 (prod_pos fun i _ => hcc i)
  have key : ∀ᵐ t ∂π, ENNReal.ofReal (∏ i : Fin c.data.length, countProb (par t) c.data[i].T c.data[i].S) = C * lik t := by
    filter_upwards [hval] with t ht
    obtain ⟨f1, f2, f3, f4, f5⟩ := hfix t
    have e : ∀ i : Fin c.data.length, countProb (par t) c.data[i].T c.data[i].S = Real.exp (llData (par t) c.data[i]) * countConst c.base.dt c.data[i].T c.base.K c.data[i].S := by
      intro i
      have hD : c.data[i] ∈ c.data := List.getElem_mem _
      have := data_prob (hsim t) ht (D := c.data[i]) ⟨(hst _ hD).T, by rw [f1, f2, f3, f5]; exact (hst _ hD).F⟩ (by rw [f1]; exact h32 _ hD)
        (by unfold NoLateEvents; rw [f1, f3]; exact hlate _ hD)
      rw [this, f4, f1]
    rw [prod_congr rfl fun i _ => e i, prod_mul_distrib, ← Real.exp_sum, hlik, hC, C08_model_sum, mul_comm, ENNReal.ofReal_mul (prod_nonneg fun i _ => (hcc i).le)]
    congr 3
    exact Fin.sum_univ_fun_getElem c.data (llData (par t))
  have joint : ∀ B, MeasurableSet B → Pr {ω | θ ω ∈ B ∧ Observed Ps c (par (θ ω)) (x ω)} = C * ∫⁻ t in B, lik t ∂π := by
    intro B hB
    rw [joint_prob Ps hfix hm (fun t => (hsim t).toSimOk) hval (fun D hD => (hst D hD).T) hθ hx hB, ← lintegral_const_mul C mlik]
    exact lintegral_congr_ae (ae_restrict_of_ae key)
  have tot : Pr {ω | Observed Ps c (par (θ ω)) (x ω)} = C * ∫⁻ t, lik t ∂π := by
    have := joint Set.univ MeasurableSet.univ
    rw [Measure.restrict_univ] at this
    rw [← this]
    simp only [Set.mem_univ, true_and]
  refine ⟨by rw [tot]; exact ENNReal.mul_pos hC0.ne' h0, fun B hB => ?_⟩
  rw [joint B hB, tot, Measure.smul_apply, withDensity_apply _ hB, smul_eq_mul, mul_assoc, ← mul_assoc (∫⁻ t, lik t ∂π), ENNReal.mul_inv_cancel h0 hTop, one_mul]

/-! ### the four models -/

theorem measurable_rateParams (c : HawkesState) (F : Ten ℝ) (t k : ℕ) :
    Measurable fun y : (Pair c.base.K → ℝ) × (Pair c.base.K → ℝ) × (Fin c.base.K → ℝ) × (Pair c.base.K → Vec ℝ) =>
      rate c.base.K c.base.B (rateParams c.base y.1 y.2.1 y.2.2.1 y.2.2.2).lam0 (rateParams c.base y.1 y.2.1 y.2.2.1 y.2.2.2).Weff (rateParams c.base y.1 y.2.1 y.2.2.1 y.2.2.2).g F t k := by
  unfold rate rateParams
  dsimp only
  refine Measurable.add ?_ (Finset.measurable_sum _ fun i _ => Finset.measurable_sum _ fun b _ => ((Measurable.mul ?_ ?_).mul_const _))
  · by_cases hk : k < c.base.K
    · simp only [dif_pos hk]; fun_prop
    · simp only [dif_neg hk]; exact measurable_const
  · by_cases hk : i < c.base.K ∧ k < c.base.K
    · simp only [dif_pos hk]; fun_prop
    · simp only [dif_neg hk]; exact measurable_const
  · by_cases hk : i < c.base.K ∧ k < c.base.K
    · simp only [dif_pos hk]; fun_prop
    · simp only [dif_neg hk]; exact measurable_const

theorem rateOk_of {A W : Pair c.base.K → ℝ} {lam : Fin c.base.K → ℝ} {g : Pair c.base.K → Vec ℝ} (hAW : ∀ e, 0 ≤ A e * W e) (hlam : ∀ k, 0 < lam k) (hg : ∀ e, IsProb c.base.B (g e)) :
    RateOk (rateParams c.base A W lam g) :=
  ⟨fun k hk => by rw [rate_lam (K := c.base.K) _ _ _ _ _ hk]; exact hlam _, fun i hi j hj => by rw [rate_W (K := c.base.K) _ _ _ _ _ hi hj]; exact hAW _,
    fun i hi j hj => by rw [rate_g (K := c.base.K) _ _ _ _ _ hi hj]; exact hg _⟩

theorem unitSim_of (h : UnitSim c.base) (A W : Pair c.base.K → ℝ) (lam : Fin c.base.K → ℝ) (g : Pair c.base.K → Vec ℝ) : UnitSim (rateParams c.base A W lam g) :=
  ⟨⟨h.K, h.B, h.L, h.len, h.dt, h.basis, h.causal⟩, h.area⟩

theorem stored_filtered (hst : ∀ D ∈ c.data, StoredOk c.base D) : FilteredFromEvents c.base.K c.base.B c.data := by
  intro D hD t ht i hi b hb hF
  refine ⟨D, hD, ?_⟩
  by_contra hn
  push Not at hn
  refine hF ?_
  rw [convolve_ok_eq (hst D hD).F t ht i hi b hb]
  unfold filtered
  refine sum_eq_zero fun l _ => ?_
  split_ifs with hl
  · simp [hn (t - l) (by omega)]
  · rfl

/-- **C91** (spike-and-slab model, fixed sparsity). If the parameters are drawn from the prior and every data set is simulated by `generate` with those parameters, then – provided no observed event is
so late that its response is cut off by the end of the recording – the distribution that `resample_model` leaves invariant (C83) is the conditional distribution of the parameters given the data.
Missing for the full claim: late events (`C91_late_events_violated`). -/
theorem C91_posterior_is_conditional_partial [IsProbabilityMeasure Pr] {n : ERFixed} (h : CfgOk c n) (hu : UnitSim c.base) (hst : ∀ D ∈ c.data, StoredOk c.base D) (hlate : ∀ D ∈ c.data, NoLateEvents c.base D)
    {θ : Ω → Theta c.base.K} (hθ : HasLaw θ (prior c n) Pr) {x : Ω → ℕ × ℕ × ℕ → U} (hx : FreshSim μ Pr θ x) :
    0 < Pr {ω | Observed Ps c (parSS c (θ ω)) (x ω)} ∧ ∀ B, MeasurableSet B →
      Pr {ω | θ ω ∈ B ∧ Observed Ps c (parSS c (θ ω)) (x ω)} = Pr {ω | Observed Ps c (parSS c (θ ω)) (x ω)} * posterior c n B := by
  obtain ⟨h0, h1, -⟩ := C83_posterior_proper h (stored_filtered hst)
  refine bayes_core Ps (par := parSS c) (lik := likelihood c) (fun _ => ⟨rfl, rfl, rfl, rfl, rfl⟩) (fun F t k => ?_) (fun _ => rfl) (measurable_likelihood c h.data) (fun _ => unitSim_of hu _ _ _ _) ?_ hst
    (fun D hD t ht k hk => (h.data D hD).2 t ht k hk) hlate h0 h1 hθ hx
  · exact (measurable_rateParams c F t k).comp (f := fun θ : Theta c.base.K => (θ.1, θ.2.2.1, θ.2.2.2.1, θ.2.2.2.2)) (by fun_prop)
  · filter_upwards [prior_valid h] with t ht
    exact rateOk_of (fun e => by rcases ht.A e with h | h <;> rw [h] <;> simp [(ht.W e).le]) ht.lam ht.g

/-- **C91** (spike-and-slab model, learned one-block network) -/
theorem C91_block_posterior_is_conditional_partial [IsProbabilityMeasure Pr] {n : SBM} (h : CfgOkB c n) (hu : UnitSim c.base) (hst : ∀ D ∈ c.data, StoredOk c.base D) (hlate : ∀ D ∈ c.data, NoLateEvents c.base D)
    {θ : Ω → ThetaB c.base.K} (hθ : HasLaw θ (priorB c n) Pr) {x : Ω → ℕ × ℕ × ℕ → U} (hx : FreshSim μ Pr θ x) :
    0 < Pr {ω | Observed Ps c (parSS c (θ ω).2) (x ω)} ∧ ∀ B, MeasurableSet B →
      Pr {ω | θ ω ∈ B ∧ Observed Ps c (parSS c (θ ω).2) (x ω)} = Pr {ω | Observed Ps c (parSS c (θ ω).2) (x ω)} * posteriorB c n B := by
  obtain ⟨h0, h1, -⟩ := C83_block_posterior_proper h (stored_filtered hst)
  have ml : Measurable fun θ : ThetaB c.base.K => likelihood c θ.2 := (measurable_likelihood c h.data).comp measurable_snd
  unfold posteriorB
  refine bayes_core Ps (par := fun θ : ThetaB c.base.K => parSS c θ.2) (lik := fun θ : ThetaB c.base.K => likelihood c θ.2) (fun _ => ⟨rfl, rfl, rfl, rfl, rfl⟩) (fun F t k => ?_) (fun _ => rfl) ml
    (fun _ => unitSim_of hu _ _ _ _) ?_ hst (fun D hD t ht k hk => (h.data D hD).2 t ht k hk) hlate h0 h1 hθ hx
  · exact (measurable_rateParams c F t k).comp (f := fun θ : ThetaB c.base.K => (θ.2.1, θ.2.2.2.1, θ.2.2.2.2.1, θ.2.2.2.2.2)) (by fun_prop)
  · filter_upwards [priorB_valid h] with t ht
    exact rateOk_of (fun e => by rcases ht.2.A e with h | h <;> rw [h] <;> simp [(ht.2.W e).le]) ht.2.lam ht.2.g

/-- **C91** (gamma-mixture model, fixed sparsity) -/
theorem C91_mixture_posterior_is_conditional_partial [IsProbabilityMeasure Pr] {n : ERFixed} {κ0 ν0 : ℝ} (hκ0 : 0 < κ0) (hν0 : 0 < ν0) (h : CfgOk c n) (hu : UnitSim c.base)
    (hst : ∀ D ∈ c.data, StoredOk c.base D) (hlate : ∀ D ∈ c.data, NoLateEvents c.base D)
    {θ : Ω → Theta c.base.K} (hθ : HasLaw θ (priorMix κ0 ν0 c n) Pr) {x : Ω → ℕ × ℕ × ℕ → U} (hx : FreshSim μ Pr θ x) :
    0 < Pr {ω | Observed Ps c (parMix c (θ ω)) (x ω)} ∧ ∀ B, MeasurableSet B →
      Pr {ω | θ ω ∈ B ∧ Observed Ps c (parMix c (θ ω)) (x ω)} = Pr {ω | Observed Ps c (parMix c (θ ω)) (x ω)} * posteriorMix κ0 ν0 c n B := by
  obtain ⟨h0, h1, -⟩ := C85_posterior_proper hκ0 hν0 h (stored_filtered hst)
  refine bayes_core Ps (par := parMix c) (lik := likelihoodMix c) (fun _ => ⟨rfl, rfl, rfl, rfl, rfl⟩) (fun F t k => ?_) (fun _ => rfl) (measurable_likelihoodMix h.data) (fun _ => unitSim_of hu _ _ _ _) ?_ hst
    (fun D hD t ht k hk => (h.data D hD).2 t ht k hk) hlate h0 h1 hθ hx
  · exact (measurable_rateParams c F t k).comp (f := fun θ : Theta c.base.K => ((fun _ => 1), θ.2.2.1, θ.2.2.2.1, θ.2.2.2.2)) (by fun_prop)
  · filter_upwards [priorMix_valid h] with t ht
    exact rateOk_of (fun e => by rw [one_mul]; exact (ht.W e).le) ht.lam ht.g

/-- **C91** (gamma-mixture model, learned one-block network) -/
theorem C91_mixture_block_posterior_is_conditional_partial [IsProbabilityMeasure Pr] {n : SBM} {κ0 ν0 : ℝ} (hκ0 : 0 < κ0) (hν0 : 0 < ν0) (h : CfgOkB c n) (hu : UnitSim c.base)
    (hst : ∀ D ∈ c.data, StoredOk c.base D) (hlate : ∀ D ∈ c.data, NoLateEvents c.base D)
    {θ : Ω → ThetaB c.base.K} (hθ : HasLaw θ (priorMixB κ0 ν0 c n) Pr) {x : Ω → ℕ × ℕ × ℕ → U} (hx : FreshSim μ Pr θ x) :
    0 < Pr {ω | Observed Ps c (parMix c (θ ω).2) (x ω)} ∧ ∀ B, MeasurableSet B →
      Pr {ω | θ ω ∈ B ∧ Observed Ps c (parMix c (θ ω).2) (x ω)} = Pr {ω | Observed Ps c (parMix c (θ ω).2) (x ω)} * posteriorMixB κ0 ν0 c n B := by
  obtain ⟨h0, h1, -⟩ := C85_block_posterior_proper hκ0 hν0 h (stored_filtered hst)
  have ml : Measurable fun θ : ThetaB c.base.K => likelihoodMix c θ.2 := (measurable_likelihoodMix h.data).comp measurable_snd
  unfold posteriorMixB
  refine bayes_core Ps (par := fun θ : ThetaB c.base.K => parMix c θ.2) (lik := fun θ : ThetaB c.base.K => likelihoodMix c θ.2) (fun _ => ⟨rfl, rfl, rfl, rfl, rfl⟩) (fun F t k => ?_) (fun _ => rfl)
    ml (fun _ => unitSim_of hu _ _ _ _) ?_ hst (fun D hD t ht k hk => (h.data D hD).2 t ht k hk) hlate h0 h1 hθ hx
  · exact (measurable_rateParams c F t k).comp (f := fun θ : ThetaB c.base.K => ((fun _ => 1), θ.2.2.2.1, θ.2.2.2.2.1, θ.2.2.2.2.2)) (by fun_prop)
  · filter_upwards [priorMixB_valid h] with t ht
    exact rateOk_of (fun e => by rw [one_mul]; exact (ht.2.W e).le) ht.2.lam ht.2.g

end

end PyHawkes
