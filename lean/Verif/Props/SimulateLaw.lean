import Verif.Spec.Simulate
import Verif.Props.Rate
import Verif.Props.LogLik
import Verif.Props.GibbsExists

/-!
# C90: the discrete-time simulator draws from the model
-/
set_option linter.unusedSectionVars false
set_option linter.unusedVariables false

namespace PyHawkes
open Finset Spec MeasureTheory ProbabilityTheory

section
variable {P : NetParams ℝ}

/-- with a strictly causal basis the filtered counts of bin `t` depend on the counts before `t` only -/
theorem filtered_causal (hc : ∀ b < P.B, P.basis 0 b = 0) {S s : Mat ℝ} {t k b : ℕ} (hb : b < P.B) (h : ∀ t' < t, S t' k = s t' k) :
    filtered P.L P.basis S t k b = filtered P.L P.basis s t k b := by
  unfold filtered
  refine sum_congr rfl fun l _ => ?_
  by_cases hl : l ≤ t
  · rw [if_pos hl, if_pos hl]
    rcases Nat.eq_zero_or_pos l with rfl | hl0
    · rw [hc b hb, zero_mul, zero_mul]
    · rw [h (t - l) (by omega)]
  · rw [if_neg hl, if_neg hl]

theorem rate_causal (hc : ∀ b < P.B, P.basis 0 b = 0) {S s : Mat ℝ} {t : ℕ} (h : ∀ t' < t, ∀ k < P.K, S t' k = s t' k) (k : ℕ) :
    rate P.K P.B P.lam0 P.Weff P.g (filtered P.L P.basis S) t k = rate P.K P.B P.lam0 P.Weff P.g (filtered P.L P.basis s) t k := by
  unfold rate
  congr 1
  refine sum_congr rfl fun k1 hk1 => sum_congr rfl fun b hb => ?_
  rw [filtered_causal hc (mem_range.1 hb) fun t' ht' => h t' ht' k1 (mem_range.1 hk1)]

theorem rate_pos (h : SimOk P) (hp : RateOk P) (s : Mat ℕ) {t k : ℕ} (hk : k < P.K) :
    0 < rate P.K P.B P.lam0 P.Weff P.g (filtered P.L P.basis fun t k => (s t k : ℝ)) t k := by
  unfold rate
  refine add_pos_of_pos_of_nonneg (hp.lam k hk) (sum_nonneg fun i hi => sum_nonneg fun b hb => ?_)
  have hi' := mem_range.1 hi
  refine mul_nonneg (mul_nonneg (hp.W i hi' k hk) ((hp.g i hi' k hk).1 b (mem_range.1 hb))) ?_
  unfold filtered
  refine sum_nonneg fun l hl => ?_
  split_ifs
  · exact mul_nonneg (h.basis l (mem_range.1 hl) b (mem_range.1 hb)) (Nat.cast_nonneg _)
  · exact le_rfl

/-- the simulation returns `s` exactly when every Poisson draw, made with the rate that `s` implies, equals the count in `s` -/
theorem simulates_iff (h : SimOk P) (hp : RateOk P) (draw : ℕ → ℕ → ℝ → ℕ) {T : ℕ} (hT : 0 < T) (s : Mat ℕ) :
    Simulates P draw T s ↔ ∀ t < T, ∀ k < P.K, draw t k (rate P.K P.B P.lam0 P.Weff P.g (filtered P.L P.basis fun t k => (s t k : ℝ)) t k * P.dt) = s t k := by
  have key : ∀ S r, generate P draw T = .ok (S, r) → ∀ t < T, ∀ k < P.K,
      S t k = draw t k (rate P.K P.B P.lam0 P.Weff P.g (filtered P.L P.basis fun t k => (S t k : ℝ)) t k * P.dt) := by
    intro S r hg t ht k hk
    obtain ⟨r', hr', e⟩ := C06_generate_rate P draw T S r hT h.K h.L h.B hg
    have e2 := (C05_compute_rate_eq P T P.K _ r' hr').2 t ht k hk
    rw [C06_draws_use_returned_rate P draw T S r h.causal hg t ht k hk, e t ht k hk, e2]
    rfl
  constructor
  · rintro ⟨S, r, hg, hS⟩ t ht k hk
    have e := key S r hg t ht k hk
    rw [rate_causal (P := P) h.causal (S := fun t k => (s t k : ℝ)) (s := fun t k => (S t k : ℝ)) (t := t) (fun t' ht' k' hk' => by rw [hS t' (by omega) k' hk']) k, ← e, hS t ht k hk]
  · intro hs
    obtain ⟨S, r, hg⟩ := C06_generate_total P draw T h.len h.dt.le (fun k hk => (hp.lam k hk).le) hp.W (fun i hi j hj b hb => (hp.g i hi j hj).1 b hb) h.basis
    refine ⟨S, r, hg, ?_⟩
    intro t
    induction t using Nat.strong_induction_on with
    | _ t ih =>
      intro ht k hk
      rw [key S r hg t ht k hk, ← hs t ht k hk,
        rate_causal (P := P) h.causal (S := fun t k => (S t k : ℝ)) (s := fun t k => (s t k : ℝ)) (t := t) (fun t' ht' k' hk' => by rw [ih t' ht' (by omega) k' hk']) k, hs t ht k hk]

end

section
variable {U Ω : Type*} [MeasurableSpace U] [MeasurableSpace Ω] {μ : Measure U} {Pr : Measure Ω} (Ps : PoissonSampler μ)

theorem pois_meas (m : ℝ) : Measurable (Ps.pois m) := Ps.pois_meas.comp (f := fun u => (m, u)) (by fun_prop)

theorem pois_prob {ι : Type*} {x : Ω → ι → U} (hi : iIndepFun (fun σ ω => x ω σ) Pr) (hl : ∀ σ, HasLaw (fun ω => x ω σ) μ Pr) (F : Finset ι) (m : ι → ℝ) (j : ι → ℕ) (hm : ∀ σ ∈ F, 0 ≤ m σ) :
    Pr {ω | ∀ σ ∈ F, Ps.pois (m σ) (x ω σ) = j σ} = ENNReal.ofReal (∏ σ ∈ F, poissonPmf (m σ) (j σ)) := by
  have hms : ∀ σ, MeasurableSet {u | Ps.pois (m σ) u = j σ} := fun σ => measurableSet_eq_fun (pois_meas Ps (m σ)) measurable_const
  have e : {ω | ∀ σ ∈ F, Ps.pois (m σ) (x ω σ) = j σ} = ⋂ σ ∈ F, (fun ω => x ω σ) ⁻¹' {u | Ps.pois (m σ) u = j σ} := by
    ext ω; simp
  rw [e, hi.measure_inter_preimage_eq_mul F fun σ _ => hms σ, ENNReal.ofReal_prod_of_nonneg]
  · refine prod_congr rfl fun σ hσ => ?_
    have hA : ∀ A, MeasurableSet A → Pr ((fun ω => x ω σ) ⁻¹' A) = μ A := fun A hA => by rw [← (hl σ).map_eq, Measure.map_apply_of_aemeasurable (hl σ).aemeasurable hA]
    rw [← Ps.pois_law (m σ) (hm σ hσ), hA _ (hms σ)]
  · intro σ hσ
    unfold poissonPmf
    have := hm σ hσ
    positivity

/-- **C90 (probability of the counts).** With independent Poisson draws, `generate(T=T)` returns the count matrix `s` with probability the product over bins and processes of the Poisson probabilities
with mean `rate * dt`, the rate being the one the model assigns to the history in `s`. -/
theorem C90_count_probability {P : NetParams ℝ} (h : SimOk P) (hp : RateOk P) {T : ℕ} (hT : 0 < T) {x : Ω → ℕ × ℕ × ℕ → U} (hi : iIndepFun (fun σ ω => x ω σ) Pr) (hl : ∀ σ, HasLaw (fun ω => x ω σ) μ Pr)
    (i : ℕ) (s : Mat ℕ) : Pr {ω | Simulates P (Ps.draws (x ω) i) T s} = ENNReal.ofReal (countProb P T s) := by
  have e : {ω | Simulates P (Ps.draws (x ω) i) T s} = {ω | ∀ σ ∈ range T ×ˢ range P.K,
      Ps.pois (rate P.K P.B P.lam0 P.Weff P.g (filtered P.L P.basis fun t k => (s t k : ℝ)) σ.1 σ.2 * P.dt) (x ω (i, σ)) = s σ.1 σ.2} := by
    ext ω
    simp only [Set.mem_ofPred_eq]
    rw [simulates_iff h hp _ hT]
    simp only [mem_product, mem_range, and_imp, Prod.forall]
    exact ⟨fun hh a b ha hb => hh a ha b hb, fun hh a ha b hb => hh a b ha hb⟩
  have hi' : iIndepFun (fun (σ : ℕ × ℕ) ω => x ω (i, σ)) Pr := hi.precomp (fun a b hab => (Prod.mk.inj hab).2)
  rw [e, pois_prob Ps (x := fun ω σ => x ω (i, σ)) hi' (fun σ => hl _) _ _ _ (fun σ hσ => mul_nonneg (rate_pos h hp s (mem_range.1 (mem_product.1 hσ).2)).le h.dt.le), prod_product]
  rfl

end

/-- the probability of the counts is the exponential of `heldout_log_likelihood`, up to a factor that does not depend on the parameters -/
theorem countProb_heldout {P : NetParams ℝ} (h : SimOk P) (hp : RateOk P) {T : ℕ} (hT : 0 < T) (s : Mat ℕ) {v : ℝ} (hv : heldoutLL P T s = .ok v) :
    countProb P T s = Real.exp v * countConst P.dt T P.K s := by
  unfold heldoutLL at hv
  split at hv
  · cases hv
  rename_i r hr
  have hv := Except.ok.inj hv
  have hr' := (C05_compute_rate_eq P T P.K _ r hr).2
  rw [← hv]
  unfold poissonLL countProb countConst
  rw [Real.exp_sum, ← prod_mul_distrib]
  refine prod_congr rfl fun t ht => ?_
  rw [Real.exp_sum, ← prod_mul_distrib]
  refine prod_congr rfl fun k hk => ?_
  have hpos := rate_pos h hp s (t := t) (mem_range.1 hk)
  have er : rate P.K P.B P.lam0 P.Weff P.g (filtered P.L P.basis fun t k => (s t k : ℝ)) t k = r t k := (hr' t (mem_range.1 ht) k (mem_range.1 hk)).symm
  rw [er] at hpos ⊢
  unfold poissonPmf
  rw [Real.exp_sub, ← Real.log_pow, Real.exp_log (by positivity), mul_pow, Real.exp_neg]
  ring

section
variable {U Ω : Type*} [MeasurableSpace U] [MeasurableSpace Ω] {μ : Measure U} {Pr : Measure Ω} (Ps : PoissonSampler μ)

/-- **C90 (held-out likelihood).** `heldout_log_likelihood(s)` returns a number `v` such that `generate` returns `s` with probability `exp v` times a factor that depends on the counts and the bin
width only, not on the parameters of the model. -/
theorem C90_heldout_likelihood {P : NetParams ℝ} (h : SimOk P) (hp : RateOk P) {T : ℕ} (hT : 0 < T) {x : Ω → ℕ × ℕ × ℕ → U} (hi : iIndepFun (fun σ ω => x ω σ) Pr) (hl : ∀ σ, HasLaw (fun ω => x ω σ) μ Pr)
    (i : ℕ) (s : Mat ℕ) : ∃ v, heldoutLL P T s = .ok v ∧ Pr {ω | Simulates P (Ps.draws (x ω) i) T s} = ENNReal.ofReal (Real.exp v * countConst P.dt T P.K s) := by
  obtain ⟨r', hr'⟩ := (C05_compute_rate_ok_iff P T P.K (fun t k => (s t k : ℝ)) h.L h.B).2 ⟨hT, h.K, rfl⟩
  have hv : heldoutLL P T s = .ok (poissonLL P.dt T P.K s r') := by unfold heldoutLL; rw [hr']
  refine ⟨_, hv, ?_⟩
  rw [C90_count_probability Ps h hp hT hi hl i s, countProb_heldout h hp hT s hv]

end

/-- **A Poisson sampler exists.** -/
theorem C90_sampler_exists : Nonempty (PoissonSampler (volume : Measure unitInterval)) := by
  have hm : Measurable (Function.uncurry fun (m : ℝ) (j : ℕ) => ENNReal.ofReal (poissonPmf (max m 0) j)) := by
    refine measurable_from_prod_countable_left fun j => ?_
    unfold Function.uncurry poissonPmf
    dsimp only
    fun_prop
  have e : ∀ (m : ℝ) (j : ℕ), Kernel.withDensity (Kernel.const _ (Measure.count : Measure ℕ)) (fun (m : ℝ) (j : ℕ) => ENNReal.ofReal (poissonPmf (max m 0) j)) m {j} = ENNReal.ofReal (poissonPmf (max m 0) j) := fun m j => by
    rw [Kernel.withDensity_apply _ hm, withDensity_apply _ (measurableSet_singleton j), Kernel.const_apply, Measure.restrict_singleton, Measure.count_singleton, one_smul, lintegral_dirac]
  set κ := Kernel.withDensity (Kernel.const _ (Measure.count : Measure ℕ)) (fun (m : ℝ) (j : ℕ) => ENNReal.ofReal (poissonPmf (max m 0) j)) with hκ
  have hM : IsMarkovKernel κ := by
    refine ⟨fun m => ⟨?_⟩⟩
    have hs : HasSum (fun j : ℕ => poissonPmf (max m 0) j) 1 := by
      have h1 := NormedSpace.expSeries_div_hasSum_exp (max m 0)
      rw [← Real.exp_eq_exp_ℝ] at h1
      have := h1.mul_left (Real.exp (-(max m 0)))
      rw [← Real.exp_add, neg_add_cancel, Real.exp_zero] at this
      refine this.congr_fun ?_
      intro j
      unfold poissonPmf; ring
    have hnn : ∀ j : ℕ, 0 ≤ poissonPmf (max m 0) j := fun j => by unfold poissonPmf; positivity
    rw [← Measure.tsum_indicator_apply_singleton _ _ MeasurableSet.univ]
    simp only [Set.indicator_univ, e]
    rw [← ENNReal.ofReal_tsum_of_nonneg hnn hs.summable, hs.tsum_eq, ENNReal.ofReal_one]
  obtain ⟨f, hf, hfe⟩ := Kernel.exists_measurable_map_eq_unitInterval κ
  refine ⟨{ pois := f, pois_meas := hf, pois_law := fun m hm j => ?_ }⟩
  have hfm : Measurable (f m) := hf.comp (f := fun u => (m, u)) (by fun_prop)
  have := e m j
  rw [max_eq_left hm] at this
  rw [← this, ← hfe, Measure.map_apply hfm (measurableSet_singleton j)]
  rfl

end PyHawkes
