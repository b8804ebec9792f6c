import Verif.Props.SimulateLaw
import Mathlib.Probability.Independence.Integration

/-!
# C93: expected counts of the discrete-time simulator
-/
set_option linter.unusedSectionVars false
set_option linter.unusedVariables false

namespace PyHawkes
open Finset Spec MeasureTheory ProbabilityTheory

theorem poisson_mean_sum {m : ℝ} (hm : 0 ≤ m) : HasSum (fun j : ℕ => (j : ℝ) * poissonPmf m j) m := by
  have h1 := NormedSpace.expSeries_div_hasSum_exp m
  rw [← Real.exp_eq_exp_ℝ] at h1
  have h2 := h1.mul_left (Real.exp (-m) * m)
  have e : Real.exp (-m) * m * Real.exp m = m := by rw [mul_comm (Real.exp (-m)), mul_assoc, ← Real.exp_add, neg_add_cancel, Real.exp_zero, mul_one]
  rw [e] at h2
  rw [← hasSum_nat_add_iff' 1]
  simp only [range_one, sum_singleton, Nat.cast_zero, zero_mul, sub_zero]
  refine h2.congr_fun ?_
  intro j
  unfold poissonPmf
  rw [Nat.factorial_succ]
  push_cast
  field_simp
  ring

section
variable {U Ω : Type*} [MeasurableSpace U] [MeasurableSpace Ω] {μ : Measure U} {Pr : Measure Ω} (Ps : PoissonSampler μ)

theorem pois_mean {m : ℝ} (hm : 0 ≤ m) : ∫⁻ u, ((Ps.pois m u : ℕ) : ENNReal) ∂μ = ENNReal.ofReal m := by
  have mp : Measurable fun u => Ps.pois m u := Ps.pois_meas.comp (f := fun u => (m, u)) (by fun_prop)
  have mc : Measurable fun j : ℕ => (j : ENNReal) := measurable_from_top
  rw [← lintegral_map mc mp, lintegral_countable']
  have hs := poisson_mean_sum hm
  have hnn : ∀ j : ℕ, 0 ≤ (j : ℝ) * poissonPmf m j := fun j => by unfold poissonPmf; positivity
  rw [show ENNReal.ofReal m = ENNReal.ofReal (∑' j : ℕ, (j : ℝ) * poissonPmf m j) by rw [hs.tsum_eq], ENNReal.ofReal_tsum_of_nonneg hnn hs.summable]
  refine tsum_congr fun j => ?_
  rw [Measure.map_apply mp (measurableSet_singleton j), ENNReal.ofReal_mul (Nat.cast_nonneg _), ENNReal.ofReal_natCast]
  congr 1
  exact Ps.pois_law m hm j

/-- the counts of the first `t` bins as a function of the seeds -/
noncomputable def simHist (P : NetParams ℝ) (z : ℕ × ℕ → U) : ℕ → Mat ℕ
  | 0 => fun _ _ => 0
  | t + 1 => fun t' k => if t' = t then (if k < P.K then Ps.pois (rate P.K P.B P.lam0 P.Weff P.g (filtered P.L P.basis fun r i => (simHist P z t r i : ℝ)) t k * P.dt) (z (t, k)) else 0) else simHist P z t t' k

variable {P : NetParams ℝ}

theorem simHist_congr {z z' : ℕ × ℕ → U} (t : ℕ) (h : ∀ σ ∈ range t ×ˢ range P.K, z σ = z' σ) : simHist Ps P z t = simHist Ps P z' t := by
  induction t with
  | zero => rfl
  | succ t ih =>
    have e := ih fun σ hσ => h σ (by simp only [mem_product, mem_range] at hσ ⊢; omega)
    funext t' k
    simp only [simHist, e]
    split_ifs with h1 h2
    · rw [h (t, k) (by simp only [mem_product, mem_range]; omega)]
    · rfl
    · rfl

theorem simHist_stable (z : ℕ × ℕ → U) {t n : ℕ} (h : t < n) (k : ℕ) : simHist Ps P z n t k = simHist Ps P z (t + 1) t k := by
  induction n with
  | zero => omega
  | succ n ih =>
    rcases Nat.lt_or_ge t n with h1 | h1
    · rw [← ih h1]
      simp only [simHist, if_neg h1.ne]
    · rw [show t = n by omega]

theorem measurable_simHist (t : ℕ) : Measurable fun z : ℕ × ℕ → U => simHist Ps P z t := by
  induction t with
  | zero => exact measurable_const
  | succ t ih =>
    refine measurable_pi_iff.2 fun t' => measurable_pi_iff.2 fun k => ?_
    simp only [simHist]
    split_ifs with h1 h2
    · refine Ps.pois_meas.comp (f := fun z : ℕ × ℕ → U => (rate P.K P.B P.lam0 P.Weff P.g (filtered P.L P.basis fun r i => (simHist Ps P z t r i : ℝ)) t k * P.dt, z (t, k))) (Measurable.prodMk ?_ (by fun_prop))
      unfold rate filtered
      have hc : ∀ t' i, Measurable fun z : ℕ × ℕ → U => (simHist Ps P z t t' i : ℝ) := fun t' i =>
        (measurable_from_top (f := fun n : ℕ => (n : ℝ))).comp ((measurable_pi_iff.1 (measurable_pi_iff.1 ih t')) i)
      refine Measurable.mul_const (Measurable.const_add (Finset.measurable_sum _ fun i _ => Finset.measurable_sum _ fun b _ => Measurable.const_mul (Finset.measurable_sum _ fun l _ => ?_) _) _) _
      split_ifs
      · exact (hc _ _).const_mul _
      · exact measurable_const
    · exact measurable_const
    · exact (measurable_pi_iff.1 (measurable_pi_iff.1 ih t')) k

/-- what the simulation returns -/
theorem simulates_hist (h : SimOk P) (hp : RateOk P) {T : ℕ} (hT : 0 < T) {x : ℕ × ℕ × ℕ → U} {i : ℕ} {s : Mat ℕ} (hs : Simulates P (Ps.draws x i) T s) {t k : ℕ} (ht : t < T) (hk : k < P.K) :
    s t k = simHist Ps P (fun σ => x (i, σ)) (t + 1) t k := by
  rw [simulates_iff h hp _ hT] at hs
  induction t using Nat.strong_induction_on generalizing k with
  | _ t ih =>
    rw [← hs t ht k hk]
    simp only [simHist, if_true, if_pos hk]
    unfold PoissonSampler.draws
    rw [rate_causal (P := P) h.causal (S := fun t k => (s t k : ℝ)) (s := fun t' k => (simHist Ps P (fun σ => x (i, σ)) t t' k : ℝ)) (t := t) (fun t' ht' k' hk' => by
      rw [ih t' ht' (by omega) hk', simHist_stable Ps _ ht']) k]

/-- Poisson mean of bin `t` given a history -/
noncomputable def histMean (P : NetParams ℝ) (t k : ℕ) (s : Mat ℕ) : ℝ := rate P.K P.B P.lam0 P.Weff P.g (filtered P.L P.basis fun r i => (s r i : ℝ)) t k * P.dt

theorem measurable_histMean (t k : ℕ) : Measurable fun s : Mat ℕ => histMean P t k s := by
  unfold histMean rate filtered
  have hc : ∀ t' i, Measurable fun s : Mat ℕ => (s t' i : ℝ) := fun t' i =>
    (measurable_from_top (f := fun n : ℕ => (n : ℝ))).comp (f := fun s : Mat ℕ => s t' i) (by fun_prop)
  refine Measurable.mul_const (Measurable.const_add (Finset.measurable_sum _ fun i _ => Finset.measurable_sum _ fun b _ => Measurable.const_mul (Finset.measurable_sum _ fun l _ => ?_) _) _) _
  split_ifs
  · exact (hc _ _).const_mul _
  · exact measurable_const

theorem histMean_nonneg (h : SimOk P) (hp : RateOk P) (s : Mat ℕ) {t k : ℕ} (hk : k < P.K) : 0 ≤ histMean P t k s := mul_nonneg (rate_pos h hp s hk).le h.dt.le

/-- one bin: the expected count is the expected Poisson mean -/
theorem bin_mean [IsProbabilityMeasure Pr] (h : SimOk P) (hp : RateOk P) {z : Ω → ℕ × ℕ → U} (hi : iIndepFun (fun σ ω => z ω σ) Pr) (hl : ∀ σ, HasLaw (fun ω => z ω σ) μ Pr) (t : ℕ) {k : ℕ} (hk : k < P.K) :
    ∫⁻ ω, ((simHist Ps P (z ω) (t + 1) t k : ℕ) : ENNReal) ∂Pr = ∫⁻ ω, ENNReal.ofReal (histMean P t k (simHist Ps P (z ω) t)) ∂Pr ∧ AEMeasurable (fun ω => simHist Ps P (z ω) t) Pr := by
  classical
  have hμ : IsProbabilityMeasure μ := by rw [← (hl (0, 0)).map_eq]; exact Measure.isProbabilityMeasure_map (hl (0, 0)).aemeasurable
  obtain ⟨u0⟩ := nonempty_of_isProbabilityMeasure μ
  set A := range t ×ˢ range P.K with hA
  set ext : (A → U) → ℕ × ℕ → U := fun y σ => if hσ : σ ∈ A then y ⟨σ, hσ⟩ else u0 with hext
  have mext : Measurable ext := by
    refine measurable_pi_iff.2 fun σ => ?_
    rw [hext]
    by_cases hσ : σ ∈ A
    · simp only [dif_pos hσ]; fun_prop
    · simp only [dif_neg hσ]; exact measurable_const
  have e1 : ∀ ω, simHist Ps P (ext fun σ : A => z ω σ) t = simHist Ps P (z ω) t := fun ω => simHist_congr Ps t fun σ hσ => by
    rw [hext]; dsimp only; rw [dif_pos hσ]
  have mh : AEMeasurable (fun ω => simHist Ps P (z ω) t) Pr := by
    have : AEMeasurable (fun ω => (fun σ : A => z ω σ)) Pr := aemeasurable_pi_iff.2 fun σ => (hl σ).aemeasurable
    have h2 := ((measurable_simHist Ps (P := P) t).comp mext).comp_aemeasurable this
    refine h2.congr (Filter.Eventually.of_forall fun ω => ?_)
    exact e1 ω
  refine ⟨?_, mh⟩
  have hind : IndepFun (fun ω => simHist Ps P (z ω) t) (fun ω => z ω (t, k)) Pr := by
    have h0 := hi.indepFun_finset₀ A {(t, k)} (by rw [disjoint_singleton_right, hA]; simp) fun σ => (hl σ).aemeasurable
    have m2 : Measurable fun y : ({(t, k)} : Finset (ℕ × ℕ)) → U => y ⟨(t, k), mem_singleton_self _⟩ := measurable_pi_apply _
    have h1 := h0.comp (φ := fun y : A → U => simHist Ps P (ext y) t) (ψ := fun y : ({(t, k)} : Finset (ℕ × ℕ)) → U => y ⟨(t, k), mem_singleton_self _⟩) ((measurable_simHist Ps t).comp mext) m2
    have e2 : (fun y : A → U => simHist Ps P (ext y) t) ∘ (fun ω (σ : A) => z ω σ) = fun ω => simHist Ps P (z ω) t := funext e1
    rw [e2] at h1
    exact h1
  have hlaw := (indepFun_iff_hasLaw_prodMk_prod ⟨mh, rfl⟩ (hl (t, k))).1 hind
  have i1 : IsProbabilityMeasure (Pr.map fun ω => simHist Ps P (z ω) t) := Measure.isProbabilityMeasure_map mh
  have mf : Measurable fun y : Mat ℕ × U => ((Ps.pois (histMean P t k y.1) y.2 : ℕ) : ENNReal) := by
    refine (measurable_from_top (f := fun j : ℕ => (j : ENNReal))).comp ?_
    exact Ps.pois_meas.comp (f := fun y : Mat ℕ × U => (histMean P t k y.1, y.2)) (((measurable_histMean t k).comp measurable_fst).prodMk measurable_snd)
  have e3 : ∀ ω, ((simHist Ps P (z ω) (t + 1) t k : ℕ) : ENNReal) = (fun y : Mat ℕ × U => ((Ps.pois (histMean P t k y.1) y.2 : ℕ) : ENNReal)) (simHist Ps P (z ω) t, z ω (t, k)) := by
    intro ω
    simp only [simHist, if_true, if_pos hk, histMean]
  rw [lintegral_congr e3, hlaw.lintegral_comp mf.aemeasurable, lintegral_prod _ mf.aemeasurable]
  have mg : Measurable fun s : Mat ℕ => ENNReal.ofReal (histMean P t k s) := (measurable_histMean t k).ennreal_ofReal
  rw [← lintegral_map' mg.aemeasurable mh]
  refine lintegral_congr fun s => ?_
  exact pois_mean Ps (histMean_nonneg h hp s hk)

/-- **C93 (expected counts).** The expected counts of simulated data satisfy the equation of the model with the expected history in place of the history: in particular they are finite. -/
theorem C93_expected_counts [IsProbabilityMeasure Pr] (h : SimOk P) (hp : RateOk P) {T : ℕ} {x : Ω → ℕ × ℕ × ℕ → U} (hi : iIndepFun (fun σ ω => x ω σ) Pr) (hl : ∀ σ, HasLaw (fun ω => x ω σ) μ Pr) (i : ℕ)
    {S : Ω → Mat ℕ} (hS : ∀ ω, Simulates P (Ps.draws (x ω) i) T (S ω)) {t k : ℕ} (ht : t < T) (hk : k < P.K) :
    Integrable (fun ω => (S ω t k : ℝ)) Pr ∧
    ∫ ω, (S ω t k : ℝ) ∂Pr = rate P.K P.B P.lam0 P.Weff P.g (filtered P.L P.basis fun t k => ∫ ω, (S ω t k : ℝ) ∂Pr) t k * P.dt := by
  induction t using Nat.strong_induction_on generalizing k with
  | _ t ih =>
    have hi' : iIndepFun (fun (σ : ℕ × ℕ) ω => x ω (i, σ)) Pr := hi.precomp (fun a b hab => (Prod.mk.inj hab).2)
    obtain ⟨e, mh⟩ := bin_mean Ps h hp (z := fun ω σ => x ω (i, σ)) hi' (fun σ => hl _) t hk
    obtain ⟨-, mh'⟩ := bin_mean Ps h hp (z := fun ω σ => x ω (i, σ)) hi' (fun σ => hl _) (t + 1) hk
    have hSe : ∀ ω, S ω t k = simHist Ps P (fun σ => x ω (i, σ)) (t + 1) t k := fun ω => simulates_hist Ps h hp (by omega) (hS ω) ht hk
    have hme : ∀ ω, histMean P t k (simHist Ps P (fun σ => x ω (i, σ)) t) = rate P.K P.B P.lam0 P.Weff P.g (filtered P.L P.basis fun t k => (S ω t k : ℝ)) t k * P.dt := by
      intro ω
      unfold histMean
      rw [rate_causal (P := P) h.causal (S := fun r j => (simHist Ps P (fun σ => x ω (i, σ)) t r j : ℝ)) (s := fun t k => (S ω t k : ℝ)) (t := t) (fun t' ht' k' hk' => by
        rw [simHist_stable Ps _ ht', simulates_hist Ps h hp (by omega) (hS ω) (by omega) hk']) k]
    -- the Poisson mean is integrable
    have hterm : ∀ i' ∈ range P.K, ∀ b ∈ range P.B, ∀ l ∈ range P.L, Integrable (fun ω => if l ≤ t then P.basis l b * (S ω (t - l) i' : ℝ) else 0) Pr ∧
        ∫ ω, (if l ≤ t then P.basis l b * (S ω (t - l) i' : ℝ) else 0) ∂Pr = if l ≤ t then P.basis l b * ∫ ω, (S ω (t - l) i' : ℝ) ∂Pr else 0 := by
      intro i' hi'' b hb l hl'
      by_cases hlt : l ≤ t
      · simp only [if_pos hlt]
        rcases Nat.eq_zero_or_pos l with rfl | hl0
        · simp only [h.causal b (mem_range.1 hb), zero_mul]
          exact ⟨integrable_const 0, by simp⟩
        · exact ⟨(ih (t - l) (by omega) (by omega) (mem_range.1 hi'')).1.const_mul _, integral_const_mul _ _⟩
      · simp only [if_neg hlt]
        exact ⟨integrable_const 0, by simp⟩
    have hfil : ∀ i' ∈ range P.K, ∀ b ∈ range P.B, Integrable (fun ω => filtered P.L P.basis (fun t k => (S ω t k : ℝ)) t i' b) Pr ∧
        ∫ ω, filtered P.L P.basis (fun t k => (S ω t k : ℝ)) t i' b ∂Pr = filtered P.L P.basis (fun t k => ∫ ω, (S ω t k : ℝ) ∂Pr) t i' b := by
      intro i' hi'' b hb
      unfold filtered
      refine ⟨integrable_finsetSum _ fun l hl' => (hterm i' hi'' b hb l hl').1, ?_⟩
      rw [integral_finsetSum _ fun l hl' => (hterm i' hi'' b hb l hl').1]
      exact sum_congr rfl fun l hl' => (hterm i' hi'' b hb l hl').2
    have hrate : Integrable (fun ω => rate P.K P.B P.lam0 P.Weff P.g (filtered P.L P.basis fun t k => (S ω t k : ℝ)) t k * P.dt) Pr ∧
        ∫ ω, rate P.K P.B P.lam0 P.Weff P.g (filtered P.L P.basis fun t k => (S ω t k : ℝ)) t k * P.dt ∂Pr = rate P.K P.B P.lam0 P.Weff P.g (filtered P.L P.basis fun t k => ∫ ω, (S ω t k : ℝ) ∂Pr) t k * P.dt := by
      unfold rate
      have h1 : ∀ i' ∈ range P.K, ∀ b ∈ range P.B, Integrable (fun ω => P.Weff i' k * P.g i' k b * filtered P.L P.basis (fun t k => (S ω t k : ℝ)) t i' b) Pr := fun i' hi'' b hb => (hfil i' hi'' b hb).1.const_mul _
      have h2 : ∀ i' ∈ range P.K, Integrable (fun ω => ∑ b ∈ range P.B, P.Weff i' k * P.g i' k b * filtered P.L P.basis (fun t k => (S ω t k : ℝ)) t i' b) Pr := fun i' hi'' => integrable_finsetSum _ (h1 i' hi'')
      have h3 : Integrable (fun ω => ∑ i' ∈ range P.K, ∑ b ∈ range P.B, P.Weff i' k * P.g i' k b * filtered P.L P.basis (fun t k => (S ω t k : ℝ)) t i' b) Pr := integrable_finsetSum _ h2
      refine ⟨((integrable_const _).add h3).mul_const _, ?_⟩
      rw [integral_mul_const, integral_add (integrable_const _) h3, integral_const, probReal_univ, one_smul, integral_finsetSum _ h2]
      congr 2
      refine sum_congr rfl fun i' hi'' => ?_
      rw [integral_finsetSum _ (h1 i' hi'')]
      refine sum_congr rfl fun b hb => ?_
      rw [integral_const_mul, (hfil i' hi'' b hb).2]
    have hpos : ∀ ω, 0 ≤ rate P.K P.B P.lam0 P.Weff P.g (filtered P.L P.basis fun t k => (S ω t k : ℝ)) t k * P.dt := fun ω => mul_nonneg (rate_pos h hp (S ω) hk).le h.dt.le
    have mS : AEStronglyMeasurable (fun ω => (S ω t k : ℝ)) Pr := by
      have m1 : Measurable fun s : Mat ℕ => (s t k : ℝ) := (measurable_from_top (f := fun n : ℕ => (n : ℝ))).comp (f := fun s : Mat ℕ => s t k) (by fun_prop)
      have := (m1.comp_aemeasurable mh').aestronglyMeasurable
      refine this.congr (Filter.Eventually.of_forall fun ω => ?_)
      change ((simHist Ps P (fun σ => x ω (i, σ)) (t + 1) t k : ℕ) : ℝ) = (S ω t k : ℝ)
      rw [hSe]
    have key : ∫⁻ ω, ENNReal.ofReal (S ω t k : ℝ) ∂Pr = ENNReal.ofReal (rate P.K P.B P.lam0 P.Weff P.g (filtered P.L P.basis fun t k => ∫ ω, (S ω t k : ℝ) ∂Pr) t k * P.dt) := by
      have e1 : ∀ ω, ENNReal.ofReal (S ω t k : ℝ) = ((simHist Ps P (fun σ => x ω (i, σ)) (t + 1) t k : ℕ) : ENNReal) := fun ω => by rw [ENNReal.ofReal_natCast, hSe]
      rw [lintegral_congr e1, e, lintegral_congr fun ω => by rw [hme ω], ← hrate.2, ofReal_integral_eq_lintegral_ofReal hrate.1 (Filter.Eventually.of_forall hpos)]
    have hint : Integrable (fun ω => (S ω t k : ℝ)) Pr := by
      refine ⟨mS, ?_⟩
      rw [hasFiniteIntegral_iff_ofReal (Filter.Eventually.of_forall fun ω => Nat.cast_nonneg _), key]
      exact ENNReal.ofReal_lt_top
    refine ⟨hint, ?_⟩
    have := ofReal_integral_eq_lintegral_ofReal hint (Filter.Eventually.of_forall fun ω => Nat.cast_nonneg _)
    rw [key] at this
    refine (ENNReal.ofReal_eq_ofReal_iff (integral_nonneg fun ω => Nat.cast_nonneg _) ?_).1 this
    rw [← hrate.2]
    exact integral_nonneg hpos

end

end PyHawkes
