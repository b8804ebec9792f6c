import Verif.Props.VarNet
import Verif.Lemmas.BetaLog
import Verif.Lemmas.FXMonoid
import Verif.Model.VLB
import Verif.Spec.VLB

/-! # C55, C57: prior terms of the variational bound are minus Kullback-Leibler divergences -/
set_option linter.unusedSectionVars false

namespace PyHawkes
open Finset MeasureTheory ProbabilityTheory Spec

/-! ### Divergences -/

/-- the expected log density of one gamma distribution under another -/
theorem gamma_cross {a b α β : ℝ} (ha : 0 < a) (hb : 0 < b) (hα : 0 < α) (hβ : 0 < β) :
    IntegrableOn (fun x => gammaPDFReal a b x * Real.log (gammaPDFReal α β x)) (Set.Ioi 0) volume ∧
    ∫ x in Set.Ioi 0, gammaPDFReal a b x * Real.log (gammaPDFReal α β x) = gammaNegent α β (Real.log β) (a / b) (psi a - Real.log b) := by
  obtain ⟨i1, v1⟩ := gamma_mean ha hb
  obtain ⟨i2, v2⟩ := gamma_mean_log ha hb
  have i0 := gammaPDF_integrable ha hb
  have v0 := gammaPDF_integral ha hb
  have j0 : IntegrableOn (fun x => (α * Real.log β - gammaln α) * gammaPDFReal a b x) (Set.Ioi 0) volume := i0.const_mul _
  have j2 : IntegrableOn (fun x => (α - 1) * (gammaPDFReal a b x * Real.log x)) (Set.Ioi 0) volume := i2.const_mul _
  have j02 : IntegrableOn (fun x => (α * Real.log β - gammaln α) * gammaPDFReal a b x + (α - 1) * (gammaPDFReal a b x * Real.log x)) (Set.Ioi 0) volume := j0.add j2
  have j1 : IntegrableOn (fun x => β * (gammaPDFReal a b x * x)) (Set.Ioi 0) volume := i1.const_mul _
  have h : ∀ x ∈ Set.Ioi (0:ℝ), gammaPDFReal a b x * Real.log (gammaPDFReal α β x)
      = ((α * Real.log β - gammaln α) * gammaPDFReal a b x + (α - 1) * (gammaPDFReal a b x * Real.log x)) - β * (gammaPDFReal a b x * x) := by
    intro x hx
    rw [log_gammaPDF hα hβ hx]; ring
  refine ⟨IntegrableOn.congr_fun (j02.sub j1) (fun x hx => (h x hx).symm) measurableSet_Ioi, ?_⟩
  rw [setIntegral_congr_fun measurableSet_Ioi h, integral_sub j02 j1, integral_add j0 j2, integral_const_mul, integral_const_mul, integral_const_mul, v0, v1, v2,
    gammaNegent]
  ring

theorem klGamma_eq {a b α β : ℝ} (ha : 0 < a) (hb : 0 < b) (hα : 0 < α) (hβ : 0 < β) :
    klGamma a b α β = gammaNegentDefault a b - gammaNegent α β (Real.log β) (a / b) (psi a - Real.log b) := by
  obtain ⟨i1, v1⟩ := gamma_cross ha hb ha hb
  obtain ⟨i2, v2⟩ := gamma_cross ha hb hα hβ
  unfold klGamma gammaNegentDefault
  simp only [mul_sub]
  rw [integral_sub i1 i2, v1, v2]

/-- pointwise Gibbs inequality -/
theorem gibbs_pointwise {p q : ℝ} (hp : 0 < p) (hq : 0 < q) : q - p ≤ q * (Real.log q - Real.log p) := by
  have h := Real.add_one_le_exp (Real.log p - Real.log q)
  rw [Real.exp_sub, Real.exp_log hp, Real.exp_log hq] at h
  have : q * (Real.log p - Real.log q + 1) ≤ q * (p / q) := mul_le_mul_of_nonneg_left h hq.le
  rw [mul_div_cancel₀ _ hq.ne'] at this
  nlinarith

theorem gammaPDF_pos {a b x : ℝ} (ha : 0 < a) (hb : 0 < b) (hx : 0 < x) : 0 < gammaPDFReal a b x := by
  have hG := Real.Gamma_pos_of_pos ha
  have h1 := Real.rpow_pos_of_pos hb a
  have h2 := Real.rpow_pos_of_pos hx (a - 1)
  rw [gammaPDFReal, if_pos hx.le]
  positivity

theorem klGamma_nonneg {a b α β : ℝ} (ha : 0 < a) (hb : 0 < b) (hα : 0 < α) (hβ : 0 < β) : 0 ≤ klGamma a b α β := by
  have iq := gammaPDF_integrable ha hb
  have ip := gammaPDF_integrable hα hβ
  have h0 : ∫ x in Set.Ioi 0, (gammaPDFReal a b x - gammaPDFReal α β x) = 0 := by
    rw [integral_sub iq ip, gammaPDF_integral ha hb, gammaPDF_integral hα hβ, sub_self]
  rw [← h0, klGamma]
  refine setIntegral_mono_on (iq.sub ip) ?_ measurableSet_Ioi fun x hx => gibbs_pointwise (gammaPDF_pos hα hβ hx) (gammaPDF_pos ha hb hx)
  have := (gamma_cross ha hb ha hb).1.sub (gamma_cross ha hb hα hβ).1
  simp only [mul_sub]
  exact this

theorem klGamma_self (a b : ℝ) : klGamma a b a b = 0 := by simp [klGamma]

theorem log_betaPDF {a b x : ℝ} (ha : 0 < a) (hb : 0 < b) (hx : x ∈ Set.Ioo (0:ℝ) 1) :
    Real.log (betaPDFReal a b x) = (a - 1) * Real.log x + (b - 1) * Real.log (1 - x) - lnBeta a b := by
  have hB := beta_pos ha hb
  have h1 := Real.rpow_pos_of_pos hx.1 (a - 1)
  have h2 := Real.rpow_pos_of_pos (show 0 < 1 - x by linarith [hx.2]) (b - 1)
  rw [betaPDFReal, if_pos ⟨hx.1, hx.2⟩, Real.log_mul (by positivity) h2.ne', Real.log_mul (by positivity) h1.ne', one_div, Real.log_inv, log_beta ha hb,
    Real.log_rpow hx.1, Real.log_rpow (by linarith [hx.2])]
  ring

/-- the expected log density of one beta distribution under another -/
theorem beta_cross {a b α β : ℝ} (ha : 0 < a) (hb : 0 < b) (hα : 0 < α) (hβ : 0 < β) :
    IntegrableOn (fun x => betaPDFReal a b x * Real.log (betaPDFReal α β x)) (Set.Ioo 0 1) volume ∧
    ∫ x in Set.Ioo (0:ℝ) 1, betaPDFReal a b x * Real.log (betaPDFReal α β x)
      = (α - 1) * (psi a - psi (a + b)) + (β - 1) * (psi b - psi (a + b)) - lnBeta α β := by
  obtain ⟨i1, v1⟩ := beta_mean_log ha hb
  obtain ⟨i2, v2⟩ := beta_mean_log_compl ha hb
  have i0 := betaPDF_integrable ha hb
  have v0 := betaPDF_integral ha hb
  have j1 : IntegrableOn (fun x => (α - 1) * (betaPDFReal a b x * Real.log x)) (Set.Ioo 0 1) volume := i1.const_mul _
  have j2 : IntegrableOn (fun x => (β - 1) * (betaPDFReal a b x * Real.log (1 - x))) (Set.Ioo 0 1) volume := i2.const_mul _
  have j12 : IntegrableOn (fun x => (α - 1) * (betaPDFReal a b x * Real.log x) + (β - 1) * (betaPDFReal a b x * Real.log (1 - x))) (Set.Ioo 0 1) volume := j1.add j2
  have j0 : IntegrableOn (fun x => lnBeta α β * betaPDFReal a b x) (Set.Ioo 0 1) volume := i0.const_mul _
  have h : ∀ x ∈ Set.Ioo (0:ℝ) 1, betaPDFReal a b x * Real.log (betaPDFReal α β x)
      = ((α - 1) * (betaPDFReal a b x * Real.log x) + (β - 1) * (betaPDFReal a b x * Real.log (1 - x))) - lnBeta α β * betaPDFReal a b x := by
    intro x hx
    rw [log_betaPDF hα hβ hx]; ring
  refine ⟨IntegrableOn.congr_fun (j12.sub j0) (fun x hx => (h x hx).symm) measurableSet_Ioo, ?_⟩
  rw [setIntegral_congr_fun measurableSet_Ioo h, integral_sub j12 j0, integral_add j1 j2, integral_const_mul, integral_const_mul, integral_const_mul, v0, v1, v2]
  ring

theorem klBeta_eq {a b α β : ℝ} (ha : 0 < a) (hb : 0 < b) (hα : 0 < α) (hβ : 0 < β) :
    klBeta a b α β = lnBeta α β - lnBeta a b + (a - α) * (psi a - psi (a + b)) + (b - β) * (psi b - psi (a + b)) := by
  obtain ⟨i1, v1⟩ := beta_cross ha hb ha hb
  obtain ⟨i2, v2⟩ := beta_cross ha hb hα hβ
  unfold klBeta
  simp only [mul_sub]
  rw [integral_sub i1 i2, v1, v2]
  ring

theorem klBeta_nonneg {a b α β : ℝ} (ha : 0 < a) (hb : 0 < b) (hα : 0 < α) (hβ : 0 < β) : 0 ≤ klBeta a b α β := by
  have := lnBeta_tangent hα hβ ha hb
  rw [klBeta_eq ha hb hα hβ]
  linarith

theorem klBeta_self (a b : ℝ) : klBeta a b a b = 0 := by simp [klBeta]

theorem lnDirNorm_eq (n : ℕ) (g : ℕ → ℝ) : lnDirNorm n g = lnDir n g := rfl

theorem klDirichlet_nonneg {n : ℕ} (hn : 0 < n) {q p : ℕ → ℝ} (hq : ∀ i < n, 0 < q i) (hp : ∀ i < n, 0 < p i) : 0 ≤ klDirichlet n q p := by
  obtain ⟨m, rfl⟩ : ∃ m, n = m + 1 := ⟨n - 1, by omega⟩
  have := lnDir_tangent m p q hp hq
  have e : ∑ i ∈ range (m + 1), (p i - q i) * (psi (q i) - psi (∑ i ∈ range (m + 1), q i))
      = -∑ i ∈ range (m + 1), (q i - p i) * (psi (q i) - psi (∑ i ∈ range (m + 1), q i)) := by
    rw [← sum_neg_distrib]; exact sum_congr rfl fun i _ => by ring
  rw [e] at this
  simp only [klDirichlet, lnDirNorm_eq]
  linarith

theorem klDirichlet_self (n : ℕ) (p : ℕ → ℝ) : klDirichlet n p p = 0 := by simp [klDirichlet]

/-- the closed form agrees with the integral for two components -/
theorem klDirichlet_two {a b α β : ℝ} (ha : 0 < a) (hb : 0 < b) (hα : 0 < α) (hβ : 0 < β) :
    klDirichlet 2 (fun i => if i = 0 then a else b) (fun i => if i = 0 then α else β) = klBeta a b α β := by
  rw [klBeta_eq ha hb hα hβ]
  simp [klDirichlet, lnDirNorm, lnBeta, gammaln, sum_range_succ]
  ring

/-! ### C57: beta negative entropy -/

/-- **C57 (Beta and Dirichlet negative entropy).** With default expectations the negative entropy of a beta distribution is its expected log density; a
batch gives the sum. -/
theorem C57_beta_negentropy (rows : ℕ) (a b : Vec ℝ) (ha : ∀ r < rows, 0 < a r) (hb : ∀ r < rows, 0 < b r) :
    dirNegent rows rows 2 (fun r i => if i = 0 then a r else b r) (fun r i => dirELog 2 (fun i => if i = 0 then a r else b r) i)
      = ∑ r ∈ range rows, ∫ x in Set.Ioo (0:ℝ) 1, betaPDFReal (a r) (b r) x * Real.log (betaPDFReal (a r) (b r) x) := by
  have e : ∀ r ∈ range rows, ∫ x in Set.Ioo (0:ℝ) 1, betaPDFReal (a r) (b r) x * Real.log (betaPDFReal (a r) (b r) x)
      = gammaln (a r + b r) + -(gammaln (a r) + gammaln (b r)) + ((a r - 1) * (psi (a r) - psi (a r + b r)) + (b r - 1) * (psi (b r) - psi (a r + b r))) := by
    intro r hr
    have hr := mem_range.1 hr
    rw [(beta_cross (ha r hr) (hb r hr) (ha r hr) (hb r hr)).2]
    unfold lnBeta; ring
  rw [sum_congr rfl e, sum_add_distrib, sum_add_distrib, sum_neg_distrib]
  unfold dirNegent
  simp only [sum_range_succ, range_zero, sum_empty, zero_add, if_true, one_ne_zero, if_false, dirELog]
  congr 1
  refine sum_congr rfl fun r hr' => ?_
  have : (if rows = 1 then 0 else r) = r := by
    have := mem_range.1 hr'
    split_ifs <;> omega
  rw [this]

example : dirNegent 2 2 2 (fun r i => if i = 0 then (r + 1 : ℝ) else 2) (fun r i => dirELog 2 (fun i => if i = 0 then (r + 1 : ℝ) else 2) i)
    = ∑ r ∈ range 2, ∫ x in Set.Ioo (0:ℝ) 1, betaPDFReal (r + 1) 2 x * Real.log (betaPDFReal (r + 1) 2 x) :=
  C57_beta_negentropy 2 (fun r => r + 1) (fun _ => 2) (fun r _ => by positivity) (fun _ _ => by norm_num)

/-! ### C55: the parts of the bound -/

/-- **C55 (background rates).** The contribution of the background rates is minus the sum of the divergences of the variational from the prior distribution. -/
theorem C55_bias_minus_kl (K : ℕ) (b : MFBias) (ha : 0 < b.alpha) (hb : 0 < b.beta) (hm : ∀ k < K, 0 < b.mfAlpha k ∧ 0 < b.mfBeta k) :
    b.vlb K = -∑ k ∈ range K, klGamma (b.mfAlpha k) (b.mfBeta k) b.alpha b.beta := by
  unfold MFBias.vlb
  simp only [zero_add]
  rw [← sum_sub_distrib, ← sum_neg_distrib]
  refine sum_congr rfl fun k hk => ?_
  have := hm k (mem_range.1 hk)
  rw [klGamma_eq this.1 this.2 ha hb]
  simp only [MFBias.eLam, MFBias.eLnLam]
  ring

/-- **C55 (background rates).** It is never positive, and zero when the variational distribution equals the prior. -/
theorem C55_bias_nonpos (K : ℕ) (b : MFBias) (ha : 0 < b.alpha) (hb : 0 < b.beta) (hm : ∀ k < K, 0 < b.mfAlpha k ∧ 0 < b.mfBeta k) :
    b.vlb K ≤ 0 ∧ ((∀ k < K, b.mfAlpha k = b.alpha ∧ b.mfBeta k = b.beta) → b.vlb K = 0) := by
  rw [C55_bias_minus_kl K b ha hb hm]
  constructor
  · have : 0 ≤ ∑ k ∈ range K, klGamma (b.mfAlpha k) (b.mfBeta k) b.alpha b.beta :=
      sum_nonneg fun k hk => klGamma_nonneg (hm k (mem_range.1 hk)).1 (hm k (mem_range.1 hk)).2 ha hb
    linarith
  · intro h
    rw [neg_eq_zero]
    refine sum_eq_zero fun k hk => ?_
    rw [(h k (mem_range.1 hk)).1, (h k (mem_range.1 hk)).2, klGamma_self]

example : MFBias.vlb 2 { alpha := 1, beta := 2, dt := 1, mfAlpha := fun _ => 3, mfBeta := fun _ => 4 } ≤ 0 :=
  (C55_bias_nonpos 2 _ (by norm_num) (by norm_num) (fun _ _ => by norm_num)).1

/-- the prior row broadcast over `R` variational rows: the normaliser of the prior is counted once instead of `R` times -/
theorem dir_vlb (R n : ℕ) (g : Vec ℝ) (G E : Mat ℝ) (hE : ∀ r < R, ∀ i < n, E r i = psi (G r i) - psi (∑ i ∈ range n, G r i)) :
    dirNegent 1 R n (fun _ => g) E - dirNegent R R n G E
      = -(∑ r ∈ range R, klDirichlet n (G r) g) + ((R : ℝ) - 1) * lnDirNorm n g := by
  have e1 : dirNegent R R n G E = ∑ r ∈ range R, (-lnDir n (G r) + ∑ i ∈ range n, (G r i - 1) * E r i) := by
    unfold dirNegent lnDir
    dsimp only
    rw [sum_add_distrib]
    congr 1
    · rw [← sum_neg_distrib, ← sum_add_distrib]
      exact sum_congr rfl fun r _ => by ring
    · refine sum_congr rfl fun r hr' => ?_
      have : (if R = 1 then 0 else r) = r := by
        have := mem_range.1 hr'
        split_ifs <;> omega
      rw [this]
  have e2 : dirNegent 1 R n (fun _ => g) E = -lnDir n g + ∑ r ∈ range R, ∑ i ∈ range n, (g i - 1) * E r i := by
    unfold dirNegent lnDir
    simp
    ring
  have e3 : ∑ r ∈ range R, klDirichlet n (G r) g = ∑ r ∈ range R, (lnDir n g - lnDir n (G r) + ∑ i ∈ range n, (G r i - g i) * E r i) := by
    refine sum_congr rfl fun r hr => ?_
    unfold klDirichlet
    rw [lnDirNorm_eq, lnDirNorm_eq]
    congr 1
    exact sum_congr rfl fun i hi => by rw [hE r (mem_range.1 hr) i (mem_range.1 hi)]
  have e4 : ∑ r ∈ range R, ∑ i ∈ range n, (G r i - g i) * E r i = ∑ r ∈ range R, ∑ i ∈ range n, (G r i - 1) * E r i - ∑ r ∈ range R, ∑ i ∈ range n, (g i - 1) * E r i := by
    rw [← sum_sub_distrib]
    refine sum_congr rfl fun r _ => ?_
    rw [← sum_sub_distrib]
    exact sum_congr rfl fun i _ => by ring
  rw [e1, e2, e3, sum_add_distrib, sum_add_distrib, e4, sum_sub_distrib, sum_const, card_range, nsmul_eq_mul, lnDirNorm_eq, sum_neg_distrib]
  ring

/-- **C55 (impulse responses).** The contribution of the impulse weights is minus the sum of the divergences, plus `K²-1` times the prior's log normaliser:
the code counts that normaliser once although it belongs to each of the `K²` pairs. -/
theorem C55_impulse_value (K B : ℕ) (m : MFImp) :
    m.vlb K B = -(∑ k1 ∈ range K, ∑ k2 ∈ range K, klDirichlet B (m.mfGamma k1 k2) m.gamma) + (((K * K : ℕ) : ℝ) - 1) * lnDirNorm B m.gamma := by
  unfold MFImp.vlb
  simp only [zero_add]
  rw [dir_vlb (K * K) B m.gamma (fun r b => m.mfGamma (r / K) (r % K) b) (fun r b => m.eLnG B (r / K) (r % K) b) (fun r _ i _ => rfl), sum_flat]
  congr 2
  refine sum_congr rfl fun k1 _ => sum_congr rfl fun k2 h2 => ?_
  rw [flat_div _ (mem_range.1 h2), flat_mod _ (mem_range.1 h2)]

/-- **C55 (impulse responses, partial).** It is never positive for a single process, and for any number of processes when the prior's log normaliser is not
positive (for instance all concentrations 1); for one process it is zero at the prior. -/
theorem C55_impulse_nonpos_partial (K B : ℕ) (hK : 0 < K) (hB : 0 < B) (m : MFImp) (hg : ∀ b < B, 0 < m.gamma b)
    (hm : ∀ i < K, ∀ j < K, ∀ b < B, 0 < m.mfGamma i j b) (hnorm : K = 1 ∨ lnDirNorm B m.gamma ≤ 0) :
    m.vlb K B ≤ 0 ∧ (K = 1 → m.mfGamma 0 0 = m.gamma → m.vlb K B = 0) := by
  rw [C55_impulse_value K B m]
  constructor
  · have h0 : 0 ≤ ∑ k1 ∈ range K, ∑ k2 ∈ range K, klDirichlet B (m.mfGamma k1 k2) m.gamma :=
      sum_nonneg fun i hi => sum_nonneg fun j hj => klDirichlet_nonneg hB (hm i (mem_range.1 hi) j (mem_range.1 hj)) hg
    have h1 : (((K * K : ℕ) : ℝ) - 1) * lnDirNorm B m.gamma ≤ 0 := by
      rcases hnorm with h | h
      · subst h; simp
      · refine mul_nonpos_of_nonneg_of_nonpos ?_ h
        have : 1 ≤ K * K := Nat.mul_pos hK hK
        have : (1:ℝ) ≤ ((K * K : ℕ) : ℝ) := by exact_mod_cast this
        linarith
    linarith
  · rintro rfl h
    simp [h, klDirichlet_self]

example : MFImp.vlb 2 2 { gamma := fun _ => 1, mfGamma := fun _ _ _ => 3 } ≤ 0 :=
  (C55_impulse_nonpos_partial 2 2 (by norm_num) (by norm_num) _ (fun _ _ => by norm_num) (fun _ _ _ _ _ _ => by norm_num)
    (Or.inr (by simp [lnDirNorm, Real.Gamma_one]))).1

/-- **C55 (impulse responses, violated).** With two processes, two basis functions and prior concentrations 1/2 the contribution at the prior
is `3 log π`, which is positive. -/
theorem C55_impulse_violated : MFImp.vlb 2 2 { gamma := fun _ => 1 / 2, mfGamma := fun _ _ _ => 1 / 2 } = 3 * Real.log Real.pi ∧ 0 < 3 * Real.log Real.pi := by
  constructor
  · rw [C55_impulse_value 2 2]
    have h : lnDirNorm 2 (fun _ => 1 / 2) = Real.log Real.pi := by
      simp only [lnDirNorm, sum_range_succ, range_zero, sum_empty, zero_add, Real.Gamma_one_half_eq]
      rw [show (1/2:ℝ) + 1/2 = 1 by norm_num, Real.Gamma_one, Real.log_one, sub_zero, ← Real.log_mul (by positivity) (by positivity), Real.mul_self_sqrt Real.pi_pos.le]
    simp only [klDirichlet_self, sum_const_zero, neg_zero, zero_add, h]
    norm_num
  · have := Real.log_pos (show (1:ℝ) < Real.pi by linarith [Real.two_le_pi])
    linarith

end PyHawkes
