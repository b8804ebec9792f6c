import Verif.Props.DirichletDensity
import Verif.Props.Gibbs
import Verif.Props.NetworkSweep
import Verif.Props.VLBPrior
import Verif.Props.VarNet
import Verif.Model.MFSample
import Mathlib.InformationTheory.KullbackLeibler.Basic

/-! # C18, C22: the Dirichlet draws are draws from the posterior distribution; C51, C55, C57: Dirichlet expectations and divergences -/
set_option linter.unusedSectionVars false
set_option linter.unusedVariables false

namespace PyHawkes
open Finset Spec MeasureTheory ProbabilityTheory

section
variable {B : ℕ} {p q : ℕ → ℝ}

theorem dirRatio_pos (hp : ∀ b < B, 0 < p b) (hq : ∀ b < B, 0 < q b) (hB : 0 < B) {x : ℕ → ℝ} (hx : ∀ b < B, 0 < x b) : 0 < dirRatio B p q x := by
  have hP : 0 < ∑ b ∈ range B, p b := sum_pos (fun c hc => hp c (mem_range.1 hc)) ⟨0, mem_range.2 hB⟩
  have hQ : 0 < ∑ b ∈ range B, q b := sum_pos (fun c hc => hq c (mem_range.1 hc)) ⟨0, mem_range.2 hB⟩
  have h1 := Real.Gamma_pos_of_pos hP
  have h2 := Real.Gamma_pos_of_pos hQ
  refine mul_pos (by positivity) (prod_pos fun b hb => ?_)
  have hb := mem_range.1 hb
  have := Real.Gamma_pos_of_pos (hp b hb)
  have := Real.Gamma_pos_of_pos (hq b hb)
  have := Real.rpow_pos_of_pos (hx b hb) (p b - q b)
  positivity

/-- Dirichlet prior and a likelihood that is a product of powers -/
theorem dirichlet_posterior (hp : ∀ b < B, 0 < p b) (hq : ∀ b < B, 0 < q b) (hB : 0 < B) {lik : (ℕ → ℝ) → ℝ}
    (hl : ∀ x : ℕ → ℝ, (∀ b < B, 0 < x b) → ∏ b ∈ range B, x b ^ (p b - 1) = (∏ b ∈ range B, x b ^ (q b - 1)) * lik x) :
    IsPosteriorLaw (dirichletLaw B p) (dirichletLaw B q) lik := by
  have hPp := dirichlet_prob hp
  have hPq := dirichlet_prob hq
  have hP : 0 < ∑ b ∈ range B, p b := sum_pos (fun c hc => hp c (mem_range.1 hc)) ⟨0, mem_range.2 hB⟩
  have hQ : 0 < ∑ b ∈ range B, q b := sum_pos (fun c hc => hq c (mem_range.1 hc)) ⟨0, mem_range.2 hB⟩
  have h1 := Real.Gamma_pos_of_pos hP
  have h2 := Real.Gamma_pos_of_pos hQ
  have h3 : 0 < ∏ b ∈ range B, (Real.Gamma (q b) / Real.Gamma (p b)) := prod_pos fun b hb => by
    have hb := mem_range.1 hb
    have := Real.Gamma_pos_of_pos (hp b hb)
    have := Real.Gamma_pos_of_pos (hq b hb)
    positivity
  set c := Real.Gamma (∑ b ∈ range B, p b) / Real.Gamma (∑ b ∈ range B, q b) * ∏ b ∈ range B, (Real.Gamma (q b) / Real.Gamma (p b)) with hc
  have hc0 : 0 < c := by positivity
  have hlik : ∀ᵐ x ∂dirichletLaw B q, ENNReal.ofReal (dirRatio B p q x) = ENNReal.ofReal c * ENNReal.ofReal (lik x) := by
    filter_upwards [dirichlet_simplex hq hB] with x hx
    rw [← ENNReal.ofReal_mul hc0.le]
    congr 1
    have h4 : ∏ b ∈ range B, x b ^ (p b - 1) = (∏ b ∈ range B, x b ^ (q b - 1)) * ∏ b ∈ range B, x b ^ (p b - q b) := by
      rw [← prod_mul_distrib]
      refine prod_congr rfl fun b hb => ?_
      rw [← Real.rpow_add (hx.1 b (mem_range.1 hb))]; congr 1; ring
    have h5 : ∏ b ∈ range B, x b ^ (q b - 1) ≠ 0 := prod_ne_zero_iff.2 fun b hb => (Real.rpow_pos_of_pos (hx.1 b (mem_range.1 hb)) _).ne'
    have h6 : ∏ b ∈ range B, x b ^ (p b - q b) = lik x := by
      have := hl x hx.1
      rw [h4] at this
      exact mul_left_cancel₀ h5 this
    rw [dirRatio, prod_mul_distrib, h6, ← mul_assoc]
  have hcz : ENNReal.ofReal c ≠ 0 := by simpa using hc0
  have hct : ENNReal.ofReal c ≠ ⊤ := ENNReal.ofReal_ne_top
  have hL : (fun x => ENNReal.ofReal (lik x)) =ᵐ[dirichletLaw B q] fun x => (ENNReal.ofReal c)⁻¹ * ENNReal.ofReal (dirRatio B p q x) := by
    filter_upwards [hlik] with x hx
    rw [hx, ← mul_assoc, ENNReal.inv_mul_cancel hcz hct, one_mul]
  have hmd : Measurable fun x : ℕ → ℝ => ENNReal.ofReal (dirRatio B p q x) := by unfold dirRatio; fun_prop
  have hlaw := dirichlet_reshape hp hq hB
  have hmass : ∫⁻ x, ENNReal.ofReal (dirRatio B p q x) ∂dirichletLaw B q = 1 := by
    have := congrArg (fun μ => μ Set.univ) hlaw
    rw [withDensity_apply _ MeasurableSet.univ, Measure.restrict_univ, measure_univ] at this
    exact this.symm
  have hZ : ∫⁻ x, ENNReal.ofReal (lik x) ∂dirichletLaw B q = (ENNReal.ofReal c)⁻¹ := by
    rw [lintegral_congr_ae hL, lintegral_const_mul _ hmd, hmass, mul_one]
  refine ⟨by rw [hZ]; simpa using hct, by rw [hZ]; simpa using hc0, ?_⟩
  rw [hZ, inv_inv, withDensity_congr_ae hL]
  have : (fun x => (ENNReal.ofReal c)⁻¹ * ENNReal.ofReal (dirRatio B p q x)) = (ENNReal.ofReal c)⁻¹ • fun x => ENNReal.ofReal (dirRatio B p q x) := rfl
  rw [this, withDensity_smul _ hmd, smul_smul, ENNReal.mul_inv_cancel hcz hct, one_smul, ← hlaw]

/-- **the divergence of one Dirichlet distribution from another** in the closed form used for the bound -/
theorem dirichlet_klDiv (hp : ∀ b < B, 0 < p b) (hq : ∀ b < B, 0 < q b) (hB : 0 < B) :
    InformationTheory.klDiv (dirichletLaw B q) (dirichletLaw B p) = ENNReal.ofReal (klDirichlet B q p) := by
  have hPp := dirichlet_prob hp
  have hPq := dirichlet_prob hq
  have hmd : Measurable fun x : ℕ → ℝ => ENNReal.ofReal (dirRatio B q p x) := by unfold dirRatio; fun_prop
  have hlaw := dirichlet_reshape hq hp hB
  have hac : dirichletLaw B q ≪ dirichletLaw B p := by rw [hlaw]; exact withDensity_absolutelyContinuous _ _
  have hrn : (dirichletLaw B q).rnDeriv (dirichletLaw B p) =ᵐ[dirichletLaw B q] fun x => ENNReal.ofReal (dirRatio B q p x) := by
    have h := Measure.rnDeriv_withDensity (dirichletLaw B p) hmd
    rw [← hlaw] at h
    exact hac.ae_eq h
  have hllr : llr (dirichletLaw B q) (dirichletLaw B p) =ᵐ[dirichletLaw B q] fun x => (lnDirNorm B p - lnDirNorm B q) + ∑ b ∈ range B, (q b - p b) * Real.log (x b) := by
    filter_upwards [hrn, dirichlet_simplex hq hB] with x hx hpos
    rw [llr, hx, ENNReal.toReal_ofReal (dirRatio_pos hq hp hB hpos.1).le, dirRatio_eq hq hp hB hpos.1, Real.log_div (dirichlet_pos hB hq hpos.1).ne' (dirichlet_pos hB hp hpos.1).ne',
      log_dirichlet_norm hB hq hpos.1, log_dirichlet_norm hB hp hpos.1]
    have : ∑ b ∈ range B, (q b - p b) * Real.log (x b) = (∑ b ∈ range B, (q b - 1) * Real.log (x b)) - ∑ b ∈ range B, (p b - 1) * Real.log (x b) := by
      rw [← sum_sub_distrib]; exact sum_congr rfl fun b _ => by ring
    rw [this]; ring
  have hi : ∀ b ∈ range B, Integrable (fun x : ℕ → ℝ => (q b - p b) * Real.log (x b)) (dirichletLaw B q) := fun b hb =>
    (dirichlet_mean_log hq (mem_range.1 hb)).1.const_mul _
  have hint : Integrable (fun x : ℕ → ℝ => (lnDirNorm B p - lnDirNorm B q) + ∑ b ∈ range B, (q b - p b) * Real.log (x b)) (dirichletLaw B q) :=
    (integrable_const _).add (integrable_finsetSum _ hi)
  rw [InformationTheory.klDiv_of_ac_of_integrable hac (hint.congr hllr.symm), integral_congr_ae hllr, integral_add (integrable_const _) (integrable_finsetSum _ hi), integral_finsetSum _ hi]
  simp only [integral_const_mul, integral_const, probReal_univ, one_smul, add_sub_cancel_right]
  unfold klDirichlet
  congr 2
  exact sum_congr rfl fun b hb => by rw [(dirichlet_mean_log hq (mem_range.1 hb)).2]

end

/-! ### C22, C18 -/

/-- **C22 (m, distribution).** The class frequencies are drawn from their posterior distribution: the Dirichlet prior reweighted by the probability of the current labels. -/
theorem C22_block_weights_law (n : SBM) (hC : 0 < n.C) (hpi : ∀ b < n.C, 0 < n.pi b) (hc : ∀ k < n.K, n.c k < n.C) :
    IsPosteriorLaw (dirichletLaw n.C (sbmMArgs n)) (dirichletLaw n.C n.pi) (fun m => ∏ k ∈ range n.K, m (n.c k)) := by
  refine dirichlet_posterior (fun b hb => ?_) hpi hC fun x hx => C22_block_weights n hc x hx
  exact add_pos_of_pos_of_nonneg (hpi b hb) (sum_nonneg fun k _ => by split_ifs <;> norm_num)

example : IsPosteriorLaw (dirichletLaw 2 (sbmMArgs { twoBlocks with K := 3, c := fun k => k % 2 })) (dirichletLaw 2 fun _ => 1)
    (fun m => ∏ k ∈ range 3, m (k % 2)) :=
  C22_block_weights_law { twoBlocks with K := 3, c := fun k => k % 2 } (by norm_num [twoBlocks]) (fun b _ => by norm_num [twoBlocks]) fun k _ => Nat.mod_lt _ (by norm_num [twoBlocks])

/-- **C18 (distribution).** The impulse weights `g[k1,k2,:]` are drawn from their posterior distribution: the Dirichlet prior reweighted by the multinomial likelihood of the basis
assignments of all events on `k2` caused by `k1` in all data sets. -/
theorem C18_impulse_law (B : ℕ) (hB : 0 < B) (gamma : Vec ℝ) (hg : ∀ b < B, 0 < gamma b) (ds : List Assigned) (k1 k2 : ℕ)
    (hz : ∀ p ∈ ds, ∀ t c, p.1.S t k2 = 0 → p.2 t k2 c = 0) :
    IsPosteriorLaw (dirichletLaw B (impulseArgs B gamma (assignedData ds) k1 k2)) (dirichletLaw B gamma)
      (fun g => (ds.map fun p => ∏ t ∈ range p.1.T, ∏ b ∈ range B, g b ^ (p.2 t k2 (1 + k1 * B + b))).prod) := by
  refine dirichlet_posterior (fun b hb => ?_) hg hB fun x hx => C18_impulse_conditional B gamma ds k1 k2 hz x hx
  unfold impulseArgs
  refine add_pos_of_pos_of_nonneg (hg b hb) ?_
  rw [ssSum_eq]
  refine List.sum_nonneg fun x hx => ?_
  obtain ⟨d, _, rfl⟩ := List.mem_map.1 hx
  positivity

/-! ### C51 -/

/-- **C51 (Dirichlet expectations).** `expected_g`, `expected_log_g`, `expected_m` and `expected_log_m` are expectations under the variational Dirichlet distributions. -/
theorem C51_dirichlet_expectations (B : ℕ) (m : MFImp) (n : SBM) (i j : ℕ) (hm : ∀ b < B, 0 < m.mfGamma i j b) (hpi : ∀ c < n.C, 0 < n.mfPi c) :
    (∀ b < B, m.eG B i j b = ∫ g, g b ∂dirichletLaw B (m.mfGamma i j) ∧ m.eLnG B i j b = ∫ g, Real.log (g b) ∂dirichletLaw B (m.mfGamma i j)) ∧
    ∀ c < n.C, n.eM c = ∫ x, x c ∂dirichletLaw n.C n.mfPi ∧ n.eLnM c = ∫ x, Real.log (x c) ∂dirichletLaw n.C n.mfPi :=
  ⟨fun b hb => ⟨(dirichlet_mean hm hb).2.symm, (dirichlet_mean_log hm hb).2.symm⟩, fun c hc => ⟨(dirichlet_mean hpi hc).2.symm, (dirichlet_mean_log hpi hc).2.symm⟩⟩

example : MFImp.eG 2 ⟨fun _ => 1, fun _ _ b => b + 1⟩ 0 0 1 = ∫ g, g 1 ∂dirichletLaw 2 fun b => b + 1 :=
  ((C51_dirichlet_expectations 2 ⟨fun _ => 1, fun _ _ b => b + 1⟩ (exSBM true) 0 0 (fun b _ => by positivity) (exSBM_good true).mfPi).1 1 (by norm_num)).1

/-! ### C55, C57 -/

/-- **C55 (impulse responses, divergences).** The contribution of the impulse weights to the bound is minus the sum of the Kullback-Leibler divergences of the variational Dirichlet
distributions from the prior, plus `K²-1` times the prior's log normaliser. -/
theorem C55_impulse_divergence (K B : ℕ) (hB : 0 < B) (m : MFImp) (hg : ∀ b < B, 0 < m.gamma b) (hm : ∀ i < K, ∀ j < K, ∀ b < B, 0 < m.mfGamma i j b) :
    m.vlb K B = -(∑ i ∈ range K, ∑ j ∈ range K, (InformationTheory.klDiv (dirichletLaw B (m.mfGamma i j)) (dirichletLaw B m.gamma)).toReal)
      + (((K * K : ℕ) : ℝ) - 1) * lnDirNorm B m.gamma := by
  rw [C55_impulse_value]
  congr 2
  refine sum_congr rfl fun i hi => sum_congr rfl fun j hj => ?_
  have h := hm i (mem_range.1 hi) j (mem_range.1 hj)
  rw [dirichlet_klDiv hg h hB, ENNReal.toReal_ofReal (klDirichlet_nonneg hB h hg)]

/-- **C57 (Dirichlet negative entropy).** With default expectations the negative entropy of a Dirichlet distribution is its expected log density. -/
theorem C57_dirichlet_negentropy (n : ℕ) (hn : 0 < n) (g : Vec ℝ) (hg : ∀ b < n, 0 < g b) :
    dirNegent 1 1 n (fun _ => g) (fun _ => dirELog n g) = ∫ x, Real.log (dirichletPdf n g x) ∂dirichletLaw n g := by
  have hP := dirichlet_prob hg
  have e : (fun x => Real.log (dirichletPdf n g x)) =ᵐ[dirichletLaw n g] fun x => -lnDirNorm n g + ∑ b ∈ range n, (g b - 1) * Real.log (x b) := by
    filter_upwards [dirichlet_simplex hg hn] with x hx
    exact log_dirichlet_norm hn hg hx.1
  have hi : ∀ b ∈ range n, Integrable (fun x : ℕ → ℝ => (g b - 1) * Real.log (x b)) (dirichletLaw n g) := fun b hb => (dirichlet_mean_log hg (mem_range.1 hb)).1.const_mul _
  rw [integral_congr_ae e, integral_add (integrable_const _) (integrable_finsetSum _ hi), integral_finsetSum _ hi]
  simp only [integral_const_mul, integral_const, probReal_univ, one_smul]
  unfold dirNegent lnDirNorm
  simp only [sum_range_one, if_true]
  have : ∑ b ∈ range n, (g b - 1) * dirELog n g b = ∑ b ∈ range n, (g b - 1) * ∫ x, Real.log (x b) ∂dirichletLaw n g :=
    sum_congr rfl fun b hb => by rw [(dirichlet_mean_log hg (mem_range.1 hb)).2]; rfl
  rw [← this]
  simp only [gammaln]
  ring

example : dirNegent 1 1 3 (fun _ _ => 2) (fun _ => dirELog 3 fun _ => 2) = ∫ x, Real.log (dirichletPdf 3 (fun _ => 2) x) ∂dirichletLaw 3 fun _ => 2 :=
  C57_dirichlet_negentropy 3 (by norm_num) (fun _ => 2) fun _ _ => by norm_num

end PyHawkes
