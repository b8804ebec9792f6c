import Verif.Model.FromGibbs
import Verif.Props.VarHistory
import Verif.Props.MFSample

/-!
# C86: starting the mean-field weights from a Gibbs sample
-/

set_option linter.unusedSectionVars false
set_option linter.unusedVariables false

namespace PyHawkes
open Finset Spec MeasureTheory ProbabilityTheory

/-- **C86 (legal start).** With an adjacency matrix of zeros and ones, positive weights and a positive scale, the variational weights set by `initialize_from_gibbs` are a legal starting point whatever they were
before: mean-field inference never fails from there and every later state is valid (with the other variational parameters, the network and the data legal). -/
theorem C86_legal_start (V : MFModel) {A W : Mat ℝ} {scale : ℝ} (hs : 0 < scale) (hA : ∀ i < V.K, ∀ j < V.K, A i j = 0 ∨ A i j = 1) (hW : ∀ i < V.K, ∀ j < V.K, 0 < W i j)
    (hbias : 0 < V.bias.alpha ∧ 0 < V.bias.beta ∧ 0 ≤ V.bias.dt ∧ ∀ k < V.K, 0 < V.bias.mfAlpha k ∧ 0 < V.bias.mfBeta k)
    (himp : ∀ b < V.B, 0 < V.imp.gamma b ∧ ∀ i < V.K, ∀ j < V.K, 0 < V.imp.mfGamma i j b) (hw : 0 < V.w.kappa0 ∧ 0 < V.w.nu0)
    (hnet : NetGood V.K V.net) (hdata : V.data ≠ [] ∧ ∀ D ∈ V.data, 0 < D.T ∧ ∀ t k b, 0 ≤ D.F t k b) :
    MFGood { V with w := initFromGibbs A W scale V.w } ∧
    ∀ acts : List MFAct, (∀ a ∈ acts, a.Legal { V with w := initFromGibbs A W scale V.w }) →
      ∃ V', runActs acts { V with w := initFromGibbs A W scale V.w } = .ok V' ∧ MFValid { V with w := initFromGibbs A W scale V.w } V' := by
  have hgood : MFGood { V with w := initFromGibbs A W scale V.w } := by
    refine ⟨hbias, himp, hw, ?_, ?_, hnet, hdata⟩
    · intro i hi j hj
      exact ⟨hw.1, hw.2, mul_pos hs (hW i hi j hj), hs⟩
    · intro i hi j hj
      unfold initFromGibbs
      dsimp only
      rcases hA i hi j hj with h | h <;> rw [h] <;> norm_num
  exact ⟨hgood, fun acts hl => C50_valid_forever _ hgood acts hl⟩

/-- **C86 (what is recovered).** The expected edge indicator is 0.95 on the edges of the sample and 0.05 elsewhere, so thresholding at one half gives the sample's network back; the expected weight of a present edge is
the sample's weight; the expected weight of an absent edge is the prior mean of the spike, whatever the sample says. -/
theorem C86_means (w : MFWeights) {A W : Mat ℝ} {scale : ℝ} (hs : scale ≠ 0) (i j : ℕ) (hA : A i j = 0 ∨ A i j = 1) :
    (initFromGibbs A W scale w).mfP i j = (if A i j = 1 then 19 / 20 else 1 / 20) ∧
    ((initFromGibbs A W scale w).mfP i j > 1 / 2 ↔ A i j = 1) ∧
    (initFromGibbs A W scale w).eWGivenA 1 i j = W i j ∧
    (initFromGibbs A W scale w).eWGivenA 0 i j = w.kappa0 / w.nu0 := by
  unfold initFromGibbs MFWeights.eWGivenA
  dsimp only
  refine ⟨?_, ?_, ?_, ?_⟩
  · rcases hA with h | h <;> rw [h] <;> norm_num
  · rcases hA with h | h <;> rw [h] <;> norm_num
  · field_simp; ring
  · ring

/-- second moment of a gamma law -/
theorem gamma_second {a r : ℝ} (ha : 0 < a) (hr : 0 < r) :
    IntegrableOn (fun x => gammaPDFReal a r x * x ^ 2) (Set.Ioi 0) ∧ ∫ x in Set.Ioi 0, gammaPDFReal a r x * x ^ 2 = a * (a + 1) / r ^ 2 := by
  have hG := Real.Gamma_pos_of_pos ha
  obtain ⟨i1, v1⟩ := gamma_mean (a := a + 1) (r := r) (by linarith) hr
  have h : ∀ x ∈ Set.Ioi (0:ℝ), gammaPDFReal a r x * x ^ 2 = a / r * (gammaPDFReal (a + 1) r x * x) := by
    intro x hx
    have hx' : (0:ℝ) < x := hx
    simp only [gammaPDFReal, if_pos hx'.le]
    rw [Real.Gamma_add_one ha.ne', show a + 1 - 1 = (a - 1) + 1 by ring, Real.rpow_add_one hx'.ne', Real.rpow_add_one hr.ne']
    field_simp
  refine ⟨IntegrableOn.congr_fun (Integrable.const_mul i1 (a / r)) (fun x hx => (h x hx).symm) measurableSet_Ioi, ?_⟩
  rw [setIntegral_congr_fun measurableSet_Ioi h, integral_const_mul, v1]
  field_simp

/-- **C86 (spread).** Under the variational distribution of a present edge's weight the mean is the sample's weight and the mean squared deviation is the weight divided by `scale`: larger scales start closer. -/
theorem C86_spread (w : MFWeights) {A W : Mat ℝ} {scale : ℝ} (hs : 0 < scale) (i j : ℕ) (hW : 0 < W i j) :
    let w' := initFromGibbs A W scale w
    (∫ x in Set.Ioi 0, gammaPDFReal (w'.mfKappa1 i j) (w'.mfV1 i j) x * x = W i j) ∧
    ∫ x in Set.Ioi 0, gammaPDFReal (w'.mfKappa1 i j) (w'.mfV1 i j) x * (x - W i j) ^ 2 = W i j / scale := by
  dsimp only
  unfold initFromGibbs
  dsimp only
  have hk : 0 < scale * W i j := mul_pos hs hW
  obtain ⟨i1, v1⟩ := gamma_mean hk hs
  obtain ⟨i2, v2⟩ := gamma_second hk hs
  have i0 := gammaPDF_integrable hk hs
  have v0 := gammaPDF_integral hk hs
  refine ⟨by rw [v1]; field_simp, ?_⟩
  have j0 : IntegrableOn (fun x => W i j ^ 2 * gammaPDFReal (scale * W i j) scale x) (Set.Ioi 0) volume := i0.const_mul _
  have j1 : IntegrableOn (fun x => 2 * W i j * (gammaPDFReal (scale * W i j) scale x * x)) (Set.Ioi 0) volume := i1.const_mul _
  have j21 : IntegrableOn (fun x => gammaPDFReal (scale * W i j) scale x * x ^ 2 - 2 * W i j * (gammaPDFReal (scale * W i j) scale x * x)) (Set.Ioi 0) volume := i2.sub j1
  have h : ∀ x, gammaPDFReal (scale * W i j) scale x * (x - W i j) ^ 2
      = (gammaPDFReal (scale * W i j) scale x * x ^ 2 - 2 * W i j * (gammaPDFReal (scale * W i j) scale x * x)) + W i j ^ 2 * gammaPDFReal (scale * W i j) scale x := by
    intro x; ring
  simp only [h]
  rw [integral_add j21 j0, integral_sub i2 j1, integral_const_mul, integral_const_mul, v0, v1, v2]
  field_simp
  ring

/-- **C86 (drawing parameters).** The claim that a draw from the variational distribution draws the weights independently fails between `initialize_from_gibbs` and the next update: all absent edges get one and the same
weight, whatever the generator returns. -/
theorem C86_shared_spike_violated (K : ℕ) (d : MFDraws) (w : MFWeights) (A W A' W' : Mat ℝ) (scale : ℝ) (h : sampleAfterGibbs K d (initFromGibbs A W scale w) = .ok (A', W'))
    {i j k l : ℕ} (h1 : A' i j = 0) (h2 : A' k l = 0) : W' i j = W' k l := by
  unfold sampleAfterGibbs at h
  dsimp only at h
  split at h
  · split at h
    · obtain ⟨rfl, rfl⟩ := Prod.mk.inj (Except.ok.inj h)
      dsimp only at h1 h2 ⊢
      rw [h1, h2]
      ring
    · exact absurd h (by simp)
  · exact absurd h (by simp)

theorem sample_ok {K : ℕ} (d : MFDraws) (w : MFWeights) (h0 : ∀ i < K, ∀ j < K, (w.spikeArgs i j).accepted) (h1 : ∀ i < K, ∀ j < K, (w.slabArgs i j).accepted) :
    w.sample K d = .ok (fun i j => if d.u i j < w.mfP i j then 1 else 0, fun i j => (1 - (if d.u i j < w.mfP i j then 1 else 0)) * d.spike i j (w.spikeArgs i j)
      + (if d.u i j < w.mfP i j then 1 else 0) * d.slab i j (w.slabArgs i j)) := by
  unfold MFWeights.sample
  dsimp only
  rw [if_pos h0, if_pos h1]

theorem sampleAfterGibbs_ok {K : ℕ} (d : MFDraws) (w : MFWeights) (h0 : (w.spikeArgs 0 0).accepted) (h1 : ∀ i < K, ∀ j < K, (w.slabArgs i j).accepted) :
    sampleAfterGibbs K d w = .ok (fun i j => if d.u i j < w.mfP i j then 1 else 0, fun i j => (1 - (if d.u i j < w.mfP i j then 1 else 0)) * d.spike 0 0 (w.spikeArgs 0 0)
      + (if d.u i j < w.mfP i j then 1 else 0) * d.slab i j (w.slabArgs i j)) := by
  unfold sampleAfterGibbs
  dsimp only
  rw [if_pos h0, if_pos h1]

/-- the same call after any update, or before `initialize_from_gibbs`, draws them separately: here two absent edges get different weights -/
theorem C86_separate_otherwise : ∃ (d : MFDraws) (w : MFWeights) (A' W' : Mat ℝ), w.sample 2 d = .ok (A', W') ∧ A' 0 1 = 0 ∧ A' 1 0 = 0 ∧ W' 0 1 ≠ W' 1 0 := by
  refine ⟨{ demoMFDraws with u := fun _ _ => 1, spike := fun i _ _ => if i = 0 then 1 else 2 }, MFWeights.init 1 1 1 fun _ _ => 1, _, _,
    sample_ok _ _ (fun i _ j _ => by norm_num [GammaArgs.accepted, MFWeights.spikeArgs, MFWeights.init]) (fun i _ j _ => by norm_num [GammaArgs.accepted, MFWeights.slabArgs, MFWeights.init]), ?_, ?_, ?_⟩
  all_goals norm_num [MFWeights.init]

/-- a run in which the draw of `C86_shared_spike_violated` succeeds with two absent edges, with the same generator -/
theorem C86_shared_spike_occurs : ∃ (d : MFDraws) (w : MFWeights) (A W A' W' : Mat ℝ), sampleAfterGibbs 2 d (initFromGibbs A W 100 w) = .ok (A', W') ∧ A' 0 1 = 0 ∧ A' 1 0 = 0 ∧ W' 0 1 = 1 ∧ W' 1 0 = 1 := by
  refine ⟨{ demoMFDraws with u := fun _ _ => 1, spike := fun i _ _ => if i = 0 then 1 else 2 }, MFWeights.init 1 1 1 fun _ _ => 1, fun _ _ => 0, fun _ _ => 1, _, _,
    sampleAfterGibbs_ok _ _ (by norm_num [GammaArgs.accepted, MFWeights.spikeArgs, MFWeights.init, initFromGibbs]) (fun i _ j _ => by norm_num [GammaArgs.accepted, MFWeights.slabArgs, MFWeights.init, initFromGibbs]), ?_, ?_, ?_, ?_⟩
  all_goals norm_num [MFWeights.init, initFromGibbs]

example : MFGood { exMF false with w := initFromGibbs (fun _ _ => 1) (fun _ _ => 1 / 2) 100 (exMF false).w } :=
  (C86_legal_start (exMF false) (by norm_num) (fun _ _ _ _ => Or.inr rfl) (fun _ _ _ _ => by norm_num) (exMF_good false).bias (exMF_good false).imp (exMF_good false).w (exMF_good false).net (exMF_good false).data).1

end PyHawkes
