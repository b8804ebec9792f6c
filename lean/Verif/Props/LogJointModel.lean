import Verif.Props.LogJoint
import Verif.Props.Sampler
import Verif.Props.CTSampler

/-! # C81: `log_prior()` and `log_probability()` of the models -/
set_option linter.unusedSectionVars false
set_option linter.unusedVariables false

namespace PyHawkes
open Finset ProbabilityTheory Spec

theorem fxSum2_congr {K : ℕ} {f g : ℕ → ℕ → FX} (h : ∀ i < K, ∀ j < K, f i j = g i j) : fxSum2 K f = fxSum2 K g := by
  unfold fxSum2
  congr 1
  refine List.map_congr_left fun i hi => ?_
  congr 1
  exact List.map_congr_left fun j hj => h i (List.mem_range.1 hi) j (List.mem_range.1 hj)

theorem netKappa_pos {K : ℕ} {n : Net} (h : NetOk K n) : 0 < n.kappa := by
  cases n with
  | sbm n => exact (SbmOk.hyper h).2.2.2.2.1
  | sbmFixed n => exact (SbmOk.hyper h).2.2.2.2.1
  | er n => exact ErOk.kappa h

/-- **C81 (spike-and-slab model, partial: only the weights' prior is reported, and link probabilities must not be 1 or tiny).** In every state reached from the constructor by `add_data`
and `resample_model` calls in which the allowed edges have probabilities in `[1e-32, 1)`, `log_probability()` is the log likelihood of the data plus `log_prior()`, and `log_prior()` is
the log density of the adjacency matrix and the weights of present edges given the network, up to `2e-32` per forbidden edge. -/
theorem C81_sampled_model_partial (huge : ℝ) (a : ModelArgs) (d0 : StepDraws) (s0 : HawkesState) (ops : List Op) (hs : newModelSS a d0 = .ok s0)
    (hd : DrawsOk a.K a.B (blocks a.net) d0) (ha : 0 < a.alpha ∧ 0 < a.beta) (hg : ∀ b < a.B, 0 < a.gamma b) (hdt : 0 < a.dt)
    (hb : ∀ l < a.L, ∀ b < a.B, 0 ≤ a.basis l b) (hn : NetOk a.K a.net) (hops : ∀ op ∈ ops, OpOk a.K a.B (blocks a.net) op) :
    let s := runSS huge ops s0
    let density := edgesDensity a.K fun i j => slabDensity (s.net.P i j) s.net.kappa (s.net.V i j) (decide (s.A i j = 1)) (s.W i j)
    (∀ i < a.K, ∀ j < a.K, (i = j ∧ s.net.allowSelf = false) ∨ (1e-32 ≤ s.net.P i j ∧ s.net.P i j < 1)) →
    ∃ l, logPriorSS huge s = FX.fin l ∧ logProbSS huge s = FX.fin (llModel s.params s.data + l) ∧ l ≤ Real.log density ∧ Real.log density - l ≤ a.K ^ 2 * 2e-32 := by
  intro s density hP
  obtain ⟨hK, hp, -, -, -⟩ := C24_sampler_state_valid huge a d0 s0 ops hs hd ha hg hdt hb hn hops
  have hK' : s.base.K = a.K := hK
  have hnet : NetOk a.K s.net := by rw [← hK']; exact hp.net
  obtain ⟨l, h1, h2, h3⟩ := C81_spike_slab_partial huge (K := a.K) (kappa := s.net.kappa) (P := s.net.P) (V := s.net.V) (W := s.W) (A := fun i j => decide (s.A i j = 1))
    (netKappa_pos hnet) (netV_pos hnet) (fun i hi j hj => hp.W i (by rw [← hK] at hi; exact hi) j (by rw [← hK] at hj; exact hj)) (by
      intro i hi j hj
      rcases hP i hi j hj with ⟨rfl, h⟩ | h
      · left
        refine ⟨netP_self h i, ?_⟩
        have := hp.self h i (by rw [← hK] at hi; exact hi)
        have : s.A i i = 0 := this
        simp [this]
      · exact Or.inr h)
  have hA : ∀ i < a.K, ∀ j < a.K, s.A i j = bit (decide (s.A i j = 1)) := by
    intro i hi j hj
    have := hp.A i (by rw [← hK] at hi; exact hi) j (by rw [← hK] at hj; exact hj)
    change s.A i j = 0 ∨ s.A i j = 1 at this
    rcases this with h | h <;> simp [h, bit]
  have he : ssLogLik huge s.base.K s.net.kappa s.net.P s.net.V s.A s.W = FX.fin l := by
    rw [← h1, hK']
    unfold ssLogLik
    dsimp only
    rw [fxSum2_congr (K := a.K) (f := fun i j => FX.fin (s.A i j) * FX.log (clipRho (s.net.P i j)) + FX.fin (1 - s.A i j) * FX.log (1 - clipRho (s.net.P i j)))
      (g := fun i j => FX.fin (bit (decide (s.A i j = 1))) * FX.log (clipRho (s.net.P i j)) + FX.fin (1 - bit (decide (s.A i j = 1))) * FX.log (1 - clipRho (s.net.P i j)))
      (fun i hi j hj => by rw [← hA i hi j hj]), fxSum2_congr (K := a.K) (f := fun i j => FX.fin (s.A i j) * lpGamma s.net.kappa (s.net.V i j) (s.W i j))
      (g := fun i j => FX.fin (bit (decide (s.A i j = 1))) * lpGamma s.net.kappa (s.net.V i j) (s.W i j)) (fun i hi j hj => by rw [← hA i hi j hj])]
  refine ⟨l, ?_, ?_, h2, h3.trans ?_⟩
  · unfold logPriorSS
    rw [he]; simp
  · unfold logProbSS logPriorSS
    rw [he]; simp
  · calc ∑ i ∈ range a.K, ∑ j ∈ range a.K, (if s.net.P i j = 0 then (2e-32:ℝ) else 0) ≤ ∑ i ∈ range a.K, ∑ j ∈ range a.K, (2e-32:ℝ) :=
          sum_le_sum fun i _ => sum_le_sum fun j _ => by split_ifs <;> norm_num
      _ = a.K ^ 2 * 2e-32 := by simp only [sum_const, card_range, nsmul_eq_mul]; ring

/-- the demo model of `Props/Sampler` (two processes, no self connections, edge probability 1/2) after any number of iterations -/
example (n : ℕ) : ∃ s0 l, newModelSS demoModel demoDraws = .ok s0 ∧ logPriorSS 1 (runSS 1 ((List.replicate n ()).map fun _ => Op.resample demoDraws) s0) = FX.fin l := by
  have hnet : ∀ (ops : List Unit) (s : HawkesState), s.net = demoModel.net → (runSS 1 (ops.map fun _ => Op.resample demoDraws) s).net = demoModel.net := by
    intro ops
    induction ops with
    | nil => intro s h; exact h
    | cons x ops ih =>
      intro s h
      simp only [List.map_cons, runSS]
      refine ih _ ?_
      split
      · rename_i s' hs'
        unfold resampleModelSS at hs'
        split at hs'
        · cases hs'
        · cases hs'
          simp only [resampleASS, resampleWSS, resampleNet, resampleImpulse, resampleBias, h]
          rfl
      · exact h
  obtain ⟨l, hl, -⟩ := C81_sampled_model_partial 1 demoModel demoDraws _ ((List.replicate n ()).map fun _ => Op.resample demoDraws) rfl demoDraws_ok (by norm_num [demoModel])
    (by norm_num [demoModel]) (by norm_num [demoModel]) (by intro l _ b _; dsimp only [demoModel]; split_ifs <;> norm_num)
    ⟨rfl, by norm_num, by norm_num, by norm_num, by simp⟩ (by
      intro op hop
      obtain ⟨_, -, rfl⟩ := List.mem_map.1 hop
      exact demoDraws_ok) (by
      intro i _ j _
      rw [hnet _ _ rfl]
      by_cases h : i = j
      · exact Or.inl ⟨h, rfl⟩
      · right
        simp only [demoModel, Net.P, ERFixed.P, h, and_false, if_false]
        norm_num)
  exact ⟨_, l, rfl, hl⟩

/-- **C81 (gamma-mixture model, partial: only the weights' prior is reported, self connections allowed and no certain edge).** In every state reached from the constructor in which all link
probabilities lie strictly between 0 and 1, `log_probability()` is the log likelihood plus the log density of adjacency and weights given the network. -/
theorem C81_sampled_mixture_partial (huge kappa0 nu0 : ℝ) (hk0 : 0 < kappa0) (hn0 : 0 < nu0) (a : ModelArgs) (d0 : StepDraws) (s0 : HawkesState) (ops : List (Op × Bool))
    (hs : newModelMix kappa0 nu0 a d0 = .ok s0) (hd : DrawsOk a.K a.B (blocks a.net) d0) (ha : 0 < a.alpha ∧ 0 < a.beta) (hg : ∀ b < a.B, 0 < a.gamma b)
    (hdt : 0 < a.dt) (hb : ∀ l < a.L, ∀ b < a.B, 0 ≤ a.basis l b) (hn : NetOk a.K a.net) (hops : ∀ op ∈ ops, OpOk a.K a.B (blocks a.net) op.1) :
    let s := runMix huge kappa0 nu0 ops s0
    let density := edgesDensity a.K fun i j => mixDensity (s.net.P i j) kappa0 nu0 s.net.kappa (s.net.V i j) (decide (s.A i j = 1)) (s.W i j)
    (∀ i < a.K, ∀ j < a.K, 0 < s.net.P i j ∧ s.net.P i j < 1) →
    logPriorMix kappa0 nu0 s = FX.fin (Real.log density) ∧ logProbMix kappa0 nu0 s = FX.fin (llModel s.paramsMix s.data + Real.log density) := by
  intro s density hP
  obtain ⟨hp, hK, -, -⟩ := C66_mixture_state_valid huge kappa0 nu0 a d0 s0 ops hs hd ha hg hdt hb hn hops
  have hK' : s.base.K = a.K := hK
  have hnet : NetOk a.K s.net := by rw [← hK']; exact hp.net
  have hW : ∀ i < a.K, ∀ j < a.K, 0 < s.W i j := fun i hi j hj =>
    lt_of_lt_of_le (by norm_num) (hp.W i (by rw [← hK] at hi; exact hi) j (by rw [← hK] at hj; exact hj))
  have h1 := C81_mixture_partial (K := a.K) (kappa0 := kappa0) (nu0 := nu0) (kappa := s.net.kappa) (P := s.net.P) (V := s.net.V) (W := s.W)
    (A := fun i j => decide (s.A i j = 1)) hk0 hn0 (netKappa_pos hnet) (netV_pos hnet) hW hP
  have hA : ∀ i < a.K, ∀ j < a.K, bit (decide (s.A i j = 1)) = s.A i j := by
    intro i hi j hj
    have := hp.A i (by rw [← hK] at hi; exact hi) j (by rw [← hK] at hj; exact hj)
    change s.A i j = 0 ∨ s.A i j = 1 at this
    rcases this with h | h <;> simp [h, bit]
  have he : mixLogLik s.base.K kappa0 nu0 s.net.kappa s.net.P s.net.V s.A s.W = FX.fin (Real.log density) := by
    rw [← h1, hK']
    unfold mixLogLik
    dsimp only
    congr 1
    · congr 1
      · exact fxSum2_congr fun i hi j hj => by simp only [hA i hi j hj]
      · exact fxSum2_congr fun i hi j hj => by simp only [hA i hi j hj]
    · exact fxSum2_congr fun i hi j hj => by simp only [hA i hi j hj]
  constructor
  · unfold logPriorMix
    rw [he]; simp
  · unfold logProbMix logPriorMix
    rw [he]; simp

/-- **C81 (joint probability of the discrete models, violated).** `log_probability()`, documented as the joint log probability of data and parameters, ignores the priors of the background
rates and of the impulse responses: without data, replacing them by anything else does not change it, although the prior densities differ. -/
theorem C81_joint_violated (huge kappa0 nu0 : ℝ) (s : HawkesState) (hdata : s.data = []) (lam0 : Vec ℝ) (g : Ten ℝ) :
    logProbSS huge { s with base := { s.base with lam0 := lam0, g := g } } = logProbSS huge s ∧
    logProbMix kappa0 nu0 { s with base := { s.base with lam0 := lam0, g := g } } = logProbMix kappa0 nu0 s ∧
    biasDensity 1 1 1 (fun _ => 1) ≠ biasDensity 1 1 1 (fun _ => 2) := by
  refine ⟨?_, ?_, ?_⟩
  · unfold logProbSS logPriorSS
    simp only [hdata, llModel, List.foldl_nil]
  · unfold logProbMix logPriorMix
    simp only [hdata, llModel, List.foldl_nil]
  · simp only [biasDensity, range_one, prod_singleton, gammaPDFReal]
    norm_num

/-- **C81 (continuous-time model, partial: only the prior of the background rates is reported).** In every state reached from the constructor, `log_probability()` is the log likelihood of the data
plus the log density of the background rates under their gamma prior. -/
theorem C81_continuous_partial (huge : ℝ) (K : ℕ) (dtMax alpha beta : ℝ) (nig : NigArgs) (net : Net) (d0 : CTDraws) (s0 : CTState) (ops : List CTOp)
    (hs : newCTModel K dtMax alpha beta nig net d0 = .ok s0) (hd : CTDrawsOk K (blocks net) d0) (hdt : 0 < dtMax) (ha : 0 < alpha) (hb : 0 < beta) (hn : NigOk nig)
    (hnet : NetOk K net) (hops : ∀ op ∈ ops, CTOpOk K (blocks net) op) :
    let s := ctRun huge ops s0
    ctLogProb s = FX.fin (ctLogLik s.P s.data + Real.log (biasDensity K s.alpha s.beta s.P.lam0)) := by
  intro s
  obtain ⟨hy, hp, hdata, hK, hdM, hnt⟩ := C69_new_model_valid K dtMax alpha beta nig net d0 s0 hs hd hdt ha hb hn hnet
  have h0 : CTLifeOk K (blocks net) dtMax net.allowSelf s0 := ⟨hy, hp, ⟨hK, hdM, by rw [hnt], by rw [hnt]⟩, by rw [hdata]; intro D hD; cases hD⟩
  have h := ct_life_run huge ops h0 hops
  have hK' : s.P.K = K := h.sizes.1
  unfold ctLogProb ctLogPrior
  rw [C81_bias h.hyper.alpha h.hyper.beta h.params.lam0]
  simp only [FX.fin_add]
  rw [← hK']
  simp [s]

/-- **C81 (joint probability of the continuous-time model, violated).** `log_probability()` ignores the priors of the weights, of the adjacency matrix and of the impulse responses: without data,
replacing them by anything else does not change it. -/
theorem C81_continuous_violated (s : CTState) (hdata : s.data = []) (W A mu tau : Mat ℝ) (net : Net) :
    ctLogProb { s with P := { s.P with W := W, A := A, mu := mu, tau := tau }, net := net } = ctLogProb s ∧
    edgesDensity 1 (fun _ _ => slabDensity (1 / 2) 1 1 true 1) ≠ edgesDensity 1 (fun _ _ => slabDensity (1 / 2) 1 1 true 2) := by
  refine ⟨?_, ?_⟩
  · unfold ctLogProb ctLogPrior
    simp only [hdata, ctLogLik, List.foldl_nil]
  · simp only [edgesDensity, range_one, prod_singleton, slabDensity, gammaPDFReal]
    norm_num

end PyHawkes
