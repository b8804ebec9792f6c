import Verif.Props.InitStd
import Verif.Props.Converge
import Verif.Props.Average

/-!
# C65, C94: a spike-and-slab model started from a standard model
-/
set_option linter.unusedSectionVars false
set_option linter.unusedVariables false

namespace PyHawkes
open Finset Spec MeasureTheory ProbabilityTheory

/-- **C65 (spike and slab).** Under the conditions of `C65_valid_parameters`, for a model with valid hyperparameters, network and data that allows self connections: the spike-and-slab
`initialize_with_standard_model` succeeds for every outcome of the parent draws. The parameters are those set by the base class; they are valid; priors, network and the data stay as they were, and in every data set
the new parents account for every event exactly once. -/
theorem C65_spike_and_slab {M : StdModel} {s : HawkesState} {C : ℕ} {p : Mat ℝ} (hK : M.K = s.base.K) (hB : M.B = s.base.B) (hK0 : 0 < s.base.K) (hB0 : 0 < s.base.B)
    (hw : ∀ k < M.K, PosRow (1 + M.K * M.B) (M.weights k)) (hC : 0 < C) (hp : 0 ≤ meanEntry C p ∧ meanEntry C p ≤ 1) (hy : HyperOk s) (hn : NetOk s.base.K s.net)
    (hself : s.net.allowSelf = true) (hD : ∀ D ∈ s.data, DataOk s.base.K s.base.B D) (useGsl : Bool) (mult : ℕ → ℕ → ℕ → ℕ → Vec ℝ → Vec ℕ)
    (hm : ∀ i k j, MultinomialSampler (1 + s.base.K * s.base.B) (mult i k j)) :
    ∃ s0 s' M', initWithStandard true C p M s = .ok (s0, M') ∧ ssInitWithStandard true C p useGsl mult M s = .ok (s', M') ∧
      s' = { s0 with data := s'.data } ∧ s' = { s with base := { s.base with lam0 := s0.base.lam0, g := s0.base.g }, A := s0.A, W := s0.W, data := s'.data } ∧ HyperOk s' ∧ ParamsOk s' ∧
      List.Forall₂ (fun D D' => (D'.T = D.T ∧ D'.S = D.S ∧ D'.F = D.F) ∧ ParentsConsistent s.base.K s.base.B D') s.data s'.data := by
  obtain ⟨s0, M', h, hlam, hW, hg, ⟨thr, hA⟩, -, -, he⟩ := C65_valid_parameters hK hB hK0 hB0 hw hC hp
  have eK : s0.base.K = s.base.K := by rw [he]
  have eB : s0.base.B = s.base.B := by rw [he]
  have ed : s0.data = s.data := by rw [he]
  have en : s0.net = s.net := by rw [he]
  have hlam0 : ∀ k < s0.params.K, 0 < s0.params.lam0 k := by
    intro k hk
    have hk : k < s.base.K := eK ▸ hk
    show 0 < s0.base.lam0 k
    rw [hlam k hk]
    exact hw k (by omega) 0 (by omega)
  have hA01 : ∀ i < s.base.K, ∀ j < s.base.K, s0.A i j = 0 ∨ s0.A i j = 1 := by
    intro i hi j hj
    rw [hA i hi j hj]
    split
    · exact .inr rfl
    · exact .inl rfl
  have hWe : ∀ i < s0.params.K, ∀ j < s0.params.K, 0 ≤ s0.params.Weff i j := by
    intro i hi j hj
    have hi : i < s.base.K := eK ▸ hi
    have hj : j < s.base.K := eK ▸ hj
    change 0 ≤ s0.A i j * s0.W i j
    rcases hA01 i hi j hj with h | h <;> rw [h]
    · simp
    · rw [one_mul]; exact (hW i hi j hj).2.le
  have hKp : s0.params.K = s.base.K := eK
  have hBp : s0.params.B = s.base.B := eB
  obtain ⟨dl, hdl, hf⟩ := resampleDataList_ok s0.params useGsl hlam0 hWe
    (fun i hi j hj b hb => ((hg i (hKp ▸ hi) j (hKp ▸ hj)).1 b (hBp ▸ hb)).le) s0.data mult (by rw [hKp, hBp, ed]; exact hD) (by rw [hKp, hBp]; exact hm)
  rw [hKp, hBp, ed] at hf
  refine ⟨s0, { s0 with data := dl }, M', h, ?_, rfl, by conv_lhs => rw [he], ?_, ?_, hf.imp fun _ _ h => ⟨h.1, h.2.1⟩⟩
  · unfold ssInitWithStandard
    rw [h]
    dsimp only
    rw [hdl]
  · rw [he]
    exact ⟨hy.alpha, hy.beta, hy.gamma, hy.dt, hy.basis⟩
  · refine ⟨hlam0, fun i hi j hj => ?_, fun i hi j hj => (hW i (eK ▸ hi) j (eK ▸ hj)).2, fun i hi j hj => hA01 i (eK ▸ hi) j (eK ▸ hj), fun hs => ?_, ?_⟩
    · have hij := hg i (eK ▸ hi) j (eK ▸ hj)
      refine ⟨fun b hb => (hij.1 b (eB ▸ hb)).le, ?_⟩
      show ∑ b ∈ range s0.base.B, _ = _
      rw [eB]
      exact hij.2.1
    · have : s0.net.allowSelf = false := hs
      rw [en, hself] at this
      cases this
    · show NetOk s0.base.K s0.net
      rw [eK, en]
      exact hn

section
variable {U Ω : Type*} [MeasurableSpace U] [MeasurableSpace Ω] {μ : Measure U} {Pr : Measure Ω} (G : Generator μ) {c : HawkesState} {n : ERFixed}

/-- **C94 (started from a fitted standard model).** A spike-and-slab model with an `ErdosRenyiFixedSparsity` network that allows self connections, started with
`initialize_with_standard_model(M)` for a standard model `M` with positive weights, converges: the distribution of its parameters after `t` calls of `resample_model` tends to the posterior in total variation. -/
theorem C94_from_standard_model [IsProbabilityMeasure Pr] (h : CfgOk c n) (hF : FilteredFromEvents c.base.K c.base.B c.data) (hself : n.allowSelf = true) (hv : ScaleOk n (netScale c.net))
    (hc : SameModel c n c) {M : StdModel} {C : ℕ} {p : Mat ℝ} (hK : M.K = c.base.K) (hB : M.B = c.base.B) (hK0 : 0 < c.base.K)
    (hw : ∀ k < M.K, PosRow (1 + M.K * M.B) (M.weights k)) (hC : 0 < C) (hp : 0 ≤ meanEntry C p ∧ meanEntry C p ≤ 1) (hn : NetOk c.base.K c.net)
    (huge : ℝ) (d0 : Ω → StepDraws) (hd0 : ∀ ω, DrawsOk c.base.K c.base.B 1 (d0 ω)) (d : ℕ → Ω → StepDraws) (hd : ∀ t ω, DrawsOk c.base.K c.base.B 1 (d t ω))
    (s : ℕ → Ω → HawkesState) (M' : Ω → StdModel) (hs0 : ∀ ω, ssInitWithStandard true C p (d0 ω).useGsl (d0 ω).mult M c = .ok (s 0 ω, M' ω)) (x : ℕ → Ω → Site → U)
    (hrun : ∀ t ω s', resampleModelSS huge (G.draws c.base.K c.base.B (d t ω) (x t ω)) (s t ω) = .ok s' → s (t + 1) ω = s')
    (hx : ∀ t, FreshSeeds μ Pr (fun ω => (theta c.base.K (s 0 ω), fun i : Fin t => x i ω)) (x t)) :
    (∀ t ω, resampleModelSS huge (G.draws c.base.K c.base.B (d t ω) (x t ω)) (s t ω) = .ok (s (t + 1) ω)) ∧
      ConvergesTV (fun t => Pr.map fun ω => theta c.base.K (s t ω)) (posterior c n) := by
  have hcs : c.net.allowSelf = true := by
    rw [hc.net]; exact hself
  have key := fun ω => C65_spike_and_slab hK hB hK0 h.B hw hC hp h.hyper hn hcs h.data (d0 ω).useGsl (d0 ω).mult (hd0 ω).mult
  have hdata : c.data = c.data := rfl
  have hstart : ∀ ω, SameModel c n (s 0 ω) ∧ HyperOk (s 0 ω) ∧ ParamsOk (s 0 ω) ∧ ScaleOk n (netScale (s 0 ω).net) := by
    intro ω
    obtain ⟨s0, s', M1, -, h2, -, h4, h5, h6, h7⟩ := key ω
    rw [hs0 ω] at h2
    have e := (Prod.mk.inj (Except.ok.inj h2)).1
    rw [e]
    have en : s'.net = c.net := by rw [h4]
    refine ⟨⟨by rw [h4], by rw [h4], by rw [h4], by rw [h4], by rw [en]; exact hc.net, h7.imp fun _ _ h => h.1⟩, h5, h6, by rw [en]; exact hv⟩
  refine C94_converges G h hF huge d hd s hstart ?_ x hrun hx
  -- the parameters at the start do not depend on the parent draws
  have hconst : ∃ θ, ∀ ω, theta c.base.K (s 0 ω) = θ := by
    rcases isEmpty_or_nonempty Ω with hΩ | ⟨⟨ω0⟩⟩
    · exact ⟨theta c.base.K c, fun ω => hΩ.elim ω⟩
    · obtain ⟨s0, s', M1, h1, h2, h3, -⟩ := key ω0
      refine ⟨theta c.base.K s0, fun ω => ?_⟩
      obtain ⟨q0, q', M2, g1, g2, g3, -⟩ := key ω
      rw [h1] at g1
      have e0 := (Prod.mk.inj (Except.ok.inj g1)).1
      rw [hs0 ω] at g2
      have e := (Prod.mk.inj (Except.ok.inj g2)).1
      rw [e, g3, ← e0]
      rfl
  obtain ⟨θ, hθ⟩ := hconst
  rw [funext hθ]
  exact aemeasurable_const

end

/-- **Non-vacuity**: the model of C83 with two processes and three bins, started from a fitted standard model with weights 4, 5 on the diagonal and 1, 2 across. -/
theorem C94_demo_from_standard : ∃ (Ω : Type) (_ : MeasurableSpace Ω) (Pr : Measure Ω) (_ : IsProbabilityMeasure Pr) (G : Generator (volume : Measure unitInterval)) (s : ℕ → Ω → HawkesState)
    (x : ℕ → Ω → Site → unitInterval) (M' : StdModel), (∀ ω, ssInitWithStandard true 1 (fun _ _ => demoER.p) false demoDraws.mult selfStd demoChainModel = .ok (s 0 ω, M')) ∧
      (∀ t ω, resampleModelSS 1 (G.draws 2 1 demoDraws (x t ω)) (s t ω) = .ok (s (t + 1) ω)) ∧
      ConvergesTV (fun t => Pr.map fun ω => theta 2 (s t ω)) (posterior demoChainModel demoER) := by
  obtain ⟨h, hF⟩ := demoChain_ok
  have hp : 0 ≤ meanEntry 1 (fun _ _ => demoER.p) ∧ meanEntry 1 (fun _ _ => demoER.p) ≤ 1 := by
    constructor <;> norm_num [meanEntry, demoER]
  have hn : NetOk demoChainModel.base.K demoChainModel.net := h.net
  obtain ⟨s0, s', M', -, hs', -⟩ := C65_spike_and_slab (M := selfStd) (s := demoChainModel) (C := 1) (p := fun _ _ => demoER.p) rfl rfl Nat.two_pos Nat.one_pos selfStd_pos Nat.one_pos hp
    h.hyper hn rfl h.data false demoDraws.mult demoDraws_ok.mult
  obtain ⟨Ω, i1, Pr, i2, G, s, x, e0, hm, hrun, hx⟩ := C94_hypotheses_met h 1 demoDraws s'
  have hs0 : ∀ ω, ssInitWithStandard true 1 (fun _ _ => demoER.p) demoDraws.useGsl demoDraws.mult selfStd demoChainModel = .ok (s 0 ω, M') := fun ω => by rw [e0 ω]; exact hs'
  have key := C94_from_standard_model G h hF rfl (.inl rfl) ⟨rfl, rfl, rfl, rfl, rfl, List.forall₂_same.2 fun _ _ => ⟨rfl, rfl, rfl⟩⟩ (M := selfStd) (C := 1) (p := fun _ _ => demoER.p) rfl rfl Nat.two_pos
    selfStd_pos Nat.one_pos hp hn 1 (fun _ => demoDraws) (fun _ => demoDraws_ok) (fun _ _ => demoDraws) (fun _ _ => demoDraws_ok) s (fun _ => M') hs0 x hrun hx
  exact ⟨Ω, i1, Pr, i2, G, s, x, M', hs0, key.1, key.2⟩

end PyHawkes
