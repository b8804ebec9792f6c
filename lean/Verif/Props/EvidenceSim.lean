import Verif.Props.EvidenceBugs
import Verif.Props.SimulateBayes
import Verif.Props.SimulateDemo

/-!
# C103: `get_vlb()` and the probability that the model generates exactly the observed counts
-/
set_option linter.unusedSectionVars false
set_option linter.unusedVariables false

namespace PyHawkes
open Finset Spec MeasureTheory ProbabilityTheory

section
variable {U Ω : Type*} [MeasurableSpace U] [MeasurableSpace Ω] {μ : Measure U} {Pr : Measure Ω} (Ps : PoissonSampler μ) {c : HawkesState}

/-- one data set: the training likelihood never exceeds the probability of the counts, late events or not -/
theorem data_prob_ge {P : NetParams ℝ} (h : UnitSim P) (hp : RateOk P) {D : DParents ℝ} (hs : StoredOk P D) (h32 : ∀ t < D.T, ∀ k < P.K, D.S t k < 2 ^ 32) :
    Real.exp (llData P D) * countConst P.dt D.T P.K D.S ≤ countProb P D.T D.S := by
  obtain ⟨r', hr'⟩ := (C05_compute_rate_ok_iff P D.T P.K (fun t k => (D.S t k : ℝ)) h.L h.B).2 ⟨hs.T, h.K, rfl⟩
  have hv : heldoutLL P D.T D.S = .ok (poissonLL P.dt D.T P.K D.S r') := by unfold heldoutLL; rw [hr']
  have e := (C09_training_le_heldout P D.T D.S D.F _ h.dt hs.F h32 h.basis h.area hp.W (fun i hi j hj => (hp.g i hi j hj).1) (fun i hi j hj => (hp.g i hi j hj).2) hp.lam hv).1
  have e2 : llData P D = llData P { T := D.T, S := D.S, F := D.F } := by rw [llData_eq_sum, llData_eq_sum]
  rw [countProb_heldout h.toSimOk hp hs.T D.S hv, e2]
  refine mul_le_mul_of_nonneg_right (Real.exp_le_exp.2 e) ?_
  unfold countConst
  have := h.dt
  exact prod_nonneg fun t _ => prod_nonneg fun k _ => by positivity

/-- the evidence, times the combinatorial factor of the counts, is at most the probability of simulating exactly these counts from the prior -/
theorem evidence_le_prob [IsProbabilityMeasure Pr] {n : ERFixed} {κ0 ν0 : ℝ} (h : CfgOk c n) (hu : UnitSim c.base) (hst : ∀ D ∈ c.data, StoredOk c.base D)
    {θ : Ω → Theta c.base.K} (hθ : HasLaw θ (priorMix κ0 ν0 c n) Pr) {x : Ω → ℕ × ℕ × ℕ → U} (hx : FreshSim μ Pr θ x) :
    ENNReal.ofReal (∏ i : Fin c.data.length, countConst c.base.dt c.data[i].T c.base.K c.data[i].S) * ∫⁻ θ, likelihoodMix c θ ∂priorMix κ0 ν0 c n
      ≤ Pr {ω | Observed Ps c (parMix c (θ ω)) (x ω)} := by
  have hval : ∀ᵐ t ∂priorMix κ0 ν0 c n, RateOk (parMix c t) := by
    filter_upwards [priorMix_valid h] with t ht
    exact rateOk_of (fun e => by rw [one_mul]; exact (ht.W e).le) ht.lam ht.g
  have hm : ∀ F t k, Measurable fun θ : Theta c.base.K => rate c.base.K c.base.B (parMix c θ).lam0 (parMix c θ).Weff (parMix c θ).g F t k := fun F t k =>
    (measurable_rateParams c F t k).comp (f := fun θ : Theta c.base.K => ((fun _ => 1), θ.2.2.1, θ.2.2.2.1, θ.2.2.2.2)) (by fun_prop)
  have hsim : ∀ t, UnitSim (parMix c t) := fun _ => unitSim_of hu _ _ _ _
  have hcc : ∀ i : Fin c.data.length, 0 ≤ countConst c.base.dt c.data[i].T c.base.K c.data[i].S := fun i => by
    have := hu.dt
    unfold countConst
    exact prod_nonneg fun t _ => prod_nonneg fun k _ => by positivity
  have tot := joint_prob Ps (par := parMix c) (fun _ => ⟨rfl, rfl, rfl, rfl, rfl⟩) hm (fun t => (hsim t).toSimOk) hval (fun D hD => (hst D hD).T) hθ hx MeasurableSet.univ
  rw [Measure.restrict_univ] at tot
  simp only [Set.mem_univ, true_and] at tot
  rw [tot, ← lintegral_const_mul _ (measurable_likelihoodMix h.data)]
  refine lintegral_mono_ae ?_
  filter_upwards [hval] with t ht
  have hlik : likelihoodMix c t = ENNReal.ofReal (Real.exp (llModel (parMix c t) c.data)) := rfl
  rw [hlik, ← ENNReal.ofReal_mul (prod_nonneg fun i _ => hcc i), C08_model_sum, ← Fin.sum_univ_fun_getElem c.data (llData (parMix c t)), Real.exp_sum, ← prod_mul_distrib]
  refine ENNReal.ofReal_le_ofReal (prod_le_prod (fun i _ => mul_nonneg (hcc i) (Real.exp_pos _).le) fun i _ => ?_)
  have hD : c.data[i] ∈ c.data := List.getElem_mem _
  rw [mul_comm]
  exact data_prob_ge (hsim t) ht (D := c.data[i]) ⟨(hst _ hD).T, (hst _ hD).F⟩ (fun t ht k hk => (h.data _ hD).2 t ht k hk)

/-- **C103 (partial).** In terms of the generative model: draw the parameters from the prior of the gamma-mixture model and simulate the recordings with `generate`. After every history of `meanfield_coordinate_descent_step` and
`sgd_step` calls with a coordinate step, `get_vlb()` plus the logarithm of the combinatorial factor of the counts (bin width to the power of the count over its factorial, which the code's likelihoods leave out) is at most
the log probability that the simulated counts equal the observed ones, plus the correction for the Dirichlet normaliser and the allowance for the guards. -/
theorem C103_simulated_data_partial [IsProbabilityMeasure Pr] (huge : ℝ) {M0 : MFModel} {n : ERFixed} (g : MFGood M0) (sh : SharedSettings M0 c n) (h : CfgOk c n) (hu : UnitSim c.base)
    (hst : ∀ D ∈ c.data, StoredOk c.base D) (hdt : c.base.dt ≤ 1) (hp : ∀ i < c.base.K, ∀ j < c.base.K, 0 < n.P i j ∧ n.P i j < 1)
    (hobs : List.Forall₂ SameObs M0.data c.data) (hd : ∀ D ∈ M0.data, D.EZ = none ∧ ∀ t k, D.S t k < 2 ^ 32)
    {θ : Ω → Theta c.base.K} (hθ : HasLaw θ (priorMix M0.w.kappa0 M0.w.nu0 c n) Pr) {x : Ω → ℕ × ℕ × ℕ → U} (hx : FreshSim μ Pr θ x)
    (acts : List MFAct) (hl : ∀ a ∈ acts, a.Legal M0) (hc : .coord ∈ acts) :
    ∃ M v, runActs acts M0 = .ok M ∧ M.vlb huge = .ok (.fin v) ∧ 0 < Pr.real {ω | Observed Ps c (parMix c (θ ω)) (x ω)} ∧
      v + Real.log (∏ i : Fin c.data.length, countConst c.base.dt c.data[i].T c.base.K c.data[i].S)
        ≤ Real.log (Pr.real {ω | Observed Ps c (parMix c (θ ω)) (x ω)}) + (((c.base.K * c.base.K : ℕ) : ℝ) - 1) * lnDirNorm c.base.B c.gamma + guardSlack c.base.K c.base.B M.data := by
  obtain ⟨h0, h1, -⟩ := C85_posterior_proper g.w.1 g.w.2 h (stored_filtered hst)
  obtain ⟨M, v, e, hv, hle⟩ := C103_lower_bound_partial huge g (by rw [sh.K]; exact hu.K) sh h (stored_filtered hst) hdt hp hobs hd acts hl hc
  have hcc : ∀ i : Fin c.data.length, 0 < countConst c.base.dt c.data[i].T c.base.K c.data[i].S := fun i => by
    have := hu.dt
    unfold countConst
    exact prod_pos fun t _ => prod_pos fun k _ => by positivity
  have hC : 0 < ∏ i : Fin c.data.length, countConst c.base.dt c.data[i].T c.base.K c.data[i].S := prod_pos fun i _ => hcc i
  have key := ENNReal.toReal_mono (measure_ne_top Pr _) (evidence_le_prob Ps (κ0 := M0.w.kappa0) (ν0 := M0.w.nu0) h hu hst hθ hx)
  rw [ENNReal.toReal_mul, ENNReal.toReal_ofReal hC.le] at key
  have hE := ENNReal.toReal_pos h0 h1
  have hlog := Real.log_le_log (mul_pos hC hE) key
  rw [Real.log_mul hC.ne' hE.ne'] at hlog
  refine ⟨M, v, e, hv, lt_of_lt_of_le (mul_pos hC hE) key, ?_⟩
  unfold logEvidence at hle
  show _ ≤ Real.log (Pr {ω | Observed Ps c (parMix c (θ ω)) (x ω)}).toReal + _ + _
  linarith

end

/-! ### a concrete model -/

/-- a variational state for `demoChainModel`: two processes, one event each way, one basis function, learned weight scale -/
noncomputable def evDemo : MFModel :=
  { K := 2, B := 1, bias := { alpha := 1, beta := 1, dt := 1, mfAlpha := fun _ => 1, mfBeta := fun _ => 1 },
    imp := { gamma := fun _ => 1, mfGamma := fun _ _ _ => 1 }, w := MFWeights.init 1 1 1 (fun _ _ => 1), net := .er { demoER with mf := some (2, 3) },
    data := [{ T := 3, S := fun t k => if t = k then 1 else 0, F := fun t k _ => if k < t then 1 else 0 }], sgdOffset := none }

theorem evDemo_P (i j : ℕ) : demoER.P i j = 1 / 2 := by simp [demoER, ERFixed.P]

theorem evDemo_good : MFGood evDemo where
  bias := ⟨one_pos, one_pos, zero_le_one, fun _ _ => ⟨one_pos, one_pos⟩⟩
  imp := fun _ _ => ⟨one_pos, fun _ _ _ _ => one_pos⟩
  w := ⟨one_pos, one_pos⟩
  wmf := fun _ _ _ _ => by simp [evDemo, MFWeights.init]
  p := fun _ _ _ _ => by norm_num [evDemo, MFWeights.init]
  net := ⟨rfl, one_pos, fun i _ j _ => by rw [show ERFixed.P { demoER with mf := some (2, 3) } i j = demoER.P i j from rfl, evDemo_P]; norm_num, 2, 3, 2, 3, rfl, rfl, rfl, by norm_num, by norm_num, by norm_num,
    by norm_num⟩
  data := ⟨by simp [evDemo], fun D hD => by
    rw [List.mem_singleton.1 hD]
    exact ⟨by norm_num, fun t k b => by dsimp only; split_ifs <;> norm_num⟩⟩

theorem evDemo_shared : SharedSettings evDemo demoChainModel demoER :=
  ⟨rfl, rfl, rfl, rfl, rfl, _, rfl, rfl, rfl, 2, 3, 2, 3, rfl, rfl, rfl, rfl, rfl, by norm_num, by norm_num, by norm_num, by norm_num⟩

/-- the hypotheses of `C103_lower_bound_partial` and `C103_uniform_bound_partial` are met by a concrete model and history; with one basis function the correction term is 0 -/
theorem C103_demo_partial (huge : ℝ) : ∃ M x, runActs [.coord, .sgd 1 (1 / 2), .coord] evDemo = .ok M ∧ M.vlb huge = .ok (.fin x) ∧ x ≤ logEvidence 1 1 demoChainModel demoER + guardSlack 2 1 M.data ∧
    AllActive 2 demoChainModel.data := by
  have hp : ∀ i < demoChainModel.base.K, ∀ j < demoChainModel.base.K, 0 < demoER.P i j ∧ demoER.P i j < 1 := fun i _ j _ => by rw [evDemo_P]; norm_num
  have hl : ∀ a ∈ [MFAct.coord, .sgd 1 (1 / 2), .coord], a.Legal evDemo := by
    intro a ha
    simp only [List.mem_cons, List.not_mem_nil, or_false] at ha
    rcases ha with rfl | rfl | rfl
    · trivial
    · exact ⟨one_pos, by norm_num, by norm_num, fun h => by norm_num at h, rfl⟩
    · trivial
  obtain ⟨M, x, e, hx, hle⟩ := C103_lower_bound_partial huge evDemo_good Nat.two_pos evDemo_shared demoChain_ok.1 demoChain_ok.2 le_rfl hp (List.forall₂_same.2 fun _ _ => ⟨rfl, rfl, rfl⟩)
    (fun D hD => by
      rw [List.mem_singleton.1 hD]
      exact ⟨rfl, fun t k => by dsimp only; split_ifs <;> norm_num⟩) _ hl (by simp)
  refine ⟨M, x, e, hx, ?_, fun k hk => ⟨_, List.mem_singleton.2 rfl, k, by change k < 3; omega, by dsimp only; rw [if_pos rfl]; exact one_ne_zero⟩⟩
  have : lnDirNorm demoChainModel.base.B demoChainModel.gamma = 0 := by simp [lnDirNorm, demoChainModel]
  rw [this, mul_zero, add_zero] at hle
  exact hle

/-- the same state with the data of `simModel 3`, as stored by `add_data` -/
noncomputable def evSim : MFModel := { evDemo with data := (simModel 3).data }

theorem simF_nonneg (t k b : ℕ) : 0 ≤ (match convolve 3 2 2 1 simBase.basis (fun t k => (firstEvent t k : ℝ)) with | .ok F => F | .error _ => fun _ _ _ => 0) t k b := by
  have hb : (∀ l < 2, ∀ b < 1, 0 ≤ simBase.basis l b) ∧ (∀ t < 3, ∀ k < 2, (0:ℝ) ≤ (firstEvent t k : ℝ)) := ⟨simBase_ok.1.basis, fun _ _ _ _ => Nat.cast_nonneg _⟩
  have hc : ∀ (F : Ten ℝ) t k b, 0 ≤ clipLow F t k b := fun F t k b => by unfold clipLow; positivity
  have : convolve 3 2 2 1 simBase.basis (fun t k => (firstEvent t k : ℝ)) = .ok (clipLow (convRaw 3 2 simBase.basis (fun t k => (firstEvent t k : ℝ)))) := by
    unfold convolve
    rw [if_neg (by decide), if_neg (by decide)]
    dsimp only
    rw [if_pos hb, if_pos fun t _ k _ b _ => hc _ t k b]
  rw [this]
  exact hc _ t k b

/-- the hypotheses of `C103_simulated_data_partial` are met: a probability space with a draw from the prior and fresh seeds exists, and the bound holds there for a concrete model and history -/
example (huge : ℝ) : ∃ (Ω : Type) (_ : MeasurableSpace Ω) (Pr : Measure Ω) (_ : IsProbabilityMeasure Pr) (Ps : PoissonSampler (volume : Measure unitInterval)) (θ : Ω → Theta 2) (x : Ω → ℕ × ℕ × ℕ → unitInterval) (M : MFModel) (v : ℝ),
    HasLaw θ (priorMix 1 1 (simModel 3) demoER) Pr ∧ runActs [.coord, .sgd 1 (1 / 2), .coord] evSim = .ok M ∧ M.vlb huge = .ok (.fin v) ∧
      v + Real.log (∏ i : Fin (simModel 3).data.length, countConst 1 (simModel 3).data[i].T 2 (simModel 3).data[i].S)
        ≤ Real.log (Pr.real {ω | Observed Ps (simModel 3) (parMix (simModel 3) (θ ω)) (x ω)}) + (((2 * 2 : ℕ) : ℝ) - 1) * lnDirNorm 1 (simModel 3).gamma + guardSlack 2 1 M.data := by
  have hcfg : CfgOk (simModel 3) demoER := simCfg (by decide)
  have := priorMix_prob one_pos one_pos hcfg
  obtain ⟨Ps⟩ := C90_sampler_exists
  obtain ⟨Ω, i1, Pr, i2, θ, x, -, h2, h3⟩ := fresh_chain (S := ℕ × ℕ × ℕ) (priorMix 1 1 (simModel 3) demoER) measurableSet_thetaOk (priorMix_valid hcfg)
  obtain ⟨a, b, d⟩ := h3 0
  have g : MFGood evSim := { evDemo_good with data := ⟨by simp [evSim, simModel], fun D hD => by
    rw [List.mem_singleton.1 hD]
    exact ⟨by norm_num, simF_nonneg⟩⟩ }
  have sh : SharedSettings evSim (simModel 3) demoER := ⟨rfl, rfl, rfl, rfl, rfl, evDemo_shared.net⟩
  have hl : ∀ a ∈ [MFAct.coord, .sgd 1 (1 / 2), .coord], a.Legal evSim := by
    intro a ha
    simp only [List.mem_cons, List.not_mem_nil, or_false] at ha
    rcases ha with rfl | rfl | rfl
    · trivial
    · exact ⟨one_pos, by norm_num, by norm_num, fun h => by norm_num at h, rfl⟩
    · trivial
  obtain ⟨M, v, e, hv, -, hle⟩ := C103_simulated_data_partial Ps huge g sh hcfg simBase_ok.1 (simStored (by decide)) le_rfl (fun i _ j _ => by rw [evDemo_P]; norm_num)
    (List.forall₂_same.2 fun _ _ => ⟨rfl, rfl, rfl⟩)
    (fun D hD => by
      rw [List.mem_singleton.1 hD]
      exact ⟨rfl, fun t k => by dsimp only [firstEvent]; split_ifs <;> norm_num⟩) h2 ⟨a, b, d.comp (φ := Prod.fst) (ψ := id) measurable_fst measurable_id⟩ _ hl (by simp)
  exact ⟨Ω, i1, Pr, i2, Ps, θ, x 0, M, v, h2, e, hv, hle⟩

end PyHawkes
