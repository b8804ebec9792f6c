import Verif.Props.UnitsGibbs
import Verif.Props.VLBAscent
import Verif.Model.ExpectedLL
import Verif.Props.EvidenceSim
import Verif.Lemmas.FXMonoid

/-!
# C108: the unit of time carries no meaning for the variational approximation, except for the reported bound
-/
set_option linter.unusedVariables false
set_option linter.unusedSectionVars false

namespace PyHawkes
open Finset Spec

variable {c : ℝ}

/-- positive rate parameters of the background rates, and a bin width that is not negative -/
structure UnitsPos (M : MFModel) : Prop where
  beta : 0 < M.bias.beta
  dt : 0 ≤ M.bias.dt
  mfBeta : ∀ k, 0 < M.bias.mfBeta k

/-- step sizes between 0 and 1 -/
def StepOk : MFAct → Prop
  | .coord => True
  | .sgd _ s => 0 ≤ s ∧ s ≤ 1

theorem units_eLnLam (hc : 0 < c) {M : MFModel} (h : UnitsPos M) (k : ℕ) : (rescaleMF c M).bias.eLnLam k = M.bias.eLnLam k - Real.log c := by
  unfold MFBias.eLnLam
  show psi (M.bias.mfAlpha k) - Real.log (c * M.bias.mfBeta k) = _
  rw [Real.log_mul hc.ne' (h.mfBeta k).ne']; ring

theorem units_eLam (M : MFModel) (k : ℕ) : (rescaleMF c M).bias.eLam k = M.bias.eLam k / c := by
  unfold MFBias.eLam
  show M.bias.mfAlpha k / (c * M.bias.mfBeta k) = _
  rw [div_div, mul_comm c]

theorem units_mfRow (hc : 0 < c) (K B : ℕ) (p0 : ℝ) (W : Vec ℝ) (G : Mat ℝ) (s : ℝ) (ft : Mat ℝ) : mfRowPy K B (p0 / c) W G s (fun k b => ft k b / c) = mfRowPy K B p0 W G s ft := by
  unfold mfRowPy
  dsimp only
  have hr : ∀ j, ravel B (fun k1 b => ft k1 b / c * W k1 * G k1 b) j = ravel B (fun k1 b => ft k1 b * W k1 * G k1 b) j / c := by
    intro j; unfold ravel; ring
  have hZ : p0 / c + ∑ j ∈ range (K * B), ravel B (fun k1 b => ft k1 b / c * W k1 * G k1 b) j = (p0 + ∑ j ∈ range (K * B), ravel B (fun k1 b => ft k1 b * W k1 * G k1 b) j) / c := by
    rw [add_div, sum_div]
    congr 1
    exact sum_congr rfl fun j _ => hr j
  rw [hZ, div_div_div_cancel_right₀ hc.ne']
  congr 1
  funext j
  rw [hr, div_div_div_cancel_right₀ hc.ne']

theorem units_mfParents (hc : 0 < c) {M : MFModel} (h : UnitsPos M) (D : DParents ℝ) : (rescaleMF c M).updateParents (rescaleData c D) = rescaleData c (M.updateParents D) := by
  have hp : ∀ k, Real.exp ((rescaleMF c M).bias.eLnLam k) = Real.exp (M.bias.eLnLam k) / c := by
    intro k
    rw [units_eLnLam hc h, Real.exp_sub, Real.exp_log hc]
  unfold MFModel.updateParents
  simp only [hp]
  unfold mfUpdateParents
  refine congrArg (fun Z => ({ rescaleData c D with EZ := some Z } : DParents ℝ)) ?_
  funext k2
  rw [units_zip, List.map_map]
  refine List.map_congr_left fun p _ => ?_
  exact units_mfRow hc _ _ _ _ _ _ _

theorem expSum_map (dl : List (DParents ℝ)) (g : DParents ℝ → DParents ℝ) (f : DParents ℝ → ℝ) : expSum (dl.map g) f = expSum dl fun d => f (g d) := by
  unfold expSum
  rw [List.foldl_map]

theorem expSum_units (dl : List (DParents ℝ)) (dt : ℝ) (k : ℕ) : expSum (dl.map (rescaleData c)) (fun d => bkgdSS1 d (c * dt) k) = c * expSum dl fun d => bkgdSS1 d dt k := by
  rw [expSum_map]
  have h := ssSum_mul dl (fun d => bkgdSS1 d dt k) c
  unfold ssSum at h
  rw [zero_add, zero_add] at h
  unfold expSum
  rw [← h]
  congr 1
  funext acc d
  show acc + (d.T : ℝ) * (c * dt) = acc + c * (d.T * dt)
  ring

theorem units_biasUpdate (hc : 0 < c) (M : MFModel) (dl : List (DParents ℝ)) (frac step : ℝ) :
    (rescaleMF c M).bias.update (dl.map (rescaleData c)) frac step = (rescaleMF c { M with bias := M.bias.update dl frac step }).bias := by
  unfold MFBias.update rescaleMF
  dsimp only
  simp only [expSum_units]
  refine congrArg₂ (fun a b => ({ alpha := M.bias.alpha, beta := c * M.bias.beta, dt := c * M.bias.dt, mfAlpha := a, mfBeta := b } : MFBias)) ?_ ?_
  · funext k
    rw [expSum_map]
    rfl
  · funext k
    ring

theorem units_impUpdate (M : MFModel) (dl : List (DParents ℝ)) (frac step : ℝ) : M.imp.update M.B (dl.map (rescaleData c)) frac step = M.imp.update M.B dl frac step := by
  unfold MFImp.update
  simp only [expSum_map]
  rfl

theorem units_wUpdate (M : MFModel) (dl : List (DParents ℝ)) (frac step : ℝ) : M.w.update M.K M.B M.net (dl.map (rescaleData c)) frac step = M.w.update M.K M.B M.net dl frac step := by
  have h : ∀ eV, M.w.updateKappaV M.B M.net.kappa eV (dl.map (rescaleData c)) frac step = M.w.updateKappaV M.B M.net.kappa eV dl frac step := by
    intro eV
    unfold MFWeights.updateKappaV
    simp only [expSum_map]
    rfl
  unfold MFWeights.update
  simp only [h]

theorem units_globals (hc : 0 < c) (M : MFModel) (dl : List (DParents ℝ)) (frac step : ℝ) (up : MFWeights → MFNet → Except PyErr MFNet) :
    (rescaleMF c M).updateGlobals (dl.map (rescaleData c)) frac step up = (M.updateGlobals dl frac step up).map (rescaleMF c) := by
  unfold MFModel.updateGlobals
  rw [units_biasUpdate hc, show (rescaleMF c M).imp = M.imp from rfl, show (rescaleMF c M).B = M.B from rfl, units_impUpdate, show (rescaleMF c M).w = M.w from rfl,
    show (rescaleMF c M).K = M.K from rfl, show (rescaleMF c M).net = M.net from rfl, units_wUpdate]
  simp only [List.map_eq_nil_iff]
  by_cases h : dl = []
  · rw [if_pos h, if_pos h]; rfl
  rw [if_neg h, if_neg h]
  cases M.w.update M.K M.B M.net dl frac step with
  | error e => rfl
  | ok w =>
    dsimp only
    cases up w M.net <;> rfl

theorem globals_units {M M' : MFModel} {dl : List (DParents ℝ)} {frac step : ℝ} {up : MFWeights → MFNet → Except PyErr MFNet} (h : UnitsPos M) (hf : 0 ≤ frac) (hs : 0 ≤ step ∧ step ≤ 1)
    (e : M.updateGlobals dl frac step up = .ok M') : UnitsPos M' := by
  have hb : M'.bias = M.bias.update dl frac step := by
    unfold MFModel.updateGlobals at e
    split_ifs at e
    dsimp only at e
    cases hw : M.w.update M.K M.B M.net dl frac step with
    | error _ => rw [hw] at e; cases e
    | ok w =>
      rw [hw] at e
      dsimp only at e
      cases hn : up w M.net with
      | error _ => rw [hn] at e; cases e
      | ok n => rw [hn] at e; obtain rfl := Except.ok.inj e; rfl
  refine ⟨by rw [hb]; exact h.beta, by rw [hb]; exact h.dt, fun k => ?_⟩
  rw [hb]
  show 0 < (1 - step) * M.bias.mfBeta k + step * (M.bias.beta + expSum dl (fun d => bkgdSS1 d M.bias.dt k) / frac)
  have h1 : 0 ≤ expSum dl (fun d => bkgdSS1 d M.bias.dt k) := by
    have := ssSum_nonneg dl (fun d => bkgdSS1 d M.bias.dt k) fun _ _ => mul_nonneg (Nat.cast_nonneg _) h.dt
    unfold ssSum at this
    rw [zero_add] at this
    exact this
  have h2 := div_nonneg h1 hf
  have h3 := h.mfBeta k
  have h4 := h.beta
  rcases hs.1.eq_or_lt with h5 | h5
  · rw [← h5]; linarith
  · have : 0 ≤ (1 - step) * M.bias.mfBeta k := mul_nonneg (by linarith [hs.2]) h3.le
    have : 0 < step * (M.bias.beta + expSum dl (fun d => bkgdSS1 d M.bias.dt k) / frac) := mul_pos h5 (by linarith)
    linarith

theorem units_act (hc : 0 < c) {M : MFModel} (h : UnitsPos M) {a : MFAct} (ha : StepOk a) :
    a.run (rescaleMF c M) = (a.run M).map (rescaleMF c) ∧ ∀ M', a.run M = .ok M' → UnitsPos M' := by
  cases a with
  | coord =>
    simp only [MFAct.run, MFModel.coordStep]
    have hd : (rescaleMF c M).data.map (rescaleMF c M).updateParents = (M.data.map M.updateParents).map (rescaleData c) := by
      show (M.data.map (rescaleData c)).map (rescaleMF c M).updateParents = _
      rw [List.map_map, List.map_map]
      exact List.map_congr_left fun D _ => units_mfParents hc h D
    rw [hd, units_globals hc]
    cases e : M.updateGlobals (M.data.map M.updateParents) 1 1 MFNet.meanfieldupdate with
    | error _ => exact ⟨rfl, fun _ h => by cases h⟩
    | ok M1 =>
      refine ⟨rfl, fun _ h' => ?_⟩
      obtain rfl := Except.ok.inj h'
      have := globals_units h zero_le_one ⟨zero_le_one, le_rfl⟩ e
      exact ⟨this.beta, this.dt, this.mfBeta⟩
  | sgd mb s =>
    simp only [MFAct.run, MFModel.sgdStep]
    have hd : (rescaleMF c M).data = M.data.map (rescaleData c) := rfl
    rw [hd]
    rcases M.data with _ | ⟨D, _ | ⟨D', l⟩⟩
    · exact ⟨rfl, fun _ h => by cases h⟩
    · simp only [List.map_cons, List.map_nil]
      rw [show (rescaleMF c M).sgdOffset = M.sgdOffset from rfl, show (rescaleData c D).T = D.T from rfl]
      rw [show sliceData (rescaleData c D).S (rescaleData c D).F (sgdWindow D.T mb M.sgdOffset).1 (sgdWindow D.T mb M.sgdOffset).2
        = rescaleData c (sliceData D.S D.F (sgdWindow D.T mb M.sgdOffset).1 (sgdWindow D.T mb M.sgdOffset).2) from rfl, units_mfParents hc h]
      have hfr : (0 : ℝ) ≤ ((sliceData D.S D.F (sgdWindow D.T mb M.sgdOffset).1 (sgdWindow D.T mb M.sgdOffset).2).T : ℝ) / D.T := by positivity
      rw [show (rescaleData c (sliceData D.S D.F (sgdWindow D.T mb M.sgdOffset).1 (sgdWindow D.T mb M.sgdOffset).2)).T
        = (sliceData D.S D.F (sgdWindow D.T mb M.sgdOffset).1 (sgdWindow D.T mb M.sgdOffset).2).T from rfl]
      generalize M.updateParents (sliceData D.S D.F (sgdWindow D.T mb M.sgdOffset).1 (sgdWindow D.T mb M.sgdOffset).2) = p
      revert hfr
      generalize ((sliceData D.S D.F (sgdWindow D.T mb M.sgdOffset).1 (sgdWindow D.T mb M.sgdOffset).2).T : ℝ) / D.T = fr
      intro hfr
      have hg := units_globals hc M [p] fr s (fun w => MFNet.sgdstep w s)
      simp only [List.map_cons, List.map_nil] at hg
      rw [hg]
      cases e : M.updateGlobals [p] fr s (fun w => MFNet.sgdstep w s) with
      | error _ => exact ⟨rfl, fun _ h => by cases h⟩
      | ok M1 =>
        refine ⟨rfl, fun _ h' => ?_⟩
        obtain rfl := Except.ok.inj h'
        have := globals_units h hfr ha e
        exact ⟨this.beta, this.dt, this.mfBeta⟩
    · exact ⟨rfl, fun _ h => by cases h⟩

/-- C108: any sequence of coordinate and stochastic steps leads to the same variational approximation, expressed in the other unit: same edge probabilities, weight factors,
impulse factors, network factors and expected parents; errors are the same too -/
theorem C108_meanfield (hc : 0 < c) (M : MFModel) (h : UnitsPos M) (acts : List MFAct) (ha : ∀ a ∈ acts, StepOk a) :
    runActs acts (rescaleMF c M) = (runActs acts M).map (rescaleMF c) := by
  induction acts generalizing M with
  | nil => rfl
  | cons a as ih =>
    obtain ⟨h1, h2⟩ := units_act hc h (ha a List.mem_cons_self)
    simp only [runActs, h1]
    cases e : a.run M with
    | error _ => rfl
    | ok M1 => exact ih M1 (h2 M1 e) fun a' h' => ha a' (List.mem_cons_of_mem _ h')

/-! ### the reported bound -/

theorem units_biasVlb (hc : 0 < c) {M : MFModel} (h : UnitsPos M) : (rescaleMF c M).bias.vlb M.K = M.bias.vlb M.K := by
  unfold MFBias.vlb
  dsimp only
  rw [zero_add, zero_add, ← sum_sub_distrib, ← sum_sub_distrib]
  refine sum_congr rfl fun k _ => ?_
  rw [units_eLnLam hc h, units_eLam]
  show gammaNegent M.bias.alpha (c * M.bias.beta) (Real.log (c * M.bias.beta)) _ _ - gammaNegentDefault (M.bias.mfAlpha k) (c * M.bias.mfBeta k) = _
  unfold gammaNegentDefault gammaNegent
  rw [Real.log_mul hc.ne' h.beta.ne', Real.log_mul hc.ne' (h.mfBeta k).ne']
  have h1 := (h.mfBeta k).ne'
  have h2 := hc.ne'
  field_simp
  ring

theorem silent_ts {D : DParents ℝ} {k : ℕ} (h : ∀ t < D.T, D.S t k = 0) : D.ts k = [] := by
  unfold DParents.ts
  rw [List.filter_eq_nil_iff]
  intro t ht
  simp [h t (List.mem_range.1 ht)]

theorem silent_parents {M : MFModel} {D : DParents ℝ} (h : ∀ t < D.T, ∀ k < M.K, D.S t k = 0) : M.parentsVlb D = FX.fin (-((D.T : ℝ) * ∑ k ∈ range M.K, M.bias.eLam k)) := by
  have hN : ∀ k < M.K, D.Ns k = 0 := fun k hk => by unfold DParents.Ns; rw [silent_ts fun t ht => h t ht k hk]; rfl
  have hk : ∀ k < M.K, mfVlbFX M.K M.B k D.T M.bias.eLnLam M.bias.eLam (M.w.eLnW M.net.allowSelf) (M.w.eW M.net.allowSelf) (M.imp.eLnG M.B) D.Ns ((D.getEZ k).zip ((D.Ss k).zip (D.Fs k)))
      = FX.fin (-((D.T : ℝ) * M.bias.eLam k)) := by
    intro k hk
    have hs : D.Ss k = [] := by unfold DParents.Ss; rw [silent_ts fun t ht => h t ht k hk]; rfl
    rw [hs]
    unfold mfVlbFX
    dsimp only
    rw [List.zip_nil_left, List.zip_nil_right, List.map_nil, forRange_add]
    rw [sum_eq_zero fun i hi => by rw [hN i (mem_range.1 hi)]; simp]
    show FX.fin _ + FX.fin 0 = _
    show FX.fin _ = FX.fin _
    refine congrArg FX.fin ?_
    ring
  unfold MFModel.parentsVlb
  rw [List.map_congr_left fun k hk' => hk k (List.mem_range.1 hk'), sum_map_range_fin, mul_sum, sum_neg_distrib]

/-- C108: the bound reported by `get_vlb` does depend on the unit. For recordings in which nothing happened the density of the data has no unit (`N = 0`), so the bound should not
change; it changes by `(1 - 1/c)` times the number of bins times the sum of the expected background rates, because the code leaves out the bin width. -/
theorem C108_bound_violated (hc : 0 < c) (huge : ℝ) (M : MFModel) (h : UnitsPos M) (hsil : ∀ D ∈ M.data, ∀ t < D.T, ∀ k < M.K, D.S t k = 0) :
    (rescaleMF c M).vlb huge = (M.vlb huge).map fun v => v + FX.fin ((1 - 1 / c) * (((M.data.map fun D => (D.T : ℝ)).sum) * ∑ k ∈ range M.K, M.bias.eLam k)) := by
  have hP : (rescaleMF c M).data.map (rescaleMF c M).parentsVlb
      = M.data.map fun D => M.parentsVlb D + FX.fin ((D.T : ℝ) * ((1 - 1 / c) * ∑ k ∈ range M.K, M.bias.eLam k)) := by
    show (M.data.map (rescaleData c)).map (rescaleMF c M).parentsVlb = _
    rw [List.map_map]
    refine List.map_congr_left fun D hD => ?_
    show (rescaleMF c M).parentsVlb (rescaleData c D) = _
    rw [silent_parents (hsil D hD), silent_parents (M := rescaleMF c M) (D := rescaleData c D) (hsil D hD)]
    show _ = FX.fin _
    refine congrArg FX.fin ?_
    simp only [units_eLam]
    show -((D.T : ℝ) * ∑ k ∈ range M.K, M.bias.eLam k / c) = _
    rw [← sum_div]
    ring
  have hs : FX.sum ((rescaleMF c M).data.map (rescaleMF c M).parentsVlb)
      = FX.sum (M.data.map M.parentsVlb) + FX.fin ((1 - 1 / c) * (((M.data.map fun D => (D.T : ℝ)).sum) * ∑ k ∈ range M.K, M.bias.eLam k)) := by
    rw [hP, FX.sum_eq, FX.sum_eq, FX.sum_shift, List.sum_map_mul_right]
    congr 2
    ring
  unfold MFModel.vlb
  dsimp only
  rw [hs, show (rescaleMF c M).bias.vlb (rescaleMF c M).K = M.bias.vlb M.K from units_biasVlb hc h, show (rescaleMF c M).imp = M.imp from rfl, show (rescaleMF c M).K = M.K from rfl,
    show (rescaleMF c M).B = M.B from rfl, show (rescaleMF c M).net = M.net from rfl, show (rescaleMF c M).w = M.w from rfl]
  generalize FX.fin ((1 - 1 / c) * (((M.data.map fun D => (D.T : ℝ)).sum) * ∑ k ∈ range M.K, M.bias.eLam k)) = δ
  cases M.net.eV with
  | error e => rfl
  | ok eV =>
    dsimp only
    cases M.net.eLnV with
    | error e => rfl
    | ok eLnV =>
      dsimp only
      cases M.net.vlb huge with
      | error e => rfl
      | ok x =>
        refine congrArg Except.ok ?_
        dsimp only
        abel

/-- the two-process model of C103 on a recording of three bins without events -/
noncomputable def evSilent : MFModel := { evDemo with data := [{ T := 3, S := fun _ _ => 0, F := fun _ _ _ => 0 }] }

/-- non-vacuity: for this model the reported bound is a finite number in both units, and the two numbers differ by 5.994, although nothing but the unit has changed -/
theorem C108_bound_demo (huge : ℝ) : UnitsPos evSilent ∧
    ∃ x, evSilent.vlb huge = .ok (.fin x) ∧ (rescaleMF 1000 evSilent).vlb huge = .ok (.fin (x + 5994 / 1000)) := by
  have hp : UnitsPos evSilent := ⟨one_pos, zero_le_one, fun _ => one_pos⟩
  refine ⟨hp, ?_⟩
  have g : MFGood evSilent := { evDemo_good with data := ⟨by simp [evSilent], fun D hD => by
    rw [List.mem_singleton.1 hD]
    exact ⟨by norm_num, fun _ _ _ => le_rfl⟩⟩ }
  obtain ⟨M, x, e, hx⟩ := C56_bound_finite_partial huge evSilent g (fun i _ j _ => by
      rw [show ERFixed.P { demoER with mf := some (2, 3) } i j = demoER.P i j from rfl, evDemo_P]; norm_num) (fun n => MFNet.noConfusion) (fun D hD => by
      rw [List.mem_singleton.1 hD]
      exact ⟨rfl, fun _ _ => by norm_num⟩) [] (fun a ha => by cases ha)
  obtain rfl : evSilent = M := Except.ok.inj e
  refine ⟨x, hx, ?_⟩
  rw [C108_bound_violated (c := 1000) (by norm_num) huge evSilent hp fun D hD t _ k _ => by rw [List.mem_singleton.1 hD], hx]
  have e : (1 - 1 / (1000 : ℝ)) * (((evSilent.data.map fun D => (D.T : ℝ)).sum) * ∑ k ∈ range evSilent.K, evSilent.bias.eLam k) = 5994 / 1000 := by
    norm_num [evSilent, evDemo, MFBias.eLam, Finset.sum_range_succ]
  rw [e]
  rfl

/-- non-vacuity: the two-process model of C24 with a history that adds a recording with events in two minibatches and then resamples twice, in milliseconds instead of seconds -/
theorem C108_gibbs_demo (huge : ℝ) : ∃ s0, newModelSS demoModel demoDraws = .ok s0 ∧
    let ops := [Op.addData { T := 3, KS := 2, isInt := true, S := fun t k => if t = k then 2 else 0, F := none, minibatch := some 2 }, .resample demoDraws, .resample demoDraws]
    runSS huge (ops.map (rescaleOp 1000)) (rescaleState 1000 s0) = rescaleState 1000 (runSS huge ops s0) := by
  refine ⟨_, rfl, ?_⟩
  intro ops
  refine (C108_gibbs_spike_and_slab (c := 1000) (by norm_num) huge demoModel demoDraws _ ops rfl demoDraws_ok ⟨one_pos, by norm_num [demoModel]⟩ (fun _ _ => one_pos) one_pos ?_
    ⟨rfl, by norm_num, by norm_num, by norm_num, by simp⟩ ?_).2
  · intro l _ b _
    simp only [demoModel]
    split_ifs <;> norm_num
  · intro op hop
    simp only [ops, List.mem_cons, List.not_mem_nil, or_false] at hop
    rcases hop with rfl | rfl | rfl
    · refine ⟨fun t _ k _ => ?_, fun _ _ _ _ h => by cases h⟩
      dsimp only
      split_ifs <;> norm_num
    · exact demoDraws_ok
    · exact demoDraws_ok

/-- non-vacuity: coordinate and stochastic steps on the two-process model with events -/
theorem C108_meanfield_demo (mb : ℕ) : runActs [.coord, .sgd mb (1 / 2), .coord] (rescaleMF 1000 evDemo) = (runActs [.coord, .sgd mb (1 / 2), .coord] evDemo).map (rescaleMF 1000) := by
  refine C108_meanfield (by norm_num) evDemo ⟨one_pos, zero_le_one, fun _ => one_pos⟩ _ fun a ha => ?_
  simp only [List.mem_cons, List.not_mem_nil, or_false] at ha
  rcases ha with rfl | rfl | rfl
  · trivial
  · exact ⟨by norm_num, by norm_num⟩
  · trivial

end PyHawkes
