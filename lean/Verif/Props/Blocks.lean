import Verif.Spec.Blocks
import Verif.Props.RelabelRate
import Verif.Props.LogJoint

/-!
# C107: the numbering of the blocks carries no meaning
-/
set_option linter.unusedSectionVars false
set_option linter.unusedVariables false

namespace PyHawkes
open Finset Spec

section
variable {τ : Equiv.Perm ℕ}

/-! ### what the network says about pairs of processes -/

theorem renumber_P (n : SBM) : (renumberBlocks τ n).P = n.P := by
  funext i j
  simp only [SBM.P, renumberBlocks, Equiv.apply_symm_apply]

theorem renumber_V (n : SBM) : (renumberBlocks τ n).V = n.V := by
  funext i j
  simp only [SBM.V, renumberBlocks, Equiv.apply_symm_apply]

theorem renumber_mix {n : SBM} (hτ : PermutesProcesses n.C τ) (f : Mat ℝ) : (renumberBlocks τ n).mix (fun a b => f (τ a) (τ b)) = n.mix f := by
  funext i j
  exact perm_sum2 hτ fun a b => n.mfM i a * n.mfM j b * f a b

theorem renumber_mean {n : SBM} (hτ : PermutesProcesses n.C τ) (i j : ℕ) :
    ∑ c1 ∈ range n.C, ∑ c2 ∈ range n.C, n.mfM i (τ c1) * n.mfM j (τ c2) * n.mfAlpha (τ c1) (τ c2) / n.mfBeta (τ c1) (τ c2)
      = ∑ c1 ∈ range n.C, ∑ c2 ∈ range n.C, n.mfM i c1 * n.mfM j c2 * n.mfAlpha c1 c2 / n.mfBeta c1 c2 :=
  perm_sum2 hτ fun a b => n.mfM i a * n.mfM j b * n.mfAlpha a b / n.mfBeta a b

theorem renumber_eP {n : SBM} (hτ : PermutesProcesses n.C τ) : (renumberBlocks τ n).eP = n.eP := by
  funext i j
  unfold SBM.eP
  rw [renumber_P]
  have := perm_sum2 hτ fun a b => n.mfM i a * n.mfM j b * n.mfTau1 a b / (n.mfTau0 a b + n.mfTau1 a b)
  exact if_congr Iff.rfl rfl (if_congr Iff.rfl rfl this)

theorem renumber_eLnP {N : MFNet} (hτ : PermutesProcesses (blocksOf N) τ) : (renumberMFNet τ N).eLnP = N.eLnP ∧ (renumberMFNet τ N).eLnNotP = N.eLnNotP := by
  cases N with
  | sbm n =>
    refine ⟨?_, ?_⟩ <;> funext i j <;> simp only [renumberMFNet, MFNet.eLnP, MFNet.eLnNotP, renumber_P]
    · rw [show (renumberBlocks τ n).mix (renumberBlocks τ n).blkLnP = n.mix n.blkLnP from renumber_mix hτ n.blkLnP]; rfl
    · rw [show (renumberBlocks τ n).mix (renumberBlocks τ n).blkLnNotP = n.mix n.blkLnNotP from renumber_mix hτ n.blkLnNotP]; rfl
  | fixedSparsity n =>
    refine ⟨?_, ?_⟩ <;> funext i j <;> simp only [renumberMFNet, MFNet.eLnP, MFNet.eLnNotP, renumber_P] <;> rfl
  | er n => exact ⟨rfl, rfl⟩

theorem renumber_eV {N : MFNet} (hτ : PermutesProcesses (blocksOf N) τ) : (renumberMFNet τ N).eV = N.eV ∧ (renumberMFNet τ N).eLnV = N.eLnV := by
  cases N with
  | er n => exact ⟨rfl, rfl⟩
  | sbm n =>
    refine ⟨congrArg Except.ok (funext fun i => funext fun j => ?_), congrArg Except.ok (funext fun i => funext fun j => ?_)⟩
    · rw [renumber_V]; exact if_congr Iff.rfl rfl (renumber_mean hτ i j)
    · rw [renumber_V, show (renumberBlocks τ n).mix (renumberBlocks τ n).blkLnV = n.mix n.blkLnV from renumber_mix hτ n.blkLnV]; rfl
  | fixedSparsity n =>
    refine ⟨congrArg Except.ok (funext fun i => funext fun j => ?_), congrArg Except.ok (funext fun i => funext fun j => ?_)⟩
    · rw [renumber_V]; exact if_congr Iff.rfl rfl (renumber_mean hτ i j)
    · rw [renumber_V, show (renumberBlocks τ n).mix (renumberBlocks τ n).blkLnV = n.mix n.blkLnV from renumber_mix hτ n.blkLnV]; rfl

theorem renumber_kappa (N : MFNet) : (renumberMFNet τ N).kappa = N.kappa ∧ (renumberMFNet τ N).allowSelf = N.allowSelf := by cases N <;> exact ⟨rfl, rfl⟩

/-! ### mean-field updates of the network -/

theorem renumber_eLnM {n : SBM} (hτ : PermutesProcesses n.C τ) (c : ℕ) : (renumberBlocks τ n).eLnM c = n.eLnM (τ c) := by
  unfold SBM.eLnM
  show psi (n.mfPi (τ c)) - psi (∑ c ∈ range n.C, n.mfPi (τ c)) = _
  rw [perm_sum hτ fun c => n.mfPi c]

theorem renumber_mfLp {n : SBM} (hτ : PermutesProcesses n.C τ) (EA EW ELW : Mat ℝ) (k ck : ℕ) : (renumberBlocks τ n).mfLp EA EW ELW k ck = n.mfLp EA EW ELW k (τ ck) := by
  have avg : ∀ (f : ℕ → ℝ) (j : ℕ), ∑ c ∈ range n.C, n.mfM j (τ c) * f (τ c) = ∑ c ∈ range n.C, n.mfM j c * f c := fun f j => perm_sum hτ fun c => n.mfM j c * f c
  unfold SBM.mfLp
  rw [renumber_eLnM hτ]
  simp only [renumberBlocks, SBM.blkLnP, SBM.blkLnNotP, SBM.blkLnV, SBM.blkV]
  simp only [avg fun c => psi (n.mfTau1 (τ ck) c) - psi (n.mfTau0 (τ ck) c + n.mfTau1 (τ ck) c), avg fun c => psi (n.mfTau0 (τ ck) c) - psi (n.mfTau0 (τ ck) c + n.mfTau1 (τ ck) c),
    avg fun c => psi (n.mfTau1 c (τ ck)) - psi (n.mfTau0 c (τ ck) + n.mfTau1 c (τ ck)), avg fun c => psi (n.mfTau0 c (τ ck)) - psi (n.mfTau0 c (τ ck) + n.mfTau1 c (τ ck)),
    avg fun c => n.mfAlpha (τ ck) c / n.mfBeta (τ ck) c, avg fun c => n.mfAlpha c (τ ck) / n.mfBeta c (τ ck),
    avg fun c => psi (n.mfAlpha (τ ck) c) - Real.log (n.mfBeta (τ ck) c), avg fun c => psi (n.mfAlpha c (τ ck)) - Real.log (n.mfBeta c (τ ck))]

theorem renumber_C1 {n : SBM} (hτ : PermutesProcesses n.C τ) (EA EW ELW : Mat ℝ) (s : ℝ) (k : ℕ) :
    (renumberBlocks τ n).mfUpdateC1 EA EW ELW s k = renumberBlocks τ (n.mfUpdateC1 EA EW ELW s k) := by
  have e : (renumberBlocks τ n).mfLp EA EW ELW k = fun c => n.mfLp EA EW ELW k (τ c) := funext (renumber_mfLp hτ EA EW ELW k)
  unfold SBM.mfUpdateC1
  rw [e]
  have hZ : ∑ c ∈ range n.C, Real.exp (n.mfLp EA EW ELW k (τ c)) = ∑ c ∈ range n.C, Real.exp (n.mfLp EA EW ELW k c) := perm_sum hτ fun c => Real.exp (n.mfLp EA EW ELW k c)
  simp only [renumberBlocks, hZ]

theorem renumber_C {n : SBM} (hτ : PermutesProcesses n.C τ) (EA EW ELW : Mat ℝ) (s : ℝ) :
    (renumberBlocks τ n).mfUpdateC EA EW ELW s = renumberBlocks τ (n.mfUpdateC EA EW ELW s) ∧ (n.mfUpdateC EA EW ELW s).C = n.C := by
  have key : ∀ N, forRange N (fun k n => SBM.mfUpdateC1 EA EW ELW s k n) (renumberBlocks τ n) = renumberBlocks τ (forRange N (fun k n => SBM.mfUpdateC1 EA EW ELW s k n) n)
      ∧ (forRange N (fun k n => SBM.mfUpdateC1 EA EW ELW s k n) n).C = n.C := by
    intro N
    induction N with
    | zero => exact ⟨rfl, rfl⟩
    | succ N ih =>
      rw [forRange_succ, forRange_succ, ih.1]
      exact ⟨renumber_C1 (by rw [ih.2]; exact hτ) EA EW ELW s N, ih.2⟩
  exact key n.K

theorem renumber_Mm (n : SBM) (s : ℝ) : (renumberBlocks τ n).mfUpdateM s = renumberBlocks τ (n.mfUpdateM s) := rfl
theorem renumber_Pp (n : SBM) (EA : Mat ℝ) (s : ℝ) : (renumberBlocks τ n).mfUpdateP EA s = renumberBlocks τ (n.mfUpdateP EA s) := rfl
theorem renumber_Vv (n : SBM) (EA EW : Mat ℝ) (s : ℝ) : (renumberBlocks τ n).mfUpdateV EA EW s = renumberBlocks τ (n.mfUpdateV EA EW s) := rfl

/-- two networks that differ by the numbering of their `C` blocks -/
def RenBlocks (τ : Equiv.Perm ℕ) (C : ℕ) (n n' : SBM) : Prop := n' = renumberBlocks τ n ∧ n.C = C

theorem ren_if {C : ℕ} {n n' : SBM} (h : RenBlocks τ C n n') (b : Bool) {f : SBM → SBM} (hf : ∀ n, n.C = C → f (renumberBlocks τ n) = renumberBlocks τ (f n) ∧ (f n).C = C) :
    RenBlocks τ C (if b then f n else n) (if b then f n' else n') := by
  cases b
  · exact h
  · rw [h.1]
    exact hf n h.2

theorem renumber_update {n : SBM} (hτ : PermutesProcesses n.C τ) (w : MFWeights) (f : NetFlags) (s : ℝ) :
    ((renumberBlocks τ n).meanfieldupdate w f = renumberBlocks τ (n.meanfieldupdate w f) ∧ (n.meanfieldupdate w f).C = n.C)
      ∧ ((renumberBlocks τ n).sgdstep w s f = renumberBlocks τ (n.sgdstep w s f) ∧ (n.sgdstep w s f).C = n.C) := by
  have core : ∀ (b : Bool) (s : ℝ), RenBlocks τ n.C
      (let n1 := if b then n.mfUpdateP w.mfP s else n
       let n2 := if f.v then n1.mfUpdateV w.mfP (w.eWGivenA 1) s else n1
       let n3 := if f.m then n2.mfUpdateM s else n2
       if f.c then n3.mfUpdateC w.mfP (w.eWGivenA 1) (w.eLnWGivenA 1) s else n3)
      (let n1 := if b then (renumberBlocks τ n).mfUpdateP w.mfP s else renumberBlocks τ n
       let n2 := if f.v then n1.mfUpdateV w.mfP (w.eWGivenA 1) s else n1
       let n3 := if f.m then n2.mfUpdateM s else n2
       if f.c then n3.mfUpdateC w.mfP (w.eWGivenA 1) (w.eLnWGivenA 1) s else n3) := by
    intro b s
    have h0 : RenBlocks τ n.C n (renumberBlocks τ n) := ⟨rfl, rfl⟩
    have h1 := ren_if h0 b (f := fun n => n.mfUpdateP w.mfP s) fun n h => ⟨rfl, h⟩
    have h2 := ren_if h1 f.v (f := fun n => n.mfUpdateV w.mfP (w.eWGivenA 1) s) fun n h => ⟨rfl, h⟩
    have h3 := ren_if h2 f.m (f := fun n => n.mfUpdateM s) fun n h => ⟨rfl, h⟩
    exact ren_if h3 f.c (f := fun n => n.mfUpdateC w.mfP (w.eWGivenA 1) (w.eLnWGivenA 1) s) fun m h => by
      obtain ⟨h1, h2⟩ := renumber_C (n := m) (h ▸ hτ) w.mfP (w.eWGivenA 1) (w.eLnWGivenA 1) s
      exact ⟨h1, h2.trans h⟩
  exact ⟨core f.c 1, core f.p s⟩

theorem renumber_netUpdate {N : MFNet} (hτ : PermutesProcesses (blocksOf N) τ) (w : MFWeights) (s : ℝ) :
    ((renumberMFNet τ N).meanfieldupdate w = (N.meanfieldupdate w).map (renumberMFNet τ) ∧ ∀ N', N.meanfieldupdate w = .ok N' → blocksOf N' = blocksOf N)
      ∧ ((renumberMFNet τ N).sgdstep w s = (N.sgdstep w s).map (renumberMFNet τ) ∧ ∀ N', N.sgdstep w s = .ok N' → blocksOf N' = blocksOf N) := by
  cases N with
  | sbm n =>
    obtain ⟨⟨h1, h2⟩, h3, h4⟩ := renumber_update hτ w {} s
    refine ⟨⟨?_, ?_⟩, ?_, ?_⟩
    · show Except.ok (MFNet.sbm _) = Except.ok (MFNet.sbm _); rw [h1]
    · intro N' e; obtain rfl := Except.ok.inj e; exact h2
    · show Except.ok (MFNet.sbm _) = Except.ok (MFNet.sbm _); rw [h3]
    · intro N' e; obtain rfl := Except.ok.inj e; exact h4
  | fixedSparsity n =>
    obtain ⟨⟨h1, h2⟩, h3, h4⟩ := renumber_update hτ w { p := false } s
    refine ⟨⟨?_, ?_⟩, ?_, ?_⟩
    · show Except.ok (MFNet.fixedSparsity _) = Except.ok (MFNet.fixedSparsity _); rw [h1]
    · intro N' e; obtain rfl := Except.ok.inj e; exact h2
    · show Except.ok (MFNet.fixedSparsity _) = Except.ok (MFNet.fixedSparsity _); rw [h3]
    · intro N' e; obtain rfl := Except.ok.inj e; exact h4
  | er n =>
    refine ⟨⟨?_, ?_⟩, ?_, ?_⟩ <;> simp only [renumberMFNet, MFNet.meanfieldupdate, MFNet.sgdstep]
    · cases n.mfUpdate w 1 <;> rfl
    · cases n.mfUpdate w 1 with
      | error e => intro _ h; cases h
      | ok m => intro _ h; obtain rfl := Except.ok.inj h; rfl
    · cases n.mfUpdate w s <;> rfl
    · cases n.mfUpdate w s with
      | error e => intro _ h; cases h
      | ok m => intro _ h; obtain rfl := Except.ok.inj h; rfl

/-! ### the model -/

theorem renumber_wUpdate {N : MFNet} (hτ : PermutesProcesses (blocksOf N) τ) (w : MFWeights) (K B : ℕ) (dl : List (DParents ℝ)) (frac step : ℝ) :
    w.update K B (renumberMFNet τ N) dl frac step = w.update K B N dl frac step := by
  unfold MFWeights.update
  rw [(renumber_eV hτ).1, (renumber_eV hτ).2, (renumber_kappa N).1]
  have e : ∀ (w : MFWeights) (L : Mat ℝ), w.updateP K (renumberMFNet τ N) L step = w.updateP K N L step := by
    intro w L
    unfold MFWeights.updateP
    have : w.logitHat (renumberMFNet τ N) L step = w.logitHat N L step := by
      funext i j
      unfold MFWeights.logitHat MFWeights.logitP
      rw [(renumber_eLnP hτ).1, (renumber_eLnP hτ).2, (renumber_kappa N).1]
    rw [this]
  simp only [e]

theorem renumber_globals {M : MFModel} (hτ : PermutesProcesses (blocksOf M.net) τ) (dl : List (DParents ℝ)) (frac step : ℝ) {up : MFWeights → MFNet → Except PyErr MFNet}
    (hu : ∀ w, up w (renumberMFNet τ M.net) = (up w M.net).map (renumberMFNet τ)) :
    (renumberMF τ M).updateGlobals dl frac step up = (M.updateGlobals dl frac step up).map (renumberMF τ) := by
  unfold MFModel.updateGlobals
  by_cases h : dl = []
  · rw [if_pos h, if_pos h]; rfl
  · rw [if_neg h, if_neg h]
    show (match M.w.update M.K M.B (renumberMFNet τ M.net) dl frac step with | .error e => _ | .ok w => _) = _
    rw [renumber_wUpdate hτ]
    cases M.w.update M.K M.B M.net dl frac step with
    | error e => rfl
    | ok w =>
      show (match up w (renumberMFNet τ M.net) with | .error e => _ | .ok w => _) = _
      rw [hu]
      dsimp only
      cases up w M.net <;> rfl

theorem globals_blocks {M M' : MFModel} {dl : List (DParents ℝ)} {frac step : ℝ} {up : MFWeights → MFNet → Except PyErr MFNet} (hu : ∀ w N', up w M.net = .ok N' → blocksOf N' = blocksOf M.net)
    (e : M.updateGlobals dl frac step up = .ok M') : blocksOf M'.net = blocksOf M.net := by
  unfold MFModel.updateGlobals at e
  by_cases h : dl = []
  · rw [if_pos h] at e; cases e
  · rw [if_neg h] at e
    dsimp only at e
    cases h1 : M.w.update M.K M.B M.net dl frac step with
    | error _ => rw [h1] at e; cases e
    | ok w =>
      rw [h1] at e
      dsimp only at e
      cases h2 : up w M.net with
      | error _ => rw [h2] at e; cases e
      | ok N => rw [h2] at e; obtain rfl := Except.ok.inj e; exact hu w N h2

theorem renumber_parents (M : MFModel) : (renumberMF τ M).updateParents = M.updateParents := by
  funext D
  unfold MFModel.updateParents
  show mfUpdateParents _ _ _ (M.w.expELnW (renumberMFNet τ M.net).allowSelf) _ D = _
  rw [(renumber_kappa M.net).2]
  rfl

theorem renumber_act {M : MFModel} (hτ : PermutesProcesses (blocksOf M.net) τ) (a : MFAct) :
    a.run (renumberMF τ M) = (a.run M).map (renumberMF τ) ∧ ∀ M', a.run M = .ok M' → blocksOf M'.net = blocksOf M.net := by
  cases a with
  | coord =>
    simp only [MFAct.run, MFModel.coordStep, renumber_parents]
    have h := renumber_globals hτ (M.data.map M.updateParents) 1 1 (up := MFNet.meanfieldupdate) fun w => (renumber_netUpdate hτ w 1).1.1
    show (match (renumberMF τ M).updateGlobals (M.data.map M.updateParents) 1 1 MFNet.meanfieldupdate with | .error e => _ | .ok w => _) = _ ∧ _
    rw [h]
    have hb := fun M' => globals_blocks (M := M) (M' := M') (dl := M.data.map M.updateParents) (frac := 1) (step := 1) (up := MFNet.meanfieldupdate) fun w N' => (renumber_netUpdate hτ w 1).1.2 N'
    cases e : M.updateGlobals (M.data.map M.updateParents) 1 1 MFNet.meanfieldupdate with
    | error _ => exact ⟨rfl, fun _ h => by cases h⟩
    | ok M1 => exact ⟨rfl, fun _ h => by obtain rfl := Except.ok.inj h; exact hb M1 e⟩
  | sgd mb s =>
    simp only [MFAct.run, MFModel.sgdStep, renumber_parents]
    have hd : (renumberMF τ M).data = M.data := rfl
    rw [hd]
    rcases M.data with _ | ⟨D, _ | ⟨D', l⟩⟩
    · exact ⟨rfl, fun _ h => by cases h⟩
    · dsimp only
      have ho : (renumberMF τ M).sgdOffset = M.sgdOffset := rfl
      rw [ho]
      generalize M.updateParents (sliceData D.S D.F (sgdWindow D.T mb M.sgdOffset).1 (sgdWindow D.T mb M.sgdOffset).2) = p
      generalize ((sliceData D.S D.F (sgdWindow D.T mb M.sgdOffset).1 (sgdWindow D.T mb M.sgdOffset).2).T : ℝ) / D.T = fr
      rw [renumber_globals hτ [p] fr s (up := fun w => MFNet.sgdstep w s) fun w => (renumber_netUpdate hτ w s).2.1]
      have hb := fun M' => globals_blocks (M := M) (M' := M') (dl := [p]) (frac := fr) (step := s) (up := fun w => MFNet.sgdstep w s) fun w N' => (renumber_netUpdate hτ w s).2.2 N'
      cases e : M.updateGlobals [p] fr s (fun w => MFNet.sgdstep w s) with
      | error _ => exact ⟨rfl, fun _ h => by cases h⟩
      | ok M1 => exact ⟨rfl, fun _ h => by obtain rfl := Except.ok.inj h; exact hb M1 e⟩
    · exact ⟨rfl, fun _ h => by cases h⟩

/-- C107: renumber the blocks, then run any coordinate and stochastic steps: the result is the one of the original model with its blocks renumbered. In particular
background rates, impulse responses, weights, expected parents and errors are the same. -/
theorem C107_meanfield (M : MFModel) (hτ : PermutesProcesses (blocksOf M.net) τ) (acts : List MFAct) : runActs acts (renumberMF τ M) = (runActs acts M).map (renumberMF τ) := by
  induction acts generalizing M with
  | nil => rfl
  | cons a as ih =>
    obtain ⟨h1, h2⟩ := renumber_act hτ a
    simp only [runActs, h1]
    cases e : a.run M with
    | error _ => rfl
    | ok M1 => exact ih M1 (by rw [h2 M1 e]; exact hτ)

/-! ### the variational lower bound -/

theorem square_sum {A : Type*} [AddCommMonoid A] (C : ℕ) (f : ℕ → ℕ → A) : ∑ r ∈ range (C * C), f (r / C) (r % C) = ∑ i ∈ range C, ∑ j ∈ range C, f i j := by
  rw [sum_flat]
  refine sum_congr rfl fun i _ => sum_congr rfl fun j hj => ?_
  rw [flat_div _ (mem_range.1 hj), flat_mod _ (mem_range.1 hj)]

theorem square_perm {A : Type*} [AddCommMonoid A] {C : ℕ} (hτ : PermutesProcesses C τ) (f : ℕ → ℕ → A) :
    ∑ r ∈ range (C * C), f (τ (r / C)) (τ (r % C)) = ∑ r ∈ range (C * C), f (r / C) (r % C) := by
  rw [square_sum C fun i j => f (τ i) (τ j), square_sum C f, perm_sum2 hτ f]

theorem renumber_discrete {C : ℕ} (hτ : PermutesProcesses C τ) (huge : ℝ) (x : Vec ℝ) (l : ℕ → FX) : discreteNegent huge C (fun c => x (τ c)) (fun c => l (τ c)) = discreteNegent huge C x l := by
  unfold discreteNegent
  rw [fx_range, fx_range, perm_sum hτ fun c => FX.fin (x c) * l c]

theorem renumber_dir1 {C : ℕ} (hτ : PermutesProcesses C τ) (g E : Vec ℝ) : dirNegent 1 1 C (fun _ c => g (τ c)) (fun _ c => E (τ c)) = dirNegent 1 1 C (fun _ => g) (fun _ => E) := by
  unfold dirNegent
  simp only [sum_range_one]
  rw [perm_sum hτ g, perm_sum hτ fun c => gammaln (g c), perm_sum hτ fun c => (g c - 1) * E c]

theorem renumber_dirPrior {C : ℕ} (hτ : PermutesProcesses C τ) (g : Vec ℝ) (E : ℕ → ℕ → Vec ℝ) :
    dirNegent 1 (C * C) 2 (fun _ => g) (fun r => E (τ (r / C)) (τ (r % C))) = dirNegent 1 (C * C) 2 (fun _ => g) (fun r => E (r / C) (r % C)) := by
  unfold dirNegent
  dsimp only
  rw [square_perm hτ fun a b => ∑ i ∈ range 2, (g i - 1) * E a b i]

theorem renumber_dirPost {C : ℕ} (hτ : PermutesProcesses C τ) (g E : ℕ → ℕ → Vec ℝ) :
    dirNegent (C * C) (C * C) 2 (fun r => g (τ (r / C)) (τ (r % C))) (fun r => E (τ (r / C)) (τ (r % C))) = dirNegent (C * C) (C * C) 2 (fun r => g (r / C) (r % C)) (fun r => E (r / C) (r % C)) := by
  have hz : ∀ (F : ℕ → ℕ → Vec ℝ), ∑ r ∈ range (C * C), ∑ i ∈ range 2, (F ((if C * C = 1 then 0 else r) / C) ((if C * C = 1 then 0 else r) % C) i - 1) * E (r / C) (r % C) i
      = ∑ r ∈ range (C * C), ∑ i ∈ range 2, (F (r / C) (r % C) i - 1) * E (r / C) (r % C) i := by
    intro F
    refine sum_congr rfl fun r hr => ?_
    by_cases h : C * C = 1
    · have : r = 0 := by rw [h] at hr; simpa using hr
      subst this
      simp
    · simp only [if_neg h]
  unfold dirNegent
  dsimp only
  rw [square_perm hτ fun a b => gammaln (∑ i ∈ range 2, g a b i), square_perm hτ fun a b => ∑ i ∈ range 2, gammaln (g a b i), hz g]
  congr 1
  rw [← square_perm hτ fun a b => ∑ i ∈ range 2, (g a b i - 1) * E a b i]
  refine sum_congr rfl fun r hr => ?_
  by_cases h : C * C = 1
  · have : r = 0 := by rw [h] at hr; simpa using hr
    subst this
    simp
  · simp only [if_neg h]

theorem if_add (b : Bool) {a a' x x' y y' : ℝ} (ha : a = a') (hx : x = x') (hy : y = y') : (if b then a + x - y else a) = if b then a' + x' - y' else a' := by rw [ha, hx, hy]

theorem renumber_sbmVlb {n : SBM} (hτ : PermutesProcesses n.C τ) (huge : ℝ) (f : NetFlags) : (renumberBlocks τ n).vlb huge f = n.vlb huge f := by
  have hM : (renumberBlocks τ n).eLnM = fun c => n.eLnM (τ c) := funext (renumber_eLnM hτ)
  unfold SBM.vlb
  rw [hM]
  have c1 : ∀ k, discreteNegent huge (renumberBlocks τ n).C ((renumberBlocks τ n).mfM k) (fun c => FX.fin (n.eLnM (τ c))) = discreteNegent huge n.C (n.mfM k) (fun c => .fin (n.eLnM c)) :=
    fun k => renumber_discrete hτ huge (n.mfM k) fun c => FX.fin (n.eLnM c)
  have c2 : ∀ k, discreteNegent huge (renumberBlocks τ n).C ((renumberBlocks τ n).mfM k) (fun c => FX.log ((renumberBlocks τ n).mfM k c)) = discreteNegent huge n.C (n.mfM k) (fun c => FX.log (n.mfM k c)) :=
    fun k => renumber_discrete hτ huge (n.mfM k) fun c => FX.log (n.mfM k c)
  have p1 := renumber_dirPrior hτ (fun i => if i = 0 then n.tau1 else n.tau0) fun a b i => if i = 0 then n.blkLnP a b else n.blkLnNotP a b
  have p2 := renumber_dirPost hτ (fun a b i => if i = 0 then n.mfTau1 a b else n.mfTau0 a b) fun a b i => if i = 0 then n.blkLnP a b else n.blkLnNotP a b
  have v1 := perm_sum2 hτ fun a b => gammaNegent n.alpha n.beta (Real.log n.beta) (n.blkV a b) (n.blkLnV a b)
  have v2 := perm_sum2 hτ fun a b => gammaNegentDefault (n.mfAlpha a b) (n.mfBeta a b)
  have m1 := renumber_dir1 hτ n.pi n.eLnM
  have m2 := renumber_dir1 hτ n.mfPi n.eLnM
  simp only [c1, c2]
  exact if_add _ (if_add _ (if_add _ rfl p1 p2) v1 v2) m1 m2

/-- C107: the reported bound does not depend on the numbering of the blocks -/
theorem C107_vlb (M : MFModel) (hτ : PermutesProcesses (blocksOf M.net) τ) (huge : ℝ) : (renumberMF τ M).vlb huge = M.vlb huge := by
  have hn : (renumberMFNet τ M.net).vlb huge = M.net.vlb huge := by
    cases e : M.net with
    | sbm n => rw [e] at hτ; exact congrArg Except.ok (renumber_sbmVlb hτ huge {})
    | fixedSparsity n => rfl
    | er n => rfl
  have hw : ∀ eV eLnV, M.w.vlb M.K (renumberMFNet τ M.net) eV eLnV = M.w.vlb M.K M.net eV eLnV := by
    intro eV eLnV
    unfold MFWeights.vlb
    rw [(renumber_eLnP hτ).1, (renumber_eLnP hτ).2, (renumber_kappa M.net).1]
  have hd : (renumberMF τ M).parentsVlb = M.parentsVlb := by
    funext D
    unfold MFModel.parentsVlb
    show FX.sum (List.map (fun k => mfVlbFX _ _ _ _ _ _ (M.w.eLnW (renumberMFNet τ M.net).allowSelf) (M.w.eW (renumberMFNet τ M.net).allowSelf) _ _ _) _) = _
    rw [(renumber_kappa M.net).2]
    rfl
  unfold MFModel.vlb
  show (match (renumberMFNet τ M.net).eV with | .error e => _ | .ok eV => _) = _
  rw [(renumber_eV hτ).1]
  cases M.net.eV with
  | error e => rfl
  | ok eV =>
    show (match (renumberMFNet τ M.net).eLnV with | .error e => _ | .ok eV => _) = _
    rw [(renumber_eV hτ).2]
    cases M.net.eLnV with
    | error e => rfl
    | ok eLnV =>
      show (match (renumberMFNet τ M.net).vlb huge with | .error e => _ | .ok x => Except.ok (FX.sum (M.data.map (renumberMF τ M).parentsVlb) + _ + _ + M.w.vlb M.K (renumberMFNet τ M.net) eV eLnV + _)) = _
      rw [hn, hd, hw]
      cases M.net.vlb huge <;> rfl

/-! ### Gibbs sampling -/

theorem renumber_blockSum (n : SBM) (c1 c2 : ℕ) (f : ℕ → ℕ → ℝ) : blockSum (renumberBlocks τ n) c1 c2 f = blockSum n (τ c1) (τ c2) f := by
  unfold blockSum
  simp only [renumberBlocks, Equiv.symm_apply_eq]

/-- C107: the conditional distributions of the block probabilities, weight scales, labels and proportions are those of the original network, moved -/
theorem C107_conditionals (huge : ℝ) (n : SBM) (A W : Mat ℝ) :
    (∀ c1 c2, sbmPArgs (renumberBlocks τ n) A c1 c2 = sbmPArgs n A (τ c1) (τ c2)) ∧ (∀ c1 c2, sbmVArgs (renumberBlocks τ n) A W c1 c2 = sbmVArgs n A W (τ c1) (τ c2))
      ∧ (∀ k c, sbmLp huge (renumberBlocks τ n) A W k c = sbmLp huge n A W k (τ c)) ∧ ∀ c, sbmMArgs (renumberBlocks τ n) c = sbmMArgs n (τ c) := by
  refine ⟨fun c1 c2 => ?_, fun c1 c2 => ?_, fun k c => ?_, fun c => ?_⟩
  · unfold sbmPArgs
    rw [renumber_blockSum, renumber_blockSum]; rfl
  · unfold sbmVArgs
    rw [renumber_blockSum, renumber_blockSum]; rfl
  · have hc : ∀ j, τ (Vec.set (fun i => τ.symm (n.c i)) k c j) = Vec.set n.c k (τ c) j := by
      intro j
      unfold Vec.set
      by_cases h : j = k
      · simp [h]
      · simp [h]
    unfold sbmLp
    simp only [renumberBlocks, hc]
  · unfold sbmMArgs
    simp only [renumberBlocks, Equiv.symm_apply_eq]

theorem renumber_resampleP {n : SBM} (hτ : PermutesProcesses n.C τ) (o : SBMOracle) (A : Mat ℝ) : sbmResampleP (renumberDraws τ o) A (renumberBlocks τ n) = renumberBlocks τ (sbmResampleP o A n) := by
  have h : ∀ c1 c2, (if c1 < n.C ∧ c2 < n.C then o.beta (τ c1) (τ c2) (sbmPArgs (renumberBlocks τ n) A c1 c2) else n.p (τ c1) (τ c2))
      = if τ c1 < n.C ∧ τ c2 < n.C then o.beta (τ c1) (τ c2) (sbmPArgs n A (τ c1) (τ c2)) else n.p (τ c1) (τ c2) := by
    intro c1 c2
    rw [(C107_conditionals 0 n A A).1]
    exact if_congr (and_congr (hτ c1).symm (hτ c2).symm) rfl rfl
  have : (fun c1 c2 => _) = _ := funext fun c1 => funext fun c2 => h c1 c2
  exact congrArg (fun p => ({ renumberBlocks τ n with p := p } : SBM)) this

theorem renumber_resampleV {n : SBM} (hτ : PermutesProcesses n.C τ) (o : SBMOracle) (A W : Mat ℝ) : sbmResampleV (renumberDraws τ o) A W (renumberBlocks τ n) = renumberBlocks τ (sbmResampleV o A W n) := by
  have h : ∀ c1 c2, (if c1 < n.C ∧ c2 < n.C then o.gamma (τ c1) (τ c2) (sbmVArgs (renumberBlocks τ n) A W c1 c2) else n.v (τ c1) (τ c2))
      = if τ c1 < n.C ∧ τ c2 < n.C then o.gamma (τ c1) (τ c2) (sbmVArgs n A W (τ c1) (τ c2)) else n.v (τ c1) (τ c2) := by
    intro c1 c2
    rw [(C107_conditionals 0 n A W).2.1]
    exact if_congr (and_congr (hτ c1).symm (hτ c2).symm) rfl rfl
  have : (fun c1 c2 => _) = _ := funext fun c1 => funext fun c2 => h c1 c2
  exact congrArg (fun v => ({ renumberBlocks τ n with v := v } : SBM)) this

theorem renumber_resampleM (n : SBM) (o : SBMOracle) : sbmResampleM (renumberDraws τ o) (renumberBlocks τ n) = renumberBlocks τ (sbmResampleM o n) := by
  have h : (fun c => sbmMArgs (renumberBlocks τ n) (τ.symm c)) = sbmMArgs n := by
    funext c
    rw [(C107_conditionals 0 n (fun _ _ => 0) fun _ _ => 0).2.2.2, Equiv.apply_symm_apply]
  show ({ renumberBlocks τ n with m := fun c => o.dirichlet (fun c => sbmMArgs (renumberBlocks τ n) (τ.symm c)) (τ c) } : SBM) = _
  rw [h]
  rfl

theorem renumber_resampleC (huge : ℝ) (n : SBM) (o : SBMOracle) (A W : Mat ℝ) : sbmResampleC huge (renumberDraws τ o) A W (renumberBlocks τ n) = renumberBlocks τ (sbmResampleC huge o A W n) := by
  unfold sbmResampleC
  by_cases h : n.C = 1
  · rw [if_pos h, if_pos (show (renumberBlocks τ n).C = 1 from h)]
  · rw [if_neg h, if_neg (show ¬ (renumberBlocks τ n).C = 1 from h)]
    have step : ∀ (k : ℕ) (m : SBM), ({ renumberBlocks τ m with c := Vec.set (renumberBlocks τ m).c k ((renumberDraws τ o).label k (sbmLp huge (renumberBlocks τ m) A W k)) } : SBM)
        = renumberBlocks τ { m with c := Vec.set m.c k (o.label k (sbmLp huge m A W k)) } := by
      intro k m
      have hl : (fun c => sbmLp huge (renumberBlocks τ m) A W k (τ.symm c)) = sbmLp huge m A W k := by
        funext c
        rw [(C107_conditionals huge m A W).2.2.1, Equiv.apply_symm_apply]
      have hc : Vec.set (fun i => τ.symm (m.c i)) k (τ.symm (o.label k (fun c => sbmLp huge (renumberBlocks τ m) A W k (τ.symm c)))) = fun i => τ.symm (Vec.set m.c k (o.label k (sbmLp huge m A W k)) i) := by
        rw [hl]
        funext i
        unfold Vec.set
        by_cases h : i = k
        · simp [h]
        · simp [h]
      exact congrArg (fun c => ({ renumberBlocks τ m with c := c } : SBM)) hc
    have key : ∀ N, forRange N (fun k (m : SBM) => { m with c := Vec.set m.c k ((renumberDraws τ o).label k (sbmLp huge m A W k)) }) (renumberBlocks τ n)
        = renumberBlocks τ (forRange N (fun k (m : SBM) => { m with c := Vec.set m.c k (o.label k (sbmLp huge m A W k)) }) n) := by
      intro N
      induction N with
      | zero => rfl
      | succ N ih => rw [forRange_succ, forRange_succ, ih]; exact step N _
    exact key n.K

theorem resampleC_C (huge : ℝ) (n : SBM) (o : SBMOracle) (A W : Mat ℝ) : (sbmResampleC huge o A W n).C = n.C := by
  unfold sbmResampleC
  by_cases h : n.C = 1
  · rw [if_pos h]
  · rw [if_neg h]
    have key : ∀ N, (forRange N (fun k (m : SBM) => { m with c := Vec.set m.c k (o.label k (sbmLp huge m A W k)) }) n).C = n.C := by
      intro N
      induction N with
      | zero => rfl
      | succ N ih => rw [forRange_succ]; exact ih
    exact key n.K

theorem renumber_netResample {N : Net} (hτ : PermutesProcesses (netBlocks N) τ) (huge : ℝ) (o : SBMOracle) (g : GammaArgs → ℝ) (A W : Mat ℝ) :
    (renumberNet τ N).resample huge (renumberDraws τ o) g A W = renumberNet τ (N.resample huge o g A W) ∧ netBlocks (N.resample huge o g A W) = netBlocks N := by
  cases N with
  | er n => exact ⟨rfl, rfl⟩
  | sbm n =>
    refine ⟨congrArg Net.sbm ?_, ?_⟩
    · unfold sbmResample
      by_cases h : n.fixed
      · rw [if_pos h, if_pos (show (renumberBlocks τ n).fixed = true from h)]
      · rw [if_neg h, if_neg (show ¬ (renumberBlocks τ n).fixed = true from h), renumber_resampleP hτ, renumber_resampleV (n := sbmResampleP o A n) hτ, renumber_resampleC, renumber_resampleM]
    · show (sbmResample huge o A W n).C = n.C
      unfold sbmResample
      by_cases h : n.fixed
      · rw [if_pos h]
      · rw [if_neg h]
        exact resampleC_C huge _ o A W
  | sbmFixed n =>
    refine ⟨congrArg Net.sbmFixed ?_, ?_⟩
    · unfold sbmFixedResample
      by_cases h : n.fixed
      · rw [if_pos h, if_pos (show (renumberBlocks τ n).fixed = true from h)]
      · rw [if_neg h, if_neg (show ¬ (renumberBlocks τ n).fixed = true from h), renumber_resampleV hτ, renumber_resampleC, renumber_resampleM]
    · show (sbmFixedResample huge o A W n).C = n.C
      unfold sbmFixedResample
      by_cases h : n.fixed
      · rw [if_pos h]
      · rw [if_neg h]
        exact resampleC_C huge _ o A W

theorem renumber_netPV (N : Net) : (renumberNet τ N).P = N.P ∧ (renumberNet τ N).V = N.V ∧ (renumberNet τ N).kappa = N.kappa := by
  cases N with
  | er n => exact ⟨rfl, rfl, rfl⟩
  | sbm n => exact ⟨renumber_P n, renumber_V n, rfl⟩
  | sbmFixed n => exact ⟨renumber_P n, renumber_V n, rfl⟩

theorem renumber_W (d : StepDraws) (o : SBMOracle) (s : HawkesState) : resampleWSS { d with net := o } (renumberState τ s) = renumberState τ (resampleWSS d s) := by
  unfold resampleWSS
  show ({ renumberState τ s with W := fun k1 k2 => d.weight k1 k2 (weightArgs s.base.B (renumberNet τ s.net).kappa (renumberNet τ s.net).V s.A s.data k1 k2) } : HawkesState) = _
  rw [(renumber_netPV s.net).2.1, (renumber_netPV s.net).2.2]
  rfl

theorem renumber_A (d : StepDraws) (o : SBMOracle) (s : HawkesState) : resampleASS { d with net := o } (renumberState τ s) = renumberState τ (resampleASS d s) := by
  unfold resampleASS
  show ({ renumberState τ s with A := if d.parallel then parallelSweep s.base s.W (renumberNet τ s.net).P d.u s.data d.order s.A else serialSweep s.base s.W (renumberNet τ s.net).P d.u s.data s.A } : HawkesState) = _
  rw [(renumber_netPV s.net).1]
  rfl

theorem renumber_WMix (k0 n0 : ℝ) (d : StepDraws) (o : SBMOracle) (s : HawkesState) : resampleWMix k0 n0 { d with net := o } (renumberState τ s) = renumberState τ (resampleWMix k0 n0 d s) := by
  unfold resampleWMix
  show ({ renumberState τ s with W := fun k1 k2 => max (d.weight k1 k2 (mixWArgs s.base.B k0 n0 (renumberNet τ s.net).kappa (renumberNet τ s.net).V s.A s.data k1 k2)) 1e-32 } : HawkesState) = _
  rw [(renumber_netPV s.net).2.1, (renumber_netPV s.net).2.2]
  rfl

theorem renumber_AMix (k0 n0 : ℝ) (d : StepDraws) (o : SBMOracle) (s : HawkesState) : resampleAMix k0 n0 { d with net := o } (renumberState τ s) = renumberState τ (resampleAMix k0 n0 d s) := by
  unfold resampleAMix
  show ({ renumberState τ s with A := mixA s.base.B k0 n0 (renumberNet τ s.net).kappa (renumberNet τ s.net).V (renumberNet τ s.net).P d.u s.data } : HawkesState) = _
  rw [(renumber_netPV s.net).1, (renumber_netPV s.net).2.1, (renumber_netPV s.net).2.2]
  rfl

theorem renumber_N {s : HawkesState} (hτ : PermutesProcesses (netBlocks s.net) τ) (huge : ℝ) (d : StepDraws) :
    resampleNet huge { d with net := renumberDraws τ d.net } (renumberState τ s) = renumberState τ (resampleNet huge d s) :=
  congrArg (fun N => ({ s with net := N } : HawkesState)) (renumber_netResample hτ huge d.net d.erGamma s.A s.W).1

theorem renumber_stepSS {s : HawkesState} (hτ : PermutesProcesses (netBlocks s.net) τ) (huge : ℝ) (d : StepDraws) :
    resampleModelSS huge { d with net := renumberDraws τ d.net } (renumberState τ s) = (resampleModelSS huge d s).map (renumberState τ)
      ∧ ∀ s', resampleModelSS huge d s = .ok s' → netBlocks s'.net = netBlocks s.net := by
  unfold resampleModelSS
  show (match resampleDataList s.params d.useGsl d.mult s.data with | .error e => _ | .ok dl => _) = _ ∧ _
  cases resampleDataList s.params d.useGsl d.mult s.data with
  | error e => exact ⟨rfl, fun _ h => by cases h⟩
  | ok dl =>
    refine ⟨congrArg Except.ok ?_, fun s' h => ?_⟩
    · have hN := renumber_N (s := resampleImpulse d (resampleBias d { s with data := dl })) hτ huge d
      show resampleASS _ (resampleWSS _ (resampleNet huge _ (renumberState τ (resampleImpulse d (resampleBias d { s with data := dl }))))) = _
      rw [hN, renumber_W, renumber_A]
    · obtain rfl := Except.ok.inj h
      exact (renumber_netResample (N := s.net) hτ huge d.net d.erGamma _ _).2

theorem renumber_stepMix {s : HawkesState} (hτ : PermutesProcesses (netBlocks s.net) τ) (huge k0 n0 : ℝ) (b : Bool) (d : StepDraws) :
    resampleModelMix huge k0 n0 b { d with net := renumberDraws τ d.net } (renumberState τ s) = (resampleModelMix huge k0 n0 b d s).map (renumberState τ)
      ∧ ∀ s', resampleModelMix huge k0 n0 b d s = .ok s' → netBlocks s'.net = netBlocks s.net := by
  unfold resampleModelMix
  show (match resampleDataList s.paramsMix d.useGsl d.mult s.data with | .error e => _ | .ok dl => _) = _ ∧ _
  cases resampleDataList s.paramsMix d.useGsl d.mult s.data with
  | error e => exact ⟨rfl, fun _ h => by cases h⟩
  | ok dl =>
    have e : resampleWMix k0 n0 { d with net := renumberDraws τ d.net } (resampleAMix k0 n0 { d with net := renumberDraws τ d.net } (renumberState τ (resampleImpulse d (resampleBias d { s with data := dl }))))
        = renumberState τ (resampleWMix k0 n0 d (resampleAMix k0 n0 d (resampleImpulse d (resampleBias d { s with data := dl })))) := by
      rw [renumber_AMix, renumber_WMix]
    cases b
    · exact ⟨congrArg Except.ok e, fun s' h => by obtain rfl := Except.ok.inj h; rfl⟩
    · refine ⟨congrArg Except.ok ?_, fun s' h => ?_⟩
      · show resampleNet huge _ (resampleWMix k0 n0 { d with net := renumberDraws τ d.net } (resampleAMix k0 n0 { d with net := renumberDraws τ d.net } (renumberState τ (resampleImpulse d (resampleBias d { s with data := dl }))))) = _
        rw [e]
        exact renumber_N (s := resampleWMix k0 n0 d (resampleAMix k0 n0 d (resampleImpulse d (resampleBias d { s with data := dl })))) hτ huge d
      · obtain rfl := Except.ok.inj h
        exact (renumber_netResample (N := s.net) hτ huge d.net d.erGamma _ _).2

theorem renumber_add (a : AddArgs ℝ) (s : HawkesState) : addDataState a (renumberState τ s) = (addDataState a s).map (renumberState τ) ∧ ∀ s', addDataState a s = .ok s' → s'.net = s.net := by
  unfold addDataState
  show (match addData s.base a s.data with | .error e => _ | .ok dl => _) = _ ∧ _
  cases addData s.base a s.data with
  | error e => exact ⟨rfl, fun _ h => by cases h⟩
  | ok dl => exact ⟨rfl, fun s' h => by obtain rfl := Except.ok.inj h; rfl⟩

/-- C107: a history of `add_data` and `resample_model` calls on the spike-and-slab model, with the random draws moved along with the blocks, gives the original state with its
blocks renumbered: rates, impulse responses, adjacency, weights and parents are the same -/
theorem C107_gibbs_spike_and_slab (huge : ℝ) (s : HawkesState) (hτ : PermutesProcesses (netBlocks s.net) τ) (ops : List Op) :
    runSS huge (ops.map (renumberOp τ)) (renumberState τ s) = renumberState τ (runSS huge ops s) := by
  induction ops generalizing s with
  | nil => rfl
  | cons op ops ih =>
    cases op with
    | addData a =>
      obtain ⟨h1, h2⟩ := renumber_add (τ := τ) a s
      simp only [List.map_cons, renumberOp, runSS, h1]
      cases e : addDataState a s with
      | error _ => exact ih s hτ
      | ok s1 => exact ih s1 (by rw [h2 s1 e]; exact hτ)
    | resample d =>
      obtain ⟨h1, h2⟩ := renumber_stepSS hτ huge d
      simp only [List.map_cons, renumberOp, runSS, h1]
      cases e : resampleModelSS huge d s with
      | error _ => exact ih s hτ
      | ok s1 => exact ih s1 (by rw [h2 s1 e]; exact hτ)

/-- C107: the same for the gamma-mixture model -/
theorem C107_gibbs_mixture (huge k0 n0 : ℝ) (s : HawkesState) (hτ : PermutesProcesses (netBlocks s.net) τ) (ops : List (Op × Bool)) :
    runMix huge k0 n0 (ops.map fun o => (renumberOp τ o.1, o.2)) (renumberState τ s) = renumberState τ (runMix huge k0 n0 ops s) := by
  induction ops generalizing s with
  | nil => rfl
  | cons op ops ih =>
    obtain ⟨op, b⟩ := op
    cases op with
    | addData a =>
      obtain ⟨h1, h2⟩ := renumber_add (τ := τ) a s
      simp only [List.map_cons, renumberOp, runMix, h1]
      cases e : addDataState a s with
      | error _ => exact ih s hτ
      | ok s1 => exact ih s1 (by rw [h2 s1 e]; exact hτ)
    | resample d =>
      obtain ⟨h1, h2⟩ := renumber_stepMix hτ huge k0 n0 b d
      simp only [List.map_cons, renumberOp, runMix, h1]
      cases e : resampleModelMix huge k0 n0 b d s with
      | error _ => exact ih s hτ
      | ok s1 => exact ih s1 (by rw [h2 s1 e]; exact hτ)

/-! ### reported probabilities -/

theorem forListE_guard (N : ℕ) {c : Prop} [Decidable c] (f : ℕ → FX) (e : PyErr) (a : FX) :
    forListE (List.range N) (fun r acc => addE acc (if c then .ok (f r) else .error e)) a = if N = 0 ∨ c then .ok (a + ∑ r ∈ range N, f r) else .error e := by
  by_cases hc : c
  · simp only [if_pos hc, if_pos (Or.inr hc : N = 0 ∨ c)]
    induction N with
    | zero => simp [forListE]
    | succ N ih =>
      rw [forListE_range_succ, ih]
      simp only [addE, sum_range_succ, add_assoc]
  · simp only [if_neg hc]
    cases N with
    | zero => simp [forListE]
    | succ N =>
      rw [if_neg (by simp [hc])]
      induction N with
      | zero => rfl
      | succ N ih => rw [forListE_range_succ, ih]

theorem square_forall {C : ℕ} (q : ℕ → ℕ → Prop) : (∀ s < C * C, q (s / C) (s % C)) ↔ ∀ a < C, ∀ b < C, q a b := by
  constructor
  · intro h a ha b hb
    have := h (a * C + b) (by nlinarith)
    rwa [flat_div _ hb, flat_mod _ hb] at this
  · intro h s hs
    exact h _ (Nat.div_lt_of_lt_mul hs) _ (Nat.mod_lt _ (Nat.pos_of_ne_zero fun h => by rw [h] at hs; simp at hs))

theorem perm_forall {C : ℕ} (hτ : PermutesProcesses C τ) (q : ℕ → Prop) : (∀ a < C, q (τ a)) ↔ ∀ a < C, q a := by
  refine ⟨fun h a ha => ?_, fun h a ha => h _ ((hτ a).2 ha)⟩
  have := h (τ.symm a) ((hτ _).1 (by rwa [Equiv.apply_symm_apply]))
  rwa [Equiv.apply_symm_apply] at this

theorem square_forall_perm {C : ℕ} (hτ : PermutesProcesses C τ) (q : ℕ → ℕ → Prop) : (∀ s < C * C, q (τ (s / C)) (τ (s % C))) ↔ ∀ s < C * C, q (s / C) (s % C) := by
  rw [square_forall fun a b => q (τ a) (τ b), square_forall q]
  have := perm_forall hτ fun a => ∀ b < C, q a b
  rw [← this]
  exact forall₂_congr fun a _ => perm_forall hτ fun b => q (τ a) b

theorem renumber_dirLog {C : ℕ} (hτ : PermutesProcesses C τ) (g x : Vec ℝ) : dirLogProb 1 C (fun _ c => g (τ c)) (fun _ c => x (τ c)) 0 = dirLogProb 1 C (fun _ => g) (fun _ => x) 0 := by
  unfold dirLogProb
  simp only [sum_range_one]
  rw [perm_sum hτ g, perm_sum hτ x, perm_sum hτ fun c => gammaln (g c), fx_range, fx_range, perm_sum hτ fun c => FX.fin (g c - 1) * FX.log (x c)]
  refine if_congr (and_congr Iff.rfl ?_) rfl rfl
  exact forall₂_congr fun _ _ => perm_forall hτ fun c => 0 ≤ x c

theorem renumber_betaSum {C : ℕ} (hτ : PermutesProcesses C τ) (t1 t0 : ℝ) (p : Mat ℝ) :
    forListE (List.range (C * C)) (fun r acc => addE acc (betaLogProb (C * C) (fun _ => t1) (fun _ => t0) (fun s => p (τ (s / C)) (τ (s % C))) r)) (FX.fin 0)
      = forListE (List.range (C * C)) (fun r acc => addE acc (betaLogProb (C * C) (fun _ => t1) (fun _ => t0) (fun s => p (s / C) (s % C)) r)) (FX.fin 0) := by
  unfold betaLogProb dirLogProb
  rw [forListE_guard, forListE_guard]
  refine if_congr (or_congr Iff.rfl (and_congr ?_ ?_)) (congrArg (fun x => Except.ok (FX.fin 0 + x)) ?_) rfl
  · exact square_forall_perm hτ fun a b => |∑ i ∈ range 2, (if i = 0 then p a b else 1 - p a b) - 1| ≤ 1e-8 + 1e-5
  · exact square_forall_perm hτ fun a b => ∀ i < 2, 0 ≤ if i = 0 then p a b else 1 - p a b
  · exact square_perm hτ fun a b => FX.fin (gammaln (∑ s ∈ range (C * C), ∑ i ∈ range 2, if i = 0 then t1 else t0)) - FX.fin (∑ s ∈ range (C * C), ∑ i ∈ range 2, gammaln (if i = 0 then t1 else t0))
      + FX.sum ((List.range 2).map fun i => FX.fin ((if i = 0 then t1 else t0) - 1) * FX.log (if i = 0 then p a b else 1 - p a b))

theorem renumber_gammaSum {C : ℕ} (hτ : PermutesProcesses C τ) (huge al be : ℝ) (v : Mat ℝ) :
    FX.sum ((List.range (C * C)).map fun s => FX.fin (gammaLogProb huge al be (v (τ (s / C)) (τ (s % C))))) = FX.sum ((List.range (C * C)).map fun s => FX.fin (gammaLogProb huge al be (v (s / C) (s % C)))) := by
  rw [fx_range, fx_range, square_perm hτ fun a b => FX.fin (gammaLogProb huge al be (v a b))]

/-- C107: the reported log probability of the network is the same -/
theorem C107_network_log_probability (N : Net) (hτ : PermutesProcesses (netBlocks N) τ) (huge : ℝ) : (renumberNet τ N).logProb huge = N.logProb huge := by
  cases N with
  | er n => rfl
  | sbmFixed n => rfl
  | sbm n =>
    have hτ : PermutesProcesses n.C τ := hτ
    have h1 := renumber_dirLog hτ n.pi n.m
    have h2 := renumber_betaSum hτ n.tau1 n.tau0 n.p
    have h3 := renumber_gammaSum hτ huge n.alpha n.beta n.v
    have h4 : (fun k => FX.log ((renumberBlocks τ n).m ((renumberBlocks τ n).c k))) = fun k => FX.log (n.m (n.c k)) := by
      funext k
      simp only [renumberBlocks, Equiv.apply_symm_apply]
    show sbmLogProb huge (renumberBlocks τ n) = sbmLogProb huge n
    unfold sbmLogProb
    rw [h4]
    simp only [renumberBlocks] at h1 h2 h3 ⊢
    rw [h1, h2, h3]

/-- C107: prior, likelihood and joint probability reported by the models are the same -/
theorem C107_model_log_probability (huge k0 n0 : ℝ) (s : HawkesState) :
    logPriorSS huge (renumberState τ s) = logPriorSS huge s ∧ logProbSS huge (renumberState τ s) = logProbSS huge s
      ∧ logPriorMix k0 n0 (renumberState τ s) = logPriorMix k0 n0 s ∧ logProbMix k0 n0 (renumberState τ s) = logProbMix k0 n0 s := by
  obtain ⟨hP, hV, hk⟩ := renumber_netPV (τ := τ) s.net
  have h1 : logPriorSS huge (renumberState τ s) = logPriorSS huge s := by
    unfold logPriorSS
    show FX.fin 0 + ssLogLik huge s.base.K (renumberNet τ s.net).kappa (renumberNet τ s.net).P (renumberNet τ s.net).V s.A s.W = _
    rw [hP, hV, hk]
  have h2 : logPriorMix k0 n0 (renumberState τ s) = logPriorMix k0 n0 s := by
    unfold logPriorMix
    show FX.fin 0 + mixLogLik s.base.K k0 n0 (renumberNet τ s.net).kappa (renumberNet τ s.net).P (renumberNet τ s.net).V s.A s.W = _
    rw [hP, hV, hk]
  refine ⟨h1, ?_, h2, ?_⟩
  · unfold logProbSS
    rw [h1]; rfl
  · unfold logProbMix
    rw [h2]; rfl

/-- C107: link probabilities and weight scales of every pair of processes, and their variational expectations, are the same -/
theorem C107_pairs (n : SBM) (hτ : PermutesProcesses n.C τ) (N : MFNet) (hN : N = .sbm n ∨ N = .fixedSparsity n) :
    (renumberBlocks τ n).P = n.P ∧ (renumberBlocks τ n).V = n.V ∧ (renumberMFNet τ N).eP = N.eP ∧ (renumberMFNet τ N).eNotP = N.eNotP ∧ (renumberMFNet τ N).eLnP = N.eLnP
      ∧ (renumberMFNet τ N).eLnNotP = N.eLnNotP ∧ (renumberMFNet τ N).eV = N.eV ∧ (renumberMFNet τ N).eLnV = N.eLnV := by
  have hτ' : PermutesProcesses (blocksOf N) τ := by rcases hN with rfl | rfl <;> exact hτ
  have hE : (renumberMFNet τ N).eP = N.eP := by
    rcases hN with rfl | rfl
    · exact renumber_eP hτ
    · exact renumber_P n
  refine ⟨renumber_P n, renumber_V n, hE, ?_, (renumber_eLnP hτ').1, (renumber_eLnP hτ').2, (renumber_eV hτ').1, (renumber_eV hτ').2⟩
  funext i j
  unfold MFNet.eNotP
  rw [hE]

end

/-- two unequal blocks on three nodes -/
noncomputable def unequalBlocks : SBM :=
  { demoBlocks with
    m := fun c => if c = 0 then 1 / 3 else 2 / 3
    pi := fun c => c + 1
    p := fun a b => if a = b then 1 / 2 else 1 / 4
    v := fun a b => a + 2 * b + 1
    mfM := fun i c => if c = i % 2 then 2 / 3 else 1 / 3
    mfPi := fun c => c + 1
    mfTau1 := fun a b => a + b + 1
    mfAlpha := fun a b => a + 2 }

/-- exchanging two unequal blocks really changes the network object, and every conclusion of C107 applies to it -/
theorem C107_demo (huge : ℝ) (M : MFModel) (hM : M.net = .sbm unequalBlocks) (acts : List MFAct) :
    (renumberBlocks (Equiv.swap 0 1) unequalBlocks).c 0 ≠ unequalBlocks.c 0 ∧ (renumberBlocks (Equiv.swap 0 1) unequalBlocks).v 0 0 ≠ unequalBlocks.v 0 0
      ∧ runActs acts (renumberMF (Equiv.swap 0 1) M) = (runActs acts M).map (renumberMF (Equiv.swap 0 1)) ∧ (renumberMF (Equiv.swap 0 1) M).vlb huge = M.vlb huge
      ∧ sbmLogProb huge (renumberBlocks (Equiv.swap 0 1) unequalBlocks) = sbmLogProb huge unequalBlocks ∧ ∃ l, sbmLogProb huge unequalBlocks = .ok l := by
  have h : PermutesProcesses (blocksOf M.net) (Equiv.swap 0 1) := by rw [hM]; exact swap_permutes
  refine ⟨?_, ?_, C107_meanfield M h acts, C107_vlb M h huge, C107_network_log_probability (.sbm unequalBlocks) swap_permutes huge, ?_⟩
  · simp [renumberBlocks, unequalBlocks, demoBlocks]
  · simp only [renumberBlocks, unequalBlocks, Equiv.swap_apply_left]; norm_num
  · refine ⟨_, C81_block_model_partial huge unequalBlocks (by norm_num [unequalBlocks, demoBlocks]) (fun b _ => by simp only [unequalBlocks]; positivity) (by norm_num [unequalBlocks, demoBlocks]) (by norm_num [unequalBlocks, demoBlocks]) (fun b _ => ?_) ?_ (fun a _ b _ => ?_)
      (fun a _ b _ => by simp only [unequalBlocks]; positivity) fun k _ => by simp only [unequalBlocks, demoBlocks]; omega⟩
    · simp only [unequalBlocks]; split_ifs <;> norm_num
    · show ∑ b ∈ range 2, (if b = 0 then (1 / 3 : ℝ) else 2 / 3) = 1
      rw [sum_range_succ, sum_range_one]; norm_num
    · simp only [unequalBlocks]; split_ifs <;> norm_num

end PyHawkes
