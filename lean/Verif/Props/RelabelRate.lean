import Verif.Props.Relabel
import Verif.Props.EvidenceBlock
import Verif.Props.LogLik
import Verif.Props.CTLogLik

/-!
# C104: rates, likelihoods and simulations do not depend on the numbering of the processes
-/
set_option linter.unusedSectionVars false
set_option linter.unusedVariables false

namespace PyHawkes
open Finset Spec

section
variable {σ : Equiv.Perm ℕ}

theorem relabel_forall {K : ℕ} (hσ : PermutesProcesses K σ) (p : ℕ → Prop) : (∀ k < K, p (σ k)) ↔ ∀ k < K, p k := by
  constructor
  · intro h k hk
    have := h (σ.symm k) ((hσ _).1 (by rwa [Equiv.apply_symm_apply]))
    rwa [Equiv.apply_symm_apply] at this
  · exact fun h k hk => h _ ((hσ k).2 hk)

theorem relabel_convolve {T K L B : ℕ} (hσ : PermutesProcesses K σ) (basis S : Mat ℝ) :
    SameOutcome (fun F F' : Ten ℝ => ∀ t k b, F' t k b = F t (σ k) b) (convolve T K L B basis S) (convolve T K L B basis fun t k => S t (σ k)) := by
  unfold convolve
  by_cases hB : B = 0
  · rw [if_pos hB, if_pos hB]; exact rfl
  rw [if_neg hB, if_neg hB]
  by_cases h0 : T = 0 ∨ K = 0 ∨ L = 0
  · rw [if_pos h0, if_pos h0]; exact rfl
  rw [if_neg h0, if_neg h0]
  dsimp only
  have hS : (∀ t < T, ∀ k < K, 0 ≤ S t (σ k)) ↔ ∀ t < T, ∀ k < K, 0 ≤ S t k := forall₂_congr fun t _ => relabel_forall hσ fun k => 0 ≤ S t k
  have hF : (∀ t < T, ∀ k < K, ∀ b < B, 0 ≤ clipLow (convRaw T L basis fun t k => S t (σ k)) t k b) ↔ ∀ t < T, ∀ k < K, ∀ b < B, 0 ≤ clipLow (convRaw T L basis S) t k b :=
    forall₂_congr fun t _ => relabel_forall hσ fun k => ∀ b < B, 0 ≤ clipLow (convRaw T L basis S) t k b
  simp only [hS, hF]
  split_ifs
  · exact fun _ _ _ => rfl
  · exact rfl
  · exact fun _ _ _ => rfl

variable {P P' : NetParams ℝ} (h : RelabelParams σ P P') (hσ : PermutesProcesses P.K σ)
include h hσ

theorem relabel_rateAll {F F' : Ten ℝ} (hF : ∀ t k b, F' t k b = F t (σ k) b) (t : ℕ) {k : ℕ} (hk : k < P.K) : rateAll P' F' t k = rateAll P F t (σ k) := by
  rw [rateAll_eq _ _ _ _ (h.size.1 ▸ hk), rateAll_eq _ _ _ _ ((hσ k).2 hk)]
  unfold Spec.rate
  rw [h.size.1, h.size.2.1, h.lam0]
  congr 1
  rw [← perm_sum hσ fun i => ∑ b ∈ range P.B, P.Weff i (σ k) * P.g i (σ k) b * F t i b]
  refine sum_congr rfl fun i _ => sum_congr rfl fun b _ => ?_
  rw [h.Weff, h.g, hF]

/-- **C104 (rates).** `compute_rate(S)` of the renumbered model on the renumbered counts returns the renumbered rates, or raises the same error. -/
theorem C104_rate_relabel (T : ℕ) (S : Mat ℝ) :
    SameOutcome (fun r r' : Mat ℝ => ∀ t, ∀ k < P.K, r' t k = r t (σ k)) (computeRate P T P.K S) (computeRate P' T P.K fun t k => S t (σ k)) := by
  have c := relabel_convolve (T := T) (L := P.L) (B := P.B) hσ P.basis S
  unfold computeRate
  rw [h.size.2.2.1, h.size.2.1, h.basis, h.size.1]
  cases e : convolve T P.K P.L P.B P.basis S <;> cases e' : convolve T P.K P.L P.B P.basis (fun t k => S t (σ k)) <;> rw [e, e'] at c <;> first | exact c.elim | exact c | skip
  dsimp only
  rw [if_neg (by simp), if_neg (by simp)]
  exact fun t k hk => relabel_rateAll h hσ c t hk

/-- **C104 (held-out likelihood).** -/
theorem C104_heldout_relabel (T : ℕ) (S : Mat ℕ) : heldoutLL P' T (fun t k => S t (σ k)) = heldoutLL P T S := by
  have c := C104_rate_relabel h hσ T fun t k => (S t k : ℝ)
  unfold heldoutLL
  rw [h.size.1]
  cases e : computeRate P T P.K (fun t k => (S t k : ℝ)) <;> cases e' : computeRate P' T P.K (fun t k => (S t (σ k) : ℝ)) <;> rw [e, e'] at c <;> first | exact c.elim | (exact congrArg Except.error (show _ = _ from c).symm) | skip
  rename_i r r'
  have c : ∀ t, ∀ k < P.K, r' t k = r t (σ k) := c
  refine congrArg Except.ok ?_
  unfold poissonLL
  refine sum_congr rfl fun t _ => ?_
  rw [← perm_sum hσ fun k => (S t k : ℝ) * Real.log (r t k) - r t k * P.dt]
  refine sum_congr rfl fun k hk => ?_
  rw [c t k (mem_range.1 hk), h.dt]

theorem relabel_llData {D D' : DParents ℝ} (hD : RelabelCounts σ D D') : llData P' D' = llData P D := by
  have ts : ∀ k, D'.ts k = D.ts (σ k) := fun k => by simp only [DParents.ts, hD.T, hD.S]
  have Ns : ∀ k, D'.Ns k = D.Ns (σ k) := fun k => by unfold DParents.Ns; rw [ts]; simp only [hD.S]
  unfold llData
  rw [forRange_add, forRange_add, h.size.1, ← perm_sum hσ fun k => llSingle P D k]
  congr 1
  refine sum_congr rfl fun k _ => ?_
  unfold llSingle
  dsimp only
  rw [h.lam0, hD.T, h.dt, h.size.1]
  congr 1
  · congr 2
    rw [← perm_sum hσ fun i => P.Weff i (σ k) * (D.Ns i : ℝ)]
    exact sum_congr rfl fun i _ => by rw [h.Weff, Ns]
  · refine forall₂_sum (R := fun r r' : ℕ × Mat ℝ => r'.1 = r.1 ∧ ∀ k b, r'.2 k b = r.2 (σ k) b) ?_ fun r r' hr => ?_
    · refine forall₂_zip (R := fun a b : ℕ => b = a) (Q := fun f f' : Mat ℝ => ∀ k b, f' k b = f (σ k) b) ?_ ?_
      · have : D'.Ss k = D.Ss (σ k) := by simp only [DParents.Ss, ts, hD.S]
        rw [this]; exact List.forall₂_same.2 fun _ _ => rfl
      · show List.Forall₂ _ (List.map _ _) (List.map _ _)
        rw [ts, List.forall₂_map_left_iff, List.forall₂_map_right_iff]
        exact List.forall₂_same.2 fun t _ k b => hD.F t k b
    · rw [hr.1]
      congr 3
      rw [h.size.2.1, ← perm_sum hσ fun i => ∑ b ∈ range P.B, P.Weff i (σ k) * P.g i (σ k) b * r.2 i b]
      exact sum_congr rfl fun i _ => sum_congr rfl fun b _ => by rw [h.Weff, h.g, hr.2]

/-- **C104 (training likelihood).** `log_likelihood()` does not depend on the numbering of the processes or the order of the data sets. -/
theorem C104_log_likelihood_relabel {dl dl' : List (DParents ℝ)} (hd : ∃ l, dl'.Perm l ∧ List.Forall₂ (RelabelCounts σ) dl l) : llModel P' dl' = llModel P dl := by
  obtain ⟨l, hp, hl⟩ := hd
  have e : ∀ (Q : NetParams ℝ) (m : List (DParents ℝ)), llModel Q m = (m.map (llData Q)).sum := by
    intro Q m
    unfold llModel
    rw [List.sum_eq_foldl, List.foldl_map]
  rw [e, e, (hp.map _).sum_eq]
  exact forall₂_sum hl fun D D' r => relabel_llData h hσ r

/-- **C104 (simulation).** If the Poisson draws of the two models agree under the renumbering, so do the generated counts and rates. -/
theorem C104_generate_relabel (draw draw' : ℕ → ℕ → ℝ → ℕ) (hd : ∀ t k m, draw' t k m = draw t (σ k) m) (T : ℕ) :
    SameOutcome (fun x x' : Mat ℕ × Mat ℝ => (∀ t k, x'.1 t k = x.1 t (σ k)) ∧ ∀ t k, x'.2 t k = x.2 t (σ k)) (generate P draw T) (generate P' draw' T) := by
  have hH : ∀ l k i, genH P' l k i = genH P l (σ k) (σ i) := fun l k i => by simp only [genH, h.Weff, h.basis, h.g, h.size.2.1]
  have step : ∀ (ts : List ℕ) (x x' : Mat ℕ × Mat ℝ), ((∀ t k, x'.1 t k = x.1 t (σ k)) ∧ ∀ t k, x'.2 t k = x.2 t (σ k)) →
      SameOutcome (fun x x' : Mat ℕ × Mat ℝ => (∀ t k, x'.1 t k = x.1 t (σ k)) ∧ ∀ t k, x'.2 t k = x.2 t (σ k)) (forListE ts (genStep P draw) x) (forListE ts (genStep P' draw') x') := by
    intro ts
    induction ts with
    | nil => intro x x' hx; exact hx
    | cons t ts ih =>
      intro x x' hx
      have hneg : (∃ k < P'.K, x'.2 t k * P'.dt < 0) ↔ ∃ k < P.K, x.2 t k * P.dt < 0 := by
        rw [h.size.1, h.dt]
        simp only [hx.2]
        have := relabel_forall hσ fun k => ¬ x.2 t k * P.dt < 0
        have := not_congr this
        push Not at this
        simpa only [exists_prop, not_lt] using this
      simp only [forListE]
      have one : SameOutcome (fun x x' : Mat ℕ × Mat ℝ => (∀ t k, x'.1 t k = x.1 t (σ k)) ∧ ∀ t k, x'.2 t k = x.2 t (σ k)) (genStep P draw t x) (genStep P' draw' t x') := by
        unfold genStep
        by_cases hc : ∃ k < P.K, x.2 t k * P.dt < 0
        · rw [if_pos hc, if_pos (hneg.2 hc)]; exact rfl
        · rw [if_neg hc, if_neg (fun c => hc (hneg.1 c))]
          dsimp only
          refine ⟨fun s k => ?_, fun s k => ?_⟩
          · dsimp only
            rw [hd, hx.2, hx.1, h.dt]
          · dsimp only
            rw [h.size.2.2.1, h.size.1, hx.2, ← perm_sum hσ fun i => genH P (s - t) (σ k) i * (draw t i (x.2 t i * P.dt) : ℝ)]
            simp only [hH, hd, hx.2, h.dt]
      cases e : genStep P draw t x <;> cases e' : genStep P' draw' t x' <;> rw [e, e'] at one <;> first | exact one.elim | exact one | skip
      exact ih _ _ one
  unfold generate
  rw [h.size.2.2.2]
  split_ifs
  · exact rfl
  · exact step _ _ _ ⟨fun _ _ => rfl, fun t k => h.lam0 k⟩

end

/-! ### continuous time -/
section
variable {σ : Equiv.Perm ℕ} {P P' : CTParams} (h : RelabelCTParams σ P P') (hσ : PermutesProcesses P.K σ)
include h

theorem relabel_rateScan {D D' : CTData} (hD : RelabelEvents σ D D') (n m : ℕ) (lam : ℝ) : rateScan P' D' n m lam = rateScan P D n m lam := by
  have hW : ∀ i j, P'.Weff (D'.C i) (D'.C j) = P.Weff (D.C i) (D.C j) := fun i j => by simp only [CTParams.Weff, h.A, h.W, hD.C]
  have hw : ∀ m, parWeight P' D' n m = parWeight P D n m := fun m => by
    simp only [parWeight, CTParams.Weff, h.A, h.W, h.mu, h.tau, h.dtMax, hD.C, hD.S]
  induction m generalizing lam with
  | zero => rfl
  | succ m ih =>
    simp only [rateScan, hD.S, h.dtMax, hW, hw, ih]

include hσ

/-- **C104 (continuous time).** `log_likelihood()` of the continuous-time model does not depend on the numbering of the processes or the order of the data sets. -/
theorem C104_ct_log_likelihood_relabel {dl dl' : List CTData} (hd : ∃ l, dl'.Perm l ∧ List.Forall₂ (RelabelEvents σ) dl l) : ctLogLik P' dl' = ctLogLik P dl := by
  obtain ⟨l, hp, hl⟩ := hd
  have e : ∀ (Q : CTParams) (m : List CTData), ctLogLik Q m = (m.map fun d => -∑ k ∈ range Q.K, integratedRate Q d k + ∑ n ∈ range d.N, Real.log (rateAtEvents Q d n)).sum := by
    intro Q m
    unfold ctLogLik
    rw [List.sum_eq_foldl, List.foldl_map]
    congr 1
    funext a d
    ring
  rw [e, e, (hp.map _).sum_eq]
  refine forall₂_sum hl fun D D' hD => ?_
  have hNs : ∀ k, D'.Ns k = D.Ns (σ k) := fun k => by
    unfold CTData.Ns
    rw [hD.N]
    congr 1
    refine List.filter_congr fun n _ => ?_
    rw [← hD.C n]
    simp only [σ.injective.eq_iff]
  congr 1
  · rw [h.K, ← perm_sum hσ fun k => integratedRate P D k]
    congr 1
    refine sum_congr rfl fun k _ => ?_
    unfold integratedRate
    rw [h.lam0, hD.T, h.K, ← perm_sum hσ fun i => P.Weff i (σ k) * (D.Ns i : ℝ)]
    congr 1
    exact sum_congr rfl fun i _ => by simp only [CTParams.Weff, h.A, h.W, hNs]
  · rw [hD.N]
    refine sum_congr rfl fun n _ => ?_
    unfold rateAtEvents
    rw [relabel_rateScan h hD, h.lam0, hD.C]

end
/-! ### reported log probabilities -/
section
variable {σ : Equiv.Perm ℕ}

theorem relabel_fxSum2 {K : ℕ} (hσ : PermutesProcesses K σ) {f' f : ℕ → ℕ → FX} (e : ∀ i j, f' i j = f (σ i) (σ j)) : fxSum2 K f' = fxSum2 K f := by
  unfold fxSum2
  simp only [fx_range]
  rw [← perm_sum2 hσ f]
  simp only [e]

variable {s s' : HawkesState} (h : RelabelState σ s s') (hσ : PermutesProcesses s.base.K σ)
include h hσ

/-- **C104 (log probability, spike and slab).** Any network: `log_prior()` and `log_probability()` do not depend on the numbering of the processes or the order of the data sets. -/
theorem C104_log_probability_relabel (huge : ℝ) : logPriorSS huge s' = logPriorSS huge s ∧ logProbSS huge s' = logProbSS huge s := by
  have hp : logPriorSS huge s' = logPriorSS huge s := by
    unfold logPriorSS ssLogLik
    dsimp only
    rw [h.base.size.1, h.kappa]
    congr 2
    · congr 2
      exact relabel_fxSum2 hσ fun i j => by rw [h.A, h.P]
    · exact relabel_fxSum2 hσ fun i j => by rw [h.A, h.V, h.W]
  refine ⟨hp, ?_⟩
  unfold logProbSS
  rw [hp, C104_log_likelihood_relabel (σ := σ) (P := s.params) (P' := s'.params) ⟨h.base.size, h.base.dt, h.base.basis, h.base.lam0, fun i j => ?_, h.base.g⟩ hσ h.data]
  show s'.A i j * s'.W i j = s.A _ _ * s.W _ _
  rw [h.A, h.W]

/-- **C104 (log probability, gamma mixture).** -/
theorem C104_log_probability_mix_relabel (kappa0 nu0 : ℝ) : logPriorMix kappa0 nu0 s' = logPriorMix kappa0 nu0 s ∧ logProbMix kappa0 nu0 s' = logProbMix kappa0 nu0 s := by
  have hp : logPriorMix kappa0 nu0 s' = logPriorMix kappa0 nu0 s := by
    unfold logPriorMix mixLogLik
    dsimp only
    rw [h.base.size.1, h.kappa]
    congr 1
    refine congrArg₂ _ (congrArg₂ _ ?_ ?_) ?_
    · exact relabel_fxSum2 hσ fun i j => by rw [h.A, h.P]
    · exact relabel_fxSum2 hσ fun i j => by rw [h.A, h.W]
    · exact relabel_fxSum2 hσ fun i j => by rw [h.A, h.V, h.W]
  refine ⟨hp, ?_⟩
  unfold logProbMix
  rw [hp, C104_log_likelihood_relabel (σ := σ) (P := s.paramsMix) (P' := s'.paramsMix) ⟨h.base.size, h.base.dt, h.base.basis, h.base.lam0, h.W, h.base.g⟩ hσ h.data]

end

/-- **C104 (log probability, continuous time).** -/
theorem C104_ct_log_probability_relabel {σ : Equiv.Perm ℕ} {s s' : CTState} (h : RelabelCTState σ s s') (hσ : PermutesProcesses s.P.K σ) : ctLogPrior s' = ctLogPrior s ∧ ctLogProb s' = ctLogProb s := by
  have hp : ctLogPrior s' = ctLogPrior s := by
    unfold ctLogPrior biasLogLik
    rw [h.P.K, h.hyper.1, h.hyper.2, fx_range, fx_range]
    congr 4
    rw [← perm_sum hσ fun k => FX.fin (s.alpha - 1) * FX.log (s.P.lam0 k) - FX.fin (s.beta * s.P.lam0 k)]
    exact sum_congr rfl fun k _ => by rw [h.P.lam0]
  refine ⟨hp, ?_⟩
  unfold ctLogProb
  rw [hp, C104_ct_log_likelihood_relabel h.P hσ h.data]

/-! ### order of the data sets, for every network -/

theorem order_expSum {l l' : List (DParents ℝ)} (hp : l'.Perm l) (f : DParents ℝ → ℝ) : expSum l' f = expSum l f := by
  rw [expSum_eq, expSum_eq, (hp.map f).sum_eq]

theorem order_globals {M : MFModel} {l l' : List (DParents ℝ)} (hp : l'.Perm l) (dl : List (DParents ℝ)) (frac step : ℝ) (u : MFWeights → MFNet → Except PyErr MFNet) :
    SameOutcome (fun N N' : MFModel => N.data = M.data ∧ N' = { N with data := dl }) (M.updateGlobals l frac step u) ({ M with data := dl }.updateGlobals l' frac step u) := by
  unfold MFModel.updateGlobals
  have e1 : M.bias.update l' frac step = M.bias.update l frac step := by unfold MFBias.update; simp only [order_expSum hp]
  have e2 : M.imp.update M.B l' frac step = M.imp.update M.B l frac step := by unfold MFImp.update; simp only [order_expSum hp]
  have e3 : M.w.update M.K M.B M.net l' frac step = M.w.update M.K M.B M.net l frac step := by unfold MFWeights.update MFWeights.updateKappaV; simp only [order_expSum hp]
  dsimp only
  rw [e1, e2, e3]
  by_cases h : l = []
  · rw [if_pos h, if_pos (by rw [h] at hp; exact List.perm_nil.1 hp)]; exact rfl
  · rw [if_neg h, if_neg (by rintro rfl; exact h (List.nil_perm.1 hp))]
    cases M.w.update M.K M.B M.net l frac step with
    | error e => exact rfl
    | ok w =>
      dsimp only
      cases u w M.net with
      | error e => exact rfl
      | ok n => exact ⟨rfl, rfl⟩

theorem order_step {M : MFModel} {dl : List (DParents ℝ)} (hp : dl.Perm M.data) (a : MFAct) : SameOutcome SameButOrder (a.run M) (a.run { M with data := dl }) := by
  cases a with
  | coord =>
    have k := order_globals (M := M) (hp.map M.updateParents) dl 1 1 MFNet.meanfieldupdate
    show SameOutcome _ M.coordStep (MFModel.coordStep _)
    unfold MFModel.coordStep
    dsimp only
    have eu : (MFModel.updateParents { M with data := dl }) = M.updateParents := rfl
    rw [eu]
    generalize M.updateGlobals _ _ _ _ = X at k ⊢
    generalize MFModel.updateGlobals _ _ _ _ _ = X' at k ⊢
    cases X <;> cases X' <;> first | exact k.elim | exact k | skip
    rename_i N N'
    obtain ⟨k1, k2⟩ : N.data = M.data ∧ N' = { N with data := dl } := k
    exact ⟨hp.map _, by rw [k2]⟩
  | sgd mb st =>
    show SameOutcome _ (M.sgdStep mb st) (({ M with data := dl } : MFModel).sgdStep mb st)
    cases hd : M.data with
    | nil => rw [hd] at hp; obtain rfl := List.perm_nil.1 hp; unfold MFModel.sgdStep; rw [hd]; exact rfl
    | cons D l => cases l with
      | nil =>
        rw [hd] at hp
        obtain rfl := List.perm_singleton.1 hp
        have e : ({ M with data := [D] } : MFModel) = M := by rw [← hd]
        rw [e]
        generalize M.sgdStep mb st = X
        cases X with
        | error e => exact rfl
        | ok N => exact ⟨List.Perm.refl _, rfl⟩
      | cons D2 l =>
        unfold MFModel.sgdStep
        rw [hd] at hp ⊢
        have hlen := hp.length_eq
        match dl, hlen with
        | [], hlen => simp at hlen
        | [_], hlen => simp at hlen
        | _ :: _ :: _, _ => exact rfl

/-- **C104 (order of the data sets).** For every network the order in which the data sets were added does not matter: any sequence of mean-field steps ends the same way, with the same error or with states that
are equal except for the order of their data sets, and `get_vlb()` agrees on them. -/
theorem C104_data_order (huge : ℝ) {M M' : MFModel} (h : SameButOrder M M') (acts : List MFAct) :
    SameOutcome (fun N N' => SameButOrder N N' ∧ N'.vlb huge = N.vlb huge) (runActs acts M) (runActs acts M') := by
  induction acts generalizing M M' with
  | nil =>
    refine ⟨h, ?_⟩
    obtain ⟨hp, he⟩ := h
    rw [he]
    unfold MFModel.vlb
    dsimp only
    have : FX.sum (M'.data.map (MFModel.parentsVlb { M with data := M'.data })) = FX.sum (M.data.map M.parentsVlb) := by
      rw [FX.sum_eq, FX.sum_eq]
      exact (hp.map M.parentsVlb).sum_eq
    rw [this]
  | cons a as ih =>
    have step := order_step h.1 a
    rw [← h.2] at step
    simp only [runActs]
    cases e : a.run M <;> cases e' : a.run M' <;> rw [e, e'] at step <;> first | exact step.elim | exact step | skip
    exact ih step

/-! ### concrete cases -/

/-- every model and every recording have a renumbered version, so the hypotheses above can be met for any `P`, `D` and `σ` -/
example (σ : Equiv.Perm ℕ) (P : NetParams ℝ) (D : DParents ℝ) :
    RelabelParams σ P { P with lam0 := fun k => P.lam0 (σ k), Weff := fun i j => P.Weff (σ i) (σ j), g := fun i j => P.g (σ i) (σ j) } ∧
      RelabelCounts σ D { T := D.T, S := fun t k => D.S t (σ k), F := fun t k => D.F t (σ k) } :=
  ⟨⟨⟨rfl, rfl, rfl, rfl⟩, rfl, rfl, fun _ => rfl, fun _ _ => rfl, fun _ _ _ => rfl⟩, rfl, fun _ _ => rfl, fun _ _ _ => rfl⟩

example (σ : Equiv.Perm ℕ) (P : CTParams) (D : CTData) :
    RelabelCTParams σ P { P with lam0 := fun k => P.lam0 (σ k), W := fun i j => P.W (σ i) (σ j), A := fun i j => P.A (σ i) (σ j), mu := fun i j => P.mu (σ i) (σ j), tau := fun i j => P.tau (σ i) (σ j) } ∧
      RelabelEvents σ D { D with C := fun n => σ.symm (D.C n) } :=
  ⟨⟨rfl, rfl, fun _ => rfl, fun _ _ => rfl, fun _ _ => rfl, fun _ _ => rfl, fun _ _ => rfl⟩, rfl, rfl, rfl, fun _ => Equiv.apply_symm_apply _ _⟩

theorem swap_permutes : PermutesProcesses 2 (Equiv.swap 0 1) := by
  intro k
  by_cases h0 : k = 0
  · subst h0; simp
  by_cases h1 : k = 1
  · subst h1; simp
  rw [Equiv.swap_apply_of_ne_of_ne h0 h1]

/-- `evBlock` with its two processes exchanged and a second, empty recording put first -/
noncomputable def evSwap : MFModel :=
  { evBlock with data := [{ T := 2, S := fun _ _ => 0, F := fun _ _ _ => 0 }, { T := 3, S := fun t k => if t = Equiv.swap 0 1 k then 1 else 0, F := fun t k _ => if Equiv.swap 0 1 k < t then 1 else 0 }] }

/-- a concrete pair of models meets the hypotheses of `C104_meanfield_relabel` and `C104_vlb_relabel`; the two differ in their counts -/
theorem C104_demo (huge : ℝ) (acts : List MFAct) :
    let M : MFModel := { evBlock with data := evBlock.data ++ [{ T := 2, S := fun _ _ => 0, F := fun _ _ _ => 0 }] }
    SameOutcome (RelabelMF (Equiv.swap 0 1)) (runActs acts M) (runActs acts evSwap) ∧ evSwap.vlb huge = M.vlb huge ∧ ∃ D ∈ M.data, ∀ D' ∈ evSwap.data, D.S ≠ D'.S ∨ D.T ≠ D'.T := by
  intro M
  have h : RelabelMF (Equiv.swap 0 1) M evSwap := by
    refine ⟨⟨rfl, rfl⟩, ⟨rfl, rfl, rfl, rfl, rfl, rfl⟩, fun _ => ⟨rfl, rfl⟩, fun _ _ _ _ => rfl, fun i j => ?_, fun _ _ => ⟨rfl, rfl⟩, fun _ _ => ⟨rfl, rfl⟩, ?_, rfl, ⟨_, List.Perm.swap _ _ _, .cons ?_ (.cons ?_ .nil)⟩, rfl⟩
    · rfl
    · exact ⟨rfl, ⟨rfl, rfl⟩, ⟨rfl, rfl, rfl, rfl, rfl, rfl⟩, rfl, rfl, rfl, rfl, fun _ => rfl, rfl, ⟨rfl, rfl⟩, ⟨rfl, rfl⟩, fun _ => rfl⟩
    · refine ⟨rfl, fun _ _ => rfl, fun _ _ _ => rfl, fun k => ?_⟩
      show List.Forall₂ _ (List.map _ _) (List.map _ _)
      rw [List.forall₂_map_left_iff, List.forall₂_map_right_iff]
      exact List.forall₂_same.2 fun _ _ => ⟨rfl, fun _ _ _ => rfl⟩
    · refine ⟨rfl, fun _ _ => rfl, fun _ _ _ => rfl, fun k => ?_⟩
      show List.Forall₂ _ (List.map _ _) (List.map _ _)
      rw [List.forall₂_map_left_iff, List.forall₂_map_right_iff]
      exact List.forall₂_same.2 fun _ _ => ⟨rfl, fun _ _ _ => rfl⟩
  refine ⟨C104_meanfield_relabel h swap_permutes acts, C104_vlb_relabel huge h swap_permutes, _, List.mem_append_left _ (List.mem_singleton.2 rfl), fun D' hD' => ?_⟩
  rcases List.mem_cons.1 hD' with rfl | hD'
  · right; show (3 : ℕ) ≠ 2; norm_num
  · rw [List.mem_singleton.1 hD']
    left
    intro e
    have := congrFun (congrFun e 0) 0
    simp at this

end PyHawkes
