import Verif.Props.EvidenceMain
import Verif.Props.MixProper

/-!
# C103: `get_vlb()` is a lower bound on the log evidence
-/
set_option linter.unusedSectionVars false
set_option linter.unusedVariables false

namespace PyHawkes
open Finset Spec MeasureTheory ProbabilityTheory

theorem mapF_id (D : DParents ℝ) : mapF (fun f => f) D = D := rfl

/-- parents are attributed only where the filtered counts are positive -/
def Supported (K B : ℕ) (D : DParents ℝ) : Prop :=
  ∀ k2 < K, ∀ r ∈ zRows D k2, ∀ k < K, ∀ b < B, 0 < r.1 (1 + k * B + b) → 0 < r.2.2 k b

theorem supported_update (M : MFModel) (hs : M.net.allowSelf = true) {D : DParents ℝ} (hF : ∀ t k b, 0 ≤ D.F t k b) : Supported M.K M.B (M.updateParents D) := by
  intro k2 hk r hr k hk' b hb hz
  have e : zRows (M.updateParents D) k2 = (((D.Ss k2).zip (D.Fs k2)).map fun p =>
      mfRowPy M.K M.B (Real.exp (M.bias.eLnLam k2)) (fun k1 => Real.exp (M.w.lnWR k1 k2)) (fun k1 b => Real.exp (M.imp.eLnG M.B k1 k2 b)) p.1 p.2).zip ((D.Ss k2).zip (D.Fs k2)) := by
    unfold zRows
    rw [updateParents_EZ M hs]
    rfl
  rw [e] at hr
  have e2 : ∀ (l : List (ℕ × Mat ℝ)) (F : ℕ × Mat ℝ → Vec ℝ), (l.map F).zip l = l.map fun p => (F p, p) := by
    intro l F
    induction l with
    | nil => rfl
    | cons a l ih => simp [ih]
  rw [e2] at hr
  obtain ⟨q, hq, rfl⟩ := List.mem_map.1 hr
  have hf := (List.of_mem_zip hq).2
  simp only [DParents.Fs, List.mem_map] at hf
  obtain ⟨t, _, hf⟩ := hf
  dsimp only at hz ⊢
  rw [mfRowPy_col _ _ _ _ _ _ _ _ _ hb] at hz
  by_contra h0
  have : q.2 k b = 0 := le_antisymm (not_lt.1 h0) (hf ▸ hF t k b)
  rw [this] at hz
  simp at hz

theorem run_sup {M M' : MFModel} {a : MFAct} (hs : M.net.allowSelf = true) (h : a.run M = .ok M') (hd : ∀ D ∈ M.data, DataOk D)
    (hsum : a = .coord ∨ ∀ D ∈ M.data, Supported M.K M.B D) : ∀ D ∈ M'.data, Supported M.K M.B D := by
  cases a with
  | coord =>
    simp only [MFAct.run, MFModel.coordStep] at h
    split at h
    · cases h
    · cases h
      intro D hD
      obtain ⟨D', hD', rfl⟩ := List.mem_map.1 hD
      exact supported_update M hs (hd D' hD').2.2.2
  | sgd mb s =>
    have hsum := hsum.resolve_left (by simp)
    simp only [MFAct.run, MFModel.sgdStep] at h
    split at h
    · split at h
      · cases h
      · rename_i e
        cases h
        intro D hD
        have := globals_data e
        exact hsum D (by rw [← this]; exact hD)
    · cases h

theorem runActs_sup (M0 : MFModel) (g : MFGood M0) (hK : 0 < M0.K) (hI : Interior M0.K M0.net) (acts : List MFAct) (hl : ∀ a ∈ acts, a.Legal M0) :
    ∀ {M M' : MFModel}, MFInv M0 M → runActs acts M = .ok M' → (∀ D ∈ M.data, DataOk D) → (.coord ∈ acts ∨ ∀ D ∈ M.data, Supported M0.K M0.B D) →
      ∀ D ∈ M'.data, Supported M0.K M0.B D := by
  induction acts with
  | nil =>
    intro M M' _ h _ hs
    cases h
    exact hs.resolve_left (by simp)
  | cons a as ih =>
    intro M M' hM h hd hs
    have hself : M.net.allowSelf = true := by
      have := (Interior.logs hI hM.net hK hK).2.2
      simpa using this
    obtain ⟨M1, e1, h1⟩ := runActs_step g hM (hl a List.mem_cons_self)
    simp only [runActs, e1] at h
    have hd1 := run_data e1 hd
    have hl' : ∀ b ∈ as, b.Legal M0 := fun b hb => hl b (List.mem_cons_of_mem _ hb)
    by_cases hin : MFAct.coord ∈ as
    · exact ih hl' h1 h hd1 (.inl hin)
    · refine ih hl' h1 h hd1 (.inr ?_)
      have := run_sup hself e1 hd (by
        rcases hs with hs | hs
        · rcases List.mem_cons.1 hs with hs | hs
          · exact .inl hs.symm
          · exact absurd hs hin
        · right; rw [hM.K, hM.B]; exact hs)
      rw [hM.K, hM.B] at this
      exact this

theorem run_obs {M M' : MFModel} {a : MFAct} (h : a.run M = .ok M') : List.Forall₂ SameObs M.data M'.data := by
  cases a with
  | coord =>
    simp only [MFAct.run, MFModel.coordStep] at h
    split at h
    · cases h
    · cases h
      dsimp only
      rw [List.forall₂_map_right_iff]
      exact List.forall₂_same.2 fun D _ => ⟨rfl, rfl, rfl⟩
  | sgd mb s =>
    simp only [MFAct.run, MFModel.sgdStep] at h
    split at h
    · split at h
      · cases h
      · rename_i e
        cases h
        dsimp only
        rw [globals_data e]
        exact List.forall₂_same.2 fun D _ => ⟨rfl, rfl, rfl⟩
    · cases h

theorem SameObs.trans' {l1 l2 l3 : List (DParents ℝ)} (h : List.Forall₂ SameObs l1 l2) (h' : List.Forall₂ SameObs l2 l3) : List.Forall₂ SameObs l1 l3 := by
  induction h generalizing l3 with
  | nil => cases h'; exact .nil
  | cons a _ ih =>
    cases h' with
    | cons b h' => exact .cons ⟨b.1.trans a.1, b.2.1.trans a.2.1, b.2.2.trans a.2.2⟩ (ih h')

theorem SameObs.symm' {l1 l2 : List (DParents ℝ)} (h : List.Forall₂ SameObs l1 l2) : List.Forall₂ SameObs l2 l1 := by
  induction h with
  | nil => exact .nil
  | cons a _ ih => exact .cons ⟨a.1.symm, a.2.1.symm, a.2.2.symm⟩ ih

theorem runActs_obs {acts : List MFAct} {M M' : MFModel} (h : runActs acts M = .ok M') : List.Forall₂ SameObs M.data M'.data := by
  induction acts generalizing M with
  | nil => cases h; exact List.forall₂_same.2 fun D _ => ⟨rfl, rfl, rfl⟩
  | cons a as ih =>
    simp only [runActs] at h
    split at h
    · cases h
    · rename_i e
      exact SameObs.trans' (run_obs e) (ih h)

/-- the settings stay shared along a history -/
theorem sharedStep {M0 M : MFModel} {c : HawkesState} {n : ERFixed} (sh : SharedSettings M0 c n) (h : MFInv M0 M) : SharedSettings M c n := by
  obtain ⟨sK, sB, sa, sb, sg, m, sn, sP, sκ, al, be, a, b, na, nb, ma, mb, mm, hal, hbe, ha, hb⟩ := sh
  have hn := h.net
  rw [sn] at hn
  refine ⟨h.K.trans sK, h.B.trans sB, h.bias.1.trans sa, h.bias.2.1.trans sb, h.gamma.trans sg, ?_⟩
  cases hM : M.net with
  | er m' =>
    rw [hM] at hn
    obtain ⟨hK, hκ, hp, hs, haa, hbb, hv⟩ := hn
    obtain ⟨a', b', e, h1, h2⟩ := hv al be a b ma mb mm
    refine ⟨m', rfl, ?_, hκ.trans sκ, al, be, a', b', na, nb, haa.trans ma, hbb.trans mb, e, hal, hbe, (lt_min ha hal).trans_le h1, (lt_min hb hbe).trans_le h2⟩
    rw [← sP]
    unfold ERFixed.P
    rw [hs, hp]
  | sbm _ => rw [hM] at hn; exact hn.elim
  | fixedSparsity _ => rw [hM] at hn; exact hn.elim

theorem rowSlack_guard (K B : ℕ) (data : List (DParents ℝ)) :
    (data.map (rowSlack K B fun z f k b => 1e-32 * (z (1 + k * B + b) / f k b))).sum = guardSlack K B data := by
  unfold guardSlack
  rw [← List.sum_map_mul_left]
  congr 1
  refine List.map_congr_left fun D _ => ?_
  unfold rowSlack
  rw [mul_sum]
  refine sum_congr rfl fun k _ => ?_
  rw [zRows_eq, show (D.getEZ k).zip (D.Fs k) = ((D.getEZ k).zip (D.ts k)).map fun p => (p.1, D.F p.2) from zip_rows _ _ _, List.map_map, List.map_map, ← List.sum_map_mul_left]
  congr 1
  refine List.map_congr_left fun p _ => ?_
  simp only [Function.comp_apply, mul_sum]

theorem log_guard {z f : ℝ} (hz : 0 ≤ z) (hf : 0 < z → 0 < f) : z * Real.log (f + 1e-32) ≤ z * Real.log f + 1e-32 * (z / f) := by
  rcases hz.eq_or_lt with h | h
  · rw [← h]; simp
  · have f0 := hf h
    have := Real.log_le_sub_one_of_pos (show 0 < (f + 1e-32) / f by positivity)
    rw [Real.log_div (by positivity) f0.ne', add_div, div_self f0.ne'] at this
    have := mul_le_mul_of_nonneg_left this hz
    have e : z * (1 + 1e-32 / f - 1) = 1e-32 * (z / f) := by ring
    linarith

/-- a finite, nonzero evidence turns the inequality of measures into one of logarithms -/
theorem log_form {E : ENNReal} (hE : E ≠ ⊤) {x : ℝ} (h : ENNReal.ofReal (Real.exp x) ≤ E) : x ≤ Real.log E.toReal := by
  have h1 : Real.exp x ≤ E.toReal := by
    have := ENNReal.toReal_mono hE h
    rwa [ENNReal.toReal_ofReal (Real.exp_pos _).le] at this
  rw [Real.le_log_iff_exp_le (lt_of_lt_of_le (Real.exp_pos _) h1)]
  exact h1

theorem sharedSelf {M : MFModel} {c : HawkesState} {n : ERFixed} (sh : SharedSettings M c n) (hK : 0 < M.K) (hp : ∀ i < c.base.K, ∀ j < c.base.K, 0 < n.P i j ∧ n.P i j < 1) : Interior M.K M.net ∧ M.net.allowSelf = true := by
  obtain ⟨sK, sB, sa, sb, sg, m, sn, sP, -⟩ := sh
  have hI : ∀ i < M.K, ∀ j < M.K, 0 < m.P i j ∧ m.P i j < 1 := by
    rw [sP, sK]; exact hp
  refine ⟨?_, ?_⟩
  · rw [sn]; exact hI
  · rw [sn]
    show m.allowSelf = true
    have := (hI 0 hK 0 hK).1
    by_contra hc
    rw [Bool.not_eq_true] at hc
    simp [ERFixed.P, hc] at this

theorem reach_fin (huge : ℝ) {M0 : MFModel} {c : HawkesState} {n : ERFixed} (g : MFGood M0) (hK : 0 < M0.K) (sh : SharedSettings M0 c n)
    (hp : ∀ i < c.base.K, ∀ j < c.base.K, 0 < n.P i j ∧ n.P i j < 1) (hd : ∀ D ∈ M0.data, D.EZ = none ∧ ∀ t k, D.S t k < 2 ^ 32) (acts : List MFAct) (hl : ∀ a ∈ acts, a.Legal M0) :
    ∃ M x, runActs acts M0 = .ok M ∧ MFInv M0 M ∧ M.vlb huge = .ok (.fin x) := by
  obtain ⟨hI, -⟩ := sharedSelf sh hK hp
  have hf : ∀ m, M0.net ≠ .fixedSparsity m := by
    obtain ⟨-, -, -, -, -, m, sn, -⟩ := sh
    intro m'
    rw [sn]
    exact MFNet.noConfusion
  obtain ⟨M, e, hM⟩ := runActs_inv M0 g acts hl
  have hD0 : ∀ D ∈ M0.data, DataOk D := fun D hD => DataOk.fresh (hd D hD).1 (hd D hD).2 (g.data.2 D hD).2
  obtain ⟨x, hx⟩ := vlb_finite huge g hM hI hf (runActs_data e hD0)
  exact ⟨M, x, e, hM, hx⟩

/-- the evidence bound in every reachable state, with the filtered counts of the likelihood given by `φ` and the price of the guards by `d` -/
theorem reach_le (huge : ℝ) {M0 M : MFModel} {c : HawkesState} {n : ERFixed} (g : MFGood M0) (hK : 0 < M0.K) (sh : SharedSettings M0 c n) (h : CfgOk c n)
    (hdt : c.base.dt ≤ 1) (hp : ∀ i < c.base.K, ∀ j < c.base.K, 0 < n.P i j ∧ n.P i j < 1)
    (hd : ∀ D ∈ M0.data, D.EZ = none ∧ ∀ t k, D.S t k < 2 ^ 32) (acts : List MFAct) (hl : ∀ a ∈ acts, a.Legal M0) (hc : .coord ∈ acts) (e : runActs acts M0 = .ok M) (hM : MFInv M0 M)
    (φ : Mat ℝ → Mat ℝ) (d : Vec ℝ → Mat ℝ → Mat ℝ) (hφ : ∀ f k b, 0 ≤ f k b → 0 ≤ φ f k b)
    (hall : (∀ f k b, 0 ≤ f k b → 0 < φ f k b) ∨ φ = fun f => f)
    (hdd : ∀ (z : Vec ℝ) (f : Mat ℝ), (∀ j, 0 ≤ z j) → (∀ k b, 0 ≤ f k b) → ∀ k b, (0 < z (1 + k * M.B + b) → 0 < φ f k b) →
      z (1 + k * M.B + b) * Real.log (f k b + 1e-32) ≤ z (1 + k * M.B + b) * Real.log (φ f k b) + d z f k b)
    (hobs : List.Forall₂ SameObs (M0.data.map (mapF φ)) c.data) {x : ℝ} (hx : M.vlb huge = .ok (.fin x)) :
    ENNReal.ofReal (Real.exp (x - (((c.base.K * c.base.K : ℕ) : ℝ) - 1) * lnDirNorm c.base.B c.gamma - (M.data.map (rowSlack c.base.K c.base.B d)).sum))
      ≤ ∫⁻ θ, likelihoodMix c θ ∂priorMix M0.w.kappa0 M0.w.nu0 c n := by
  obtain ⟨hI, -⟩ := sharedSelf sh hK hp
  have hD0 : ∀ D ∈ M0.data, DataOk D := fun D hD => DataOk.fresh (hd D hD).1 (hd D hD).2 (g.data.2 D hD).2
  have hD := runActs_data e hD0
  have shM := sharedStep sh hM
  have hself := (sharedSelf shM (hM.K ▸ hK) hp).2
  have hsum := runActs_sum M0 g hK hI acts hl (MFInv.refl g) e hD0 (.inl hc)
  have hsup := runActs_sup M0 g hK hI acts hl (MFInv.refl g) e hD0 (.inl hc)
  rw [← hM.K, ← hM.B] at hsum hsup
  have w0 : 0 < M.w.kappa0 ∧ 0 < M.w.nu0 := by rw [hM.w.1, hM.w.2]; exact g.w
  have rowF : ∀ D ∈ M.data, ∀ k2, ∀ r ∈ zRows D k2, ∀ k b, 0 ≤ r.2.2 k b := by
    intro D hD' k2 r hr k b
    rw [zRows_eq] at hr
    obtain ⟨p, _, rfl⟩ := List.mem_map.1 hr
    exact (hD D hD').2.2.2 _ _ _
  have sup : ∀ D ∈ M.data, ∀ k2 < M.K, ∀ r ∈ zRows D k2, ∀ k < M.K, ∀ b < M.B, 0 < r.1 (1 + k * M.B + b) → 0 < φ r.2.2 k b := by
    intro D hD' k2 hk2 r hr k hk b hb hz
    rcases hall with h1 | h1
    · exact h1 _ _ _ (rowF D hD' k2 r hr k b)
    · rw [h1]; exact hsup D hD' k2 hk2 r hr k hk b hb hz
  have obs : List.Forall₂ SameObs (M.data.map (mapF φ)) (M0.data.map (mapF φ)) := by
    rw [List.forall₂_map_left_iff, List.forall₂_map_right_iff]
    exact (SameObs.symm' (runActs_obs e)).imp fun D D' hh => ⟨hh.1, hh.2.1, by show (fun t => φ (D'.F t)) = fun t => φ (D.F t); rw [hh.2.2]⟩
  have key := vlb_le_evidence huge shM h hself hdt hp (fun k hk => by
      rw [hM.K] at hk
      have := hM.valid.bias k hk
      have gb := g.bias.2.2.2 k hk
      exact ⟨(lt_min gb.1 g.bias.1).trans_le this.1, (lt_min gb.2 g.bias.2.1).trans_le this.2⟩)
    (fun i hi j hj b hb => by
      rw [hM.K] at hi hj
      rw [hM.B] at hb
      have := hM.valid.imp i hi j hj b hb
      have gi := g.imp b hb
      exact (lt_min (gi.2 i hi j hj) gi.1).trans_le this)
    w0 (hM.wPos g) hM.pOpen hD hsum φ d (fun D hD' t k _ b _ => hφ _ _ _ ((hD D hD').2.2.2 t k b)) sup
    (fun D hD' k2 hk2 r hr k hk b hb => hdd r.1 r.2.2 ((hD D hD').1 k2 r.1 (List.of_mem_zip hr).1) (rowF D hD' k2 r hr) k b (sup D hD' k2 hk2 r hr k hk b hb))
    (SameObs.trans' obs hobs) hx
  rw [shM.K, shM.B, shM.gamma, hM.w.1, hM.w.2] at key
  exact key

/-- **C103 (partial).** Gamma-mixture model with an Erdos-Renyi network of fixed sparsity (no certain or impossible edge) and a gamma prior on the weight scale, bins no longer than one time unit.
After every history of legal mean-field calls that contains a coordinate step, `get_vlb()` returns a finite number that is at most the log evidence plus two terms: `K²-1` times the log normaliser of the
impulse weights' Dirichlet prior (which the code counts once instead of `K²` times), and `1e-32` times the sum of expected parents divided by filtered counts (the code's guards).
Missing, because false: without the correction (`C103_impulse_normaliser_violated`), longer bins (`C103_long_bins_violated`), before the first coordinate step (`C103_fresh_violated`). -/
theorem C103_lower_bound_partial (huge : ℝ) {M0 : MFModel} {c : HawkesState} {n : ERFixed} (g : MFGood M0) (hK : 0 < M0.K) (sh : SharedSettings M0 c n) (h : CfgOk c n)
    (hF : FilteredFromEvents c.base.K c.base.B c.data) (hdt : c.base.dt ≤ 1) (hp : ∀ i < c.base.K, ∀ j < c.base.K, 0 < n.P i j ∧ n.P i j < 1)
    (hobs : List.Forall₂ SameObs M0.data c.data) (hd : ∀ D ∈ M0.data, D.EZ = none ∧ ∀ t k, D.S t k < 2 ^ 32) (acts : List MFAct) (hl : ∀ a ∈ acts, a.Legal M0) (hc : .coord ∈ acts) :
    ∃ M x, runActs acts M0 = .ok M ∧ M.vlb huge = .ok (.fin x) ∧
      x ≤ logEvidence M0.w.kappa0 M0.w.nu0 c n + (((c.base.K * c.base.K : ℕ) : ℝ) - 1) * lnDirNorm c.base.B c.gamma + guardSlack c.base.K c.base.B M.data := by
  obtain ⟨M, x, e, hM, hx⟩ := reach_fin huge g hK sh hp hd acts hl
  refine ⟨M, x, e, hx, ?_⟩
  have key := reach_le huge g hK sh h hdt hp hd acts hl hc e hM (fun f => f) (fun z f k b => 1e-32 * (z (1 + k * M.B + b) / f k b)) (fun _ _ _ h => h) (.inr rfl)
    (fun z f hz hf k b hs => log_guard (hz _) hs) (by rw [show M0.data.map (mapF fun f => f) = M0.data from List.map_id _]; exact hobs) hx
  have hB : M.B = c.base.B := hM.B.trans sh.B
  rw [hB, rowSlack_guard] at key
  have := log_form (C85_posterior_proper g.w.1 g.w.2 h hF).2.1 key
  unfold logEvidence
  linarith

/-- **C103 (partial).** The same without any state-dependent allowance: after every history that contains a coordinate step, `get_vlb()` is at most the log evidence of the model with all filtered
counts raised by `1e-32`, plus the correction for the Dirichlet normaliser; when every process has an event this is one finite number for all histories, so the bound cannot grow without limit. -/
theorem C103_uniform_bound_partial (huge : ℝ) {M0 : MFModel} {c : HawkesState} {n : ERFixed} (g : MFGood M0) (hK : 0 < M0.K) (sh : SharedSettings M0 c n) (h : CfgOk c n)
    (hA : AllActive c.base.K c.data) (hdt : c.base.dt ≤ 1) (hp : ∀ i < c.base.K, ∀ j < c.base.K, 0 < n.P i j ∧ n.P i j < 1)
    (hobs : List.Forall₂ SameObs M0.data c.data) (hd : ∀ D ∈ M0.data, D.EZ = none ∧ ∀ t k, D.S t k < 2 ^ 32) :
    ∀ acts : List MFAct, (∀ a ∈ acts, a.Legal M0) → .coord ∈ acts → ∃ M x, runActs acts M0 = .ok M ∧ M.vlb huge = .ok (.fin x) ∧
      x ≤ logEvidence M0.w.kappa0 M0.w.nu0 { c with data := c.data.map fun D => { D with F := fun t k b => D.F t k b + 1e-32 } } n
        + (((c.base.K * c.base.K : ℕ) : ℝ) - 1) * lnDirNorm c.base.B c.gamma := by
  intro acts hl hc
  obtain ⟨M, x, e, hM, hx⟩ := reach_fin huge g hK sh hp hd acts hl
  refine ⟨M, x, e, hx, ?_⟩
  let φ : Mat ℝ → Mat ℝ := fun f k b => f k b + 1e-32
  let c' : HawkesState := { c with data := c.data.map (mapF φ) }
  have h' : CfgOk c' n := by
    refine ⟨h.B, ?_, ⟨h.hyper.alpha, h.hyper.beta, h.hyper.gamma, h.hyper.dt, h.hyper.basis⟩, h.net⟩
    intro D hD
    obtain ⟨D', hD', rfl⟩ := List.mem_map.1 hD
    obtain ⟨h1, h2⟩ := h.data D' hD'
    exact ⟨fun t ht k hk b hb => by have := h1 t ht k hk b hb; show 0 ≤ D'.F t k b + 1e-32; positivity, h2⟩
  have sh' : SharedSettings M0 c' n := ⟨sh.K, sh.B, sh.alpha, sh.beta, sh.gamma, sh.net⟩
  have hF' : FilteredFromEvents c'.base.K c'.base.B c'.data := by
    intro D _ t _ i hi b _ _
    obtain ⟨D', hD', t', ht', hS⟩ := hA i hi
    exact ⟨mapF φ D', List.mem_map.2 ⟨D', hD', rfl⟩, t', ht', hS⟩
  have key := reach_le huge g hK sh' h' hdt hp hd acts hl hc e hM φ (fun _ _ _ _ => 0) (fun f k b hf => by show 0 ≤ f k b + 1e-32; positivity)
    (.inl fun f k b hf => by show 0 < f k b + 1e-32; positivity) (fun z f hz hf k b _ => by show _ ≤ _ * Real.log (f k b + 1e-32) + 0; rw [add_zero])
    (by
      show List.Forall₂ SameObs (M0.data.map (mapF φ)) (c.data.map (mapF φ))
      rw [List.forall₂_map_left_iff, List.forall₂_map_right_iff]
      exact hobs.imp fun D D' hh => ⟨hh.1, hh.2.1, by show (fun t => φ (D'.F t)) = fun t => φ (D.F t); rw [hh.2.2]⟩) hx
  have z : ∀ l : List (DParents ℝ), (l.map (rowSlack c.base.K c.base.B fun _ _ _ _ => 0)).sum = 0 := by
    intro l
    have : rowSlack c.base.K c.base.B (fun _ _ _ _ => (0:ℝ)) = fun _ => 0 := by
      funext D
      simp [rowSlack]
    rw [this]
    simp
  have := log_form (C85_posterior_proper g.w.1 g.w.2 h' hF').2.1 key
  rw [z] at this
  show x ≤ logEvidence M0.w.kappa0 M0.w.nu0 c' n + _
  unfold logEvidence
  linarith

end PyHawkes
