import Verif.Spec.Relabel
import Verif.Props.VLBReach
import Verif.Props.VLBNetAscent
import Verif.Props.Adjacency

/-!
# C104: mean-field inference does not depend on the numbering of the processes or the order of the data sets
-/
set_option linter.unusedSectionVars false
set_option linter.unusedVariables false

namespace PyHawkes
open Finset Spec

section
variable {K : ℕ} {σ : Equiv.Perm ℕ}

theorem perm_sum {A : Type*} [AddCommMonoid A] (hσ : PermutesProcesses K σ) (f : ℕ → A) : ∑ k ∈ range K, f (σ k) = ∑ k ∈ range K, f k :=
  Finset.sum_equiv σ (fun i => by rw [mem_range, mem_range]; exact (hσ i).symm) fun _ _ => rfl

theorem perm_sum2 {A : Type*} [AddCommMonoid A] (hσ : PermutesProcesses K σ) (f : ℕ → ℕ → A) : ∑ i ∈ range K, ∑ j ∈ range K, f (σ i) (σ j) = ∑ i ∈ range K, ∑ j ∈ range K, f i j := by
  rw [← perm_sum hσ fun i => ∑ j ∈ range K, f i j]
  exact sum_congr rfl fun i _ => perm_sum hσ fun j => f (σ i) j

theorem fx_range (n : ℕ) (f : ℕ → FX) : FX.sum ((List.range n).map f) = ∑ i ∈ range n, f i := by
  rw [FX.sum_eq]; rfl

theorem fx_square (K : ℕ) (f : ℕ → ℕ → FX) : FX.sum ((List.range (K * K)).map fun r => f (r / K) (r % K)) = ∑ i ∈ range K, ∑ j ∈ range K, f i j := by
  rw [fx_range, sum_flat]
  refine sum_congr rfl fun i _ => sum_congr rfl fun j hj => ?_
  rw [flat_div _ (mem_range.1 hj), flat_mod _ (mem_range.1 hj)]

theorem forall₂_sum {α β A : Type*} [AddCommMonoid A] {R : α → β → Prop} {l : List α} {l' : List β} (h : List.Forall₂ R l l') {f : α → A} {g : β → A} (hfg : ∀ a b, R a b → g b = f a) :
    (l'.map g).sum = (l.map f).sum := by
  induction h with
  | nil => rfl
  | cons h _ ih => simp [hfg _ _ h, ih]

theorem data_sum {A : Type*} [AddCommMonoid A] {B : ℕ} {l l' : List (DParents ℝ)} (h : ∃ m, l'.Perm m ∧ List.Forall₂ (RelabelData σ B) l m) {f g : DParents ℝ → A}
    (hfg : ∀ D D', RelabelData σ B D D' → g D' = f D) : (l'.map g).sum = (l.map f).sum := by
  obtain ⟨m, hp, hm⟩ := h
  rw [(hp.map g).sum_eq]
  exact forall₂_sum hm hfg

/-! ### one data set -/

section
variable {B : ℕ} {D D' : DParents ℝ} (h : RelabelData σ B D D')
include h

theorem relabel_ts (k : ℕ) : D'.ts k = D.ts (σ k) := by
  unfold DParents.ts
  rw [h.T]
  simp only [h.S]

theorem relabel_Ss (k : ℕ) : D'.Ss k = D.Ss (σ k) := by
  unfold DParents.Ss
  rw [relabel_ts h]
  simp only [h.S]

theorem relabel_Ns (k : ℕ) : D'.Ns k = D.Ns (σ k) := by
  unfold DParents.Ns
  rw [relabel_ts h]
  simp only [h.S]

theorem relabel_Fs (k : ℕ) : D'.Fs k = (D.Fs (σ k)).map fun f k b => f (σ k) b := by
  unfold DParents.Fs
  rw [relabel_ts h, List.map_map]
  refine List.map_congr_left fun t _ => ?_
  funext k b
  exact h.F t k b

theorem relabel_bkgd (k : ℕ) : expBkgdSS0 D' k = expBkgdSS0 D (σ k) := forall₂_sum (h.EZ k) fun _ _ r => r.1

theorem relabel_ir (i j : ℕ) {b : ℕ} (hb : b < B) : expIrSS D' B i j b = expIrSS D B (σ i) (σ j) b := forall₂_sum (h.EZ j) fun _ _ r => r.2 i b hb

theorem relabel_weight (i j : ℕ) : expWeightSS0 D' B i j = expWeightSS0 D B (σ i) (σ j) :=
  sum_congr rfl fun b hb => forall₂_sum (h.EZ j) fun _ _ r => r.2 i b (mem_range.1 hb)

end

/-! ### expectations -/

section
variable {M M' : MFModel} (h : RelabelMF σ M M')
include h

theorem relabel_eLnLam (k : ℕ) : M'.bias.eLnLam k = M.bias.eLnLam (σ k) := by unfold MFBias.eLnLam; rw [(h.bias k).1, (h.bias k).2]
theorem relabel_eLam (k : ℕ) : M'.bias.eLam k = M.bias.eLam (σ k) := by unfold MFBias.eLam; rw [(h.bias k).1, (h.bias k).2]
theorem relabel_eLnG (i j : ℕ) {b : ℕ} (hb : b < M.B) : M'.imp.eLnG M.B i j b = M.imp.eLnG M.B (σ i) (σ j) b := by
  unfold MFImp.eLnG
  rw [h.imp i j b hb, sum_congr rfl fun b hb => h.imp i j b (mem_range.1 hb)]

theorem relabel_self : M'.net.allowSelf = M.net.allowSelf := by
  have := h.net
  cases e : M.net <;> cases e' : M'.net <;> rw [e, e'] at this <;> first | exact this.elim | exact this.allowSelf | (rw [show _ = _ from this])

theorem relabel_kappa : M'.net.kappa = M.net.kappa := by
  have := h.net
  cases e : M.net <;> cases e' : M'.net <;> rw [e, e'] at this <;> first | exact this.elim | exact this.hyper.2.2.1 | (rw [show _ = _ from this])

end

theorem relabel_eWA {w w' : MFWeights} (ha : ∀ i j, w'.mfKappa0 i j = w.mfKappa0 (σ i) (σ j) ∧ w'.mfV0 i j = w.mfV0 (σ i) (σ j))
    (hp : ∀ i j, w'.mfKappa1 i j = w.mfKappa1 (σ i) (σ j) ∧ w'.mfV1 i j = w.mfV1 (σ i) (σ j)) (A : ℝ) (i j : ℕ) : w'.eWGivenA A i j = w.eWGivenA A (σ i) (σ j) := by
  unfold MFWeights.eWGivenA; rw [(ha i j).1, (ha i j).2, (hp i j).1, (hp i j).2]

theorem relabel_eLnWA {w w' : MFWeights} (ha : ∀ i j, w'.mfKappa0 i j = w.mfKappa0 (σ i) (σ j) ∧ w'.mfV0 i j = w.mfV0 (σ i) (σ j))
    (hp : ∀ i j, w'.mfKappa1 i j = w.mfKappa1 (σ i) (σ j) ∧ w'.mfV1 i j = w.mfV1 (σ i) (σ j)) (A : ℝ) (i j : ℕ) : w'.eLnWGivenA A i j = w.eLnWGivenA A (σ i) (σ j) := by
  unfold MFWeights.eLnWGivenA; rw [(ha i j).1, (ha i j).2, (hp i j).1, (hp i j).2]

theorem diag_iff (s : Bool) (i j : ℕ) : ((!s) = true ∧ i = j) ↔ ((!s) = true ∧ σ i = σ j) := by rw [σ.injective.eq_iff]

/-! ### the network's expectations -/

theorem relabel_mix {n n' : SBM} (h : RelabelBlock σ n n') {f f' : Mat ℝ} (hf : f' 0 0 = f 0 0) (i j : ℕ) : n'.mix f' i j = n.mix f (σ i) (σ j) := by
  unfold SBM.mix
  rw [h.one.1, h.one.2]
  simp only [sum_range_one, h.mfM, hf]

theorem relabel_P {n n' : SBM} (h : RelabelBlock σ n n') (i j : ℕ) : n'.P i j = n.P (σ i) (σ j) := by
  unfold SBM.P
  rw [h.allowSelf, h.p, h.labels, h.labels]
  exact if_congr (diag_iff _ i j) rfl rfl

theorem relabel_erP (n : ERFixed) (i j : ℕ) : n.P i j = n.P (σ i) (σ j) := if_congr (diag_iff _ i j) rfl rfl

theorem relabel_blkLnP {n n' : SBM} (h : RelabelBlock σ n n') : n'.blkLnP 0 0 = n.blkLnP 0 0 := by unfold SBM.blkLnP; rw [h.mfTau.1, h.mfTau.2]
theorem relabel_blkLnNotP {n n' : SBM} (h : RelabelBlock σ n n') : n'.blkLnNotP 0 0 = n.blkLnNotP 0 0 := by unfold SBM.blkLnNotP; rw [h.mfTau.1, h.mfTau.2]
theorem relabel_blkLnV {n n' : SBM} (h : RelabelBlock σ n n') : n'.blkLnV 0 0 = n.blkLnV 0 0 := by unfold SBM.blkLnV; rw [h.mfAB.1, h.mfAB.2]
theorem relabel_blkV {n n' : SBM} (h : RelabelBlock σ n n') : n'.blkV 0 0 = n.blkV 0 0 := by unfold SBM.blkV; rw [h.mfAB.1, h.mfAB.2]

theorem relabel_eLnP {n n' : MFNet} (h : RelabelNet σ n n') (i j : ℕ) : n'.eLnP i j = n.eLnP (σ i) (σ j) ∧ n'.eLnNotP i j = n.eLnNotP (σ i) (σ j) := by
  cases n <;> cases n' <;> first | exact h.elim | skip
  · refine ⟨?_, ?_⟩ <;> simp only [MFNet.eLnP, MFNet.eLnNotP, h.allowSelf, h.fixed, relabel_P h, relabel_mix h (relabel_blkLnP h), relabel_mix h (relabel_blkLnNotP h), σ.injective.eq_iff]
  · refine ⟨?_, ?_⟩ <;> simp only [MFNet.eLnP, MFNet.eLnNotP, h.allowSelf, relabel_P h, σ.injective.eq_iff]
  · rw [show _ = _ from h]
    refine ⟨?_, ?_⟩ <;> simp only [MFNet.eLnP, MFNet.eLnNotP] <;> rw [relabel_erP (σ := σ)]

theorem relabel_eV {n n' : MFNet} (h : RelabelNet σ n n') : SameOutcome (fun V V' : Mat ℝ => ∀ i j, V' i j = V (σ i) (σ j)) n.eV n'.eV := by
  have blk : ∀ {n n' : SBM}, RelabelBlock σ n n' → ∀ i j, (if n'.fixed then n'.V i j else ∑ c1 ∈ range n'.C, ∑ c2 ∈ range n'.C, n'.mfM i c1 * n'.mfM j c2 * n'.mfAlpha c1 c2 / n'.mfBeta c1 c2)
      = if n.fixed then n.V (σ i) (σ j) else ∑ c1 ∈ range n.C, ∑ c2 ∈ range n.C, n.mfM (σ i) c1 * n.mfM (σ j) c2 * n.mfAlpha c1 c2 / n.mfBeta c1 c2 := by
    intro n n' h i j
    rw [h.fixed, h.one.1, h.one.2]
    simp only [sum_range_one, h.mfM, h.mfAB.1, h.mfAB.2, SBM.V, h.v, h.labels]
  cases n <;> cases n' <;> first | exact h.elim | skip
  · exact blk h
  · exact blk h
  · rename_i n n'
    obtain rfl : n' = n := h
    simp only [MFNet.eV]
    cases n'.mf with
    | none => rfl
    | some p => exact fun _ _ => rfl

theorem relabel_eLnV {n n' : MFNet} (h : RelabelNet σ n n') : SameOutcome (fun V V' : Mat ℝ => ∀ i j, V' i j = V (σ i) (σ j)) n.eLnV n'.eLnV := by
  have blk : ∀ {n n' : SBM}, RelabelBlock σ n n' → ∀ i j, (if n'.fixed then Real.log (n'.V i j) else n'.mix n'.blkLnV i j) = if n.fixed then Real.log (n.V (σ i) (σ j)) else n.mix n.blkLnV (σ i) (σ j) := by
    intro n n' h i j
    rw [h.fixed, relabel_mix h (relabel_blkLnV h)]
    simp only [SBM.V, h.v, h.labels]
  cases n <;> cases n' <;> first | exact h.elim | skip
  · exact blk h
  · exact blk h
  · rename_i n n'
    obtain rfl : n' = n := h
    simp only [MFNet.eLnV]
    cases n'.mf with
    | none => rfl
    | some p => exact fun _ _ => rfl

/-! ### the updates -/

theorem relabel_row {B : ℕ} (hσ : PermutesProcesses K σ) {p0 p0' : ℝ} {W W' : Vec ℝ} {G G' : Mat ℝ} {f f' : Mat ℝ} (s : ℝ) (h0 : p0' = p0) (hW : ∀ k, W' k = W (σ k))
    (hG : ∀ k, ∀ b < B, G' k b = G (σ k) b) (hf : ∀ k, ∀ b < B, f' k b = f (σ k) b) : RelabelRow σ B (mfRowPy K B p0 W G s f) (mfRowPy K B p0' W' G' s f') := by
  have hZ : ∑ j ∈ range K, ∑ c ∈ range B, f' j c * W' j * G' j c = ∑ j ∈ range K, ∑ c ∈ range B, f j c * W j * G j c := by
    rw [← perm_sum hσ fun j => ∑ c ∈ range B, f j c * W j * G j c]
    refine sum_congr rfl fun j _ => sum_congr rfl fun c hc => ?_
    rw [hf j c (mem_range.1 hc), hW, hG j c (mem_range.1 hc)]
  refine ⟨?_, fun k b hb => ?_⟩
  · have z : ∀ (p0 : ℝ) (W : Vec ℝ) (G f : Mat ℝ), mfRowPy K B p0 W G s f 0 = p0 / (p0 + ∑ j ∈ range K, ∑ c ∈ range B, f j c * W j * G j c) * s := by
      intro p0 W G f
      unfold mfRowPy
      show p0 / (p0 + _) * s = _
      rw [sum_flat]
      congr 3
      refine sum_congr rfl fun i _ => sum_congr rfl fun j hj => ?_
      unfold ravel
      rw [flat_div _ (mem_range.1 hj), flat_mod _ (mem_range.1 hj)]
    rw [z, z, hZ, h0]
  · rw [mfRowPy_col _ _ _ _ _ _ _ _ _ hb, mfRowPy_col _ _ _ _ _ _ _ _ _ hb, hZ, h0, hf k b hb, hW, hG k b hb]

theorem relabel_updateParents {M M' : MFModel} (h : RelabelMF σ M M') (hσ : PermutesProcesses M.K σ) {D D' : DParents ℝ} (hD : RelabelData σ M.B D D') :
    RelabelData σ M.B (M.updateParents D) (M'.updateParents D') := by
  refine ⟨hD.T, hD.S, hD.F, fun k => ?_⟩
  show List.Forall₂ _ (((D.Ss (σ k)).zip (D.Fs (σ k))).map _) (((D'.Ss k).zip (D'.Fs k)).map _)
  rw [relabel_Ss hD, relabel_Fs hD, List.zip_map_right, List.map_map, List.forall₂_map_left_iff, List.forall₂_map_right_iff, List.forall₂_same]
  intro p _
  rw [h.size.1, h.size.2]
  refine relabel_row hσ _ ?_ (fun i => ?_) (fun i b hb => ?_) fun i b _ => rfl
  · show Real.exp _ = Real.exp _
    rw [relabel_eLnLam h]
  · simp only [MFWeights.expELnW, relabel_self h, h.prob, relabel_eLnWA h.absent h.present, σ.injective.eq_iff]
  · show Real.exp _ = Real.exp _
    rw [relabel_eLnG h i k hb]

/-- the bias update -/
theorem relabel_bias {M M' : MFModel} (h : RelabelMF σ M M') {l l' : List (DParents ℝ)} (hl : ∃ m, l'.Perm m ∧ List.Forall₂ (RelabelData σ M.B) l m) (frac step : ℝ) (k : ℕ) :
    (M'.bias.update l' frac step).mfAlpha k = (M.bias.update l frac step).mfAlpha (σ k) ∧ (M'.bias.update l' frac step).mfBeta k = (M.bias.update l frac step).mfBeta (σ k) := by
  obtain ⟨ha, hb, hd, -⟩ := h.hyper
  refine ⟨?_, ?_⟩
  · simp only [MFBias.update, expSum_eq, (h.bias k).1, ha]
    rw [data_sum hl fun D D' r => relabel_bkgd r k]
  · simp only [MFBias.update, expSum_eq, (h.bias k).2, hb, hd]
    rw [data_sum hl fun D D' (r : RelabelData σ M.B D D') => show bkgdSS1 D' M.bias.dt k = bkgdSS1 D M.bias.dt (σ k) by unfold bkgdSS1; rw [r.T]]

theorem relabel_imp {M M' : MFModel} (h : RelabelMF σ M M') {l l' : List (DParents ℝ)} (hl : ∃ m, l'.Perm m ∧ List.Forall₂ (RelabelData σ M.B) l m) (frac step : ℝ) (i j b : ℕ) (hb : b < M.B) :
    (M'.imp.update M.B l' frac step).mfGamma i j b = (M.imp.update M.B l frac step).mfGamma (σ i) (σ j) b := by
  obtain ⟨-, -, -, hg, -⟩ := h.hyper
  simp only [MFImp.update, expSum_eq, h.imp i j b hb, hg]
  rw [data_sum hl fun D D' r => relabel_ir r i j hb]

/-- same weights after renumbering -/
structure RelabelW (σ : Equiv.Perm ℕ) (w w' : MFWeights) : Prop where
  kappa0 : w'.kappa0 = w.kappa0
  nu0 : w'.nu0 = w.nu0
  prob : ∀ i j, w'.mfP i j = w.mfP (σ i) (σ j)
  absent : ∀ i j, w'.mfKappa0 i j = w.mfKappa0 (σ i) (σ j) ∧ w'.mfV0 i j = w.mfV0 (σ i) (σ j)
  present : ∀ i j, w'.mfKappa1 i j = w.mfKappa1 (σ i) (σ j) ∧ w'.mfV1 i j = w.mfV1 (σ i) (σ j)

theorem relabel_kappaV {w w' : MFWeights} (h : RelabelW σ w w') {B : ℕ} {l l' : List (DParents ℝ)} (hl : ∃ m, l'.Perm m ∧ List.Forall₂ (RelabelData σ B) l m) (frac step kappa : ℝ) {V V' : Mat ℝ}
    (hV : ∀ i j, V' i j = V (σ i) (σ j)) : RelabelW σ (w.updateKappaV B kappa V l frac step) (w'.updateKappaV B kappa V' l' frac step) := by
  have s0 : ∀ i j, expSum l' (fun d => expWeightSS0 d B i j) = expSum l (fun d => expWeightSS0 d B (σ i) (σ j)) := fun i j => by
    rw [expSum_eq, expSum_eq]; exact data_sum hl fun D D' r => relabel_weight r i j
  have s1 : ∀ i j, expSum l' (fun d => (weightSS1 d i j : ℝ)) = expSum l (fun d => (weightSS1 d (σ i) (σ j) : ℝ)) := fun i j => by
    rw [expSum_eq, expSum_eq]; exact data_sum hl fun D D' r => by unfold weightSS1; rw [relabel_Ns r]
  refine ⟨h.kappa0, h.nu0, h.prob, fun i j => ⟨?_, ?_⟩, fun i j => ⟨?_, ?_⟩⟩ <;>
    simp only [MFWeights.updateKappaV, (h.absent i j).1, (h.absent i j).2, (h.present i j).1, (h.present i j).2, h.kappa0, h.nu0, s0, s1, hV]

theorem relabel_logit {w w' : MFWeights} (h : RelabelW σ w w') {n n' : MFNet} (hn : RelabelNet σ n n') (hk : n'.kappa = n.kappa) {L L' : Mat ℝ} (hL : ∀ i j, L' i j = L (σ i) (σ j)) (step : ℝ) (i j : ℕ) :
    w'.logitHat n' L' step i j = w.logitHat n L step (σ i) (σ j) := by
  simp only [MFWeights.logitHat, MFWeights.logitP, h.prob, (relabel_eLnP hn i j).1, (relabel_eLnP hn i j).2, hk, hL, (h.absent i j).1, (h.absent i j).2, (h.present i j).1, (h.present i j).2,
    h.kappa0, h.nu0]

theorem relabel_updateP {w w' : MFWeights} (h : RelabelW σ w w') (hσ : PermutesProcesses K σ) {n n' : MFNet} (hn : RelabelNet σ n n') (hk : n'.kappa = n.kappa) {L L' : Mat ℝ} (hL : ∀ i j, L' i j = L (σ i) (σ j)) (step : ℝ) :
    SameOutcome (RelabelW σ) (w.updateP K n L step) (w'.updateP K n' L' step) := by
  have e : (∃ i < K, ∃ j < K, w'.logitHat n' L' step i j = .nan) ↔ ∃ i < K, ∃ j < K, w.logitHat n L step i j = .nan := by
    simp only [relabel_logit h hn hk hL]
    constructor
    · rintro ⟨i, hi, j, hj, e⟩
      exact ⟨σ i, (hσ i).2 hi, σ j, (hσ j).2 hj, e⟩
    · rintro ⟨i, hi, j, hj, e⟩
      refine ⟨σ.symm i, (hσ _).1 (by rwa [Equiv.apply_symm_apply]), σ.symm j, (hσ _).1 (by rwa [Equiv.apply_symm_apply]), ?_⟩
      rwa [Equiv.apply_symm_apply, Equiv.apply_symm_apply]
  unfold MFWeights.updateP
  by_cases hc : ∃ i < K, ∃ j < K, w.logitHat n L step i j = .nan
  · rw [if_pos hc, if_pos (e.2 hc)]; rfl
  · rw [if_neg hc, if_neg (fun h => hc (e.1 h))]
    refine ⟨h.kappa0, h.nu0, fun i j => ?_, h.absent, h.present⟩
    show clipLogistic _ = clipLogistic _
    rw [relabel_logit h hn hk hL]

theorem relabel_wUpdate {w w' : MFWeights} (h : RelabelW σ w w') (hσ : PermutesProcesses K σ) {n n' : MFNet} (hn : RelabelNet σ n n') (hk : n'.kappa = n.kappa) {B : ℕ} {l l' : List (DParents ℝ)}
    (hl : ∃ m, l'.Perm m ∧ List.Forall₂ (RelabelData σ B) l m) (frac step : ℝ) : SameOutcome (RelabelW σ) (w.update K B n l frac step) (w'.update K B n' l' frac step) := by
  have h1 := relabel_eV hn
  have h2 := relabel_eLnV hn
  unfold MFWeights.update
  cases e1 : n.eV <;> cases e1' : n'.eV <;> rw [e1, e1'] at h1 <;> first | exact h1.elim | exact h1 | skip
  cases e2 : n.eLnV <;> cases e2' : n'.eLnV <;> rw [e2, e2'] at h2 <;> first | exact h2.elim | exact h2 | skip
  dsimp only
  rw [hk]
  exact relabel_updateP (relabel_kappaV h hl frac step n.kappa h1) hσ hn hk h2 step

/-! ### the network updates -/

/-- with one block the label probabilities are replaced by a blend with 1 -/
theorem updateC_one {n : SBM} (hC : n.C = 1) (EA EW ELW : Mat ℝ) (step : ℝ) :
    ∃ m : Mat ℝ, n.mfUpdateC EA EW ELW step = { n with mfM := m } ∧ ∀ i, m i 0 = if i < n.K then (1 - step) * n.mfM i 0 + step else n.mfM i 0 := by
  have key : ∀ N, ∃ m : Mat ℝ, forRange N (fun k n => SBM.mfUpdateC1 EA EW ELW step k n) n = { n with mfM := m } ∧ ∀ i, m i 0 = if i < N then (1 - step) * n.mfM i 0 + step else n.mfM i 0 := by
    intro N
    induction N with
    | zero => exact ⟨n.mfM, rfl, fun i => by simp⟩
    | succ N ih =>
      obtain ⟨m, e, hm⟩ := ih
      rw [forRange_succ, e]
      refine ⟨_, rfl, fun i => ?_⟩
      dsimp only
      by_cases hi : i = N
      · rw [if_pos hi, if_pos (by omega)]
        subst hi
        rw [hm, if_neg (lt_irrefl _), hC, sum_range_one, Real.log_exp, sub_self, Real.exp_zero, mul_one]
      · rw [if_neg hi, hm]
        by_cases h2 : i < N
        · rw [if_pos h2, if_pos (by omega)]
        · rw [if_neg h2, if_neg (by omega)]
  exact key n.K

theorem relabel_mfP {n n' : SBM} (h : RelabelBlock σ n n') (hσ : PermutesProcesses n.K σ) {EA EA' : Mat ℝ} (hE : ∀ i j, EA' i j = EA (σ i) (σ j)) (s : ℝ) :
    RelabelBlock σ (n.mfUpdateP EA s) (n'.mfUpdateP EA' s) := by
  obtain ⟨t0, t1, -⟩ := h.hyper
  refine ⟨h.K, h.one, h.hyper, h.allowSelf, h.fixed, h.p, h.v, h.labels, h.mfPi, ⟨?_, ?_⟩, h.mfAB, h.mfM⟩
  · show (1 - s) * n'.mfTau0 0 0 + s * (n'.tau0 + ∑ i ∈ range n'.K, ∑ j ∈ range n'.K, n'.mfM i 0 * n'.mfM j 0 * (1 - EA' i j)) = (1 - s) * n.mfTau0 0 0 + s * (n.tau0 + ∑ i ∈ range n.K, ∑ j ∈ range n.K, n.mfM i 0 * n.mfM j 0 * (1 - EA i j))
    rw [h.mfTau.1, t0, h.K, ← perm_sum2 hσ fun i j => n.mfM i 0 * n.mfM j 0 * (1 - EA i j)]
    simp only [h.mfM, hE]
  · show (1 - s) * n'.mfTau1 0 0 + s * (n'.tau1 + ∑ i ∈ range n'.K, ∑ j ∈ range n'.K, n'.mfM i 0 * n'.mfM j 0 * EA' i j) = (1 - s) * n.mfTau1 0 0 + s * (n.tau1 + ∑ i ∈ range n.K, ∑ j ∈ range n.K, n.mfM i 0 * n.mfM j 0 * EA i j)
    rw [h.mfTau.2, t1, h.K, ← perm_sum2 hσ fun i j => n.mfM i 0 * n.mfM j 0 * EA i j]
    simp only [h.mfM, hE]

theorem relabel_mfV {n n' : SBM} (h : RelabelBlock σ n n') (hσ : PermutesProcesses n.K σ) {EA EA' EW EW' : Mat ℝ} (hE : ∀ i j, EA' i j = EA (σ i) (σ j)) (hW : ∀ i j, EW' i j = EW (σ i) (σ j)) (s : ℝ) :
    RelabelBlock σ (n.mfUpdateV EA EW s) (n'.mfUpdateV EA' EW' s) := by
  obtain ⟨-, -, hk, ha, hb, -⟩ := h.hyper
  refine ⟨h.K, h.one, h.hyper, h.allowSelf, h.fixed, h.p, h.v, h.labels, h.mfPi, h.mfTau, ⟨?_, ?_⟩, h.mfM⟩
  · show (1 - s) * n'.mfAlpha 0 0 + s * (n'.alpha + ∑ i ∈ range n'.K, ∑ j ∈ range n'.K, n'.mfM i 0 * n'.mfM j 0 * EA' i j * n'.kappa)
      = (1 - s) * n.mfAlpha 0 0 + s * (n.alpha + ∑ i ∈ range n.K, ∑ j ∈ range n.K, n.mfM i 0 * n.mfM j 0 * EA i j * n.kappa)
    rw [h.mfAB.1, ha, h.K, ← perm_sum2 hσ fun i j => n.mfM i 0 * n.mfM j 0 * EA i j * n.kappa]
    simp only [h.mfM, hE, hk]
  · show (1 - s) * n'.mfBeta 0 0 + s * (n'.beta + ∑ i ∈ range n'.K, ∑ j ∈ range n'.K, n'.mfM i 0 * n'.mfM j 0 * EA' i j * EW' i j)
      = (1 - s) * n.mfBeta 0 0 + s * (n.beta + ∑ i ∈ range n.K, ∑ j ∈ range n.K, n.mfM i 0 * n.mfM j 0 * EA i j * EW i j)
    rw [h.mfAB.2, hb, h.K, ← perm_sum2 hσ fun i j => n.mfM i 0 * n.mfM j 0 * EA i j * EW i j]
    simp only [h.mfM, hE, hW]

theorem relabel_mfMm {n n' : SBM} (h : RelabelBlock σ n n') (hσ : PermutesProcesses n.K σ) (s : ℝ) : RelabelBlock σ (n.mfUpdateM s) (n'.mfUpdateM s) := by
  obtain ⟨-, -, -, -, -, hp⟩ := h.hyper
  refine ⟨h.K, h.one, h.hyper, h.allowSelf, h.fixed, h.p, h.v, h.labels, ?_, h.mfTau, h.mfAB, h.mfM⟩
  show (1 - s) * n'.mfPi 0 + s * (n'.pi 0 + ∑ k ∈ range n'.K, n'.mfM k 0) = (1 - s) * n.mfPi 0 + s * (n.pi 0 + ∑ k ∈ range n.K, n.mfM k 0)
  rw [h.mfPi, hp, h.K, ← perm_sum hσ fun k => n.mfM k 0]
  simp only [h.mfM]

theorem relabel_mfC {n n' : SBM} (h : RelabelBlock σ n n') (hσ : PermutesProcesses n.K σ) (EA EA' EW EW' EL EL' : Mat ℝ) (s : ℝ) :
    RelabelBlock σ (n.mfUpdateC EA EW EL s) (n'.mfUpdateC EA' EW' EL' s) := by
  obtain ⟨m, e, hm⟩ := updateC_one h.one.1 EA EW EL s
  obtain ⟨m', e', hm'⟩ := updateC_one h.one.2 EA' EW' EL' s
  rw [e, e']
  refine ⟨h.K, h.one, h.hyper, h.allowSelf, h.fixed, h.p, h.v, h.labels, h.mfPi, h.mfTau, h.mfAB, fun i => ?_⟩
  show m' i 0 = m (σ i) 0
  rw [hm, hm', h.mfM, h.K]
  exact if_congr (hσ i).symm rfl rfl

theorem relabel_blockUpdate {n n' : SBM} (h : RelabelBlock σ n n') (hσ : PermutesProcesses n.K σ) {w w' : MFWeights} (hw : RelabelW σ w w') (f : NetFlags) (s : ℝ) :
    RelabelBlock σ (n.meanfieldupdate w f) (n'.meanfieldupdate w' f) ∧ RelabelBlock σ (n.sgdstep w s f) (n'.sgdstep w' s f) := by
  have hW := relabel_eWA hw.absent hw.present 1
  have core : ∀ (b : Bool) (s : ℝ), RelabelBlock σ
      (let n1 := if b then n.mfUpdateP w.mfP s else n
       let n2 := if f.v then n1.mfUpdateV w.mfP (w.eWGivenA 1) s else n1
       let n3 := if f.m then n2.mfUpdateM s else n2
       if f.c then n3.mfUpdateC w.mfP (w.eWGivenA 1) (w.eLnWGivenA 1) s else n3)
      (let n1 := if b then n'.mfUpdateP w'.mfP s else n'
       let n2 := if f.v then n1.mfUpdateV w'.mfP (w'.eWGivenA 1) s else n1
       let n3 := if f.m then n2.mfUpdateM s else n2
       if f.c then n3.mfUpdateC w'.mfP (w'.eWGivenA 1) (w'.eLnWGivenA 1) s else n3) := by
    intro b s
    have h1 : RelabelBlock σ (if b then n.mfUpdateP w.mfP s else n) (if b then n'.mfUpdateP w'.mfP s else n') ∧ (if b then n.mfUpdateP w.mfP s else n).K = n.K := by
      cases b
      · exact ⟨h, rfl⟩
      · exact ⟨relabel_mfP h hσ hw.prob s, rfl⟩
    dsimp only
    generalize (if b then n.mfUpdateP w.mfP s else n) = n1 at h1 ⊢
    generalize (if b then n'.mfUpdateP w'.mfP s else n') = n1' at h1 ⊢
    have h2 : RelabelBlock σ (if f.v then n1.mfUpdateV w.mfP (w.eWGivenA 1) s else n1) (if f.v then n1'.mfUpdateV w'.mfP (w'.eWGivenA 1) s else n1')
        ∧ (if f.v then n1.mfUpdateV w.mfP (w.eWGivenA 1) s else n1).K = n.K := by
      cases f.v
      · exact h1
      · exact ⟨relabel_mfV h1.1 (h1.2.symm ▸ hσ) hw.prob hW s, h1.2⟩
    generalize (if f.v then n1.mfUpdateV w.mfP (w.eWGivenA 1) s else n1) = n2 at h2 ⊢
    generalize (if f.v then n1'.mfUpdateV w'.mfP (w'.eWGivenA 1) s else n1') = n2' at h2 ⊢
    have h3 : RelabelBlock σ (if f.m then n2.mfUpdateM s else n2) (if f.m then n2'.mfUpdateM s else n2') ∧ (if f.m then n2.mfUpdateM s else n2).K = n.K := by
      cases f.m
      · exact h2
      · exact ⟨relabel_mfMm h2.1 (h2.2.symm ▸ hσ) s, h2.2⟩
    generalize (if f.m then n2.mfUpdateM s else n2) = n3 at h3 ⊢
    generalize (if f.m then n2'.mfUpdateM s else n2') = n3' at h3 ⊢
    cases f.c
    · exact h3.1
    · exact relabel_mfC h3.1 (h3.2.symm ▸ hσ) _ _ _ _ _ _ s
  exact ⟨core f.c 1, core f.p s⟩

theorem relabel_er (n : ERFixed) (hσ : PermutesProcesses n.K σ) {w w' : MFWeights} (hw : RelabelW σ w w') (s : ℝ) : n.mfUpdate w' s = n.mfUpdate w s := by
  have e1 : ∑ i ∈ range n.K, ∑ j ∈ range n.K, w'.mfP i j * n.kappa = ∑ i ∈ range n.K, ∑ j ∈ range n.K, w.mfP i j * n.kappa := by
    rw [← perm_sum2 hσ fun i j => w.mfP i j * n.kappa]
    simp only [hw.prob]
  have e2 : ∑ i ∈ range n.K, ∑ j ∈ range n.K, w'.mfP i j * w'.eWGivenA 1 i j = ∑ i ∈ range n.K, ∑ j ∈ range n.K, w.mfP i j * w.eWGivenA 1 i j := by
    rw [← perm_sum2 hσ fun i j => w.mfP i j * w.eWGivenA 1 i j]
    simp only [hw.prob, relabel_eWA hw.absent hw.present]
  unfold ERFixed.mfUpdate
  rw [e1, e2]

theorem relabel_netUpdate {n n' : MFNet} (h : RelabelNet σ n n') (hσ : PermutesProcesses (netK n) σ) {w w' : MFWeights} (hw : RelabelW σ w w') (s : ℝ) :
    SameOutcome (RelabelNet σ) (n.meanfieldupdate w) (n'.meanfieldupdate w') ∧ SameOutcome (RelabelNet σ) (n.sgdstep w s) (n'.sgdstep w' s) := by
  cases n <;> cases n' <;> first | exact h.elim | skip
  · exact ⟨(relabel_blockUpdate h hσ hw {} s).1, (relabel_blockUpdate h hσ hw {} s).2⟩
  · exact ⟨(relabel_blockUpdate h hσ hw { p := false } s).1, (relabel_blockUpdate h hσ hw { p := false } s).2⟩
  · rename_i n n'
    obtain rfl : n' = n := h
    simp only [MFNet.meanfieldupdate, MFNet.sgdstep]
    rw [relabel_er _ hσ hw, relabel_er _ hσ hw]
    refine ⟨?_, ?_⟩
    · cases n'.mfUpdate w 1 with
      | error e => exact rfl
      | ok m => exact rfl
    · cases n'.mfUpdate w s with
      | error e => exact rfl
      | ok m => exact rfl

theorem blockUpdate_K {n n' : SBM} (h : RelabelBlock σ n n') (w : MFWeights) (f : NetFlags) (s : ℝ) : (n.meanfieldupdate w f).K = n.K ∧ (n.sgdstep w s f).K = n.K := by
  have core : ∀ (b : Bool) (s : ℝ),
      (let n1 := if b then n.mfUpdateP w.mfP s else n
       let n2 := if f.v then n1.mfUpdateV w.mfP (w.eWGivenA 1) s else n1
       let n3 := if f.m then n2.mfUpdateM s else n2
       if f.c then n3.mfUpdateC w.mfP (w.eWGivenA 1) (w.eLnWGivenA 1) s else n3).K = n.K := by
    intro b s
    have h1 : (if b then n.mfUpdateP w.mfP s else n).K = n.K ∧ (if b then n.mfUpdateP w.mfP s else n).C = 1 := by cases b <;> exact ⟨rfl, h.one.1⟩
    dsimp only
    generalize (if b then n.mfUpdateP w.mfP s else n) = n1 at h1 ⊢
    have h2 : (if f.v then n1.mfUpdateV w.mfP (w.eWGivenA 1) s else n1).K = n.K ∧ (if f.v then n1.mfUpdateV w.mfP (w.eWGivenA 1) s else n1).C = 1 := by cases f.v <;> exact h1
    generalize (if f.v then n1.mfUpdateV w.mfP (w.eWGivenA 1) s else n1) = n2 at h2 ⊢
    have h3 : (if f.m then n2.mfUpdateM s else n2).K = n.K ∧ (if f.m then n2.mfUpdateM s else n2).C = 1 := by cases f.m <;> exact h2
    generalize (if f.m then n2.mfUpdateM s else n2) = n3 at h3 ⊢
    cases f.c
    · exact h3.1
    · obtain ⟨m, e, -⟩ := updateC_one h3.2 w.mfP (w.eWGivenA 1) (w.eLnWGivenA 1) s
      show (n3.mfUpdateC _ _ _ s).K = _
      rw [e]; exact h3.1
  exact ⟨core f.c 1, core f.p s⟩

theorem netUpdate_K {n n' : MFNet} (h : RelabelNet σ n n') (w : MFWeights) (s : ℝ) : (∀ m, n.meanfieldupdate w = .ok m → netK m = netK n) ∧ ∀ m, n.sgdstep w s = .ok m → netK m = netK n := by
  have er : ∀ (n m : ERFixed) (s : ℝ), n.mfUpdate w s = .ok m → m.K = n.K := by
    intro n m s e
    unfold ERFixed.mfUpdate at e
    split at e
    · cases e; rfl
    · cases e
    · cases e
  cases n <;> cases n' <;> first | exact h.elim | skip
  · exact ⟨fun m e => by cases e; exact (blockUpdate_K h w {} s).1, fun m e => by cases e; exact (blockUpdate_K h w {} s).2⟩
  · exact ⟨fun m e => by cases e; exact (blockUpdate_K h w { p := false } s).1, fun m e => by cases e; exact (blockUpdate_K h w { p := false } s).2⟩
  · rename_i n n'
    refine ⟨fun m e => ?_, fun m e => ?_⟩
    · simp only [MFNet.meanfieldupdate] at e
      split at e
      · cases e
      · rename_i e1; cases e; exact er _ _ _ e1
    · simp only [MFNet.sgdstep] at e
      split at e
      · cases e
      · rename_i e1; cases e; exact er _ _ _ e1

/-! ### steps -/

theorem RelabelMF.w {M M' : MFModel} (h : RelabelMF σ M M') : RelabelW σ M.w M'.w := ⟨h.hyper.2.2.2.2.1, h.hyper.2.2.2.2.2, h.prob, h.absent, h.present⟩

theorem relabel_globals {M M' : MFModel} (h : RelabelMF σ M M') (hσ : PermutesProcesses M.K σ) {l l' : List (DParents ℝ)} (hl : ∃ m, l'.Perm m ∧ List.Forall₂ (RelabelData σ M.B) l m) (frac step : ℝ)
    {u u' : MFWeights → MFNet → Except PyErr MFNet} (hu : ∀ w w', RelabelW σ w w' → SameOutcome (RelabelNet σ) (u w M.net) (u' w' M'.net))
    (hk : ∀ w m, u w M.net = .ok m → netK m = netK M.net) : SameOutcome (RelabelMF σ) (M.updateGlobals l frac step u) (M'.updateGlobals l' frac step u') := by
  have hnil : l' = [] ↔ l = [] := by
    obtain ⟨m, hp, hm⟩ := hl
    constructor
    · rintro rfl
      have : m = [] := List.nil_perm.1 hp
      subst this
      cases hm; rfl
    · rintro rfl
      cases hm
      exact List.perm_nil.1 hp
  unfold MFModel.updateGlobals
  by_cases hc : l = []
  · rw [if_pos hc, if_pos (hnil.2 hc)]; exact rfl
  rw [if_neg hc, if_neg (fun e => hc (hnil.1 e))]
  dsimp only
  have hw := relabel_wUpdate (K := M.K) (RelabelMF.w h) hσ h.net (relabel_kappa h) hl frac step
  rw [h.size.1, h.size.2]
  cases e1 : M.w.update M.K M.B M.net l frac step <;> cases e1' : M'.w.update M.K M.B M'.net l' frac step <;> rw [e1, e1'] at hw <;> first | exact hw.elim | exact hw | skip
  rename_i w w'
  dsimp only
  have hn := hu w w' hw
  cases e2 : u w M.net <;> cases e2' : u' w' M'.net <;> rw [e2, e2'] at hn <;> first | exact hn.elim | exact hn | skip
  rename_i n n'
  have hw : RelabelW σ w w' := hw
  exact ⟨⟨rfl, rfl⟩, ⟨h.hyper.1, h.hyper.2.1, h.hyper.2.2.1, h.hyper.2.2.2.1, hw.kappa0, hw.nu0⟩, relabel_bias h hl frac step, relabel_imp h hl frac step, hw.prob, hw.absent, hw.present, hn,
    (hk w n e2).trans h.nodes, h.data, h.offset⟩

theorem relabel_coord {M M' : MFModel} (h : RelabelMF σ M M') (hσ : PermutesProcesses M.K σ) : SameOutcome (RelabelMF σ) M.coordStep M'.coordStep := by
  have hl : ∃ m, (M'.data.map M'.updateParents).Perm m ∧ List.Forall₂ (RelabelData σ M.B) (M.data.map M.updateParents) m := by
    obtain ⟨m, hp, hm⟩ := h.data
    refine ⟨m.map M'.updateParents, hp.map _, ?_⟩
    rw [List.forall₂_map_left_iff, List.forall₂_map_right_iff]
    exact hm.imp fun D D' r => relabel_updateParents h hσ r
  have key := relabel_globals h hσ hl 1 1 (u := MFNet.meanfieldupdate) (u' := MFNet.meanfieldupdate) (fun w w' hw => (relabel_netUpdate h.net (h.nodes ▸ hσ) hw 1).1) (fun w m e => (netUpdate_K h.net w 1).1 m e)
  unfold MFModel.coordStep
  dsimp only
  cases e1 : M.updateGlobals (M.data.map M.updateParents) 1 1 MFNet.meanfieldupdate <;> cases e1' : M'.updateGlobals (M'.data.map M'.updateParents) 1 1 MFNet.meanfieldupdate <;> rw [e1, e1'] at key <;>
    first | exact key.elim | exact key | skip
  rename_i N N'
  have key : RelabelMF σ N N' := key
  have hB : N.B = M.B := by
    unfold MFModel.updateGlobals at e1
    split at e1
    · cases e1
    · dsimp only at e1
      split at e1
      · cases e1
      · split at e1
        · cases e1
        · cases e1; rfl
  exact ⟨key.size, key.hyper, key.bias, key.imp, key.prob, key.absent, key.present, key.net, key.nodes, by show ∃ l, _ ∧ List.Forall₂ (RelabelData σ N.B) _ l; rw [hB]; exact hl, key.offset⟩

theorem relabel_sgd {M M' : MFModel} (h : RelabelMF σ M M') (hσ : PermutesProcesses M.K σ) (mb : ℕ) (step : ℝ) : SameOutcome (RelabelMF σ) (M.sgdStep mb step) (M'.sgdStep mb step) := by
  obtain ⟨m, hp, hm⟩ := h.data
  have hlen : M'.data.length = M.data.length := hp.length_eq.trans hm.length_eq.symm
  unfold MFModel.sgdStep
  cases hd : M.data with
  | nil =>
    rw [hd] at hlen
    rw [List.length_eq_zero_iff.1 hlen]
    exact rfl
  | cons D l => cases l with
    | nil =>
      rw [hd] at hm
      obtain ⟨D', m', hD, ht, rfl⟩ := List.forall₂_cons_left_iff.1 hm
      obtain rfl := List.forall₂_nil_left_iff.1 ht
      rw [List.perm_singleton.1 hp]
      dsimp only
      rw [h.offset, hD.T]
      have hs : RelabelData σ M.B (sliceData D.S D.F (sgdWindow D.T mb M.sgdOffset).1 (sgdWindow D.T mb M.sgdOffset).2) (sliceData D'.S D'.F (sgdWindow D.T mb M.sgdOffset).1 (sgdWindow D.T mb M.sgdOffset).2) := by
        refine ⟨rfl, fun t k => hD.S _ k, fun t k b => hD.F _ k b, fun k => ?_⟩
        have ts : (sliceData D'.S D'.F (sgdWindow D.T mb M.sgdOffset).1 (sgdWindow D.T mb M.sgdOffset).2).ts k = (sliceData D.S D.F (sgdWindow D.T mb M.sgdOffset).1 (sgdWindow D.T mb M.sgdOffset).2).ts (σ k) := by
          unfold DParents.ts
          refine List.filter_congr fun t _ => ?_
          show decide (D'.S _ k ≠ 0) = decide (D.S _ (σ k) ≠ 0)
          simp only [hD.S]
        show List.Forall₂ _ (List.map _ _) (List.map _ _)
        rw [ts, List.forall₂_map_left_iff, List.forall₂_map_right_iff]
        exact List.forall₂_same.2 fun _ _ => ⟨rfl, fun _ _ _ => rfl⟩
      have hp' := relabel_updateParents h hσ hs
      have key := relabel_globals h hσ (l := [M.updateParents (sliceData D.S D.F (sgdWindow D.T mb M.sgdOffset).1 (sgdWindow D.T mb M.sgdOffset).2)])
        (l' := [M'.updateParents (sliceData D'.S D'.F (sgdWindow D.T mb M.sgdOffset).1 (sgdWindow D.T mb M.sgdOffset).2)]) ⟨_, List.Perm.refl _, .cons hp' .nil⟩
        (((sliceData D.S D.F (sgdWindow D.T mb M.sgdOffset).1 (sgdWindow D.T mb M.sgdOffset).2).T : ℝ) / D.T) step (u := fun w => MFNet.sgdstep w step) (u' := fun w => MFNet.sgdstep w step)
        (fun w w' hw => (relabel_netUpdate h.net (h.nodes ▸ hσ) hw step).2) (fun w m e => (netUpdate_K h.net w step).2 m e)
      have eT : (sliceData D'.S D'.F (sgdWindow D.T mb M.sgdOffset).1 (sgdWindow D.T mb M.sgdOffset).2).T = (sliceData D.S D.F (sgdWindow D.T mb M.sgdOffset).1 (sgdWindow D.T mb M.sgdOffset).2).T := rfl
      rw [eT]
      generalize M.updateGlobals _ _ _ _ = X at key ⊢
      generalize M'.updateGlobals _ _ _ _ = X' at key ⊢
      cases X <;> cases X' <;> first | exact key.elim | exact key | skip
      rename_i N N'
      have key : RelabelMF σ N N' := key
      exact ⟨key.size, key.hyper, key.bias, key.imp, key.prob, key.absent, key.present, key.net, key.nodes, key.data, rfl⟩
    | cons D2 l =>
      rw [hd] at hlen
      match hx : M'.data, hlen with
      | [], hlen => simp at hlen
      | [_], hlen => simp at hlen
      | _ :: _ :: _, _ => exact rfl

theorem run_size {M N : MFModel} {a : MFAct} (e : a.run M = .ok N) : N.K = M.K := by
  have g : ∀ {l frac step u} {X : MFModel}, M.updateGlobals l frac step u = .ok X → X.K = M.K := by
    intro l frac step u X e1
    unfold MFModel.updateGlobals at e1
    split at e1
    · cases e1
    · dsimp only at e1
      split at e1
      · cases e1
      · split at e1
        · cases e1
        · cases e1; rfl
  cases a with
  | coord =>
    simp only [MFAct.run, MFModel.coordStep] at e
    split at e
    · cases e
    · rename_i e1; have e2 := g e1; cases e; exact e2
  | sgd mb s =>
    simp only [MFAct.run, MFModel.sgdStep] at e
    split at e
    · split at e
      · cases e
      · rename_i e1; have e2 := g e1; cases e; exact e2
    · cases e

/-- **C104 (mean-field updates).** Erdos-Renyi or one-block network. Renumber the processes and reorder the data sets of a model: then every sequence of `meanfield_coordinate_descent_step` and
`sgd_step` calls ends the same way on both models, with the same error or with states that again differ only by the renumbering and reordering. -/
theorem C104_meanfield_relabel {M M' : MFModel} (h : RelabelMF σ M M') (hσ : PermutesProcesses M.K σ) (acts : List MFAct) : SameOutcome (RelabelMF σ) (runActs acts M) (runActs acts M') := by
  induction acts generalizing M M' with
  | nil => exact h
  | cons a as ih =>
    have step : SameOutcome (RelabelMF σ) (a.run M) (a.run M') := by
      cases a with
      | coord => exact relabel_coord h hσ
      | sgd mb s => exact relabel_sgd h hσ mb s
    simp only [runActs]
    cases e : a.run M <;> cases e' : a.run M' <;> rw [e, e'] at step <;> first | exact step.elim | exact step | skip
    exact ih step (run_size e ▸ hσ)

/-! ### the bound -/

theorem relabel_vlbRow {B : ℕ} (hσ : PermutesProcesses K σ) {k : ℕ} {lnL lnL' : Vec ℝ} {lnW lnW' : ℕ → ℕ → FX} {lng lng' : Ten ℝ} {z z' : Vec ℝ} (s : ℕ) {f f' : Mat ℝ} (hL : lnL' k = lnL (σ k))
    (hW : ∀ i j, lnW' i j = lnW (σ i) (σ j)) (hg : ∀ i j, ∀ b < B, lng' i j b = lng (σ i) (σ j) b) (hz : RelabelRow σ B z z') (hf : ∀ k b, f' k b = f (σ k) b) :
    mfVlbRow K B k lnL' lnW' lng' z' s f' = mfVlbRow K B (σ k) lnL lnW lng z s f := by
  have form : ∀ (k : ℕ) (lnL : Vec ℝ) (lnW : ℕ → ℕ → FX) (lng : Ten ℝ) (z : Vec ℝ) (f : Mat ℝ), mfVlbRow K B k lnL lnW lng z s f
      = (.fin 0 + .fin (z 0 * lnL k) + .fin (-z 0) * logRatio (z 0) s) + ∑ i ∈ range K, ∑ b ∈ range B,
        (.fin (z (1 + i * B + b)) * (FX.log (f i b + 1e-32) + lnW i k + .fin (lng i k b)) + .fin (-z (1 + i * B + b)) * logRatio (z (1 + i * B + b)) s) := by
    intro k lnL lnW lng z f
    unfold mfVlbRow
    rw [← forRange_add]
    refine forRange_congr _ _ _ _ fun i _ w => ?_
    rw [← forRange_add]
    refine forRange_congr _ _ _ _ fun b _ w => ?_
    rw [add_assoc]
  rw [form, form, hz.1, hL]
  congr 1
  rw [← perm_sum hσ fun i => ∑ b ∈ range B, (FX.fin (z (1 + i * B + b)) * (FX.log (f i b + 1e-32) + lnW i (σ k) + .fin (lng i (σ k) b)) + .fin (-z (1 + i * B + b)) * logRatio (z (1 + i * B + b)) s)]
  refine sum_congr rfl fun i _ => sum_congr rfl fun b hb => ?_
  have hb := mem_range.1 hb
  rw [hz.2 i b hb, hf, hW, hg i k b hb]

theorem forall₂_zip {α β γ δ : Type*} {R : α → γ → Prop} {Q : β → δ → Prop} {l1 : List α} {l2 : List β} {m1 : List γ} {m2 : List δ} (h1 : List.Forall₂ R l1 m1) (h2 : List.Forall₂ Q l2 m2) :
    List.Forall₂ (fun x y => R x.1 y.1 ∧ Q x.2 y.2) (l1.zip l2) (m1.zip m2) := by
  induction h1 generalizing l2 m2 with
  | nil => exact .nil
  | cons a _ ih =>
    cases h2 with
    | nil => exact .nil
    | cons b h2 => exact .cons ⟨a, b⟩ (ih h2)

theorem relabel_parentsVlb {M M' : MFModel} (h : RelabelMF σ M M') (hσ : PermutesProcesses M.K σ) {D D' : DParents ℝ} (hD : RelabelData σ M.B D D') : M'.parentsVlb D' = M.parentsVlb D := by
  unfold MFModel.parentsVlb
  rw [fx_range, fx_range, h.size.1, h.size.2, ← perm_sum hσ (K := M.K) (fun k => mfVlbFX M.K M.B k D.T M.bias.eLnLam M.bias.eLam (M.w.eLnW M.net.allowSelf) (M.w.eW M.net.allowSelf) (M.imp.eLnG M.B) D.Ns ((D.getEZ k).zip ((D.Ss k).zip (D.Fs k))))]
  refine sum_congr rfl fun k _ => ?_
  unfold mfVlbFX
  dsimp only
  congr 1
  · rw [hD.T, relabel_eLam h, forRange_add, forRange_add]
    congr 2
    rw [← perm_sum hσ fun i => -(D.Ns i : ℝ) * M.w.eW M.net.allowSelf i (σ k)]
    refine sum_congr rfl fun i _ => ?_
    rw [relabel_Ns hD]
    simp only [MFWeights.eW, relabel_self h, h.prob, relabel_eWA h.absent h.present, σ.injective.eq_iff]
  · rw [FX.sum_eq, FX.sum_eq]
    refine forall₂_sum (R := fun r r' => RelabelRow σ M.B r.1 r'.1 ∧ (r'.2.1 = r.2.1 ∧ ∀ k b, r'.2.2 k b = r.2.2 (σ k) b)) ?_ fun r r' hr => ?_
    · refine forall₂_zip (Q := fun r r' : ℕ × Mat ℝ => r'.1 = r.1 ∧ ∀ k b, r'.2 k b = r.2 (σ k) b) (hD.EZ k) ?_
      refine (forall₂_zip (R := fun a b : ℕ => b = a) (Q := fun f f' : Mat ℝ => ∀ k b, f' k b = f (σ k) b) ?_ ?_)
      · rw [relabel_Ss hD]; exact List.forall₂_same.2 fun _ _ => rfl
      · rw [relabel_Fs hD, List.forall₂_map_right_iff]
        exact List.forall₂_same.2 fun _ _ _ _ => rfl
    · rw [hr.2.1]
      refine relabel_vlbRow hσ _ (relabel_eLnLam h k) (fun i j => ?_) (fun i j b hb => relabel_eLnG h i j hb) hr.1 hr.2.2
      simp only [MFWeights.eLnW, relabel_self h, h.prob, relabel_eLnWA h.absent h.present, σ.injective.eq_iff]

theorem relabel_biasVlb {M M' : MFModel} (h : RelabelMF σ M M') (hσ : PermutesProcesses M.K σ) : M'.bias.vlb M.K = M.bias.vlb M.K := by
  unfold MFBias.vlb
  dsimp only
  rw [← perm_sum hσ fun k => gammaNegent M.bias.alpha M.bias.beta (Real.log M.bias.beta) (M.bias.eLam k) (M.bias.eLnLam k), ← perm_sum hσ fun k => gammaNegentDefault (M.bias.mfAlpha k) (M.bias.mfBeta k)]
  simp only [h.hyper.1, h.hyper.2.1, relabel_eLam h, relabel_eLnLam h, (h.bias _).1, (h.bias _).2]

theorem relabel_impVlb {M M' : MFModel} (h : RelabelMF σ M M') (hσ : PermutesProcesses M.K σ) : M'.imp.vlb M.K M.B = M.imp.vlb M.K M.B := by
  rw [C55_impulse_value, C55_impulse_value, h.hyper.2.2.2.1, ← perm_sum2 hσ fun i j => klDirichlet M.B (M.imp.mfGamma i j) M.imp.gamma]
  congr 2
  refine sum_congr rfl fun i _ => sum_congr rfl fun j _ => ?_
  have : ∀ b ∈ range M.B, M'.imp.mfGamma i j b = M.imp.mfGamma (σ i) (σ j) b := fun b hb => h.imp i j b (mem_range.1 hb)
  simp only [klDirichlet, lnDirNorm]
  rw [sum_congr rfl this]
  have c : ∀ g : ℕ → ℝ → ℝ, ∑ b ∈ range M.B, g b (M'.imp.mfGamma i j b) = ∑ b ∈ range M.B, g b (M.imp.mfGamma (σ i) (σ j) b) := fun g => sum_congr rfl fun b hb => by rw [this b hb]
  rw [c fun _ x => Real.log (Real.Gamma x), c fun b x => (x - M.imp.gamma b) * (psi x - psi (∑ b ∈ range M.B, M.imp.mfGamma (σ i) (σ j) b))]

theorem relabel_wVlb {w w' : MFWeights} (h : RelabelW σ w w') (hσ : PermutesProcesses K σ) {n n' : MFNet} (hn : RelabelNet σ n n') (hk : n'.kappa = n.kappa) {V V' L L' : Mat ℝ}
    (hV : ∀ i j, V' i j = V (σ i) (σ j)) (hL : ∀ i j, L' i j = L (σ i) (σ j)) : w'.vlb K n' V' L' = w.vlb K n V L := by
  have A := relabel_eWA h.absent h.present
  have A' := relabel_eLnWA h.absent h.present
  have r : ∀ (f' f : ℕ → ℕ → FX), (∀ i j, f' i j = f (σ i) (σ j)) → FX.sum ((List.range (K * K)).map fun r => f' (r / K) (r % K)) = FX.sum ((List.range (K * K)).map fun r => f (r / K) (r % K)) := by
    intro f' f e
    rw [fx_square, fx_square, ← perm_sum2 hσ f]
    simp only [e]
  have e1 := r (fun i j => bernNegent (.fin (w'.mfP i j)) (.fin (1 - w'.mfP i j)) (n'.eLnP i j) (n'.eLnNotP i j)) (fun i j => bernNegent (.fin (w.mfP i j)) (.fin (1 - w.mfP i j)) (n.eLnP i j) (n.eLnNotP i j)) fun i j => by simp only [h.prob, (relabel_eLnP hn i j).1, (relabel_eLnP hn i j).2]
  have e2 := r (fun i j => .fin (w'.mfP i j * gammaNegent n'.kappa (V' i j) (L' i j) (w'.eWGivenA 1 i j) (w'.eLnWGivenA 1 i j))) (fun i j => .fin (w.mfP i j * gammaNegent n.kappa (V i j) (L i j) (w.eWGivenA 1 i j) (w.eLnWGivenA 1 i j))) fun i j => by simp only [h.prob, hk, hV, hL, A, A']
  have e3 := r (fun i j => .fin ((1 - w'.mfP i j) * gammaNegent w'.kappa0 w'.nu0 (Real.log w'.nu0) (w'.eWGivenA 0 i j) (w'.eLnWGivenA 0 i j))) (fun i j => .fin ((1 - w.mfP i j) * gammaNegent w.kappa0 w.nu0 (Real.log w.nu0) (w.eWGivenA 0 i j) (w.eLnWGivenA 0 i j))) fun i j => by simp only [h.prob, h.kappa0, h.nu0, A, A']
  have e4 := r (fun i j => bernNegent (.fin (w'.mfP i j)) (.fin (1 - w'.mfP i j)) (FX.log (w'.mfP i j)) (FX.log (1 - w'.mfP i j))) (fun i j => bernNegent (.fin (w.mfP i j)) (.fin (1 - w.mfP i j)) (FX.log (w.mfP i j)) (FX.log (1 - w.mfP i j))) fun i j => by simp only [h.prob]
  have e5 := r (fun i j => .fin (w'.mfP i j * gammaNegentDefault (w'.mfKappa1 i j) (w'.mfV1 i j))) (fun i j => .fin (w.mfP i j * gammaNegentDefault (w.mfKappa1 i j) (w.mfV1 i j))) fun i j => by simp only [h.prob, (h.present i j).1, (h.present i j).2]
  have e6 := r (fun i j => .fin ((1 - w'.mfP i j) * gammaNegentDefault (w'.mfKappa0 i j) (w'.mfV0 i j))) (fun i j => .fin ((1 - w.mfP i j) * gammaNegentDefault (w.mfKappa0 i j) (w.mfV0 i j))) fun i j => by simp only [h.prob, (h.absent i j).1, (h.absent i j).2]
  unfold MFWeights.vlb
  dsimp only at e1 e2 e3 e4 e5 e6 ⊢
  rw [e1, e2, e3, e4, e5, e6]

theorem relabel_blockVlb (huge : ℝ) {n n' : SBM} (h : RelabelBlock σ n n') (hσ : PermutesProcesses n.K σ) : n'.vlb huge {} = n.vlb huge {} := by
  obtain ⟨t0, t1, hk, ha, hb, hp⟩ := h.hyper
  have eM : n'.eLnM 0 = n.eLnM 0 := by unfold SBM.eLnM; rw [h.one.1, h.one.2, sum_range_one, sum_range_one, h.mfPi]
  have lab : ∀ N : SBM, forRange N.K (fun k v =>
      v + discreteNegent huge N.C (N.mfM k) (fun c => .fin (N.eLnM c)) - discreteNegent huge N.C (N.mfM k) (fun c => FX.log (N.mfM k c))) 0
        = ∑ k ∈ range N.K, (discreteNegent huge N.C (N.mfM k) (fun c => .fin (N.eLnM c)) - discreteNegent huge N.C (N.mfM k) (fun c => FX.log (N.mfM k c))) := by
    intro N
    have := forRange_add N.K (fun k => discreteNegent huge N.C (N.mfM k) (fun c => .fin (N.eLnM c)) - discreteNegent huge N.C (N.mfM k) (fun c => FX.log (N.mfM k c))) 0
    rw [zero_add] at this
    rw [← this]
    congr 1
    funext k v
    ring
  have labels : ∑ k ∈ range n'.K, (discreteNegent huge n'.C (n'.mfM k) (fun c => .fin (n'.eLnM c)) - discreteNegent huge n'.C (n'.mfM k) (fun c => FX.log (n'.mfM k c)))
      = ∑ k ∈ range n.K, (discreteNegent huge n.C (n.mfM k) (fun c => .fin (n.eLnM c)) - discreteNegent huge n.C (n.mfM k) (fun c => FX.log (n.mfM k c))) := by
    rw [h.K, ← perm_sum hσ fun k => discreteNegent huge n.C (n.mfM k) (fun c => .fin (n.eLnM c)) - discreteNegent huge n.C (n.mfM k) (fun c => FX.log (n.mfM k c))]
    refine sum_congr rfl fun k _ => ?_
    unfold discreteNegent
    rw [h.one.1, h.one.2]
    simp only [fx_range, sum_range_one, h.mfM, eM]
  unfold SBM.vlb
  dsimp only
  simp only [if_true]
  rw [lab, lab, labels]
  unfold dirNegent
  rw [h.one.1, h.one.2]
  simp only [mul_one, sum_range_one, sum_range_succ, range_zero, sum_empty, Nat.zero_div, Nat.zero_mod, if_true, one_ne_zero, if_false, t0, t1, h.mfTau.1, h.mfTau.2, relabel_blkLnP h, relabel_blkLnNotP h, relabel_blkV h,
    relabel_blkLnV h, ha, hb, h.mfAB.1, h.mfAB.2, hp, eM, h.mfPi]

/-- **C104 (the bound).** Erdos-Renyi or one-block network: `get_vlb()` does not depend on the numbering of the processes or the order of the data sets. -/
theorem C104_vlb_relabel (huge : ℝ) {M M' : MFModel} (h : RelabelMF σ M M') (hσ : PermutesProcesses M.K σ) : M'.vlb huge = M.vlb huge := by
  have h1 := relabel_eV h.net
  have h2 := relabel_eLnV h.net
  have hy : M'.net.vlb huge = M.net.vlb huge := by
    have hn := h.net
    have hN := h.nodes
    cases e : M.net <;> cases e' : M'.net <;> rw [e, e'] at hn <;> rw [e] at hN <;> first | exact hn.elim | skip
    · have hN' : PermutesProcesses (netK M.net) σ := h.nodes ▸ hσ
      rw [e] at hN'
      exact congrArg Except.ok (relabel_blockVlb huge hn hN')
    · rfl
    · rw [show _ = _ from hn]
  unfold MFModel.vlb
  rw [hy, FX.sum_eq, FX.sum_eq, data_sum h.data fun D D' r => relabel_parentsVlb h hσ r, h.size.1, h.size.2, relabel_biasVlb h hσ, relabel_impVlb h hσ]
  cases e1 : M.net.eV <;> cases e1' : M'.net.eV <;> rw [e1, e1'] at h1 <;> first | exact h1.elim | (exact congrArg Except.error (show _ = _ from h1).symm) | skip
  cases e2 : M.net.eLnV <;> cases e2' : M'.net.eLnV <;> rw [e2, e2'] at h2 <;> first | exact h2.elim | (exact congrArg Except.error (show _ = _ from h2).symm) | skip
  dsimp only
  rw [relabel_wVlb (RelabelMF.w h) hσ h.net (relabel_kappa h) h1 h2]

end
end PyHawkes
