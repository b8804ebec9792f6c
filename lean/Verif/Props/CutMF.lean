import Verif.Props.Cut
import Verif.Props.RelabelRate

/-!
# C111: how a recording is cut into data sets does not matter to mean-field inference; cutting at silences and into minibatches
-/

set_option linter.unusedVariables false
set_option linter.unusedSectionVars false

namespace PyHawkes
open Finset Spec

/-! ### mean field -/

/-- everything the mean-field updates take from the data agrees -/
structure SameExp (dl dl' : List (DParents ℝ)) : Prop where
  b0 : ∀ k, expSum dl' (fun d => expBkgdSS0 d k) = expSum dl fun d => expBkgdSS0 d k
  b1 : ∀ dt k, expSum dl' (fun d => bkgdSS1 d dt k) = expSum dl fun d => bkgdSS1 d dt k
  ir : ∀ B i j b, expSum dl' (fun d => expIrSS d B i j b) = expSum dl fun d => expIrSS d B i j b
  w0 : ∀ B i j, expSum dl' (fun d => expWeightSS0 d B i j) = expSum dl fun d => expWeightSS0 d B i j
  w1 : ∀ i j, expSum dl' (fun d => (weightSS1 d i j : ℝ)) = expSum dl fun d => (weightSS1 d i j : ℝ)
  ne : dl' = [] ↔ dl = []

theorem sameExp {dl dl' : List (DParents ℝ)} (h : SameBins dl dl') (hz : ∀ k, dl'.flatMap (fun D => D.getEZ k) = dl.flatMap fun D => D.getEZ k) : SameExp dl dl' := by
  have key : ∀ (k : ℕ) (f : Vec ℝ → ℝ), (dl'.map fun D => ((D.getEZ k).map f).sum).sum = (dl.map fun D => ((D.getEZ k).map f).sum).sum := by
    intro k f
    rw [cut_sum dl' (fun D => D.getEZ k) f, cut_sum dl (fun D => D.getEZ k) f, hz]
  have hir : ∀ B i j b, expSum dl' (fun d => expIrSS d B i j b) = expSum dl fun d => expIrSS d B i j b := by
    intro B i j b
    rw [expSum_eq, expSum_eq]
    exact key j fun z => z (1 + i * B + b)
  refine ⟨fun k => ?_, fun dt k => ?_, hir, fun B i j => ?_, fun i j => ?_, h.2⟩
  · rw [expSum_eq, expSum_eq]
    exact key k fun z => z 0
  · rw [expSum_eq, expSum_eq]
    simp only [bkgdSS1, List.sum_map_mul_right]
    rw [cut_T h]
  · have e : ∀ l : List (DParents ℝ), expSum l (fun d => expWeightSS0 d B i j) = ∑ b ∈ range B, expSum l fun d => expIrSS d B i j b := by
      intro l
      simp only [expSum_eq]
      induction l with
      | nil => simp
      | cons D l ih => simp only [List.map_cons, List.sum_cons, sum_add_distrib, ih]; congr 1
    rw [e, e]
    exact sum_congr rfl fun b _ => hir B i j b
  · rw [expSum_eq, expSum_eq]
    exact cut_Ns h i

/-- the expected-parent row of one bin -/
noncomputable def mfRowOf (M : MFModel) (k2 : ℕ) (p : ℕ × Mat ℝ) : Vec ℝ :=
  mfRowPy M.K M.B (Real.exp (M.bias.eLnLam k2)) (fun k1 => M.w.expELnW M.net.allowSelf k1 k2) (fun k1 b => Real.exp (M.imp.eLnG M.B k1 k2 b)) (p.1 : ℝ) p.2

theorem updated_bins (M : MFModel) (dl : List (DParents ℝ)) : (dl.map M.updateParents).flatMap bins = dl.flatMap bins := by
  rw [List.flatMap_map]
  rfl

theorem updated_EZ (M : MFModel) (dl : List (DParents ℝ)) (k : ℕ) :
    (dl.map M.updateParents).flatMap (fun D => D.getEZ k) = (dl.flatMap fun D => (D.Ss k).zip (D.Fs k)).map (mfRowOf M k) := by
  rw [List.flatMap_map, List.map_flatMap]
  rfl

theorem cut_zip_self {α β : Type*} (l : List α) (f : α → β) : (l.map f).zip l = l.map fun x => (f x, x) := by
  induction l with
  | nil => rfl
  | cons a l ih => simp [ih]

theorem updated_rows (M : MFModel) (dl : List (DParents ℝ)) (k : ℕ) :
    (dl.map M.updateParents).flatMap (fun D => (D.getEZ k).zip ((D.Ss k).zip (D.Fs k))) = (dl.flatMap fun D => (D.Ss k).zip (D.Fs k)).map fun x => (mfRowOf M k x, x) := by
  rw [List.flatMap_map, List.map_flatMap]
  congr 1
  funext D
  exact cut_zip_self _ _

theorem cut_updated (M : MFModel) {dl dl' : List (DParents ℝ)} (h : SameBins dl dl') : SameBins (dl.map M.updateParents) (dl'.map M.updateParents) ∧
    SameExp (dl.map M.updateParents) (dl'.map M.updateParents) ∧ SameExpected (dl.map M.updateParents) (dl'.map M.updateParents) := by
  have hb : SameBins (dl.map M.updateParents) (dl'.map M.updateParents) := ⟨by rw [updated_bins, updated_bins, h.1], by simp only [List.map_eq_nil_iff, h.2]⟩
  refine ⟨hb, sameExp hb fun k => ?_, fun k => ?_⟩
  · rw [updated_EZ, updated_EZ, rows_flat, rows_flat, h.1]
  · rw [updated_rows, updated_rows, rows_flat, rows_flat, h.1]

theorem cut_globals {M : MFModel} {l l' : List (DParents ℝ)} (h : SameExp l l') (dl : List (DParents ℝ)) (frac step : ℝ) (u : MFWeights → MFNet → Except PyErr MFNet) :
    SameOutcome (fun N N' : MFModel => N' = { N with data := dl }) (M.updateGlobals l frac step u) ({ M with data := dl }.updateGlobals l' frac step u) := by
  unfold MFModel.updateGlobals
  have e1 : M.bias.update l' frac step = M.bias.update l frac step := by unfold MFBias.update; simp only [h.b0, h.b1]
  have e2 : M.imp.update M.B l' frac step = M.imp.update M.B l frac step := by unfold MFImp.update; simp only [h.ir]
  have e3 : M.w.update M.K M.B M.net l' frac step = M.w.update M.K M.B M.net l frac step := by unfold MFWeights.update MFWeights.updateKappaV; simp only [h.w0, h.w1]
  dsimp only
  rw [e1, e2, e3]
  by_cases hl : l = []
  · rw [if_pos hl, if_pos (h.ne.2 hl)]; exact rfl
  · rw [if_neg hl, if_neg fun x => hl (h.ne.1 x)]
    cases M.w.update M.K M.B M.net l frac step with
    | error e => exact rfl
    | ok w =>
      dsimp only
      cases u w M.net with
      | error e => exact rfl
      | ok n => exact rfl

/-- **C111 (mean-field step).** `meanfield_coordinate_descent_step()` on two ways of cutting the same recordings: the same error, or the same new variational parameters. -/
theorem C111_meanfield {M M' : MFModel} (h : SameButCutsMF M M') : SameOutcome SameButCutsMF M.coordStep M'.coordStep := by
  obtain ⟨hb, -, hM⟩ := h
  obtain ⟨u1, u2, u3⟩ := cut_updated M hb
  have k := cut_globals (M := M) u2 M'.data 1 1 MFNet.meanfieldupdate
  rw [← hM] at k
  have eu : M'.updateParents = M.updateParents := by rw [hM]; rfl
  unfold MFModel.coordStep
  dsimp only
  rw [eu]
  cases e : M.updateGlobals (M.data.map M.updateParents) 1 1 MFNet.meanfieldupdate <;> cases e' : M'.updateGlobals (M'.data.map M.updateParents) 1 1 MFNet.meanfieldupdate <;>
    rw [e, e'] at k <;> first | exact k.elim | exact k | skip
  rename_i N N'
  have k : N' = { N with data := M'.data } := k
  exact ⟨u1, u3, by rw [k]⟩

/-- **C111 (any number of mean-field steps).** -/
theorem C111_meanfield_run (n : ℕ) {M M' : MFModel} (h : SameButCutsMF M M') : SameOutcome SameButCutsMF (runActs (List.replicate n .coord) M) (runActs (List.replicate n .coord) M') := by
  induction n generalizing M M' with
  | zero => exact h
  | succ n ih =>
    have k := C111_meanfield h
    simp only [List.replicate_succ, runActs, MFAct.run]
    cases e : M.coordStep <;> cases e' : M'.coordStep <;> rw [e, e'] at k <;> first | exact k.elim | exact k | skip
    exact ih k

theorem fx_sum_comm (dl : List (DParents ℝ)) (K : ℕ) (f : ℕ → DParents ℝ → FX) :
    (dl.map fun D => ∑ k ∈ range K, f k D).sum = ∑ k ∈ range K, (dl.map fun D => f k D).sum := by
  induction dl with
  | nil => simp
  | cons D l ih => simp only [List.map_cons, List.sum_cons, ih, sum_add_distrib]

theorem fx_sum_fin (dl : List (DParents ℝ)) (f : DParents ℝ → ℝ) : (dl.map fun D => FX.fin (f D)).sum = FX.fin (dl.map f).sum := by
  induction dl with
  | nil => rfl
  | cons D l ih => simp only [List.map_cons, List.sum_cons, ih]; rfl

/-- **C111 (variational lower bound).** `get_vlb()` does not depend on how the recordings are cut. -/
theorem C111_vlb (huge : ℝ) {M M' : MFModel} (h : SameButCutsMF M M') : M'.vlb huge = M.vlb huge := by
  obtain ⟨hb, he, hM⟩ := h
  have hp : ∀ dl : List (DParents ℝ), FX.sum (dl.map M.parentsVlb) = ∑ k ∈ range M.K,
      (FX.fin (-(dl.map fun D => (D.T : ℝ)).sum * M.bias.eLam k + ∑ i ∈ range M.K, -(dl.map fun D => (D.Ns i : ℝ)).sum * M.w.eW M.net.allowSelf i k) +
        ((dl.flatMap fun D => (D.getEZ k).zip ((D.Ss k).zip (D.Fs k))).map fun r => mfVlbRow M.K M.B k M.bias.eLnLam (M.w.eLnW M.net.allowSelf) (M.imp.eLnG M.B) r.1 r.2.1 r.2.2).sum) := by
    intro dl
    rw [FX.sum_eq]
    have e1 : M.parentsVlb = fun D => ∑ k ∈ range M.K, (FX.fin (-(D.T : ℝ) * M.bias.eLam k + ∑ i ∈ range M.K, -(D.Ns i : ℝ) * M.w.eW M.net.allowSelf i k) +
        (((D.getEZ k).zip ((D.Ss k).zip (D.Fs k))).map fun r => mfVlbRow M.K M.B k M.bias.eLnLam (M.w.eLnW M.net.allowSelf) (M.imp.eLnG M.B) r.1 r.2.1 r.2.2).sum) := by
      funext D
      unfold MFModel.parentsVlb mfVlbFX
      rw [fx_range]
      refine sum_congr rfl fun k _ => ?_
      dsimp only
      rw [forRange_add, FX.sum_eq, zero_add]
    rw [e1, fx_sum_comm]
    refine sum_congr rfl fun k _ => ?_
    rw [List.sum_map_add, fx_sum_fin, cut_sum]
    congr 2
    induction dl with
    | nil => simp
    | cons D l ih =>
      rw [List.map_cons, List.sum_cons, ih]
      simp only [List.map_cons, List.sum_cons, neg_add, add_mul, sum_add_distrib]
      ring
  have hv : FX.sum (M'.data.map M.parentsVlb) = FX.sum (M.data.map M.parentsVlb) := by
    rw [hp, hp, cut_T hb]
    refine sum_congr rfl fun k _ => ?_
    rw [he k]
    simp only [cut_Ns hb]
  rw [hM]
  unfold MFModel.vlb
  dsimp only
  have : FX.sum (M'.data.map (MFModel.parentsVlb { M with data := M'.data })) = FX.sum (M.data.map M.parentsVlb) := hv
  rw [this]

/-- before the first mean-field step nothing is expected yet: two models with the same bins qualify -/
theorem fresh_expected {dl dl' : List (DParents ℝ)} (h : SameBins dl dl') (h1 : ∀ D ∈ dl, D.EZ = none) (h2 : ∀ D ∈ dl', D.EZ = none) : SameExpected dl dl' := by
  have key : ∀ (l : List (DParents ℝ)), (∀ D ∈ l, D.EZ = none) → ∀ k, l.flatMap (fun D => (D.getEZ k).zip ((D.Ss k).zip (D.Fs k)))
      = (l.flatMap fun D => (D.Ss k).zip (D.Fs k)).map fun x => ((fun _ => 0 : Vec ℝ), x) := by
    intro l hl k
    rw [List.map_flatMap]
    simp only [List.flatMap_def]
    congr 1
    refine List.map_congr_left fun D hD => ?_
    have : D.getEZ k = ((D.Ss k).zip (D.Fs k)).map fun _ => (fun _ => 0 : Vec ℝ) := by
      rw [zip_Ss_Fs, List.map_map, DParents.getEZ, hl D hD]
      rfl
    rw [this, cut_zip_self]
  intro k
  rw [key dl' h2, key dl h1, rows_flat, rows_flat, h.1]

end PyHawkes
