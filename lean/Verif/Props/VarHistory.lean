import Verif.Spec.Variational
import Verif.Props.DParents

/-! # C50: variational parameters stay valid along every history of mean-field steps; C52: the windows of stochastic steps -/
set_option linter.unusedSectionVars false

namespace PyHawkes
open Finset Spec

/-! ### Blending -/

theorem blend_ge {m x y s : ℝ} (h0 : 0 ≤ s) (h1 : s ≤ 1) (hx : m ≤ x) (hy : m ≤ y) : m ≤ (1 - s) * x + s * y := by
  nlinarith [mul_le_mul_of_nonneg_left hx (sub_nonneg.2 h1), mul_le_mul_of_nonneg_left hy h0]

theorem blend_ge_prior {x0 pr x e s : ℝ} (h0 : 0 ≤ s) (h1 : s ≤ 1) (hx : min x0 pr ≤ x) (he : 0 ≤ e) :
    min x0 pr ≤ (1 - s) * x + s * (pr + e) :=
  blend_ge h0 h1 hx (le_trans (min_le_right _ _) (by linarith))

/-! ### Expected statistics are nonnegative -/

theorem expSum_eq (dl : List (DParents ℝ)) (f : DParents ℝ → ℝ) : expSum dl f = (dl.map f).sum := by
  unfold expSum
  have : ∀ a, dl.foldl (fun acc d => acc + f d) a = a + (dl.map f).sum := by
    induction dl with
    | nil => simp
    | cons d dl ih => intro a; rw [List.foldl_cons, ih, List.map_cons, List.sum_cons, add_assoc]
  rw [this, zero_add]

theorem expSum_nonneg (dl : List (DParents ℝ)) (f : DParents ℝ → ℝ) (h : ∀ d ∈ dl, 0 ≤ f d) : 0 ≤ expSum dl f := by
  rw [expSum_eq]
  refine List.sum_nonneg fun x hx => ?_
  obtain ⟨d, hd, rfl⟩ := List.mem_map.1 hx
  exact h d hd

theorem mfRowPy_nonneg (K B : ℕ) (p0 : ℝ) (W : Vec ℝ) (G : Mat ℝ) (s : ℝ) (ft : Mat ℝ) (hp : 0 ≤ p0) (hW : ∀ k, 0 ≤ W k)
    (hG : ∀ k b, 0 ≤ G k b) (hf : ∀ k b, 0 ≤ ft k b) (hs : 0 ≤ s) (j : ℕ) : 0 ≤ mfRowPy K B p0 W G s ft j := by
  have h : ∀ j, 0 ≤ ravel B (fun k1 b => ft k1 b * W k1 * G k1 b) j := fun j => mul_nonneg (mul_nonneg (hf _ _) (hW _)) (hG _ _)
  have hZ : 0 ≤ p0 + ∑ j ∈ range (K * B), ravel B (fun k1 b => ft k1 b * W k1 * G k1 b) j := add_nonneg hp (sum_nonneg fun j _ => h j)
  cases j with
  | zero => exact mul_nonneg (div_nonneg hp hZ) hs
  | succ j => exact mul_nonneg (div_nonneg (h j) hZ) hs

/-- all expected parent counts of a data set are nonnegative -/
def EZPos (D : DParents ℝ) : Prop := ∀ k, ∀ z ∈ D.getEZ k, ∀ j, 0 ≤ z j

theorem EZPos_update (M : MFModel) (D : DParents ℝ) (hF : ∀ t k b, 0 ≤ D.F t k b) : EZPos (M.updateParents D) := by
  intro k z hz j
  simp only [MFModel.updateParents, mfUpdateParents, DParents.getEZ, List.mem_map] at hz
  obtain ⟨p, hp, rfl⟩ := hz
  have hp2 := (List.of_mem_zip hp).2
  simp only [DParents.Fs, List.mem_map] at hp2
  obtain ⟨t, _, ht⟩ := hp2
  refine mfRowPy_nonneg _ _ _ _ _ _ _ (Real.exp_pos _).le ?_ (fun _ _ => (Real.exp_pos _).le) (fun a b => ht ▸ hF t a b) (Nat.cast_nonneg _) j
  intro k1
  unfold MFWeights.expELnW
  split_ifs
  · exact le_rfl
  · exact (Real.exp_pos _).le

theorem col_sum_nonneg (D : DParents ℝ) (h : EZPos D) (k j : ℕ) : 0 ≤ ((D.getEZ k).map fun z => z j).sum := by
  refine List.sum_nonneg fun x hx => ?_
  obtain ⟨z, hz, rfl⟩ := List.mem_map.1 hx
  exact h k z hz j

/-! ### Frame: hyperparameters never change -/

/-- everything but the variational parameters is as in `n0` -/
structure SameHyper (n0 n : SBM) : Prop where
  K : n.K = n0.K
  C : n.C = n0.C
  pi : n.pi = n0.pi
  tau0 : n.tau0 = n0.tau0
  tau1 : n.tau1 = n0.tau1
  kappa : n.kappa = n0.kappa
  alpha : n.alpha = n0.alpha
  beta : n.beta = n0.beta
  allowSelf : n.allowSelf = n0.allowSelf
  c : n.c = n0.c
  p : n.p = n0.p
  v : n.v = n0.v
  fixed : n.fixed = n0.fixed

theorem SameHyper.refl (n : SBM) : SameHyper n n := ⟨rfl, rfl, rfl, rfl, rfl, rfl, rfl, rfl, rfl, rfl, rfl, rfl, rfl⟩
theorem SameHyper.P {n0 n : SBM} (h : SameHyper n0 n) : n.P = n0.P := by funext i j; simp [SBM.P, h.allowSelf, h.p, h.c]
theorem SameHyper.V {n0 n : SBM} (h : SameHyper n0 n) : n.V = n0.V := by funext i j; simp [SBM.V, h.v, h.c]

/-- frame and validity of a block model along a history -/
structure SBMInv (n0 n : SBM) : Prop where
  same : SameHyper n0 n
  valid : SBMValid n0 n

theorem SBMValid.refl {n : SBM} (h : SBMGood n) : SBMValid n n :=
  ⟨fun _ _ _ _ => min_le_left _ _, fun _ _ _ _ => min_le_left _ _, fun _ _ _ _ => min_le_left _ _, fun _ _ _ _ => min_le_left _ _,
    fun _ _ => min_le_left _ _, h.mfM⟩

theorem SBMInv.tauPos {n0 n : SBM} (g : SBMGood n0) (h : SBMInv n0 n) {c d : ℕ} (hc : c < n0.C) (hd : d < n0.C) :
    0 < n.mfTau0 c d ∧ 0 < n.mfTau1 c d :=
  ⟨(lt_min (g.mfTau c hc d hd).1 g.tau.1).trans_le (h.valid.tau0 c hc d hd), (lt_min (g.mfTau c hc d hd).2 g.tau.2).trans_le (h.valid.tau1 c hc d hd)⟩

theorem SBMInv.abPos {n0 n : SBM} (g : SBMGood n0) (h : SBMInv n0 n) {c d : ℕ} (hc : c < n0.C) (hd : d < n0.C) :
    0 < n.mfAlpha c d ∧ 0 < n.mfBeta c d :=
  ⟨(lt_min (g.mfAB c hc d hd).1 g.ab.1).trans_le (h.valid.alpha c hc d hd), (lt_min (g.mfAB c hc d hd).2 g.ab.2).trans_le (h.valid.beta c hc d hd)⟩

theorem SBMInv.piPos {n0 n : SBM} (g : SBMGood n0) (h : SBMInv n0 n) {c : ℕ} (hc : c < n0.C) : 0 < n.mfPi c :=
  (lt_min (g.mfPi c hc) (g.pi c hc)).trans_le (h.valid.pi c hc)

/-- the expected scale of every pair is positive -/
theorem mixPos (n : SBM) (i j : ℕ) (f : Mat ℝ) (hi : (∀ c < n.C, 0 ≤ n.mfM i c) ∧ ∑ c ∈ range n.C, n.mfM i c = 1)
    (hj : (∀ c < n.C, 0 ≤ n.mfM j c) ∧ ∑ c ∈ range n.C, n.mfM j c = 1) (hf : ∀ c < n.C, ∀ d < n.C, 0 < f c d) :
    0 < ∑ c1 ∈ range n.C, ∑ c2 ∈ range n.C, n.mfM i c1 * n.mfM j c2 * f c1 c2 := by
  have h0 : ∀ c1 ∈ range n.C, ∀ c2 ∈ range n.C, 0 ≤ n.mfM i c1 * n.mfM j c2 * f c1 c2 := fun c1 h1 c2 h2 =>
    mul_nonneg (mul_nonneg (hi.1 _ (mem_range.1 h1)) (hj.1 _ (mem_range.1 h2))) (hf _ (mem_range.1 h1) _ (mem_range.1 h2)).le
  have ex : ∀ k, ((∀ c < n.C, 0 ≤ n.mfM k c) ∧ ∑ c ∈ range n.C, n.mfM k c = 1) → ∃ c ∈ range n.C, 0 < n.mfM k c := by
    intro k hk
    by_contra hcon
    push Not at hcon
    have : ∑ c ∈ range n.C, n.mfM k c ≤ 0 := sum_nonpos hcon
    linarith [hk.2]
  obtain ⟨a, ha, hap⟩ := ex i hi
  obtain ⟨b, hb, hbp⟩ := ex j hj
  refine sum_pos' (fun c1 h1 => sum_nonneg (h0 c1 h1)) ⟨a, ha, sum_pos' (h0 a ha) ⟨b, hb, ?_⟩⟩
  exact mul_pos (mul_pos hap hbp) (hf _ (mem_range.1 ha) _ (mem_range.1 hb))

/-! ### Each block-model update keeps the invariant -/

section updates
variable {n0 n : SBM} (g : SBMGood n0) (h : SBMInv n0 n) {EA EW ELW : Mat ℝ} {s : ℝ} (h0 : 0 ≤ s) (h1 : s ≤ 1)
  (hA : ∀ i < n0.K, ∀ j < n0.K, 0 ≤ EA i j ∧ EA i j ≤ 1) (hW : ∀ i < n0.K, ∀ j < n0.K, 0 ≤ EW i j)
include g h h0 h1

theorem SBMInv.pw {c d i j : ℕ} (hc : c < n0.C) (hd : d < n0.C) (hi : i < n0.K) (hj : j < n0.K) : 0 ≤ n.mfM i c * n.mfM j d :=
  mul_nonneg ((h.valid.m i hi).1 c hc) ((h.valid.m j hj).1 d hd)

include hA in
theorem SBMInv.updateP : SBMInv n0 (n.mfUpdateP EA s) := by
  obtain ⟨sm, v⟩ := h
  have h : SBMInv n0 n := ⟨sm, v⟩
  refine ⟨⟨sm.K, sm.C, sm.pi, sm.tau0, sm.tau1, sm.kappa, sm.alpha, sm.beta, sm.allowSelf, sm.c, sm.p, sm.v, sm.fixed⟩,
    ⟨fun c hc d hd => ?_, fun c hc d hd => ?_, v.alpha, v.beta, v.pi, v.m⟩⟩
  · simp only [SBM.mfUpdateP, sm.K, sm.tau0]
    refine blend_ge_prior h0 h1 (v.tau0 c hc d hd) (sum_nonneg fun i hi => sum_nonneg fun j hj => ?_)
    have := hA i (mem_range.1 hi) j (mem_range.1 hj)
    exact mul_nonneg (SBMInv.pw g h h0 h1 hc hd (mem_range.1 hi) (mem_range.1 hj)) (by linarith)
  · simp only [SBM.mfUpdateP, sm.K, sm.tau1]
    refine blend_ge_prior h0 h1 (v.tau1 c hc d hd) (sum_nonneg fun i hi => sum_nonneg fun j hj => ?_)
    exact mul_nonneg (SBMInv.pw g h h0 h1 hc hd (mem_range.1 hi) (mem_range.1 hj)) (hA i (mem_range.1 hi) j (mem_range.1 hj)).1

include hA hW in
theorem SBMInv.updateV : SBMInv n0 (n.mfUpdateV EA EW s) := by
  obtain ⟨sm, v⟩ := h
  have h : SBMInv n0 n := ⟨sm, v⟩
  refine ⟨⟨sm.K, sm.C, sm.pi, sm.tau0, sm.tau1, sm.kappa, sm.alpha, sm.beta, sm.allowSelf, sm.c, sm.p, sm.v, sm.fixed⟩,
    ⟨v.tau0, v.tau1, fun c hc d hd => ?_, fun c hc d hd => ?_, v.pi, v.m⟩⟩
  · simp only [SBM.mfUpdateV, sm.K, sm.alpha, sm.kappa]
    refine blend_ge_prior h0 h1 (v.alpha c hc d hd) (sum_nonneg fun i hi => sum_nonneg fun j hj => ?_)
    exact mul_nonneg (mul_nonneg (SBMInv.pw g h h0 h1 hc hd (mem_range.1 hi) (mem_range.1 hj)) (hA i (mem_range.1 hi) j (mem_range.1 hj)).1) g.kappa.le
  · simp only [SBM.mfUpdateV, sm.K, sm.beta]
    refine blend_ge_prior h0 h1 (v.beta c hc d hd) (sum_nonneg fun i hi => sum_nonneg fun j hj => ?_)
    exact mul_nonneg (mul_nonneg (SBMInv.pw g h h0 h1 hc hd (mem_range.1 hi) (mem_range.1 hj)) (hA i (mem_range.1 hi) j (mem_range.1 hj)).1)
      (hW i (mem_range.1 hi) j (mem_range.1 hj))

theorem SBMInv.updateM : SBMInv n0 (n.mfUpdateM s) := by
  obtain ⟨sm, v⟩ := h
  refine ⟨⟨sm.K, sm.C, sm.pi, sm.tau0, sm.tau1, sm.kappa, sm.alpha, sm.beta, sm.allowSelf, sm.c, sm.p, sm.v, sm.fixed⟩,
    ⟨v.tau0, v.tau1, v.alpha, v.beta, fun c hc => ?_, v.m⟩⟩
  simp only [SBM.mfUpdateM, sm.K, sm.pi]
  exact blend_ge_prior h0 h1 (v.pi c hc) (sum_nonneg fun k hk => (v.m k (mem_range.1 hk)).1 c hc)

theorem SBMInv.updateC1 (k : ℕ) : SBMInv n0 (n.mfUpdateC1 EA EW ELW s k) := by
  obtain ⟨sm, v⟩ := h
  refine ⟨⟨sm.K, sm.C, sm.pi, sm.tau0, sm.tau1, sm.kappa, sm.alpha, sm.beta, sm.allowSelf, sm.c, sm.p, sm.v, sm.fixed⟩,
    ⟨v.tau0, v.tau1, v.alpha, v.beta, v.pi, fun i hi => ?_⟩⟩
  by_cases hik : i = k
  · subst hik
    simp only [SBM.mfUpdateC1, if_pos, sm.C]
    set lp := n.mfLp EA EW ELW i
    have hS : 0 < ∑ c ∈ range n0.C, Real.exp (lp c) := sum_pos (fun _ _ => Real.exp_pos _) ⟨0, mem_range.2 g.C⟩
    refine ⟨fun c hc => add_nonneg (mul_nonneg (by linarith) ((v.m i hi).1 c hc)) (mul_nonneg h0 (Real.exp_pos _).le), ?_⟩
    rw [sum_add_distrib, ← mul_sum, ← mul_sum, (v.m i hi).2]
    have : ∑ c ∈ range n0.C, Real.exp (lp c - Real.log (∑ c ∈ range n0.C, Real.exp (lp c))) = 1 := by
      simp_rw [Real.exp_sub, Real.exp_log hS]
      rw [← sum_div, div_self hS.ne']
    rw [this]; ring
  · simp only [SBM.mfUpdateC1, if_neg hik]
    exact v.m i hi

theorem SBMInv.updateC : SBMInv n0 (n.mfUpdateC EA EW ELW s) :=
  forRange_induct (fun _ n => SBMInv n0 n) n.K _ n h fun k _ _ hn => SBMInv.updateC1 g hn h0 h1 k

end updates

theorem SBMInv.sgdstep {n0 n : SBM} (g : SBMGood n0) (h : SBMInv n0 n) (w : MFWeights) {s : ℝ} (h0 : 0 ≤ s) (h1 : s ≤ 1)
    (hA : ∀ i < n0.K, ∀ j < n0.K, 0 ≤ w.mfP i j ∧ w.mfP i j ≤ 1) (hW : ∀ i < n0.K, ∀ j < n0.K, 0 ≤ w.eWGivenA 1 i j) (f : NetFlags) :
    SBMInv n0 (n.sgdstep w s f) := by
  unfold SBM.sgdstep
  dsimp only
  have a1 : SBMInv n0 (if f.p then n.mfUpdateP w.mfP s else n) := by split_ifs; exacts [SBMInv.updateP g h h0 h1 hA, h]
  generalize (if f.p then n.mfUpdateP w.mfP s else n) = n1 at a1
  have a2 : SBMInv n0 (if f.v then n1.mfUpdateV w.mfP (w.eWGivenA 1) s else n1) := by split_ifs; exacts [SBMInv.updateV g a1 h0 h1 hA hW, a1]
  generalize (if f.v then n1.mfUpdateV w.mfP (w.eWGivenA 1) s else n1) = n2 at a2
  have a3 : SBMInv n0 (if f.m then n2.mfUpdateM s else n2) := by split_ifs; exacts [SBMInv.updateM g a2 h0 h1, a2]
  generalize (if f.m then n2.mfUpdateM s else n2) = n3 at a3
  split_ifs
  exacts [SBMInv.updateC g a3 h0 h1, a3]

theorem meanfieldupdate_eq_sgd (w : MFWeights) (f : NetFlags) (n : SBM) :
    n.meanfieldupdate w f = n.sgdstep w 1 { f with p := f.c } := rfl

/-! ### Networks -/

/-- frame and validity of a network object along a history -/
def NetInv : MFNet → MFNet → Prop
  | .sbm n0, .sbm n => SBMInv n0 n
  | .fixedSparsity n0, .fixedSparsity n => SBMInv n0 n
  | .er n0, .er n => n.K = n0.K ∧ n.kappa = n0.kappa ∧ n.p = n0.p ∧ n.allowSelf = n0.allowSelf ∧ n.alpha = n0.alpha ∧ n.beta = n0.beta ∧
      NetValid (.er n0) (.er n)
  | _, _ => False

theorem NetInv.valid {a b : MFNet} (h : NetInv a b) : NetValid a b := by
  cases a <;> cases b <;> first | exact SBMInv.valid h | exact h.2.2.2.2.2.2 | exact h.elim

theorem NetInv.kappa {a b : MFNet} (h : NetInv a b) : b.kappa = a.kappa := by
  cases a <;> cases b <;> first | exact (SBMInv.same h).kappa | exact h.2.1 | exact h.elim

theorem NetInv.refl {K : ℕ} {a : MFNet} (h : NetGood K a) : NetInv a a := by
  cases a with
  | sbm n => exact ⟨SameHyper.refl n, SBMValid.refl h.2⟩
  | fixedSparsity n => exact ⟨SameHyper.refl n, SBMValid.refl h.2⟩
  | er n => exact ⟨rfl, rfl, rfl, rfl, rfl, rfl, fun al be a0 b0 _ _ hm => ⟨a0, b0, hm, min_le_left _ _, min_le_left _ _⟩⟩

theorem NetGood.kappaPos {K : ℕ} {a : MFNet} (h : NetGood K a) : 0 < a.kappa := by
  cases a with
  | sbm n => exact h.2.kappa
  | fixedSparsity n => exact h.2.kappa
  | er n => exact h.2.1

theorem SBM.eV_form (n : SBM) (i j : ℕ) :
    ∑ c1 ∈ range n.C, ∑ c2 ∈ range n.C, n.mfM i c1 * n.mfM j c2 * n.mfAlpha c1 c2 / n.mfBeta c1 c2
      = ∑ c1 ∈ range n.C, ∑ c2 ∈ range n.C, n.mfM i c1 * n.mfM j c2 * (n.mfAlpha c1 c2 / n.mfBeta c1 c2) := by
  simp_rw [mul_div_assoc]

theorem SBMInv.eVPos {n0 n : SBM} (g : SBMGood n0) (h : SBMInv n0 n) {i j : ℕ} (hi : i < n0.K) (hj : j < n0.K) :
    0 < if n.fixed then n.V i j else ∑ c1 ∈ range n.C, ∑ c2 ∈ range n.C, n.mfM i c1 * n.mfM j c2 * n.mfAlpha c1 c2 / n.mfBeta c1 c2 := by
  split_ifs
  · rw [h.same.V]; exact g.V i hi j hj
  · rw [SBM.eV_form]
    refine mixPos n i j _ (h.same.C ▸ h.valid.m i hi) (h.same.C ▸ h.valid.m j hj) fun c hc d hd => ?_
    have := h.abPos g (h.same.C ▸ hc) (h.same.C ▸ hd)
    exact div_pos this.1 this.2

/-- the expected scales are available and positive in every reachable state -/
theorem NetInv.eV {K : ℕ} {a b : MFNet} (g : NetGood K a) (h : NetInv a b) :
    ∃ V L, b.eV = .ok V ∧ b.eLnV = .ok L ∧ ∀ i < K, ∀ j < K, 0 < V i j := by
  cases a with
  | sbm n0 => cases b with
    | sbm n => exact ⟨_, _, rfl, rfl, fun i hi j hj => SBMInv.eVPos g.2 h (g.1.symm ▸ hi) (g.1.symm ▸ hj)⟩
    | fixedSparsity n => exact h.elim
    | er n => exact h.elim
  | fixedSparsity n0 => cases b with
    | fixedSparsity n => exact ⟨_, _, rfl, rfl, fun i hi j hj => SBMInv.eVPos g.2 h (g.1.symm ▸ hi) (g.1.symm ▸ hj)⟩
    | sbm n => exact h.elim
    | er n => exact h.elim
  | er n0 => cases b with
    | er n =>
      obtain ⟨_, _, _, al, be, a0, b0, h1, h2, h3, p1, p2, p3, p4⟩ := g
      obtain ⟨a, b, hm, ha, hb⟩ := h.2.2.2.2.2.2 al be a0 b0 h1 h2 h3
      refine ⟨fun _ _ => a / b, fun _ _ => psi a - Real.log b, ?_, ?_, fun _ _ _ _ => ?_⟩
      · simp [MFNet.eV, hm]
      · simp [MFNet.eLnV, hm]
      · exact div_pos ((lt_min p3 p1).trans_le ha) ((lt_min p4 p2).trans_le hb)
    | sbm n => exact h.elim
    | fixedSparsity n => exact h.elim

/-- the log odds of a probability in `[0,1]` are never `nan` -/
theorem logOdds_ne_nan {p : ℝ} (h0 : 0 ≤ p) (h1 : p ≤ 1) : FX.log p - FX.log (1 - p) ≠ FX.nan := by
  rcases h0.eq_or_lt with h | h
  · rw [← h, FX.log_zero, sub_zero, FX.log_pos one_pos]; exact fun h => FX.noConfusion h
  · rcases h1.eq_or_lt with h' | h'
    · rw [h', sub_self, FX.log_zero, FX.log_pos one_pos]; exact fun h => FX.noConfusion h
    · rw [FX.log_pos h, FX.log_pos (by linarith)]; exact fun h => FX.noConfusion h

theorem logOdds_fin {p : ℝ} (h0 : 0 < p) (h1 : p < 1) : FX.isFinite (FX.log p - FX.log (1 - p)) := by
  rw [FX.log_pos h0, FX.log_pos (by linarith)]; trivial

theorem NetInv.logOdds {K : ℕ} {a b : MFNet} (g : NetGood K a) (h : NetInv a b) {i j : ℕ} (hi : i < K) (hj : j < K) :
    b.eLnP i j - b.eLnNotP i j ≠ FX.nan ∧ (Interior K a → FX.isFinite (b.eLnP i j - b.eLnNotP i j)) := by
  cases a with
  | sbm n0 => cases b with
    | sbm n =>
      have hP := g.2.P i (g.1.symm ▸ hi) j (g.1.symm ▸ hj)
      simp only [MFNet.eLnP, MFNet.eLnNotP, h.same.allowSelf, h.same.fixed, h.same.P, Interior]
      split_ifs with c1 c2
      · exact ⟨fun h => FX.noConfusion h, fun hI => by simp [hI.1] at c1⟩
      · exact ⟨logOdds_ne_nan hP.1 hP.2, fun hI => logOdds_fin (hI.2 c2 i hi j hj).1 (hI.2 c2 i hi j hj).2⟩
      · rw [FX.fin_sub]; exact ⟨fun h => FX.noConfusion h, fun _ => trivial⟩
    | fixedSparsity n => exact h.elim
    | er n => exact h.elim
  | fixedSparsity n0 => cases b with
    | fixedSparsity n =>
      have hP := g.2.P i (g.1.symm ▸ hi) j (g.1.symm ▸ hj)
      simp only [MFNet.eLnP, MFNet.eLnNotP, h.same.allowSelf, h.same.P, Interior]
      split_ifs with c1
      · exact ⟨fun h => FX.noConfusion h, fun hI => by simp [hI.1] at c1⟩
      · exact ⟨logOdds_ne_nan hP.1 hP.2, fun hI => logOdds_fin (hI.2 i hi j hj).1 (hI.2 i hi j hj).2⟩
    | sbm n => exact h.elim
    | er n => exact h.elim
  | er n0 => cases b with
    | er n =>
      have hP := g.2.2.1 i hi j hj
      have e : n.P = n0.P := by funext i j; simp [ERFixed.P, h.2.2.2.1, h.2.2.1]
      simp only [MFNet.eLnP, MFNet.eLnNotP, e, Interior]
      exact ⟨logOdds_ne_nan hP.1 hP.2, fun hI => logOdds_fin (hI i hi j hj).1 (hI i hi j hj).2⟩
    | sbm n => exact h.elim
    | fixedSparsity n => exact h.elim

theorem FX.add_fin_ne_nan {x : FX} (h : x ≠ .nan) (y : ℝ) : x + .fin y ≠ .nan := by
  cases x with
  | nan => exact absurd rfl h
  | ninf => exact fun h => FX.noConfusion h
  | pinf => exact fun h => FX.noConfusion h
  | fin x => exact fun h => FX.noConfusion h

theorem FX.fin_add_ne_nan {x : FX} (h : x ≠ .nan) (y : ℝ) : .fin y + x ≠ .nan := by
  cases x with
  | nan => exact absurd rfl h
  | ninf => exact fun h => FX.noConfusion h
  | pinf => exact fun h => FX.noConfusion h
  | fin x => exact fun h => FX.noConfusion h

theorem FX.pos_mul_ne_nan {x : FX} (h : x ≠ .nan) {y : ℝ} (hy : 0 < y) : .fin y * x ≠ .nan := by
  cases x with
  | nan => exact absurd rfl h
  | ninf =>
    show FX.infMul y .ninf .pinf ≠ .nan
    simp [FX.infMul, hy.ne', hy]
  | pinf =>
    show FX.infMul y .pinf .ninf ≠ .nan
    simp [FX.infMul, hy.ne', hy]
  | fin x => exact fun h => FX.noConfusion h

theorem FX.add_fin_isFinite {x : FX} (h : x.isFinite) (y : ℝ) : (x + .fin y).isFinite := FX.isFinite_add.2 ⟨h, trivial⟩

theorem FX.ne_nan_of_isFinite {x : FX} (h : x.isFinite) : x ≠ .nan := by rintro rfl; exact h

theorem FX.fin_mul_isFinite {x : FX} (h : x.isFinite) (y : ℝ) : (.fin y * x : FX).isFinite := by
  cases x with
  | fin x => trivial
  | nan => exact h.elim
  | ninf => exact h.elim
  | pinf => exact h.elim

/-- the blended log odds of the edge probability are never `nan` -/
theorem logitHat_ne_nan {K : ℕ} {a b : MFNet} (g : NetGood K a) (h : NetInv a b) (L : Mat ℝ) {s : ℝ} (h0 : 0 ≤ s) (hs : s = 0 → Interior K a)
    (w : MFWeights) {i j : ℕ} (hi : i < K) (hj : j < K) (hp : 0 < w.mfP i j ∧ w.mfP i j < 1) : w.logitHat b L s i j ≠ .nan := by
  obtain ⟨hn, hf⟩ := h.logOdds g hi hj
  unfold MFWeights.logitHat
  rw [div_one, FX.log_pos hp.1, FX.log_pos (by linarith [hp.2]), FX.fin_sub, FX.fin_mul]
  refine FX.fin_add_ne_nan ?_ _
  rcases h0.eq_or_lt with h | h
  · refine FX.ne_nan_of_isFinite (FX.fin_mul_isFinite ?_ _)
    exact FX.add_fin_isFinite (FX.add_fin_isFinite (FX.add_fin_isFinite (FX.add_fin_isFinite (hf (hs h.symm)) _) _) _) _
  · refine FX.pos_mul_ne_nan ?_ h
    exact FX.add_fin_ne_nan (FX.add_fin_ne_nan (FX.add_fin_ne_nan (FX.add_fin_ne_nan hn _) _) _) _

theorem clipLogistic_mem {x : FX} (h : x ≠ .nan) : 1e-8 ≤ clipLogistic x ∧ clipLogistic x ≤ 1 - 1e-8 := by
  cases x with
  | nan => exact absurd rfl h
  | ninf => constructor <;> norm_num [clipLogistic]
  | pinf => constructor <;> norm_num [clipLogistic]
  | fin x =>
    simp only [clipLogistic]
    exact ⟨le_min (le_max_right _ _) (by norm_num), min_le_right _ _⟩

/-! ### The whole model -/

/-- invariant of a history: nothing but variational parameters changed, and these are valid -/
structure MFInv (M0 M : MFModel) : Prop where
  K : M.K = M0.K
  B : M.B = M0.B
  bias : M.bias.alpha = M0.bias.alpha ∧ M.bias.beta = M0.bias.beta ∧ M.bias.dt = M0.bias.dt
  gamma : M.imp.gamma = M0.imp.gamma
  w : M.w.kappa0 = M0.w.kappa0 ∧ M.w.nu0 = M0.w.nu0
  net : NetInv M0.net M.net
  len : M.data.length = M0.data.length
  data : ∀ D ∈ M.data, 0 < D.T ∧ ∀ t k b, 0 ≤ D.F t k b
  valid : MFValid M0 M

theorem MFInv.refl {M : MFModel} (g : MFGood M) : MFInv M M where
  K := rfl
  B := rfl
  bias := ⟨rfl, rfl, rfl⟩
  gamma := rfl
  w := ⟨rfl, rfl⟩
  net := NetInv.refl g.net
  len := rfl
  data := g.data.2
  valid :=
    { bias := fun _ _ => ⟨min_le_left _ _, min_le_left _ _⟩
      imp := fun _ _ _ _ _ _ => min_le_left _ _
      w0 := fun _ _ _ _ => ⟨min_le_left _ _, min_le_left _ _⟩
      w1 := fun i hi j hj => ⟨min_le_left _ _, (g.wmf i hi j hj).2.2.2⟩
      p := g.p
      net := (NetInv.refl g.net).valid }

/-- the network update of a step -/
theorem netStep {K : ℕ} {a b : MFNet} (g : NetGood K a) (h : NetInv a b) (w : MFWeights) {s : ℝ} (h0 : 0 ≤ s) (h1 : s ≤ 1)
    (hA : ∀ i < K, ∀ j < K, 0 ≤ w.mfP i j ∧ w.mfP i j ≤ 1) (hW : ∀ i < K, ∀ j < K, 0 ≤ w.eWGivenA 1 i j) :
    (∃ b', b.sgdstep w s = .ok b' ∧ NetInv a b') ∧ (s = 1 → ∃ b', b.meanfieldupdate w = .ok b' ∧ NetInv a b') := by
  cases a with
  | sbm n0 => cases b with
    | sbm n =>
      obtain ⟨hK, g⟩ := g
      subst hK
      refine ⟨⟨_, rfl, SBMInv.sgdstep g h w h0 h1 hA hW _⟩, ?_⟩
      rintro rfl
      exact ⟨_, rfl, SBMInv.sgdstep g h w h0 h1 hA hW _⟩
    | fixedSparsity n => exact h.elim
    | er n => exact h.elim
  | fixedSparsity n0 => cases b with
    | fixedSparsity n =>
      obtain ⟨hK, g⟩ := g
      subst hK
      refine ⟨⟨_, rfl, SBMInv.sgdstep g h w h0 h1 hA hW _⟩, ?_⟩
      rintro rfl
      exact ⟨_, rfl, SBMInv.sgdstep g h w h0 h1 hA hW {}⟩
    | sbm n => exact h.elim
    | er n => exact h.elim
  | er n0 => cases b with
    | er n =>
      have g' := g
      obtain ⟨hK, hk, hP, al, be, a0, b0, e1, e2, e3, p1, p2, p3, p4⟩ := g
      obtain ⟨iK, ik, ip, iS, ia, ib, iv⟩ := h
      obtain ⟨a, b, hm, ha, hb⟩ := iv al be a0 b0 e1 e2 e3
      have key : ∃ b', (MFNet.er n).sgdstep w s = .ok b' ∧ NetInv (.er n0) b' := by
        simp only [MFNet.sgdstep, ERFixed.mfUpdate, hm, ia, ib, e1, e2]
        refine ⟨_, rfl, iK, ik, ip, iS, ?_, ?_, ?_⟩
        · exact e1.symm
        · exact e2.symm
        · intro al' be' a0' b0' e1' e2' e3'
          rw [e1] at e1'; rw [e2] at e2'; rw [e3] at e3'
          cases e1'; cases e2'; cases e3'
          refine ⟨_, _, rfl, blend_ge_prior h0 h1 ha ?_, blend_ge_prior h0 h1 hb ?_⟩
          · refine sum_nonneg fun i hi => sum_nonneg fun j hj => mul_nonneg ?_ (ik ▸ hk.le)
            rw [mem_range, iK, hK] at hi hj
            exact (hA i hi j hj).1
          · refine sum_nonneg fun i hi => sum_nonneg fun j hj => ?_
            rw [mem_range, iK, hK] at hi hj
            exact mul_nonneg (hA i hi j hj).1 (hW i hi j hj)
      refine ⟨key, ?_⟩
      rintro rfl
      exact key
    | sbm n => exact h.elim
    | fixedSparsity n => exact h.elim

theorem globalsStep {M0 M : MFModel} (g : MFGood M0) (h : MFInv M0 M) (dl : List (DParents ℝ)) (hne : dl ≠ []) (hd : ∀ D ∈ dl, EZPos D)
    {frac s : ℝ} (hfr : 0 < frac) (h0 : 0 ≤ s) (h1 : s ≤ 1) (hs : s = 0 → Interior M0.K M0.net)
    (upd : MFWeights → MFNet → Except PyErr MFNet)
    (hu : ∀ w : MFWeights, (∀ i < M0.K, ∀ j < M0.K, 0 ≤ w.mfP i j ∧ w.mfP i j ≤ 1) → (∀ i < M0.K, ∀ j < M0.K, 0 ≤ w.eWGivenA 1 i j) →
      ∃ b', upd w M.net = .ok b' ∧ NetInv M0.net b') :
    ∃ M', M.updateGlobals dl frac s upd = .ok M' ∧ MFInv M0 M' ∧ M'.data = M.data := by
  obtain ⟨V, L, eV, eL, hV⟩ := h.net.eV g.net
  have hss0 : ∀ i j, 0 ≤ expSum dl (fun d => expWeightSS0 d M.B i j) / frac := fun i j =>
    div_nonneg (expSum_nonneg _ _ fun d hd' => sum_nonneg fun b _ => col_sum_nonneg d (hd d hd') _ _) hfr.le
  have hss1 : ∀ i j, 0 ≤ expSum dl (fun d => (weightSS1 d i j : ℝ)) / frac := fun i j =>
    div_nonneg (expSum_nonneg _ _ fun d _ => Nat.cast_nonneg _) hfr.le
  have hgood := g.wmf
  set w1 := M.w.updateKappaV M.B M.net.kappa V dl frac s with hw1
  have c0 : ∀ i < M0.K, ∀ j < M0.K, min (M0.w.mfKappa0 i j) M0.w.kappa0 ≤ w1.mfKappa0 i j ∧ min (M0.w.mfV0 i j) M0.w.nu0 ≤ w1.mfV0 i j := by
    intro i hi j hj
    simp only [hw1, MFWeights.updateKappaV, h.w.1, h.w.2, mul_one]
    exact ⟨blend_ge_prior h0 h1 (h.valid.w0 i hi j hj).1 (hss0 i j), blend_ge_prior h0 h1 (h.valid.w0 i hi j hj).2 (hss1 i j)⟩
  have c1 : ∀ i < M0.K, ∀ j < M0.K, min (M0.w.mfKappa1 i j) M0.net.kappa ≤ w1.mfKappa1 i j ∧ 0 < w1.mfV1 i j := by
    intro i hi j hj
    simp only [hw1, MFWeights.updateKappaV, h.net.kappa]
    refine ⟨blend_ge_prior h0 h1 (h.valid.w1 i hi j hj).1 (hss0 i j), ?_⟩
    have := blend_ge (m := min (M.w.mfV1 i j) (V i j)) h0 h1 (min_le_left _ _)
      (le_trans (min_le_right _ _) (le_add_of_nonneg_right (hss1 i j)) : _ ≤ V i j + expSum dl (fun d => (weightSS1 d i j : ℝ)) / frac)
    exact (lt_min (h.valid.w1 i hi j hj).2 (hV i hi j hj)).trans_le this
  have hpp : ∀ i < M0.K, ∀ j < M0.K, 0 < w1.mfP i j ∧ w1.mfP i j < 1 := by
    intro i hi j hj
    have := h.valid.p i hi j hj
    show 0 < M.w.mfP i j ∧ M.w.mfP i j < 1
    norm_num at this
    constructor <;> linarith [this.1, this.2]
  have hnan : ¬ ∃ i < M.K, ∃ j < M.K, w1.logitHat M.net L s i j = .nan := by
    rintro ⟨i, hi, j, hj, hh⟩
    rw [h.K] at hi hj
    exact logitHat_ne_nan g.net h.net L h0 hs w1 hi hj (hpp i hi j hj) hh
  have eW : M.w.update M.K M.B M.net dl frac s = .ok { w1 with mfP := fun i j => clipLogistic (w1.logitHat M.net L s i j) } := by
    simp only [MFWeights.update, eV, eL, MFWeights.updateP, ← hw1, if_neg hnan]
  set w2 : MFWeights := { w1 with mfP := fun i j => clipLogistic (w1.logitHat M.net L s i j) } with hw2
  have cp : ∀ i < M0.K, ∀ j < M0.K, 1e-8 ≤ w2.mfP i j ∧ w2.mfP i j ≤ 1 - 1e-8 := fun i hi j hj =>
    clipLogistic_mem (logitHat_ne_nan g.net h.net L h0 hs w1 hi hj (hpp i hi j hj))
  obtain ⟨b', hb', hinv⟩ := hu w2 (fun i hi j hj => by
      have := cp i hi j hj
      norm_num at this
      constructor <;> linarith [this.1, this.2]) (fun i hi j hj => by
      show 0 ≤ 1 * (w1.mfKappa1 i j / w1.mfV1 i j) + (1 - 1) * (w1.mfKappa0 i j / w1.mfV0 i j)
      have hk := (lt_min (g.wmf i hi j hj).2.2.1 (NetGood.kappaPos g.net)).trans_le (c1 i hi j hj).1
      have := div_pos hk (c1 i hi j hj).2
      nlinarith)
  refine ⟨{ M with bias := M.bias.update dl frac s, imp := M.imp.update M.B dl frac s, w := w2, net := b' },
    by simp only [MFModel.updateGlobals, if_neg hne, eW, hb'], ?_, rfl⟩
  exact
    { K := h.K, B := h.B, bias := h.bias, gamma := h.gamma, w := h.w, net := hinv, len := h.len, data := h.data
      valid :=
        { bias := fun k hk => by
            simp only [MFBias.update, h.bias.1, h.bias.2.1, h.bias.2.2]
            refine ⟨blend_ge_prior h0 h1 (h.valid.bias k hk).1 (div_nonneg (expSum_nonneg _ _ fun d hd' => col_sum_nonneg d (hd d hd') _ _) hfr.le),
              blend_ge_prior h0 h1 (h.valid.bias k hk).2 (div_nonneg (expSum_nonneg _ _ fun d _ => ?_) hfr.le)⟩
            exact mul_nonneg (Nat.cast_nonneg _) g.bias.2.2.1
          imp := fun i hi j hj b hb => by
            simp only [MFImp.update, h.gamma]
            exact blend_ge_prior h0 h1 (h.valid.imp i hi j hj b hb) (div_nonneg (expSum_nonneg _ _ fun d hd' => col_sum_nonneg d (hd d hd') _ _) hfr.le)
          w0 := c0
          w1 := c1
          p := cp
          net := hinv.valid } }

theorem coordInv {M0 M : MFModel} (g : MFGood M0) (h : MFInv M0 M) : ∃ M', M.coordStep = .ok M' ∧ MFInv M0 M' := by
  have hne : M.data.map M.updateParents ≠ [] := by
    intro hh
    have : M.data.length = 0 := by simpa using congrArg List.length hh
    rw [h.len] at this
    exact g.data.1 (List.length_eq_zero_iff.1 this)
  have hpos : ∀ D ∈ M.data.map M.updateParents, EZPos D := by
    intro D hD
    obtain ⟨D', hD', rfl⟩ := List.mem_map.1 hD
    exact EZPos_update M D' (h.data D' hD').2
  obtain ⟨M', e, hi, hdat⟩ := globalsStep g h _ hne hpos one_pos zero_le_one le_rfl (fun h => absurd h one_ne_zero) MFNet.meanfieldupdate
    (fun w hA hW => (netStep g.net h.net w zero_le_one le_rfl hA hW).2 rfl)
  refine ⟨{ M' with data := M.data.map M.updateParents }, by simp only [MFModel.coordStep, e], ?_⟩
  exact { K := hi.K, B := hi.B, bias := hi.bias, gamma := hi.gamma, w := hi.w, net := hi.net
          len := by simpa using h.len
          data := fun D hD => by
            obtain ⟨D', hD', rfl⟩ := List.mem_map.1 hD
            exact h.data D' hD'
          valid := { bias := hi.valid.bias, imp := hi.valid.imp, w0 := hi.valid.w0, w1 := hi.valid.w1, p := hi.valid.p, net := hi.valid.net } }

theorem sgdWindow_pos {T mb : ℕ} (hT : 0 < T) (hm : 0 < mb) (off : Option ℕ) :
    (sgdWindow T mb off).1 < T ∧ (sgdWindow T mb off).1 < (sgdWindow T mb off).2 ∧ (sgdWindow T mb off).2 ≤ T := by
  unfold sgdWindow
  dsimp only
  cases off with
  | none => simp; omega
  | some o =>
    dsimp only
    split_ifs <;> simp <;> omega

theorem sgdInv {M0 M : MFModel} (g : MFGood M0) (h : MFInv M0 M) {mb : ℕ} {s : ℝ} (hm : 0 < mb) (h0 : 0 ≤ s) (h1 : s ≤ 1)
    (hs : s = 0 → Interior M0.K M0.net) (hl : M0.data.length = 1) : ∃ M', M.sgdStep mb s = .ok M' ∧ MFInv M0 M' := by
  have hl' := h.len.trans hl
  obtain ⟨D, hD⟩ := List.length_eq_one_iff.1 hl'
  have hDok := h.data D (by rw [hD]; exact List.mem_singleton.2 rfl)
  have hwin := sgdWindow_pos hDok.1 hm M.sgdOffset
  set win := sgdWindow D.T mb M.sgdOffset with hw
  have hpos : ∀ D' ∈ [M.updateParents (sliceData D.S D.F win.1 win.2)], EZPos D' := by
    intro D' hD'
    rw [List.mem_singleton.1 hD']
    exact EZPos_update M _ (fun t k b => hDok.2 _ _ _)
  have hfr : (0:ℝ) < ((sliceData D.S D.F win.1 win.2).T : ℝ) / D.T := by
    refine div_pos ?_ (Nat.cast_pos.2 hDok.1)
    show (0:ℝ) < ((win.2 - win.1 : ℕ) : ℝ)
    exact Nat.cast_pos.2 (by omega)
  obtain ⟨M', e, hi, hdat⟩ := globalsStep g h _ (List.cons_ne_nil _ _) hpos hfr h0 h1 hs (fun w => MFNet.sgdstep w s)
    (fun w hA hW => (netStep g.net h.net w h0 h1 hA hW).1)
  refine ⟨{ M' with sgdOffset := some win.1 }, ?_, ?_⟩
  · simp only [MFModel.sgdStep, hD, ← hw]
    rw [e]
  · exact { K := hi.K, B := hi.B, bias := hi.bias, gamma := hi.gamma, w := hi.w, net := hi.net, len := hi.len, data := hi.data
            valid := { bias := hi.valid.bias, imp := hi.valid.imp, w0 := hi.valid.w0, w1 := hi.valid.w1, p := hi.valid.p, net := hi.valid.net } }

/-- **C50.** From every legal start, every sequence of coordinate steps and stochastic steps with legal arguments runs without an error or a `nan` and ends in
a valid variational state: each shape, rate and concentration is at least the smaller of its starting value and its prior, edge probabilities lie in
`[1e-8, 1-1e-8]` and block memberships are probability vectors. -/
theorem C50_valid_forever (M0 : MFModel) (g : MFGood M0) (acts : List MFAct) (hl : ∀ a ∈ acts, a.Legal M0) :
    ∃ M, runActs acts M0 = .ok M ∧ MFValid M0 M := by
  suffices H : ∀ M, MFInv M0 M → ∃ M', runActs acts M = .ok M' ∧ MFInv M0 M' by
    obtain ⟨M', e, hi⟩ := H M0 (MFInv.refl g)
    exact ⟨M', e, hi.valid⟩
  induction acts with
  | nil => exact fun M h => ⟨M, rfl, h⟩
  | cons a as ih =>
    intro M h
    have hstep : ∃ M', a.run M = .ok M' ∧ MFInv M0 M' := by
      have hla := hl a List.mem_cons_self
      cases a with
      | coord => exact coordInv g h
      | sgd mb s => exact sgdInv g h hla.1 hla.2.1 hla.2.2.1 hla.2.2.2.1 hla.2.2.2.2
    obtain ⟨M1, e1, h1⟩ := hstep
    obtain ⟨M2, e2, h2⟩ := ih (fun b hb => hl b (List.mem_cons_of_mem _ hb)) M1 h1
    exact ⟨M2, by simp only [runActs, e1, e2], h2⟩

end PyHawkes
