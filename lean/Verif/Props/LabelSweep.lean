import Verif.Props.DiscSweepNet
import Verif.Props.LabelNetOk

/-!
# Several blocks: one `resample_model` call as a function of parameters and seeds (C96)
-/
set_option linter.unusedSectionVars false
set_option linter.unusedVariables false

namespace PyHawkes
open Finset Spec MeasureTheory ProbabilityTheory

section
variable {U : Type} [MeasurableSpace U] {μ : Measure U} (G : Generator μ) (Ls : LabelSampler μ) {K : ℕ} {n : SBM}

theorem gammaLogProb_gLog (huge : ℝ) {κ v w : ℝ} (hκ : 0 < κ) (hv : 0 < v) (hw : 0 < w) : gammaLogProb huge κ v w = gLog κ v w := by
  rw [C57_gamma_log_density huge hκ hv hw, log_gammaPDF hκ hv hw]; rfl

theorem bernLogProb_bLog (huge p : ℝ) {a : ℝ} (ha : a = 0 ∨ a = 1) : bernLogProb huge p a = bLog huge p a := by
  unfold bLog
  rcases ha with rfl | rfl
  · rw [if_neg zero_ne_one]
  · rw [if_pos rfl]

theorem blockSum_fin {n' : SBM} {C : ℕ} (hK : n'.K = K) {c : Fin K → Fin C} (hc : ∀ k : Fin K, n'.c k = c k) (a : Pair C) (f : ℕ → ℕ → ℝ) :
    blockSum n' a.1 a.2 f = ∑ e : Pair K, if c e.1 = a.1 ∧ c e.2 = a.2 then f e.1 e.2 else 0 := by
  unfold blockSum
  rw [hK, sum_pairs]
  refine sum_congr rfl fun e _ => ?_
  simp only [hc, Fin.val_inj]

/-- the code's log weights of the labels of node `k` -/
theorem sbmLp_labLp (huge : ℝ) (hn : LabelOk K n) {A W : Mat ℝ} (hA : ∀ i < K, ∀ j < K, A i j = 0 ∨ A i j = 1) (hW : ∀ i < K, ∀ j < K, 0 < W i j) {v : Mat ℝ} (hv : ∀ a < n.C, ∀ b < n.C, 0 < v a b)
    {m : Vec ℝ} {l : ℕ → ℕ} {c : Fin K → Fin n.C} (hc : ∀ k : Fin K, l k = c k) (k : Fin K) {b : ℕ} (hb : b < n.C) :
    sbmLp huge { n with v := v, c := l, m := m } A W k b = labLp huge n (fun a => v a.1 a.2) m (fun e => A e.1 e.2) (fun e => W e.1 e.2) c k b := by
  obtain ⟨-, -, ha, hbt, hk, hpi⟩ := hn.net.hyper
  have hs : ∀ j : Fin K, Vec.set l k b j = (Function.update c k ⟨b, hb⟩ j : Fin n.C) := by
    intro j
    unfold Vec.set
    rcases eq_or_ne j k with rfl | hne
    · simp
    · have : (j : ℕ) ≠ k := fun h => hne (Fin.ext h)
      simp [this, hne, hc]
  unfold sbmLp labLp
  dsimp only
  rw [dif_pos hb, hn.net.size]
  simp only [← Fin.sum_univ_eq_sum_range (fun j => bernLogProb huge _ _), ← Fin.sum_univ_eq_sum_range (fun j => _ * gammaLogProb huge _ _ _), hs, zero_add]
  congr 1
  · congr 1
    · congr 1
      · congr 1
        refine sum_congr rfl fun j _ => ?_
        rw [hn.p b hb _ (Fin.is_lt _), bernLogProb_bLog huge _ (hA k k.2 j j.2)]
      · refine sum_congr rfl fun j _ => ?_
        rw [hn.p _ (Fin.is_lt _) b hb, bernLogProb_bLog huge _ (hA j j.2 k k.2)]
    · refine sum_congr rfl fun j _ => ?_
      rw [gammaLogProb_gLog huge hk (hv b hb _ (Fin.is_lt _)) (hW k k.2 j j.2)]
  · refine sum_congr rfl fun j _ => ?_
    rw [gammaLogProb_gLog huge hk (hv _ (Fin.is_lt _) b hb) (hW j j.2 k k.2)]

/-- seeds of the network's in-range call sites -/
def netSeedsL {S : Type} (K C : ℕ) (x : SiteL S → U) : (Pair C → U) × (Fin K → U) × U := (fun a => x (.scale a.1 a.2), fun k => x (.label k), x .blocks)

/-- the update of the network with several blocks -/
theorem label_resample {S : Type} [NeZero n.C] (hn : LabelOk K n) (huge : ℝ) (o : SBMOracle) (er : GammaArgs → ℝ) (x : SiteL S → U) {A W : Mat ℝ}
    (hA : ∀ i < K, ∀ j < K, A i j = 0 ∨ A i j = 1) (hW : ∀ i < K, ∀ j < K, 0 < W i j) (v0 : Mat ℝ) {l0 : ℕ → ℕ} (hl0 : ∀ k < K, l0 k < n.C) (m0 : Vec ℝ) :
    ∃ v l m, Net.resample huge (netDrawsL G Ls n.C o x) er A W (.sbmFixed { n with v := v0, c := l0, m := m0 }) = .sbmFixed { n with v := v, c := l, m := m } ∧ (∀ k < K, l k < n.C) ∧
      netLabels K n.C (.sbmFixed { n with v := v, c := l, m := m }) = (labelNet G Ls huge n (NeZero.pos n.C) K).step (netSeedsL K n.C x)
        (netLabels K n.C (.sbmFixed { n with v := v0, c := l0, m := m0 })) (fun e => A e.1 e.2) fun e => W e.1 e.2 := by
  obtain ⟨-, -, ha, hbt, hk, hpi⟩ := hn.net.hyper
  have hnK := hn.net.size
  have hC := NeZero.pos n.C
  set n0 : SBM := { n with v := v0, c := l0, m := m0 } with hn0
  set c0 : Fin K → Fin n.C := fun k => Fin.ofNat n.C (l0 k) with hc0
  have hc : ∀ k : Fin K, l0 k = c0 k := fun k => (Nat.mod_eq_of_lt (hl0 k k.2)).symm
  set A' : Pair K → ℝ := fun e => A e.1 e.2 with hA'
  set W' : Pair K → ℝ := fun e => W e.1 e.2 with hW'
  set o' := netDrawsL G Ls n.C o x with ho'
  set v1 := (sbmResampleV o' A W n0).v with hv1
  have ev : (fun a : Pair n.C => v1 a.1 a.2) = labScale G n A' W' c0 (netSeedsL K n.C x).1 := by
    funext a
    have : v1 a.1 a.2 = o'.gamma a.1 a.2 (sbmVArgs n0 A W a.1 a.2) := if_pos ⟨a.1.2, a.2.2⟩
    rw [this]
    unfold sbmVArgs
    dsimp only
    rw [blockSum_fin (n' := n0) hnK hc, blockSum_fin (n' := n0) hnK hc]
    rfl
  have hvpos : ∀ a < n.C, ∀ b < n.C, 0 < v1 a b := by
    intro a ha' b hb'
    have h := congrFun ev (⟨a, ha'⟩, ⟨b, hb'⟩)
    refine lt_of_lt_of_eq ?_ h.symm
    unfold labScale
    refine G.gam_pos _ _ ?_ ?_
    · refine add_pos_of_pos_of_nonneg ha (mul_nonneg (sum_nonneg fun e _ => ?_) hk.le)
      split_ifs
      · rcases hA e.1 e.1.2 e.2 e.2.2 with h | h <;> simp [hA', h]
      · exact le_rfl
    · refine one_div_pos.2 (add_pos_of_pos_of_nonneg hbt (sum_nonneg fun e _ => ?_))
      split_ifs
      exacts [(hW e.1 e.1.2 e.2 e.2.2).le, le_rfl, le_rfl]
  -- the loop over the nodes
  have loop : ∀ (L : List (Fin K)) (l : ℕ → ℕ) (c : Fin K → Fin n.C), (∀ k : Fin K, l k = c k) →
      ∃ l', L.foldl (fun (s : SBM) (k : Fin K) => { s with c := Vec.set s.c k (o'.label k (sbmLp huge s A W k)) }) { n with v := v1, c := l, m := m0 } = { n with v := v1, c := l', m := m0 } ∧
        ∀ k : Fin K, l' k = labSweep Ls hC (labLp huge n (fun a => v1 a.1 a.2) m0 A' W') (netSeedsL K n.C x).2.1 L c k := by
    intro L
    induction L with
    | nil => exact fun l c h => ⟨l, rfl, h⟩
    | cons k L ih =>
      intro l c h
      have step : o'.label k (sbmLp huge { n with v := v1, c := l, m := m0 } A W k) = (pick Ls hC (labLp huge n (fun a => v1 a.1 a.2) m0 A' W' c k) (x (.label k)) : ℕ) := by
        change Ls.lab n.C (arr n.C _) (x (.label k)) = Ls.lab n.C (arr n.C _) (x (.label k))
        congr 1
        funext b
        unfold arr
        split_ifs with hb
        · exact sbmLp_labLp huge hn hA hW hvpos h k hb
        · rfl
      obtain ⟨l', h1, h2⟩ := ih (Vec.set l k (pick Ls hC (labLp huge n (fun a => v1 a.1 a.2) m0 A' W' c k) (x (.label k)))) (labStep Ls hC (labLp huge n (fun a => v1 a.1 a.2) m0 A' W') k (x (.label k)) c) fun j => by
        unfold Vec.set labStep
        rcases eq_or_ne j k with rfl | hne
        · simp
        · have : (j : ℕ) ≠ k := fun h => hne (Fin.ext h)
          simp [this, hne, h]
      refine ⟨l', ?_, h2⟩
      rw [List.foldl_cons, ← h1]
      dsimp only
      rw [step]
  have eC : ∃ l', sbmResampleC huge o' A W (sbmResampleV o' A W n0) = { n with v := v1, c := l', m := m0 } ∧
      ∀ k : Fin K, l' k = labNew Ls huge n hC (fun a => v1 a.1 a.2) m0 A' W' c0 (netSeedsL K n.C x).2.1 k := by
    unfold sbmResampleC
    split_ifs with h1
    · refine ⟨l0, rfl, fun k => ?_⟩
      have h2 := (labNew Ls huge n hC (fun a => v1 a.1 a.2) m0 A' W' c0 (netSeedsL K n.C x).2.1 k).2
      have h1' : n.C = 1 := h1
      have h3 := hl0 k k.2
      omega
    · obtain ⟨l', h2, h3⟩ := loop (List.finRange K) l0 c0 hc
      refine ⟨l', ?_, h3⟩
      rw [← h2, show (sbmResampleV o' A W n0).K = K from hnK, forRange_finRange]
      rfl
  obtain ⟨l', e1, e2⟩ := eC
  refine ⟨v1, l', o'.dirichlet (sbmMArgs { n with v := v1, c := l', m := m0 }), ?_, fun k hk => by rw [e2 ⟨k, hk⟩]; exact Fin.is_lt _, ?_⟩
  · change Net.sbmFixed (sbmFixedResample huge o' A W n0) = _
    unfold sbmFixedResample
    rw [if_neg (by rw [show n0.fixed = false from hn.learned]; simp), e1]
    rfl
  · have ec : (fun k : Fin K => Fin.ofNat n.C (l' k)) = labNew Ls huge n hC (labScale G n A' W' c0 (netSeedsL K n.C x).1) m0 A' W' c0 (netSeedsL K n.C x).2.1 := by
      funext k
      refine Fin.ext ?_
      rw [← ev, ← e2 k]
      exact Nat.mod_eq_of_lt (by rw [e2 k]; exact Fin.is_lt _)
    refine Prod.ext ev (Prod.ext ec ?_)
    change G.dir n.C (arr n.C _) (x .blocks) = labBlocks G n (labNew Ls huge n hC (labScale G n A' W' c0 (netSeedsL K n.C x).1) m0 A' W' c0 (netSeedsL K n.C x).2.1) (x .blocks)
    unfold labBlocks
    congr 2
    funext b
    unfold sbmMArgs
    dsimp only
    rw [hnK, ← Fin.sum_univ_eq_sum_range (fun k => if l' k = b then (1 : ℝ) else 0)]
    congr 1
    refine sum_congr rfl fun k _ => ?_
    rw [e2 k, ← ev]

end

section
variable {U : Type} [MeasurableSpace U] {μ : Measure U} (G : Generator μ) (Ls : LabelSampler μ) {c : HawkesState} {n : SBM} [NeZero n.C]

theorem drawsL_ok (hB : 0 < c.base.B) (d : StepDraws) (hd : DrawsOk c.base.K c.base.B n.C d) (x : SiteL Site → U) : DrawsOk c.base.K c.base.B n.C (drawsL G Ls c.base.K c.base.B n.C d x) := by
  have h1 : DrawsOk c.base.K c.base.B 1 { d with net := { d.net with label := fun _ _ => 0, dirichlet := fun _ _ => 1 } } :=
    ⟨hd.mult, hd.lam, hd.dir, hd.weight, hd.erGamma, hd.netGamma, hd.netBeta, fun _ _ => one_pos, fun v _ => ⟨fun b _ => zero_le_one, by simp⟩, hd.unif, hd.order⟩
  have h := draws_ok G c hB _ h1 fun σ => x (.other σ)
  refine ⟨h.mult, h.lam, h.dir, h.weight, h.erGamma, fun i j a => G.gam_pos a _, hd.netBeta, fun k v => Ls.lab_lt n.C _ _ (NeZero.pos n.C), fun v hv => ?_, h.unif, h.order⟩
  refine G.dir_prob n.C _ _ (NeZero.pos n.C) fun b hb => ?_
  unfold arr
  rw [if_pos hb]
  exact hv b hb

/-- `s` is a state of the model `c` with the network `n` and valid parameters -/
structure ValidL (c : HawkesState) (n : SBM) (s : HawkesState) : Prop where
  same : SameModelL c n s
  hyper : HyperOk s
  params : ParamsOk s

/-- the seeds of the in-range call sites -/
def seedsL (c : HawkesState) (C : ℕ) (x : SiteL Site → U) : NetSeeds c.base.K U ((Pair C → U) × (Fin c.base.K → U) × U) (Row c → U) ((Fin c.base.K → U) × (Pair c.base.K → U)) :=
  ((seedsOf c fun σ => x (.other σ)).1, ((seedsOf c fun σ => x (.other σ)).2.1, (seedsOf c fun σ => x (.other σ)).2.2.1), netSeedsL c.base.K C x,
    fun e => x (.other (.weight e.1 e.2)), fun e => x (.other (.unif e.1 e.2)))

/-- **The parameters after one `resample_model` call are a function of the parameters before and the seeds of the in-range call sites.** -/
theorem label_sweep_eq (h : CfgOkL c n) (huge : ℝ) (d : StepDraws) (hd : DrawsOk c.base.K c.base.B n.C d) (s : HawkesState) (hv : ValidL c n s) (x : SiteL Site → U) :
    ∃ s', resampleModelSS huge (drawsL G Ls c.base.K c.base.B n.C d x) s = .ok s' ∧ ValidL c n s' ∧
      thetaL c.base.K n.C s' = netSweep (discSys G c) (labelNet G Ls huge n (NeZero.pos n.C) c.base.K) G (thetaL c.base.K n.C s) (seedsL c n.C x) := by
  obtain ⟨v0, l0, m0, hn0⟩ := hv.same.net
  have hblocks : blocks s.net = n.C := by rw [hn0]; rfl
  have hdo := drawsL_ok G Ls h.B d hd x
  have hK : s.base.K = c.base.K := by rw [hv.same.base]
  obtain ⟨s', hr, hv', hnet, φ, W, hφ, hW, hφ', hW', hA'⟩ := disc_sweep_net G h.data huge (drawsL G Ls c.base.K c.base.B n.C d x) s
    ⟨hv.same.base, hv.same.alpha, hv.same.beta, hv.same.gamma, hv.same.data, hv.hyper, hv.params⟩ (by rw [hblocks]; exact hdo) (fun σ => x (.other σ))
    ⟨fun _ _ _ _ _ => rfl, fun _ _ => rfl, fun _ _ _ => rfl, fun _ _ _ => rfl, fun _ _ => rfl⟩
  have hnok := hv.params.net
  rw [hn0, hK] at hnok
  have hAp := hv.params.A
  have hWp := hv.params.W
  rw [hK] at hAp hWp
  obtain ⟨v, l, m, hb, hl, hstep⟩ := label_resample (K := c.base.K) G Ls h.net huge d.net (drawsL G Ls c.base.K c.base.B n.C d x).erGamma x hAp hWp v0 hnok.labels m0
  rw [hn0] at hnet
  replace hnet := hnet.trans hb
  have hη : netLabels c.base.K n.C s'.net = (labelNet G Ls huge n (NeZero.pos n.C) c.base.K).step (netSeedsL c.base.K n.C x) (netLabels c.base.K n.C s.net) (fun e => s.A e.1 e.2) fun e => s.W e.1 e.2 := by
    rw [hnet, hstep, hn0]
  have hV : ∀ e : Pair c.base.K, s'.net.V e.1 e.2 = labelV (netLabels c.base.K n.C s'.net) e := by
    intro e
    rw [hnet]
    change v (l e.1) (l e.2) = v ((l e.1) % n.C) ((l e.2) % n.C)
    rw [Nat.mod_eq_of_lt (hl _ e.1.2), Nat.mod_eq_of_lt (hl _ e.2.2)]
  have hPe : ∀ e : Pair c.base.K, s'.net.P e.1 e.2 = labelP n e := by
    intro e
    rw [hnet]
    change SBM.P _ e.1 e.2 = _
    unfold SBM.P labelP
    dsimp only
    rw [h.net.self, h.net.p _ (hl _ e.1.2) _ (hl _ e.2.2)]
    simp [Fin.ext_iff]
  have hkap : s'.net.kappa = n.kappa := by rw [hnet]; rfl
  refine ⟨s', hr, ⟨⟨hv'.base, hv'.alpha, hv'.beta, hv'.gamma, ⟨v, l, m, hnet⟩, hv'.data⟩, hv'.hyper, hv'.params⟩, ?_⟩
  simp only [hPe] at hA'
  simp only [hV, hkap] at hW
  unfold thetaL
  rw [hη] at hW ⊢
  refine Prod.ext ?_ (Prod.ext ?_ (Prod.ext ?_ ?_))
  · refine hA'.trans ?_
    rw [hφ, hW]
    rfl
  · rfl
  · exact hW'.trans hW
  · exact hφ'.trans hφ

end

end PyHawkes
