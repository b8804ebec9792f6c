import Verif.Props.MixSteps

/-!
# One call of the gamma-mixture model's `resample_model` as a function of the parameters and the seeds (used for C85)
-/
set_option linter.unusedSectionVars false
set_option linter.unusedVariables false

namespace PyHawkes
open Finset Spec MeasureTheory

section
variable {U : Type*} [MeasurableSpace U] {μ : Measure U} (G : Generator μ) (κ0 ν0 : ℝ) (c : HawkesState) (n : ERFixed)

/-- the new components -/
noncomputable def mixAOf (z : ZSp c) (v : ℝ) (x : Pair c.base.K → U) : Pair c.base.K → ℝ := fun e => mixEdge G κ0 ν0 n.kappa v (n.P e.1 e.2) (via z e) (evTotal c e.1) (x e)

/-- the new weights, before they are clipped -/
noncomputable def mixWOf (z : ZSp c) (v : ℝ) (A : Pair c.base.K → ℝ) (x : Pair c.base.K → U) : Pair c.base.K → ℝ := fun e =>
  mixWeight G κ0 ν0 n.kappa v (via z e) (evTotal c e.1) (A e) (x e)

/-- the parents drawn in the call -/
noncomputable def mixZ (θ : Theta c.base.K) (x : Seeds c U) : ZSp c := zOf G c (fun _ => 1) θ.2.2.1 θ.2.2.2.1 θ.2.2.2.2 x.1

/-- components and weights before clipping -/
noncomputable def mixAW (θ : Theta c.base.K) (x : Seeds c U) : (Pair c.base.K → ℝ) × (Pair c.base.K → ℝ) :=
  let A := mixAOf G κ0 ν0 c n (mixZ G c θ x) θ.2.1 x.2.2.2.2.2
  (A, mixWOf G κ0 ν0 c n (mixZ G c θ x) θ.2.1 A x.2.2.2.2.1)

/-- parents, bias, impulse responses, components, weights; the weights are passed through `clip` -/
noncomputable def mixBody (clip : ℝ → ℝ) (θ : Theta c.base.K) (x : Seeds c U) : Theta c.base.K :=
  ((mixAW G κ0 ν0 c n θ x).1, θ.2.1, fun e => clip ((mixAW G κ0 ν0 c n θ x).2 e), lamOf G c (mixZ G c θ x) x.2.1, gOf G c (mixZ G c θ x) x.2.2.1)

/-- the network update -/
noncomputable def mixNet (b : Bool) (θ : Theta c.base.K) (u : U) : Theta c.base.K := (θ.1, if b then vOf G c n u θ.2.1 θ.1 θ.2.2.1 else θ.2.1, θ.2.2)

/-- the whole call -/
noncomputable def mixSweep (clip : ℝ → ℝ) (b : Bool) (θ : Theta c.base.K) (x : Seeds c U) : Theta c.base.K := mixNet G c n b (mixBody G κ0 ν0 c n clip θ x) x.2.2.2.1

theorem sameModel_data {c : HawkesState} {s : HawkesState} (h : List.Forall₂ (fun D D' : DParents ℝ => D'.T = D.T ∧ D'.S = D.S ∧ D'.F = D.F) c.data s.data)
    (hD : ∀ D ∈ c.data, DataOk c.base.K c.base.B D) : ∀ D ∈ s.data, DataOk c.base.K c.base.B D := by
  have : ∀ {l l' : List (DParents ℝ)}, List.Forall₂ (fun D D' : DParents ℝ => D'.T = D.T ∧ D'.S = D.S ∧ D'.F = D.F) l l' → (∀ D ∈ l, DataOk c.base.K c.base.B D) →
      ∀ D ∈ l', DataOk c.base.K c.base.B D := by
    intro l l' h
    induction h with
    | nil => exact fun _ _ h => nomatch h
    | cons h _ ih =>
      intro hl D hD
      rcases List.mem_cons.1 hD with rfl | hD
      · obtain ⟨h1, h2, h3⟩ := h
        have := hl _ List.mem_cons_self
        unfold DataOk at this ⊢
        rw [h1, h2, h3]; exact this
      · exact ih (fun D hD => hl D (List.mem_cons_of_mem _ hD)) D hD
  exact this h hD

/-- **The parameters after one call are a function of the parameters before and the seeds of the in-range call sites.** -/
theorem mix_sweep_eq (huge : ℝ) (b : Bool) (d : StepDraws) (hd : DrawsOk c.base.K c.base.B 1 d) (hB : 0 < c.base.B) (s : HawkesState) (hs : SameModel c n s) (hy : HyperOk s)
    (hp : ParamsOk s) (hD : ∀ D ∈ c.data, DataOk c.base.K c.base.B D) (x : Site → U) :
    ∃ s', resampleModelMix huge κ0 ν0 b (G.draws c.base.K c.base.B d x) s = .ok s' ∧ SameModel c n s' ∧ HyperOk s' ∧ ParamsOk s' ∧
      theta c.base.K s' = mixSweep G κ0 ν0 c n (fun w => max w 1e-32) b (theta c.base.K s) (seedsOf c x) := by
  have h32 : (0:ℝ) < 1e-32 := by norm_num
  have hK : s.base.K = c.base.K := by rw [hs.base]
  have hBb : s.base.B = c.base.B := by rw [hs.base]
  have hdt : s.base.dt = c.base.dt := by rw [hs.base]
  have hDs := sameModel_data hs.data hD
  have hblocks : blocks s.net = 1 := by rw [hs.net]; rfl
  have hdo := draws_ok G c hB d hd x
  set dx := G.draws c.base.K c.base.B d x with hdx
  have hWe : ∀ i < s.paramsMix.K, ∀ j < s.paramsMix.K, 0 ≤ s.paramsMix.Weff i j := fun i hi j hj => (hp.W i hi j hj).le
  obtain ⟨dl, hdl, hlen, hrows⟩ := dataList_eq s.paramsMix dx.useGsl hp.lam0 hWe (fun i hi j hj b hb => (hp.g i hi j hj).1 b hb) c.data s.data
    (fun D hD' => by change DataOk s.base.K s.base.B D; rw [hK, hBb]; exact hD D hD') hs.data dx.mult
  have hst := stats_ok (c := c) (fun i k r st ft => dx.mult i k r st (probVec s.paramsMix k ft)) hlen fun i => ⟨(hrows i).1, fun k hk =>
    (hrows i).2 k (by change k < s.base.K; rw [hK]; exact hk)⟩
  have hz : (fun ρ j => dx.mult ρ.2.1 ρ.1 ρ.2.2 (rowCount ρ) (probVec s.paramsMix ρ.1 (rowF ρ)) j : ZSp c) = mixZ G c (theta c.base.K s) (seedsOf c x) := by
    funext ρ j
    unfold mixZ zOf
    change G.mult (1 + c.base.K * c.base.B) (rowCount ρ) (arr (1 + c.base.K * c.base.B) _) _ _ = _
    have := probVec_congr (P := rateParams c.base (fun _ => 1) (theta c.base.K s).2.2.1 (theta c.base.K s).2.2.2.1 (theta c.base.K s).2.2.2.2) (P' := s.paramsMix)
      (k := ρ.1) hK hBb ρ.1.2 (fun k hk => by rw [rate_lam (K := c.base.K) _ _ _ _ _ hk]; rfl) (fun i hi j hj => by rw [rate_W (K := c.base.K) _ _ _ _ _ hi hj, one_mul]; rfl)
      (fun i hi j hj b hb => by rw [rate_g (K := c.base.K) _ _ _ _ _ hi hj]; rfl) (rowF ρ)
    exact congrArg (fun p => G.mult (NPar c) (rowCount ρ) p (x (.parents ρ.2.1 ρ.1 ρ.2.2)) j) this
  rw [hz] at hst
  set z := mixZ G c (theta c.base.K s) (seedsOf c x) with hzz
  set s2 := resampleImpulse dx (resampleBias dx { s with data := dl }) with hs2
  set s3 := resampleAMix κ0 ν0 dx s2 with hs3
  set s4 := resampleWMix κ0 ν0 dx s3 with hs4
  have hnP : ∀ i j, s.net.P i j = n.P i j := by intro i j; rw [hs.net]; rfl
  have hlam : (fun k : Fin c.base.K => s4.base.lam0 k) = lamOf G c z (seedsOf c x).2.1 := by
    funext k
    change G.gam (biasArgs s.alpha s.beta s.base.dt dl k) (x (.lam k)) = G.gam _ (x (.lam k))
    congr 1
    unfold biasArgs
    dsimp only
    rw [hs.alpha, hs.beta, hdt, hst.bkgd0 k, hst.bkgd1]
  have hg : (fun e : Pair c.base.K => s4.base.g e.1 e.2) = gOf G c z (seedsOf c x).2.2.1 := by
    funext e
    change G.dir c.base.B (arr c.base.B (impulseArgs s.base.B s.gamma dl e.1 e.2)) (x (.dir e.1 e.2)) = G.dir _ _ (x (.dir e.1 e.2))
    congr 1
    funext b
    unfold arr
    split_ifs with hb
    · unfold impulseArgs
      rw [hs.gamma, hBb, hst.ir e b hb]
    · rfl
  have hV : ∀ i j, s.net.V i j = netScale s.net := by intro i j; rw [hs.net]; simp [Net.V, ERFixed.V, netScale]
  have hkap : s.net.kappa = n.kappa := by rw [hs.net]; rfl
  have hAe : ∀ e : Pair c.base.K, s4.A e.1 e.2 = mixAOf G κ0 ν0 c n z (theta c.base.K s).2.1 (seedsOf c x).2.2.2.2.2 e := by
    intro e
    change mixA s.base.B κ0 ν0 s.net.kappa s.net.V s.net.P dx.u dl e.1 e.2 = _
    unfold mixA mixAOf mixEdge
    dsimp only
    have hP := hnP e.1 e.2
    have hPm := netP_mem hp.net e.1 (by rw [hK]; exact e.1.2) e.2 (by rw [hK]; exact e.2.2)
    rw [edgeDraw_eq _ _ _ _ hPm.1 hPm.2 (hdo.unif _ _).1 (hdo.unif _ _).2, hBb, hst.w0 e, hst.w1, hV, hkap, hP]
    rfl
  have hWe : ∀ e : Pair c.base.K, s4.W e.1 e.2 = max (mixWOf G κ0 ν0 c n z (theta c.base.K s).2.1 (mixAOf G κ0 ν0 c n z (theta c.base.K s).2.1 (seedsOf c x).2.2.2.2.2)
      (seedsOf c x).2.2.2.2.1 e) 1e-32 := by
    intro e
    change max (G.gam (mixWArgs s.base.B κ0 ν0 s.net.kappa s.net.V s4.A dl e.1 e.2) (x (.weight e.1 e.2))) 1e-32 = _
    congr 1
    unfold mixWOf mixWeight
    change G.gam _ (x (.weight e.1 e.2)) = G.gam _ (x (.weight e.1 e.2))
    congr 1
    unfold mixWArgs
    dsimp only
    rw [hAe e, hBb, hst.w0 e, hst.w1, hV, hkap]
    rfl
  have hA01 : ∀ i < s.base.K, ∀ j < s.base.K, s4.A i j = 0 ∨ s4.A i j = 1 := fun i _ j _ => by
    change edgeDraw _ _ _ _ = 0 ∨ edgeDraw _ _ _ _ = 1
    unfold edgeDraw; dsimp only; split_ifs
    · exact .inr rfl
    · exact .inl rfl
  have hW4 : ∀ i < s.base.K, ∀ j < s.base.K, 0 < s4.W i j := fun i _ j _ => lt_of_lt_of_le h32 (le_max_right _ _)
  have hself : s.net.allowSelf = false → ∀ i < s.base.K, s4.A i i = 0 := by
    intro hsf i hi
    have h0 := netP_self hsf i
    change edgeDraw _ _ (s.net.P i i) _ = 0
    rw [h0, edgeDraw_eq _ _ _ _ le_rfl zero_le_one (hdo.unif _ _).1 (hdo.unif _ _).2, if_neg]
    unfold bernPost
    simpa using (hdo.unif i i).1
  have hlam0 : ∀ k < s.base.K, 0 < s4.base.lam0 k := by
    have hy1 : HyperOk { s with data := dl } := ⟨hy.alpha, hy.beta, hy.gamma, hy.dt, hy.basis⟩
    intro k _
    exact bias_pos (s := { s with data := dl }) (K := s.base.K) (B := s.base.B) (C := blocks s.net) (d := dx) (by rw [hblocks, hK, hBb]; exact hdo) hy1 k
  have hgp : ∀ i < s.base.K, ∀ j < s.base.K, IsProb s.base.B (s4.base.g i j) := by
    have hy2 : HyperOk (resampleBias dx { s with data := dl }) := ⟨hy.alpha, hy.beta, hy.gamma, hy.dt, hy.basis⟩
    intro i _ j _
    exact impulse_prob (s := resampleBias dx { s with data := dl }) (by
      change DrawsOk s.base.K s.base.B (blocks s.net) dx
      rw [hblocks, hK, hBb]; exact hdo) hy2 i j
  have hnet' := C24_network_stays_valid (K := s.base.K) (B := s.base.B) (n := s.net) huge (d := dx) (A := s4.A) (W := s4.W) (by rw [hblocks, hK, hBb]; exact hdo) hA01 hW4 hp.net
  have hnetv : s.net.resample huge dx.net dx.erGamma s4.A s4.W = .er { n with v := vOf G c n (x .scale) (theta c.base.K s).2.1 (fun e => s4.A e.1 e.2) (fun e => s4.W e.1 e.2) } := by
    rw [hs.net]
    change Net.er (erResample _ _ _ _) = _
    congr 1
    have hnK : n.K = c.base.K := by
      have := hp.net
      rw [hs.net] at this
      exact this.size.trans hK
    unfold erResample vOf
    dsimp only
    rcases ha : n.alpha with _ | a
    · rfl
    rcases hb : n.beta with _ | b
    · rfl
    dsimp only
    split_ifs with ht
    · congr 1
      change G.gam _ _ = G.gam _ _
      congr 1
      unfold erVArgs
      dsimp only
      rw [hnK, sum_pairs, sum_pairs]
    · rfl
  have hAf : (fun e : Pair c.base.K => s4.A e.1 e.2) = (mixAW G κ0 ν0 c n (theta c.base.K s) (seedsOf c x)).1 := funext hAe
  have hWf : (fun e : Pair c.base.K => s4.W e.1 e.2) = fun e => max ((mixAW G κ0 ν0 c n (theta c.base.K s) (seedsOf c x)).2 e) 1e-32 := funext hWe
  have hbase : s4.base = { c.base with lam0 := s4.base.lam0, g := s4.base.g, Weff := s4.base.Weff } := by
    have key : ∀ (P C : NetParams ℝ) (l : Vec ℝ) (g : Ten ℝ), P = { C with lam0 := P.lam0, g := P.g, Weff := P.Weff } →
        ({ P with lam0 := l, g := g } : NetParams ℝ) = { C with lam0 := l, g := g, Weff := P.Weff } := by
      rintro ⟨⟩ ⟨⟩ l g h
      simp only [NetParams.mk.injEq] at h ⊢
      tauto
    exact key s.base c.base _ _ hs.base
  have hyp : HyperOk s4 := ⟨hy.alpha, hy.beta, hy.gamma, hy.dt, hy.basis⟩
  have hr : resampleModelMix huge κ0 ν0 b dx s = .ok (if b then resampleNet huge dx s4 else s4) := by
    unfold resampleModelMix
    rw [hdl]
  refine ⟨_, hr, ?_⟩
  cases b with
  | false =>
    simp only [Bool.false_eq_true, if_false]
    refine ⟨⟨hbase, hs.alpha, hs.beta, hs.gamma, hs.net, hst.same⟩, hyp, ⟨hlam0, hgp, hW4, hA01, hself, hp.net⟩, ?_⟩
    unfold mixSweep mixNet mixBody
    simp only [Bool.false_eq_true, if_false]
    exact Prod.ext hAf (Prod.ext rfl (Prod.ext hWf (Prod.ext hlam hg)))
  | true =>
    simp only [if_true]
    refine ⟨⟨hbase, hs.alpha, hs.beta, hs.gamma, ?_, hst.same⟩, ⟨hy.alpha, hy.beta, hy.gamma, hy.dt, hy.basis⟩, ⟨hlam0, hgp, hW4, hA01, ?_, hnet'.1⟩, ?_⟩
    · change s.net.resample huge dx.net dx.erGamma s4.A s4.W = .er { n with v := netScale (s.net.resample huge dx.net dx.erGamma s4.A s4.W) }
      rw [hnetv]; rfl
    · intro h0
      refine hself ?_
      change (s.net.resample huge dx.net dx.erGamma s4.A s4.W).allowSelf = false at h0
      rw [hnetv] at h0
      rw [hs.net]; exact h0
    · unfold mixSweep mixNet mixBody
      simp only [if_true]
      refine Prod.ext hAf (Prod.ext ?_ (Prod.ext hWf (Prod.ext hlam hg)))
      change netScale (s.net.resample huge dx.net dx.erGamma s4.A s4.W) = _
      rw [hnetv, hAf, hWf]
      rfl

end

end PyHawkes
