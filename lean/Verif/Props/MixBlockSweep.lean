import Verif.Props.MixBlock
import Verif.Props.BlockSweep
import Verif.Props.CTBlockPosterior

/-!
# One call of the gamma-mixture model's `resample_model` with a learned one-block network as a function of the parameters and the seeds (used for C85)
-/
set_option linter.unusedSectionVars false
set_option linter.unusedVariables false

namespace PyHawkes
open Finset Spec MeasureTheory

section
variable {U : Type*} [MeasurableSpace U] {μ : Measure U} (κ0 ν0 : ℝ) (G : Generator μ) (Bt : BetaSampler μ) {c : HawkesState} {n : SBM}

/-- **The parameters after one call are a function of the parameters before and the seeds of the in-range call sites.** -/
theorem mixb_sweep_eq (h : CfgOkB c n) (huge : ℝ) (b : Bool) (d : StepDraws) (hd : DrawsOk c.base.K c.base.B 1 d) (s : HawkesState) (hs : SameModelB c n s) (hy : HyperOk s)
    (hp : ParamsOk s) (x : SiteB → U) :
    ∃ s', resampleModelMix huge κ0 ν0 b (drawsB G Bt c.base.K c.base.B d x) s = .ok s' ∧ SameModelB c n s' ∧ HyperOk s' ∧ ParamsOk s' ∧
      thetaB c.base.K s' = mixSweepB κ0 ν0 G Bt c n (fun w => max w 1e-32) b (thetaB c.base.K s) (seedsOfB c x) := by
  have h32 : (0:ℝ) < 1e-32 := by norm_num
  have hB := h.B
  have hD := h.data
  have hK : s.base.K = c.base.K := by rw [hs.base]
  have hBb : s.base.B = c.base.B := by rw [hs.base]
  have hdt : s.base.dt = c.base.dt := by rw [hs.base]
  have hDs := sameModel_data hs.data hD
  obtain ⟨p0, v0, m0, hn0⟩ := hs.net
  have hblocks : blocks s.net = 1 := by rw [hn0]; exact h.one
  have hdo := drawsB_ok G Bt c hB d hd x
  set dx := drawsB G Bt c.base.K c.base.B d x with hdx
  set θ : Theta c.base.K := (thetaB c.base.K s).2 with hθ
  set y : Site → U := fun σ => x (.other σ) with hyy
  have hnK : n.K = c.base.K := h.net.size
  have hlab : ∀ k < c.base.K, n.c k = 0 := fun k hk => by have := h.net.labels k hk; rw [h.one] at this; omega
  have hWe : ∀ i < s.paramsMix.K, ∀ j < s.paramsMix.K, 0 ≤ s.paramsMix.Weff i j := fun i hi j hj => (hp.W i hi j hj).le
  obtain ⟨dl, hdl, hlen, hrows⟩ := dataList_eq s.paramsMix dx.useGsl hp.lam0 hWe (fun i hi j hj b hb => (hp.g i hi j hj).1 b hb) c.data s.data
    (fun D hD' => by change DataOk s.base.K s.base.B D; rw [hK, hBb]; exact hD D hD') hs.data dx.mult
  have hst := stats_ok (c := c) (fun i k r st ft => dx.mult i k r st (probVec s.paramsMix k ft)) hlen fun i => ⟨(hrows i).1, fun k hk =>
    (hrows i).2 k (by change k < s.base.K; rw [hK]; exact hk)⟩
  have hz : (fun ρ j => dx.mult ρ.2.1 ρ.1 ρ.2.2 (rowCount ρ) (probVec s.paramsMix ρ.1 (rowF ρ)) j : ZSp c) = mixZ G c θ (seedsOf c y) := by
    funext ρ j
    unfold mixZ zOf
    change G.mult (1 + c.base.K * c.base.B) (rowCount ρ) (arr (1 + c.base.K * c.base.B) _) _ _ = _
    have := probVec_congr (P := rateParams c.base (fun _ => 1) θ.2.2.1 θ.2.2.2.1 θ.2.2.2.2) (P' := s.paramsMix)
      (k := ρ.1) hK hBb ρ.1.2 (fun k hk => by rw [rate_lam (K := c.base.K) _ _ _ _ _ hk]; rfl) (fun i hi j hj => by rw [rate_W (K := c.base.K) _ _ _ _ _ hi hj, one_mul]; rfl)
      (fun i hi j hj b hb => by rw [rate_g (K := c.base.K) _ _ _ _ _ hi hj]; rfl) (rowF ρ)
    exact congrArg (fun p => G.mult (NPar c) (rowCount ρ) p (y (.parents ρ.2.1 ρ.1 ρ.2.2)) j) this
  rw [hz] at hst
  set z := mixZ G c θ (seedsOf c y) with hzz
  set s2 := resampleImpulse dx (resampleBias dx { s with data := dl }) with hs2
  set s3 := resampleAMix κ0 ν0 dx s2 with hs3
  set s4 := resampleWMix κ0 ν0 dx s3 with hs4
  set p := (thetaB c.base.K s).1 with hpdef
  have hp00 : p0 0 0 = p := by rw [hpdef]; change _ = netProb s.net; rw [hn0]; rfl
  have hv00 : v0 0 0 = θ.2.1 := by rw [hθ]; change _ = netScaleB s.net; rw [hn0]; rfl
  have hnP : ∀ e : Pair c.base.K, s.net.P e.1 e.2 = (erOf n p).P e.1 e.2 := by
    intro e
    rw [hn0, erOf_P]
    change SBM.P _ e.1 e.2 = _
    unfold SBM.P
    dsimp only
    rw [if_neg (by rw [h.self]; simp), hlab e.1 e.1.2, hlab e.2 e.2.2, hp00]
  have hV : ∀ e : Pair c.base.K, s.net.V e.1 e.2 = θ.2.1 := by
    intro e
    rw [hn0]
    change SBM.V _ e.1 e.2 = _
    unfold SBM.V
    dsimp only
    rw [hlab e.1 e.1.2, hlab e.2 e.2.2, hv00]
  have hkap : s.net.kappa = n.kappa := by rw [hn0]; rfl
  have hlam : (fun k : Fin c.base.K => s4.base.lam0 k) = lamOf G c z (seedsOf c y).2.1 := by
    funext k
    change G.gam (biasArgs s.alpha s.beta s.base.dt dl k) (y (.lam k)) = G.gam _ (y (.lam k))
    congr 1
    unfold biasArgs
    dsimp only
    rw [hs.alpha, hs.beta, hdt, hst.bkgd0 k, hst.bkgd1]
  have hg : (fun e : Pair c.base.K => s4.base.g e.1 e.2) = gOf G c z (seedsOf c y).2.2.1 := by
    funext e
    change G.dir c.base.B (arr c.base.B (impulseArgs s.base.B s.gamma dl e.1 e.2)) (y (.dir e.1 e.2)) = G.dir _ _ (y (.dir e.1 e.2))
    congr 1
    funext b
    unfold arr
    split_ifs with hb
    · unfold impulseArgs
      rw [hs.gamma, hBb, hst.ir e b hb]
    · rfl
  have hAe : ∀ e : Pair c.base.K, s4.A e.1 e.2 = mixAOf G κ0 ν0 c (erOf n p) z θ.2.1 (seedsOf c y).2.2.2.2.2 e := by
    intro e
    change mixA s.base.B κ0 ν0 s.net.kappa s.net.V s.net.P dx.u dl e.1 e.2 = _
    unfold mixA mixAOf mixEdge
    dsimp only
    have hPm := netP_mem hp.net e.1 (by rw [hK]; exact e.1.2) e.2 (by rw [hK]; exact e.2.2)
    rw [edgeDraw_eq _ _ _ _ hPm.1 hPm.2 (hdo.unif _ _).1 (hdo.unif _ _).2, hBb, hst.w0 e, hst.w1, hV, hkap, hnP]
    rfl
  have hWe : ∀ e : Pair c.base.K, s4.W e.1 e.2 = max (mixWOf G κ0 ν0 c (erOf n p) z θ.2.1 (mixAOf G κ0 ν0 c (erOf n p) z θ.2.1 (seedsOf c y).2.2.2.2.2)
      (seedsOf c y).2.2.2.2.1 e) 1e-32 := by
    intro e
    change max (G.gam (mixWArgs s.base.B κ0 ν0 s.net.kappa s.net.V s4.A dl e.1 e.2) (y (.weight e.1 e.2))) 1e-32 = _
    congr 1
    unfold mixWOf mixWeight
    change G.gam _ (y (.weight e.1 e.2)) = G.gam _ (y (.weight e.1 e.2))
    congr 1
    unfold mixWArgs
    dsimp only
    rw [hAe e, hBb, hst.w0 e, hst.w1, hV, hkap]
    rfl
  have hA01 : ∀ i < s.base.K, ∀ j < s.base.K, s4.A i j = 0 ∨ s4.A i j = 1 := fun i _ j _ => by
    change edgeDraw _ _ _ _ = 0 ∨ edgeDraw _ _ _ _ = 1
    unfold edgeDraw; dsimp only; split_ifs
    · exact .inr rfl
    · exact .inl rfl
  have hW4 : ∀ i < s.base.K, ∀ j < s.base.K, 0 < s4.W i j := fun i _ j _ => lt_of_lt_of_le h32 (le_max_right _ _)
  have hselfT : s.net.allowSelf = true := by rw [hn0]; exact h.self
  have hlam0 : ∀ k < s.base.K, 0 < s4.base.lam0 k := by
    have hy1 : HyperOk { s with data := dl } := ⟨hy.alpha, hy.beta, hy.gamma, hy.dt, hy.basis⟩
    intro k _
    exact bias_pos (s := { s with data := dl }) (K := s.base.K) (B := s.base.B) (C := blocks s.net) (d := dx) (by rw [hblocks, hK, hBb]; exact hdo) hy1 k
  have hgp : ∀ i < s.base.K, ∀ j < s.base.K, IsProb s.base.B (s4.base.g i j) := by
    have hy2 : HyperOk (resampleBias dx { s with data := dl }) := ⟨hy.alpha, hy.beta, hy.gamma, hy.dt, hy.basis⟩
    intro i _ j _
    exact impulse_prob (s := resampleBias dx { s with data := dl }) (by
      change DrawsOk s.base.K s.base.B (blocks s.net) dx
      rw [hblocks, hK, hBb]; exact hdo) hy2 i j
  have hnet' := C24_network_stays_valid (K := s.base.K) (B := s.base.B) (n := s.net) huge (d := dx) (A := s4.A) (W := s4.W) (by rw [hblocks, hK, hBb]; exact hdo) hA01 hW4 hp.net
  obtain ⟨p1, v1, m1, hnet, hp1, hv1⟩ := block_resample h.net h.one h.learned huge dx.net dx.erGamma s4.A s4.W p0 v0 m0
  rw [← hn0] at hnet
  have hAf : (fun e : Pair c.base.K => s4.A e.1 e.2) = (mixAW G κ0 ν0 c (erOf n p) θ (seedsOf c y)).1 := funext hAe
  have hWf : (fun e : Pair c.base.K => s4.W e.1 e.2) = fun e => max ((mixAW G κ0 ν0 c (erOf n p) θ (seedsOf c y)).2 e) 1e-32 := funext hWe
  have hbase : s4.base = { c.base with lam0 := s4.base.lam0, g := s4.base.g, Weff := s4.base.Weff } := by
    have key : ∀ (P C : NetParams ℝ) (l : Vec ℝ) (g : Ten ℝ), P = { C with lam0 := P.lam0, g := P.g, Weff := P.Weff } →
        ({ P with lam0 := l, g := g } : NetParams ℝ) = { C with lam0 := l, g := g, Weff := P.Weff } := by
      rintro ⟨⟩ ⟨⟩ l g h
      simp only [NetParams.mk.injEq] at h ⊢
      tauto
    exact key s.base c.base _ _ hs.base
  have hyp : HyperOk s4 := ⟨hy.alpha, hy.beta, hy.gamma, hy.dt, hy.basis⟩
  have hr : resampleModelMix huge κ0 ν0 b dx s = .ok (if b then resampleNet huge dx s4 else s4) := by
    unfold resampleModelMix
    rw [hdl]
  refine ⟨_, hr, ?_⟩
  cases b with
  | false =>
    simp only [Bool.false_eq_true, if_false]
    refine ⟨⟨hbase, hs.alpha, hs.beta, hs.gamma, ⟨p0, v0, m0, hn0⟩, hst.same⟩, hyp, ⟨hlam0, hgp, hW4, hA01, fun h0 => ?_, hp.net⟩, ?_⟩
    · change s.net.allowSelf = false at h0
      rw [hselfT] at h0; cases h0
    unfold mixSweepB mixSweep mixNet mixBody
    simp only [Bool.false_eq_true, if_false]
    exact Prod.ext rfl (Prod.ext hAf (Prod.ext rfl (Prod.ext hWf (Prod.ext hlam hg))))
  | true =>
    simp only [if_true]
    have hnet5 : (resampleNet huge dx s4).net = .sbm { n with p := p1, v := v1, m := m1 } := hnet
    refine ⟨⟨hbase, hs.alpha, hs.beta, hs.gamma, ⟨p1, v1, m1, hnet5⟩, hst.same⟩, ⟨hy.alpha, hy.beta, hy.gamma, hy.dt, hy.basis⟩, ⟨hlam0, hgp, hW4, hA01, fun h0 => ?_, hnet'.1⟩, ?_⟩
    · rw [hnet5] at h0
      change n.allowSelf = false at h0
      rw [h.self] at h0; cases h0
    · obtain ⟨-, -, ha, hb, -, -⟩ := h.net.hyper
      unfold mixSweepB mixSweep mixNet mixBody
      simp only [if_true]
      refine Prod.ext ?_ (Prod.ext hAf (Prod.ext ?_ (Prod.ext hWf (Prod.ext hlam hg))))
      · change netProb (resampleNet huge dx s4).net = _
        rw [hnet5]
        change p1 0 0 = pOf Bt n _ (x .prob)
        rw [hp1]
        unfold pOf
        change Bt.bet _ (x .prob) = Bt.bet _ (x .prob)
        change _ = Bt.bet ⟨n.tau1 + ∑ e, (mixAW G κ0 ν0 c (erOf n p) θ (seedsOf c y)).1 e, n.tau0 + ∑ e, (1 - (mixAW G κ0 ν0 c (erOf n p) θ (seedsOf c y)).1 e)⟩ (x .prob)
        rw [← hAf]
      · change netScaleB (resampleNet huge dx s4).net = _
        rw [hnet5]
        change v1 0 0 = _
        rw [hv1]
        unfold vOf erOf
        dsimp only
        rw [if_pos (by simp [truthy, ha.ne', hb.ne'])]
        change G.gam _ (y .scale) = G.gam _ (y .scale)
        change _ = G.gam ⟨n.alpha + (∑ e, (mixAW G κ0 ν0 c (erOf n p) θ (seedsOf c y)).1 e) * n.kappa, 1 / (n.beta + ∑ e, if 0 < (mixAW G κ0 ν0 c (erOf n p) θ (seedsOf c y)).1 e then
          (fun e => max ((mixAW G κ0 ν0 c (erOf n p) θ (seedsOf c y)).2 e) 1e-32) e else 0)⟩ (y .scale)
        rw [← hAf, ← hWf]

end

end PyHawkes
