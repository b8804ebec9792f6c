import Verif.Props.CTSweepMap
import Verif.Props.CTPosterior
import Verif.Props.NetSystem

/-!
# One continuous-time `resample_model` call with any kind of network, as a function of the parameters and the seeds (used for C84)
-/
set_option linter.unusedSectionVars false
set_option linter.unusedVariables false

namespace PyHawkes
open Finset Spec MeasureTheory

/-- `s` is a state of the model `c` (network apart) with valid parameters and with parent statistics that match the stored parents -/
structure ValidCTNet (c : CTState) (s : CTState) : Prop where
  K : s.P.K = c.P.K
  dtMax : s.P.dtMax = c.P.dtMax
  alpha : s.alpha = c.alpha
  beta : s.beta = c.beta
  nig : s.nig = c.nig
  events : List.Forall₂ (fun D D' : CTData => D'.N = D.N ∧ D'.S = D.S ∧ D'.C = D.C ∧ D'.T = D.T) c.data s.data
  hyper : CTHyperOk s
  params : CTParamsOk s
  data : ∀ D ∈ s.data, CTDataOk s.P.K s.P.dtMax D

section
variable {U : Type*} [MeasurableSpace U] {μ : Measure U} (G : Generator μ) (N : NormalSampler μ) {c : CTState} {D : CTData}

/-- the draws outside the network use the seeds `x` -/
structure DrawsFrom (d : CTDraws) (x : CTSite → U) : Prop where
  parU : ∀ m, d.parU 0 m = G.unif (x (.parent 0 m))
  lam : ∀ k a, d.lam k a = G.gam a (x (.lam k))
  nigGam : ∀ i j a, d.nigGam i j a = G.gam a (x (.precision i j))
  nigNormal : ∀ i j m s, d.nigNormal i j m s = N.normal m s (x (.mean i j))
  weight : ∀ i j a, d.weight i j a = G.gam a (x (.weight i j))
  u : ∀ i j, d.u i j = G.unif (x (.unif i j))

/-- the parameters outside the network after one call -/
theorem ct_sweep_net {n : ERFixed} (h : CfgOkCT c n D) (huge : ℝ) (dx : CTDraws) (s : CTState) (hv : ValidCTNet c s) (hdo : CTDrawsOk c.P.K (blocks s.net) dx) (x : CTSite → U)
    (hx : DrawsFrom G N dx x) :
    ∃ s', ctResampleModel huge dx s = .ok s' ∧ ValidCTNet c s' ∧ s'.net = s.net.resample huge dx.net dx.erGamma s.P.A s.P.W ∧
      ∃ (φ : PhiCT c.P.K) (W : Pair c.P.K → ℝ),
        φ = (ctSys G N c D).sφ ((ctSys G N c D).z (fun e => s.P.A e.1 e.2) (fun e => s.P.W e.1 e.2) (fun k => s.P.lam0 k, fun e => (s.P.mu e.1 e.2, s.P.tau e.1 e.2)) (seedsCT c D x).1) (seedsCT c D x).2.1 ∧
        W = (fun e => G.gam ⟨s'.net.kappa + (ctSys G N c D).via ((ctSys G N c D).z (fun e => s.P.A e.1 e.2) (fun e => s.P.W e.1 e.2) (fun k => s.P.lam0 k, fun e => (s.P.mu e.1 e.2, s.P.tau e.1 e.2))
          (seedsCT c D x).1) e, 1 / (s'.net.V e.1 e.2 + (ctSys G N c D).ev e.1 * s.P.A e.1 e.2)⟩ (x (.weight e.1 e.2))) ∧
        ((fun k => s'.P.lam0 k, fun e => (s'.P.mu e.1 e.2, s'.P.tau e.1 e.2)) : PhiCT c.P.K) = φ ∧ (fun e : Pair c.P.K => s'.P.W e.1 e.2) = W ∧
        (fun e : Pair c.P.K => s'.P.A e.1 e.2) = sitesStep G (fun e : Pair c.P.K => s'.net.P e.1 e.2) (fun A => (ctSys G N c D).L A W φ) (fun e => x (.unif e.1 e.2)) (pairList c.P.K) (fun e => s.P.A e.1 e.2) := by
  obtain ⟨hK, hdt, hal, hbe, hni, hev, hy, hp, hDs⟩ := hv
  obtain ⟨D0, hD0, hsame0⟩ : ∃ D0, s.data = [D0] ∧ SameEvents D D0 := by
    have := hev
    rw [h.data] at this
    rcases hsd : s.data with _ | ⟨D0, _ | ⟨a, l⟩⟩
    · rw [hsd] at this; cases this
    · rw [hsd] at this
      cases this with | cons h1 h2 => exact ⟨D0, rfl, h1⟩
    · rw [hsd] at this
      cases this with | cons h1 h2 => cases h2
  have hT0 : 0 ≤ D0.T := by rw [hsame0.2.2.2]; exact h.T
  have hD0ok : CTDataOk s.P.K s.P.dtMax D0 := hDs D0 (by rw [hD0]; exact List.mem_singleton.2 rfl)
  obtain ⟨s', hr, hy', hp', hK', hdt', -, -, ha', hb', hn', hf'⟩ := C69_resample_keeps_valid huge dx s (by rw [hK]; exact hdo) hy hp
    (by intro D' hD'; rw [hD0] at hD'; rw [List.mem_singleton.1 hD']; exact ⟨hD0ok, hT0⟩)
  have hP := ctOk_of s hy hp
  obtain ⟨D1, hD1, -, -, -, -, -, hD1ok⟩ := C26_resample_succeeds s.P D0 hP hD0ok.labels hD0ok.sorted (dx.parU 0) (fun n _ => hdo.parU 0 n) (dx.sched 0 D0.N) (hdo.sched 0 D0.N)
  have hdl : ctResampleData s.P dx.parU dx.sched s.data = .ok [D1] := by
    rw [hD0]
    unfold ctResampleData
    rw [hD1]
    rfl
  have hr' := hr
  unfold ctResampleModel at hr'
  rw [hdl] at hr'
  dsimp only at hr'
  have hs'eq := Except.ok.inj hr'
  have hs'data : s'.data = [D1] := by rw [← hs'eq]; rfl
  have hsame1 : SameEvents D D1 := by
    rw [hs'data, hD0] at hf'
    cases hf' with | cons h1 h2 =>
    obtain ⟨h1, -⟩ := h1
    exact ⟨h1.1.trans hsame0.1, h1.2.1.trans hsame0.2.1, h1.2.2.1.trans hsame0.2.2.1, h1.2.2.2.trans hsame0.2.2.2⟩
  -- the parents
  set A0 : Pair c.P.K → ℝ := fun e => s.P.A e.1 e.2 with hA0
  set W0 : Pair c.P.K → ℝ := fun e => s.P.W e.1 e.2 with hW0
  set φ0 : PhiCT c.P.K := (fun k => s.P.lam0 k, fun e => (s.P.mu e.1 e.2, s.P.tau e.1 e.2)) with hφ0
  have hrates : SameRates (ctRateParams c.P A0 W0 φ0.1 φ0.2) s.P :=
    ⟨hK, hdt, fun k hk => (ctRate_lam (K := c.P.K) c.P A0 W0 φ0.1 φ0.2 hk).symm, fun i hi j hj => (padM_in (K := c.P.K) A0 hi hj).symm, fun i hi j hj => (padM_in (K := c.P.K) W0 hi hj).symm,
      fun i hi j hj => (padM_in (K := c.P.K) (fun e => (φ0.2 e).1) hi hj).symm, fun i hi j hj => (padM_in (K := c.P.K) (fun e => (φ0.2 e).2) hi hj).symm⟩
  set S := ctSys G N c D with hS
  set z : ZCT D := S.z A0 W0 φ0 (seedsCT c D x).1 with hz
  have hzN : ∀ m < D.N, D1.Z m = zN z m := by
    intro m hm
    have hm0 : m < D0.N := by rw [hsame0.1]; exact hm
    obtain ⟨Z, hZ, hZs, -⟩ := ctResamplePar_eq s.P D0 hP hD0ok.labels hD0ok.sorted (dx.parU 0) (fun n _ => (hdo.parU 0 n).2) (dx.sched 0 D0.N) (hdo.sched 0 D0.N) D0.Z
    have := ctResample_Z hD1
    rw [hZ] at this
    rw [← Except.ok.inj this, hZs m hm0, zN_in z hm, ← zSel_eq s.P D0 hP hD0ok.labels hD0ok.sorted m hm0 _ (hdo.parU 0 m).2, hx.parU]
    exact zSel_congr hrates hsame0 h.labels hm _
  have hch : ∀ i j, children D1 D1.Z i j = children D (zN z) i j := children_congr hsame1 hzN
  have hbk : ∀ k, bkgdCount D1 D1.Z k = bkgdCount D (zN z) k := bkgd_congr hsame1 hzN
  set s3 := ctResampleNet huge dx (ctResampleImpulse dx (ctResampleBias dx { s with data := [D1] })) with hs3
  have hs'net : s'.net = s3.net := by rw [← hs'eq]; rfl
  refine ⟨s', hr, ⟨hK'.trans hK, hdt'.trans hdt, ha'.trans hal, hb'.trans hbe, hn'.trans hni, ?_, hy', hp', ?_⟩, ?_, ?_⟩
  · rw [hs'data, h.data]; exact .cons hsame1 .nil
  · intro D' hD'
    rw [hs'data] at hD'
    rw [List.mem_singleton.1 hD', hK', hdt']; exact hD1ok
  · rw [hs'net]; rfl
  refine ⟨S.sφ z (seedsCT c D x).2.1, _, rfl, rfl, ?_⟩
  have hlam : (fun k : Fin c.P.K => s3.P.lam0 k) = (S.sφ z (seedsCT c D x).2.1).1 := by
    funext k
    change dx.lam k (ctBiasArgs s.alpha s.beta [D1] k) = G.gam _ (x (.lam k))
    rw [hx.lam]
    congr 1
    change (⟨s.alpha + D1.bkgd k, 1 / (s.beta + D1.T)⟩ : GammaArgs) = _
    rw [hal, hbe, hD1ok.bkgd, hbk, hsame1.2.2.2]
  have hm : (fun e : Pair c.P.K => (s3.P.mu e.1 e.2, s3.P.tau e.1 e.2)) = (S.sφ z (seedsCT c D x).2.1).2 := by
    funext e
    have hargs : ctImpulseArgs s.nig [D1] e.1 e.2 = nigPosterior c.nig (lagsOf c D z e) := by
      rw [ctImpulseArgs_single s.nig hD1ok, hni]
      congr 1
      unfold lagsOf
      rw [hch]
      refine List.map_congr_left fun m hm => ?_
      have hm' := mem_toList.1 hm
      unfold children at hm'
      have hmN := mem_range.1 (mem_filter.1 hm').1
      unfold childLag
      rw [hzN m hmN, hsame1.2.1, hdt]
    have e1 : dx.nigGam e.1 e.2 = fun a => G.gam a (x (.precision e.1 e.2)) := funext (hx.nigGam _ _)
    have e2 : dx.nigNormal e.1 e.2 = fun m s => N.normal m s (x (.mean e.1 e.2)) := funext fun m => funext (hx.nigNormal _ _ m)
    change sampleNig (dx.nigGam e.1 e.2) (dx.nigNormal e.1 e.2) (ctImpulseArgs s.nig [D1] e.1 e.2) = nigDraw G N (nigPosterior c.nig (lagsOf c D z e)) _
    rw [hargs, e1, e2]; rfl
  set W1 : Pair c.P.K → ℝ := fun e => G.gam ⟨s'.net.kappa + S.via z e, 1 / (s'.net.V e.1 e.2 + S.ev e.1 * s.P.A e.1 e.2)⟩ (x (.weight e.1 e.2)) with hW1
  have hW : (fun e : Pair c.P.K => (ctResampleW dx s3).P.W e.1 e.2) = W1 := by
    funext e
    change dx.weight e.1 e.2 (ctWeightArgs s3.net.kappa s3.net.V s.P.A [D1] e.1 e.2) = G.gam _ (x (.weight e.1 e.2))
    rw [hx.weight]
    congr 1
    change (⟨s3.net.kappa + (0 + D1.weight e.1 e.2), 1 / (s3.net.V e.1 e.2 + (0 + (D1.Ns e.1 : ℝ)) * s.P.A e.1 e.2)⟩ : GammaArgs) = _
    have hNs : D1.Ns e.1 = D.Ns e.1 := by unfold CTData.Ns; rw [hsame1.1, hsame1.2.2.1]
    rw [← hs'net, zero_add, zero_add, hD1ok.weight, hch, hNs]
    rfl
  set s4 := ctResampleW dx s3 with hs4
  have hAeq : (fun e : Pair c.P.K => (ctResampleA dx s4).P.A e.1 e.2) = sitesStep G (fun e : Pair c.P.K => s'.net.P e.1 e.2) (fun A => S.L A W1 (S.sφ z (seedsCT c D x).2.1))
      (fun e => x (.unif e.1 e.2)) (pairList c.P.K) A0 := by
    have hnOk : NetOk s.P.K s4.net := by
      have hp0 := hp'.net
      rw [hK', hs'net] at hp0
      exact hp0
    have hp01 : ∀ i < s4.P.K, ∀ j < s4.P.K, 0 ≤ s4.net.P i j ∧ s4.net.P i j ≤ 1 := netP_mem hnOk
    have hu : ∀ i < s4.P.K, ∀ j < s4.P.K, 0 ≤ dx.u i j ∧ dx.u i j < 1 := fun i _ j _ => hdo.unif i j
    have hK4 : s4.P.K = c.P.K := hK
    have hord : dx.order.Perm (List.range s4.P.K) := by rw [hK4]; exact hdo.order
    have hbin : Bin s4.P.K s4.P.A := hp.A
    have hW4 : ∀ i < s4.P.K, ∀ j < s4.P.K, 0 ≤ s4.P.W i j := by
      have hp0 := hp'.W
      rw [← hs'eq] at hp0
      exact fun i hi j hj => (hp0 i hi j hj).le
    have hL4 : ∀ D' ∈ s4.data, LabelsOk s4.P.K D' := by
      intro D' hD'
      have : s4.data = [D1] := rfl
      rw [this] at hD'
      rw [List.mem_singleton.1 hD']; exact hD1ok.labels
    have hser : ∀ i < c.P.K, ∀ j < c.P.K, (ctResampleA dx s4).P.A i j = gibbsSweep s4.P.K s4.net.P dx.u (ctLik s4.P s4.data) s4.P.A i j := by
      intro i hi j hj
      have hsw := (C67_sweep_is_gibbs s4.P s4.net.P dx.u s4.data s4.P.A hbin hW4 hL4 hp01 hu).1
      rw [← hsw]
      change (if dx.parallel then ctParallelSweep s4.P s4.net.P dx.u s4.data dx.order s4.P.A else ctSerialSweep s4.P s4.net.P dx.u s4.data s4.P.A) i j = _
      cases dx.parallel with
      | true =>
        rw [if_pos rfl]
        exact C67_parallel_eq_serial s4.P s4.net.P dx.u s4.data s4.P.A dx.order hord hp01 hu i (by rw [hK4]; exact hi) j (by rw [hK4]; exact hj)
      | false => rfl
    have e1 : (fun e : Pair c.P.K => (ctResampleA dx s4).P.A e.1 e.2) = resM c.P.K (gibbsSweep c.P.K s4.net.P dx.u (ctLik s4.P s4.data) s4.P.A) := by
      funext e
      rw [hser e.1 e.1.2 e.2 e.2.2, hK4]
      rfl
    rw [e1, resM_gibbsSweep s4.net.P dx.u (ctLik s4.P s4.data) (fun A => S.L A W1 (S.sφ z (seedsCT c D x).2.1))]
    · have hPn : ∀ i j, s4.net.P i j = s'.net.P i j := fun i j => by rw [hs'net]; rfl
      unfold sitesStep
      simp only [hPn, hx.u]
      rfl
    · intro A
      unfold ctLik
      have hd4 : s4.data = [D1] := rfl
      change _ = Real.exp (ctLogLik (ctRateParams c.P (resM c.P.K A) _ _ _) c.data)
      congr 1
      rw [hd4, h.data]
      refine ctLogLik_congr ⟨hK, hdt, ?_, ?_, ?_, ?_, ?_⟩ hsame1 h.labels
      · intro k hk
        rw [ctRate_lam (K := c.P.K) _ _ _ _ _ hk, ← hlam]
        rfl
      · intro i hi j hj
        exact (padM_in (K := c.P.K) (resM c.P.K A) hi hj).symm
      · intro i hi j hj
        change s4.P.W i j = padM W1 i j
        rw [padM_in (K := c.P.K) _ hi hj, ← hW]
      · intro i hi j hj
        change _ = padM (fun e => ((S.sφ z (seedsCT c D x).2.1).2 e).1) i j
        rw [padM_in (K := c.P.K) _ hi hj, ← hm]
        rfl
      · intro i hi j hj
        change _ = padM (fun e => ((S.sφ z (seedsCT c D x).2.1).2 e).2) i j
        rw [padM_in (K := c.P.K) _ hi hj, ← hm]
        rfl
  refine ⟨?_, ?_, ?_⟩
  · rw [← hs'eq]; exact Prod.ext hlam hm
  · rw [← hW]
    funext e
    rw [← hs'eq]
    rfl
  · rw [← hAeq]
    funext e
    rw [← hs'eq]

end

end PyHawkes
