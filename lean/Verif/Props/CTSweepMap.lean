import Verif.Props.CTAugmentOk
import Verif.Props.CTAdjacency

/-!
# One continuous-time `resample_model` call as a function of the parameters and the seeds (used for C84)
-/
set_option linter.unusedSectionVars false
set_option linter.unusedVariables false

namespace PyHawkes
open Finset Spec MeasureTheory

/-! ### what is computed depends on the observed events and the in-range parameters only -/

/-- same sizes and in-range parameters -/
structure SameRates (P P' : CTParams) : Prop where
  K : P'.K = P.K
  dtMax : P'.dtMax = P.dtMax
  lam0 : ∀ k < P.K, P'.lam0 k = P.lam0 k
  A : ∀ i < P.K, ∀ j < P.K, P'.A i j = P.A i j
  W : ∀ i < P.K, ∀ j < P.K, P'.W i j = P.W i j
  mu : ∀ i < P.K, ∀ j < P.K, P'.mu i j = P.mu i j
  tau : ∀ i < P.K, ∀ j < P.K, P'.tau i j = P.tau i j

section
variable {P P' : CTParams} {D D' : CTData} (h : SameRates P P') (hD : SameEvents D D') (hL : LabelsOk P.K D)
include h hD hL

theorem contribution_congr {n m : ℕ} (hn : n < D.N) (hm : m < D.N) : contribution P' D' n m = contribution P D n m := by
  obtain ⟨-, h2, h3, -⟩ := hD
  unfold contribution
  dsimp only
  have a := hL n hn
  have b := hL m hm
  rw [h2, h3, h.dtMax, h.A _ b _ a, h.W _ b _ a, h.mu _ b _ a, h.tau _ b _ a]

theorem cumProb_congr {n m : ℕ} (hn : n < D.N) (hm : m ≤ n) : cumProb P' D' n m = cumProb P D n m := by
  have e : ∀ m ≤ n, ∑ j ∈ range m, contribution P' D' n j = ∑ j ∈ range m, contribution P D n j := fun m hm =>
    sum_congr rfl fun j hj => contribution_congr h hD hL hn (by have := mem_range.1 hj; omega)
  unfold cumProb totalRate
  rw [e m hm, e n le_rfl, hD.2.2.1, h.lam0 _ (hL n hn)]

theorem zSel_congr {n : ℕ} (hn : n < D.N) (x : ℝ) : zSel (cumProb P' D' n) n x = zSel (cumProb P D n) n x := by
  unfold zSel
  have e : ∀ m ≤ n, cumProb P' D' n m = cumProb P D n m := fun m hm => cumProb_congr h hD hL hn hm
  rw [e 0 (Nat.zero_le _)]
  congr 1
  refine sum_congr rfl fun m hm => ?_
  have := mem_range.1 hm
  rw [e m this.le, e (m + 1) this]

theorem rateScan_congr {n : ℕ} (hn : n < D.N) (m : ℕ) (hm : m ≤ n) (lam : ℝ) : rateScan P' D' n m lam = rateScan P D n m lam := by
  induction m generalizing lam with
  | zero => rfl
  | succ m ih =>
    have a := hL n hn
    have b := hL m (by omega)
    obtain ⟨-, h2, h3, -⟩ := hD
    have hw : P'.Weff (D.C m) (D.C n) = P.Weff (D.C m) (D.C n) := by unfold CTParams.Weff; rw [h.A _ b _ a, h.W _ b _ a]
    have hpw : parWeight P' D' n m = parWeight P D n m := by
      unfold parWeight
      rw [h2, h3, hw, h.mu _ b _ a, h.tau _ b _ a, h.dtMax]
    unfold rateScan
    dsimp only
    rw [hpw, h2, h3, h.dtMax, hw]
    simp only [ih (by omega)]

theorem ctLogLik_congr : ctLogLik P' [D'] = ctLogLik P [D] := by
  have hNs : ∀ k, D'.Ns k = D.Ns k := fun k => by unfold CTData.Ns; rw [hD.1, hD.2.2.1]
  rw [ctLogLik_sum, ctLogLik_sum]
  simp only [List.map_cons, List.map_nil, List.sum_cons, List.sum_nil]
  rw [h.K, hD.1]
  have e1 : ∑ k ∈ range P.K, integratedRate P' D' k = ∑ k ∈ range P.K, integratedRate P D k := by
    refine sum_congr rfl fun k hk => ?_
    have hk' := mem_range.1 hk
    unfold integratedRate
    rw [h.lam0 k hk', hD.2.2.2, h.K]
    congr 1
    refine sum_congr rfl fun i hi => ?_
    have hi' := mem_range.1 hi
    unfold CTParams.Weff
    rw [h.A i hi' k hk', h.W i hi' k hk', hNs]
  have e2 : ∑ n ∈ range D.N, Real.log (rateAtEvents P' D' n) = ∑ n ∈ range D.N, Real.log (rateAtEvents P D n) := by
    refine sum_congr rfl fun n hn => ?_
    have hn' := mem_range.1 hn
    unfold rateAtEvents
    rw [rateScan_congr h hD hL hn' n le_rfl, hD.2.2.1, h.lam0 _ (hL n hn')]
  rw [e1, e2]

end

theorem children_congr {D D' : CTData} (hD : SameEvents D D') {Z Z' : ℕ → ℤ} (hZ : ∀ n < D.N, Z' n = Z n) (i j : ℕ) : children D' Z' i j = children D Z i j := by
  unfold children
  rw [hD.1, hD.2.2.1]
  exact filter_congr fun n hn => by rw [hZ n (mem_range.1 hn)]

theorem bkgd_congr {D D' : CTData} (hD : SameEvents D D') {Z Z' : ℕ → ℤ} (hZ : ∀ n < D.N, Z' n = Z n) (k : ℕ) : bkgdCount D' Z' k = bkgdCount D Z k := by
  unfold bkgdCount
  rw [hD.1, hD.2.2.1]
  congr 1
  exact filter_congr fun n hn => by rw [hZ n (mem_range.1 hn)]

theorem ctResample_Z {P : CTParams} {u : Vec ℝ} {sched : List ℕ} {D D' : CTData} (h : ctResample P u sched D = .ok D') : ctResamplePar P D u sched D.Z = .ok D'.Z := by
  unfold ctResample at h
  split at h
  · cases h
  · rename_i Z hZ
    rw [hZ]
    split at h
    · cases h
    split at h
    · cases h
    split at h
    · cases h
    split at h
    · cases h
    rw [← Except.ok.inj h]

/-- with a single data set the impulse responses are drawn from the textbook posterior -/
theorem ctImpulseArgs_single (prior : NigArgs) {K : ℕ} {dtMax : ℝ} {D : CTData} (hD : CTDataOk K dtMax D) (i j : ℕ) :
    ctImpulseArgs prior [D] i j = nigPosterior prior ((children D D.Z i j).toList.map (childLag D dtMax D.Z)) := by
  have := C33_parameters prior K dtMax [D] (by intro D' h; rw [List.mem_singleton.1 h]; exact hD) i j
  have ha : allLags dtMax [D] i j = [(children D D.Z i j).toList.map (childLag D dtMax D.Z)] := rfl
  dsimp only at this
  rw [ha] at this
  simp only [List.flatten_cons, List.flatten_nil, List.append_nil, List.map_cons, List.map_nil, List.sum_cons, List.sum_nil, sub_self] at this
  obtain ⟨h1, h2, h3, h4⟩ := this
  rcases hx : ctImpulseArgs prior [D] i j with ⟨a, b, c, d⟩
  rcases hy : nigPosterior prior ((children D D.Z i j).toList.map (childLag D dtMax D.Z)) with ⟨a', b', c', d'⟩
  rw [hx, hy] at h1 h2 h3 h4
  dsimp only at h1 h2 h3 h4
  rw [NigArgs.mk.injEq]
  exact ⟨h3, h2, h1, by rw [h4]; ring⟩

/-- `s` is a state of the model `c` with valid parameters and with parent statistics that match the stored parents -/
structure ValidCT (c : CTState) (n : ERFixed) (s : CTState) : Prop where
  same : SameModelCT c n s
  hyper : CTHyperOk s
  params : CTParamsOk s
  data : ∀ D ∈ s.data, CTDataOk s.P.K s.P.dtMax D

section
variable {U : Type*} [MeasurableSpace U] {μ : Measure U} (G : Generator μ) (N : NormalSampler μ) (c : CTState) (n : ERFixed) (D : CTData)

/-- the seeds of the in-range call sites -/
def seedsCT (x : CTSite → U) : AugSeeds c.P.K U (Fin D.N → U) ((Fin c.P.K → U) × (Pair c.P.K → U × U)) :=
  (fun n => x (.parent 0 n), (fun k => x (.lam k), fun e => (x (.precision e.1 e.2), x (.mean e.1 e.2))), x .scale, fun e => x (.weight e.1 e.2), fun e => x (.unif e.1 e.2))

theorem ctDraws_ok {K C : ℕ} (d : CTDraws) (hd : CTDrawsOk K C d) (x : CTSite → U) : CTDrawsOk K C (ctDraws G N d x) where
  parU := fun i n => G.unif_mem _
  sched := hd.sched
  lam := fun k a => G.gam_pos a _
  nigGam := fun i j a => G.gam_pos a _
  net := ⟨fun a => G.gam_pos a _, hd.net.netGamma, hd.net.netBeta, hd.net.netLabel, hd.net.netDir⟩
  weight := fun i j a => G.gam_pos a _
  unif := fun i j => G.unif_mem _
  order := hd.order

variable {c n D}

/-- **The parameters after one `resample_model` call are a function of the parameters before and the seeds of the in-range call sites.** -/
theorem ct_sweep_eq (h : CfgOkCT c n D) (huge : ℝ) (d : CTDraws) (hd : CTDrawsOk c.P.K 1 d) (s : CTState) (hv : ValidCT c n s) (x : CTSite → U) :
    ∃ s', ctResampleModel huge (ctDraws G N d x) s = .ok s' ∧ ValidCT c n s' ∧ thetaCT c.P.K s' = (ctSys G N c D).sweep G n (thetaCT c.P.K s) (seedsCT c D x) := by
  obtain ⟨hs, hy, hp, hDs⟩ := hv
  have hK := hs.K
  have hdt := hs.dtMax
  obtain ⟨D0, hD0, hsame0⟩ : ∃ D0, s.data = [D0] ∧ SameEvents D D0 := by
    have := hs.data
    rw [h.data] at this
    rcases hsd : s.data with _ | ⟨D0, _ | ⟨a, l⟩⟩
    · rw [hsd] at this; cases this
    · rw [hsd] at this
      cases this with | cons h1 h2 => exact ⟨D0, rfl, h1⟩
    · rw [hsd] at this
      cases this with | cons h1 h2 => cases h2
  have hT0 : 0 ≤ D0.T := by rw [hsame0.2.2.2]; exact h.T
  have hD0ok : CTDataOk s.P.K s.P.dtMax D0 := hDs D0 (by rw [hD0]; exact List.mem_singleton.2 rfl)
  have hblocks : blocks s.net = 1 := by rw [hs.net]; rfl
  have hdo := ctDraws_ok G N d hd x
  set dx := ctDraws G N d x with hdx
  obtain ⟨s', hr, hy', hp', hK', hdt', -, -, ha', hb', hn', hf'⟩ := C69_resample_keeps_valid huge dx s (by rw [hblocks, hK]; exact hdo) hy hp
    (by intro D' hD'; rw [hD0] at hD'; rw [List.mem_singleton.1 hD']; exact ⟨hD0ok, hT0⟩)
  have hP := ctOk_of s hy hp
  obtain ⟨D1, hD1, -, -, -, -, -, hD1ok⟩ := C26_resample_succeeds s.P D0 hP hD0ok.labels hD0ok.sorted (dx.parU 0) (fun n _ => hdo.parU 0 n) (dx.sched 0 D0.N) (hdo.sched 0 D0.N)
  have hdl : ctResampleData s.P dx.parU dx.sched s.data = .ok [D1] := by
    rw [hD0]
    unfold ctResampleData
    rw [hD1]
    rfl
  have hr' := hr
  unfold ctResampleModel at hr'
  rw [hdl] at hr'
  dsimp only at hr'
  have hs'eq := Except.ok.inj hr'
  have hs'data : s'.data = [D1] := by rw [← hs'eq]; rfl
  have hsame1 : SameEvents D D1 := by
    rw [hs'data, hD0] at hf'
    cases hf' with | cons h1 h2 =>
    obtain ⟨h1, -⟩ := h1
    exact ⟨h1.1.trans hsame0.1, h1.2.1.trans hsame0.2.1, h1.2.2.1.trans hsame0.2.2.1, h1.2.2.2.trans hsame0.2.2.2⟩
  -- the parents
  set θ := thetaCT c.P.K s with hθ
  have hrates : SameRates (ctRateParams c.P θ.1 θ.2.2.1 θ.2.2.2.1 θ.2.2.2.2) s.P :=
    ⟨hK, hdt, fun k hk => (ctRate_lam (K := c.P.K) c.P θ.1 θ.2.2.1 θ.2.2.2.1 θ.2.2.2.2 hk).symm, fun i hi j hj => (padM_in (K := c.P.K) θ.1 hi hj).symm, fun i hi j hj => (padM_in (K := c.P.K) θ.2.2.1 hi hj).symm,
      fun i hi j hj => (padM_in (K := c.P.K) (fun e => (θ.2.2.2.2 e).1) hi hj).symm, fun i hi j hj => (padM_in (K := c.P.K) (fun e => (θ.2.2.2.2 e).2) hi hj).symm⟩
  set S := ctSys G N c D with hS
  set z : ZCT D := S.z θ.1 θ.2.2.1 θ.2.2.2 (seedsCT c D x).1 with hz
  have hzN : ∀ m < D.N, D1.Z m = zN z m := by
    intro m hm
    have hm0 : m < D0.N := by rw [hsame0.1]; exact hm
    obtain ⟨Z, hZ, hZs, -⟩ := ctResamplePar_eq s.P D0 hP hD0ok.labels hD0ok.sorted (dx.parU 0) (fun n _ => (hdo.parU 0 n).2) (dx.sched 0 D0.N) (hdo.sched 0 D0.N) D0.Z
    have := ctResample_Z hD1
    rw [hZ] at this
    rw [← Except.ok.inj this, hZs m hm0, zN_in z hm, ← zSel_eq s.P D0 hP hD0ok.labels hD0ok.sorted m hm0 _ (hdo.parU 0 m).2]
    exact zSel_congr hrates hsame0 h.labels hm _
  have hch : ∀ i j, children D1 D1.Z i j = children D (zN z) i j := children_congr hsame1 hzN
  have hbk : ∀ k, bkgdCount D1 D1.Z k = bkgdCount D (zN z) k := bkgd_congr hsame1 hzN
  -- the network
  set v' := augV G n (seedsCT c D x).2.2.1 θ.2.1 θ.1 θ.2.2.1 with hv'
  have hnet : (ctResampleNet huge dx (ctResampleImpulse dx (ctResampleBias dx { s with data := [D1] }))).net = .er { n with v := v' } := by
    change s.net.resample huge dx.net dx.erGamma s.P.A s.P.W = _
    rw [hs.net]
    change Net.er (erResample _ _ _ _) = _
    congr 1
    have hnK : n.K = c.P.K := h.net.size
    rw [hv']
    unfold erResample augV
    dsimp only
    rcases ha : n.alpha with _ | a
    · rfl
    rcases hb : n.beta with _ | b
    · rfl
    dsimp only
    split_ifs with ht
    · congr 1
      change G.gam _ _ = G.gam _ _
      congr 1
      unfold erVArgs
      dsimp only
      rw [hnK, sum_pairs, sum_pairs]
      rfl
    · rfl
  set s3 := ctResampleNet huge dx (ctResampleImpulse dx (ctResampleBias dx { s with data := [D1] })) with hs3
  refine ⟨s', hr, ⟨⟨hK'.trans hK, hdt'.trans hdt, ha'.trans hs.alpha, hb'.trans hs.beta, hn'.trans hs.nig, ?_, ?_⟩, hy', hp', ?_⟩, ?_⟩
  · rw [← hs'eq]
    change s3.net = .er { n with v := netScale s3.net }
    rw [hnet]; rfl
  · rw [hs'data, h.data]; exact .cons hsame1 .nil
  · intro D' hD'
    rw [hs'data] at hD'
    rw [List.mem_singleton.1 hD', hK', hdt']; exact hD1ok
  · have hlam : (fun k : Fin c.P.K => s3.P.lam0 k) = (S.sφ z (seedsCT c D x).2.1).1 := by
      funext k
      change G.gam (ctBiasArgs s.alpha s.beta [D1] k) (x (.lam k)) = G.gam _ (x (.lam k))
      congr 1
      change (⟨s.alpha + D1.bkgd k, 1 / (s.beta + D1.T)⟩ : GammaArgs) = _
      rw [hs.alpha, hs.beta, hD1ok.bkgd, hbk, hsame1.2.2.2]
    have hm : (fun e : Pair c.P.K => (s3.P.mu e.1 e.2, s3.P.tau e.1 e.2)) = (S.sφ z (seedsCT c D x).2.1).2 := by
      funext e
      have hargs : ctImpulseArgs s.nig [D1] e.1 e.2 = nigPosterior c.nig (lagsOf c D z e) := by
        rw [ctImpulseArgs_single s.nig hD1ok, hs.nig]
        congr 1
        unfold lagsOf
        rw [hch]
        refine List.map_congr_left fun m hm => ?_
        have hm' := mem_toList.1 hm
        unfold children at hm'
        have hmN := mem_range.1 (mem_filter.1 hm').1
        unfold childLag
        rw [hzN m hmN, hsame1.2.1, hdt]
      change sampleNig (dx.nigGam e.1 e.2) (dx.nigNormal e.1 e.2) (ctImpulseArgs s.nig [D1] e.1 e.2) = nigDraw G N (nigPosterior c.nig (lagsOf c D z e)) _
      rw [hargs]; rfl
    have hW : (fun e : Pair c.P.K => (ctResampleW dx s3).P.W e.1 e.2) = S.w G n z v' θ.1 (seedsCT c D x).2.2.2.1 := by
      funext e
      change G.gam (ctWeightArgs s3.net.kappa s3.net.V s.P.A [D1] e.1 e.2) (x (.weight e.1 e.2)) = G.gam _ (x (.weight e.1 e.2))
      congr 1
      change (⟨s3.net.kappa + (0 + D1.weight e.1 e.2), 1 / (s3.net.V e.1 e.2 + (0 + (D1.Ns e.1 : ℝ)) * s.P.A e.1 e.2)⟩ : GammaArgs) = _
      have hNs : D1.Ns e.1 = D.Ns e.1 := by unfold CTData.Ns; rw [hsame1.1, hsame1.2.2.1]
      rw [hnet, zero_add, zero_add, hD1ok.weight, hch, hNs]
      simp only [Net.kappa, Net.V, ERFixed.V, mul_one]
      rfl
    set s4 := ctResampleW dx s3 with hs4
    have hAeq : (fun e : Pair c.P.K => (ctResampleA dx s4).P.A e.1 e.2) = (S.edgesStep G n (θ.1, v', S.w G n z v' θ.1 (seedsCT c D x).2.2.2.1, S.sφ z (seedsCT c D x).2.1) (seedsCT c D x).2.2.2.2).1 := by
      have hnOk : NetOk s.P.K s3.net := by
        rw [hnet]
        have hp0 := hp'.net
        rw [← hs'eq] at hp0
        have : s3.net = .er { n with v := v' } := hnet
        change NetOk s.P.K s3.net at hp0
        rw [this] at hp0; exact hp0
      have hp01 : ∀ i < s4.P.K, ∀ j < s4.P.K, 0 ≤ s4.net.P i j ∧ s4.net.P i j ≤ 1 := netP_mem hnOk
      have hu : ∀ i < s4.P.K, ∀ j < s4.P.K, 0 ≤ dx.u i j ∧ dx.u i j < 1 := fun i _ j _ => hdo.unif i j
      have hK4 : s4.P.K = c.P.K := hK
      have hord : dx.order.Perm (List.range s4.P.K) := by rw [hK4]; exact hdo.order
      have hbin : Bin s4.P.K s4.P.A := hp.A
      have hW4 : ∀ i < s4.P.K, ∀ j < s4.P.K, 0 ≤ s4.P.W i j := by
        have hp0 := hp'.W
        rw [← hs'eq] at hp0
        exact fun i hi j hj => (hp0 i hi j hj).le
      have hL4 : ∀ D' ∈ s4.data, LabelsOk s4.P.K D' := by
        intro D' hD'
        have : s4.data = [D1] := rfl
        rw [this] at hD'
        rw [List.mem_singleton.1 hD']; exact hD1ok.labels
      have hser : ∀ i < c.P.K, ∀ j < c.P.K, (ctResampleA dx s4).P.A i j = gibbsSweep s4.P.K s4.net.P dx.u (ctLik s4.P s4.data) s4.P.A i j := by
        intro i hi j hj
        have hsw := (C67_sweep_is_gibbs s4.P s4.net.P dx.u s4.data s4.P.A hbin hW4 hL4 hp01 hu).1
        rw [← hsw]
        change (if dx.parallel then ctParallelSweep s4.P s4.net.P dx.u s4.data dx.order s4.P.A else ctSerialSweep s4.P s4.net.P dx.u s4.data s4.P.A) i j = _
        cases dx.parallel with
        | true =>
          rw [if_pos rfl]
          exact C67_parallel_eq_serial s4.P s4.net.P dx.u s4.data s4.P.A dx.order hord hp01 hu i (by rw [hK4]; exact hi) j (by rw [hK4]; exact hj)
        | false => rfl
      have e1 : (fun e : Pair c.P.K => (ctResampleA dx s4).P.A e.1 e.2) = resM c.P.K (gibbsSweep c.P.K s4.net.P dx.u (ctLik s4.P s4.data) s4.P.A) := by
        funext e
        rw [hser e.1 e.1.2 e.2 e.2.2, hK4]
        rfl
      rw [e1, resM_gibbsSweep s4.net.P dx.u (ctLik s4.P s4.data) (fun A => S.L A (S.w G n z v' θ.1 (seedsCT c D x).2.2.2.1) (S.sφ z (seedsCT c D x).2.1))]
      · have hPn : ∀ i j, s4.net.P i j = n.P i j := by
          intro i j
          change s3.net.P i j = _
          rw [hnet]
          rfl
        unfold AugSys.edgesStep sitesStep
        simp only [hPn]
        rfl
      · intro A
        unfold ctLik
        have hd4 : s4.data = [D1] := rfl
        change _ = Real.exp (ctLogLik (ctRateParams c.P (resM c.P.K A) _ _ _) c.data)
        congr 1
        rw [hd4, h.data]
        refine ctLogLik_congr ⟨hK, hdt, ?_, ?_, ?_, ?_, ?_⟩ hsame1 h.labels
        · intro k hk
          rw [ctRate_lam (K := c.P.K) _ _ _ _ _ hk, ← hlam]
          rfl
        · intro i hi j hj
          exact (padM_in (K := c.P.K) (resM c.P.K A) hi hj).symm
        · intro i hi j hj
          change _ = padM _ i j
          rw [padM_in (K := c.P.K) _ hi hj, ← hW]
        · intro i hi j hj
          change _ = padM (fun e => ((S.sφ z (seedsCT c D x).2.1).2 e).1) i j
          rw [padM_in (K := c.P.K) _ hi hj, ← hm]
          rfl
        · intro i hi j hj
          change _ = padM (fun e => ((S.sφ z (seedsCT c D x).2.1).2 e).2) i j
          rw [padM_in (K := c.P.K) _ hi hj, ← hm]
          rfl
    have hvv : netScale s3.net = v' := by rw [hnet]; rfl
    rw [← hs'eq]
    exact Prod.ext hAeq (Prod.ext hvv (Prod.ext hW (Prod.ext hlam hm)))

end

end PyHawkes
