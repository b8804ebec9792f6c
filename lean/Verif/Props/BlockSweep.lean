import Verif.Props.BlockPosterior

/-!
# One-block networks: one `resample_model` call as a function of parameters and seeds (C83)
-/
set_option linter.unusedSectionVars false
set_option linter.unusedVariables false

namespace PyHawkes
open Finset Spec MeasureTheory ProbabilityTheory

section
variable {U : Type*} [MeasurableSpace U] {μ : Measure U} (G : Generator μ) (Bt : BetaSampler μ) (c : HawkesState) (n : SBM)

theorem drawsB_ok (hB : 0 < c.base.B) (d : StepDraws) (hd : DrawsOk c.base.K c.base.B 1 d) (x : SiteB → U) : DrawsOk c.base.K c.base.B 1 (drawsB G Bt c.base.K c.base.B d x) := by
  have h := draws_ok G c hB d hd fun σ => x (.other σ)
  exact ⟨h.mult, h.lam, h.dir, h.weight, h.erGamma, fun i j a => G.gam_pos a _, fun i j a => Bt.bet_mem a _, hd.netLabel, hd.netDir, h.unif, h.order⟩

/-- seeds of the in-range call sites -/
def seedsOfB (x : SiteB → U) : U × Seeds c U := (x .prob, seedsOf c fun σ => x (.other σ))

/-- **The parameters after one `resample_model` call are a function of the parameters before and the seeds of the in-range call sites.** -/
theorem sweepB_eq (h : CfgOkB c n) (huge : ℝ) (d : StepDraws) (hd : DrawsOk c.base.K c.base.B 1 d) (s : HawkesState) (hs : SameModelB c n s) (hy : HyperOk s) (hp : ParamsOk s)
    (x : SiteB → U) :
    ∃ s', resampleModelSS huge (drawsB G Bt c.base.K c.base.B d x) s = .ok s' ∧ SameModelB c n s' ∧ HyperOk s' ∧ ParamsOk s' ∧
      thetaB c.base.K s' = sweepStepB G Bt c n (thetaB c.base.K s) (seedsOfB c x) := by
  have hB := h.B
  have hD := h.data
  have hK : s.base.K = c.base.K := by rw [hs.base]
  have hBb : s.base.B = c.base.B := by rw [hs.base]
  have hdt : s.base.dt = c.base.dt := by rw [hs.base]
  have hDs : ∀ D ∈ s.data, DataOk s.base.K s.base.B D := by
    rw [hK, hBb]
    have : ∀ {l l' : List (DParents ℝ)}, List.Forall₂ (fun D D' : DParents ℝ => D'.T = D.T ∧ D'.S = D.S ∧ D'.F = D.F) l l' → (∀ D ∈ l, DataOk c.base.K c.base.B D) →
        ∀ D ∈ l', DataOk c.base.K c.base.B D := by
      intro l l' h
      induction h with
      | nil => exact fun _ _ h => nomatch h
      | cons h _ ih =>
        intro hl D hD
        rcases List.mem_cons.1 hD with rfl | hD
        · obtain ⟨h1, h2, h3⟩ := h
          have := hl _ List.mem_cons_self
          unfold DataOk at this ⊢
          rw [h1, h2, h3]; exact this
        · exact ih (fun D hD => hl D (List.mem_cons_of_mem _ hD)) D hD
    exact this hs.data hD
  obtain ⟨p0, v0, m0, hn0⟩ := hs.net
  have hblocks : blocks s.net = 1 := by rw [hn0]; exact h.one
  have hdo := drawsB_ok G Bt c hB d hd x
  set dx := drawsB G Bt c.base.K c.base.B d x with hdx
  obtain ⟨s', hr, hy', hp', -, -, -, -, -, -, -, -⟩ := C24_resample_keeps_valid huge dx s (by rw [hblocks, hK, hBb]; exact hdo) hy hp hDs
  set θ : Theta c.base.K := (thetaB c.base.K s).2 with hθ
  set y : Site → U := fun σ => x (.other σ) with hyy
  have hWe : ∀ i < s.params.K, ∀ j < s.params.K, 0 ≤ s.params.Weff i j := by
    intro i hi j hj
    change 0 ≤ s.A i j * s.W i j
    rcases hp.A i hi j hj with h | h <;> rw [h]
    · simp
    · rw [one_mul]; exact (hp.W i hi j hj).le
  obtain ⟨dl, hdl, hlen, hrows⟩ := dataList_eq s.params dx.useGsl hp.lam0 hWe (fun i hi j hj b hb => (hp.g i hi j hj).1 b hb) c.data s.data
    (fun D hD' => by change DataOk s.base.K s.base.B D; rw [hK, hBb]; exact hD D hD') hs.data dx.mult
  have hr' := hr
  unfold resampleModelSS at hr
  rw [hdl] at hr
  dsimp only at hr
  have hst := stats_ok (c := c) (fun i k r st ft => dx.mult i k r st (probVec s.params k ft)) hlen fun i => ⟨(hrows i).1, fun k hk =>
    (hrows i).2 k (by change k < s.base.K; rw [hK]; exact hk)⟩
  have hz : (fun ρ j => dx.mult ρ.2.1 ρ.1 ρ.2.2 (rowCount ρ) (probVec s.params ρ.1 (rowF ρ)) j : ZSp c) =
      zOf G c θ.1 θ.2.2.1 θ.2.2.2.1 θ.2.2.2.2 (seedsOf c y).1 := by
    funext ρ j
    unfold zOf
    change G.mult (1 + c.base.K * c.base.B) (rowCount ρ) (arr (1 + c.base.K * c.base.B) _) _ _ = _
    have := probVec_congr (P := rateParams c.base θ.1 θ.2.2.1 θ.2.2.2.1 θ.2.2.2.2) (P' := s.params)
      (k := ρ.1) hK hBb ρ.1.2 (fun k hk => by rw [rate_lam (K := c.base.K) _ _ _ _ _ hk]; rfl) (fun i hi j hj => by rw [rate_W (K := c.base.K) _ _ _ _ _ hi hj]; rfl)
      (fun i hi j hj b hb => by rw [rate_g (K := c.base.K) _ _ _ _ _ hi hj]; rfl) (rowF ρ)
    exact congrArg (fun p => G.mult (NPar c) (rowCount ρ) p (y (.parents ρ.2.1 ρ.1 ρ.2.2)) j) this
  rw [hz] at hst
  set z := zOf G c θ.1 θ.2.2.1 θ.2.2.2.1 θ.2.2.2.2 (seedsOf c y).1 with hzz
  have hs'eq := Except.ok.inj hr
  -- the network
  set q := pOf Bt n θ.1 (x .prob) with hq
  set v' := vOf G c (erOf n 0) (seedsOf c y).2.2.2.1 θ.2.1 θ.1 θ.2.2.1 with hv'
  have hnK : n.K = c.base.K := h.net.size
  have hlab : ∀ k < c.base.K, n.c k = 0 := fun k hk => by have := h.net.labels k hk; rw [h.one] at this; omega
  have hsum : ∀ f : ℕ → ℕ → ℝ, blockSum { n with p := p0, v := v0, m := m0 } 0 0 f = ∑ e : Pair c.base.K, f e.1 e.2 := by
    intro f
    unfold blockSum
    dsimp only
    rw [hnK, ← sum_pairs]
    refine sum_congr rfl fun i hi => sum_congr rfl fun j hj => ?_
    rw [if_pos ⟨hlab i (mem_range.1 hi), hlab j (mem_range.1 hj)⟩]
  obtain ⟨h0, h1, ha, hb, hk, -⟩ := h.net.hyper
  have hnet : ∃ p v m, (resampleNet huge dx (resampleImpulse dx (resampleBias dx { s with data := dl }))).net = .sbm { n with p := p, v := v, m := m } ∧ p 0 0 = q ∧ v 0 0 = v' := by
    set n0 : SBM := { n with p := p0, v := v0, m := m0 } with hn0'
    refine ⟨(sbmResampleP dx.net s.A n0).p, (sbmResampleV dx.net s.A s.W n0).v, dx.net.dirichlet (sbmMArgs n), ?_, ?_, ?_⟩
    · change s.net.resample huge dx.net dx.erGamma s.A s.W = _
      rw [hn0]
      change Net.sbm (sbmResample huge dx.net s.A s.W _) = _
      unfold sbmResample sbmResampleC
      rw [if_neg (by rw [h.learned]; simp)]
      unfold sbmResampleV sbmResampleP sbmResampleM
      dsimp only
      rw [if_pos h.one]
      rfl
    · unfold sbmResampleP
      dsimp only
      rw [if_pos ⟨by rw [h.one]; exact one_pos, by rw [h.one]; exact one_pos⟩]
      unfold sbmPArgs
      rw [hsum, hsum]
      rfl
    · unfold sbmResampleV
      dsimp only
      rw [if_pos ⟨by rw [h.one]; exact one_pos, by rw [h.one]; exact one_pos⟩]
      unfold sbmVArgs
      dsimp only
      rw [hv']
      unfold vOf erOf
      dsimp only
      rw [if_pos (by simp [truthy, ha.ne', hb.ne'])]
      change G.gam _ (y .scale) = G.gam _ (y .scale)
      congr 2
      · congr 2
        exact hsum _
      · congr 2
        exact hsum _
  obtain ⟨p1, v1, m1, hnet, hp1, hv1⟩ := hnet
  refine ⟨s', hr', ?_, hy', hp', ?_⟩
  · rw [← hs'eq]
    refine ⟨?_, hs.alpha, hs.beta, hs.gamma, ⟨p1, v1, m1, hnet⟩, hst.same⟩
    have := hs.base
    change ({ s.base with lam0 := _, g := _ } : NetParams ℝ) = _
    rw [this]
    rfl
  · -- the parameters
    set s3 := resampleNet huge dx (resampleImpulse dx (resampleBias dx { s with data := dl })) with hs3
    have hlam : (fun k : Fin c.base.K => s3.base.lam0 k) = lamOf G c z (seedsOf c y).2.1 := by
      funext k
      change G.gam (biasArgs s.alpha s.beta s.base.dt dl k) (y (.lam k)) = G.gam _ (y (.lam k))
      congr 1
      unfold biasArgs
      dsimp only
      rw [hs.alpha, hs.beta, hdt, hst.bkgd0 k, hst.bkgd1]
    have hg : (fun e : Pair c.base.K => s3.base.g e.1 e.2) = gOf G c z (seedsOf c y).2.2.1 := by
      funext e
      change G.dir c.base.B (arr c.base.B (impulseArgs s.base.B s.gamma dl e.1 e.2)) (y (.dir e.1 e.2)) = G.dir _ _ (y (.dir e.1 e.2))
      congr 1
      funext b
      unfold arr
      split_ifs with hb
      · unfold impulseArgs
        rw [hs.gamma, hBb, hst.ir e b hb]
      · rfl
    have hW : (fun e : Pair c.base.K => (resampleWSS dx s3).W e.1 e.2) = wOf G c (erOf n 0) z v' θ.1 (seedsOf c y).2.2.2.2.1 := by
      funext e
      change G.gam (weightArgs s.base.B s3.net.kappa s3.net.V s.A dl e.1 e.2) (y (.weight e.1 e.2)) = G.gam _ (y (.weight e.1 e.2))
      congr 1
      unfold weightArgs
      dsimp only
      rw [hnet, hBb, hst.w0 e, hst.w1]
      have hV : SBM.V { n with p := p1, v := v1, m := m1 } e.1 e.2 = v' := by
        unfold SBM.V
        dsimp only
        rw [hlab e.1 e.1.2, hlab e.2 e.2.2, hv1]
      simp only [Net.kappa, Net.V, hV]
      rfl
    have hAeq : (fun e : Pair c.base.K => (resampleASS dx (resampleWSS dx s3)).A e.1 e.2) =
        edgeSweep G c (erOf n q) (wOf G c (erOf n 0) z v' θ.1 (seedsOf c y).2.2.2.2.1) (lamOf G c z (seedsOf c y).2.1) (gOf G c z (seedsOf c y).2.2.1) (seedsOf c y).2.2.2.2.2
          (pairList c.base.K) θ.1 := by
      have hnOk : NetOk s.base.K s3.net := by
        have := (C24_network_stays_valid (K := s.base.K) (B := s.base.B) huge (d := dx) (by rw [hblocks, hK, hBb]; exact hdo) hp.A hp.W hp.net).1
        exact this
      have hp01 : ∀ i < s3.base.K, ∀ j < s3.base.K, 0 ≤ s3.net.P i j ∧ s3.net.P i j ≤ 1 := netP_mem hnOk
      have hu : ∀ i < s3.base.K, ∀ j < s3.base.K, 0 ≤ dx.u i j ∧ dx.u i j < 1 := fun i _ j _ => hdo.unif i j
      have hord : dx.order.Perm (List.range s3.base.K) := by
        change _ = _ at hK
        have : s3.base.K = c.base.K := hK
        rw [this]; exact hdo.order
      set s4 := resampleWSS dx s3 with hs4
      have hser : ∀ i < c.base.K, ∀ j < c.base.K, (resampleASS dx s4).A i j = gibbsSweep s4.base.K s4.net.P dx.u (dataLik s4.base s4.W s4.data) s4.A i j := by
        intro i hi j hj
        have hsw := C19_sweep_is_gibbs s4.base s4.W s4.net.P dx.u s4.data s4.A hp01 hu
        rw [← hsw]
        change (if dx.parallel then parallelSweep s4.base s4.W s4.net.P dx.u s4.data dx.order s4.A else serialSweep s4.base s4.W s4.net.P dx.u s4.data s4.A) i j = _
        cases dx.parallel with
        | true =>
          rw [if_pos rfl]
          exact C20_parallel_eq_serial s4.base s4.W s4.net.P dx.u s4.data s4.A dx.order hord hp01 hu i (by change i < s.base.K; rw [hK]; exact hi) j (by change j < s.base.K; rw [hK]; exact hj)
        | false => rfl
      have e1 : (fun e : Pair c.base.K => (resampleASS dx s4).A e.1 e.2) = resM c.base.K (gibbsSweep c.base.K s4.net.P dx.u (dataLik s4.base s4.W s4.data) s4.A) := by
        funext e
        rw [hser e.1 e.1.2 e.2 e.2.2]
        have : s4.base.K = c.base.K := hK
        rw [this]
        rfl
      rw [e1, resM_gibbsSweep s4.net.P dx.u (dataLik s4.base s4.W s4.data) (fun A => likR c A (wOf G c (erOf n 0) z v' θ.1 (seedsOf c y).2.2.2.2.1)
        (lamOf G c z (seedsOf c y).2.1) (gOf G c z (seedsOf c y).2.2.1))]
      · have hP : ∀ e : Pair c.base.K, s4.net.P e.1 e.2 = q := by
          intro e
          change s3.net.P e.1 e.2 = _
          rw [hnet]
          change SBM.P _ e.1 e.2 = _
          unfold SBM.P
          dsimp only
          rw [if_neg (by rw [h.self]; simp), hlab e.1 e.1.2, hlab e.2 e.2.2, hp1]
        unfold edgeSweep edgeStep
        simp only [hP, erOf_P]
        rfl
      · intro A
        unfold dataLik likR
        congr 1
        refine llModel_congr (P := rateParams c.base (resM c.base.K A) _ _ _) (P' := withA s4.base s4.W A) hK hBb hdt ?_ ?_ ?_ hst.same
        · intro k hk
          rw [rate_lam (K := c.base.K) _ _ _ _ _ hk]
          exact congrFun hlam ⟨k, hk⟩
        · intro i hi j hj
          rw [rate_W (K := c.base.K) _ _ _ _ _ hi hj, ← hW]
          rfl
        · intro i hi j hj b hb
          rw [rate_g (K := c.base.K) _ _ _ _ _ hi hj]
          exact congrFun (congrFun hg (⟨i, hi⟩, ⟨j, hj⟩)) b
    rw [← hs'eq]
    unfold sweepStepB edgesStep globalStep
    refine Prod.ext ?_ (Prod.ext hAeq (Prod.ext ?_ (Prod.ext hW (Prod.ext hlam hg))))
    · change netProb s3.net = q
      rw [hnet]; exact hp1
    · change netScaleB s3.net = v'
      rw [hnet]; exact hv1

end

end PyHawkes
