import Verif.Props.DiscErgodic
import Verif.Props.BlockSweep

/-!
# One discrete-time `resample_model` call with any kind of network, as a function of the parameters and the seeds (used for C96)
-/
set_option linter.unusedSectionVars false
set_option linter.unusedVariables false

namespace PyHawkes
open Finset Spec MeasureTheory

/-- `s` is a state of the model `c` (network apart) with valid parameters -/
structure ValidNet (c s : HawkesState) : Prop where
  base : s.base = { c.base with lam0 := s.base.lam0, g := s.base.g, Weff := s.base.Weff }
  alpha : s.alpha = c.alpha
  beta : s.beta = c.beta
  gamma : s.gamma = c.gamma
  data : List.Forall₂ (fun D D' : DParents ℝ => D'.T = D.T ∧ D'.S = D.S ∧ D'.F = D.F) c.data s.data
  hyper : HyperOk s
  params : ParamsOk s

section
variable {U : Type*} [MeasurableSpace U] {μ : Measure U} (G : Generator μ) {c : HawkesState}

/-- the draws outside the network use the seeds `x` -/
structure DrawsFromD (c : HawkesState) (d : StepDraws) (x : Site → U) : Prop where
  mult : ∀ i k r s p, d.mult i k r s p = G.mult (1 + c.base.K * c.base.B) s (arr (1 + c.base.K * c.base.B) p) (x (.parents i k r))
  lam : ∀ k a, d.lam k a = G.gam a (x (.lam k))
  dir : ∀ i j v, d.dir i j v = G.dir c.base.B (arr c.base.B v) (x (.dir i j))
  weight : ∀ i j a, d.weight i j a = G.gam a (x (.weight i j))
  u : ∀ i j, d.u i j = G.unif (x (.unif i j))

/-- the parameters outside the network after one call -/
theorem disc_sweep_net (hD : ∀ D ∈ c.data, DataOk c.base.K c.base.B D) (huge : ℝ) (dx : StepDraws) (s : HawkesState) (hv : ValidNet c s)
    (hdo : DrawsOk c.base.K c.base.B (blocks s.net) dx) (y : Site → U) (hx : DrawsFromD G c dx y) :
    ∃ s', resampleModelSS huge dx s = .ok s' ∧ ValidNet c s' ∧ s'.net = s.net.resample huge dx.net dx.erGamma s.A s.W ∧
      ∃ (φ : (Fin c.base.K → ℝ) × (Pair c.base.K → Vec ℝ)) (W : Pair c.base.K → ℝ),
        φ = (discSys G c).sφ ((discSys G c).z (fun e => s.A e.1 e.2) (fun e => s.W e.1 e.2) (fun k => s.base.lam0 k, fun e => s.base.g e.1 e.2) (seedsOf c y).1) ((seedsOf c y).2.1, (seedsOf c y).2.2.1) ∧
        W = (fun e => G.gam ⟨s'.net.kappa + (discSys G c).via ((discSys G c).z (fun e => s.A e.1 e.2) (fun e => s.W e.1 e.2) (fun k => s.base.lam0 k, fun e => s.base.g e.1 e.2) (seedsOf c y).1) e,
          1 / (s'.net.V e.1 e.2 + (discSys G c).ev e.1 * s.A e.1 e.2)⟩ (y (.weight e.1 e.2))) ∧
        ((fun k => s'.base.lam0 k, fun e => s'.base.g e.1 e.2) : (Fin c.base.K → ℝ) × (Pair c.base.K → Vec ℝ)) = φ ∧ (fun e : Pair c.base.K => s'.W e.1 e.2) = W ∧
        (fun e : Pair c.base.K => s'.A e.1 e.2) = sitesStep G (fun e : Pair c.base.K => s'.net.P e.1 e.2) (fun A => (discSys G c).L A W φ) (fun e => y (.unif e.1 e.2)) (pairList c.base.K) (fun e => s.A e.1 e.2) := by
  obtain ⟨hbase, hal, hbe, hga, hdata, hy, hp⟩ := hv
  have hK : s.base.K = c.base.K := by rw [hbase]
  have hBb : s.base.B = c.base.B := by rw [hbase]
  have hdt : s.base.dt = c.base.dt := by rw [hbase]
  have hDs : ∀ D ∈ s.data, DataOk s.base.K s.base.B D := by
    rw [hK, hBb]
    have : ∀ {l l' : List (DParents ℝ)}, List.Forall₂ (fun D D' : DParents ℝ => D'.T = D.T ∧ D'.S = D.S ∧ D'.F = D.F) l l' → (∀ D ∈ l, DataOk c.base.K c.base.B D) →
        ∀ D ∈ l', DataOk c.base.K c.base.B D := by
      intro l l' h
      induction h with
      | nil => exact fun _ _ h => nomatch h
      | cons h _ ih =>
        intro hl D hD
        rcases List.mem_cons.1 hD with rfl | hD
        · obtain ⟨h1, h2, h3⟩ := h
          have := hl _ List.mem_cons_self
          unfold DataOk at this ⊢
          rw [h1, h2, h3]; exact this
        · exact ih (fun D hD => hl D (List.mem_cons_of_mem _ hD)) D hD
    exact this hdata hD
  obtain ⟨s', hr, hy', hp', -, -, -, -, -, -, -, -⟩ := C24_resample_keeps_valid huge dx s (by rw [hK, hBb]; exact hdo) hy hp hDs
  have hWe : ∀ i < s.params.K, ∀ j < s.params.K, 0 ≤ s.params.Weff i j := by
    intro i hi j hj
    change 0 ≤ s.A i j * s.W i j
    rcases hp.A i hi j hj with h | h <;> rw [h]
    · simp
    · rw [one_mul]; exact (hp.W i hi j hj).le
  obtain ⟨dl, hdl, hlen, hrows⟩ := dataList_eq s.params dx.useGsl hp.lam0 hWe (fun i hi j hj b hb => (hp.g i hi j hj).1 b hb) c.data s.data
    (fun D hD' => by change DataOk s.base.K s.base.B D; rw [hK, hBb]; exact hD D hD') hdata dx.mult
  have hr' := hr
  unfold resampleModelSS at hr
  rw [hdl] at hr
  dsimp only at hr
  have hst := stats_ok (c := c) (fun i k r st ft => dx.mult i k r st (probVec s.params k ft)) hlen fun i => ⟨(hrows i).1, fun k hk =>
    (hrows i).2 k (by change k < s.base.K; rw [hK]; exact hk)⟩
  set A0 : Pair c.base.K → ℝ := fun e => s.A e.1 e.2 with hA0
  set W0 : Pair c.base.K → ℝ := fun e => s.W e.1 e.2 with hW0
  set l0 : Fin c.base.K → ℝ := fun k => s.base.lam0 k with hl0
  set g0 : Pair c.base.K → Vec ℝ := fun e => s.base.g e.1 e.2 with hg0
  have hz : (fun ρ j => dx.mult ρ.2.1 ρ.1 ρ.2.2 (rowCount ρ) (probVec s.params ρ.1 (rowF ρ)) j : ZSp c) = zOf G c A0 W0 l0 g0 (seedsOf c y).1 := by
    funext ρ j
    unfold zOf
    rw [hx.mult]
    have := probVec_congr (P := rateParams c.base A0 W0 l0 g0) (P' := s.params)
      (k := ρ.1) hK hBb ρ.1.2 (fun k hk => by rw [rate_lam (K := c.base.K) _ _ _ _ _ hk]; rfl) (fun i hi j hj => by rw [rate_W (K := c.base.K) _ _ _ _ _ hi hj]; rfl)
      (fun i hi j hj b hb => by rw [rate_g (K := c.base.K) _ _ _ _ _ hi hj]; rfl) (rowF ρ)
    exact congrArg (fun p => G.mult (NPar c) (rowCount ρ) p (y (.parents ρ.2.1 ρ.1 ρ.2.2)) j) this
  rw [hz] at hst
  set z := zOf G c A0 W0 l0 g0 (seedsOf c y).1 with hzz
  have hs'eq := Except.ok.inj hr
  set s3 := resampleNet huge dx (resampleImpulse dx (resampleBias dx { s with data := dl })) with hs3
  have hs'net : s'.net = s3.net := by rw [← hs'eq]; rfl
  refine ⟨s', hr', ?_, by rw [hs'net]; rfl, (lamOf G c z (seedsOf c y).2.1, gOf G c z (seedsOf c y).2.2.1), _, rfl, rfl, ?_⟩
  · refine ⟨?_, ?_, ?_, ?_, ?_, hy', hp'⟩
    · rw [← hs'eq]
      have : ∀ l w g, ({ s.base with lam0 := l, Weff := w, g := g } : NetParams ℝ) = { c.base with lam0 := l, Weff := w, g := g } := fun l w g => by rw [hbase]
      exact this _ _ _
    · rw [← hs'eq]; exact hal
    · rw [← hs'eq]; exact hbe
    · rw [← hs'eq]; exact hga
    · rw [← hs'eq]; exact hst.same
  have hlam : (fun k : Fin c.base.K => s3.base.lam0 k) = lamOf G c z (seedsOf c y).2.1 := by
    funext k
    change dx.lam k (biasArgs s.alpha s.beta s.base.dt dl k) = G.gam _ (y (.lam k))
    rw [hx.lam]
    congr 1
    unfold biasArgs
    dsimp only
    rw [hal, hbe, hdt, hst.bkgd0 k, hst.bkgd1]
  have hg : (fun e : Pair c.base.K => s3.base.g e.1 e.2) = gOf G c z (seedsOf c y).2.2.1 := by
    funext e
    change dx.dir e.1 e.2 (impulseArgs s.base.B s.gamma dl e.1 e.2) = G.dir _ _ (y (.dir e.1 e.2))
    rw [hx.dir]
    congr 1
    funext b
    unfold arr
    split_ifs with hb
    · unfold impulseArgs
      rw [hga, hBb, hst.ir e b hb]
    · rfl
  set W1 : Pair c.base.K → ℝ := fun e => G.gam ⟨s'.net.kappa + via z e, 1 / (s'.net.V e.1 e.2 + evTotal c e.1 * s.A e.1 e.2)⟩ (y (.weight e.1 e.2)) with hW1
  have hW : (fun e : Pair c.base.K => (resampleWSS dx s3).W e.1 e.2) = W1 := by
    funext e
    change dx.weight e.1 e.2 (weightArgs s.base.B s3.net.kappa s3.net.V s.A dl e.1 e.2) = G.gam _ (y (.weight e.1 e.2))
    rw [hx.weight]
    congr 1
    unfold weightArgs
    dsimp only
    rw [hBb, hst.w0 e, hst.w1, hs'net]
  set s4 := resampleWSS dx s3 with hs4
  have hAeq : (fun e : Pair c.base.K => (resampleASS dx s4).A e.1 e.2) =
      sitesStep G (fun e : Pair c.base.K => s'.net.P e.1 e.2) (fun A => likR c A W1 (lamOf G c z (seedsOf c y).2.1) (gOf G c z (seedsOf c y).2.2.1)) (fun e => y (.unif e.1 e.2)) (pairList c.base.K) A0 := by
    have hnOk : NetOk s.base.K s3.net := by
      have := (C24_network_stays_valid (K := s.base.K) (B := s.base.B) huge (d := dx) (by rw [hK, hBb]; exact hdo) hp.A hp.W hp.net).1
      exact this
    have hp01 : ∀ i < s3.base.K, ∀ j < s3.base.K, 0 ≤ s3.net.P i j ∧ s3.net.P i j ≤ 1 := netP_mem hnOk
    have hu : ∀ i < s3.base.K, ∀ j < s3.base.K, 0 ≤ dx.u i j ∧ dx.u i j < 1 := fun i _ j _ => hdo.unif i j
    have hord : dx.order.Perm (List.range s3.base.K) := by
      have : s3.base.K = c.base.K := hK
      rw [this]; exact hdo.order
    have hser : ∀ i < c.base.K, ∀ j < c.base.K, (resampleASS dx s4).A i j = gibbsSweep s4.base.K s4.net.P dx.u (dataLik s4.base s4.W s4.data) s4.A i j := by
      intro i hi j hj
      have hsw := C19_sweep_is_gibbs s4.base s4.W s4.net.P dx.u s4.data s4.A hp01 hu
      rw [← hsw]
      change (if dx.parallel then parallelSweep s4.base s4.W s4.net.P dx.u s4.data dx.order s4.A else serialSweep s4.base s4.W s4.net.P dx.u s4.data s4.A) i j = _
      cases dx.parallel with
      | true =>
        rw [if_pos rfl]
        exact C20_parallel_eq_serial s4.base s4.W s4.net.P dx.u s4.data s4.A dx.order hord hp01 hu i (by change i < s.base.K; rw [hK]; exact hi) j (by change j < s.base.K; rw [hK]; exact hj)
      | false => rfl
    have e1 : (fun e : Pair c.base.K => (resampleASS dx s4).A e.1 e.2) = resM c.base.K (gibbsSweep c.base.K s4.net.P dx.u (dataLik s4.base s4.W s4.data) s4.A) := by
      funext e
      rw [hser e.1 e.1.2 e.2 e.2.2]
      have : s4.base.K = c.base.K := hK
      rw [this]
      rfl
    rw [e1, resM_gibbsSweep s4.net.P dx.u (dataLik s4.base s4.W s4.data) (fun A => likR c A W1 (lamOf G c z (seedsOf c y).2.1) (gOf G c z (seedsOf c y).2.2.1))]
    · have hP : ∀ i j, s4.net.P i j = s'.net.P i j := fun i j => by rw [hs'net]; rfl
      unfold sitesStep
      simp only [hP, hx.u]
      rfl
    · intro A
      unfold dataLik likR
      congr 1
      refine llModel_congr (P := rateParams c.base (resM c.base.K A) _ _ _) (P' := withA s4.base s4.W A) hK hBb hdt ?_ ?_ ?_ hst.same
      · intro k hk
        rw [rate_lam (K := c.base.K) _ _ _ _ _ hk]
        exact congrFun hlam ⟨k, hk⟩
      · intro i hi j hj
        rw [rate_W (K := c.base.K) _ _ _ _ _ hi hj, ← hW]
        rfl
      · intro i hi j hj b hb
        rw [rate_g (K := c.base.K) _ _ _ _ _ hi hj]
        exact congrFun (congrFun hg (⟨i, hi⟩, ⟨j, hj⟩)) b
  refine ⟨?_, ?_, ?_⟩
  · rw [← hs'eq]; exact Prod.ext hlam hg
  · change _ = W1
    rw [← hW]
    funext e
    rw [← hs'eq]
    rfl
  · refine Eq.trans ?_ hAeq
    funext e
    rw [← hs'eq]

end

end PyHawkes
