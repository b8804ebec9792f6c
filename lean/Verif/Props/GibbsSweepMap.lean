import Verif.Props.GibbsRows

/-!
# One `resample_model` call as a function of the parameters and the seeds (used for C83)
-/
set_option linter.unusedSectionVars false
set_option linter.unusedVariables false

namespace PyHawkes
open Finset Spec MeasureTheory

section
variable {U : Type*} [MeasurableSpace U] {μ : Measure U} (G : Generator μ) (c : HawkesState) (n : ERFixed)

/-- the sampled parents -/
noncomputable def zOf (A W : Pair c.base.K → ℝ) (lam : Fin c.base.K → ℝ) (g : Pair c.base.K → Vec ℝ) (x : Row c → U) : ZSp c := fun ρ j =>
  G.mult (NPar c) (rowCount ρ) (arr (NPar c) (probVec (rateParams c.base A W lam g) ρ.1 (rowF ρ))) (x ρ) j

/-- the new background rates -/
noncomputable def lamOf (z : ZSp c) (x : Fin c.base.K → U) : Fin c.base.K → ℝ := fun k => G.gam ⟨c.alpha + bkgd z k, 1 / (c.beta + timeTotal c)⟩ (x k)

/-- the new impulse weights -/
noncomputable def gOf (z : ZSp c) (x : Pair c.base.K → U) : Pair c.base.K → Vec ℝ := fun e => G.dir c.base.B (arr c.base.B fun b => c.gamma b + viaB z e b) (x e)

/-- the new weight scale -/
noncomputable def vOf (x : U) (v : ℝ) (A W : Pair c.base.K → ℝ) : ℝ :=
  match n.alpha, n.beta with
  | some a, some b => if truthy (some a) && truthy (some b) then G.gam ⟨a + (∑ e, A e) * n.kappa, 1 / (b + ∑ e, if 0 < A e then W e else 0)⟩ x else v
  | _, _ => v

/-- the new weights -/
noncomputable def wOf (z : ZSp c) (v : ℝ) (A : Pair c.base.K → ℝ) (x : Pair c.base.K → U) : Pair c.base.K → ℝ := fun e =>
  G.gam ⟨n.kappa + via z e, 1 / (v + evTotal c e.1 * A e)⟩ (x e)

/-- the likelihood as a real number -/
noncomputable def likR (A W : Pair c.base.K → ℝ) (lam : Fin c.base.K → ℝ) (g : Pair c.base.K → Vec ℝ) : ℝ := Real.exp (llModel (rateParams c.base A W lam g) c.data)

/-- the new value of one adjacency entry -/
noncomputable def edgeStep (W : Pair c.base.K → ℝ) (lam : Fin c.base.K → ℝ) (g : Pair c.base.K → Vec ℝ) (e : Pair c.base.K) (u : U) (A : Pair c.base.K → ℝ) : Pair c.base.K → ℝ :=
  Function.update A e (if G.unif u < bernPost (n.P e.1 e.2) (likR c (Function.update A e 0) W lam g) (likR c (Function.update A e 1) W lam g) then 1 else 0)

/-- all pairs in the order of the double loop -/
def pairList (K : ℕ) : List (Pair K) := (List.finRange K).flatMap fun i => (List.finRange K).map fun j => (i, j)

/-- the adjacency entries in `l` updated in order -/
noncomputable def edgeSweep (W : Pair c.base.K → ℝ) (lam : Fin c.base.K → ℝ) (g : Pair c.base.K → Vec ℝ) (x : Pair c.base.K → U) (l : List (Pair c.base.K)) (A : Pair c.base.K → ℝ) :
    Pair c.base.K → ℝ := l.foldl (fun A e => edgeStep G c n W lam g e (x e) A) A

/-- seeds of the in-range call sites -/
abbrev Seeds (c : HawkesState) (U : Type*) := (Row c → U) × (Fin c.base.K → U) × (Pair c.base.K → U) × U × (Pair c.base.K → U) × (Pair c.base.K → U)

/-- the seeds of the in-range call sites -/
def seedsOf (x : Site → U) : Seeds c U :=
  (fun ρ => x (.parents ρ.2.1 ρ.1 ρ.2.2), fun k => x (.lam k), fun e => x (.dir e.1 e.2), x .scale, fun e => x (.weight e.1 e.2), fun e => x (.unif e.1 e.2))

/-- everything except the adjacency update -/
noncomputable def globalStep (θ : Theta c.base.K) (x : Seeds c U) : Theta c.base.K :=
  let z := zOf G c θ.1 θ.2.2.1 θ.2.2.2.1 θ.2.2.2.2 x.1
  let v := vOf G c n x.2.2.2.1 θ.2.1 θ.1 θ.2.2.1
  (θ.1, v, wOf G c n z v θ.1 x.2.2.2.2.1, lamOf G c z x.2.1, gOf G c z x.2.2.1)

/-- the adjacency update -/
noncomputable def edgesStep (θ : Theta c.base.K) (x : Pair c.base.K → U) : Theta c.base.K :=
  (edgeSweep G c n θ.2.2.1 θ.2.2.2.1 θ.2.2.2.2 x (pairList c.base.K) θ.1, θ.2)

end

/-! ### the likelihood depends on the observed data and the in-range parameters only -/

theorem sameData {D D' : DParents ℝ} (h : D'.T = D.T ∧ D'.S = D.S ∧ D'.F = D.F) : (∀ k, D'.Ss k = D.Ss k) ∧ (∀ k, D'.Fs k = D.Fs k) ∧ ∀ k, D'.Ns k = D.Ns k := by
  obtain ⟨hT, hS, hF⟩ := h
  have ht : ∀ k, D'.ts k = D.ts k := fun k => by unfold DParents.ts; rw [hT, hS]
  exact ⟨fun k => by unfold DParents.Ss; rw [ht, hS], fun k => by unfold DParents.Fs; rw [ht, hF], fun k => by unfold DParents.Ns; rw [ht, hS]⟩

theorem llSingle_congr {P P' : NetParams ℝ} {D D' : DParents ℝ} (hK : P'.K = P.K) (hB : P'.B = P.B) (hdt : P'.dt = P.dt) (hlam : ∀ k < P.K, P'.lam0 k = P.lam0 k)
    (hW : ∀ i < P.K, ∀ j < P.K, P'.Weff i j = P.Weff i j) (hg : ∀ i < P.K, ∀ j < P.K, ∀ b < P.B, P'.g i j b = P.g i j b)
    (hD : D'.T = D.T ∧ D'.S = D.S ∧ D'.F = D.F) {k : ℕ} (hk : k < P.K) : llSingle P' D' k = llSingle P D k := by
  obtain ⟨h1, h2, h3⟩ := sameData hD
  unfold llSingle
  dsimp only
  rw [hK, hB, hdt, hlam k hk, hD.1, h1, h2]
  congr 1
  · congr 2
    refine sum_congr rfl fun i hi => ?_
    rw [hW i (mem_range.1 hi) k hk, h3]
  · congr 1
    refine List.map_congr_left fun p _ => ?_
    congr 2
    congr 1
    refine sum_congr rfl fun i hi => sum_congr rfl fun b hb => ?_
    rw [hW i (mem_range.1 hi) k hk, hg i (mem_range.1 hi) k hk b (mem_range.1 hb)]

theorem llModel_congr {P P' : NetParams ℝ} {dl dl' : List (DParents ℝ)} (hK : P'.K = P.K) (hB : P'.B = P.B) (hdt : P'.dt = P.dt) (hlam : ∀ k < P.K, P'.lam0 k = P.lam0 k)
    (hW : ∀ i < P.K, ∀ j < P.K, P'.Weff i j = P.Weff i j) (hg : ∀ i < P.K, ∀ j < P.K, ∀ b < P.B, P'.g i j b = P.g i j b)
    (hD : List.Forall₂ (fun D D' : DParents ℝ => D'.T = D.T ∧ D'.S = D.S ∧ D'.F = D.F) dl dl') : llModel P' dl' = llModel P dl := by
  rw [C08_model_sum, C08_model_sum]
  induction hD with
  | nil => rfl
  | cons h _ ih =>
    rw [List.map_cons, List.map_cons, List.sum_cons, List.sum_cons, ih]
    congr 1
    unfold llData
    rw [forRange_add, forRange_add, hK]
    congr 1
    exact sum_congr rfl fun k hk => llSingle_congr hK hB hdt hlam hW hg h (mem_range.1 hk)

theorem parentWeights_congr {P P' : NetParams ℝ} (hB : P'.B = P.B) {k : ℕ} (hk : k < P.K) (hlam : ∀ k < P.K, P'.lam0 k = P.lam0 k)
    (hW : ∀ i < P.K, ∀ j < P.K, P'.Weff i j = P.Weff i j) (hg : ∀ i < P.K, ∀ j < P.K, ∀ b < P.B, P'.g i j b = P.g i j b) (ft : Mat ℝ) {j : ℕ} (hj : j < 1 + P.K * P.B) :
    parentWeightsPy P' k ft j = parentWeightsPy P k ft j := by
  unfold parentWeightsPy
  cases j with
  | zero => exact hlam k hk
  | succ j =>
    simp only [consVec, ravel]
    have hj' : j < P.K * P.B := by omega
    have hB0 : 0 < P.B := Nat.pos_of_ne_zero fun h => by rw [h, mul_zero] at hj'; omega
    have h1 : j / P.B < P.K := Nat.div_lt_of_lt_mul (by rw [mul_comm]; exact hj')
    rw [hB, hW _ h1 k hk, hg _ h1 k hk _ (Nat.mod_lt _ hB0)]

theorem probVec_congr {P P' : NetParams ℝ} (hK : P'.K = P.K) (hB : P'.B = P.B) {k : ℕ} (hk : k < P.K) (hlam : ∀ k < P.K, P'.lam0 k = P.lam0 k)
    (hW : ∀ i < P.K, ∀ j < P.K, P'.Weff i j = P.Weff i j) (hg : ∀ i < P.K, ∀ j < P.K, ∀ b < P.B, P'.g i j b = P.g i j b) (ft : Mat ℝ) :
    arr (1 + P.K * P.B) (probVec P' k ft) = arr (1 + P.K * P.B) (probVec P k ft) := by
  funext j
  unfold arr
  split_ifs with hj
  · unfold probVec
    rw [parentWeights_congr hB hk hlam hW hg ft hj, hK, hB]
    congr 1
    exact sum_congr rfl fun i hi => parentWeights_congr hB hk hlam hW hg ft (mem_range.1 hi)
  · rfl

section
variable {K : ℕ} (P : NetParams ℝ) (A W : Pair K → ℝ) (lam : Fin K → ℝ) (g : Pair K → Vec ℝ)

theorem rate_lam {k : ℕ} (hk : k < K) : (rateParams P A W lam g).lam0 k = lam ⟨k, hk⟩ := dif_pos hk

theorem rate_W {i j : ℕ} (hi : i < K) (hj : j < K) : (rateParams P A W lam g).Weff i j = A (⟨i, hi⟩, ⟨j, hj⟩) * W (⟨i, hi⟩, ⟨j, hj⟩) :=
  dif_pos (show i < K ∧ j < K from ⟨hi, hj⟩)

theorem rate_g {i j : ℕ} (hi : i < K) (hj : j < K) : (rateParams P A W lam g).g i j = g (⟨i, hi⟩, ⟨j, hj⟩) :=
  dif_pos (show i < K ∧ j < K from ⟨hi, hj⟩)

end

/-! ### loops over pairs -/

/-- restriction of a matrix to the pairs of processes -/
def resM (K : ℕ) (A : Mat ℝ) : Pair K → ℝ := fun e => A e.1 e.2

theorem resM_set {K : ℕ} (A : Mat ℝ) (i j : Fin K) (x : ℝ) : resM K (Mat.set A i j x) = Function.update (resM K A) (i, j) x := by
  funext e
  unfold resM Mat.set
  by_cases h : e = (i, j)
  · subst h; simp
  · rw [Function.update_of_ne h]
    rw [if_neg]
    rintro ⟨h1, h2⟩
    exact h (Prod.ext (Fin.ext h1) (Fin.ext h2))

theorem forRange_finRange {σ : Type*} (n : ℕ) (f : ℕ → σ → σ) (s : σ) : forRange n f s = (List.finRange n).foldl (fun s (i : Fin n) => f i s) s := by
  unfold forRange
  rw [← List.map_coe_finRange_eq_range, List.foldl_map]

theorem foldl_sim {α σ τ : Type*} (r : σ → τ) (f : σ → α → σ) (g : τ → α → τ) (h : ∀ s a, r (f s a) = g (r s) a) (l : List α) (s : σ) :
    r (l.foldl f s) = l.foldl g (r s) := by
  induction l generalizing s with
  | nil => rfl
  | cons a l ih => rw [List.foldl_cons, List.foldl_cons, ih, h]

/-- the double loop, restricted to the in-range entries, is a loop over the pairs -/
theorem resM_gibbsSweep {K : ℕ} (p u : Mat ℝ) (lik : Mat ℝ → ℝ) (L : (Pair K → ℝ) → ℝ) (hL : ∀ A, lik A = L (resM K A)) (A : Mat ℝ) :
    resM K (gibbsSweep K p u lik A) = (pairList K).foldl (fun A e => Function.update A e
      (if u e.1 e.2 < bernPost (p e.1 e.2) (L (Function.update A e 0)) (L (Function.update A e 1)) then 1 else 0)) (resM K A) := by
  unfold gibbsSweep pairList
  rw [forRange_finRange, List.foldl_flatMap]
  refine foldl_sim (resM K) _ _ (fun s i => ?_) _ _
  rw [forRange_finRange, List.foldl_map]
  refine foldl_sim (resM K) _ _ (fun s j => ?_) _ _
  unfold gibbsEdge
  rw [resM_set, hL, hL, resM_set, resM_set]

theorem sum_pairs {M : Type*} [AddCommMonoid M] (K : ℕ) (f : ℕ → ℕ → M) : ∑ i ∈ range K, ∑ j ∈ range K, f i j = ∑ e : Pair K, f e.1 e.2 := by
  rw [Fintype.sum_prod_type, ← Fin.sum_univ_eq_sum_range]
  exact sum_congr rfl fun i _ => (Fin.sum_univ_eq_sum_range _ K).symm

theorem mem_pairList {K : ℕ} (e : Pair K) : e ∈ pairList K := by
  unfold pairList
  rw [List.mem_flatMap]
  exact ⟨e.1, List.mem_finRange _, List.mem_map.2 ⟨e.2, List.mem_finRange _, rfl⟩⟩

theorem nodup_pairList (K : ℕ) : (pairList K).Nodup := by
  unfold pairList
  rw [List.nodup_flatMap]
  refine ⟨fun i _ => (List.nodup_finRange K).map fun a b h => (Prod.mk.inj h).2, ?_⟩
  refine (List.nodup_finRange K).imp fun {i j} hij => ?_
  intro e h1 h2
  obtain ⟨a, -, rfl⟩ := List.mem_map.1 h1
  obtain ⟨b, -, h⟩ := List.mem_map.1 h2
  exact hij (Prod.mk.inj h).1.symm

/-! ### the whole call -/

section
variable {U : Type*} [MeasurableSpace U] {μ : Measure U} (G : Generator μ) (c : HawkesState) (n : ERFixed)

theorem draws_ok (hB : 0 < c.base.B) (d : StepDraws) (hd : DrawsOk c.base.K c.base.B 1 d) (x : Site → U) : DrawsOk c.base.K c.base.B 1 (G.draws c.base.K c.base.B d x) where
  mult := fun i k j s p hp => by
    have harr : ∀ j < 1 + c.base.K * c.base.B, arr (1 + c.base.K * c.base.B) p j = p j := fun j hj => if_pos hj
    have hp' : IsProb (1 + c.base.K * c.base.B) (arr (1 + c.base.K * c.base.B) p) :=
      ⟨fun c hc => by rw [harr c hc]; exact hp.1 c hc, by rw [sum_congr rfl fun j hj => harr j (mem_range.1 hj)]; exact hp.2⟩
    obtain ⟨h1, h2⟩ := G.mult_ok (1 + c.base.K * c.base.B) (x (.parents i k j)) s _ hp'
    exact ⟨h1, fun a ha h0 => h2 a ha (by rw [harr a ha]; exact h0)⟩
  lam := fun k a => G.gam_pos a _
  dir := fun i j v hv => G.dir_prob _ _ _ hB fun b hb => by unfold arr; rw [if_pos hb]; exact hv b hb
  weight := fun i j a => G.gam_pos a _
  erGamma := fun a => G.gam_pos a _
  netGamma := hd.netGamma
  netBeta := hd.netBeta
  netLabel := hd.netLabel
  netDir := hd.netDir
  unif := fun i j => G.unif_mem _
  order := hd.order

/-- **The parameters after one `resample_model` call are a function of the parameters before and the seeds of the in-range call sites.** -/
theorem sweep_eq (huge : ℝ) (d : StepDraws) (hd : DrawsOk c.base.K c.base.B 1 d) (hB : 0 < c.base.B) (s : HawkesState) (hs : SameModel c n s) (hy : HyperOk s) (hp : ParamsOk s)
    (hD : ∀ D ∈ c.data, DataOk c.base.K c.base.B D) (x : Site → U) :
    ∃ s', resampleModelSS huge (G.draws c.base.K c.base.B d x) s = .ok s' ∧ SameModel c n s' ∧ HyperOk s' ∧ ParamsOk s' ∧
      theta c.base.K s' = edgesStep G c n (globalStep G c n (theta c.base.K s) (seedsOf c x)) (seedsOf c x).2.2.2.2.2 := by
  have hK : s.base.K = c.base.K := by rw [hs.base]
  have hBb : s.base.B = c.base.B := by rw [hs.base]
  have hdt : s.base.dt = c.base.dt := by rw [hs.base]
  have hDs : ∀ D ∈ s.data, DataOk s.base.K s.base.B D := by
    rw [hK, hBb]
    have : ∀ {l l' : List (DParents ℝ)}, List.Forall₂ (fun D D' : DParents ℝ => D'.T = D.T ∧ D'.S = D.S ∧ D'.F = D.F) l l' → (∀ D ∈ l, DataOk c.base.K c.base.B D) →
        ∀ D ∈ l', DataOk c.base.K c.base.B D := by
      intro l l' h
      induction h with
      | nil => exact fun _ _ h => nomatch h
      | cons h _ ih =>
        intro hl D hD
        rcases List.mem_cons.1 hD with rfl | hD
        · obtain ⟨h1, h2, h3⟩ := h
          have := hl _ List.mem_cons_self
          unfold DataOk at this ⊢
          rw [h1, h2, h3]; exact this
        · exact ih (fun D hD => hl D (List.mem_cons_of_mem _ hD)) D hD
    exact this hs.data hD
  have hblocks : blocks s.net = 1 := by rw [hs.net]; rfl
  have hdo := draws_ok G c hB d hd x
  set dx := G.draws c.base.K c.base.B d x with hdx
  obtain ⟨s', hr, hy', hp', -, -, -, -, -, -, -, -⟩ := C24_resample_keeps_valid huge dx s (by rw [hblocks, hK, hBb]; exact hdo) hy hp hDs
  have hWe : ∀ i < s.params.K, ∀ j < s.params.K, 0 ≤ s.params.Weff i j := by
    intro i hi j hj
    change 0 ≤ s.A i j * s.W i j
    rcases hp.A i hi j hj with h | h <;> rw [h]
    · simp
    · rw [one_mul]; exact (hp.W i hi j hj).le
  obtain ⟨dl, hdl, hlen, hrows⟩ := dataList_eq s.params dx.useGsl hp.lam0 hWe (fun i hi j hj b hb => (hp.g i hi j hj).1 b hb) c.data s.data
    (fun D hD' => by change DataOk s.base.K s.base.B D; rw [hK, hBb]; exact hD D hD') hs.data dx.mult
  have hr' := hr
  unfold resampleModelSS at hr
  rw [hdl] at hr
  dsimp only at hr
  have hst := stats_ok (c := c) (fun i k r st ft => dx.mult i k r st (probVec s.params k ft)) hlen fun i => ⟨(hrows i).1, fun k hk =>
    (hrows i).2 k (by change k < s.base.K; rw [hK]; exact hk)⟩
  have hz : (fun ρ j => dx.mult ρ.2.1 ρ.1 ρ.2.2 (rowCount ρ) (probVec s.params ρ.1 (rowF ρ)) j : ZSp c) =
      zOf G c (theta c.base.K s).1 (theta c.base.K s).2.2.1 (theta c.base.K s).2.2.2.1 (theta c.base.K s).2.2.2.2 (seedsOf c x).1 := by
    funext ρ j
    unfold zOf
    change G.mult (1 + c.base.K * c.base.B) (rowCount ρ) (arr (1 + c.base.K * c.base.B) _) _ _ = _
    have := probVec_congr (P := rateParams c.base (theta c.base.K s).1 (theta c.base.K s).2.2.1 (theta c.base.K s).2.2.2.1 (theta c.base.K s).2.2.2.2) (P' := s.params)
      (k := ρ.1) hK hBb ρ.1.2 (fun k hk => by rw [rate_lam (K := c.base.K) _ _ _ _ _ hk]; rfl) (fun i hi j hj => by rw [rate_W (K := c.base.K) _ _ _ _ _ hi hj]; rfl)
      (fun i hi j hj b hb => by rw [rate_g (K := c.base.K) _ _ _ _ _ hi hj]; rfl) (rowF ρ)
    exact congrArg (fun p => G.mult (NPar c) (rowCount ρ) p (x (.parents ρ.2.1 ρ.1 ρ.2.2)) j) this
  rw [hz] at hst
  set z := zOf G c (theta c.base.K s).1 (theta c.base.K s).2.2.1 (theta c.base.K s).2.2.2.1 (theta c.base.K s).2.2.2.2 (seedsOf c x).1 with hzz
  have hs'eq := Except.ok.inj hr
  -- the network
  have hnet : (resampleNet huge dx (resampleImpulse dx (resampleBias dx { s with data := dl }))).net =
      .er { n with v := vOf G c n (seedsOf c x).2.2.2.1 (theta c.base.K s).2.1 (theta c.base.K s).1 (theta c.base.K s).2.2.1 } := by
    change s.net.resample huge dx.net dx.erGamma s.A s.W = _
    rw [hs.net]
    change Net.er (erResample _ _ _ _) = _
    congr 1
    have hnK : n.K = c.base.K := by
      have := hp.net
      rw [hs.net] at this
      exact this.size.trans hK
    unfold erResample vOf
    dsimp only
    rcases ha : n.alpha with _ | a
    · rfl
    rcases hb : n.beta with _ | b
    · rfl
    dsimp only
    split_ifs with ht
    · congr 1
      change G.gam _ _ = G.gam _ _
      congr 1
      unfold erVArgs
      dsimp only
      rw [hnK, sum_pairs, sum_pairs]
      rfl
    · rfl
  refine ⟨s', hr', ?_, hy', hp', ?_⟩
  · rw [← hs'eq]
    refine ⟨?_, hs.alpha, hs.beta, hs.gamma, ?_, hst.same⟩
    · have := hs.base
      change ({ s.base with lam0 := _, g := _ } : NetParams ℝ) = _
      rw [this]
      rfl
    · change (resampleNet huge dx (resampleImpulse dx (resampleBias dx { s with data := dl }))).net =
        .er { n with v := netScale (resampleNet huge dx (resampleImpulse dx (resampleBias dx { s with data := dl }))).net }
      rw [hnet]
      rfl
  · -- the parameters
    set s3 := resampleNet huge dx (resampleImpulse dx (resampleBias dx { s with data := dl })) with hs3
    set v' := vOf G c n (seedsOf c x).2.2.2.1 (theta c.base.K s).2.1 (theta c.base.K s).1 (theta c.base.K s).2.2.1 with hv'
    have hlam : (fun k : Fin c.base.K => s3.base.lam0 k) = lamOf G c z (seedsOf c x).2.1 := by
      funext k
      change G.gam (biasArgs s.alpha s.beta s.base.dt dl k) (x (.lam k)) = G.gam _ (x (.lam k))
      congr 1
      unfold biasArgs
      dsimp only
      rw [hs.alpha, hs.beta, hdt, hst.bkgd0 k, hst.bkgd1]
    have hg : (fun e : Pair c.base.K => s3.base.g e.1 e.2) = gOf G c z (seedsOf c x).2.2.1 := by
      funext e
      change G.dir c.base.B (arr c.base.B (impulseArgs s.base.B s.gamma dl e.1 e.2)) (x (.dir e.1 e.2)) = G.dir _ _ (x (.dir e.1 e.2))
      congr 1
      funext b
      unfold arr
      split_ifs with hb
      · unfold impulseArgs
        rw [hs.gamma, hBb, hst.ir e b hb]
      · rfl
    have hW : (fun e : Pair c.base.K => (resampleWSS dx s3).W e.1 e.2) = wOf G c n z v' (theta c.base.K s).1 (seedsOf c x).2.2.2.2.1 := by
      funext e
      change G.gam (weightArgs s.base.B s3.net.kappa s3.net.V s.A dl e.1 e.2) (x (.weight e.1 e.2)) = G.gam _ (x (.weight e.1 e.2))
      congr 1
      unfold weightArgs
      dsimp only
      rw [hnet, hBb, hst.w0 e, hst.w1]
      simp only [Net.kappa, Net.V, ERFixed.V, mul_one]
      rfl
    have hAeq : (fun e : Pair c.base.K => (resampleASS dx (resampleWSS dx s3)).A e.1 e.2) =
        edgeSweep G c n (wOf G c n z v' (theta c.base.K s).1 (seedsOf c x).2.2.2.2.1) (lamOf G c z (seedsOf c x).2.1) (gOf G c z (seedsOf c x).2.2.1) (seedsOf c x).2.2.2.2.2
          (pairList c.base.K) (theta c.base.K s).1 := by
      have hnOk : NetOk s.base.K s3.net := by
        have := (C24_network_stays_valid (K := s.base.K) (B := s.base.B) huge (d := dx) (by rw [hblocks, hK, hBb]; exact hdo) hp.A hp.W hp.net).1
        exact this
      have hp01 : ∀ i < s3.base.K, ∀ j < s3.base.K, 0 ≤ s3.net.P i j ∧ s3.net.P i j ≤ 1 := netP_mem hnOk
      have hu : ∀ i < s3.base.K, ∀ j < s3.base.K, 0 ≤ dx.u i j ∧ dx.u i j < 1 := fun i _ j _ => hdo.unif i j
      have hord : dx.order.Perm (List.range s3.base.K) := by
        change _ = _ at hK
        have : s3.base.K = c.base.K := hK
        rw [this]; exact hdo.order
      set s4 := resampleWSS dx s3 with hs4
      have hser : ∀ i < c.base.K, ∀ j < c.base.K, (resampleASS dx s4).A i j = gibbsSweep s4.base.K s4.net.P dx.u (dataLik s4.base s4.W s4.data) s4.A i j := by
        intro i hi j hj
        have hsw := C19_sweep_is_gibbs s4.base s4.W s4.net.P dx.u s4.data s4.A hp01 hu
        rw [← hsw]
        change (if dx.parallel then parallelSweep s4.base s4.W s4.net.P dx.u s4.data dx.order s4.A else serialSweep s4.base s4.W s4.net.P dx.u s4.data s4.A) i j = _
        cases dx.parallel with
        | true =>
          rw [if_pos rfl]
          exact C20_parallel_eq_serial s4.base s4.W s4.net.P dx.u s4.data s4.A dx.order hord hp01 hu i (by change i < s.base.K; rw [hK]; exact hi) j (by change j < s.base.K; rw [hK]; exact hj)
        | false => rfl
      have e1 : (fun e : Pair c.base.K => (resampleASS dx s4).A e.1 e.2) = resM c.base.K (gibbsSweep c.base.K s4.net.P dx.u (dataLik s4.base s4.W s4.data) s4.A) := by
        funext e
        rw [hser e.1 e.1.2 e.2 e.2.2]
        have : s4.base.K = c.base.K := hK
        rw [this]
        rfl
      rw [e1, resM_gibbsSweep s4.net.P dx.u (dataLik s4.base s4.W s4.data) (fun A => likR c A (wOf G c n z v' (theta c.base.K s).1 (seedsOf c x).2.2.2.2.1)
        (lamOf G c z (seedsOf c x).2.1) (gOf G c z (seedsOf c x).2.2.1))]
      · have hP : ∀ i j, s4.net.P i j = n.P i j := by
          intro i j
          change s3.net.P i j = _
          rw [hnet]
          rfl
        unfold edgeSweep edgeStep
        simp only [hP]
        rfl
      · intro A
        unfold dataLik likR
        congr 1
        refine llModel_congr (P := rateParams c.base (resM c.base.K A) _ _ _) (P' := withA s4.base s4.W A) hK hBb hdt ?_ ?_ ?_ hst.same
        · intro k hk
          rw [rate_lam (K := c.base.K) _ _ _ _ _ hk]
          exact congrFun hlam ⟨k, hk⟩
        · intro i hi j hj
          rw [rate_W (K := c.base.K) _ _ _ _ _ hi hj, ← hW]
          rfl
        · intro i hi j hj b hb
          rw [rate_g (K := c.base.K) _ _ _ _ _ hi hj]
          exact congrFun (congrFun hg (⟨i, hi⟩, ⟨j, hj⟩)) b
    have hv : netScale s3.net = v' := by rw [hnet]; rfl
    rw [← hs'eq]
    unfold edgesStep globalStep
    dsimp only
    refine Prod.ext hAeq (Prod.ext hv (Prod.ext hW (Prod.ext hlam hg)))

end

end PyHawkes
