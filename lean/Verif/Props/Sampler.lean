import Verif.Spec.Sampler
import Verif.Props.Gibbs
import Verif.Props.Adjacency
import Verif.Props.Network
/-!
# C24, second half of C07: the sampler over whole histories
-/
set_option linter.unusedSectionVars false

namespace PyHawkes
open Finset Spec

theorem ssSum_nonneg (dl : List (DParents ℝ)) (f : DParents ℝ → ℝ) (h : ∀ d ∈ dl, 0 ≤ f d) : 0 ≤ ssSum dl f := by
  rw [ssSum_eq]
  refine List.sum_nonneg fun x hx => ?_
  obtain ⟨d, hd, rfl⟩ := List.mem_map.1 hx
  exact h d hd

theorem netP_mem {K : ℕ} {n : Net} (h : NetOk K n) : ∀ i < K, ∀ j < K, 0 ≤ n.P i j ∧ n.P i j ≤ 1 := by
  intro i hi j hj
  have hs : ∀ n : SBM, SbmOk K n → 0 ≤ n.P i j ∧ n.P i j ≤ 1 := by
    intro n h
    unfold SBM.P
    split_ifs
    · exact ⟨le_refl _, zero_le_one⟩
    · exact h.p _ (h.labels i hi) _ (h.labels j hj)
  cases n with
  | sbm n => exact hs n h
  | sbmFixed n => exact hs n h
  | er n =>
    change 0 ≤ n.P i j ∧ n.P i j ≤ 1
    unfold ERFixed.P
    split_ifs
    · exact ⟨le_refl _, zero_le_one⟩
    · rw [mul_one]; exact (show ErOk K n from h).p

theorem netV_pos {K : ℕ} {n : Net} (h : NetOk K n) : ∀ i < K, ∀ j < K, 0 < n.V i j := by
  intro i hi j hj
  cases n with
  | sbm n => exact (show SbmOk K n from h).v _ ((show SbmOk K n from h).labels i hi) _ ((show SbmOk K n from h).labels j hj)
  | sbmFixed n => exact (show SbmOk K n from h).v _ ((show SbmOk K n from h).labels i hi) _ ((show SbmOk K n from h).labels j hj)
  | er n => change 0 < n.v * 1; rw [mul_one]; exact (show ErOk K n from h).v

theorem net_kappa_pos {K : ℕ} {n : Net} (h : NetOk K n) : 0 < n.kappa := by
  cases n with
  | sbm n => exact (show SbmOk K n from h).hyper.2.2.2.2.1
  | sbmFixed n => exact (show SbmOk K n from h).hyper.2.2.2.2.1
  | er n => exact (show ErOk K n from h).kappa

theorem netP_self {n : Net} (hs : n.allowSelf = false) (i : ℕ) : n.P i i = 0 := by
  cases n with
  | sbm n => change n.P i i = 0; unfold SBM.P; have : n.allowSelf = false := hs; simp [this]
  | sbmFixed n => change n.P i i = 0; unfold SBM.P; have : n.allowSelf = false := hs; simp [this]
  | er n => change n.P i i = 0; unfold ERFixed.P; have : n.allowSelf = false := hs; simp [this]

/-! ### The network keeps valid -/

theorem blockSum_nonneg (n : SBM) (c1 c2 : ℕ) (f : ℕ → ℕ → ℝ) (h : ∀ i < n.K, ∀ j < n.K, 0 ≤ f i j) : 0 ≤ blockSum n c1 c2 f := by
  unfold blockSum
  refine sum_nonneg fun i hi => sum_nonneg fun j hj => ?_
  split_ifs
  · exact h i (mem_range.1 hi) j (mem_range.1 hj)
  · exact le_refl _

variable {K B : ℕ}

theorem sbmResampleP_ok {C : ℕ} {o : SBMOracle} {eg : GammaArgs → ℝ} (hd : NetDrawsOk C o eg) {A : Mat ℝ} (hA : ∀ i < K, ∀ j < K, A i j = 0 ∨ A i j = 1)
    {n : SBM} (h : SbmOk K n) : SbmOk K (sbmResampleP o A n) := by
  obtain ⟨hK, hy, hl, hp, hv⟩ := h
  refine ⟨hK, hy, hl, ?_, hv⟩
  intro i hi j hj
  change 0 ≤ (if i < n.C ∧ j < n.C then _ else _) ∧ (if i < n.C ∧ j < n.C then _ else _) ≤ _
  rw [if_pos ⟨hi, hj⟩]
  refine hd.netBeta i j _ ?_ ?_
  · have := blockSum_nonneg n i j (fun i j => A i j) (by
      intro i hi j hj; rw [hK] at hi hj; rcases hA i hi j hj with h | h <;> simp [h])
    have h2 := hy.2.1
    change 0 < n.tau1 + _
    linarith
  · have := blockSum_nonneg n i j (fun i j => 1 - A i j) (by
      intro i hi j hj; rw [hK] at hi hj; rcases hA i hi j hj with h | h <;> simp [h])
    have h2 := hy.1
    change 0 < n.tau0 + _
    linarith

theorem sbmResampleV_ok {C : ℕ} {o : SBMOracle} {eg : GammaArgs → ℝ} (hd : NetDrawsOk C o eg) {A W : Mat ℝ} (hA : ∀ i < K, ∀ j < K, A i j = 0 ∨ A i j = 1)
    (hW : ∀ i < K, ∀ j < K, 0 < W i j) {n : SBM} (h : SbmOk K n) : SbmOk K (sbmResampleV o A W n) := by
  obtain ⟨hK, hy, hl, hp, hv⟩ := h
  refine ⟨hK, hy, hl, hp, ?_⟩
  intro i hi j hj
  change 0 < (if i < n.C ∧ j < n.C then _ else _)
  rw [if_pos ⟨hi, hj⟩]
  have h1 := blockSum_nonneg n i j (fun i j => A i j) (by
      intro i hi j hj; rw [hK] at hi hj; rcases hA i hi j hj with h | h <;> simp [h])
  have h2 := blockSum_nonneg n i j (fun i j => if 0 < A i j then W i j else 0) (by
      intro i hi j hj; rw [hK] at hi hj
      split_ifs
      · exact (hW i hi j hj).le
      · exact le_refl _)
  obtain ⟨-, -, ha, hb, hk, -⟩ := hy
  refine hd.netGamma i j _ ?_ ?_
  · change 0 < n.alpha + _ * n.kappa
    have := mul_nonneg h1 hk.le
    linarith
  · change 0 < 1 / (n.beta + _)
    have : 0 < n.beta + blockSum n i j (fun i j => if 0 < A i j then W i j else 0) := by linarith
    positivity

theorem sbmResampleC_ok (huge : ℝ) {o : SBMOracle} {eg : GammaArgs → ℝ} {A W : Mat ℝ} {n : SBM} (hd : NetDrawsOk n.C o eg) (h : SbmOk K n) :
    SbmOk K (sbmResampleC huge o A W n) ∧ (sbmResampleC huge o A W n).C = n.C ∧
      (sbmResampleC huge o A W n).allowSelf = n.allowSelf := by
  unfold sbmResampleC
  split_ifs with hC
  · exact ⟨h, rfl, rfl⟩
  · refine forRange_induct (fun _ (m : SBM) => SbmOk K m ∧ m.C = n.C ∧ m.allowSelf = n.allowSelf) n.K _ n ⟨h, rfl, rfl⟩ ?_
    rintro k - m ⟨⟨hK, hy, hl, hp, hv⟩, hmC, hs⟩
    refine ⟨⟨hK, hy, ?_, hp, hv⟩, hmC, hs⟩
    intro j hj
    change Vec.set m.c k _ j < m.C
    unfold Vec.set
    split_ifs
    · rw [hmC]; exact hd.netLabel _ _
    · exact hl j hj

theorem sbmResampleM_ok {o : SBMOracle} {n : SBM} (h : SbmOk K n) : SbmOk K (sbmResampleM o n) := by
  obtain ⟨hK, hy, hl, hp, hv⟩ := h
  exact ⟨hK, hy, hl, hp, hv⟩

theorem net_stays_valid (huge : ℝ) {o : SBMOracle} {eg : GammaArgs → ℝ} {A W : Mat ℝ} {n : Net} (hd : NetDrawsOk (blocks n) o eg)
    (hA : ∀ i < K, ∀ j < K, A i j = 0 ∨ A i j = 1) (hW : ∀ i < K, ∀ j < K, 0 < W i j) (h : NetOk K n) :
    NetOk K (n.resample huge o eg A W) ∧ blocks (n.resample huge o eg A W) = blocks n ∧
      (n.resample huge o eg A W).allowSelf = n.allowSelf := by
  cases n with
  | sbm n =>
    change SbmOk K (sbmResample huge o A W n) ∧ (sbmResample huge o A W n).C = n.C ∧ (sbmResample huge o A W n).allowSelf = n.allowSelf
    unfold sbmResample
    split_ifs with hf
    · exact ⟨h, rfl, rfl⟩
    · have h1 := sbmResampleP_ok hd hA (show SbmOk K n from h)
      have h2 := sbmResampleV_ok hd hA hW h1
      have h3 := sbmResampleC_ok (n := sbmResampleV o A W (sbmResampleP o A n)) huge (A := A) (W := W) (K := K) hd h2
      exact ⟨sbmResampleM_ok h3.1, h3.2.1, h3.2.2⟩
  | sbmFixed n =>
    change SbmOk K (sbmFixedResample huge o A W n) ∧ (sbmFixedResample huge o A W n).C = n.C ∧
      (sbmFixedResample huge o A W n).allowSelf = n.allowSelf
    unfold sbmFixedResample
    split_ifs with hf
    · exact ⟨h, rfl, rfl⟩
    · have h2 := sbmResampleV_ok hd hA hW (show SbmOk K n from h)
      have h3 := sbmResampleC_ok (n := sbmResampleV o A W n) huge (A := A) (W := W) (K := K) hd h2
      exact ⟨sbmResampleM_ok h3.1, h3.2.1, h3.2.2⟩
  | er n =>
    obtain ⟨hK, hp, hk, hv, hy⟩ := (show ErOk K n from h)
    change ErOk K (erResample eg A W n) ∧ 1 = 1 ∧ (erResample eg A W n).allowSelf = n.allowSelf
    unfold erResample
    split
    · rename_i a b ha hb
      split_ifs with ht
      · refine ⟨⟨hK, hp, hk, ?_, hy⟩, rfl, rfl⟩
        have ha0 := hy.1 a ha
        have hb0 := hy.2 b hb
        simp only [truthy, Bool.and_eq_true, decide_eq_true_eq] at ht
        have ha1 : 0 < a := lt_of_le_of_ne ha0 (Ne.symm ht.1)
        have hb1 : 0 < b := lt_of_le_of_ne hb0 (Ne.symm ht.2)
        refine hd.erGamma _ ?_ ?_
        · change 0 < a + _ * n.kappa
          have : 0 ≤ ∑ i ∈ range n.K, ∑ j ∈ range n.K, A i j := sum_nonneg fun i hi => sum_nonneg fun j hj => by
            rcases hA i (hK ▸ mem_range.1 hi) j (hK ▸ mem_range.1 hj) with h | h <;> simp [h]
          have := mul_nonneg this hk.le
          linarith
        · change 0 < 1 / (b + _)
          have : 0 ≤ ∑ i ∈ range n.K, ∑ j ∈ range n.K, if 0 < A i j then W i j else 0 := sum_nonneg fun i hi => sum_nonneg fun j hj => by
            split_ifs
            · exact (hW i (hK ▸ mem_range.1 hi) j (hK ▸ mem_range.1 hj)).le
            · exact le_refl _
          positivity
      · exact ⟨h, rfl, rfl⟩
    · exact ⟨h, rfl, rfl⟩

theorem netDraws {C : ℕ} {d : StepDraws} (hd : DrawsOk K B C d) : NetDrawsOk C d.net d.erGamma := ⟨hd.erGamma, hd.netGamma, hd.netBeta, hd.netLabel, hd.netDir⟩

/-- **C24 (network).** Resampling a valid network given a 0/1 adjacency matrix and positive weights leaves a valid network of the same kind. -/
theorem C24_network_stays_valid (huge : ℝ) {d : StepDraws} {A W : Mat ℝ} {n : Net} (hd : DrawsOk K B (blocks n) d)
    (hA : ∀ i < K, ∀ j < K, A i j = 0 ∨ A i j = 1) (hW : ∀ i < K, ∀ j < K, 0 < W i j) (h : NetOk K n) :
    NetOk K (n.resample huge d.net d.erGamma A W) ∧ blocks (n.resample huge d.net d.erGamma A W) = blocks n ∧
      (n.resample huge d.net d.erGamma A W).allowSelf = n.allowSelf := net_stays_valid huge (netDraws hd) hA hW h

/-! ### One iteration -/

/-- resampling the parents of all data sets succeeds, keeps the data, and makes parents consistent with counts -/
theorem resampleDataList_ok (P : NetParams ℝ) (useGsl : Bool) (hlam : ∀ k < P.K, 0 < P.lam0 k) (hW : ∀ i < P.K, ∀ j < P.K, 0 ≤ P.Weff i j)
    (hg : ∀ i < P.K, ∀ j < P.K, ∀ b < P.B, 0 ≤ P.g i j b) (dl : List (DParents ℝ)) (mult : ℕ → ℕ → ℕ → ℕ → Vec ℝ → Vec ℕ)
    (hD : ∀ D ∈ dl, DataOk P.K P.B D) (hm : ∀ i k j, MultinomialSampler (1 + P.K * P.B) (mult i k j)) :
    ∃ dl', resampleDataList P useGsl mult dl = .ok dl' ∧
      List.Forall₂ (fun D D' => (D'.T = D.T ∧ D'.S = D.S ∧ D'.F = D.F) ∧ ParentsConsistent P.K P.B D' ∧ ∃ i, resampleParents P useGsl (mult i) D = .ok D') dl dl' := by
  induction dl generalizing mult with
  | nil => exact ⟨[], rfl, .nil⟩
  | cons D dl ih =>
    obtain ⟨dl', h', hf⟩ := ih (fun i => mult (i + 1)) (fun D hD' => hD D (List.mem_cons_of_mem _ hD')) (fun i => hm (i + 1))
    obtain ⟨D', hr, hT, hS, hF, -, hrow⟩ := C11_parents_partition_events P useGsl (mult 0) D hlam hW hg (hD D List.mem_cons_self).1 (hD D List.mem_cons_self).2 (hm 0)
    refine ⟨D' :: dl', ?_, .cons ⟨⟨hT, hS, hF⟩, ?_, 0, hr⟩ (hf.imp ?_)⟩
    · unfold resampleDataList
      rw [hr]
      dsimp only
      rw [h']
    · intro k hk
      rw [hT, hS]
      exact (hrow k hk).imp fun t z hz => hz.1
    · rintro a b ⟨h1, h2, i, h3⟩
      exact ⟨h1, h2, i + 1, h3⟩

theorem bias_pos {d : StepDraws} {C : ℕ} {s : HawkesState} (hd : DrawsOk K B C d) (hy : HyperOk s) :
    ∀ k, 0 < (resampleBias d s).base.lam0 k := by
  intro k
  have h0 := ssSum_nonneg s.data (fun d => (bkgdSS0 d k : ℝ)) fun _ _ => Nat.cast_nonneg _
  have h1 := ssSum_nonneg s.data (fun d => bkgdSS1 d s.base.dt k) fun _ _ => mul_nonneg (Nat.cast_nonneg _) hy.dt.le
  refine hd.lam k _ ?_ ?_
  · change 0 < s.alpha + _
    linarith [hy.alpha]
  · change 0 < 1 / (s.beta + _)
    have := hy.beta
    positivity

theorem impulse_prob {d : StepDraws} {C : ℕ} {s : HawkesState} (hd : DrawsOk s.base.K s.base.B C d) (hy : HyperOk s) :
    ∀ i j, IsProb s.base.B ((resampleImpulse d s).base.g i j) := by
  intro i j
  refine hd.dir i j _ fun b hb => ?_
  have h0 := ssSum_nonneg s.data (fun d => (irSS d s.base.B i j b : ℝ)) fun _ _ => Nat.cast_nonneg _
  have := hy.gamma b hb
  change 0 < s.gamma b + _
  linarith

theorem weight_pos {d : StepDraws} {C : ℕ} {s : HawkesState} (hd : DrawsOk K B C d) (hn : NetOk K s.net)
    (hA : ∀ i < K, ∀ j < K, s.A i j = 0 ∨ s.A i j = 1) : ∀ i < K, ∀ j < K, 0 < (resampleWSS d s).W i j := by
  intro i hi j hj
  have h0 := ssSum_nonneg s.data (fun d => (weightSS0 d s.base.B i j : ℝ)) fun _ _ => Nat.cast_nonneg _
  have h1 := ssSum_nonneg s.data (fun d => (weightSS1 d i j : ℝ)) fun _ _ => Nat.cast_nonneg _
  have hA' : 0 ≤ s.A i j := by rcases hA i hi j hj with h | h <;> simp [h]
  refine hd.weight i j _ ?_ ?_
  · change 0 < s.net.kappa + _
    linarith [net_kappa_pos hn]
  · change 0 < 1 / (s.net.V i j + _ * _)
    have := netV_pos hn i hi j hj
    have := mul_nonneg h1 hA'
    positivity

theorem adj_ok {d : StepDraws} {C : ℕ} {s : HawkesState} (hd : DrawsOk s.base.K B C d) (hn : NetOk s.base.K s.net) :
    (∀ i < s.base.K, ∀ j < s.base.K, (resampleASS d s).A i j = 0 ∨ (resampleASS d s).A i j = 1) ∧
    (∀ i < s.base.K, ∀ j < s.base.K, s.net.P i j = 0 → (resampleASS d s).A i j = 0) ∧
    (∀ i < s.base.K, ∀ j < s.base.K, s.net.P i j = 1 → (resampleASS d s).A i j = 1) := by
  have hp := netP_mem hn
  have hu : ∀ i < s.base.K, ∀ j < s.base.K, 0 ≤ d.u i j ∧ d.u i j < 1 := fun i _ j _ => hd.unif i j
  have hser := C19_certain_edges s.base s.W s.net.P d.u s.data s.A hp hu
  have hpar := C20_parallel_eq_serial s.base s.W s.net.P d.u s.data s.A d.order hd.order hp hu
  have heq : ∀ i < s.base.K, ∀ j < s.base.K, (resampleASS d s).A i j = serialSweep s.base s.W s.net.P d.u s.data s.A i j := by
    intro i hi j hj
    change (if d.parallel then parallelSweep s.base s.W s.net.P d.u s.data d.order s.A else serialSweep s.base s.W s.net.P d.u s.data s.A) i j = _
    cases d.parallel with
    | true => rw [if_pos rfl]; exact hpar i hi j hj
    | false => rfl
  refine ⟨fun i hi j hj => ?_, fun i hi j hj h => ?_, fun i hi j hj h => ?_⟩ <;> rw [heq i hi j hj]
  · exact (hser i hi j hj).1
  · exact (hser i hi j hj).2.1 h
  · exact (hser i hi j hj).2.2 h

/-- **C24 (one iteration).** From a valid state, for every outcome of all random draws, either parent implementation, serial or parallel edge updates in any completion order,
one call of `resample_model` succeeds and ends in a valid state; sizes, hyperparameters, basis and data are unchanged and the parents of every data set add up to its counts. -/
theorem C24_resample_keeps_valid (huge : ℝ) (d : StepDraws) (s : HawkesState) (hd : DrawsOk s.base.K s.base.B (blocks s.net) d)
    (hy : HyperOk s) (hp : ParamsOk s) (hD : ∀ D ∈ s.data, DataOk s.base.K s.base.B D) :
    ∃ s', resampleModelSS huge d s = .ok s' ∧ HyperOk s' ∧ ParamsOk s' ∧ s'.base.K = s.base.K ∧ s'.base.B = s.base.B ∧
      blocks s'.net = blocks s.net ∧ s'.net.allowSelf = s.net.allowSelf ∧ s'.base.basis = s.base.basis ∧ s'.base.L = s.base.L ∧ s'.base.dt = s.base.dt ∧
      List.Forall₂ (fun D D' => (D'.T = D.T ∧ D'.S = D.S ∧ D'.F = D.F) ∧ ParentsConsistent s.base.K s.base.B D') s.data s'.data := by
  have hWe : ∀ i < s.base.K, ∀ j < s.base.K, 0 ≤ s.params.Weff i j := by
    intro i hi j hj
    change 0 ≤ s.A i j * s.W i j
    rcases hp.A i hi j hj with h | h <;> rw [h]
    · simp
    · rw [one_mul]; exact (hp.W i hi j hj).le
  obtain ⟨dl, hdl, hf⟩ := resampleDataList_ok s.params d.useGsl hp.lam0 hWe (fun i hi j hj b hb => (hp.g i hi j hj).1 b hb) s.data d.mult hD hd.mult
  unfold resampleModelSS
  rw [hdl]
  dsimp only
  have hy1 : HyperOk { s with data := dl } := ⟨hy.alpha, hy.beta, hy.gamma, hy.dt, hy.basis⟩
  have hlam := bias_pos hd hy1
  have hy2 : HyperOk (resampleBias d { s with data := dl }) := ⟨hy.alpha, hy.beta, hy.gamma, hy.dt, hy.basis⟩
  have hg := impulse_prob (s := resampleBias d { s with data := dl }) hd hy2
  have hn := C24_network_stays_valid huge hd hp.A hp.W hp.net
  set s3 := resampleNet huge d (resampleImpulse d (resampleBias d { s with data := dl })) with hs3
  have hW := weight_pos (K := s.base.K) (s := s3) hd hn.1 hp.A
  have hA := adj_ok (s := resampleWSS d s3) hd hn.1
  refine ⟨_, rfl, ⟨hy.alpha, hy.beta, hy.gamma, hy.dt, hy.basis⟩, ⟨?_, ?_, ?_, ?_, ?_, ?_⟩, rfl, rfl, hn.2.1, hn.2.2, rfl, rfl, rfl, ?_⟩
  · exact fun k _ => hlam k
  · exact fun i _ j _ => hg i j
  · exact hW
  · exact hA.1
  · exact fun hs i hi => hA.2.1 i hi i hi (netP_self hs i)
  · exact hn.1
  · exact hf.imp fun _ _ h => ⟨h.1, h.2.1⟩

/-- **C24 (construction).** The constructor accepts a network exactly if it has as many nodes as the model has processes and does not combine instantaneous effects with self connections; otherwise it raises
`AssertionError`. -/
theorem C24_constructor_accepts (a : ModelArgs) (d : StepDraws) :
    ((∃ s, newModelSS a d = .ok s) ↔ a.net.K = a.K ∧ ¬ (a.allowInstantaneous = true ∧ a.net.allowSelf = true)) ∧
    (∀ e, newModelSS a d = .error e → e = .assertion) := by
  unfold newModelSS
  constructor
  · split_ifs with h1 h2 <;> simp_all
  · intro e
    split_ifs with h1 h2 <;> simp_all

/-- a freshly constructed model is valid -/
theorem C24_new_model_valid (a : ModelArgs) (d : StepDraws) (s : HawkesState) (hs : newModelSS a d = .ok s)
    (hd : DrawsOk a.K a.B (blocks a.net) d) (ha : 0 < a.alpha ∧ 0 < a.beta) (hg : ∀ b < a.B, 0 < a.gamma b) (hdt : 0 < a.dt)
    (hb : ∀ l < a.L, ∀ b < a.B, 0 ≤ a.basis l b) (hn : NetOk a.K a.net) :
    HyperOk s ∧ ParamsOk s ∧ s.data = [] ∧ s.base.K = a.K ∧ s.base.B = a.B ∧ s.net = a.net := by
  unfold newModelSS at hs
  split_ifs at hs with h1 h2
  set s0 : HawkesState := emptyState a with hs0
  have hy0 : HyperOk s0 := ⟨ha.1, ha.2, hg, hdt, hb⟩
  have hy1 : HyperOk (resampleBias d s0) := ⟨ha.1, ha.2, hg, hdt, hb⟩
  have hlam := bias_pos hd hy0
  have hgp := impulse_prob (s := resampleBias d s0) hd hy1
  have hW := weight_pos (K := a.K) (s := resampleImpulse d (resampleBias d s0)) hd hn (fun _ _ _ _ => Or.inr rfl)
  have hA := adj_ok (s := resampleWSS d (resampleImpulse d (resampleBias d s0))) hd hn
  cases hs
  refine ⟨⟨ha.1, ha.2, hg, hdt, hb⟩, ⟨?_, ?_, hW, hA.1, ?_, hn⟩, rfl, rfl, rfl, rfl⟩
  · exact fun k _ => hlam k
  · exact fun i _ j _ => hgp i j
  · exact fun hs i hi => hA.2.1 i hi i hi (netP_self hs i)

/-! ### Histories -/

/-- what `add_data` does to the list when it succeeds: appends usable data sets without parents -/
theorem addData_ok {P : NetParams ℝ} {a : AddArgs ℝ} {dl dl' : List (DParents ℝ)} (h : addData P a dl = .ok dl')
    (hb : ∀ l < P.L, ∀ b < P.B, 0 ≤ P.basis l b) {C : ℕ} (ho : OpOk P.K P.B C (.addData a)) :
    ∃ new, dl' = dl ++ new ∧ ∀ D ∈ new, DataOk P.K P.B D ∧ D.Z = none := by
  obtain ⟨h32, hF⟩ := ho
  unfold addData at h
  split at h
  · cases h
  · rename_i hK
    push Not at hK
    split at h
    · cases h
    · split at h
      · cases h
      · rename_i hval
        push Not at hval
        dsimp only at h
        split at h
        · cases h
        · rename_i F hFe
          have hF0 : ∀ t < a.T, ∀ k < P.K, ∀ b < P.B, 0 ≤ F t k b := by
            cases haF : a.F with
            | none =>
              rw [haF] at hFe
              refine C02_nonneg _ _ _ _ _ _ _ hb ?_ hFe
              intro t ht k hk
              have := hval.1 t ht k (by omega)
              exact_mod_cast this
            | some q =>
              obtain ⟨T', K', B', F'⟩ := q
              rw [haF] at hFe
              dsimp only at hFe
              split_ifs at hFe with hsh
              cases hFe
              exact hF _ _ _ _ haF
          have h32' : ∀ t < a.T, ∀ k < P.K, (a.S t k).toNat < 2 ^ 32 := by
            intro t ht k hk
            have h1 := h32 t ht k hk
            have h2 := hval.1 t ht k (by omega)
            omega
          split at h
          · cases h
            refine ⟨[_], rfl, ?_⟩
            intro D hD
            rw [List.mem_singleton] at hD
            subst hD
            exact ⟨⟨hF0, h32'⟩, rfl⟩
          · rename_i m hm
            split at h
            · cases h
            · split at h
              · cases h; exact ⟨[], by simp, by simp⟩
              · rename_i hm0 hmneg
                cases h
                refine ⟨_, rfl, ?_⟩
                intro D hD
                obtain ⟨b, hbm, rfl⟩ := List.mem_map.1 hD
                have hbs := C10_block_size a.T m.toNat (by omega) b hbm
                refine ⟨⟨?_, ?_⟩, rfl⟩
                · intro t ht k hk c hc
                  change t < b.2 - b.1 at ht
                  exact hF0 (b.1 + t) (by omega) k hk c hc
                · intro t ht k hk
                  change t < b.2 - b.1 at ht
                  exact h32' (b.1 + t) (by omega) k hk

/-- what is true of the state of a model during its whole life -/
structure LifeOk (K B C : ℕ) (sc : Bool) (s : HawkesState) : Prop where
  hyper : HyperOk s
  params : ParamsOk s
  sizes : s.base.K = K ∧ s.base.B = B ∧ blocks s.net = C ∧ s.net.allowSelf = sc
  data : ∀ D ∈ s.data, DataOk K B D ∧ (D.Z = none ∨ ParentsConsistent K B D)

theorem forall₂_mem_right {α β : Type*} {R : α → β → Prop} {l : List α} {l' : List β} (h : List.Forall₂ R l l') :
    ∀ y ∈ l', ∃ x ∈ l, R x y := by
  induction h with
  | nil => intro y hy; cases hy
  | cons h _ ih =>
    intro y hy
    rcases List.mem_cons.1 hy with rfl | h'
    · exact ⟨_, List.mem_cons_self, h⟩
    · obtain ⟨x, hx, hr⟩ := ih y h'
      exact ⟨x, List.mem_cons_of_mem _ hx, hr⟩

theorem life_step (huge : ℝ) {K B C : ℕ} {sc : Bool} {s : HawkesState} (h : LifeOk K B C sc s) (op : Op) (ho : OpOk K B C op) :
    LifeOk K B C sc (runSS huge [op] s) ∧ (∀ d, op = .resample d → ∃ s', resampleModelSS huge d s = .ok s' ∧ ∀ D ∈ s'.data, ParentsConsistent K B D) := by
  obtain ⟨hy, hp, ⟨rfl, rfl, rfl, rfl⟩, hD⟩ := h
  cases op with
  | addData a =>
    refine ⟨?_, fun d hd => by cases hd⟩
    simp only [runSS]
    unfold addDataState
    cases hadd : addData s.base a s.data with
    | error e => exact ⟨hy, hp, ⟨rfl, rfl, rfl, rfl⟩, hD⟩
    | ok dl =>
      obtain ⟨new, rfl, hnew⟩ := addData_ok hadd hy.basis ho
      refine ⟨⟨hy.alpha, hy.beta, hy.gamma, hy.dt, hy.basis⟩, ⟨hp.lam0, hp.g, hp.W, hp.A, hp.self, hp.net⟩, ⟨rfl, rfl, rfl, rfl⟩, ?_⟩
      intro D hD'
      rcases List.mem_append.1 hD' with h | h
      · exact hD D h
      · exact ⟨(hnew D h).1, Or.inl (hnew D h).2⟩
  | resample d =>
    obtain ⟨s', hs', hy', hp', hK, hB, hC, hS, -, -, -, hf⟩ := C24_resample_keeps_valid huge d s ho hy hp fun D h => (hD D h).1
    have hcons : ∀ D ∈ s'.data, DataOk s.base.K s.base.B D ∧ ParentsConsistent s.base.K s.base.B D := by
      intro D' hD'
      obtain ⟨D, hDm, ⟨hT, hSS, hF⟩, hc⟩ := forall₂_mem_right hf D' hD'
      have := (hD D hDm).1
      refine ⟨⟨?_, ?_⟩, hc⟩
      · rw [hT, hF]; exact this.1
      · rw [hT, hSS]; exact this.2
    refine ⟨?_, ?_⟩
    · simp only [runSS, hs']
      exact ⟨hy', hp', ⟨hK, hB, hC, hS⟩, fun D h => ⟨(hcons D h).1, Or.inr (hcons D h).2⟩⟩
    · intro d' hd'
      cases hd'
      exact ⟨s', hs', fun D h => (hcons D h).2⟩

theorem runSS_append (huge : ℝ) (a b : List Op) (s : HawkesState) : runSS huge (a ++ b) s = runSS huge b (runSS huge a s) := by
  induction a generalizing s with
  | nil => rfl
  | cons op a ih => cases op <;> simp only [List.cons_append, runSS, ih]

theorem life_run (huge : ℝ) {K B C : ℕ} {sc : Bool} (ops : List Op) : ∀ {s : HawkesState}, LifeOk K B C sc s → (∀ op ∈ ops, OpOk K B C op) →
    LifeOk K B C sc (runSS huge ops s) := by
  induction ops with
  | nil => intro s h _; exact h
  | cons op ops ih =>
    intro s h ho
    have := (life_step huge h op (ho op List.mem_cons_self)).1
    rw [show op :: ops = [op] ++ ops from rfl, runSS_append]
    exact ih this fun o hm => ho o (List.mem_cons_of_mem _ hm)

/-- **C24.** Construct a spike-and-slab model with positive hyperparameters, a nonnegative basis and a valid network, then make any sequence of `add_data` and `resample_model` calls
with any outcome of all random draws. In the final state (hence after every prefix): background rates and weights are positive, impulse weights are probability vectors, edges are 0 or 1,
forbidden self edges are absent, the network parameters are valid; every data set has either not been resampled yet or its parents add up to its counts; and a further
`resample_model` call succeeds and makes the parents of every data set consistent. -/
theorem C24_sampler_state_valid (huge : ℝ) (a : ModelArgs) (d0 : StepDraws) (s0 : HawkesState) (ops : List Op) (hs : newModelSS a d0 = .ok s0)
    (hd : DrawsOk a.K a.B (blocks a.net) d0) (ha : 0 < a.alpha ∧ 0 < a.beta) (hg : ∀ b < a.B, 0 < a.gamma b) (hdt : 0 < a.dt)
    (hb : ∀ l < a.L, ∀ b < a.B, 0 ≤ a.basis l b) (hn : NetOk a.K a.net) (hops : ∀ op ∈ ops, OpOk a.K a.B (blocks a.net) op) :
    let s := runSS huge ops s0
    s.base.K = a.K ∧ ParamsOk s ∧ (a.net.allowSelf = false → ∀ i < a.K, s.A i i = 0) ∧
    (∀ D ∈ s.data, D.Z = none ∨ ParentsConsistent a.K a.B D) ∧
    ∀ d, DrawsOk a.K a.B (blocks a.net) d → ∃ s', resampleModelSS huge d s = .ok s' ∧ ∀ D ∈ s'.data, ParentsConsistent a.K a.B D := by
  intro s
  obtain ⟨hy, hp, hdata, hK, hB, hnet⟩ := C24_new_model_valid a d0 s0 hs hd ha hg hdt hb hn
  have h0 : LifeOk a.K a.B (blocks a.net) a.net.allowSelf s0 :=
    ⟨hy, hp, ⟨hK, hB, by rw [hnet], by rw [hnet]⟩, by rw [hdata]; intro D hD; cases hD⟩
  have h := life_run huge ops h0 hops
  refine ⟨h.sizes.1, h.params, ?_, fun D hD => (h.data D hD).2, ?_⟩
  · intro hself i hi
    exact h.params.self (by rw [h.sizes.2.2.2]; exact hself) i (by rw [h.sizes.1]; exact hi)
  · intro d hd
    exact (life_step huge h (.resample d) hd).2 d rfl

/-- **C24 (data).** Sampler iterations never lose, reorder or alter data: after any sequence of `resample_model` calls the model holds the same data sets. -/
theorem C24_resample_keeps_data (huge : ℝ) {K B C : ℕ} {sc : Bool} (ds : List StepDraws) : ∀ {s : HawkesState}, LifeOk K B C sc s → (∀ d ∈ ds, DrawsOk K B C d) →
    List.Forall₂ (fun D D' => D'.T = D.T ∧ D'.S = D.S ∧ D'.F = D.F) s.data (runSS huge (ds.map Op.resample) s).data := by
  induction ds with
  | nil => intro s _ _; exact List.forall₂_same.2 fun _ _ => ⟨rfl, rfl, rfl⟩
  | cons d ds ih =>
    intro s h hd
    have h1 := (life_step huge h (.resample d) (hd d List.mem_cons_self)).1
    have h2 := ih h1 fun d' hm => hd d' (List.mem_cons_of_mem _ hm)
    obtain ⟨hy, hp, ⟨rfl, rfl, rfl, rfl⟩, hD⟩ := h
    obtain ⟨s', hs', -, -, -, -, -, -, -, -, -, hf⟩ := C24_resample_keeps_valid huge d s (hd d List.mem_cons_self) hy hp fun D h => (hD D h).1
    have e : runSS huge [Op.resample d] s = s' := by simp only [runSS, hs']
    rw [e] at h2
    have e2 : runSS huge ((d :: ds).map Op.resample) s = runSS huge (ds.map Op.resample) s' := by simp only [List.map_cons, runSS, hs']
    rw [e2]
    clear e e2 hD h1 hs'
    revert h2
    generalize (runSS huge (ds.map Op.resample) s').data = l3
    intro h2
    have key : ∀ {l1 l2 l3 : List (DParents ℝ)}, List.Forall₂ (fun D D' => (D'.T = D.T ∧ D'.S = D.S ∧ D'.F = D.F) ∧ ParentsConsistent s.base.K s.base.B D') l1 l2 →
        List.Forall₂ (fun D D' => D'.T = D.T ∧ D'.S = D.S ∧ D'.F = D.F) l2 l3 →
        List.Forall₂ (fun D D' : DParents ℝ => D'.T = D.T ∧ D'.S = D.S ∧ D'.F = D.F) l1 l3 := by
      intro l1 l2 l3 h12
      induction h12 generalizing l3 with
      | nil => intro h; cases h; exact .nil
      | cons h _ ih =>
        intro h23
        cases h23 with
        | cons h' t => exact .cons ⟨h'.1.trans h.1.1, h'.2.1.trans h.1.2.1, h'.2.2.trans h.1.2.2⟩ (ih t)
    exact key hf h2

/-- **C07 (second half).** With `allow_self_connections=False`, after construction and any sequence of `add_data` and `resample_model` calls, no process excites itself: its rate does not depend on its own events. -/
theorem C07_no_self_excitation (huge : ℝ) (a : ModelArgs) (d0 : StepDraws) (s0 : HawkesState) (ops : List Op) (hs : newModelSS a d0 = .ok s0)
    (hd : DrawsOk a.K a.B (blocks a.net) d0) (ha : 0 < a.alpha ∧ 0 < a.beta) (hg : ∀ b < a.B, 0 < a.gamma b) (hdt : 0 < a.dt)
    (hb : ∀ l < a.L, ∀ b < a.B, 0 ≤ a.basis l b) (hn : NetOk a.K a.net) (hops : ∀ op ∈ ops, OpOk a.K a.B (blocks a.net) op)
    (hself : a.net.allowSelf = false) (T : ℕ) (S S' r r' : Mat ℝ) (k : ℕ) (hk : k < a.K)
    (hS : ∀ t < T, ∀ j < a.K, j ≠ k → S t j = S' t j)
    (h : computeRate (runSS huge ops s0).params T a.K S = .ok r) (h' : computeRate (runSS huge ops s0).params T a.K S' = .ok r') :
    ∀ t < T, r t k = r' t k := by
  obtain ⟨hK, -, hA, -, -⟩ := C24_sampler_state_valid huge a d0 s0 ops hs hd ha hg hdt hb hn hops
  have hKp : (runSS huge ops s0).params.K = a.K := hK
  rw [← hKp] at h h' hS
  refine C07_no_edge_no_influence _ T S S' r r' k k (by rw [hKp]; exact hk) ?_ hS h h'
  change (runSS huge ops s0).A k k * _ = 0
  rw [hA hself k hk, zero_mul]

/-! ### The gamma-mixture model -/

/-- valid parameters of the gamma-mixture model: as for spike and slab, with weights at least `1e-32` -/
structure MixOk (s : HawkesState) : Prop where
  lam0 : ∀ k < s.base.K, 0 < s.base.lam0 k
  g : ∀ i < s.base.K, ∀ j < s.base.K, IsProb s.base.B (s.base.g i j)
  W : ∀ i < s.base.K, ∀ j < s.base.K, 1e-32 ≤ s.W i j
  A : ∀ i < s.base.K, ∀ j < s.base.K, s.A i j = 0 ∨ s.A i j = 1
  net : NetOk s.base.K s.net

theorem edgeDraw_01 (ll0 ll1 p u : ℝ) : edgeDraw ll0 ll1 p u = 0 ∨ edgeDraw ll0 ll1 p u = 1 := by
  unfold edgeDraw
  dsimp only
  split_ifs
  · exact Or.inr rfl
  · exact Or.inl rfl

/-- **C66 (one iteration).** The same for `resample_model` of the gamma-mixture model, with or without `resample_network`. -/
theorem C66_mixture_resample_keeps_valid (huge kappa0 nu0 : ℝ) (b : Bool) (d : StepDraws) (s : HawkesState) (hd : DrawsOk s.base.K s.base.B (blocks s.net) d)
    (hy : HyperOk s) (hp : MixOk s) (hD : ∀ D ∈ s.data, DataOk s.base.K s.base.B D) :
    ∃ s', resampleModelMix huge kappa0 nu0 b d s = .ok s' ∧ HyperOk s' ∧ MixOk s' ∧ s'.base.K = s.base.K ∧ s'.base.B = s.base.B ∧
      blocks s'.net = blocks s.net ∧ (b = false → s'.net = s.net) ∧
      List.Forall₂ (fun D D' => (D'.T = D.T ∧ D'.S = D.S ∧ D'.F = D.F) ∧ ParentsConsistent s.base.K s.base.B D') s.data s'.data := by
  have h32 : (0:ℝ) < 1e-32 := by norm_num
  obtain ⟨dl, hdl, hf⟩ := resampleDataList_ok s.paramsMix d.useGsl hp.lam0 (fun i hi j hj => h32.le.trans (hp.W i hi j hj))
    (fun i hi j hj b hb => (hp.g i hi j hj).1 b hb) s.data d.mult hD hd.mult
  unfold resampleModelMix
  rw [hdl]
  dsimp only
  have hy1 : HyperOk { s with data := dl } := ⟨hy.alpha, hy.beta, hy.gamma, hy.dt, hy.basis⟩
  have hlam := bias_pos hd hy1
  have hy2 : HyperOk (resampleBias d { s with data := dl }) := ⟨hy.alpha, hy.beta, hy.gamma, hy.dt, hy.basis⟩
  have hg := impulse_prob (s := resampleBias d { s with data := dl }) hd hy2
  set s4 := resampleWMix kappa0 nu0 d (resampleAMix kappa0 nu0 d (resampleImpulse d (resampleBias d { s with data := dl }))) with hs4
  have hA4 : ∀ i < s.base.K, ∀ j < s.base.K, s4.A i j = 0 ∨ s4.A i j = 1 := fun i _ j _ => edgeDraw_01 _ _ _ _
  have hW4 : ∀ i < s.base.K, ∀ j < s.base.K, 1e-32 ≤ s4.W i j := fun i _ j _ => le_max_right _ _
  have hn := C24_network_stays_valid (K := s.base.K) (n := s4.net) huge (A := s4.A) (W := s4.W) hd hA4 (fun i hi j hj => lt_of_lt_of_le h32 (hW4 i hi j hj)) hp.net
  have hf' := hf.imp fun _ _ h => And.intro h.1 h.2.1
  cases b with
  | false => exact ⟨s4, rfl, ⟨hy.alpha, hy.beta, hy.gamma, hy.dt, hy.basis⟩, ⟨fun k _ => hlam k, fun i _ j _ => hg i j, hW4, hA4, hp.net⟩, rfl, rfl, rfl, fun _ => rfl, hf'⟩
  | true => exact ⟨resampleNet huge d s4, rfl, ⟨hy.alpha, hy.beta, hy.gamma, hy.dt, hy.basis⟩,
      ⟨fun k _ => hlam k, fun i _ j _ => hg i j, hW4, hA4, hn.1⟩, rfl, rfl, hn.2.1, (fun h => by cases h), hf'⟩

/-- **C66 (construction).** The constructor of the gamma-mixture model accepts exactly the same networks. -/
theorem C66_constructor_accepts (kappa0 nu0 : ℝ) (a : ModelArgs) (d : StepDraws) :
    ((∃ s, newModelMix kappa0 nu0 a d = .ok s) ↔ a.net.K = a.K ∧ ¬ (a.allowInstantaneous = true ∧ a.net.allowSelf = true)) ∧
    (∀ e, newModelMix kappa0 nu0 a d = .error e → e = .assertion) := by
  unfold newModelMix
  constructor
  · split_ifs with h1 h2 <;> simp_all
  · intro e
    split_ifs with h1 h2 <;> simp_all

/-- **C66.** Any history of `add_data` and `resample_model` calls on a gamma-mixture model keeps all parameters valid and never makes `resample_model` fail. -/
theorem C66_mixture_state_valid (huge kappa0 nu0 : ℝ) (a : ModelArgs) (d0 : StepDraws) (s0 : HawkesState) (ops : List (Op × Bool))
    (hs : newModelMix kappa0 nu0 a d0 = .ok s0) (hd : DrawsOk a.K a.B (blocks a.net) d0) (ha : 0 < a.alpha ∧ 0 < a.beta) (hg : ∀ b < a.B, 0 < a.gamma b)
    (hdt : 0 < a.dt) (hb : ∀ l < a.L, ∀ b < a.B, 0 ≤ a.basis l b) (hn : NetOk a.K a.net) (hops : ∀ op ∈ ops, OpOk a.K a.B (blocks a.net) op.1) :
    let s := runMix huge kappa0 nu0 ops s0
    MixOk s ∧ s.base.K = a.K ∧ (∀ D ∈ s.data, D.Z = none ∨ ParentsConsistent a.K a.B D) ∧
    ∀ b d, DrawsOk a.K a.B (blocks a.net) d → ∃ s', resampleModelMix huge kappa0 nu0 b d s = .ok s' ∧ ∀ D ∈ s'.data, ParentsConsistent a.K a.B D := by
  intro s
  let Inv : HawkesState → Prop := fun s => HyperOk s ∧ MixOk s ∧ (s.base.K = a.K ∧ s.base.B = a.B ∧ blocks s.net = blocks a.net) ∧
    ∀ D ∈ s.data, DataOk a.K a.B D ∧ (D.Z = none ∨ ParentsConsistent a.K a.B D)
  have h0 : Inv s0 := by
    unfold newModelMix at hs
    split_ifs at hs with h1 h2
    cases hs
    have hy0 : HyperOk (emptyState a) := ⟨ha.1, ha.2, hg, hdt, hb⟩
    have hy1 : HyperOk (resampleBias d0 (emptyState a)) := ⟨ha.1, ha.2, hg, hdt, hb⟩
    have hlam := bias_pos hd hy0
    have hgp := impulse_prob (s := resampleBias d0 (emptyState a)) hd hy1
    exact ⟨⟨ha.1, ha.2, hg, hdt, hb⟩, ⟨fun k _ => hlam k, fun i _ j _ => hgp i j, fun i _ j _ => le_max_right _ _, fun i _ j _ => edgeDraw_01 _ _ _ _, hn⟩,
      ⟨rfl, rfl, rfl⟩, fun D hD => by cases hD⟩
  have hres : ∀ s, Inv s → ∀ b d, DrawsOk a.K a.B (blocks a.net) d → ∃ s', resampleModelMix huge kappa0 nu0 b d s = .ok s' ∧ Inv s' ∧ ∀ D ∈ s'.data, ParentsConsistent a.K a.B D := by
    rintro s ⟨hy, hp, ⟨hK, hB, hC⟩, hD⟩ b d hd
    rw [← hK, ← hB, ← hC] at hd
    obtain ⟨s', hs', hy', hp', hK', hB', hC', -, hf⟩ := C66_mixture_resample_keeps_valid huge kappa0 nu0 b d s hd hy hp fun D h => by
      rw [hK, hB]; exact (hD D h).1
    rw [hK, hB] at hf
    have hcons : ∀ D ∈ s'.data, DataOk a.K a.B D ∧ ParentsConsistent a.K a.B D := by
      intro D' hD'
      obtain ⟨D, hDm, ⟨hT, hSS, hF⟩, hc⟩ := forall₂_mem_right hf D' hD'
      have := (hD D hDm).1
      refine ⟨⟨?_, ?_⟩, hc⟩
      · rw [hT, hF]; exact this.1
      · rw [hT, hSS]; exact this.2
    exact ⟨s', hs', ⟨hy', hp', ⟨hK'.trans hK, hB'.trans hB, hC'.trans hC⟩, fun D h => ⟨(hcons D h).1, Or.inr (hcons D h).2⟩⟩, fun D h => (hcons D h).2⟩
  have hrun : ∀ (ops : List (Op × Bool)) s, Inv s → (∀ op ∈ ops, OpOk a.K a.B (blocks a.net) op.1) → Inv (runMix huge kappa0 nu0 ops s) := by
    intro ops
    induction ops with
    | nil => intro s h _; exact h
    | cons op ops ih =>
      intro s h ho
      obtain ⟨op, b⟩ := op
      have ho1 := ho (op, b) List.mem_cons_self
      have ho2 := fun o hm => ho o (List.mem_cons_of_mem _ hm)
      cases op with
      | addData args =>
        simp only [runMix]
        refine ih _ ?_ ho2
        obtain ⟨hy, hp, ⟨hK, hB, hC⟩, hD⟩ := h
        unfold addDataState
        cases hadd : addData s.base args s.data with
        | error e => exact ⟨hy, hp, ⟨hK, hB, hC⟩, hD⟩
        | ok dl =>
          have ho1' : OpOk s.base.K s.base.B (blocks a.net) (.addData args) := by rw [hK, hB]; exact ho1
          obtain ⟨new, rfl, hnew⟩ := addData_ok hadd hy.basis ho1'
          rw [hK, hB] at hnew
          refine ⟨⟨hy.alpha, hy.beta, hy.gamma, hy.dt, hy.basis⟩, ⟨hp.lam0, hp.g, hp.W, hp.A, hp.net⟩, ⟨hK, hB, hC⟩, ?_⟩
          intro D hD'
          rcases List.mem_append.1 hD' with h | h
          · exact hD D h
          · exact ⟨(hnew D h).1, Or.inl (hnew D h).2⟩
      | resample d =>
        obtain ⟨s', hs', hi, -⟩ := hres s h b d ho1
        simp only [runMix, hs']
        exact ih _ hi ho2
  have hfin := hrun ops s0 h0 hops
  refine ⟨hfin.2.1, hfin.2.2.1.1, fun D hD => (hfin.2.2.2 D hD).2, ?_⟩
  intro b d hd
  obtain ⟨s', h1, -, h2⟩ := hres _ hfin b d hd
  exact ⟨s', h1, h2⟩

/-! ### Network constructors give valid networks -/

/-- `ErdosRenyiFixedSparsity(K, p, kappa, ..)` with `0 < p ≤ 1` and positive hyperparameters is a valid network -/
theorem C24_erdos_renyi_constructed_valid (K : ℕ) (hK : 0 < K) (p kappa : ℝ) (alpha beta v : Option ℝ) (allowSelf : Bool) (n : ERFixed)
    (hp : 0 < p ∧ p ≤ 1) (hk : 0 < kappa) (ha : ∀ a ∈ alpha, 0 < a) (hb : ∀ b ∈ beta, 0 < b) (hv : ∀ x ∈ v, 0 < x)
    (h : erFixedNew K p kappa alpha beta v allowSelf = .ok n) : NetOk K (.er n) ∧ n.allowSelf = allowSelf := by
  have hK' : (0:ℝ) < K := by exact_mod_cast hK
  change ErOk K n ∧ _
  unfold erFixedNew at h
  dsimp only at h
  split at h <;> cases h
  · refine ⟨⟨rfl, ⟨hp.1.le, hp.2⟩, hk, ?_, by simp⟩, rfl⟩
    have := hp.1
    change 0 < (K:ℝ) * kappa * p / 0.5
    positivity
  · exact ⟨⟨rfl, ⟨hp.1.le, hp.2⟩, hk, hv _ rfl, by simp⟩, rfl⟩
  · rename_i a b
    have h1 := ha a rfl
    have h2 := hb b rfl
    refine ⟨⟨rfl, ⟨hp.1.le, hp.2⟩, hk, div_pos h1 h2, ?_⟩, rfl⟩
    simp [h1.le, h2.le]
  · rename_i a
    have h1 := ha a rfl
    refine ⟨⟨rfl, ⟨hp.1.le, hp.2⟩, hk, div_pos h1 (mul_pos h1 hK'), ?_⟩, rfl⟩
    simp [h1.le, (mul_pos h1 hK').le]

/-- a default block model (no `c`, `p`, `v` given) with positive hyperparameters is a valid network whatever the draws -/
theorem C24_block_model_constructed_valid (e : Bool) (a : SBMArgs) (d : SBMDraws) (n : SBM) (h : sbmNew e a d = .ok n) (hc : a.c = .none)
    (hy : 0 < a.tau0 ∧ 0 < a.tau1 ∧ 0 < a.alpha ∧ 0 < a.beta ∧ 0 < a.kappa ∧ ∀ b < a.C, 0 < a.pi b)
    (hd : (∀ k < a.K, d.c' k < a.C) ∧ (∀ i < a.C, ∀ j < a.C, 0 ≤ d.p' i j ∧ d.p' i j ≤ 1) ∧ ∀ i < a.C, ∀ j < a.C, 0 < d.v' i j) :
    NetOk a.K (.sbm n) ∧ n.allowSelf = a.allowSelf := by
  change SbmOk a.K n ∧ _
  unfold sbmNew at h
  split at h
  · cases h
  · rename_i n0 hn0
    unfold sbmBase at hn0
    split_ifs at hn0
    split at hn0
    · cases hn0
    split at hn0
    · cases hn0
    split at hn0
    · cases hn0
    split at hn0
    · cases hn0
    split at hn0
    · cases hn0
    rename_i b hb
    cases hn0
    rw [hc] at hb
    simp only [LabArg.val, noneIn] at hb
    cases hb
    cases h
    exact ⟨⟨rfl, hy, hd.1, hd.2.1, hd.2.2⟩, rfl⟩

/-! ### The hypotheses are met -/

open Classical in
/-- a concrete family of draws: all items of a multinomial draw go to one cell of positive probability -/
noncomputable def demoDraws : StepDraws where
  mult := fun _ _ _ s p c => if h : ∃ c' < 1 + 2 * 1, p c' ≠ 0 then (if c = h.choose then s else 0) else 0
  lam := fun _ _ => 1
  dir := fun _ _ _ b => if b = 0 then 1 else 0
  net := { beta := fun _ _ _ => 1 / 2, gamma := fun _ _ _ => 1, label := fun _ _ => 0, dirichlet := fun _ b => if b = 0 then 1 else 0 }
  erGamma := fun _ => 1
  weight := fun _ _ _ => 3
  u := fun _ _ => 1 / 2
  useGsl := false
  parallel := true
  order := [1, 0]

theorem demoDraws_ok : DrawsOk 2 1 1 demoDraws := by
  have hind : IsProb 1 (fun b => if b = 0 then (1:ℝ) else 0) := by
    refine ⟨fun c hc => by dsimp only; split_ifs <;> norm_num, by simp⟩
  refine ⟨?_, fun _ _ _ _ => one_pos, fun _ _ _ _ => hind, fun _ _ _ _ _ => by norm_num [demoDraws], fun _ _ _ => one_pos, fun _ _ _ _ _ => one_pos,
    fun _ _ _ _ _ => by norm_num [demoDraws], fun _ _ => by simp [demoDraws], fun _ _ => hind, fun _ _ => by norm_num [demoDraws], by decide⟩
  intro i k j s p hp
  have hex : ∃ c' < 1 + 2 * 1, p c' ≠ 0 := by
    by_contra hne
    push Not at hne
    have := hp.2
    rw [sum_eq_zero fun c hc => hne c (mem_range.1 hc)] at this
    norm_num at this
  have hm : ∀ c, demoDraws.mult i k j s p c = if c = hex.choose then s else 0 := fun c => dif_pos hex
  refine ⟨?_, ?_⟩
  · simp only [hm]
    rw [sum_ite_eq' (range (1 + 2 * 1)) hex.choose (fun _ => s), if_pos (mem_range.2 hex.choose_spec.1)]
  · intro c hc h0
    rw [hm]
    split_ifs with h
    · exact absurd (h ▸ h0) hex.choose_spec.2
    · rfl

noncomputable def demoModel : ModelArgs where
  K := 2
  B := 1
  dt := 1
  L := 2
  basis := fun l _ => if l = 1 then 1 else 0
  lenIsInt := true
  alpha := 1
  beta := 10
  gamma := fun _ => 1
  net := .er { K := 2, p := 1 / 2, kappa := 1, v := 2, alpha := none, beta := none, allowSelf := false, mf := none }
  allowInstantaneous := false

/-- non-vacuity: a two-process model without self connections meets all hypotheses, with a history that adds a data set with events and then resamples twice -/
example : ∃ s0, newModelSS demoModel demoDraws = .ok s0 ∧ DrawsOk demoModel.K demoModel.B (blocks demoModel.net) demoDraws ∧ NetOk demoModel.K demoModel.net ∧
    (∀ op ∈ [Op.addData { T := 3, KS := 2, isInt := true, S := fun t k => if t = k then 2 else 0, F := none, minibatch := some 2 }, .resample demoDraws, .resample demoDraws],
      OpOk demoModel.K demoModel.B (blocks demoModel.net) op) ∧ demoModel.net.allowSelf = false := by
  refine ⟨_, rfl, demoDraws_ok, ⟨rfl, by norm_num, by norm_num, by norm_num, by simp⟩, ?_, rfl⟩
  intro op hop
  simp only [List.mem_cons, List.not_mem_nil, or_false] at hop
  rcases hop with rfl | rfl | rfl
  · refine ⟨fun t _ k _ => ?_, fun _ _ _ _ h => by cases h⟩
    dsimp only
    split_ifs <;> norm_num
  · exact demoDraws_ok
  · exact demoDraws_ok

end PyHawkes
