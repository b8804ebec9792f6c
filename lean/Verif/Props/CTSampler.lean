import Verif.Spec.CTSampler
import Verif.Props.Sampler
import Verif.Props.CTAdjacency
import Verif.Props.CTGenerate
/-!
# C69: the continuous-time sampler over whole histories
-/
set_option linter.unusedSectionVars false

namespace PyHawkes
open Finset Spec

theorem ctSum_nonneg (dl : List CTData) (f : CTData → ℝ) (h : ∀ D ∈ dl, 0 ≤ f D) : 0 ≤ dl.foldl (fun acc d => acc + f d) 0 := by
  rw [foldl_add_eq, zero_add]
  refine List.sum_nonneg fun x hx => ?_
  obtain ⟨d, hd, rfl⟩ := List.mem_map.1 hx
  exact h d hd

theorem ctImpulseArgs_ok (prior : NigArgs) (hp : NigOk prior) (K : ℕ) (dtMax : ℝ) (dl : List CTData) (hD : ∀ D ∈ dl, CTDataOk K dtMax D) (k1 k2 : ℕ) :
    NigOk (ctImpulseArgs prior dl k1 k2) := by
  obtain ⟨h1, h2, h3⟩ := hp
  have hn := ctSum_nonneg dl (fun d => d.imp0 k1 k2) fun D h => by rw [(hD D h).imp0]; positivity
  have hx := ctSum_nonneg dl (fun d => d.imp2 k1 k2) fun D h => by rw [(hD D h).imp2]; exact sum_nonneg fun _ _ => sq_nonneg _
  refine ⟨?_, ?_, ?_⟩ <;> unfold ctImpulseArgs <;> dsimp only
  · linarith
  · linarith
  · generalize dl.foldl (fun acc d => acc + d.imp0 k1 k2) 0 = n at *
    have : 0 ≤ 0.5 * prior.lmbda * n * (dl.foldl (fun acc d => acc + d.imp1 k1 k2) 0 / n - prior.mu) ^ 2 / (prior.lmbda + n) := by positivity
    linarith

theorem ctBiasArgs_ok (alpha beta : ℝ) (ha : 0 < alpha) (hb : 0 < beta) (K : ℕ) (dtMax : ℝ) (dl : List CTData) (hD : ∀ D ∈ dl, CTDataOk K dtMax D ∧ 0 ≤ D.T) (k : ℕ) :
    0 < (ctBiasArgs alpha beta dl k).shape ∧ 0 < (ctBiasArgs alpha beta dl k).scale := by
  rcases List.eq_nil_or_concat dl with rfl | ⟨l, d, rfl⟩
  · exact ⟨by simpa [ctBiasArgs] using ha, by simpa [ctBiasArgs] using hb⟩
  · rw [List.concat_eq_append] at hD ⊢
    rw [ctBiasArgs_last]
    have := hD d (by simp)
    have h1 : 0 ≤ d.bkgd k := by rw [this.1.bkgd]; positivity
    have h2 := this.2
    exact ⟨by dsimp only; linarith, by dsimp only; positivity⟩

theorem ctWeightArgs_ok (kappa : ℝ) (V A : Mat ℝ) (K : ℕ) (dtMax : ℝ) (dl : List CTData) (k1 k2 : ℕ) (hk : 0 < kappa) (hv : 0 < V k1 k2)
    (hA : A k1 k2 = 0 ∨ A k1 k2 = 1) (hD : ∀ D ∈ dl, CTDataOk K dtMax D) :
    0 < (ctWeightArgs kappa V A dl k1 k2).shape ∧ 0 < (ctWeightArgs kappa V A dl k1 k2).scale := by
  have hz := ctSum_nonneg dl (fun d => d.weight k1 k2) fun D h => by rw [(hD D h).weight]; positivity
  have hn := ctSum_nonneg dl (fun d => (d.Ns k1 : ℝ)) fun D h => by positivity
  have hA0 : 0 ≤ A k1 k2 := by rcases hA with h | h <;> rw [h]; norm_num
  unfold ctWeightArgs
  dsimp only
  have := mul_nonneg hn hA0
  exact ⟨by linarith, by positivity⟩

/-- same events and duration -/
def SameEvents (D D' : CTData) : Prop := D'.N = D.N ∧ D'.S = D.S ∧ D'.C = D.C ∧ D'.T = D.T

theorem ctResampleData_ok (P : CTParams) (hP : CTOk P) (u : ℕ → Vec ℝ) (hu : ∀ i n, 0 ≤ u i n ∧ u i n < 1) (sched : ℕ → ℕ → List ℕ) (hs : ∀ i N, CompleteSchedule N (sched i N))
    (dl : List CTData) (hD : ∀ D ∈ dl, CTDataOk P.K P.dtMax D) :
    ∃ dl', ctResampleData P u sched dl = .ok dl' ∧
      List.Forall₂ (fun D D' => SameEvents D D' ∧ CTDataOk P.K P.dtMax D' ∧ ∀ n < D.N, ValidParent P D n (D'.Z n)) dl dl' := by
  induction dl generalizing u sched with
  | nil => exact ⟨[], rfl, .nil⟩
  | cons D dl ih =>
    have hD0 := hD D List.mem_cons_self
    obtain ⟨D', h1, h2, h3, h4, h5, h6, h7⟩ := C26_resample_succeeds P D hP hD0.labels hD0.sorted (u 0) (fun n _ => hu 0 n) (sched 0 D.N) (hs 0 D.N)
    obtain ⟨dl', h8, h9⟩ := ih (fun i => u (i + 1)) (fun i => hu (i + 1)) (fun i => sched (i + 1)) (fun i => hs (i + 1)) fun D h => hD D (List.mem_cons_of_mem _ h)
    refine ⟨D' :: dl', ?_, .cons ⟨⟨h2, h3, h4, h5⟩, h7, h6⟩ h9⟩
    unfold ctResampleData
    rw [h1]
    dsimp only
    rw [h8]

theorem ct_adj_ok (d : CTDraws) (C : ℕ) (s : CTState) (hd : CTDrawsOk s.P.K C d) (hn : NetOk s.P.K s.net) :
    (∀ i < s.P.K, ∀ j < s.P.K, (ctResampleA d s).P.A i j = 0 ∨ (ctResampleA d s).P.A i j = 1) ∧
    (∀ i < s.P.K, ∀ j < s.P.K, s.net.P i j = 0 → (ctResampleA d s).P.A i j = 0) := by
  have hp := netP_mem hn
  have hu : ∀ i < s.P.K, ∀ j < s.P.K, 0 ≤ d.u i j ∧ d.u i j < 1 := fun i _ j _ => hd.unif i j
  have hser := C67_certain_edges s.P s.net.P d.u s.data s.P.A hp hu
  have hpar := C67_parallel_eq_serial s.P s.net.P d.u s.data s.P.A d.order hd.order hp hu
  have heq : ∀ i < s.P.K, ∀ j < s.P.K, (ctResampleA d s).P.A i j = ctSerialSweep s.P s.net.P d.u s.data s.P.A i j := by
    intro i hi j hj
    change (if d.parallel then ctParallelSweep s.P s.net.P d.u s.data d.order s.P.A else ctSerialSweep s.P s.net.P d.u s.data s.P.A) i j = _
    cases d.parallel with
    | true => rw [if_pos rfl]; exact hpar i hi j hj
    | false => rfl
  refine ⟨fun i hi j hj => ?_, fun i hi j hj h => ?_⟩ <;> rw [heq i hi j hj]
  · exact (hser i hi j hj).1
  · exact (hser i hi j hj).2.1 h

theorem ctOk_of (s : CTState) (hy : CTHyperOk s) (hp : CTParamsOk s) : CTOk s.P := by
  refine ⟨hy.dtMax, hp.lam0, fun i hi j hj => ?_, hp.tau⟩
  rcases hp.A i hi j hj with h | h <;> rw [h]
  · simp
  · rw [one_mul]; exact (hp.W i hi j hj).le

/-- **C69 (one iteration).** From a valid state, for every outcome of all draws, every complete schedule of the parallel parent update, and serial or parallel edge updates in any completion order,
`resample_model` succeeds and ends in a valid state with the same sizes, hyperparameters and events; every event's parent is possible under the parameters before the call. -/
theorem C69_resample_keeps_valid (huge : ℝ) (d : CTDraws) (s : CTState) (hd : CTDrawsOk s.P.K (blocks s.net) d) (hy : CTHyperOk s) (hp : CTParamsOk s)
    (hD : ∀ D ∈ s.data, CTDataOk s.P.K s.P.dtMax D ∧ 0 ≤ D.T) :
    ∃ s', ctResampleModel huge d s = .ok s' ∧ CTHyperOk s' ∧ CTParamsOk s' ∧ s'.P.K = s.P.K ∧ s'.P.dtMax = s.P.dtMax ∧ blocks s'.net = blocks s.net ∧
      s'.net.allowSelf = s.net.allowSelf ∧ s'.alpha = s.alpha ∧ s'.beta = s.beta ∧ s'.nig = s.nig ∧
      List.Forall₂ (fun D D' => SameEvents D D' ∧ CTDataOk s.P.K s.P.dtMax D' ∧ ∀ n < D.N, ValidParent s.P D n (D'.Z n)) s.data s'.data := by
  obtain ⟨dl, hdl, hf⟩ := ctResampleData_ok s.P (ctOk_of s hy hp) d.parU hd.parU d.sched hd.sched s.data fun D h => (hD D h).1
  have hdlok : ∀ D ∈ dl, CTDataOk s.P.K s.P.dtMax D ∧ 0 ≤ D.T := by
    intro D' hD'
    obtain ⟨D, hDm, h1, h2, -⟩ := forall₂_mem_right hf D' hD'
    exact ⟨h2, by rw [h1.2.2.2]; exact (hD D hDm).2⟩
  unfold ctResampleModel
  rw [hdl]
  dsimp only
  have hlam : ∀ k, 0 < d.lam k (ctBiasArgs s.alpha s.beta dl k) := fun k => by
    obtain ⟨a, b⟩ := ctBiasArgs_ok s.alpha s.beta hy.alpha hy.beta s.P.K s.P.dtMax dl hdlok k
    exact hd.lam k _ a b
  have htau : ∀ i j, 0 < (sampleNig (d.nigGam i j) (d.nigNormal i j) (ctImpulseArgs s.nig dl i j)).2 := fun i j => by
    obtain ⟨-, a, b⟩ := ctImpulseArgs_ok s.nig hy.nig s.P.K s.P.dtMax dl (fun D h => (hdlok D h).1) i j
    exact hd.nigGam i j _ a (by dsimp only; positivity)
  have hn := net_stays_valid huge (A := s.P.A) (W := s.P.W) hd.net hp.A hp.W hp.net
  set s3 := ctResampleNet huge d (ctResampleImpulse d (ctResampleBias d { s with data := dl })) with hs3
  have hW : ∀ i < s.P.K, ∀ j < s.P.K, 0 < (ctResampleW d s3).P.W i j := by
    intro i hi j hj
    obtain ⟨a, b⟩ := ctWeightArgs_ok s3.net.kappa s3.net.V s.P.A s.P.K s.P.dtMax dl i j (net_kappa_pos hn.1) (netV_pos hn.1 i hi j hj) (hp.A i hi j hj) fun D h => (hdlok D h).1
    exact hd.weight i j _ a b
  have hA := ct_adj_ok d (blocks s.net) (ctResampleW d s3) hd hn.1
  refine ⟨_, rfl, ⟨hy.dtMax, hy.alpha, hy.beta, hy.nig⟩, ⟨fun k _ => hlam k, fun i _ j _ => htau i j, hW, hA.1, ?_, hn.1⟩, rfl, rfl, hn.2.1, hn.2.2, rfl, rfl, rfl, hf⟩
  exact fun hs i hi => hA.2 i hi i hi (netP_self hs i)

theorem C69_new_model_valid (K : ℕ) (dtMax alpha beta : ℝ) (nig : NigArgs) (net : Net) (d : CTDraws) (s : CTState) (hs : newCTModel K dtMax alpha beta nig net d = .ok s)
    (hd : CTDrawsOk K (blocks net) d) (hdt : 0 < dtMax) (ha : 0 < alpha) (hb : 0 < beta) (hn : NigOk nig) (hnet : NetOk K net) :
    CTHyperOk s ∧ CTParamsOk s ∧ s.data = [] ∧ s.P.K = K ∧ s.P.dtMax = dtMax ∧ s.net = net := by
  unfold newCTModel at hs
  split_ifs at hs with h1
  cases hs
  set s0 : CTState := { P := { K := K, dtMax := dtMax, lam0 := fun _ => 0, W := fun _ _ => 0, A := fun _ _ => 1, mu := fun _ _ => 0, tau := fun _ _ => 0 },
                         alpha := alpha, beta := beta, nig := nig, net := net, data := [] } with hs0
  have hlam : ∀ k, 0 < d.lam k (ctBiasArgs alpha beta [] k) := fun k => by
    obtain ⟨a, b⟩ := ctBiasArgs_ok alpha beta ha hb K dtMax [] (by simp) k
    exact hd.lam k _ a b
  have htau : ∀ i j, 0 < (sampleNig (d.nigGam i j) (d.nigNormal i j) (ctImpulseArgs nig [] i j)).2 := fun i j => by
    obtain ⟨-, a, b⟩ := ctImpulseArgs_ok nig hn K dtMax [] (by simp) i j
    exact hd.nigGam i j _ a (by dsimp only; positivity)
  have hW : ∀ i < K, ∀ j < K, 0 < (ctResampleW d (ctResampleImpulse d (ctResampleBias d s0))).P.W i j := by
    intro i hi j hj
    obtain ⟨a, b⟩ := ctWeightArgs_ok net.kappa net.V (fun _ _ => 1) K dtMax [] i j (net_kappa_pos hnet) (netV_pos hnet i hi j hj) (Or.inr rfl) (by simp)
    exact hd.weight i j _ a b
  have hA := ct_adj_ok d (blocks net) (ctResampleW d (ctResampleImpulse d (ctResampleBias d s0))) hd hnet
  exact ⟨⟨hdt, ha, hb, hn⟩, ⟨fun k _ => hlam k, fun i _ j _ => htau i j, hW, hA.1, fun hs i hi => hA.2 i hi i hi (netP_self hs i), hnet⟩, rfl, rfl, rfl, rfl⟩

/-! ### Histories -/

/-- what is true of a continuous-time model during its whole life -/
structure CTLifeOk (K C : ℕ) (dtMax : ℝ) (sc : Bool) (s : CTState) : Prop where
  hyper : CTHyperOk s
  params : CTParamsOk s
  sizes : s.P.K = K ∧ s.P.dtMax = dtMax ∧ blocks s.net = C ∧ s.net.allowSelf = sc
  data : ∀ D ∈ s.data, CTDataOk K dtMax D ∧ 0 ≤ D.T

theorem ct_life_step (huge : ℝ) {K C : ℕ} {dtMax : ℝ} {sc : Bool} {s : CTState} (h : CTLifeOk K C dtMax sc s) (op : CTOp) (ho : CTOpOk K C op) :
    CTLifeOk K C dtMax sc (ctStep huge s op) := by
  obtain ⟨hy, hp, ⟨rfl, rfl, rfl, rfl⟩, hD⟩ := h
  cases op with
  | addData a =>
    unfold ctStep
    dsimp only
    cases hadd : ctAddData s.P.K a s.data with
    | error e => exact ⟨hy, hp, ⟨rfl, rfl, rfl, rfl⟩, hD⟩
    | ok dl =>
      obtain ⟨D, rfl, -, -, -, hT, -, hok⟩ := (C25_add_data s.P.K s.P.dtMax a s.data).2 dl hadd
      refine ⟨⟨hy.dtMax, hy.alpha, hy.beta, hy.nig⟩, ⟨hp.lam0, hp.tau, hp.W, hp.A, hp.self, hp.net⟩, ⟨rfl, rfl, rfl, rfl⟩, ?_⟩
      intro D' hD'
      rcases List.mem_append.1 hD' with h | h
      · exact hD D' h
      · rw [List.mem_singleton.1 h]
        exact ⟨hok, by rw [hT]; exact ho⟩
  | generate T maxRound keep rng sorter st =>
    obtain ⟨hT, hr, hs⟩ := ho
    unfold ctStep
    dsimp only
    cases hg : ctGenerate s.P T maxRound keep rng sorter s.data st with
    | error e => exact ⟨hy, hp, ⟨rfl, rfl, rfl, rfl⟩, hD⟩
    | ok r =>
      refine ⟨⟨hy.dtMax, hy.alpha, hy.beta, hy.nig⟩, ⟨hp.lam0, hp.tau, hp.W, hp.A, hp.self, hp.net⟩, ⟨rfl, rfl, rfl, rfl⟩, ?_⟩
      have hK : 0 < s.P.K := by
        by_contra hK
        unfold ctGenerate at hg
        split at hg
        · cases hg
        · rw [if_pos (by omega)] at hg
          cases hg
      rcases C30_generate s.P hK hy.dtMax (fun i hi j hj => (hp.W i hi j hj).le) (fun k hk => (hp.lam0 k hk).le) T hT maxRound keep rng hr sorter hs s.data st with h | ⟨evs, dl', h, -, -, h1, h2⟩
      · rw [hg] at h; cases h
      · rw [hg] at h
        cases h
        cases keep with
        | false => rw [h1 rfl]; exact hD
        | true =>
          obtain ⟨D, e, -, hDT, -, hok⟩ := h2 rfl
          rw [e]
          intro D' hD'
          rcases List.mem_append.1 hD' with h | h
          · exact hD D' h
          · rw [List.mem_singleton.1 h]
            exact ⟨hok, by rw [hDT]; exact hT.le⟩
  | resample d =>
    obtain ⟨s', hs', hy', hp', hK, hdt, hC, hS, -, -, -, hf⟩ := C69_resample_keeps_valid huge d s ho hy hp hD
    have e : ctStep huge s (.resample d) = s' := by simp only [ctStep, hs']
    rw [e]
    refine ⟨hy', hp', ⟨hK, hdt, hC, hS⟩, fun D' hD' => ?_⟩
    obtain ⟨D, hDm, h1, h2, -⟩ := forall₂_mem_right hf D' hD'
    exact ⟨h2, by rw [h1.2.2.2]; exact (hD D hDm).2⟩

theorem ct_life_run (huge : ℝ) {K C : ℕ} {dtMax : ℝ} {sc : Bool} (ops : List CTOp) : ∀ {s : CTState}, CTLifeOk K C dtMax sc s → (∀ op ∈ ops, CTOpOk K C op) →
    CTLifeOk K C dtMax sc (ctRun huge ops s) := by
  induction ops with
  | nil => intro s h _; exact h
  | cons op ops ih =>
    intro s h ho
    exact ih (ct_life_step huge h op (ho op List.mem_cons_self)) fun o hm => ho o (List.mem_cons_of_mem _ hm)

/-- **C69.** Construct a continuous-time model with positive hyperparameters and a valid network, then make any sequence of `add_data`, `generate` and `resample_model` calls with any outcome of all
random draws and any thread schedules. In the final state (hence after every prefix): background rates, weights and impulse precisions are positive, edges are 0 or 1, forbidden self edges absent, the
network valid, and every data set carries a valid parent assignment with its exact statistics; and a further `resample_model` call succeeds. -/
theorem C69_sampler_state_valid (huge : ℝ) (K : ℕ) (dtMax alpha beta : ℝ) (nig : NigArgs) (net : Net) (d0 : CTDraws) (s0 : CTState) (ops : List CTOp)
    (hs : newCTModel K dtMax alpha beta nig net d0 = .ok s0) (hd : CTDrawsOk K (blocks net) d0) (hdt : 0 < dtMax) (ha : 0 < alpha) (hb : 0 < beta) (hn : NigOk nig)
    (hnet : NetOk K net) (hops : ∀ op ∈ ops, CTOpOk K (blocks net) op) :
    let s := ctRun huge ops s0
    s.P.K = K ∧ CTParamsOk s ∧ (net.allowSelf = false → ∀ i < K, s.P.A i i = 0) ∧ (∀ D ∈ s.data, CTDataOk K dtMax D) ∧
    ∀ d, CTDrawsOk K (blocks net) d → ∃ s', ctResampleModel huge d s = .ok s' ∧
      List.Forall₂ (fun D D' => SameEvents D D' ∧ CTDataOk K dtMax D' ∧ ∀ n < D.N, ValidParent s.P D n (D'.Z n)) s.data s'.data := by
  intro s
  obtain ⟨hy, hp, hdata, hK, hdM, hnt⟩ := C69_new_model_valid K dtMax alpha beta nig net d0 s0 hs hd hdt ha hb hn hnet
  have h0 : CTLifeOk K (blocks net) dtMax net.allowSelf s0 := ⟨hy, hp, ⟨hK, hdM, by rw [hnt], by rw [hnt]⟩, by rw [hdata]; intro D hD; cases hD⟩
  have h := ct_life_run huge ops h0 hops
  obtain ⟨hK', hdM', hC', hS'⟩ := h.sizes
  refine ⟨hK', h.params, fun hself i hi => ?_, fun D hD => (h.data D hD).1, fun d hd => ?_⟩
  · exact h.params.self (by rw [hS']; exact hself) i (by rw [hK']; exact hi)
  · obtain ⟨s', h1, -, -, -, -, -, -, -, -, -, h2⟩ := C69_resample_keeps_valid huge d s (by rw [hK', hC']; exact hd) h.hyper h.params (by rw [hK', hdM']; exact h.data)
    rw [hK', hdM'] at h2
    exact ⟨s', h1, h2⟩

/-- draws that meet the contracts: all uniforms 1/2, gamma draws 1, threads run one after the other -/
noncomputable def demoCTDraws (K : ℕ) : CTDraws :=
  { parU := fun _ _ => 1/2, sched := fun _ N => (List.range N).flatMap fun n => [n, n], lam := fun _ _ => 1, nigGam := fun _ _ _ => 1, nigNormal := fun _ _ m _ => m,
    net := { gamma := fun _ _ _ => 1, beta := fun _ _ _ => 1/2, label := fun _ _ => 0, dirichlet := fun _ b => if b = 0 then 1 else 0 },
    erGamma := fun _ => 1, weight := fun _ _ _ => 1, u := fun _ _ => 1/2, parallel := true, order := List.range K }

/-- non-vacuity: such draws exist -/
theorem demoCTDraws_ok (K : ℕ) : CTDrawsOk K 1 (demoCTDraws K) := by
  refine ⟨fun _ _ => by norm_num [demoCTDraws], fun _ N => ⟨?_, ?_⟩, fun _ _ _ _ => one_pos, fun _ _ _ _ _ => one_pos,
    ⟨fun _ _ _ => one_pos, fun _ _ _ _ _ => one_pos, fun _ _ _ _ _ => by norm_num [demoCTDraws], fun _ _ => by norm_num [demoCTDraws], fun _ _ => ?_⟩,
    fun _ _ _ _ _ => one_pos, fun _ _ => by norm_num [demoCTDraws], List.Perm.refl _⟩
  · intro n hn
    obtain ⟨m, hm, h⟩ := List.mem_flatMap.1 hn
    simp at h hm
    omega
  · intro n hn
    change 2 ≤ List.count n ((List.range N).flatMap fun n => [n, n])
    induction N with
    | zero => omega
    | succ N ih =>
      rw [List.range_succ, List.flatMap_append, List.count_append]
      rcases Nat.lt_succ_iff_lt_or_eq.1 hn with h | rfl
      · have := ih h
        omega
      · simp
  · unfold IsProb
    simp [demoCTDraws]

example : ∃ n : ERFixed, ErOk 1 n ∧ ∃ s, newCTModel 1 1 1 1 ⟨0, 1, 1, 1⟩ (.er n) (demoCTDraws 1) = .ok s := by
  refine ⟨{ K := 1, p := 1/2, kappa := 1, v := 1, alpha := none, beta := none, allowSelf := true, mf := none },
    ⟨rfl, by norm_num, by norm_num, by norm_num, by simp⟩, ?_⟩
  unfold newCTModel
  rw [if_neg (by simp [Net.K])]
  exact ⟨_, rfl⟩

end PyHawkes
