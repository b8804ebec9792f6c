import Verif.Props.GibbsBasics

/-!
# C16–C18, C21: the conjugate Gibbs updates
-/
set_option linter.unusedSectionVars false

namespace PyHawkes
open Finset MeasureTheory ProbabilityTheory

theorem list_range_prod {M : Type*} [CommMonoid M] (n : ℕ) (f : ℕ → M) :
    ((List.range n).map f).prod = ∏ i ∈ range n, f i := by
  induction n with
  | zero => simp
  | succ n ih => simp [List.range_succ, prod_range_succ, ih]

theorem list_prod_flatMap {M : Type*} [CommMonoid M] {α β : Type*} (l : List α) (g : α → List β) (f : β → M) :
    ((l.flatMap g).map f).prod = (l.map fun x => ((g x).map f).prod).prod := by
  induction l with
  | nil => simp
  | cons x l ih => simp [ih]

/-- a data set together with a table of parent counts: `z t k c` is the number of events of process `k` in bin `t` with parent `c`
(`c = 0` is the background, `c = 1 + k1*B + b` source `k1` through basis function `b`) -/
abbrev Assigned := DParents ℝ × (ℕ → ℕ → Vec ℕ)

/-- the data sets as the code holds them: only the event bins have a row -/
noncomputable def assignedData (ds : List Assigned) : List (DParents ℝ) := ds.map fun p => withParents p.2 0 p.1

theorem getZ_sum_assigned (p : Assigned) (k c : ℕ) (hz : ∀ t, p.1.S t k = 0 → p.2 t k c = 0) :
    (((withParents p.2 0 p.1).getZ k).map fun r => r c).sum = ∑ t ∈ range p.1.T, p.2 t k c := by
  rw [sum_getZ_withParents]
  refine sum_congr rfl fun t _ => ?_
  rw [Nat.zero_add]
  by_cases h : p.1.S t k = 0
  · simp [h, hz t h]
  · simp [h]

/-- **C16.** For any collection of data sets and any assignment of events to parents, the gamma generator for the background rate of
process `k` is called with positive arguments whose density is, by Bayes' rule, the gamma prior times the Poisson probabilities of the
background-assigned counts of every bin of every data set (bins without events contribute count 0). -/
theorem C16_background_conditional (alpha beta dt : ℝ) (ha : 0 < alpha) (hb : 0 < beta) (hdt : 0 < dt) (ds : List Assigned) (k : ℕ)
    (hz : ∀ p ∈ ds, ∀ t, p.1.S t k = 0 → p.2 t k 0 = 0) :
    let args := biasArgs alpha beta dt (assignedData ds) k
    0 < args.shape ∧ 0 < args.scale ∧
    Spec.IsPosterior (Spec.npGammaPdf args.shape args.scale) (gammaPDFReal alpha beta)
      (fun lam => (ds.map fun p => ∏ t ∈ range p.1.T, Spec.poissonPmf (lam * dt) (p.2 t k 0)).prod) := by
  intro args
  set l : List (ℕ × ℝ) := ds.flatMap fun p => (List.range p.1.T).map fun t => (p.2 t k 0, dt) with hl
  have hmem : ∀ q ∈ l, q.2 = dt := by
    intro q hq
    rw [hl, List.mem_flatMap] at hq
    obtain ⟨p, -, hq⟩ := hq
    obtain ⟨t, -, rfl⟩ := List.mem_map.1 hq
    rfl
  have h0 : (ssSum (assignedData ds) fun d => (bkgdSS0 d k : ℝ)) = (l.map fun q => (q.1 : ℝ)).sum := by
    rw [ssSum_eq, hl, list_sum_flatMap, assignedData, List.map_map]
    congr 1
    refine List.map_congr_left fun p hp => ?_
    simp only [Function.comp_apply, List.map_map, bkgdSS0]
    rw [getZ_sum_assigned p k 0 (hz p hp), Nat.cast_sum, ← list_range_sum]
    rfl
  have h1 : (ssSum (assignedData ds) fun d => bkgdSS1 d dt k) = (l.map fun q => q.2).sum := by
    rw [ssSum_eq, hl, list_sum_flatMap, assignedData, List.map_map]
    congr 1
    refine List.map_congr_left fun p hp => ?_
    simp only [Function.comp_apply, List.map_map, bkgdSS1, withParents]
    rw [show ((fun q : ℕ × ℝ => q.2) ∘ fun t => (p.2 t k 0, dt)) = fun _ => dt from rfl, list_range_sum]
    simp
  have hs0 : 0 ≤ (l.map fun q => (q.1 : ℝ)).sum := List.sum_nonneg (by
    intro x hx; obtain ⟨q, -, rfl⟩ := List.mem_map.1 hx; positivity)
  have hs1 : 0 ≤ (l.map fun q => q.2).sum := List.sum_nonneg (by
    intro x hx; obtain ⟨q, hq, rfl⟩ := List.mem_map.1 hx; rw [hmem q hq]; exact hdt.le)
  have hargs : args = ⟨alpha + (l.map fun q => (q.1 : ℝ)).sum, 1 / (beta + (l.map fun q => q.2).sum)⟩ := by
    simp only [args, biasArgs, h0, h1]
  rw [hargs]
  refine ⟨by dsimp only; linarith, by dsimp only; apply one_div_pos.2; linarith, ?_⟩
  have := gamma_poisson ha hb l (fun q hq => (hmem q hq).symm ▸ hdt.le) (fun q hq h => absurd ((hmem q hq).symm.trans h) hdt.ne')
  unfold Spec.npGammaPdf
  simp only [one_div_one_div]
  suffices hlik : (fun lam => (ds.map fun p => ∏ t ∈ range p.1.T, Spec.poissonPmf (lam * dt) (p.2 t k 0)).prod)
      = fun x => (l.map fun q => Spec.poissonPmf (x * q.2) q.1).prod by
    rw [hlik]; exact this
  funext x
  rw [hl, list_prod_flatMap]
  congr 1
  refine List.map_congr_left fun p _ => ?_
  rw [List.map_map, ← list_range_prod]
  rfl

/-- number of events of process `k2` with a parent on process `k1` -/
def childCount (B : ℕ) (p : Assigned) (k1 k2 : ℕ) : ℕ :=
  ∑ t ∈ range p.1.T, ∑ b ∈ range B, p.2 t k2 (1 + k1 * B + b)

/-- number of events of process `k` in the data set -/
def eventCount (p : Assigned) (k : ℕ) : ℕ := ∑ t ∈ range p.1.T, p.1.S t k

theorem weightSS0_assigned (B : ℕ) (p : Assigned) (k1 k2 : ℕ) (hz : ∀ t c, p.1.S t k2 = 0 → p.2 t k2 c = 0) :
    weightSS0 (withParents p.2 0 p.1) B k1 k2 = childCount B p k1 k2 := by
  unfold weightSS0 childCount
  rw [sum_comm]
  exact sum_congr rfl fun b _ => getZ_sum_assigned p k2 _ fun t h => hz t _ h

theorem weightSS1_assigned (p : Assigned) (k1 k2 : ℕ) : weightSS1 (withParents p.2 0 p.1) k1 k2 = eventCount p k1 := by
  unfold weightSS1 eventCount
  rw [Ns_eq]; rfl

theorem ssSum_assigned (ds : List Assigned) (f : DParents ℝ → ℝ) (g : Assigned → ℝ)
    (h : ∀ p ∈ ds, f (withParents p.2 0 p.1) = g p) : ssSum (assignedData ds) f = (ds.map g).sum := by
  rw [ssSum_eq, assignedData, List.map_map]
  congr 1
  exact List.map_congr_left fun p hp => h p hp

/-- shared by C17 and C21: gamma prior, Poisson children with mean `w * (a * N)` in each data set -/
theorem weight_posterior (B : ℕ) (kappa v a : ℝ) (hk : 0 < kappa) (hv : 0 < v) (ha : 0 ≤ a) (ds : List Assigned) (k1 k2 : ℕ)
    (h0 : ∀ p ∈ ds, a * (eventCount p k1 : ℝ) = 0 → childCount B p k1 k2 = 0) :
    Spec.IsPosterior (gammaPDFReal (kappa + (ds.map fun p => (childCount B p k1 k2 : ℝ)).sum)
        (v + (ds.map fun p => (eventCount p k1 : ℝ)).sum * a)) (gammaPDFReal kappa v)
      (fun w => (ds.map fun p => Spec.poissonPmf (w * (a * eventCount p k1)) (childCount B p k1 k2)).prod) := by
  have := gamma_poisson hk hv (ds.map fun p => (childCount B p k1 k2, a * (eventCount p k1 : ℝ)))
    (by intro q hq; obtain ⟨p, -, rfl⟩ := List.mem_map.1 hq; exact mul_nonneg ha (Nat.cast_nonneg _))
    (by intro q hq; obtain ⟨p, hp, rfl⟩ := List.mem_map.1 hq; exact h0 p hp)
  simp only [List.map_map] at this
  have hs : ((ds.map ((fun q : ℕ × ℝ => q.2) ∘ fun p => (childCount B p k1 k2, a * (eventCount p k1 : ℝ)))).sum)
      = (ds.map fun p => (eventCount p k1 : ℝ)).sum * a := by
    rw [← List.sum_map_mul_right]
    congr 1
    exact List.map_congr_left fun p _ => mul_comm _ _
  rw [hs] at this
  exact this

/-- **C17.** For any data sets, parent assignment and 0/1 adjacency entry such that a pair without exposure (absent edge, or no events on the
source) has no children, the gamma generator for `W[k1,k2]` is called with positive arguments whose density is, by Bayes' rule, the gamma prior
`Gamma(kappa, V)` times, for every data set, the Poisson probability of the number of children of `k1` on `k2` when each event of `k1` induces
`A * W` children on average. -/
theorem C17_weight_conditional (B : ℕ) (kappa : ℝ) (V A : Mat ℝ) (ds : List Assigned) (k1 k2 : ℕ) (hk : 0 < kappa)
    (hv : 0 < V k1 k2) (hA : A k1 k2 = 0 ∨ A k1 k2 = 1)
    (hz : ∀ p ∈ ds, ∀ t c, p.1.S t k2 = 0 → p.2 t k2 c = 0)
    (h0 : ∀ p ∈ ds, A k1 k2 * (eventCount p k1 : ℝ) = 0 → childCount B p k1 k2 = 0) :
    let args := weightArgs B kappa V A (assignedData ds) k1 k2
    0 < args.shape ∧ 0 < args.scale ∧
    Spec.IsPosterior (Spec.npGammaPdf args.shape args.scale) (gammaPDFReal kappa (V k1 k2))
      (fun w => (ds.map fun p => Spec.poissonPmf (w * (A k1 k2 * eventCount p k1)) (childCount B p k1 k2)).prod) := by
  intro args
  have ha : 0 ≤ A k1 k2 := by rcases hA with h | h <;> rw [h]; exact zero_le_one
  have hargs : args = ⟨kappa + (ds.map fun p => (childCount B p k1 k2 : ℝ)).sum,
      1 / (V k1 k2 + (ds.map fun p => (eventCount p k1 : ℝ)).sum * A k1 k2)⟩ := by
    simp only [args, weightArgs]
    rw [ssSum_assigned ds _ (fun p => (childCount B p k1 k2 : ℝ)) (fun p hp => by rw [weightSS0_assigned B p k1 k2 (hz p hp)]),
      ssSum_assigned ds _ (fun p => (eventCount p k1 : ℝ)) (fun p hp => by rw [weightSS1_assigned])]
  rw [hargs]
  have hs : ∀ f : Assigned → ℕ, 0 ≤ (ds.map fun p => (f p : ℝ)).sum := fun f => List.sum_nonneg (by
    intro x hx; obtain ⟨q, -, rfl⟩ := List.mem_map.1 hx; positivity)
  refine ⟨by dsimp only; linarith [hs fun p => childCount B p k1 k2], ?_, ?_⟩
  · dsimp only
    exact one_div_pos.2 (add_pos_of_pos_of_nonneg hv (mul_nonneg (hs _) ha))
  · unfold Spec.npGammaPdf
    simp only [one_div_one_div]
    exact weight_posterior B kappa _ _ hk hv ha ds k1 k2 h0

/-- **C17 (absent edges).** Directly after a parent update of every data set with `W_eff[k1,k2] = 0` (an absent edge), the gamma generator is
called with the prior's own parameters. -/
theorem C17_absent_edge_prior (P : NetParams ℝ) (useGsl : Bool) (mult : ℕ → ℕ → ℕ → ℕ → Vec ℝ → Vec ℕ) (kappa : ℝ) (V A W : Mat ℝ)
    (dl dl' : List (DParents ℝ)) (k1 k2 : ℕ) (h1 : k1 < P.K) (h2 : k2 < P.K) (hA : A k1 k2 = 0)
    (hlam : ∀ k < P.K, 0 < P.lam0 k) (hW : ∀ i < P.K, ∀ j < P.K, 0 ≤ A i j * W i j)
    (hg : ∀ i < P.K, ∀ j < P.K, ∀ b < P.B, 0 ≤ P.g i j b)
    (hF : ∀ D ∈ dl, ∀ t < D.T, ∀ i < P.K, ∀ b < P.B, 0 ≤ D.F t i b) (h32 : ∀ D ∈ dl, ∀ t < D.T, ∀ k < P.K, D.S t k < 2 ^ 32)
    (hm : ∀ i k j, Spec.MultinomialSampler (1 + P.K * P.B) (mult i k j))
    (hres : List.Forall₂ (fun D D' => ∃ i, resampleParents (withA P W A) useGsl (mult i) D = .ok D') dl dl') :
    weightArgs P.B kappa V A dl' k1 k2 = { shape := kappa, scale := 1 / V k1 k2 } := by
  have hz : ∀ D' ∈ dl', weightSS0 D' P.B k1 k2 = 0 := by
    intro D' hD'
    obtain ⟨D, hD, i, hi⟩ : ∃ D ∈ dl, ∃ i, resampleParents (withA P W A) useGsl (mult i) D = .ok D' := by
      clear hF h32
      induction hres with
      | nil => cases hD'
      | cons h _ ih =>
        rcases List.mem_cons.1 hD' with rfl | h'
        · exact ⟨_, List.mem_cons_self, h⟩
        · obtain ⟨D, hD, h⟩ := ih h'
          exact ⟨D, List.mem_cons_of_mem _ hD, h⟩
    obtain ⟨D'', h', -, -, -, -, hrow⟩ := C11_parents_partition_events (withA P W A) useGsl (mult i) D hlam hW hg (hF D hD) (h32 D hD) (hm i)
    rw [hi] at h'
    cases h'
    unfold weightSS0
    refine sum_eq_zero fun b hb => List.sum_eq_zero ?_
    intro x hx
    obtain ⟨z, hzm, rfl⟩ := List.mem_map.1 hx
    obtain ⟨t, -, hr⟩ : ∃ t ∈ D.ts k2, RowOk (withA P W A) k2 D t z := by
      have := hrow k2 h2
      clear hrow
      generalize D.ts k2 = ts, D'.getZ k2 = zs at this hzm
      induction this with
      | nil => cases hzm
      | cons h _ ih =>
        rcases List.mem_cons.1 hzm with rfl | h'
        · exact ⟨_, List.mem_cons_self, h⟩
        · obtain ⟨t, ht, h⟩ := ih h'
          exact ⟨t, List.mem_cons_of_mem _ ht, h⟩
    exact hr.2.2 k1 h1 b (mem_range.1 hb) (by simp [withA, hA])
  have hs : (ssSum dl' fun d => (weightSS0 d P.B k1 k2 : ℝ)) = 0 := by
    rw [ssSum_eq]
    refine List.sum_eq_zero fun x hx => ?_
    obtain ⟨D', hD', rfl⟩ := List.mem_map.1 hx
    simp [hz D' hD']
  unfold weightArgs
  simp only [hs, hA, mul_zero, add_zero]

/-- **C18.** The Dirichlet used for `g[k1,k2,:]` has, at every vector with positive entries, density proportional to the prior times the
multinomial likelihood of all basis assignments of all data sets; with no children of `k1` on `k2` it is the prior. -/
theorem C18_impulse_conditional (B : ℕ) (gamma : Vec ℝ) (ds : List Assigned) (k1 k2 : ℕ)
    (hz : ∀ p ∈ ds, ∀ t c, p.1.S t k2 = 0 → p.2 t k2 c = 0) (g : Vec ℝ) (hg : ∀ b < B, 0 < g b) :
    ∏ b ∈ range B, g b ^ (impulseArgs B gamma (assignedData ds) k1 k2 b - 1)
      = (∏ b ∈ range B, g b ^ (gamma b - 1)) *
        (ds.map fun p => ∏ t ∈ range p.1.T, ∏ b ∈ range B, g b ^ (p.2 t k2 (1 + k1 * B + b))).prod := by
  have hss : ∀ b, (ssSum (assignedData ds) fun d => (irSS d B k1 k2 b : ℝ))
      = (ds.map fun p => ∑ t ∈ range p.1.T, (p.2 t k2 (1 + k1 * B + b) : ℝ)).sum := fun b =>
    ssSum_assigned ds _ _ fun p hp => by
      rw [irSS, getZ_sum_assigned p k2 _ fun t h => hz p hp t _ h]; push_cast; rfl
  unfold impulseArgs
  simp only [hss]
  clear hss hz
  induction ds with
  | nil => simp
  | cons p ds ih =>
    simp only [List.map_cons, List.sum_cons, List.prod_cons]
    rw [mul_left_comm, ← ih, prod_comm, ← prod_mul_distrib]
    refine prod_congr rfl fun b hb => ?_
    have hgb := hg b (mem_range.1 hb)
    rw [prod_pow_eq_pow_sum, ← Real.rpow_natCast, ← Real.rpow_add hgb]
    congr 1
    push_cast
    ring

theorem C18_no_children_prior (B : ℕ) (gamma : Vec ℝ) (dl : List (DParents ℝ)) (k1 k2 b : ℕ)
    (h : ∀ d ∈ dl, irSS d B k1 k2 b = 0) : impulseArgs B gamma dl k1 k2 b = gamma b := by
  unfold impulseArgs
  rw [ssSum_eq, List.sum_eq_zero, add_zero]
  intro x hx
  obtain ⟨d, hd, rfl⟩ := List.mem_map.1 hx
  simp [h d hd]

/-! ### C21 -/

theorem exp_mixLp (kappa v N E : ℝ) (hk : 0 < kappa) (hv : 0 < v) (hN : 0 ≤ N) (hE : 0 ≤ E) :
    Real.exp (mixLp kappa v N E) = v ^ kappa / Real.Gamma kappa * (Real.Gamma (kappa + N) / (v + E) ^ (kappa + N)) := by
  have hG := Real.Gamma_pos_of_pos hk
  have hG' := Real.Gamma_pos_of_pos (show 0 < kappa + N by linarith)
  have hvE : 0 < v + E := by linarith
  unfold mixLp
  dsimp only
  rw [Real.exp_add, Real.exp_sub, Real.exp_sub, Real.exp_log hG, Real.exp_log hG', Real.rpow_def_of_pos hv, Real.rpow_def_of_pos hvE,
    mul_comm (Real.log v), mul_comm (Real.log (v + E))]

/-- **C21 (edge).** In the gamma-mixture model, for any data sets and parent assignment in which sources without events have no children,
`A[k1,k2]` is set to 1 exactly when the uniform draw is below the posterior probability computed from the prior `p` and the two marginal
likelihoods, each the integral over all positive weights of the component's gamma density times the Poisson probabilities of the child counts. -/
theorem C21_mixture_edge (B : ℕ) (kappa0 nu0 kappa : ℝ) (V p u : Mat ℝ) (ds : List Assigned) (k1 k2 : ℕ) (hk0 : 0 < kappa0) (hn0 : 0 < nu0)
    (hk : 0 < kappa) (hv : 0 < V k1 k2) (hp : 0 ≤ p k1 k2) (hp1 : p k1 k2 ≤ 1) (hu : 0 ≤ u k1 k2) (hu1 : u k1 k2 < 1)
    (hz : ∀ p ∈ ds, ∀ t c, p.1.S t k2 = 0 → p.2 t k2 c = 0)
    (h0 : ∀ p ∈ ds, eventCount p k1 = 0 → childCount B p k1 k2 = 0) :
    let lik : ℝ → ℝ := fun w => (ds.map fun p => Spec.poissonPmf (w * eventCount p k1) (childCount B p k1 k2)).prod
    mixA B kappa0 nu0 kappa V p u (assignedData ds) k1 k2
      = if u k1 k2 < Spec.bernPost (p k1 k2) (∫ w in Set.Ioi 0, gammaPDFReal kappa0 nu0 w * lik w)
          (∫ w in Set.Ioi 0, gammaPDFReal kappa (V k1 k2) w * lik w) then 1 else 0 := by
  intro lik
  have hs0 : (ssSum (assignedData ds) fun d => (weightSS0 d B k1 k2 : ℝ)) = (ds.map fun p => (childCount B p k1 k2 : ℝ)).sum :=
    ssSum_assigned ds _ _ fun p hp => by rw [weightSS0_assigned B p k1 k2 (hz p hp)]
  have hs1 : (ssSum (assignedData ds) fun d => (weightSS1 d k1 k2 : ℝ)) = (ds.map fun p => (eventCount p k1 : ℝ)).sum :=
    ssSum_assigned ds _ _ fun p hp => by rw [weightSS1_assigned]
  set N := (ds.map fun p => (childCount B p k1 k2 : ℝ)).sum with hN
  set E := (ds.map fun p => (eventCount p k1 : ℝ)).sum with hE
  have hN0 : 0 ≤ N := List.sum_nonneg (by intro x hx; obtain ⟨q, -, rfl⟩ := List.mem_map.1 hx; positivity)
  have hE0 : 0 ≤ E := List.sum_nonneg (by intro x hx; obtain ⟨q, -, rfl⟩ := List.mem_map.1 hx; positivity)
  obtain ⟨c, hc, hlik⟩ := poisson_prod (ds.map fun p => (childCount B p k1 k2, (eventCount p k1 : ℝ)))
    (by intro q hq; obtain ⟨p, -, rfl⟩ := List.mem_map.1 hq; exact Nat.cast_nonneg _)
    (by intro q hq; obtain ⟨p, hp, rfl⟩ := List.mem_map.1 hq; intro h; exact h0 p hp (Nat.cast_eq_zero.1 (show ((eventCount p k1 : ℕ) : ℝ) = 0 from h)))
  simp only [List.map_map] at hlik
  have hlik' : ∀ x, 0 < x → lik x = c * x ^ N * Real.exp (-(E * x)) := hlik
  rw [gamma_evidence hk0 hn0 hN0 hE0 hlik', gamma_evidence hk hv hN0 hE0 hlik', ← exp_mixLp kappa0 nu0 N E hk0 hn0 hN0 hE0,
    ← exp_mixLp kappa (V k1 k2) N E hk hv hN0 hE0]
  unfold mixA
  simp only [hs0, hs1]
  rw [edgeDraw_eq _ _ _ _ hp hp1 hu hu1]
  have : Spec.bernPost (p k1 k2) (c * Real.exp (mixLp kappa0 nu0 N E)) (c * Real.exp (mixLp kappa (V k1 k2) N E))
      = Spec.bernPost (p k1 k2) (Real.exp (mixLp kappa0 nu0 N E)) (Real.exp (mixLp kappa (V k1 k2) N E)) := by
    unfold Spec.bernPost
    rw [show p k1 k2 * (c * Real.exp (mixLp kappa (V k1 k2) N E)) = c * (p k1 k2 * Real.exp (mixLp kappa (V k1 k2) N E)) by ring,
      show (1 - p k1 k2) * (c * Real.exp (mixLp kappa0 nu0 N E)) = c * ((1 - p k1 k2) * Real.exp (mixLp kappa0 nu0 N E)) by ring,
      ← mul_add, mul_div_mul_left _ _ hc.ne']
  rw [this]

/-- **C21 (weight).** Given the selected component, the weight is drawn from that component's gamma posterior. -/
theorem C21_mixture_weight (B : ℕ) (kappa0 nu0 kappa : ℝ) (V A : Mat ℝ) (ds : List Assigned) (k1 k2 : ℕ) (hk0 : 0 < kappa0) (hn0 : 0 < nu0)
    (hk : 0 < kappa) (hv : 0 < V k1 k2) (hA : A k1 k2 = 0 ∨ A k1 k2 = 1)
    (hz : ∀ p ∈ ds, ∀ t c, p.1.S t k2 = 0 → p.2 t k2 c = 0)
    (h0 : ∀ p ∈ ds, eventCount p k1 = 0 → childCount B p k1 k2 = 0) :
    let args := mixWArgs B kappa0 nu0 kappa V A (assignedData ds) k1 k2
    let prior : ℝ → ℝ := if A k1 k2 = 1 then gammaPDFReal kappa (V k1 k2) else gammaPDFReal kappa0 nu0
    0 < args.shape ∧ 0 < args.scale ∧ Spec.IsPosterior (Spec.npGammaPdf args.shape args.scale) prior
      (fun w => (ds.map fun p => Spec.poissonPmf (w * eventCount p k1) (childCount B p k1 k2)).prod) := by
  intro args prior
  have hs : ∀ f : Assigned → ℕ, 0 ≤ (ds.map fun p => (f p : ℝ)).sum := fun f => List.sum_nonneg (by
    intro x hx; obtain ⟨q, -, rfl⟩ := List.mem_map.1 hx; positivity)
  have hcase : ∀ (ka v : ℝ), 0 < ka → 0 < v → args = ⟨ka + (ds.map fun p => (childCount B p k1 k2 : ℝ)).sum,
      1 / (v + (ds.map fun p => (eventCount p k1 : ℝ)).sum)⟩ → prior = gammaPDFReal ka v →
      0 < args.shape ∧ 0 < args.scale ∧ Spec.IsPosterior (Spec.npGammaPdf args.shape args.scale) prior
      (fun w => (ds.map fun p => Spec.poissonPmf (w * eventCount p k1) (childCount B p k1 k2)).prod) := by
    intro ka v hka hv' harg hpr
    rw [harg, hpr]
    refine ⟨by dsimp only; linarith [hs fun p => childCount B p k1 k2], ?_, ?_⟩
    · dsimp only; exact one_div_pos.2 (add_pos_of_pos_of_nonneg hv' (hs _))
    · unfold Spec.npGammaPdf
      simp only [one_div_one_div]
      have := weight_posterior B ka v 1 hka hv' zero_le_one ds k1 k2 (fun p hp h => h0 p hp (by simpa using h))
      simpa only [one_mul, mul_one] using this
  have hs0 : (ssSum (assignedData ds) fun d => (weightSS0 d B k1 k2 : ℝ)) = (ds.map fun p => (childCount B p k1 k2 : ℝ)).sum :=
    ssSum_assigned ds _ _ fun p hp => by rw [weightSS0_assigned B p k1 k2 (hz p hp)]
  have hs1 : (ssSum (assignedData ds) fun d => (weightSS1 d k1 k2 : ℝ)) = (ds.map fun p => (eventCount p k1 : ℝ)).sum :=
    ssSum_assigned ds _ _ fun p hp => by rw [weightSS1_assigned]
  rcases hA with h | h
  · refine hcase kappa0 nu0 hk0 hn0 ?_ (by simp only [prior, h]; simp)
    simp only [args, mixWArgs, hs0, hs1, h]; simp
  · refine hcase kappa (V k1 k2) hk hv ?_ (by simp only [prior, h]; simp)
    simp only [args, mixWArgs, hs0, hs1, h]; simp

/-! ### non-vacuity: two data sets with children, one of them without source events -/

/-- a data set with events of process 0 in bin 0 and one child on process 1 in bin 1, and an empty data set -/
def demoAssigned : List Assigned :=
  [({ T := 3, S := fun t k => if t = 0 ∧ k = 0 then 2 else if t = 1 ∧ k = 1 then 1 else 0, F := fun _ _ _ => 1 },
    fun t k c => if t = 0 ∧ k = 0 ∧ c = 0 then 2 else if t = 1 ∧ k = 1 ∧ c = 1 then 1 else 0),
   ({ T := 2, S := fun _ _ => 0, F := fun _ _ _ => 0 }, fun _ _ _ => 0)]

example : (∀ p ∈ demoAssigned, ∀ t c, p.1.S t 1 = 0 → p.2 t 1 c = 0) ∧
    (∀ p ∈ demoAssigned, eventCount p 0 = 0 → childCount 1 p 0 1 = 0) ∧ (∃ p ∈ demoAssigned, childCount 1 p 0 1 = 1 ∧ eventCount p 0 = 2) ∧
    (∀ p ∈ demoAssigned, ∀ t, p.1.S t 0 = 0 → p.2 t 0 0 = 0) := by
  refine ⟨?_, ?_, ?_, ?_⟩
  · intro p hp t c
    simp only [demoAssigned, List.mem_cons, List.not_mem_nil, or_false] at hp
    rcases hp with rfl | rfl
    · by_cases h : t = 1 <;> simp [h]
    · simp
  · intro p hp
    simp only [demoAssigned, List.mem_cons, List.not_mem_nil, or_false] at hp
    rcases hp with rfl | rfl
    · simp [eventCount]
    · simp [childCount]
  · exact ⟨_, List.mem_cons_self, by rfl, by rfl⟩
  · intro p hp t
    simp only [demoAssigned, List.mem_cons, List.not_mem_nil, or_false] at hp
    rcases hp with rfl | rfl
    · by_cases h : t = 0 <;> simp [h]
    · simp

end PyHawkes
