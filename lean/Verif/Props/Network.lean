import Verif.Model.Network
import Verif.Props.Distributions

/-! # C22, C23, C48, C49: block models and Erdos-Renyi networks -/
set_option linter.unusedSectionVars false

namespace PyHawkes
open Finset MeasureTheory ProbabilityTheory

/-! ### beta conjugacy -/

theorem betaPDFReal_nonneg {a b : ℝ} (ha : 0 < a) (hb : 0 < b) (x : ℝ) : 0 ≤ betaPDFReal a b x := by
  by_cases h : 0 < x ∧ x < 1
  · exact (betaPDFReal_pos h.1 h.2 ha hb).le
  · rw [betaPDFReal, if_neg h]

theorem betaPDF_integral {a b : ℝ} (ha : 0 < a) (hb : 0 < b) : ∫ x in Set.Ioo 0 1, betaPDFReal a b x = 1 := by
  rw [setIntegral_eq_integral_of_forall_compl_eq_zero]
  · rw [integral_eq_lintegral_of_nonneg_ae (Filter.Eventually.of_forall (betaPDFReal_nonneg ha hb)) (by fun_prop)]
    have := lintegral_betaPDF_eq_one ha hb
    unfold betaPDF at this
    rw [this]; simp
  · intro x hx
    rw [betaPDFReal, if_neg (fun h => hx ⟨h.1, h.2⟩)]

theorem betaPDF_integrable {a b : ℝ} (ha : 0 < a) (hb : 0 < b) : IntegrableOn (betaPDFReal a b) (Set.Ioo 0 1) := by
  by_contra h
  have := integral_undef h
  rw [betaPDF_integral ha hb] at this
  exact one_ne_zero this

theorem isPosteriorOn_of_prop {s : Set ℝ} (hs : MeasurableSet s) {f prior lik : ℝ → ℝ} {C : ℝ} (hC : 0 < C) (hint : IntegrableOn f s)
    (h1 : ∫ x in s, f x = 1) (h : ∀ x ∈ s, prior x * lik x = C * f x) : Spec.IsPosteriorOn s f prior lik := by
  have hI : ∫ x in s, prior x * lik x = C := by
    rw [setIntegral_congr_fun hs h, integral_const_mul, h1, mul_one]
  refine ⟨?_, by rw [hI]; exact hC, fun x hx => by rw [hI, h x hx]; field_simp⟩
  exact IntegrableOn.congr_fun (show IntegrableOn (fun x => C * f x) s volume from hint.const_mul C) (fun x hx => (h x hx).symm) hs

theorem beta_conj {a b N M : ℝ} (ha : 0 < a) (hb : 0 < b) (hN : 0 ≤ N) (hM : 0 ≤ M) {lik : ℝ → ℝ}
    (hl : ∀ x ∈ Set.Ioo (0:ℝ) 1, lik x = x ^ N * (1 - x) ^ M) :
    Spec.IsPosteriorOn (Set.Ioo 0 1) (betaPDFReal (a + N) (b + M)) (betaPDFReal a b) lik := by
  have h1 := beta_pos ha hb
  have h2 := beta_pos (show 0 < a + N by linarith) (show 0 < b + M by linarith)
  refine isPosteriorOn_of_prop measurableSet_Ioo (C := beta (a + N) (b + M) / beta a b) (by positivity)
    (betaPDF_integrable (by linarith) (by linarith)) (betaPDF_integral (by linarith) (by linarith)) fun x hx => ?_
  have hx1 : 0 < 1 - x := by linarith [hx.2]
  rw [hl x hx, betaPDFReal, betaPDFReal, if_pos ⟨hx.1, hx.2⟩, if_pos ⟨hx.1, hx.2⟩, show a + N - 1 = (a - 1) + N by ring,
    show b + M - 1 = (b - 1) + M by ring, Real.rpow_add hx.1, Real.rpow_add hx1]
  field_simp

/-! ### C22: block probabilities -/

/-- **C22 (p), partial.** For every adjacency matrix of zeros and ones, the beta distribution `p[c1,c2]` is drawn from is the posterior given the edges
between the two blocks, each an independent coin with success probability `p[c1,c2]`. Self edges are coins only if they are allowed.
Missing (and false, see `C22_block_probability_violated`): the case of a block's own probability with self connections disallowed. -/
theorem C22_block_probability_partial (n : SBM) (A : Mat ℝ) (hA : ∀ i < n.K, ∀ j < n.K, A i j = 0 ∨ A i j = 1)
    (h1 : 0 < n.tau1) (h0 : 0 < n.tau0) (c1 c2 : ℕ) (hself : n.allowSelf = true ∨ c1 ≠ c2) :
    Spec.IsPosteriorOn (Set.Ioo 0 1) (betaPDFReal (sbmPArgs n A c1 c2).a (sbmPArgs n A c1 c2).b) (betaPDFReal n.tau1 n.tau0)
      (fun q => ∏ i ∈ range n.K, ∏ j ∈ range n.K,
        if n.c i = c1 ∧ n.c j = c2 ∧ (n.allowSelf = true ∨ i ≠ j) then Spec.bernoulliPmf q (decide (A i j = 1)) else 1) := by
  have hcond : ∀ i j, (n.c i = c1 ∧ n.c j = c2 ∧ (n.allowSelf = true ∨ i ≠ j)) ↔ (n.c i = c1 ∧ n.c j = c2) := by
    intro i j
    constructor
    · rintro ⟨a, b, -⟩; exact ⟨a, b⟩
    · rintro ⟨a, b⟩
      refine ⟨a, b, hself.imp_right fun h hij => h ?_⟩
      subst hij; exact a.symm.trans b
  simp only [hcond]
  have hnn : ∀ f : ℕ → ℕ → ℝ, (∀ i < n.K, ∀ j < n.K, 0 ≤ f i j) → 0 ≤ blockSum n c1 c2 f := by
    intro f hf
    refine sum_nonneg fun i hi => sum_nonneg fun j hj => ?_
    split_ifs
    · exact hf i (mem_range.1 hi) j (mem_range.1 hj)
    · exact le_rfl
  refine beta_conj h1 h0 (hnn _ fun i hi j hj => by rcases hA i hi j hj with h | h <;> rw [h] <;> norm_num)
    (hnn _ fun i hi j hj => by rcases hA i hi j hj with h | h <;> rw [h] <;> norm_num) fun x hx => ?_
  have hx1 : 0 < 1 - x := by linarith [hx.2]
  unfold blockSum
  rw [Real.rpow_sum_of_pos hx.1, Real.rpow_sum_of_pos hx1, ← prod_mul_distrib]
  refine prod_congr rfl fun i hi => ?_
  rw [Real.rpow_sum_of_pos hx.1, Real.rpow_sum_of_pos hx1, ← prod_mul_distrib]
  refine prod_congr rfl fun j hj => ?_
  split_ifs with hc
  · rcases hA i (mem_range.1 hi) j (mem_range.1 hj) with h | h <;> simp [h, Spec.bernoulliPmf]
  · simp

/-- a block model with one node in one block; self connections disallowed; uniform prior -/
noncomputable def loneNode : SBM :=
  { K := 1, C := 1, pi := fun _ => 1, tau0 := 1, tau1 := 1, kappa := 1, alpha := 1, beta := 1, allowSelf := false, m := fun _ => 1, c := fun _ => 0,
    p := fun _ _ => 1 / 2, v := fun _ _ => 1, fixed := false, mfPi := fun _ => 1, mfM := fun _ _ => 1, mfTau0 := fun _ _ => 1,
    mfTau1 := fun _ _ => 1, mfAlpha := fun _ _ => 1, mfBeta := fun _ _ => 1 }

/-- **C22 (p), violated.** With self connections disallowed a block's own `p` is not drawn from its conditional: the forbidden self edges are counted as
observed non-edges. In the one-node network nothing is observed about `p`, so the conditional is the prior; the density used is different. -/
theorem C22_block_probability_violated :
    let args := sbmPArgs loneNode (fun _ _ => 0) 0 0
    (fun q : ℝ => ∏ i ∈ range loneNode.K, ∏ j ∈ range loneNode.K,
        if loneNode.c i = 0 ∧ loneNode.c j = 0 ∧ (loneNode.allowSelf = true ∨ i ≠ j) then Spec.bernoulliPmf q (decide ((0:ℝ) = 1)) else 1) = (fun _ => 1) ∧
    args.a = 1 ∧ args.b = 2 ∧ betaPDFReal args.a args.b (1 / 4) ≠ betaPDFReal loneNode.tau1 loneNode.tau0 (1 / 4) := by
  have ha : (sbmPArgs loneNode (fun _ _ => 0) 0 0).a = 1 := by simp [sbmPArgs, blockSum, loneNode]
  have hb : (sbmPArgs loneNode (fun _ _ => 0) 0 0).b = 2 := by simp [sbmPArgs, blockSum, loneNode]; norm_num
  refine ⟨by funext q; simp [loneNode], ha, hb, ?_⟩
  rw [ha, hb]
  have e1 : betaPDFReal 1 2 (1 / 4) = 3 / 2 := by
    rw [betaPDFReal, if_pos (by norm_num), beta]
    have h3 : Real.Gamma (1 + 2) = 2 := by
      have := Real.Gamma_nat_eq_factorial 2
      rw [show ((2:ℕ):ℝ) + 1 = 1 + 2 by norm_num] at this
      rw [this]; norm_num [Nat.factorial]
    rw [h3]
    norm_num
  have e2 : betaPDFReal loneNode.tau1 loneNode.tau0 (1 / 4) = 1 := by
    show betaPDFReal 1 1 (1 / 4) = 1
    rw [betaPDFReal, if_pos (by norm_num), beta]
    norm_num
  rw [e1, e2]
  norm_num

/-! ### C22: scales -/

theorem gamma_lik_prod {ι : Type*} (s : Finset ι) (kappa : ℝ) (hk : 0 < kappa) (w : ι → ℝ) (on : ι → Prop) [DecidablePred on]
    (hw : ∀ i ∈ s, on i → 0 < w i) :
    ∃ c, 0 < c ∧ ∀ x, 0 < x → (∏ i ∈ s, if on i then gammaPDFReal kappa x (w i) else 1)
      = c * x ^ ((∑ i ∈ s, if on i then (1:ℝ) else 0) * kappa) * Real.exp (-((∑ i ∈ s, if on i then w i else 0) * x)) := by
  classical
  have hG := Real.Gamma_pos_of_pos hk
  refine ⟨∏ i ∈ s, (if on i then w i ^ (kappa - 1) / Real.Gamma kappa else 1), prod_pos fun i hi => ?_, fun x hx => ?_⟩
  · split_ifs with h
    · exact div_pos (Real.rpow_pos_of_pos (hw i hi h) _) hG
    · exact one_pos
  · rw [sum_mul, sum_mul, Real.rpow_sum_of_pos hx, ← sum_neg_distrib, Real.exp_sum, ← prod_mul_distrib, ← prod_mul_distrib]
    refine prod_congr rfl fun i hi => ?_
    split_ifs with h
    · rw [gammaPDFReal, if_pos (hw i hi h).le, one_mul, mul_comm x]
      ring
    · simp

/-- **C22 (v).** The gamma distribution `v[c1,c2]` is drawn from is the posterior of the weights' rate parameter given the weights of the present
edges between the two blocks. -/
theorem C22_block_scale (n : SBM) (A W : Mat ℝ) (hA : ∀ i < n.K, ∀ j < n.K, A i j = 0 ∨ A i j = 1)
    (hW : ∀ i < n.K, ∀ j < n.K, A i j = 1 → 0 < W i j) (hal : 0 < n.alpha) (hbe : 0 < n.beta) (hk : 0 < n.kappa) (c1 c2 : ℕ) :
    let args := sbmVArgs n A W c1 c2
    0 < args.shape ∧ 0 < args.scale ∧ Spec.IsPosterior (Spec.npGammaPdf args.shape args.scale) (gammaPDFReal n.alpha n.beta)
      (fun v => ∏ i ∈ range n.K, ∏ j ∈ range n.K,
        if n.c i = c1 ∧ n.c j = c2 ∧ A i j = 1 then gammaPDFReal n.kappa v (W i j) else 1) := by
  intro args
  obtain ⟨c, hc, hl⟩ := gamma_lik_prod (range n.K ×ˢ range n.K) n.kappa hk (fun q => W q.1 q.2) (fun q => n.c q.1 = c1 ∧ n.c q.2 = c2 ∧ A q.1 q.2 = 1)
    (fun q hq h => hW _ (mem_range.1 (mem_product.1 hq).1) _ (mem_range.1 (mem_product.1 hq).2) h.2.2)
  set N := ∑ q ∈ range n.K ×ˢ range n.K, if n.c q.1 = c1 ∧ n.c q.2 = c2 ∧ A q.1 q.2 = 1 then (1:ℝ) else 0 with hN
  set E := ∑ q ∈ range n.K ×ˢ range n.K, if n.c q.1 = c1 ∧ n.c q.2 = c2 ∧ A q.1 q.2 = 1 then W q.1 q.2 else 0 with hE
  have hN0 : 0 ≤ N := sum_nonneg fun q _ => by split_ifs <;> norm_num
  have hE0 : 0 ≤ E := sum_nonneg fun q hq => by
    split_ifs with h
    · exact (hW _ (mem_range.1 (mem_product.1 hq).1) _ (mem_range.1 (mem_product.1 hq).2) h.2.2).le
    · exact le_rfl
  have e1 : blockSum n c1 c2 (fun i j => A i j) = N := by
    rw [hN, sum_product]
    refine sum_congr rfl fun i hi => sum_congr rfl fun j hj => ?_
    rcases hA i (mem_range.1 hi) j (mem_range.1 hj) with h | h <;> simp [h]
  have e2 : blockSum n c1 c2 (fun i j => if 0 < A i j then W i j else 0) = E := by
    rw [hE, sum_product]
    refine sum_congr rfl fun i hi => sum_congr rfl fun j hj => ?_
    rcases hA i (mem_range.1 hi) j (mem_range.1 hj) with h | h <;> simp [h]
  have harg : args = ⟨n.alpha + N * n.kappa, 1 / (n.beta + E)⟩ := by simp only [args, sbmVArgs, e1, e2]
  have hNk : 0 ≤ N * n.kappa := by positivity
  rw [harg]
  refine ⟨by show 0 < n.alpha + N * n.kappa; linarith, by show 0 < 1 / (n.beta + E); positivity, ?_⟩
  unfold Spec.npGammaPdf
  simp only [one_div_one_div]
  refine gamma_conj hal hbe hNk hE0 hc fun x hx => ?_
  rw [← hl x hx, prod_product]

/-! ### C22: block probabilities `m` -/

/-- **C22 (m).** The Dirichlet `m` is drawn from has, at every vector with positive entries, density proportional to the prior's times the probability of the
current labels. -/
theorem C22_block_weights (n : SBM) (hc : ∀ k < n.K, n.c k < n.C) (x : Vec ℝ) (hx : ∀ b < n.C, 0 < x b) :
    ∏ b ∈ range n.C, x b ^ (sbmMArgs n b - 1) = (∏ b ∈ range n.C, x b ^ (n.pi b - 1)) * ∏ k ∈ range n.K, x (n.c k) := by
  have : ∀ b ∈ range n.C, x b ^ (sbmMArgs n b - 1) = x b ^ (n.pi b - 1) * ∏ k ∈ range n.K, if n.c k = b then x b else 1 := by
    intro b hb
    have hxb := hx b (mem_range.1 hb)
    rw [sbmMArgs, add_sub_right_comm, Real.rpow_add hxb, Real.rpow_sum_of_pos hxb]
    congr 1
    refine prod_congr rfl fun k _ => ?_
    split_ifs <;> simp
  rw [prod_congr rfl this, prod_mul_distrib, prod_comm]
  congr 1
  refine prod_congr rfl fun k hk => ?_
  rw [prod_ite_eq (range n.C) (n.c k) x, if_pos (mem_range.2 (hc k (mem_range.1 hk)))]

/-! ### C22: labels -/

/-- probability of the edge and weight between two nodes with edge probability `p` and weight rate `v` -/
noncomputable def pairLik (kappa p v a w : ℝ) : ℝ := Spec.bernoulliPmf p (decide (a = 1)) * if a = 1 then gammaPDFReal kappa v w else 1

/-- joint probability of label `ck` of node `k` and of all edges and weights of `k`, given the other labels: each pair once -/
noncomputable def labelJoint (n : SBM) (A W : Mat ℝ) (k ck : ℕ) : ℝ :=
  n.m ck * pairLik n.kappa (n.p ck ck) (n.v ck ck) (A k k) (W k k) *
    ∏ j ∈ (range n.K).erase k, pairLik n.kappa (n.p ck (n.c j)) (n.v ck (n.c j)) (A k j) (W k j) *
      pairLik n.kappa (n.p (n.c j) ck) (n.v (n.c j) ck) (A j k) (W j k)

theorem pair_log (huge : ℝ) {kappa p v a w : ℝ} (hk : 0 < kappa) (hp0 : 0 < p) (hp1 : p < 1) (hv : 0 < v) (ha : a = 0 ∨ a = 1) (hw : a = 1 → 0 < w) :
    0 < pairLik kappa p v a w ∧ Real.exp (bernLogProb huge p a + a * gammaLogProb huge kappa v w) = pairLik kappa p v a w := by
  rcases ha with rfl | rfl
  · have h := (C57_bernoulli_log_mass huge hp0.le hp1.le false).1 ⟨hp0, hp1⟩
    simp [Spec.bernoulliPmf] at h
    have : 0 < 1 - p := by linarith
    simp [pairLik, Spec.bernoulliPmf, h, Real.exp_log this, this]
  · have h := (C57_bernoulli_log_mass huge hp0.le hp1.le true).1 ⟨hp0, hp1⟩
    simp [Spec.bernoulliPmf] at h
    have hg := gammaPDFReal_pos hk hv (hw rfl)
    rw [one_mul, C57_gamma_log_density huge hk hv (hw rfl), h, Real.exp_add, Real.exp_log hp0, Real.exp_log hg]
    simp [pairLik, Spec.bernoulliPmf]
    exact mul_pos hp0 hg

/-- The weights the label of node `k` is drawn from: the joint probability times one more factor for the self edge. -/
theorem sbmLp_eq (huge : ℝ) (n : SBM) (A W : Mat ℝ) (k ck : ℕ) (hk : k < n.K) (hck : ck < n.C) (hc : ∀ k < n.K, n.c k < n.C)
    (hkap : 0 < n.kappa) (hm : ∀ b < n.C, 0 < n.m b) (hp : ∀ b < n.C, ∀ b' < n.C, 0 < n.p b b' ∧ n.p b b' < 1) (hv : ∀ b < n.C, ∀ b' < n.C, 0 < n.v b b')
    (hA : ∀ i < n.K, ∀ j < n.K, A i j = 0 ∨ A i j = 1) (hW : ∀ i < n.K, ∀ j < n.K, A i j = 1 → 0 < W i j) :
    Real.exp (sbmLp huge n A W k ck) = labelJoint n A W k ck * pairLik n.kappa (n.p ck ck) (n.v ck ck) (A k k) (W k k) := by
  have h1 : sbmLp huge n A W k ck = Real.log (n.m ck) + ∑ j ∈ range n.K,
      ((bernLogProb huge (n.p ck (Vec.set n.c k ck j)) (A k j) + A k j * gammaLogProb huge n.kappa (n.v ck (Vec.set n.c k ck j)) (W k j)) +
       (bernLogProb huge (n.p (Vec.set n.c k ck j) ck) (A j k) + A j k * gammaLogProb huge n.kappa (n.v (Vec.set n.c k ck j) ck) (W j k))) := by
    unfold sbmLp
    simp only [sum_add_distrib]
    ring
  rw [h1, Real.exp_add, Real.exp_log (hm ck hck), Real.exp_sum, ← mul_prod_erase (range n.K) _ (mem_range.2 hk)]
  have hset : Vec.set n.c k ck k = ck := by simp [Vec.set]
  rw [hset, Real.exp_add, (pair_log huge hkap (hp ck hck ck hck).1 (hp ck hck ck hck).2 (hv ck hck ck hck) (hA k hk k hk) (hW k hk k hk)).2]
  have : ∀ j ∈ (range n.K).erase k, Real.exp
      ((bernLogProb huge (n.p ck (Vec.set n.c k ck j)) (A k j) + A k j * gammaLogProb huge n.kappa (n.v ck (Vec.set n.c k ck j)) (W k j)) +
       (bernLogProb huge (n.p (Vec.set n.c k ck j) ck) (A j k) + A j k * gammaLogProb huge n.kappa (n.v (Vec.set n.c k ck j) ck) (W j k)))
      = pairLik n.kappa (n.p ck (n.c j)) (n.v ck (n.c j)) (A k j) (W k j) * pairLik n.kappa (n.p (n.c j) ck) (n.v (n.c j) ck) (A j k) (W j k) := by
    intro j hj
    have hjk : j ≠ k := (mem_erase.1 hj).1
    have hjK := mem_range.1 (mem_erase.1 hj).2
    have hs : Vec.set n.c k ck j = n.c j := by simp [Vec.set, hjk]
    have hcj := hc j hjK
    rw [hs, Real.exp_add, (pair_log huge hkap (hp ck hck _ hcj).1 (hp ck hck _ hcj).2 (hv ck hck _ hcj) (hA k hk j hjK) (hW k hk j hjK)).2,
      (pair_log huge hkap (hp _ hcj ck hck).1 (hp _ hcj ck hck).2 (hv _ hcj ck hck) (hA j hjK k hk) (hW j hjK k hk)).2]
  rw [prod_congr rfl this, labelJoint]
  ring

/-- **C22 (labels), partial.** When the self edge carries no information about the label (all blocks have the same own `p` and `v`), the label of each node
is drawn with its conditional probability given all other labels, edges and weights. Missing (and false, see `C22_labels_violated`): blocks with
different own `p` or `v`, because the self edge is counted twice. -/
theorem C22_labels_partial (huge : ℝ) (n : SBM) (A W : Mat ℝ) (k ck : ℕ) (hk : k < n.K) (hck : ck < n.C) (hc : ∀ k < n.K, n.c k < n.C)
    (hkap : 0 < n.kappa) (hm : ∀ b < n.C, 0 < n.m b) (hp : ∀ b < n.C, ∀ b' < n.C, 0 < n.p b b' ∧ n.p b b' < 1) (hv : ∀ b < n.C, ∀ b' < n.C, 0 < n.v b b')
    (hA : ∀ i < n.K, ∀ j < n.K, A i j = 0 ∨ A i j = 1) (hW : ∀ i < n.K, ∀ j < n.K, A i j = 1 → 0 < W i j)
    (hsame : ∀ b < n.C, n.p b b = n.p ck ck ∧ n.v b b = n.v ck ck) :
    Spec.normalised n.C (fun b => Real.exp (sbmLp huge n A W k b)) ck = Spec.normalised n.C (labelJoint n A W k) ck := by
  unfold Spec.normalised
  set s := pairLik n.kappa (n.p ck ck) (n.v ck ck) (A k k) (W k k) with hs
  have hspos : 0 < s := (pair_log huge hkap (hp ck hck ck hck).1 (hp ck hck ck hck).2 (hv ck hck ck hck) (hA k hk k hk) (hW k hk k hk)).1
  have h : ∀ b ∈ range n.C, Real.exp (sbmLp huge n A W k b) = labelJoint n A W k b * s := by
    intro b hb
    rw [sbmLp_eq huge n A W k b hk (mem_range.1 hb) hc hkap hm hp hv hA hW, (hsame b (mem_range.1 hb)).1, (hsame b (mem_range.1 hb)).2]
  show Real.exp (sbmLp huge n A W k ck) / _ = _
  rw [sum_congr rfl h, ← sum_mul, h ck (mem_range.2 hck), mul_div_mul_right _ _ hspos.ne']

/-- a node without edges and two blocks whose own edge probabilities differ -/
noncomputable def twoBlocks : SBM :=
  { K := 1, C := 2, pi := fun _ => 1, tau0 := 1, tau1 := 1, kappa := 1, alpha := 1, beta := 1, allowSelf := true, m := fun _ => 1 / 2, c := fun _ => 0,
    p := fun i _ => if i = 0 then 1 / 2 else 3 / 4, v := fun _ _ => 1, fixed := false, mfPi := fun _ => 1, mfM := fun _ _ => 1, mfTau0 := fun _ _ => 1,
    mfTau1 := fun _ _ => 1, mfAlpha := fun _ _ => 1, mfBeta := fun _ _ => 1 }

/-- **C22 (labels), violated.** The conditional probability of the first block is 2/3, the code draws it with probability 4/5. -/
theorem C22_labels_violated (huge : ℝ) :
    Spec.normalised 2 (labelJoint twoBlocks (fun _ _ => 0) (fun _ _ => 0) 0) 0 = 2 / 3 ∧
    Spec.normalised 2 (fun b => Real.exp (sbmLp huge twoBlocks (fun _ _ => 0) (fun _ _ => 0) 0 b)) 0 = 4 / 5 := by
  have e : ∀ b < 2, labelJoint twoBlocks (fun _ _ => 0) (fun _ _ => 0) 0 b = if b = 0 then 1 / 4 else 1 / 8 := by
    intro b hb
    interval_cases b <;> norm_num [labelJoint, twoBlocks, pairLik, Spec.bernoulliPmf]
  have l : ∀ b < 2, Real.exp (sbmLp huge twoBlocks (fun _ _ => 0) (fun _ _ => 0) 0 b) = if b = 0 then 1 / 8 else 1 / 32 := by
    intro b hb
    rw [sbmLp_eq huge twoBlocks _ _ 0 b (by norm_num [twoBlocks]) hb (by norm_num [twoBlocks]) (by norm_num [twoBlocks]) (by norm_num [twoBlocks])
      (by intro i _ j _; constructor <;> (simp only [twoBlocks]; split_ifs <;> norm_num)) (by norm_num [twoBlocks]) (by simp) (by simp), e b hb]
    interval_cases b <;> norm_num [twoBlocks, pairLik, Spec.bernoulliPmf]
  constructor
  · unfold Spec.normalised
    simp only [sum_range_succ, range_zero, sum_empty, e 0 (by norm_num), e 1 (by norm_num)]
    norm_num
  · unfold Spec.normalised
    simp only [sum_range_succ, range_zero, sum_empty, l 0 (by norm_num), l 1 (by norm_num)]
    norm_num

/-! non-vacuity of the C22 hypotheses: two nodes in two blocks of equal parameters, one edge -/
example : let n : SBM := { twoBlocks with K := 2, c := fun k => k, p := fun _ _ => 1 / 3 }
    let A : Mat ℝ := fun i j => if i = 0 ∧ j = 1 then 1 else 0
    (∀ i < n.K, ∀ j < n.K, A i j = 0 ∨ A i j = 1) ∧ (∀ k < n.K, n.c k < n.C) ∧ (∀ b < n.C, ∀ b' < n.C, 0 < n.p b b' ∧ n.p b b' < 1) ∧
    (∀ b < n.C, n.p b b = n.p 0 0 ∧ n.v b b = n.v 0 0) ∧ blockSum n 0 1 A = 1 := by
  refine ⟨fun i _ j _ => by dsimp only; split_ifs <;> simp, fun k hk => hk, fun b _ b' _ => by norm_num, fun b _ => ⟨rfl, rfl⟩, ?_⟩
  simp [blockSum, sum_range_succ]

/-! ### C23 -/

/-- **C23 (fixed block model).** Once built with `c`, `p`, `v` all given, no number of sampler iterations, with whatever draws and data, changes anything. -/
theorem C23_fixed_never_changes (huge : ℝ) (n : SBM) (hf : n.fixed = true) (steps : List (SBMOracle × Mat ℝ × Mat ℝ)) :
    steps.foldl (fun n s => sbmResample huge s.1 s.2.1 s.2.2 n) n = n ∧ steps.foldl (fun n s => sbmFixedResample huge s.1 s.2.1 s.2.2 n) n = n := by
  induction steps with
  | nil => exact ⟨rfl, rfl⟩
  | cons s steps ih =>
    simp only [List.foldl_cons]
    rw [show sbmResample huge s.1 s.2.1 s.2.2 n = n by rw [sbmResample, if_pos hf],
      show sbmFixedResample huge s.1 s.2.1 s.2.2 n = n by rw [sbmFixedResample, if_pos hf]]
    exact ih

/-- the hypothesis is reachable: older numpy, two nodes in one block, scalar `p` and `v` (newer numpy: see `C49_labels_rejected_violated`) -/
example (d : SBMDraws) : ∃ n, erNew false 2 (.scalar (1 / 2)) (.scalar 1) 1 1 1 1 1 d = .ok n ∧ n.fixed = true := by
  have hb : ∃ n, sbmBase false { K := 2, C := 1, c := .array 2 (fun _ => 0), pi := fun _ => 1, m := none, p := .scalar (1 / 2), tau0 := 1, tau1 := 1, v := .scalar 1, alpha := 1, beta := 1, kappa := 1, allowSelf := true } d = .ok n ∧ n.fixed = true := by
    simp only [sbmBase, sbmInitM, sbmInitC, sbmInitP, sbmInitV, noneIn, LabArg.val, MatArg.val]
    norm_num
  obtain ⟨n, hn, hf⟩ := hb
  exact ⟨n, by rw [erNew, sbmNew, hn]; simp [hf], hf⟩

/-- `resample_c` changes only the labels -/
theorem sbmResampleC_p (huge : ℝ) (o : SBMOracle) (A W : Mat ℝ) (n : SBM) :
    (sbmResampleC huge o A W n).p = n.p ∧ (sbmResampleC huge o A W n).allowSelf = n.allowSelf ∧ (sbmResampleC huge o A W n).fixed = n.fixed := by
  unfold sbmResampleC
  split_ifs
  · exact ⟨rfl, rfl, rfl⟩
  · exact forRange_induct (fun _ (s : SBM) => s.p = n.p ∧ s.allowSelf = n.allowSelf ∧ s.fixed = n.fixed) n.K _ n ⟨rfl, rfl, rfl⟩ fun i _ s hs => hs

/-- **C23 (fixed sparsity).** A fixed-sparsity block model keeps its `p` through any number of sampler iterations; a node pair's connection probability can then only
change through the labels. -/
theorem C23_fixed_sparsity_keeps_p (huge : ℝ) (n : SBM) (steps : List (SBMOracle × Mat ℝ × Mat ℝ)) :
    (steps.foldl (fun n s => sbmFixedResample huge s.1 s.2.1 s.2.2 n) n).p = n.p := by
  induction steps generalizing n with
  | nil => rfl
  | cons s steps ih =>
    simp only [List.foldl_cons]
    rw [ih]
    unfold sbmFixedResample
    split_ifs
    · rfl
    · show (sbmResampleC huge s.1 s.2.1 s.2.2 (sbmResampleV s.1 s.2.1 s.2.2 n)).p = n.p
      rw [(sbmResampleC_p _ _ _ _ _).1]; rfl

/-- **C23 (Erdos-Renyi).** An Erdos-Renyi fixed-sparsity network never changes `p`, and over any number of iterations keeps `v` unless it was built with a gamma prior with
nonzero `alpha` and `beta`. -/
theorem C23_erdos_renyi (K : ℕ) (p kappa : ℝ) (alpha beta v : Option ℝ) (allowSelf : Bool) (n : ERFixed)
    (hn : erFixedNew K p kappa alpha beta v allowSelf = .ok n) (steps : List ((GammaArgs → ℝ) × Mat ℝ × Mat ℝ)) :
    let n' := steps.foldl (fun n s => erResample s.1 s.2.1 s.2.2 n) n
    n'.p = p ∧ n'.kappa = kappa ∧ n'.K = K ∧ n'.P = n.P ∧
    ((v.isSome = true ∨ alpha = none ∨ alpha = some 0 ∨ beta = some 0) → n'.v = n.v) := by
  have key : ∀ (steps : List ((GammaArgs → ℝ) × Mat ℝ × Mat ℝ)) (n : ERFixed),
      let n' := steps.foldl (fun n s => erResample s.1 s.2.1 s.2.2 n) n
      n'.p = n.p ∧ n'.kappa = n.kappa ∧ n'.K = n.K ∧ n'.allowSelf = n.allowSelf ∧ n'.alpha = n.alpha ∧ n'.beta = n.beta ∧
      ((truthy n.alpha && truthy n.beta) = false → n'.v = n.v) := by
    intro steps
    induction steps with
    | nil => intro n; simp
    | cons s steps ih =>
      intro n
      have h1 : (erResample s.1 s.2.1 s.2.2 n).p = n.p ∧ (erResample s.1 s.2.1 s.2.2 n).kappa = n.kappa ∧ (erResample s.1 s.2.1 s.2.2 n).K = n.K ∧
          (erResample s.1 s.2.1 s.2.2 n).allowSelf = n.allowSelf ∧ (erResample s.1 s.2.1 s.2.2 n).alpha = n.alpha ∧
          (erResample s.1 s.2.1 s.2.2 n).beta = n.beta ∧ ((truthy n.alpha && truthy n.beta) = false → (erResample s.1 s.2.1 s.2.2 n).v = n.v) := by
        unfold erResample
        split
        · rename_i a b ha hb
          split_ifs with h
          · refine ⟨rfl, rfl, rfl, rfl, rfl, rfl, fun h' => ?_⟩
            rw [ha, hb, h] at h'; cases h'
          · exact ⟨rfl, rfl, rfl, rfl, rfl, rfl, fun _ => rfl⟩
        · exact ⟨rfl, rfl, rfl, rfl, rfl, rfl, fun _ => rfl⟩
      obtain ⟨a1, a2, a3, a4, a5, a6, a7⟩ := ih (erResample s.1 s.2.1 s.2.2 n)
      simp only [List.foldl_cons]
      refine ⟨a1.trans h1.1, a2.trans h1.2.1, a3.trans h1.2.2.1, a4.trans h1.2.2.2.1, a5.trans h1.2.2.2.2.1, a6.trans h1.2.2.2.2.2.1, fun h => ?_⟩
      rw [a7 (by rw [h1.2.2.2.2.1, h1.2.2.2.2.2.1]; exact h), h1.2.2.2.2.2.2 h]
  obtain ⟨a1, a2, a3, a4, a5, a6, a7⟩ := key steps n
  intro n'
  have hb : n.p = p ∧ n.kappa = kappa ∧ n.K = K ∧ ((v.isSome = true ∨ alpha = none ∨ alpha = some 0 ∨ beta = some 0) → (truthy n.alpha && truthy n.beta) = false) := by
    clear a1 a2 a3 a4 a5 a6 a7 key n'
    unfold erFixedNew at hn
    rcases alpha with _ | a <;> rcases beta with _ | b <;> rcases v with _ | v <;> simp only [Except.ok.injEq, reduceCtorEq] at hn <;> subst hn <;>
      refine ⟨rfl, rfl, rfl, ?_⟩ <;> simp [truthy] <;> intros <;> simp_all
  refine ⟨a1.trans hb.1, a2.trans hb.2.1, a3.trans hb.2.2.1, ?_, fun h => a7 (hb.2.2.2 h)⟩
  show ERFixed.P _ = ERFixed.P _
  unfold ERFixed.P
  rw [a1, a4]

/-! ### C48 -/

/-- **C48.** The scale rules of the Erdos-Renyi network, for every combination of given and missing arguments. -/
theorem C48_erdos_renyi_scale_rules (K : ℕ) (hK : 0 < K) (p kappa : ℝ) (allowSelf : Bool) :
    (∃ n, erFixedNew K p kappa none none none allowSelf = .ok n ∧ n.v = 2 * K * kappa * p ∧ n.mf = none) ∧
    (∀ alpha beta v, ∃ n, erFixedNew K p kappa alpha beta (some v) allowSelf = .ok n ∧ n.v = v ∧ n.mf = none) ∧
    (∀ a ≠ 0, ∃ n, erFixedNew K p kappa (some a) none none allowSelf = .ok n ∧ n.v = 1 / K ∧ n.mf = some (a, a * K)) ∧
    (∀ a ≠ 0, ∀ b ≠ 0, ∃ n, erFixedNew K p kappa (some a) (some b) none allowSelf = .ok n ∧ n.v = a / b ∧ n.mf = some (a, b)) ∧
    (∀ b, erFixedNew K p kappa none (some b) none allowSelf = .error .notImplemented) := by
  have hK' : (K:ℝ) ≠ 0 := Nat.cast_ne_zero.2 hK.ne'
  refine ⟨⟨_, rfl, ?_, rfl⟩, ?_, ?_, ?_, fun b => rfl⟩
  · show (K:ℝ) * kappa * p / 0.5 = _
    ring
  · intro alpha beta v
    rcases alpha with _ | a <;> rcases beta with _ | b <;> exact ⟨_, rfl, rfl, rfl⟩
  · intro a ha
    refine ⟨_, rfl, ?_, ?_⟩
    · show a / (a * K) = 1 / K
      field_simp
    · simp [truthy, ha, hK']
  · intro a ha b hb
    refine ⟨_, rfl, rfl, ?_⟩
    simp [truthy, ha, hb]

/-- **C48 (meaning of the default scale).** With the default scale the expected total effective weight leaving a process — `K` potential edges, each present with
probability `p` and then of mean `kappa / v` (gamma with shape `kappa` and rate `v`) — is one half. -/
theorem C48_default_scale_half (K : ℕ) (hK : 0 < K) (p kappa : ℝ) (hp : 0 < p) (hk : 0 < kappa) (n : ERFixed)
    (hn : erFixedNew K p kappa none none none true = .ok n) :
    ∑ j ∈ range K, n.P 0 j * ∫ w in Set.Ioi 0, gammaPDFReal n.kappa (n.V 0 j) w * w = 1 / 2 := by
  have hK' : (0:ℝ) < K := Nat.cast_pos.2 hK
  obtain ⟨h1, h2, h3, h4⟩ : n.P = (fun _ _ => p) ∧ n.kappa = kappa ∧ n.V = (fun _ _ => K * kappa * p * 2) ∧ True := by
    cases hn
    refine ⟨?_, rfl, ?_, trivial⟩
    · funext i j; simp [ERFixed.P]
    · funext i j; simp only [ERFixed.V]; ring
  have hv : (0:ℝ) < K * kappa * p * 2 := by positivity
  simp only [h1, h2, h3]
  rw [(gamma_mean hk hv).2, sum_const, card_range, nsmul_eq_mul]
  field_simp

example : (∃ n, erFixedNew 5 0.5 1 none none none true = .ok n) := ⟨_, rfl⟩

/-- **C48 (P).** `P` is constant with zero diagonal when self connections are disallowed. -/
theorem C48_P (n : ERFixed) (i j : ℕ) : n.P i j = if i = j ∧ n.allowSelf = false then 0 else n.p := by
  unfold ERFixed.P
  cases h : n.allowSelf <;> simp

/-! ### C49 -/

/-- **C49 (lookup).** `P` and `V` look up the block pair; the diagonal of `P` is zero when self connections are disallowed. -/
theorem C49_lookup (n : SBM) (i j : ℕ) :
    n.V i j = n.v (n.c i) (n.c j) ∧ n.P i j = if i = j ∧ n.allowSelf = false then 0 else n.p (n.c i) (n.c j) := by
  refine ⟨rfl, ?_⟩
  unfold SBM.P
  cases h : n.allowSelf <;> simp

theorem sbmBase_ok {e : Bool} {a : SBMArgs} {d : SBMDraws} {n : SBM} (h : sbmBase e a d = .ok n) :
    sbmInitC a d.c = .ok n.c ∧ sbmInitP a.C a.p d.p = .ok n.p ∧ sbmInitV a.C a.v d.v = .ok n.v ∧ noneIn e [a.c.val, a.p.val, a.v.val] = .ok (!n.fixed) ∧
    n.K = a.K ∧ n.C = a.C ∧ n.allowSelf = a.allowSelf := by
  unfold sbmBase at h
  split_ifs at h
  split at h
  · cases h
  · rename_i m hm
    split at h
    · cases h
    · rename_i c hc
      split at h
      · cases h
      · rename_i p hp
        split at h
        · cases h
        · rename_i v hv
          split at h
          · cases h
          · rename_i b hb
            cases h
            simp [hc, hp, hv, hb]

/-- **C49 (partial: everything given, scalars).** If construction succeeds with `c`, `p`, `v` all given, the network is fixed and keeps all three (labels, broadcast scalars or
arrays). Missing: keeping a value that is given while another one is not (`C49_given_p_lost_violated`). -/
theorem C49_all_given_kept_partial (e : Bool) (a : SBMArgs) (d : SBMDraws) (n : SBM) (hok : sbmNew e a d = .ok n) (len : ℕ) (lab : ℕ → ℤ)
    (hc : a.c = .array len lab) (hp : a.p ≠ .none) (hv : a.v ≠ .none) :
    n.fixed = true ∧ (∀ i < a.K, (n.c i : ℤ) = lab i ∧ n.c i < a.C) ∧
    (∀ x, a.p = .scalar x → ∀ i j, n.p i j = x) ∧ (∀ r s m, a.p = .array r s m → n.p = m) ∧
    (∀ x, a.v = .scalar x → ∀ i j, n.v i j = x) ∧ (∀ r s m, a.v = .array r s m → n.v = m) := by
  unfold sbmNew at hok
  split at hok
  · cases hok
  · rename_i n0 h0
    obtain ⟨hcc, hpp, hvv, hnone, hK, hC, -⟩ := sbmBase_ok h0
    have hfix : n0.fixed = true := by
      have hb : ∀ b, noneIn e [a.c.val, a.p.val, a.v.val] = .ok b → b = false := by
        intro b hb
        rw [hc] at hb
        simp only [LabArg.val, noneIn] at hb
        split_ifs at hb
        revert hb hp hv
        rcases a.p with _ | x | ⟨r, s, m⟩ <;> rcases a.v with _ | x' | ⟨r', s', m'⟩ <;> intro hp hv hb <;>
          simp only [ne_eq, not_true_eq_false, MatArg.val, noneIn] at hp hv hb <;> (try split_ifs at hb) <;> simp_all
      have := hb _ hnone
      simpa using this
    rw [if_pos hfix] at hok
    cases hok
    refine ⟨hfix, ?_, ?_, ?_, ?_, ?_⟩
    · unfold sbmInitC at hcc
      rw [hc] at hcc
      dsimp only at hcc
      split_ifs at hcc with h
      have he := Except.ok.inj hcc
      intro i hi
      obtain ⟨h1, h2⟩ := h.2 i hi
      rw [← he]
      dsimp only
      have : 1 ≤ a.C := by
        by_contra hlt
        unfold sbmBase at h0
        rw [if_pos (by omega)] at h0
        cases h0
      omega
    · intro x hx i j
      rw [hx] at hpp
      unfold sbmInitP at hpp
      dsimp only at hpp
      split_ifs at hpp
      rw [← Except.ok.inj hpp]; simp
    · intro r s m hx
      rw [hx] at hpp
      unfold sbmInitP at hpp
      dsimp only at hpp
      split_ifs at hpp
      exact (Except.ok.inj hpp).symm
    · intro x hx i j
      rw [hx] at hvv
      unfold sbmInitV at hvv
      dsimp only at hvv
      split_ifs at hvv
      rw [← Except.ok.inj hvv]; simp
    · intro r s m hx
      rw [hx] at hvv
      unfold sbmInitV at hvv
      dsimp only at hvv
      split_ifs at hvv
      exact (Except.ok.inj hvv).symm

/-- arguments: two nodes, one block, `p = 1/2` given, nothing else -/
noncomputable def givenP : SBMArgs :=
  { K := 2, C := 1, c := .none, pi := fun _ => 1, m := none, p := .scalar (1 / 2), tau0 := 0.1, tau1 := 0.1, v := .none, alpha := 1, beta := 1, kappa := 1,
    allowSelf := true }

/-- **C49, violated.** A block model that is given `p = 1/2` and no labels ends up with whatever `GibbsSBM.__init__` draws for `p`. -/
theorem C49_given_p_lost_violated (e : Bool) (d : SBMDraws) (hd : d.p' 0 0 ≠ 1 / 2) :
    ∃ n, sbmNew e givenP d = .ok n ∧ n.p 0 0 ≠ 1 / 2 := by
  have hb : ∃ n, sbmBase e givenP d = .ok n ∧ n.fixed = false := by
    unfold sbmBase
    rw [if_neg (by norm_num [givenP])]
    have h2 : sbmInitP givenP.C givenP.p d.p = .ok (fun _ _ => 1 / 2 * 1) := by
      simp only [sbmInitP, givenP]
      rw [if_pos (by norm_num)]
    rw [show sbmInitM givenP d.m = .ok d.m from rfl, show sbmInitC givenP d.c = .ok d.c from rfl, h2, show sbmInitV givenP.C givenP.v d.v = .ok d.v from rfl,
      show noneIn e [givenP.c.val, givenP.p.val, givenP.v.val] = .ok true from rfl]
    exact ⟨_, rfl, rfl⟩
  obtain ⟨n, hn, hf⟩ := hb
  refine ⟨_, by rw [sbmNew, hn], ?_⟩
  rw [hf]
  exact hd

/-- **C49 (fixed sparsity).** The fixed-sparsity block model keeps the given `p` whatever else is given, if construction succeeds. -/
theorem C49_fixed_sparsity_keeps_p (e : Bool) (a : SBMArgs) (d : SBMDraws) (n : SBM) (hok : sbmFixedNew e a d = .ok n) :
    (∀ x, a.p = .scalar x → ∀ i j, n.p i j = x) ∧ (∀ r s m, a.p = .array r s m → n.p = m ∧ r = a.C ∧ s = a.C) ∧ a.p ≠ .none := by
  unfold sbmFixedNew at hok
  rcases hp : a.p with _ | x | ⟨r, s, m⟩ <;> rw [hp] at hok
  · cases hok
  all_goals
    dsimp only at hok
    split at hok
    · cases hok
    · split at hok
      · cases hok
      · rename_i q hq
        cases hok
        unfold sbmInitP at hq
        dsimp only at hq
        split_ifs at hq with h
        have he := Except.ok.inj hq
        refine ⟨?_, ?_, by simp⟩
        · intro y hy i j
          cases hy
          try rw [← he]
          try simp
        · intro r' s' m' hy
          cases hy
          try exact ⟨he.symm, h.1, h.2.1⟩

/-- **C49 (violated: giving labels).** With numpy 1.13 or later, giving the labels of two or more nodes makes the constructor raise — in particular every
`ErdosRenyiModel` of two or more nodes. -/
theorem C49_labels_rejected_violated (K : ℕ) (hK : 1 < K) (p v : MatArg) (tau0 tau1 alpha beta kappa : ℝ) (d : SBMDraws) :
    ∃ err, erNew true K p v tau0 tau1 alpha beta kappa d = .error err := by
  unfold erNew sbmNew
  cases h : sbmBase true { K := K, C := 1, c := .array K (fun _ => 0), pi := fun _ => 1, m := none, p := p, tau0 := tau0, tau1 := tau1, v := v, alpha := alpha, beta := beta, kappa := kappa, allowSelf := true } d with
  | error e => exact ⟨e, rfl⟩
  | ok n =>
    exfalso
    obtain ⟨-, -, -, hn, -⟩ := sbmBase_ok h
    simp [LabArg.val, noneIn, hK] at hn

end PyHawkes
