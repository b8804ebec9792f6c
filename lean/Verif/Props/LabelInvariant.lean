import Verif.Props.LabelNet

/-!
# The updates of scales, labels and block probabilities leave their conditional distribution invariant (used for C96)
-/
set_option linter.unusedSectionVars false
set_option linter.unusedVariables false

namespace PyHawkes
open Finset Spec MeasureTheory ProbabilityTheory

section
variable {U : Type*} [MeasurableSpace U] {μ : Measure U} (G : Generator μ) (Ls : LabelSampler μ) (huge : ℝ) {K : ℕ} (n : SBM) (hC : 0 < n.C)

/-- log density of the weights `w` of the present edges, up to what does not depend on scales and labels -/
noncomputable def labPhi (A w : Pair K → ℝ) (v : Pair n.C → ℝ) (c : Fin K → Fin n.C) : ℝ := ∑ e, A e * (n.kappa * Real.log (v (c e.1, c e.2)) - v (c e.1, c e.2) * w e)

theorem labPhi_meas (A w : Pair K → ℝ) (c : Fin K → Fin n.C) : Measurable fun v => labPhi n A w v c := by unfold labPhi; fun_prop

theorem labPhi_meas' : Measurable fun y : ((Pair n.C → ℝ) × (Fin K → Fin n.C)) × (Pair K → ℝ) × (Pair K → ℝ) => labPhi n y.2.1 y.2.2 y.1.1 y.1.2 := by
  have : Measurable fun z : (Fin K → Fin n.C) × ((Pair n.C → ℝ) × (Pair K → ℝ) × (Pair K → ℝ)) => labPhi n z.2.2.1 z.2.2.2 z.2.1 z.1 := by
    refine measurable_from_prod_countable_right fun c => ?_
    change Measurable fun z : (Pair n.C → ℝ) × (Pair K → ℝ) × (Pair K → ℝ) => labPhi n z.2.1 z.2.2 z.1 c
    unfold labPhi; fun_prop
  exact this.comp (f := fun y : ((Pair n.C → ℝ) × (Fin K → Fin n.C)) × (Pair K → ℝ) × (Pair K → ℝ) => (y.1.2, (y.1.1, y.2))) (by fun_prop)

/-- grouping the edges by blocks -/
theorem labPhi_blocks (A w : Pair K → ℝ) (c : Fin K → Fin n.C) {v : Pair n.C → ℝ} (hv : ∀ a, 0 < v a) :
    ENNReal.ofReal (Real.exp (labPhi n A w v c)) = ∏ a, ENNReal.ofReal (v a ^ ((∑ e, if c e.1 = a.1 ∧ c e.2 = a.2 then A e else 0) * n.kappa)
      * Real.exp (-(v a * ∑ e, if c e.1 = a.1 ∧ c e.2 = a.2 then A e * w e else 0))) := by
  rw [← ENNReal.ofReal_prod_of_nonneg fun a _ => mul_nonneg (Real.rpow_nonneg (hv a).le _) (Real.exp_pos _).le]
  congr 1
  have e1 : ∀ a : Pair n.C, v a ^ ((∑ e, if c e.1 = a.1 ∧ c e.2 = a.2 then A e else 0) * n.kappa) * Real.exp (-(v a * ∑ e, if c e.1 = a.1 ∧ c e.2 = a.2 then A e * w e else 0))
      = Real.exp (∑ e, if c e.1 = a.1 ∧ c e.2 = a.2 then A e * (n.kappa * Real.log (v a) - v a * w e) else 0) := by
    intro a
    rw [Real.rpow_def_of_pos (hv a), ← Real.exp_add]
    congr 1
    rw [sum_mul, mul_sum, mul_sum, ← sum_neg_distrib, ← sum_add_distrib]
    refine sum_congr rfl fun e _ => ?_
    split_ifs <;> ring
  simp only [e1]
  rw [← Real.exp_sum, sum_comm]
  congr 1
  unfold labPhi
  refine sum_congr rfl fun e _ => ?_
  rw [sum_eq_single (c e.1, c e.2)]
  · simp
  · rintro ⟨a1, a2⟩ _ hne
    rw [if_neg]
    rintro ⟨h1, h2⟩
    exact hne (Prod.ext h1.symm h2.symm)
  · exact fun h => absurd (mem_univ _) h

/-- the scales -/
theorem labScale_step (ha : 0 < n.alpha) (hb : 0 < n.beta) (hk : 0 < n.kappa) {A w : Pair K → ℝ} (hA : ∀ e, A e = 0 ∨ A e = 1) (hw : ∀ e, 0 ≤ w e) (c : Fin K → Fin n.C)
    {R : (Pair n.C → ℝ) → ENNReal} (hR : Measurable R) :
    ∫⁻ v, ENNReal.ofReal (Real.exp (labPhi n A w v c)) * ∫⁻ u, R (labScale G n A w c u) ∂Measure.pi (fun _ => μ) ∂Measure.pi (fun _ => gammaMeasure n.alpha n.beta)
      = ∫⁻ v, ENNReal.ofReal (Real.exp (labPhi n A w v c)) * R v ∂Measure.pi (fun _ => gammaMeasure n.alpha n.beta) := by
  have hμ := gen_prob G
  have hγ := isProbabilityMeasure_gammaMeasure ha hb
  have hA0 : ∀ e, 0 ≤ A e := fun e => by rcases hA e with h | h <;> rw [h] <;> norm_num
  set N : Pair n.C → ℝ := fun a => (∑ e, if c e.1 = a.1 ∧ c e.2 = a.2 then A e else 0) * n.kappa with hN
  set S : Pair n.C → ℝ := fun a => ∑ e, if c e.1 = a.1 ∧ c e.2 = a.2 then A e * w e else 0 with hS
  have hN0 : ∀ a, 0 ≤ N a := fun a => mul_nonneg (sum_nonneg fun e _ => by split_ifs; exacts [hA0 e, le_rfl]) hk.le
  have hS0 : ∀ a, 0 ≤ S a := fun a => sum_nonneg fun e _ => by split_ifs; exacts [mul_nonneg (hA0 e) (hw e), le_rfl]
  have hs : ∀ u, labScale G n A w c u = fun a => G.gam ⟨n.alpha + N a, 1 / (n.beta + S a)⟩ (u a) := fun u => by
    funext a
    unfold labScale
    congr 4
    refine sum_congr rfl fun e _ => ?_
    rcases hA e with h | h <;> rw [h] <;> simp
  set f : Pair n.C → ℝ → ENNReal := fun a x => ENNReal.ofReal (x ^ N a * Real.exp (-(x * S a))) with hf
  have mf : ∀ a, Measurable (f a) := fun a => by rw [hf]; fun_prop
  have mfp : Measurable fun v : Pair n.C → ℝ => ∏ a, f a (v a) := Finset.measurable_prod _ fun a _ => (mf a).comp (measurable_pi_apply a)
  have st : BayesStep (Measure.pi fun _ : Pair n.C => gammaMeasure n.alpha n.beta) (fun v => ∏ a, f a (v a)) (Measure.pi fun _ : Pair n.C => μ)
      (fun u a => G.gam ⟨n.alpha + N a, 1 / (n.beta + S a)⟩ (u a)) :=
    BayesStep.pi (ι := Pair n.C) (X := fun _ => ℝ) (Y := fun _ => U) (ν := fun _ => gammaMeasure n.alpha n.beta) (f := f) (μ := fun _ => μ)
      (s := fun a u => G.gam ⟨n.alpha + N a, 1 / (n.beta + S a)⟩ u) (fun a => gammaLaw_step G ha hb (hN0 a) (hS0 a)) mf fun a => gam_measurable G _
  have ms : Measurable fun u : Pair n.C → U => fun a => G.gam ⟨n.alpha + N a, 1 / (n.beta + S a)⟩ (u a) := by
    rw [measurable_pi_iff]; intro a; exact (gam_measurable G _).comp (measurable_pi_apply a)
  have hpos := pi_ae_all (fun _ : Pair n.C => gammaMeasure n.alpha n.beta) fun _ => gammaMeasure_pos
  have e1 : ∀ Q : (Pair n.C → ℝ) → ENNReal, ∫⁻ v, ENNReal.ofReal (Real.exp (labPhi n A w v c)) * Q v ∂Measure.pi (fun _ => gammaMeasure n.alpha n.beta)
      = ∫⁻ v, (∏ a, f a (v a)) * Q v ∂Measure.pi (fun _ => gammaMeasure n.alpha n.beta) := fun Q => by
    refine lintegral_congr_ae ?_
    filter_upwards [hpos] with v hv
    rw [labPhi_blocks n A w c hv]
  simp only [hs]
  rw [e1, e1 R, st.lintegral mfp ms hR, st.lintegral mfp ms (R := fun _ => ∫⁻ u, R (fun a => G.gam ⟨n.alpha + N a, 1 / (n.beta + S a)⟩ (u a)) ∂Measure.pi (fun _ => μ)) measurable_const,
    lintegral_const, measure_univ, mul_one]

include hC in
/-- the block probabilities -/
theorem labBlocks_step (hpi : ∀ b < n.C, 0 < n.pi b) (c : Fin K → Fin n.C) {R : Vec ℝ → ENNReal} (hR : Measurable R) :
    ∫⁻ m, (∏ k, ENNReal.ofReal (m (c k))) * ∫⁻ u, R (labBlocks G n c u) ∂μ ∂dirichletLaw n.C n.pi = ∫⁻ m, (∏ k, ENNReal.ofReal (m (c k))) * R m ∂dirichletLaw n.C n.pi := by
  have hμ := gen_prob G
  set N : ℕ → ℕ := fun b => (univ.filter fun k => (c k : ℕ) = b).card with hN
  have st := dir_step G hC hpi N
  have hs : ∀ u, labBlocks G n c u = G.dir n.C (arr n.C fun b => n.pi b + N b) u := fun u => by
    unfold labBlocks
    congr 2
    funext b
    rw [hN]
    simp
  have mf : Measurable fun x : Vec ℝ => ENNReal.ofReal (∏ b ∈ range n.C, x b ^ N b) := by fun_prop
  have e1 : ∀ Q : Vec ℝ → ENNReal, ∫⁻ m, (∏ k, ENNReal.ofReal (m (c k))) * Q m ∂dirichletLaw n.C n.pi = ∫⁻ m, ENNReal.ofReal (∏ b ∈ range n.C, m b ^ N b) * Q m ∂dirichletLaw n.C n.pi := fun Q => by
    refine lintegral_congr_ae ?_
    filter_upwards [dirichlet_simplex (v := n.pi) hpi hC] with m hm
    rw [← ENNReal.ofReal_prod_of_nonneg fun k _ => (hm.1 _ (c k).2).le]
    congr 2
    rw [← Finset.prod_fiberwise_of_maps_to (s := univ) (t := range n.C) (g := fun k => (c k : ℕ)) fun k _ => mem_range.2 (c k).2]
    refine prod_congr rfl fun b _ => ?_
    rw [hN, prod_congr rfl (g := fun _ => m b) fun k hk => by rw [(mem_filter.1 hk).2], prod_const]
  have hd := dirichlet_prob (B := n.C) (v := n.pi) hpi
  simp only [hs]
  rw [e1, e1 R, st.lintegral mf (dir_measurable G _ _) hR, st.lintegral mf (dir_measurable G _ _)
    (R := fun _ => ∫⁻ u, R (G.dir n.C (arr n.C fun b => n.pi b + N b) u) ∂μ) measurable_const, lintegral_const, measure_univ, mul_one]

/-- the log weights of the labels are, up to a constant, the log conditional probabilities -/
theorem labLp_eq {A w : Pair K → ℝ} (hd : ∀ k, A (k, k) = 0) {v : Pair n.C → ℝ} {m : Vec ℝ} (hm : ∀ b < n.C, 0 < m b) (c : Fin K → Fin n.C) (k : Fin K) :
    ∃ a, ∀ b : Fin n.C, labLp huge n v m A w c k b = a + Real.log (Real.exp (labPhi n A w v (Function.update c k b)) * ∏ k', m (Function.update c k b k')) := by
  set g : ℝ → ℝ := fun x => -gammaln n.kappa + (n.kappa - 1) * Real.log x with hg
  have hG : ∀ s x, gLog n.kappa s x = (n.kappa * Real.log s - s * x) + g x := fun s x => by unfold gLog; rw [hg]; ring
  set F : (Fin K → Fin n.C) → Fin K → Fin K → ℝ := fun c i j => A (i, j) * (n.kappa * Real.log (v (c i, c j)) - v (c i, c j) * w (i, j)) with hF
  set rest : ℝ := ∑ i ∈ univ.erase k, ∑ j ∈ univ.erase k, F c i j with hrest
  set const : ℝ := (∑ j, bLog huge (n.p 0 0) (A (k, j))) + (∑ j, bLog huge (n.p 0 0) (A (j, k))) + (∑ j, A (k, j) * g (w (k, j))) + ∑ j, A (j, k) * g (w (j, k)) with hconst
  refine ⟨const - rest - ∑ k' ∈ univ.erase k, Real.log (m (c k')), fun b => ?_⟩
  have hmp : ∀ k', 0 < m (Function.update c k b k') := fun k' => hm _ (Function.update c k b k').2
  rw [Real.log_mul (Real.exp_pos _).ne' (prod_pos fun k' _ => hmp k').ne', Real.log_exp, Real.log_prod fun k' _ => (hmp k').ne']
  have hlm : ∑ k', Real.log (m (Function.update c k b k')) = Real.log (m b) + ∑ k' ∈ univ.erase k, Real.log (m (c k')) := by
    rw [← add_sum_erase _ _ (mem_univ k), Function.update_self]
    congr 1
    refine sum_congr rfl fun j hj => ?_
    rw [Function.update_of_ne (ne_of_mem_erase hj)]
  have hPhi : labPhi n A w v (Function.update c k b) = (∑ j, F (Function.update c k b) k j) + (∑ i, F (Function.update c k b) i k) + rest := by
    have hkk : F (Function.update c k b) k k = 0 := by rw [hF]; simp [hd k]
    unfold labPhi
    rw [Fintype.sum_prod_type]
    change ∑ i, ∑ j, F (Function.update c k b) i j = _
    rw [← add_sum_erase _ _ (mem_univ k)]
    have e1 : ∑ i ∈ univ.erase k, ∑ j, F (Function.update c k b) i j = ∑ i ∈ univ.erase k, (F (Function.update c k b) i k + ∑ j ∈ univ.erase k, F c i j) := by
      refine sum_congr rfl fun i hi => ?_
      rw [← add_sum_erase _ _ (mem_univ k)]
      congr 1
      refine sum_congr rfl fun j hj => ?_
      rw [hF]
      dsimp only
      rw [Function.update_of_ne (ne_of_mem_erase hi), Function.update_of_ne (ne_of_mem_erase hj)]
    rw [e1, sum_add_distrib, ← add_sum_erase (f := fun i => F (Function.update c k b) i k) _ (mem_univ k), hkk]
    ring
  rw [hlm, hPhi]
  unfold labLp
  rw [dif_pos b.2]
  have h1 : ∑ j, A (k, j) * gLog n.kappa (v (⟨b, b.2⟩, Function.update c k ⟨b, b.2⟩ j)) (w (k, j)) = (∑ j, F (Function.update c k b) k j) + ∑ j, A (k, j) * g (w (k, j)) := by
    rw [← sum_add_distrib]
    refine sum_congr rfl fun j _ => ?_
    rw [hG, hF]
    dsimp only
    rw [Function.update_self]
    ring
  have h2 : ∑ j, A (j, k) * gLog n.kappa (v (Function.update c k ⟨b, b.2⟩ j, ⟨b, b.2⟩)) (w (j, k)) = (∑ i, F (Function.update c k b) i k) + ∑ j, A (j, k) * g (w (j, k)) := by
    rw [← sum_add_distrib]
    refine sum_congr rfl fun j _ => ?_
    rw [hG, hF]
    dsimp only
    rw [Function.update_self]
    ring
  rw [h1, h2, hconst]
  ring

/-- the labels -/
theorem labNew_step [IsProbabilityMeasure μ] {A w : Pair K → ℝ} (hd : ∀ k, A (k, k) = 0) {v : Pair n.C → ℝ} {m : Vec ℝ} (hm : ∀ b < n.C, 0 < m b) (T : (Fin K → Fin n.C) → ENNReal) :
    ∑ c : Fin K → Fin n.C, (∏ k, ENNReal.ofReal (m (c k))) * (ENNReal.ofReal (Real.exp (labPhi n A w v c)) * ∫⁻ u, T (labNew Ls huge n hC v m A w c u) ∂Measure.pi (fun _ => μ))
      = ∑ c : Fin K → Fin n.C, (∏ k, ENNReal.ofReal (m (c k))) * (ENNReal.ofReal (Real.exp (labPhi n A w v c)) * T c) := by
  have hw : ∀ c : Fin K → Fin n.C, 0 < Real.exp (labPhi n A w v c) * ∏ k, m (c k) := fun c => mul_pos (Real.exp_pos _) (prod_pos fun k _ => hm _ (c k).2)
  have := labels_invariant Ls hC (labLp huge n v m A w) hw (fun c k => labLp_eq huge n hd hm c k) (List.finRange K) (List.nodup_finRange K) T
  have e : ∀ (c : Fin K → Fin n.C) (x : ENNReal), (∏ k, ENNReal.ofReal (m (c k))) * (ENNReal.ofReal (Real.exp (labPhi n A w v c)) * x)
      = ENNReal.ofReal (Real.exp (labPhi n A w v c) * ∏ k, m (c k)) * x := fun c x => by
    rw [ENNReal.ofReal_mul (Real.exp_pos _).le, ENNReal.ofReal_prod_of_nonneg fun k _ => (hm _ (c k).2).le]
    ring
  simp only [e]
  exact this

end

end PyHawkes
