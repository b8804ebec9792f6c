import Verif.Props.LabelSite
import Verif.Props.GibbsScale

/-!
# The network with several blocks as a random network in the sense of `NetSystem` (used for C96)
-/
set_option linter.unusedSectionVars false
set_option linter.unusedVariables false

namespace PyHawkes
open Finset Spec MeasureTheory ProbabilityTheory

/-- log density of `Gamma(κ, v)` at `w` -/
noncomputable def gLog (κ v w : ℝ) : ℝ := κ * Real.log v - gammaln κ + (κ - 1) * Real.log w - v * w

/-- log probability of the adjacency entry `a` -/
noncomputable def bLog (huge p a : ℝ) : ℝ := if a = 1 then bernLogProb huge p 1 else bernLogProb huge p 0

section
variable {U : Type*} [MeasurableSpace U] {μ : Measure U} (G : Generator μ) (Ls : LabelSampler μ) (huge : ℝ) {K : ℕ} (n : SBM)

/-- log weights of the labels of node `k` -/
noncomputable def labLp (v : Pair n.C → ℝ) (m : Vec ℝ) (A W : Pair K → ℝ) (c : Fin K → Fin n.C) (k : Fin K) : Vec ℝ := fun b =>
  if h : b < n.C then
    Real.log (m b) + (∑ j, bLog huge (n.p 0 0) (A (k, j))) + (∑ j, bLog huge (n.p 0 0) (A (j, k)))
      + (∑ j, A (k, j) * gLog n.kappa (v (⟨b, h⟩, Function.update c k ⟨b, h⟩ j)) (W (k, j))) + ∑ j, A (j, k) * gLog n.kappa (v (Function.update c k ⟨b, h⟩ j, ⟨b, h⟩)) (W (j, k))
  else 0

/-- new scales -/
noncomputable def labScale (A W : Pair K → ℝ) (c : Fin K → Fin n.C) (u : Pair n.C → U) : Pair n.C → ℝ := fun a =>
  G.gam ⟨n.alpha + (∑ e, if c e.1 = a.1 ∧ c e.2 = a.2 then A e else 0) * n.kappa, 1 / (n.beta + ∑ e, if c e.1 = a.1 ∧ c e.2 = a.2 then (if 0 < A e then W e else 0) else 0)⟩ (u a)

/-- new block probabilities -/
noncomputable def labBlocks (c : Fin K → Fin n.C) (u : U) : Vec ℝ := G.dir n.C (arr n.C fun b => n.pi b + ∑ k, if (c k : ℕ) = b then 1 else 0) u

variable (hC : 0 < n.C)

/-- new labels -/
noncomputable def labNew (v : Pair n.C → ℝ) (m : Vec ℝ) (A W : Pair K → ℝ) (c : Fin K → Fin n.C) (u : Fin K → U) : Fin K → Fin n.C :=
  labSweep Ls hC (labLp huge n v m A W) u (List.finRange K) c

/-- scales, labels and block probabilities; the updates use independent seeds -/
noncomputable def labelNet (K : ℕ) : NetSys K (NetLabels K n.C) ((Pair n.C → U) × (Fin K → U) × U) where
  κ := n.kappa
  ν := labelPrior K n
  μV := (Measure.pi fun _ => μ).prod ((Measure.pi fun _ => μ).prod μ)
  P := fun _ e => labelP n e
  s := fun η e => labelV η e
  step := fun u η A W => (labScale G n A W η.2.1 u.1, labNew Ls huge n hC (labScale G n A W η.2.1 u.1) η.2.2 A W η.2.1 u.2.1,
    labBlocks G n (labNew Ls huge n hC (labScale G n A W η.2.1 u.1) η.2.2 A W η.2.1 u.2.1) u.2.2)

/-! ### measurability -/

theorem gLog_meas (κ : ℝ) : Measurable fun x : ℝ × ℝ => gLog κ x.1 x.2 := by unfold gLog; fun_prop

theorem bLog_meas (huge p : ℝ) : Measurable fun a => bLog huge p a := Measurable.ite (measurableSet_eq_fun measurable_id measurable_const) measurable_const measurable_const

theorem labLp_meas (c : Fin K → Fin n.C) (k : Fin K) : Measurable fun y : (Pair n.C → ℝ) × Vec ℝ × (Pair K → ℝ) × (Pair K → ℝ) => labLp huge n y.1 y.2.1 y.2.2.1 y.2.2.2 c k := by
  rw [measurable_pi_iff]; intro b
  unfold labLp
  split_ifs with h
  · have hb : ∀ e : Pair K, Measurable fun y : (Pair n.C → ℝ) × Vec ℝ × (Pair K → ℝ) × (Pair K → ℝ) => bLog huge (n.p 0 0) (y.2.2.1 e) := fun e => (bLog_meas huge _).comp (by fun_prop)
    have hg : ∀ (a : Pair n.C) (e : Pair K), Measurable fun y : (Pair n.C → ℝ) × Vec ℝ × (Pair K → ℝ) × (Pair K → ℝ) => y.2.2.1 e * gLog n.kappa (y.1 a) (y.2.2.2 e) := fun a e =>
      Measurable.mul (by fun_prop) ((gLog_meas n.kappa).comp (f := fun y : (Pair n.C → ℝ) × Vec ℝ × (Pair K → ℝ) × (Pair K → ℝ) => (y.1 a, y.2.2.2 e)) (by fun_prop))
    have hl : Measurable fun y : (Pair n.C → ℝ) × Vec ℝ × (Pair K → ℝ) × (Pair K → ℝ) => Real.log (y.2.1 b) := by fun_prop
    exact (((hl.add (Finset.measurable_sum _ fun j _ => hb _)).add (Finset.measurable_sum _ fun j _ => hb _)).add (Finset.measurable_sum _ fun j _ => hg _ _)).add
      (Finset.measurable_sum _ fun j _ => hg _ _)
  · exact measurable_const

theorem labScale_meas : Measurable fun y : (Pair K → ℝ) × (Pair K → ℝ) × (Fin K → Fin n.C) × (Pair n.C → U) => labScale G n y.1 y.2.1 y.2.2.1 y.2.2.2 := by
  have : Measurable fun z : (Fin K → Fin n.C) × ((Pair K → ℝ) × (Pair K → ℝ) × (Pair n.C → U)) => labScale G n z.2.1 z.2.2.1 z.1 z.2.2.2 := by
    refine measurable_from_prod_countable_right fun c => ?_
    rw [measurable_pi_iff]; intro a
    unfold labScale
    have h1 : Measurable fun z : (Pair K → ℝ) × (Pair K → ℝ) × (Pair n.C → U) => ∑ e, if c e.1 = a.1 ∧ c e.2 = a.2 then z.1 e else 0 :=
      Finset.measurable_sum _ fun e _ => by split_ifs <;> fun_prop
    have h2 : Measurable fun z : (Pair K → ℝ) × (Pair K → ℝ) × (Pair n.C → U) => ∑ e, if c e.1 = a.1 ∧ c e.2 = a.2 then (if 0 < z.1 e then z.2.1 e else 0) else 0 :=
      Finset.measurable_sum _ fun e _ => by
        split_ifs
        · exact Measurable.ite (measurableSet_lt measurable_const (by fun_prop)) (by fun_prop) measurable_const
        · fun_prop
    exact G.gam_meas.comp (f := fun z : (Pair K → ℝ) × (Pair K → ℝ) × (Pair n.C → U) =>
      ((n.alpha + (∑ e, if c e.1 = a.1 ∧ c e.2 = a.2 then z.1 e else 0) * n.kappa,
        1 / (n.beta + ∑ e, if c e.1 = a.1 ∧ c e.2 = a.2 then (if 0 < z.1 e then z.2.1 e else 0) else 0)), z.2.2 a)) (by fun_prop)
  exact this.comp (f := fun y : (Pair K → ℝ) × (Pair K → ℝ) × (Fin K → Fin n.C) × (Pair n.C → U) => (y.2.2.1, (y.1, y.2.1, y.2.2.2))) (by fun_prop)

theorem labNew_meas : Measurable fun y : ((Pair n.C → ℝ) × Vec ℝ × (Pair K → ℝ) × (Pair K → ℝ)) × (Fin K → U) × (Fin K → Fin n.C) =>
    labNew Ls huge n hC y.1.1 y.1.2.1 y.1.2.2.1 y.1.2.2.2 y.2.2 y.2.1 := by
  unfold labNew
  exact labSweep_meas Ls hC (lp := fun y : (Pair n.C → ℝ) × Vec ℝ × (Pair K → ℝ) × (Pair K → ℝ) => labLp huge n y.1 y.2.1 y.2.2.1 y.2.2.2) (fun c k => labLp_meas huge n c k) _

theorem labBlocks_meas : Measurable fun y : (Fin K → Fin n.C) × U => labBlocks G n y.1 y.2 := by
  refine measurable_from_prod_countable_right fun c => ?_
  exact (G.dir_meas n.C).comp (f := fun u : U => (arr n.C fun b => n.pi b + ∑ k, if (c k : ℕ) = b then 1 else 0, u)) (by fun_prop)

theorem labelNet_step_meas : Measurable fun x : ((Pair n.C → U) × (Fin K → U) × U) × NetLabels K n.C × (Pair K → ℝ) × (Pair K → ℝ) =>
    (labelNet G Ls huge n hC K).step x.1 x.2.1 x.2.2.1 x.2.2.2 := by
  have h1 : Measurable fun x : ((Pair n.C → U) × (Fin K → U) × U) × NetLabels K n.C × (Pair K → ℝ) × (Pair K → ℝ) => labScale G n x.2.2.1 x.2.2.2 x.2.1.2.1 x.1.1 :=
    (labScale_meas G n).comp (f := fun x : ((Pair n.C → U) × (Fin K → U) × U) × NetLabels K n.C × (Pair K → ℝ) × (Pair K → ℝ) => (x.2.2.1, x.2.2.2, x.2.1.2.1, x.1.1)) (by fun_prop)
  have h2 : Measurable fun x : ((Pair n.C → U) × (Fin K → U) × U) × NetLabels K n.C × (Pair K → ℝ) × (Pair K → ℝ) =>
      labNew Ls huge n hC (labScale G n x.2.2.1 x.2.2.2 x.2.1.2.1 x.1.1) x.2.1.2.2 x.2.2.1 x.2.2.2 x.2.1.2.1 x.1.2.1 :=
    (labNew_meas Ls huge n hC).comp (f := fun x : ((Pair n.C → U) × (Fin K → U) × U) × NetLabels K n.C × (Pair K → ℝ) × (Pair K → ℝ) =>
      ((labScale G n x.2.2.1 x.2.2.2 x.2.1.2.1 x.1.1, x.2.1.2.2, x.2.2.1, x.2.2.2), x.1.2.1, x.2.1.2.1)) (by fun_prop)
  have h3 : Measurable fun x : ((Pair n.C → U) × (Fin K → U) × U) × NetLabels K n.C × (Pair K → ℝ) × (Pair K → ℝ) =>
      labBlocks G n (labNew Ls huge n hC (labScale G n x.2.2.1 x.2.2.2 x.2.1.2.1 x.1.1) x.2.1.2.2 x.2.2.1 x.2.2.2 x.2.1.2.1 x.1.2.1) x.1.2.2 :=
    (labBlocks_meas G n).comp (f := fun x : ((Pair n.C → U) × (Fin K → U) × U) × NetLabels K n.C × (Pair K → ℝ) × (Pair K → ℝ) =>
      (labNew Ls huge n hC (labScale G n x.2.2.1 x.2.2.2 x.2.1.2.1 x.1.1) x.2.1.2.2 x.2.2.1 x.2.2.2 x.2.1.2.1 x.1.2.1, x.1.2.2)) (h2.prodMk (by fun_prop))
  exact h1.prodMk (h2.prodMk h3)

/-! ### the prior -/

theorem labelPrior_lintegral {F : NetLabels K n.C → ENNReal} (ha : 0 < n.alpha) (hb : 0 < n.beta) (hpi : ∀ b < n.C, 0 < n.pi b) (hF : Measurable F) :
    ∫⁻ η, F η ∂labelPrior K n = ∫⁻ v, ∑ c : Fin K → Fin n.C, ∫⁻ m, (∏ k, ENNReal.ofReal (m (c k))) * F (v, c, m) ∂dirichletLaw n.C n.pi ∂Measure.pi fun _ => gammaMeasure n.alpha n.beta := by
  have hγ := isProbabilityMeasure_gammaMeasure ha hb
  have hd := dirichlet_prob (B := n.C) (v := n.pi) hpi
  have md : Measurable fun y : (Fin K → Fin n.C) × Vec ℝ => ∏ k, ENNReal.ofReal (y.2 (y.1 k)) := by
    refine measurable_from_prod_countable_right fun c => ?_
    change Measurable fun x : Vec ℝ => ∏ k, ENNReal.ofReal (x (c k))
    fun_prop
  unfold labelPrior
  rw [lintegral_prod _ hF.aemeasurable]
  refine lintegral_congr fun v => ?_
  have mF : Measurable fun y : (Fin K → Fin n.C) × Vec ℝ => F (v, y) := hF.comp (by fun_prop)
  have mm : Measurable fun y : (Fin K → Fin n.C) × Vec ℝ => (∏ k, ENNReal.ofReal (y.2 (y.1 k))) * F (v, y) := md.mul mF
  rw [lintegral_withDensity_eq_lintegral_mul _ md mF]
  change ∫⁻ y : (Fin K → Fin n.C) × Vec ℝ, (∏ k, ENNReal.ofReal (y.2 (y.1 k))) * F (v, y) ∂_ = _
  rw [lintegral_prod _ mm.aemeasurable, lintegral_count, tsum_fintype]

theorem labels_total (x : Vec ℝ) (hx : ∀ b < n.C, 0 < x b) (h1 : ∑ b ∈ range n.C, x b = 1) : ∑ c : Fin K → Fin n.C, ∏ k, ENNReal.ofReal (x (c k)) = 1 := by
  have h := Finset.prod_univ_sum (κ := fun _ : Fin K => Fin n.C) (fun _ => univ) fun (_ : Fin K) b => ENNReal.ofReal (x b)
  rw [Fintype.piFinset_univ] at h
  rw [← h]
  have : ∑ b : Fin n.C, ENNReal.ofReal (x b) = 1 := by
    rw [← ENNReal.ofReal_sum_of_nonneg fun (b : Fin n.C) _ => (hx b b.2).le, Fin.sum_univ_eq_sum_range (fun b => x b), h1, ENNReal.ofReal_one]
  rw [this, prod_const_one]

include hC in
theorem labelPrior_prob (ha : 0 < n.alpha) (hb : 0 < n.beta) (hpi : ∀ b < n.C, 0 < n.pi b) : IsProbabilityMeasure (labelPrior K n) := by
  have hγ := isProbabilityMeasure_gammaMeasure ha hb
  have hd := dirichlet_prob (B := n.C) (v := n.pi) hpi
  refine ⟨?_⟩
  rw [← lintegral_one, labelPrior_lintegral n ha hb hpi measurable_const]
  have e : ∑ c : Fin K → Fin n.C, ∫⁻ m : Vec ℝ, (∏ k, ENNReal.ofReal (m (c k))) * 1 ∂dirichletLaw n.C n.pi = 1 := by
    rw [← lintegral_finsetSum _ fun c _ => by fun_prop]
    have : ∀ᵐ m ∂dirichletLaw n.C n.pi, ∑ c : Fin K → Fin n.C, (∏ k, ENNReal.ofReal (m (c k))) * 1 = 1 := by
      filter_upwards [dirichlet_simplex (v := n.pi) hpi hC] with x hx
      simp only [mul_one]
      exact labels_total n x hx.1 hx.2
    rw [lintegral_congr_ae this, lintegral_one, measure_univ]
  simp only [e, lintegral_one, measure_univ]

include hC in
/-- almost surely the scales and the block probabilities are positive -/
theorem labelPrior_pos (ha : 0 < n.alpha) (hb : 0 < n.beta) (hpi : ∀ b < n.C, 0 < n.pi b) : ∀ᵐ η ∂labelPrior K n, (∀ a, 0 < η.1 a) ∧ ∀ b < n.C, 0 < η.2.2 b := by
  have hγ := isProbabilityMeasure_gammaMeasure ha hb
  have hd := dirichlet_prob (B := n.C) (v := n.pi) hpi
  unfold labelPrior
  have h1 := (Measure.quasiMeasurePreserving_fst (μ := Measure.pi fun _ : Pair n.C => gammaMeasure n.alpha n.beta)
    (ν := ((Measure.count : Measure (Fin K → Fin n.C)).prod (dirichletLaw n.C n.pi)).withDensity fun y => ∏ k, ENNReal.ofReal (y.2 (y.1 k)))).ae
    (pi_ae_all (fun _ : Pair n.C => gammaMeasure n.alpha n.beta) fun _ => gammaMeasure_pos)
  have h2 : ∀ᵐ y ∂(((Measure.count : Measure (Fin K → Fin n.C)).prod (dirichletLaw n.C n.pi)).withDensity fun y => ∏ k, ENNReal.ofReal (y.2 (y.1 k))), ∀ b < n.C, 0 < y.2 b := by
    refine (withDensity_absolutelyContinuous _ _).ae_le ?_
    refine (Measure.quasiMeasurePreserving_snd (μ := (Measure.count : Measure (Fin K → Fin n.C))) (ν := dirichletLaw n.C n.pi)).ae (p := fun x : Vec ℝ => ∀ b < n.C, 0 < x b) ?_
    filter_upwards [dirichlet_simplex (v := n.pi) hpi hC] with x hx using hx.1
  have h3 := (Measure.quasiMeasurePreserving_snd (μ := Measure.pi fun _ : Pair n.C => gammaMeasure n.alpha n.beta)
    (ν := ((Measure.count : Measure (Fin K → Fin n.C)).prod (dirichletLaw n.C n.pi)).withDensity fun y => ∏ k, ENNReal.ofReal (y.2 (y.1 k)))).ae h2
  filter_upwards [h1, h3] with η a b using ⟨a, b⟩

end

end PyHawkes
