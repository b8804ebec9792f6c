import Verif.Props.GibbsScale
import Verif.Props.GibbsEdges
import Verif.Props.GibbsAbstract

/-!
# Measurability of one `resample_model` call, and the law of the sampled parents (used for C83)
-/
set_option linter.unusedSectionVars false
set_option linter.unusedVariables false

namespace PyHawkes
open Finset Spec MeasureTheory ProbabilityTheory

section
variable {U : Type*} [MeasurableSpace U] {μ : Measure U} (G : Generator μ) (c : HawkesState) (n : ERFixed)

/-- adjacency matrix, weights, background rates, impulse weights -/
abbrev Rates (c : HawkesState) := (Pair c.base.K → ℝ) × (Pair c.base.K → ℝ) × (Fin c.base.K → ℝ) × (Pair c.base.K → Vec ℝ)

theorem measurable_rowRate (ρ : Row c) : Measurable fun x : Rates c => rowRate x.1 x.2.1 x.2.2.1 x.2.2.2 ρ := by
  unfold rowRate
  fun_prop

theorem measurable_likR (hD : ∀ D ∈ c.data, DataOk c.base.K c.base.B D) : Measurable fun x : Rates c => likR c x.1 x.2.1 x.2.2.1 x.2.2.2 := by
  unfold likR
  simp only [ll_rows hD]
  have := measurable_rowRate c
  fun_prop

theorem measurable_probVec (ρ : Row c) :
    Measurable fun x : Rates c => arr (NPar c) (probVec (rateParams c.base x.1 x.2.1 x.2.2.1 x.2.2.2) ρ.1 (rowF ρ)) := by
  rw [measurable_pi_iff]
  intro j
  unfold arr
  split_ifs with hj
  · unfold probVec
    have e : ∀ x : Rates c, ∑ j ∈ range (1 + (rateParams c.base x.1 x.2.1 x.2.2.1 x.2.2.2).K * (rateParams c.base x.1 x.2.1 x.2.2.1 x.2.2.2).B),
        parentWeightsPy (rateParams c.base x.1 x.2.1 x.2.2.1 x.2.2.2) ρ.1 (rowF ρ) j = rowRate x.1 x.2.1 x.2.2.1 x.2.2.2 ρ := fun x => rowRate_eq _ _ _ _ ρ
    simp only [e]
    refine Measurable.div ?_ (measurable_rowRate c ρ)
    unfold parentWeightsPy rateParams
    cases j with
    | zero =>
      simp only [consVec]
      split_ifs <;> fun_prop
    | succ j =>
      simp only [consVec, ravel]
      split_ifs with h
      · have key : ∀ e : Pair c.base.K, Measurable fun x : Rates c => rowF ρ (j / c.base.B) (j % c.base.B) * (x.1 e * x.2.1 e) * x.2.2.2 e (j % c.base.B) := by
          intro e
          fun_prop
        exact key (⟨j / c.base.B, h.1⟩, ⟨ρ.1, h.2⟩)
      · fun_prop
  · exact measurable_const

theorem measurable_zOf : Measurable fun x : Rates c × (Row c → U) => zOf G c x.1.1 x.1.2.1 x.1.2.2.1 x.1.2.2.2 x.2 := by
  rw [measurable_pi_iff]; intro ρ
  rw [measurable_pi_iff]; intro j
  unfold zOf
  have h1 : Measurable fun x : Rates c × (Row c → U) => (arr (NPar c) (probVec (rateParams c.base x.1.1 x.1.2.1 x.1.2.2.1 x.1.2.2.2) ρ.1 (rowF ρ)), x.2 ρ) :=
    ((measurable_probVec c ρ).comp measurable_fst).prodMk (by fun_prop)
  exact (measurable_pi_apply (j : ℕ)).comp ((G.mult_meas (NPar c) (rowCount ρ)).comp h1)

theorem measurable_lamOf (z : ZSp c) : Measurable (lamOf G c z) := by
  rw [measurable_pi_iff]; intro k
  exact (gam_measurable G _).comp (measurable_pi_apply k)

theorem measurable_gOf (z : ZSp c) : Measurable (gOf G c z) := by
  rw [measurable_pi_iff]; intro k
  exact (dir_measurable G _ _).comp (measurable_pi_apply k)

theorem measurable_vOf : Measurable fun x : U × ℝ × (Pair c.base.K → ℝ) × (Pair c.base.K → ℝ) => vOf G c n x.1 x.2.1 x.2.2.1 x.2.2.2 := by
  unfold vOf
  rcases n.alpha with _ | a
  · simp only; fun_prop
  rcases n.beta with _ | b
  · simp only; fun_prop
  simp only
  split_ifs
  · have hS : Measurable fun x : U × ℝ × (Pair c.base.K → ℝ) × (Pair c.base.K → ℝ) => ∑ e, if 0 < x.2.2.1 e then x.2.2.2 e else 0 :=
      Finset.measurable_sum _ fun e _ => Measurable.ite (measurableSet_lt measurable_const (by fun_prop)) (by fun_prop) measurable_const
    exact G.gam_meas.comp (f := fun x : U × ℝ × (Pair c.base.K → ℝ) × (Pair c.base.K → ℝ) =>
      ((a + (∑ e, x.2.2.1 e) * n.kappa, 1 / (b + ∑ e, if 0 < x.2.2.1 e then x.2.2.2 e else 0)), x.1)) (by fun_prop)
  · fun_prop

theorem measurable_wOf (z : ZSp c) : Measurable fun x : ℝ × (Pair c.base.K → ℝ) × (Pair c.base.K → U) => wOf G c n z x.1 x.2.1 x.2.2 := by
  rw [measurable_pi_iff]; intro e
  exact G.gam_meas.comp (f := fun x : ℝ × (Pair c.base.K → ℝ) × (Pair c.base.K → U) => ((n.kappa + via z e, 1 / (x.1 + evTotal c e.1 * x.2.1 e)), x.2.2 e)) (by fun_prop)

theorem measurable_globalStep : Measurable fun x : Theta c.base.K × Seeds c U => globalStep G c n x.1 x.2 := by
  have hz : Measurable fun x : Theta c.base.K × Seeds c U => zOf G c x.1.1 x.1.2.2.1 x.1.2.2.2.1 x.1.2.2.2.2 x.2.1 :=
    (measurable_zOf G c).comp (f := fun x : Theta c.base.K × Seeds c U => ((x.1.1, x.1.2.2.1, x.1.2.2.2.1, x.1.2.2.2.2), x.2.1)) (by fun_prop)
  have hv : Measurable fun x : Theta c.base.K × Seeds c U => vOf G c n x.2.2.2.2.1 x.1.2.1 x.1.1 x.1.2.2.1 :=
    (measurable_vOf G c n).comp (f := fun x : Theta c.base.K × Seeds c U => (x.2.2.2.2.1, x.1.2.1, x.1.1, x.1.2.2.1)) (by fun_prop)
  have hl : Measurable fun x : Theta c.base.K × Seeds c U => lamOf G c (zOf G c x.1.1 x.1.2.2.1 x.1.2.2.2.1 x.1.2.2.2.2 x.2.1) x.2.2.1 :=
    (measurable_from_prod_countable_right (f := fun y : ZSp c × (Fin c.base.K → U) => lamOf G c y.1 y.2) fun z => measurable_lamOf G c z).comp
      (f := fun x : Theta c.base.K × Seeds c U => (zOf G c x.1.1 x.1.2.2.1 x.1.2.2.2.1 x.1.2.2.2.2 x.2.1, x.2.2.1)) (hz.prodMk (by fun_prop))
  have hg : Measurable fun x : Theta c.base.K × Seeds c U => gOf G c (zOf G c x.1.1 x.1.2.2.1 x.1.2.2.2.1 x.1.2.2.2.2 x.2.1) x.2.2.2.1 :=
    (measurable_from_prod_countable_right (f := fun y : ZSp c × (Pair c.base.K → U) => gOf G c y.1 y.2) fun z => measurable_gOf G c z).comp
      (f := fun x : Theta c.base.K × Seeds c U => (zOf G c x.1.1 x.1.2.2.1 x.1.2.2.2.1 x.1.2.2.2.2 x.2.1, x.2.2.2.1)) (hz.prodMk (by fun_prop))
  have hw : Measurable fun x : Theta c.base.K × Seeds c U => wOf G c n (zOf G c x.1.1 x.1.2.2.1 x.1.2.2.2.1 x.1.2.2.2.2 x.2.1)
      (vOf G c n x.2.2.2.2.1 x.1.2.1 x.1.1 x.1.2.2.1) x.1.1 x.2.2.2.2.2.1 :=
    (measurable_from_prod_countable_right (f := fun y : ZSp c × (ℝ × (Pair c.base.K → ℝ) × (Pair c.base.K → U)) => wOf G c n y.1 y.2.1 y.2.2.1 y.2.2.2) fun z => measurable_wOf G c n z).comp
      (f := fun x : Theta c.base.K × Seeds c U => (zOf G c x.1.1 x.1.2.2.1 x.1.2.2.2.1 x.1.2.2.2.2 x.2.1, (vOf G c n x.2.2.2.2.1 x.1.2.1 x.1.1 x.1.2.2.1, x.1.1, x.2.2.2.2.2.1)))
      (hz.prodMk (hv.prodMk (by fun_prop)))
  unfold globalStep
  exact (measurable_fst.comp measurable_fst).prodMk (hv.prodMk (hw.prodMk (hl.prodMk hg)))

theorem edgeSweep_eq (W : Pair c.base.K → ℝ) (lam : Fin c.base.K → ℝ) (g : Pair c.base.K → Vec ℝ) (x : Pair c.base.K → U) (l : List (Pair c.base.K)) (A : Pair c.base.K → ℝ) :
    edgeSweep G c n W lam g x l A = sitesStep G (fun e => n.P e.1 e.2) (fun A => likR c A W lam g) x l A := rfl

theorem measurable_edgesStep (hD : ∀ D ∈ c.data, DataOk c.base.K c.base.B D) : Measurable fun x : Theta c.base.K × (Pair c.base.K → U) => edgesStep G c n x.1 x.2 := by
  unfold edgesStep
  refine Measurable.prodMk ?_ (by fun_prop)
  have hL : Measurable fun x : (ℝ × (Pair c.base.K → ℝ) × (Fin c.base.K → ℝ) × (Pair c.base.K → Vec ℝ)) × (Pair c.base.K → ℝ) => likR c x.2 x.1.2.1 x.1.2.2.1 x.1.2.2.2 :=
    (measurable_likR c hD).comp (f := fun x : (ℝ × (Pair c.base.K → ℝ) × (Fin c.base.K → ℝ) × (Pair c.base.K → Vec ℝ)) × (Pair c.base.K → ℝ) => (x.2, x.1.2)) (by fun_prop)
  exact (measurable_sitesStep G (p := fun e : Pair c.base.K => n.P e.1 e.2)
    (L := fun (y : ℝ × (Pair c.base.K → ℝ) × (Fin c.base.K → ℝ) × (Pair c.base.K → Vec ℝ)) A => likR c A y.2.1 y.2.2.1 y.2.2.2) hL (pairList c.base.K)).comp
    (f := fun x : Theta c.base.K × (Pair c.base.K → U) => (x.1.2, x.2, x.1.1)) (by fun_prop)

theorem measurable_likelihood (hD : ∀ D ∈ c.data, DataOk c.base.K c.base.B D) : Measurable (likelihood c) := by
  have := (measurable_likR c hD).comp (f := fun θ : Theta c.base.K => (θ.1, θ.2.2.1, θ.2.2.2.1, θ.2.2.2.2)) (by fun_prop)
  exact this.ennreal_ofReal

/-! ### the parents -/

theorem zPmf_nonneg {A W : Pair c.base.K → ℝ} {lam : Fin c.base.K → ℝ} {g : Pair c.base.K → Vec ℝ}
    (hp : ∀ ρ : Row c, IsProb (NPar c) (arr (NPar c) (probVec (rateParams c.base A W lam g) ρ.1 (rowF ρ)))) (z : ZSp c) (ρ : Row c) :
    0 ≤ multinomialPmf (NPar c) (rowCount ρ) (arr (NPar c) (probVec (rateParams c.base A W lam g) ρ.1 (rowF ρ))) (zAt z ρ) := by
  unfold multinomialPmf
  split_ifs
  · exact mul_nonneg (Nat.cast_nonneg _) (prod_nonneg fun j hj => pow_nonneg ((hp ρ).1 j (mem_range.1 hj)) _)
  · exact le_rfl

theorem arr_prob {m : ℕ} {p : Vec ℝ} (hp : IsProb m p) : IsProb m (arr m p) := by
  have harr : ∀ j < m, arr m p j = p j := fun j hj => if_pos hj
  exact ⟨fun c hc => by rw [harr c hc]; exact hp.1 c hc, by rw [sum_congr rfl fun j hj => harr j (mem_range.1 hj)]; exact hp.2⟩

theorem row_prob (hD : ∀ D ∈ c.data, DataOk c.base.K c.base.B D) {A W : Pair c.base.K → ℝ} {lam : Fin c.base.K → ℝ} {g : Pair c.base.K → Vec ℝ} (hAW : ∀ e, 0 ≤ A e * W e)
    (hlam : ∀ k, 0 < lam k) (hg : ∀ e, ∀ b < c.base.B, 0 ≤ g e b) (ρ : Row c) : IsProb (NPar c) (arr (NPar c) (probVec (rateParams c.base A W lam g) ρ.1 (rowF ρ))) := by
  refine arr_prob (probVec_prob (rateParams c.base A W lam g) ρ.1 (rowF ρ) ?_ ?_ ?_ ?_)
  · rw [rate_lam (K := c.base.K) _ _ _ _ _ ρ.1.2]; exact hlam _
  · intro i hi
    rw [rate_W (K := c.base.K) _ _ _ _ _ hi ρ.1.2]; exact hAW _
  · intro i hi b hb
    rw [rate_g (K := c.base.K) _ _ _ _ _ hi ρ.1.2]; exact hg _ b hb
  · intro i hi b hb
    exact (hD _ (List.getElem_mem _)).1 _ (mem_ts (List.getElem_mem _)).1 i hi b hb

/-- expectations over the sampled parents -/
theorem lintegral_zOf (hD : ∀ D ∈ c.data, DataOk c.base.K c.base.B D) {A W : Pair c.base.K → ℝ} {lam : Fin c.base.K → ℝ} {g : Pair c.base.K → Vec ℝ} (hAW : ∀ e, 0 ≤ A e * W e)
    (hlam : ∀ k, 0 < lam k) (hg : ∀ e, ∀ b < c.base.B, 0 ≤ g e b) (F : ZSp c → ENNReal) :
    ∫⁻ x, F (zOf G c A W lam g x) ∂Measure.pi (fun _ => μ) = ∑' z, ENNReal.ofReal (zPmf A W lam g z) * F z := by
  have hμ := gen_prob G
  have hm : Measurable (zOf G c A W lam g) := (measurable_zOf G c).comp (f := fun x => ((A, W, lam, g), x)) (by fun_prop)
  have hp := row_prob c hD hAW hlam hg
  rw [← lintegral_map (measurable_of_countable F) hm, lintegral_countable']
  refine tsum_congr fun z => ?_
  rw [mul_comm]
  congr 1
  rw [Measure.map_apply hm (measurableSet_singleton z)]
  have e : zOf G c A W lam g ⁻¹' {z} = Set.univ.pi fun ρ => {u | ∀ j < NPar c, G.mult (NPar c) (rowCount ρ) (arr (NPar c) (probVec (rateParams c.base A W lam g) ρ.1 (rowF ρ))) u j = zAt z ρ j} := by
    ext x
    simp only [Set.mem_preimage, Set.mem_singleton_iff, Set.mem_pi, Set.mem_univ, forall_true_left, Set.mem_ofPred_eq]
    constructor
    · rintro h ρ j hj
      rw [← h]; unfold zAt; rw [dif_pos hj]; rfl
    · intro h
      funext ρ j
      have := h ρ j j.2
      unfold zAt at this
      rw [dif_pos j.2] at this
      exact this
  rw [e, Measure.pi_pi]
  unfold zPmf
  rw [ENNReal.ofReal_prod_of_nonneg fun ρ _ => zPmf_nonneg c hp z ρ]
  exact prod_congr rfl fun ρ _ => G.mult_law _ _ _ (hp ρ) _

theorem tsum_zPmf (G : Generator μ) (hD : ∀ D ∈ c.data, DataOk c.base.K c.base.B D) {A W : Pair c.base.K → ℝ} {lam : Fin c.base.K → ℝ} {g : Pair c.base.K → Vec ℝ} (hAW : ∀ e, 0 ≤ A e * W e)
    (hlam : ∀ k, 0 < lam k) (hg : ∀ e, ∀ b < c.base.B, 0 ≤ g e b) : ∑' z, ENNReal.ofReal (zPmf A W lam g z) = 1 := by
  have hμ := gen_prob G
  have := lintegral_zOf G c hD hAW hlam hg fun _ => 1
  rw [lintegral_one, measure_univ] at this
  simpa using this.symm

end

end PyHawkes
