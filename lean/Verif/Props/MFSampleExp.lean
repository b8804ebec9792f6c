import Verif.Props.MFSampleLaw
import Verif.Model.Rate

/-! # C82: expectations of everything `resample_from_mf` draws -/
set_option linter.unusedSectionVars false
set_option linter.unusedVariables false

namespace PyHawkes
open Finset Spec MeasureTheory ProbabilityTheory

variable {Ω : Type*} [MeasurableSpace Ω] {P : Measure Ω} [IsProbabilityMeasure P] {d : Ω → MFDraws}

theorem mfBlocks_pos {K : ℕ} {net : MFNet} (g : NetGood K net) : 0 < mfBlocks net := by
  cases net with
  | sbm n => exact g.2.C
  | fixedSparsity n => exact g.2.C
  | er n => exact one_pos

theorem not_masked {b : Bool} {i j : ℕ} (hs : b = true ∨ i ≠ j) : ¬ ((!b) = true ∧ i = j) := by
  rintro ⟨h1, h2⟩
  rcases hs with h | h
  · simp [h] at h1
  · exact h h2

/-- the parameters of a rate computation -/
def withSample (base : NetParams ℝ) (lam0 : Vec ℝ) (W : Mat ℝ) (g : Ten ℝ) : NetParams ℝ := { base with lam0 := lam0, Weff := W, g := g }

/-- **C82 (laws).** In every legal variational state, if the generators have their documented laws and different calls are independent, then the parameters that `resample_from_mf`
draws have exactly the means and log means that `expected_lambda0`, `expected_log_lambda0`, `expected_A`, `expected_W`, `expected_log_W`, `expected_g` and
`expected_log_g` report (weights: for allowed pairs). With self connections allowed, the mean of the rate computed from the drawn parameters, in every bin and for
every process and all filtered counts, is the rate computed from the expected parameters. -/
theorem C82_expectations (M : MFModel) (g : MFGood M) (hl : MFLaws P M.B (mfBlocks M.net) d) (hind : Independent P d) :
    ∃ (S : Ω → MFSample) (N : Ω → MFNet), (∀ ω, M.resampleFromMf (d ω) = .ok (S ω, { M with net := N ω })) ∧
      (∀ k < M.K, ∫ ω, (S ω).lam0 k ∂P = M.bias.eLam k ∧ ∫ ω, Real.log ((S ω).lam0 k) ∂P = M.bias.eLnLam k) ∧
      (∀ i < M.K, ∀ j < M.K, ∫ ω, (S ω).A i j ∂P = M.w.mfP i j) ∧
      (∀ i < M.K, ∀ j < M.K, M.net.allowSelf = true ∨ i ≠ j →
        ∫ ω, (S ω).W i j ∂P = M.w.eW M.net.allowSelf i j ∧ .fin (∫ ω, Real.log ((S ω).W i j) ∂P) = M.w.eLnW M.net.allowSelf i j) ∧
      (∀ i < M.K, ∀ j < M.K, ∀ b < M.B, ∫ ω, (S ω).g i j b ∂P = M.imp.eG M.B i j b ∧ ∫ ω, Real.log ((S ω).g i j b) ∂P = M.imp.eLnG M.B i j b) ∧
      (M.net.allowSelf = true → ∀ base : NetParams ℝ, base.K = M.K → base.B = M.B → ∀ (F : Ten ℝ) (t : ℕ), ∀ k < M.K,
        ∫ ω, rateProc (withSample base (S ω).lam0 (S ω).W (S ω).g) F k t ∂P = rateProc (withSample base M.bias.eLam (M.w.eW true) (M.imp.eG M.B)) F k t) := by
  have hC := mfBlocks_pos g.net
  have hgam : ∀ i < M.K, ∀ j < M.K, ∀ b < M.B, 0 < M.imp.mfGamma i j b := fun i hi j hj b hb => (g.imp b hb).2 i hi j hj
  have hp : ∀ i < M.K, ∀ j < M.K, 0 ≤ M.w.mfP i j ∧ M.w.mfP i j ≤ 1 := fun i hi j hj => by
    have := g.p i hi j hj; norm_num at this; constructor <;> linarith [this.1, this.2]
  have laml : ∀ k < M.K, HasLaw (fun ω => (d ω).lam k ⟨M.bias.mfAlpha k, 1 / M.bias.mfBeta k⟩) (gammaMeasure (M.bias.mfAlpha k) (M.bias.mfBeta k)) P := fun k hk =>
    npGammaLaw_eq ▸ hl.lam k _ (g.bias.2.2.2 k hk).1 (one_div_pos.2 (g.bias.2.2.2 k hk).2)
  -- a function of the weight times a function of the impulse response
  have WT := fun i (hi : i < M.K) j (hj : j < M.K) (f : ℝ → ℝ) (hf : Measurable f) i0 i1 (h : Vec ℝ → ℝ) (hh : Measurable h) ih =>
    weight_times hl hind hC (i := i) (j := j) (p := M.w.mfP i j) (k0 := M.w.mfKappa0 i j) (v0 := M.w.mfV0 i j) (k1 := M.w.mfKappa1 i j) (v1 := M.w.mfV1 i j)
      ⟨(g.wmf i hi j hj).1, (g.wmf i hi j hj).2.1⟩ ⟨(g.wmf i hi j hj).2.2.1, (g.wmf i hi j hj).2.2.2⟩ (hp i hi j hj) (v := M.imp.mfGamma i j) (hgam i hi j hj) (f := f) hf i0 i1 (h := h) hh ih
  have eW1 : ∀ i < M.K, ∀ j < M.K, M.net.allowSelf = true ∨ i ≠ j →
      M.w.mfP i j * expGamma (M.w.mfKappa1 i j) (M.w.mfV1 i j) (fun x => x) + (1 - M.w.mfP i j) * expGamma (M.w.mfKappa0 i j) (M.w.mfV0 i j) (fun x => x) = M.w.eW M.net.allowSelf i j := by
    intro i hi j hj hs
    have w := g.wmf i hi j hj
    rw [expGamma_id w.1 w.2.1, expGamma_id w.2.2.1 w.2.2.2, MFWeights.eW, if_neg (not_masked hs)]
    simp [MFWeights.eWGivenA]
  refine ⟨fun ω => sampledParams (d ω) M, fun ω => sampledNet (d ω) M.net, fun ω => resampleFromMf_eq (d ω) M g, ?_, ?_, ?_, ?_, ?_⟩
  · intro k hk
    have b := g.bias.2.2.2 k hk
    exact ⟨by rw [MFBias.eLam, ← expGamma_id b.1 b.2]; exact gamma_draw b.1 b.2 (laml k hk) measurable_id,
      by rw [MFBias.eLnLam, ← expGamma_log b.1 b.2]; exact gamma_draw b.1 b.2 (laml k hk) Real.measurable_log⟩
  · exact fun i hi j hj => (coin (hl.unif i j) (hp i hi j hj).1 (hp i hi j hj).2).2
  · intro i hi j hj hs
    have w := g.wmf i hi j hj
    have hD := dirichlet_prob (hgam i hi j hj)
    constructor
    · have h := (WT i hi j hj (fun x => x) measurable_id (gamma_mean w.1 w.2.1).1 (gamma_mean w.2.2.1 w.2.2.2).1 (fun _ => 1) measurable_const (integrable_const _)).2
      simp only [mul_one, integral_const, probReal_univ, smul_eq_mul] at h
      rw [eW1 i hi j hj hs] at h
      exact h
    · have h := (WT i hi j hj Real.log Real.measurable_log (gamma_mean_log w.1 w.2.1).1 (gamma_mean_log w.2.2.1 w.2.2.2).1 (fun _ => 1) measurable_const (integrable_const _)).2
      simp only [mul_one, integral_const, probReal_univ, smul_eq_mul] at h
      have e : ∫ ω, Real.log ((sampledParams (d ω) M).W i j) ∂P = _ := h
      rw [e, expGamma_log w.1 w.2.1, expGamma_log w.2.2.1 w.2.2.2, MFWeights.eLnW, if_neg (not_masked hs)]
      simp [MFWeights.eLnWGivenA]
  · intro i hi j hj b hb
    have ld := hl.dir i j _ (hgam i hi j hj)
    obtain ⟨_, m1⟩ := dirichlet_mean (hgam i hi j hj) hb
    obtain ⟨_, m2⟩ := dirichlet_mean_log (hgam i hi j hj) hb
    have hm : Measurable fun x : ℕ → ℝ => Real.log (x b) := Real.measurable_log.comp (measurable_pi_apply b)
    constructor
    · rw [MFImp.eG, ← m1]
      exact ld.integral_comp (f := fun x => x b) (measurable_pi_apply b).aestronglyMeasurable
    · rw [MFImp.eLnG, ← m2]
      exact ld.integral_comp (f := fun x => Real.log (x b)) hm.aestronglyMeasurable
  · intro hs base hK hB F t k hk
    have bk := g.bias.2.2.2 k hk
    have key : ∀ k1 < M.K, ∀ b < M.B, Integrable (fun ω => (sampledParams (d ω) M).W k1 k * (sampledParams (d ω) M).g k1 k b) P ∧
        ∫ ω, (sampledParams (d ω) M).W k1 k * (sampledParams (d ω) M).g k1 k b ∂P = M.w.eW true k1 k * M.imp.eG M.B k1 k b := by
      intro k1 h1 b hb
      have w := g.wmf k1 h1 k hk
      obtain ⟨i1, m1⟩ := dirichlet_mean (hgam k1 h1 k hk) hb
      have h := WT k1 h1 k hk (fun x => x) measurable_id (gamma_mean w.1 w.2.1).1 (gamma_mean w.2.2.1 w.2.2.2).1 (fun x => x b) (measurable_pi_apply b) i1
      have e := eW1 k1 h1 k hk (Or.inl hs)
      rw [e, m1, hs] at h
      exact h
    simp only [rateProc, withSample]
    rw [hK, hB]
    have i0 : Integrable (fun ω => (sampledParams (d ω) M).lam0 k) P := gammaId_integrable bk.1 bk.2 (laml k hk)
    have v0 : ∫ ω, (sampledParams (d ω) M).lam0 k ∂P = M.bias.eLam k := by
      rw [MFBias.eLam, ← expGamma_id bk.1 bk.2]; exact gamma_draw bk.1 bk.2 (laml k hk) measurable_id
    have it : ∀ k1 ∈ range M.K, ∀ b ∈ range M.B, Integrable (fun ω => F t k1 b * ((sampledParams (d ω) M).W k1 k * (sampledParams (d ω) M).g k1 k b)) P :=
      fun k1 h1 b hb => (key k1 (mem_range.1 h1) b (mem_range.1 hb)).1.const_mul _
    rw [integral_add i0 (integrable_finsetSum _ fun k1 h1 => integrable_finsetSum _ (it k1 h1)), v0, integral_finsetSum _ fun k1 h1 => integrable_finsetSum _ (it k1 h1)]
    congr 1
    refine sum_congr rfl fun k1 h1 => ?_
    rw [integral_finsetSum _ (it k1 h1)]
    refine sum_congr rfl fun b hb => ?_
    rw [integral_const_mul, (key k1 (mem_range.1 h1) b (mem_range.1 hb)).2]

/-! ### The network -/

/-- legal arguments for a block network -/
noncomputable def netArgs (n : SBM) : MFCallArgs :=
  { defaultArgs with
    blockM := n.mfPi
    blockP := fun c e => if c < n.C ∧ e < n.C then ⟨n.mfTau1 c e, n.mfTau0 c e⟩ else ⟨1, 1⟩
    blockV := fun c e => if c < n.C ∧ e < n.C then ⟨n.mfAlpha c e, 1 / n.mfBeta c e⟩ else ⟨1, 1⟩
    label := fun k => if k < n.K then n.mfM k else fun c => if c = 0 then 1 else 0 }

theorem netArgs_legal (B : ℕ) (n : SBM) (g : SBMGood n) : LegalArgs B n.C (netArgs n) := by
  have hD := defaultArgs_legal B g.C
  refine ⟨hD.lam, hD.spike, hD.slab, hD.imp, g.mfPi, fun c e => ?_, fun c e => ?_, fun k => ?_, hD.erV⟩
  · simp only [netArgs]
    split_ifs with h
    · exact ⟨(g.mfTau c h.1 e h.2).2, (g.mfTau c h.1 e h.2).1⟩
    · exact ⟨one_pos, one_pos⟩
  · simp only [netArgs]
    split_ifs with h
    · exact ⟨(g.mfAB c h.1 e h.2).1, one_div_pos.2 (g.mfAB c h.1 e h.2).2⟩
    · exact ⟨one_pos, one_pos⟩
  · simp only [netArgs]
    split_ifs with h
    · exact g.mfM k h
    · exact delta_prob g.C

theorem label_range {B C : ℕ} (hl : MFLaws P B C d) {k : ℕ} {p : Vec ℝ} (hp : IsProb C p) : ∀ᵐ ω ∂P, (d ω).net.label k p < C := by
  have li := hl.label k _ hp
  have h := choiceLaw_range (C := C) (p := p)
  rw [← li.map_eq] at h
  exact ae_of_ae_map li.aemeasurable h

section
variable {B : ℕ} (n : SBM) (g : SBMGood n) (hl : MFLaws P B n.C d) (hind : Independent P d)
include g hl hind

/-- mean of a function of the drawn scale of a pair of different nodes -/
theorem drawnV_mean {i j : ℕ} (hi : i < n.K) (hj : j < n.K) (hij : i ≠ j) {f : ℝ → ℝ} (hf : Measurable f)
    (hint : ∀ c < n.C, ∀ e < n.C, IntegrableOn (fun x => gammaPDFReal (n.mfAlpha c e) (n.mfBeta c e) x * f x) (Set.Ioi 0) volume) :
    ∫ ω, f ((d ω).net.gamma ((d ω).net.label i (n.mfM i)) ((d ω).net.label j (n.mfM j))
        ⟨n.mfAlpha ((d ω).net.label i (n.mfM i)) ((d ω).net.label j (n.mfM j)), 1 / n.mfBeta ((d ω).net.label i (n.mfM i)) ((d ω).net.label j (n.mfM j))⟩) ∂P
      = ∑ c ∈ range n.C, ∑ e ∈ range n.C, n.mfM i c * n.mfM j e * expGamma (n.mfAlpha c e) (n.mfBeta c e) f := by
  have ha := netArgs_legal B n g
  have hlaw : ∀ c < n.C, ∀ e < n.C, HasLaw (fun ω => (d ω).net.gamma c e ((netArgs n).blockV c e)) (gammaMeasure (n.mfAlpha c e) (n.mfBeta c e)) P := by
    intro c hc e he
    simp only [netArgs, if_pos (And.intro hc he)]
    exact npGammaLaw_eq ▸ hl.gamma c e _ (g.mfAB c hc e he).1 (one_div_pos.2 (g.mfAB c hc e he).2)
  have h := labels_mean hl hind g.C hij ha (s := fun c e => .blockV c e) (by intro c e k; simp) (f := fun _ _ => f) (fun _ _ => hf)
    (fun c hc e he => gamma_draw_integrable (g.mfAB c hc e he).1 (g.mfAB c hc e he).2 (hlaw c hc e he) (hint c hc e he))
  have li : (netArgs n).label i = n.mfM i := by simp [netArgs, hi]
  have lj : (netArgs n).label j = n.mfM j := by simp [netArgs, hj]
  rw [li, lj] at h
  have e1 : (fun ω => f ((d ω).net.gamma ((d ω).net.label i (n.mfM i)) ((d ω).net.label j (n.mfM j))
        ⟨n.mfAlpha ((d ω).net.label i (n.mfM i)) ((d ω).net.label j (n.mfM j)), 1 / n.mfBeta ((d ω).net.label i (n.mfM i)) ((d ω).net.label j (n.mfM j))⟩))
      =ᵐ[P] fun ω => f (MFDraws.value (d ω) (netArgs n) (.blockV ((d ω).net.label i (n.mfM i)) ((d ω).net.label j (n.mfM j)))) := by
    filter_upwards [label_range hl (k := i) (g.mfM i hi), label_range hl (k := j) (g.mfM j hj)] with ω h1 h2
    simp only [MFDraws.value, netArgs, if_pos (And.intro h1 h2)]
  rw [integral_congr_ae e1]
  refine h.trans (sum_congr rfl fun c hc => sum_congr rfl fun e he => ?_)
  congr 1
  exact gamma_draw (g.mfAB c (mem_range.1 hc) e (mem_range.1 he)).1 (g.mfAB c (mem_range.1 hc) e (mem_range.1 he)).2 (hlaw c (mem_range.1 hc) e (mem_range.1 he)) hf

/-- mean of a function of the drawn connection probability of a pair of different nodes -/
theorem drawnP_mean {i j : ℕ} (hi : i < n.K) (hj : j < n.K) (hij : i ≠ j) {f : ℝ → ℝ} (hf : Measurable f)
    (hint : ∀ c < n.C, ∀ e < n.C, IntegrableOn (fun x => betaPDFReal (n.mfTau1 c e) (n.mfTau0 c e) x * f x) (Set.Ioo 0 1) volume) :
    ∫ ω, f ((d ω).net.beta ((d ω).net.label i (n.mfM i)) ((d ω).net.label j (n.mfM j))
        ⟨n.mfTau1 ((d ω).net.label i (n.mfM i)) ((d ω).net.label j (n.mfM j)), n.mfTau0 ((d ω).net.label i (n.mfM i)) ((d ω).net.label j (n.mfM j))⟩) ∂P
      = ∑ c ∈ range n.C, ∑ e ∈ range n.C, n.mfM i c * n.mfM j e * expBeta (n.mfTau1 c e) (n.mfTau0 c e) f := by
  have ha := netArgs_legal B n g
  have hlaw : ∀ c < n.C, ∀ e < n.C, HasLaw (fun ω => (d ω).net.beta c e ((netArgs n).blockP c e)) (betaMeasure (n.mfTau1 c e) (n.mfTau0 c e)) P := by
    intro c hc e he
    simp only [netArgs, if_pos (And.intro hc he)]
    exact hl.beta c e _ (g.mfTau c hc e he).2 (g.mfTau c hc e he).1
  have hi' : ∀ c < n.C, ∀ e < n.C, Integrable (fun ω => f ((d ω).net.beta c e ((netArgs n).blockP c e))) P := by
    intro c hc e he
    have h := hint c hc e he
    rw [← integrable_betaMeasure (g.mfTau c hc e he).2 (g.mfTau c hc e he).1, ← (hlaw c hc e he).map_eq] at h
    exact h.comp_aemeasurable (hlaw c hc e he).aemeasurable
  have h := labels_mean hl hind g.C hij ha (s := fun c e => .blockP c e) (by intro c e k; simp) (f := fun _ _ => f) (fun _ _ => hf) hi'
  have li : (netArgs n).label i = n.mfM i := by simp [netArgs, hi]
  have lj : (netArgs n).label j = n.mfM j := by simp [netArgs, hj]
  rw [li, lj] at h
  have e1 : (fun ω => f ((d ω).net.beta ((d ω).net.label i (n.mfM i)) ((d ω).net.label j (n.mfM j))
        ⟨n.mfTau1 ((d ω).net.label i (n.mfM i)) ((d ω).net.label j (n.mfM j)), n.mfTau0 ((d ω).net.label i (n.mfM i)) ((d ω).net.label j (n.mfM j))⟩))
      =ᵐ[P] fun ω => f (MFDraws.value (d ω) (netArgs n) (.blockP ((d ω).net.label i (n.mfM i)) ((d ω).net.label j (n.mfM j)))) := by
    filter_upwards [label_range hl (k := i) (g.mfM i hi), label_range hl (k := j) (g.mfM j hj)] with ω h1 h2
    simp only [MFDraws.value, netArgs, if_pos (And.intro h1 h2)]
  rw [integral_congr_ae e1]
  refine h.trans (sum_congr rfl fun c hc => sum_congr rfl fun e he => ?_)
  congr 1
  rw [← integral_betaMeasure (g.mfTau c (mem_range.1 hc) e (mem_range.1 he)).2 (g.mfTau c (mem_range.1 hc) e (mem_range.1 he)).1]
  exact (hlaw c (mem_range.1 hc) e (mem_range.1 he)).integral_comp hf.aestronglyMeasurable

end

theorem betaId_integrable {a b : ℝ} (ha : 0 < a) (hb : 0 < b) : IntegrableOn (fun x => betaPDFReal a b x * x) (Set.Ioo 0 1) volume := by
  rw [← integrable_betaMeasure ha hb]
  have := isProbabilityMeasureBeta ha hb
  refine Integrable.mono' (integrable_const (1:ℝ)) aestronglyMeasurable_id ?_
  unfold betaMeasure
  have hm : Measurable (betaPDF a b) := (measurable_betaPDFReal a b).ennreal_ofReal
  rw [ae_withDensity_iff hm]
  refine Filter.Eventually.of_forall fun x hx => ?_
  have h0 : 0 < x := by by_contra h; exact hx (betaPDF_eq_zero_of_nonpos (not_lt.1 h))
  have h1 : x < 1 := by by_contra h; exact hx (betaPDF_eq_zero_of_one_le (not_lt.1 h))
  rw [Real.norm_of_nonneg h0.le]; exact h1.le

/-- **C82 (network laws).** For a block network with learned parameters (not all of `c`, `p`, `v` given): the drawn connection probability and scale of every pair of DIFFERENT nodes
have the means and log means that `expected_p`, `expected_log_p`, `expected_log_notp`, `expected_v` and `expected_log_v` report, and the drawn block frequencies those of
`expected_m` and `expected_log_m`. -/
theorem C82_network_expectations (M : MFModel) (g : MFGood M) (n : SBM) (hn : M.net = .sbm n) (hfix : n.fixed = false) (hl : MFLaws P M.B (mfBlocks M.net) d)
    (hind : Independent P d) :
    ∃ (S : Ω → MFSample) (N : Ω → SBM), (∀ ω, M.resampleFromMf (d ω) = .ok (S ω, { M with net := .sbm (N ω) })) ∧
      (∀ i < M.K, ∀ j < M.K, i ≠ j →
        ∫ ω, (N ω).P i j ∂P = M.net.eP i j ∧ .fin (∫ ω, Real.log ((N ω).P i j) ∂P) = M.net.eLnP i j ∧ .fin (∫ ω, Real.log (1 - (N ω).P i j) ∂P) = M.net.eLnNotP i j ∧
        (∃ V, M.net.eV = .ok V ∧ ∫ ω, (N ω).V i j ∂P = V i j) ∧ ∃ L, M.net.eLnV = .ok L ∧ ∫ ω, Real.log ((N ω).V i j) ∂P = L i j) ∧
      ∀ c < n.C, ∫ ω, (N ω).m c ∂P = n.eM c ∧ ∫ ω, Real.log ((N ω).m c) ∂P = n.eLnM c := by
  have gn : NetGood M.K (.sbm n) := hn ▸ g.net
  obtain ⟨hK, gs⟩ := gn
  rw [hn] at hl
  have hl : MFLaws P M.B n.C d := hl
  refine ⟨fun ω => sampledParams (d ω) M, fun ω => { n with
      m := (d ω).net.dirichlet n.mfPi
      p := fun c e => (d ω).net.beta c e ⟨n.mfTau1 c e, n.mfTau0 c e⟩
      v := fun c e => (d ω).net.gamma c e ⟨n.mfAlpha c e, 1 / n.mfBeta c e⟩
      c := fun k => (d ω).net.label k (n.mfM k) }, fun ω => ?_, ?_, ?_⟩
  · rw [resampleFromMf_eq (d ω) M g, hn]; rfl
  · intro i hi j hj hij
    rw [← hK] at hi hj
    have hms : ¬ ((!n.allowSelf) = true ∧ i = j) := fun h => hij h.2
    have t := fun c (hc : c ∈ range n.C) e (he : e ∈ range n.C) => gs.mfTau c (mem_range.1 hc) e (mem_range.1 he)
    have a := fun c (hc : c ∈ range n.C) e (he : e ∈ range n.C) => gs.mfAB c (mem_range.1 hc) e (mem_range.1 he)
    rw [hn]
    simp only [SBM.P, SBM.V, if_neg hms]
    refine ⟨?_, ?_, ?_, ⟨_, rfl, ?_⟩, ⟨_, rfl, ?_⟩⟩
    · have h := drawnP_mean n gs hl hind hi hj hij measurable_id fun c hc e he => betaId_integrable (gs.mfTau c hc e he).2 (gs.mfTau c hc e he).1
      refine h.trans ?_
      simp only [MFNet.eP, SBM.eP, hfix, Bool.false_eq_true, if_false, if_neg hms]
      refine sum_congr rfl fun c hc => sum_congr rfl fun e he => ?_
      have e1 : expBeta (n.mfTau1 c e) (n.mfTau0 c e) id = _ := expBeta_id (t c hc e he).2 (t c hc e he).1
      rw [e1, mul_div_assoc, add_comm (n.mfTau0 c e)]
    · have h := drawnP_mean n gs hl hind hi hj hij Real.measurable_log fun c hc e he => (beta_mean_log (gs.mfTau c hc e he).2 (gs.mfTau c hc e he).1).1
      simp only [MFNet.eLnP, hfix, Bool.false_eq_true, if_false, if_neg hms, SBM.mix]
      congr 1
      refine h.trans (sum_congr rfl fun c hc => sum_congr rfl fun e he => ?_)
      rw [expBeta_log (t c hc e he).2 (t c hc e he).1, SBM.blkLnP, add_comm (n.mfTau1 c e)]
    · have h := drawnP_mean n gs hl hind hi hj hij (f := fun x => Real.log (1 - x)) (Real.measurable_log.comp (measurable_const.sub measurable_id))
        fun c hc e he => (beta_mean_log_compl (gs.mfTau c hc e he).2 (gs.mfTau c hc e he).1).1
      simp only [MFNet.eLnNotP, hfix, Bool.false_eq_true, if_false, if_neg hms, SBM.mix]
      congr 1
      refine h.trans (sum_congr rfl fun c hc => sum_congr rfl fun e he => ?_)
      rw [expBeta_log_compl (t c hc e he).2 (t c hc e he).1, SBM.blkLnNotP, add_comm (n.mfTau1 c e)]
    · have h := drawnV_mean n gs hl hind hi hj hij measurable_id fun c hc e he => (gamma_mean (gs.mfAB c hc e he).1 (gs.mfAB c hc e he).2).1
      refine h.trans ?_
      simp only [hfix, Bool.false_eq_true, if_false]
      refine sum_congr rfl fun c hc => sum_congr rfl fun e he => ?_
      have e1 : expGamma (n.mfAlpha c e) (n.mfBeta c e) id = _ := expGamma_id (a c hc e he).1 (a c hc e he).2
      rw [e1, mul_div_assoc]
    · have h := drawnV_mean n gs hl hind hi hj hij Real.measurable_log fun c hc e he => (gamma_mean_log (gs.mfAB c hc e he).1 (gs.mfAB c hc e he).2).1
      refine h.trans ?_
      simp only [hfix, Bool.false_eq_true, if_false, SBM.mix]
      refine sum_congr rfl fun c hc => sum_congr rfl fun e he => ?_
      rw [expGamma_log (a c hc e he).1 (a c hc e he).2, SBM.blkLnV]
  · intro c hc
    have ld := hl.netDir _ gs.mfPi
    obtain ⟨_, m1⟩ := dirichlet_mean gs.mfPi hc
    obtain ⟨_, m2⟩ := dirichlet_mean_log gs.mfPi hc
    have hm : Measurable fun x : ℕ → ℝ => Real.log (x c) := Real.measurable_log.comp (measurable_pi_apply c)
    constructor
    · rw [SBM.eM, ← m1]
      exact ld.integral_comp (f := fun x => x c) (measurable_pi_apply c).aestronglyMeasurable
    · rw [SBM.eLnM, ← m2]
      exact ld.integral_comp (f := fun x => Real.log (x c)) hm.aestronglyMeasurable

end PyHawkes
