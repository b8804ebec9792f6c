import Verif.Props.LogLik
import Verif.Props.MFSampleExp
import Verif.Props.MFSampleExists
import Verif.Props.VarWindows
import Verif.Model.ExpectedLL

/-! # C99: `expected_log_likelihood` against the expectation of the log likelihood -/
set_option linter.unusedSectionVars false
set_option linter.unusedVariables false

namespace PyHawkes
open Finset Spec MeasureTheory ProbabilityTheory

/-- **C99 (what is computed).** `expected_log_likelihood` is `log_likelihood` evaluated at the expected parameters. -/
theorem C99_at_expected_parameters (M : MFModel) (base : NetParams ℝ) (hK : base.K = M.K) (hB : base.B = M.B) (D : DParents ℝ) :
    M.expectedLogLik base.dt D = llData (withSample base M.bias.eLam (M.w.eW M.net.allowSelf) (M.imp.eG M.B)) D := by
  unfold MFModel.expectedLogLik expectedLL llData
  have e : (withSample base M.bias.eLam (M.w.eW M.net.allowSelf) (M.imp.eG M.B)).K = M.K := hK
  rw [e, forRange_add (M.K) (fun k => llSingle (withSample base M.bias.eLam (M.w.eW M.net.allowSelf) (M.imp.eG M.B)) D k) 0]
  rw [show (fun (k2 : ℕ) (ll : ℝ) => ll + -(M.bias.eLam k2) * D.T * base.dt + -(∑ k1 ∈ range M.K, M.w.eW M.net.allowSelf k1 k2 * D.Ns k1) +
      (((D.Ss k2).zip (D.Fs k2)).map fun p => (p.1 : ℝ) * Real.log (M.bias.eLam k2 + ∑ k1 ∈ range M.K, ∑ b ∈ range M.B, p.2 k1 b * M.w.eW M.net.allowSelf k1 k2 * M.imp.eG M.B k1 k2 b)).sum)
      = fun k2 ll => ll + llSingle (withSample base M.bias.eLam (M.w.eW M.net.allowSelf) (M.imp.eG M.B)) D k2 from ?_]
  · rw [forRange_add]
  · funext k2 ll
    unfold llSingle
    simp only [withSample, hK, hB, zero_add]
    have c : ∀ p : ℕ × Mat ℝ, ∑ k1 ∈ range M.K, ∑ b ∈ range M.B, p.2 k1 b * M.w.eW M.net.allowSelf k1 k2 * M.imp.eG M.B k1 k2 b
        = ∑ k1 ∈ range M.K, ∑ b ∈ range M.B, M.w.eW M.net.allowSelf k1 k2 * M.imp.eG M.B k1 k2 b * p.2 k1 b := fun p =>
      sum_congr rfl fun k1 _ => sum_congr rfl fun b _ => by ring
    simp only [c]
    ring

variable {Ω : Type*} [MeasurableSpace Ω] {P : Measure Ω} [IsProbabilityMeasure P] {d : Ω → MFDraws}

/-- Jensen's inequality for the logarithm of a positive random variable -/
theorem integral_log_le {X : Ω → ℝ} (hX : ∀ᵐ ω ∂P, 0 < X ω) (hi : Integrable X P) (hl : Integrable (fun ω => Real.log (X ω)) P) :
    ∫ ω, Real.log (X ω) ∂P ≤ Real.log (∫ ω, X ω ∂P) ∧ ((∀ᵐ ω ∂P, X ω ≠ ∫ ω, X ω ∂P) → ∫ ω, Real.log (X ω) ∂P < Real.log (∫ ω, X ω ∂P)) := by
  have hm : 0 < ∫ ω, X ω ∂P := by
    refine (integral_pos_iff_support_of_nonneg_ae (hX.mono fun ω h => h.le) hi).2 ?_
    have : P (Function.support X) = 1 := by
      rw [← measure_univ (μ := P)]
      exact measure_congr (Filter.eventuallyEq_univ.2 (hX.mono fun ω h => h.ne'))
    rw [this]; exact one_pos
  set m := ∫ ω, X ω ∂P with hmdef
  have ir : Integrable (fun ω => Real.log m + (X ω / m - 1)) P := (integrable_const _).add ((hi.div_const m).sub (integrable_const _))
  have vr : ∫ ω, (Real.log m + (X ω / m - 1)) ∂P = Real.log m := by
    have i1 : Integrable (fun ω => X ω / m - 1) P := (hi.div_const m).sub (integrable_const _)
    rw [integral_add (integrable_const _) i1, integral_sub (hi.div_const m) (integrable_const _), integral_div]
    simp [← hmdef, div_self hm.ne']
  have pt : ∀ x : ℝ, 0 < x → Real.log x ≤ Real.log m + (x / m - 1) := fun x hx => by
    have := Real.log_le_sub_one_of_pos (div_pos hx hm)
    rw [Real.log_div hx.ne' hm.ne'] at this
    linarith
  have pts : ∀ x : ℝ, 0 < x → x ≠ m → Real.log x < Real.log m + (x / m - 1) := fun x hx hne => by
    have := Real.log_lt_sub_one_of_pos (div_pos hx hm) (by rwa [Ne, div_eq_one_iff_eq hm.ne'])
    rw [Real.log_div hx.ne' hm.ne'] at this
    linarith
  refine ⟨?_, fun hne => ?_⟩
  · rw [← vr]
    exact integral_mono_ae hl ir (hX.mono fun ω h => pt _ h)
  · rw [← vr]
    have hd : Integrable (fun ω => Real.log m + (X ω / m - 1) - Real.log (X ω)) P := ir.sub hl
    have h0 : 0 < ∫ ω, (Real.log m + (X ω / m - 1) - Real.log (X ω)) ∂P := by
      refine (integral_pos_iff_support_of_nonneg_ae ?_ hd).2 ?_
      · filter_upwards [hX] with ω h
        exact sub_nonneg.2 (pt _ h)
      · have : P (Function.support fun ω => Real.log m + (X ω / m - 1) - Real.log (X ω)) = 1 := by
          rw [← measure_univ (μ := P)]
          refine measure_congr (Filter.eventuallyEq_univ.2 ?_)
          filter_upwards [hX, hne] with ω h h'
          exact (sub_pos.2 (pts _ h h')).ne'
        rw [this]; exact one_pos
    rw [integral_sub ir hl] at h0
    linarith

/-- the rate of process `k` for filtered counts `f`, as the likelihood computes it -/
noncomputable def binRate (p : NetParams ℝ) (f : Mat ℝ) (k : ℕ) : ℝ := p.lam0 k + ∑ k1 ∈ range p.K, ∑ b ∈ range p.B, p.Weff k1 k * p.g k1 k b * f k1 b

/-- everything about the drawn parameters that the bound needs -/
theorem sampled_facts (M : MFModel) (g : MFGood M) (hl : MFLaws P M.B (mfBlocks M.net) d) (hind : Independent P d) (hs : M.net.allowSelf = true) {k : ℕ} (hk : k < M.K) :
    (∀ᵐ ω ∂P, 0 < (sampledParams (d ω) M).lam0 k) ∧ Integrable (fun ω => (sampledParams (d ω) M).lam0 k) P ∧ ∫ ω, (sampledParams (d ω) M).lam0 k ∂P = M.bias.eLam k ∧
    Integrable (fun ω => Real.log ((sampledParams (d ω) M).lam0 k)) P ∧ (∀ x, ∀ᵐ ω ∂P, (sampledParams (d ω) M).lam0 k ≠ x) ∧
    ∀ k1 < M.K, Integrable (fun ω => (sampledParams (d ω) M).W k1 k) P ∧ ∫ ω, (sampledParams (d ω) M).W k1 k ∂P = M.w.eW true k1 k ∧
      (∀ᵐ ω ∂P, 0 < (sampledParams (d ω) M).W k1 k) ∧
      ∀ b < M.B, Integrable (fun ω => (sampledParams (d ω) M).W k1 k * (sampledParams (d ω) M).g k1 k b) P ∧
        ∫ ω, (sampledParams (d ω) M).W k1 k * (sampledParams (d ω) M).g k1 k b ∂P = M.w.eW true k1 k * M.imp.eG M.B k1 k b ∧
        ∀ᵐ ω ∂P, 0 < (sampledParams (d ω) M).g k1 k b := by
  have hC := mfBlocks_pos g.net
  have hgam : ∀ i < M.K, ∀ j < M.K, ∀ b < M.B, 0 < M.imp.mfGamma i j b := fun i hi j hj b hb => (g.imp b hb).2 i hi j hj
  have hp : ∀ i < M.K, ∀ j < M.K, 0 ≤ M.w.mfP i j ∧ M.w.mfP i j ≤ 1 := fun i hi j hj => by
    have := g.p i hi j hj; norm_num at this; constructor <;> linarith [this.1, this.2]
  have bk := g.bias.2.2.2 k hk
  have laml : HasLaw (fun ω => (d ω).lam k ⟨M.bias.mfAlpha k, 1 / M.bias.mfBeta k⟩) (gammaMeasure (M.bias.mfAlpha k) (M.bias.mfBeta k)) P :=
    npGammaLaw_eq ▸ hl.lam k _ bk.1 (one_div_pos.2 bk.2)
  have tr : ∀ {Y : Type} [MeasurableSpace Y] {X : Ω → Y} {ν : Measure Y} {q : Y → Prop}, HasLaw X ν P → (∀ᵐ y ∂ν, q y) → ∀ᵐ ω ∂P, q (X ω) := by
    intro Y _ X ν q hX hq
    rw [← hX.map_eq] at hq
    exact ae_of_ae_map hX.aemeasurable hq
  have WT := fun i (hi : i < M.K) j (hj : j < M.K) (f : ℝ → ℝ) (hf : Measurable f) i0 i1 (h : Vec ℝ → ℝ) (hh : Measurable h) ih =>
    weight_times hl hind hC (i := i) (j := j) (p := M.w.mfP i j) (k0 := M.w.mfKappa0 i j) (v0 := M.w.mfV0 i j) (k1 := M.w.mfKappa1 i j) (v1 := M.w.mfV1 i j)
      ⟨(g.wmf i hi j hj).1, (g.wmf i hi j hj).2.1⟩ ⟨(g.wmf i hi j hj).2.2.1, (g.wmf i hi j hj).2.2.2⟩ (hp i hi j hj) (v := M.imp.mfGamma i j) (hgam i hi j hj) (f := f) hf i0 i1 (h := h) hh ih
  refine ⟨tr laml gammaMeasure_pos, gammaId_integrable bk.1 bk.2 laml, ?_, gammaLog_integrable bk.1 bk.2 laml, fun x => ?_, fun k1 h1 => ?_⟩
  · rw [MFBias.eLam, ← expGamma_id bk.1 bk.2]; exact gamma_draw bk.1 bk.2 laml measurable_id
  · refine tr laml (q := fun y => y ≠ x) ?_
    rw [ae_iff]
    simp only [ne_eq, not_not, Set.ofPred_eq_eq_singleton]
    exact (withDensity_absolutelyContinuous volume _) (by simp)
  have w := g.wmf k1 h1 k hk
  have eW1 : M.w.mfP k1 k * expGamma (M.w.mfKappa1 k1 k) (M.w.mfV1 k1 k) (fun x => x) + (1 - M.w.mfP k1 k) * expGamma (M.w.mfKappa0 k1 k) (M.w.mfV0 k1 k) (fun x => x) = M.w.eW true k1 k := by
    rw [expGamma_id w.1 w.2.1, expGamma_id w.2.2.1 w.2.2.2, MFWeights.eW]
    simp [MFWeights.eWGivenA]
  have hD := dirichlet_prob (hgam k1 h1 k hk)
  have h := WT k1 h1 k hk (fun x => x) measurable_id (gamma_mean w.1 w.2.1).1 (gamma_mean w.2.2.1 w.2.2.2).1 (fun _ => 1) measurable_const (integrable_const _)
  simp only [mul_one, integral_const, probReal_univ, smul_eq_mul] at h
  rw [eW1] at h
  have l0 : HasLaw (fun ω => (d ω).spike k1 k ⟨M.w.mfKappa0 k1 k, 1 / M.w.mfV0 k1 k⟩) (gammaMeasure (M.w.mfKappa0 k1 k) (M.w.mfV0 k1 k)) P :=
    npGammaLaw_eq ▸ hl.spike k1 k _ w.1 (one_div_pos.2 w.2.1)
  have l1 : HasLaw (fun ω => (d ω).slab k1 k ⟨M.w.mfKappa1 k1 k, 1 / M.w.mfV1 k1 k⟩) (gammaMeasure (M.w.mfKappa1 k1 k) (M.w.mfV1 k1 k)) P :=
    npGammaLaw_eq ▸ hl.slab k1 k _ w.2.2.1 (one_div_pos.2 w.2.2.2)
  refine ⟨h.1, h.2, ?_, fun b hb => ?_⟩
  · filter_upwards [tr l0 gammaMeasure_pos, tr l1 gammaMeasure_pos] with ω a0 a1
    show 0 < (if (d ω).u k1 k < M.w.mfP k1 k then _ else _)
    split
    · exact a1
    · exact a0
  · obtain ⟨i1, m1⟩ := dirichlet_mean (hgam k1 h1 k hk) hb
    have h := WT k1 h1 k hk (fun x => x) measurable_id (gamma_mean w.1 w.2.1).1 (gamma_mean w.2.2.1 w.2.2.2).1 (fun x => x b) (measurable_pi_apply b) i1
    rw [eW1, m1] at h
    refine ⟨h.1, h.2, ?_⟩
    have hBpos : 0 < M.B := by omega
    exact tr (hl.dir k1 k _ (hgam k1 h1 k hk)) (q := fun x => 0 < x b) ((dirichlet_simplex (hgam k1 h1 k hk) hBpos).mono fun x hx => hx.1 b hb)

/-- one bin and process: the log rate is integrable and Jensen applies -/
theorem binRate_jensen (M : MFModel) (g : MFGood M) (hl : MFLaws P M.B (mfBlocks M.net) d) (hind : Independent P d) (hs : M.net.allowSelf = true)
    (base : NetParams ℝ) (hK : base.K = M.K) (hB : base.B = M.B) {f : Mat ℝ} (hf : ∀ i b, 0 ≤ f i b) {k : ℕ} (hk : k < M.K) :
    Integrable (fun ω => Real.log (binRate (withSample base (sampledParams (d ω) M).lam0 (sampledParams (d ω) M).W (sampledParams (d ω) M).g) f k)) P ∧
    ∫ ω, Real.log (binRate (withSample base (sampledParams (d ω) M).lam0 (sampledParams (d ω) M).W (sampledParams (d ω) M).g) f k) ∂P
      ≤ Real.log (binRate (withSample base M.bias.eLam (M.w.eW true) (M.imp.eG M.B)) f k) ∧
    ((∀ i < M.K, ∀ b < M.B, f i b = 0) →
      ∫ ω, Real.log (binRate (withSample base (sampledParams (d ω) M).lam0 (sampledParams (d ω) M).W (sampledParams (d ω) M).g) f k) ∂P
      < Real.log (binRate (withSample base M.bias.eLam (M.w.eW true) (M.imp.eG M.B)) f k)) := by
  obtain ⟨p0, i0, v0, il, na, hW⟩ := sampled_facts M g hl hind hs hk
  have e : ∀ (l : Vec ℝ) (W : Mat ℝ) (G : Ten ℝ), binRate (withSample base l W G) f k = l k + ∑ k1 ∈ range M.K, ∑ b ∈ range M.B, W k1 k * G k1 k b * f k1 b := by
    intro l W G; simp only [binRate, withSample, hK, hB]
  simp only [e]
  have it : ∀ k1 ∈ range M.K, ∀ b ∈ range M.B, Integrable (fun ω => (sampledParams (d ω) M).W k1 k * (sampledParams (d ω) M).g k1 k b * f k1 b) P :=
    fun k1 h1 b hb => ((hW k1 (mem_range.1 h1)).2.2.2 b (mem_range.1 hb)).1.mul_const _
  have iS : Integrable (fun ω => ∑ k1 ∈ range M.K, ∑ b ∈ range M.B, (sampledParams (d ω) M).W k1 k * (sampledParams (d ω) M).g k1 k b * f k1 b) P :=
    integrable_finsetSum _ fun k1 h1 => integrable_finsetSum _ (it k1 h1)
  have iX : Integrable (fun ω => (sampledParams (d ω) M).lam0 k + ∑ k1 ∈ range M.K, ∑ b ∈ range M.B, (sampledParams (d ω) M).W k1 k * (sampledParams (d ω) M).g k1 k b * f k1 b) P := i0.add iS
  have vX : ∫ ω, ((sampledParams (d ω) M).lam0 k + ∑ k1 ∈ range M.K, ∑ b ∈ range M.B, (sampledParams (d ω) M).W k1 k * (sampledParams (d ω) M).g k1 k b * f k1 b) ∂P
      = M.bias.eLam k + ∑ k1 ∈ range M.K, ∑ b ∈ range M.B, M.w.eW true k1 k * M.imp.eG M.B k1 k b * f k1 b := by
    rw [integral_add i0 iS, v0, integral_finsetSum _ fun k1 h1 => integrable_finsetSum _ (it k1 h1)]
    congr 1
    refine sum_congr rfl fun k1 h1 => ?_
    rw [integral_finsetSum _ (it k1 h1)]
    refine sum_congr rfl fun b hb => ?_
    rw [integral_mul_const, ((hW k1 (mem_range.1 h1)).2.2.2 b (mem_range.1 hb)).2.1]
  have pS : ∀ᵐ ω ∂P, 0 ≤ ∑ k1 ∈ range M.K, ∑ b ∈ range M.B, (sampledParams (d ω) M).W k1 k * (sampledParams (d ω) M).g k1 k b * f k1 b := by
    have a1 : ∀ᵐ ω ∂P, ∀ k1 ∈ range M.K, 0 < (sampledParams (d ω) M).W k1 k := (Filter.eventually_all_finset _).2 fun k1 h1 => (hW k1 (mem_range.1 h1)).2.2.1
    have a2 : ∀ᵐ ω ∂P, ∀ k1 ∈ range M.K, ∀ b ∈ range M.B, 0 < (sampledParams (d ω) M).g k1 k b :=
      (Filter.eventually_all_finset _).2 fun k1 h1 => (Filter.eventually_all_finset _).2 fun b hb => ((hW k1 (mem_range.1 h1)).2.2.2 b (mem_range.1 hb)).2.2
    filter_upwards [a1, a2] with ω b1 b2
    exact sum_nonneg fun k1 h1 => sum_nonneg fun b hb => mul_nonneg (mul_nonneg (b1 k1 h1).le (b2 k1 h1 b hb).le) (hf k1 b)
  have pX : ∀ᵐ ω ∂P, 0 < (sampledParams (d ω) M).lam0 k + ∑ k1 ∈ range M.K, ∑ b ∈ range M.B, (sampledParams (d ω) M).W k1 k * (sampledParams (d ω) M).g k1 k b * f k1 b := by
    filter_upwards [p0, pS] with ω b1 b2
    linarith
  have iL : Integrable (fun ω => Real.log ((sampledParams (d ω) M).lam0 k + ∑ k1 ∈ range M.K, ∑ b ∈ range M.B, (sampledParams (d ω) M).W k1 k * (sampledParams (d ω) M).g k1 k b * f k1 b)) P := by
    refine (il.abs.add iX.abs).mono' (Real.measurable_log.comp_aemeasurable iX.aemeasurable).aestronglyMeasurable ?_
    filter_upwards [p0, pS, pX] with ω b0 b1 b2
    have u1 := Real.log_le_sub_one_of_pos b2
    have u2 : Real.log ((sampledParams (d ω) M).lam0 k) ≤ Real.log ((sampledParams (d ω) M).lam0 k +
        ∑ k1 ∈ range M.K, ∑ b ∈ range M.B, (sampledParams (d ω) M).W k1 k * (sampledParams (d ω) M).g k1 k b * f k1 b) := Real.log_le_log b0 (by linarith)
    rw [Real.norm_eq_abs, Pi.add_apply]
    refine abs_le.2 ⟨?_, ?_⟩
    · have := neg_abs_le (Real.log ((sampledParams (d ω) M).lam0 k))
      have := abs_nonneg ((sampledParams (d ω) M).lam0 k + ∑ k1 ∈ range M.K, ∑ b ∈ range M.B, (sampledParams (d ω) M).W k1 k * (sampledParams (d ω) M).g k1 k b * f k1 b)
      linarith
    · have := le_abs_self ((sampledParams (d ω) M).lam0 k + ∑ k1 ∈ range M.K, ∑ b ∈ range M.B, (sampledParams (d ω) M).W k1 k * (sampledParams (d ω) M).g k1 k b * f k1 b)
      have := abs_nonneg (Real.log ((sampledParams (d ω) M).lam0 k))
      linarith
  have J := integral_log_le pX iX iL
  rw [vX] at J
  refine ⟨iL, J.1, fun hz => J.2 ?_⟩
  have z : ∀ (W : Mat ℝ) (G : Ten ℝ), ∑ k1 ∈ range M.K, ∑ b ∈ range M.B, W k1 k * G k1 k b * f k1 b = 0 := fun W G =>
    sum_eq_zero fun k1 h1 => sum_eq_zero fun b hb => by rw [hz k1 (mem_range.1 h1) b (mem_range.1 hb), mul_zero]
  simp only [z, add_zero]
  exact na _

/-- **C99 (an upper bound).** In every legal variational state with self connections allowed, for all data and independent generators with their documented laws: the log
likelihood of the parameters drawn by `resample_from_mf` has a finite mean, and `expected_log_likelihood` is at least that mean; it is strictly larger whenever some event comes
in a bin that no earlier event influences, such as the first event of a recording. -/
theorem C99_upper_bound (M : MFModel) (g : MFGood M) (hl : MFLaws P M.B (mfBlocks M.net) d) (hind : Independent P d) (hs : M.net.allowSelf = true)
    (base : NetParams ℝ) (hK : base.K = M.K) (hB : base.B = M.B) (D : DParents ℝ) (hF : ∀ t k b, 0 ≤ D.F t k b) :
    ∃ (S : Ω → MFSample) (N : Ω → MFNet), (∀ ω, M.resampleFromMf (d ω) = .ok (S ω, { M with net := N ω })) ∧
      Integrable (fun ω => llData (withSample base (S ω).lam0 (S ω).W (S ω).g) D) P ∧
      ∫ ω, llData (withSample base (S ω).lam0 (S ω).W (S ω).g) D ∂P ≤ M.expectedLogLik base.dt D ∧
      ((∃ t < D.T, ∃ k < M.K, 0 < D.S t k ∧ D.S t k < 2 ^ 32 ∧ ∀ i < M.K, ∀ b < M.B, D.F t i b = 0) →
        ∫ ω, llData (withSample base (S ω).lam0 (S ω).W (S ω).g) D ∂P < M.expectedLogLik base.dt D) := by
  refine ⟨fun ω => sampledParams (d ω) M, fun ω => sampledNet (d ω) M.net, fun ω => resampleFromMf_eq (d ω) M g, ?_⟩
  dsimp only
  rw [C99_at_expected_parameters M base hK hB D, hs, llData_eq_sum]
  simp only [llData_eq_sum]
  have eK : ∀ (l : Vec ℝ) (W : Mat ℝ) (G : Ten ℝ), (withSample base l W G).K = M.K := fun _ _ _ => hK
  simp only [eK]
  have eb : ∀ (l : Vec ℝ) (W : Mat ℝ) (G : Ten ℝ) (t k : ℕ), llBin (withSample base l W G) (D.S t) (D.F t) k
      = (toU32 (D.S t k) : ℝ) * Real.log (binRate (withSample base l W G) (D.F t) k) - l k * base.dt - ∑ k1 ∈ range M.K, W k1 k * (D.S t k1 : ℝ) := by
    intro l W G t k
    simp only [llBin, binRate, withSample, hK]
  simp only [eb]
  have cell : ∀ t, ∀ k < M.K, Integrable (fun ω => (toU32 (D.S t k) : ℝ) * Real.log (binRate (withSample base (sampledParams (d ω) M).lam0 (sampledParams (d ω) M).W (sampledParams (d ω) M).g) (D.F t) k)
        - (sampledParams (d ω) M).lam0 k * base.dt - ∑ k1 ∈ range M.K, (sampledParams (d ω) M).W k1 k * (D.S t k1 : ℝ)) P ∧
      ∫ ω, ((toU32 (D.S t k) : ℝ) * Real.log (binRate (withSample base (sampledParams (d ω) M).lam0 (sampledParams (d ω) M).W (sampledParams (d ω) M).g) (D.F t) k)
        - (sampledParams (d ω) M).lam0 k * base.dt - ∑ k1 ∈ range M.K, (sampledParams (d ω) M).W k1 k * (D.S t k1 : ℝ)) ∂P
      = (toU32 (D.S t k) : ℝ) * (∫ ω, Real.log (binRate (withSample base (sampledParams (d ω) M).lam0 (sampledParams (d ω) M).W (sampledParams (d ω) M).g) (D.F t) k) ∂P)
        - M.bias.eLam k * base.dt - ∑ k1 ∈ range M.K, M.w.eW true k1 k * (D.S t k1 : ℝ) := by
    intro t k hk
    obtain ⟨_, i0, v0, _, _, hW⟩ := sampled_facts M g hl hind hs hk
    obtain ⟨iL, _, _⟩ := binRate_jensen M g hl hind hs base hK hB (f := D.F t) (hF t) hk
    have iw : ∀ k1 ∈ range M.K, Integrable (fun ω => (sampledParams (d ω) M).W k1 k * (D.S t k1 : ℝ)) P := fun k1 h1 => (hW k1 (mem_range.1 h1)).1.mul_const _
    have j1 := iL.const_mul (toU32 (D.S t k) : ℝ)
    have j2 := i0.mul_const base.dt
    have j3 : Integrable (fun ω => ∑ k1 ∈ range M.K, (sampledParams (d ω) M).W k1 k * (D.S t k1 : ℝ)) P := integrable_finsetSum _ iw
    have j12 : Integrable (fun ω => (toU32 (D.S t k) : ℝ) * Real.log (binRate (withSample base (sampledParams (d ω) M).lam0 (sampledParams (d ω) M).W (sampledParams (d ω) M).g) (D.F t) k)
        - (sampledParams (d ω) M).lam0 k * base.dt) P := j1.sub j2
    refine ⟨j12.sub j3, ?_⟩
    rw [integral_sub j12 j3, integral_sub j1 j2, integral_const_mul, integral_mul_const, v0, integral_finsetSum _ iw]
    congr 1
    exact sum_congr rfl fun k1 h1 => by rw [integral_mul_const, (hW k1 (mem_range.1 h1)).2.1]
  have ic : ∀ t ∈ range D.T, Integrable (fun ω => ∑ k ∈ range M.K, ((toU32 (D.S t k) : ℝ) * Real.log (binRate (withSample base (sampledParams (d ω) M).lam0 (sampledParams (d ω) M).W (sampledParams (d ω) M).g) (D.F t) k)
        - (sampledParams (d ω) M).lam0 k * base.dt - ∑ k1 ∈ range M.K, (sampledParams (d ω) M).W k1 k * (D.S t k1 : ℝ))) P := fun t _ =>
    integrable_finsetSum _ fun k hk => (cell t k (mem_range.1 hk)).1
  have total := (integral_finsetSum (range D.T) ic).trans (sum_congr rfl fun t _ => (integral_finsetSum (range M.K) fun k hk => (cell t k (mem_range.1 hk)).1).trans
    (sum_congr rfl fun k hk => (cell t k (mem_range.1 hk)).2))
  have le : ∀ t ∈ range D.T, ∀ k ∈ range M.K,
      (toU32 (D.S t k) : ℝ) * (∫ ω, Real.log (binRate (withSample base (sampledParams (d ω) M).lam0 (sampledParams (d ω) M).W (sampledParams (d ω) M).g) (D.F t) k) ∂P)
        - M.bias.eLam k * base.dt - ∑ k1 ∈ range M.K, M.w.eW true k1 k * (D.S t k1 : ℝ)
      ≤ (toU32 (D.S t k) : ℝ) * Real.log (binRate (withSample base M.bias.eLam (M.w.eW true) (M.imp.eG M.B)) (D.F t) k)
        - M.bias.eLam k * base.dt - ∑ k1 ∈ range M.K, M.w.eW true k1 k * (D.S t k1 : ℝ) := fun t _ k hk =>
    sub_le_sub_right (sub_le_sub_right (mul_le_mul_of_nonneg_left (binRate_jensen M g hl hind hs base hK hB (f := D.F t) (hF t) (mem_range.1 hk)).2.1 (Nat.cast_nonneg _)) _) _
  refine ⟨integrable_finsetSum _ ic, ?_, ?_⟩
  · rw [total]
    exact sum_le_sum fun t ht => sum_le_sum fun k hk => le t ht k hk
  · rintro ⟨t, ht, k, hk, hpos, h32, hz⟩
    rw [total]
    refine sum_lt_sum (fun t ht => sum_le_sum fun k hk => le t ht k hk) ⟨t, mem_range.2 ht, sum_lt_sum (fun k hk => le t (mem_range.2 ht) k hk) ⟨k, mem_range.2 hk, ?_⟩⟩
    have hu : toU32 (D.S t k) = D.S t k := toU32_of_lt h32
    rw [hu]
    exact sub_lt_sub_right (sub_lt_sub_right (mul_lt_mul_of_pos_left ((binRate_jensen M g hl hind hs base hK hB (f := D.F t) (hF t) hk).2.2 hz) (Nat.cast_pos.2 hpos)) _) _

/-- **C99 (finding).** The method's documentation promises a lower bound. For a concrete model with self connections, one event in the first bin and lawful generators, the value is
strictly above the expectation it is supposed to bound from below. -/
theorem C99_lower_bound_violated : ∃ (M : MFModel) (base : NetParams ℝ) (D : DParents ℝ), MFGood M ∧ M.net.allowSelf = true ∧ base.K = M.K ∧ base.B = M.B ∧ (∀ t k b, 0 ≤ D.F t k b) ∧
    ∃ (Ω : Type) (_ : MeasurableSpace Ω) (P : Measure Ω) (_ : IsProbabilityMeasure P) (d : Ω → MFDraws), MFLaws P M.B (mfBlocks M.net) d ∧ Independent P d ∧
      ∃ (S : Ω → MFSample), (∀ ω, ∃ N, M.resampleFromMf (d ω) = .ok (S ω, N)) ∧
        ∫ ω, llData (withSample base (S ω).lam0 (S ω).W (S ω).g) D ∂P < M.expectedLogLik base.dt D := by
  obtain ⟨Ω, m, P, hP, d, hl, hind⟩ := C82_lawful_draws_exist (exMF true).B (mfBlocks (exMF true).net)
  refine ⟨exMF true, ⟨(exMF true).K, (exMF true).B, 1, fun _ => 1, fun _ _ => 1, fun _ _ _ => 1, 1, fun _ _ => 1, true⟩, { T := 1, S := fun _ _ => 1, F := fun _ _ _ => 0 }, exMF_good true, ?_, rfl, rfl,
    fun _ _ _ => le_rfl, Ω, m, P, hP, d, hl, hind, ?_⟩
  · rfl
  · obtain ⟨S, N, h1, _, _, h4⟩ := C99_upper_bound (exMF true) (exMF_good true) hl hind rfl ⟨(exMF true).K, (exMF true).B, 1, fun _ => 1, fun _ _ => 1, fun _ _ _ => 1, 1, fun _ _ => 1, true⟩ rfl rfl
      { T := 1, S := fun _ _ => 1, F := fun _ _ _ => 0 } (fun _ _ _ => le_rfl)
    refine ⟨S, fun ω => ⟨_, h1 ω⟩, h4 ⟨0, by norm_num, 0, ?_, by norm_num, by norm_num, fun _ _ _ _ => rfl⟩⟩
    norm_num [exMF]

end PyHawkes
