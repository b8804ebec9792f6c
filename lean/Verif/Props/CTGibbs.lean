import Verif.Props.CTImpulse
import Verif.Props.Gibbs
/-!
# C32, C33, C68: continuous-time conditionals
-/
set_option linter.unusedSectionVars false

namespace PyHawkes
open Finset Spec MeasureTheory ProbabilityTheory

/-! ### densities of the form `c x^p e^{-q x}` determine `q` -/

theorem exp_form_unique (c c' p p' q q' : ℝ) (hc : 0 < c) (hc' : 0 < c')
    (h : ∀ x : ℝ, 0 < x → c * x ^ p * Real.exp (-(x * q)) = c' * x ^ p' * Real.exp (-(x * q'))) : q = q' := by
  have key : ∀ x : ℝ, 0 < x → Real.log c + p * Real.log x - x * q = Real.log c' + p' * Real.log x - x * q' := by
    intro x hx
    have := congrArg Real.log (h x hx)
    have hx1 := Real.rpow_pos_of_pos hx p
    have hx2 := Real.rpow_pos_of_pos hx p'
    rw [Real.log_mul (by positivity) (Real.exp_pos _).ne', Real.log_mul hc.ne' hx1.ne', Real.log_mul (by positivity) (Real.exp_pos _).ne',
      Real.log_mul hc'.ne' hx2.ne', Real.log_exp, Real.log_exp, Real.log_rpow hx, Real.log_rpow hx] at this
    linarith
  have k1 := key 1 one_pos
  have k2 := key 2 two_pos
  have k4 := key 4 (by norm_num)
  have l4 : Real.log 4 = 2 * Real.log 2 := by
    rw [show (4:ℝ) = 2 ^ 2 by norm_num, Real.log_pow]; norm_num
  rw [Real.log_one] at k1
  rw [l4] at k4
  linarith

/-! ### C32 -/

theorem ctBiasArgs_last (alpha beta : ℝ) (dl : List CTData) (d : CTData) (k : ℕ) :
    ctBiasArgs alpha beta (dl ++ [d]) k = { shape := alpha + d.bkgd k, scale := 1 / (beta + d.T) } := by
  unfold ctBiasArgs
  rw [List.foldl_append]
  rfl

/-- **C32 (what holds).** With no data set the background rates are drawn from the prior; with exactly one data set the generator's density is, by Bayes' rule, the gamma prior times the Poisson
probability of the number of background events in the observed time. With several data sets the arguments are those of the last one alone. -/
theorem C32_background_partial (alpha beta : ℝ) (ha : 0 < alpha) (hb : 0 < beta) (K : ℕ) (dtMax : ℝ) (k : ℕ) :
    (ctBiasArgs alpha beta [] k = ⟨alpha, 1 / beta⟩) ∧
    (∀ d, CTDataOk K dtMax d → 0 < d.T →
      IsPosterior (npGammaPdf (ctBiasArgs alpha beta [d] k).shape (ctBiasArgs alpha beta [d] k).scale) (gammaPDFReal alpha beta)
        (fun lam => poissonPmf (lam * d.T) (bkgdCount d d.Z k))) ∧
    (∀ dl d, ctBiasArgs alpha beta (dl ++ [d]) k = ctBiasArgs alpha beta [d] k) := by
  refine ⟨by simp [ctBiasArgs], fun d hd hT => ?_, fun dl d => by rw [ctBiasArgs_last, ← List.nil_append [d], ctBiasArgs_last]⟩
  have := gamma_poisson ha hb [(bkgdCount d d.Z k, d.T)] (by simpa using hT.le) (by intro q hq h; simp at hq; rw [hq] at h; exact absurd h hT.ne')
  rw [← List.nil_append [d], ctBiasArgs_last]
  unfold npGammaPdf
  simp only [one_div_one_div, hd.bkgd]
  simpa using this

/-- **C32 (violated).** Whenever data sets were observed for some time before the last one was added, the density used is *not* the posterior given all of them. -/
theorem C32_background_violated (alpha beta : ℝ) (ha : 0 < alpha) (hb : 0 < beta) (K : ℕ) (dtMax : ℝ) (k : ℕ) (dl : List CTData) (d : CTData)
    (hok : ∀ D ∈ dl ++ [d], CTDataOk K dtMax D) (hT : ∀ D ∈ dl ++ [d], 0 < D.T) (hne : dl ≠ []) :
    ¬ IsPosterior (npGammaPdf (ctBiasArgs alpha beta (dl ++ [d]) k).shape (ctBiasArgs alpha beta (dl ++ [d]) k).scale) (gammaPDFReal alpha beta)
      (fun lam => ((dl ++ [d]).map fun D => poissonPmf (lam * D.T) (bkgdCount D D.Z k)).prod) := by
  intro h
  have hpost := gamma_poisson ha hb ((dl ++ [d]).map fun D => (bkgdCount D D.Z k, D.T))
    (by intro q hq; obtain ⟨D, hD, rfl⟩ := List.mem_map.1 hq; exact (hT D hD).le)
    (by intro q hq h0; obtain ⟨D, hD, rfl⟩ := List.mem_map.1 hq; exact absurd h0 (hT D hD).ne')
  simp only [List.map_map] at hpost
  have e : (fun x : ℝ => (((dl ++ [d]).map ((fun q : ℕ × ℝ => poissonPmf (x * q.2) q.1) ∘ fun D => (bkgdCount D D.Z k, D.T))).prod))
      = fun lam => ((dl ++ [d]).map fun D => poissonPmf (lam * D.T) (bkgdCount D D.Z k)).prod := rfl
  rw [e] at hpost
  have hd := hok d (by simp)
  rw [ctBiasArgs_last] at h
  set N := (List.map ((fun q : ℕ × ℝ => (q.1 : ℝ)) ∘ fun D => (bkgdCount D D.Z k, D.T)) (dl ++ [d])).sum with hN
  set E := (List.map ((fun q : ℕ × ℝ => q.2) ∘ fun D : CTData => (bkgdCount D D.Z k, D.T)) (dl ++ [d])).sum with hE
  have hN0 : 0 ≤ N := List.sum_nonneg (by intro x hx; obtain ⟨D, -, rfl⟩ := List.mem_map.1 hx; simp)
  have hpre : 0 < (dl.map fun D => D.T).sum := by
    cases dl with
    | nil => exact absurd rfl hne
    | cons a l =>
      rw [List.map_cons, List.sum_cons]
      have h1 := hT a (by simp)
      have h2 : 0 ≤ (l.map fun D => D.T).sum := List.sum_nonneg (by intro x hx; obtain ⟨D, hD, rfl⟩ := List.mem_map.1 hx; exact (hT D (by simp [hD])).le)
      linarith
  have hE1 : E = (dl.map fun D => D.T).sum + d.T := by
    rw [hE, List.map_append, List.sum_append]; simp [Function.comp_def]
  have hbk : 0 ≤ d.bkgd k := by rw [hd.bkgd]; positivity
  have hTd := hT d (by simp)
  have hc1 : 0 < (beta + d.T) ^ (alpha + d.bkgd k) / Real.Gamma (alpha + d.bkgd k) :=
    div_pos (Real.rpow_pos_of_pos (by linarith) _) (Real.Gamma_pos_of_pos (by linarith))
  have hc2 : 0 < (beta + E) ^ (alpha + N) / Real.Gamma (alpha + N) :=
    div_pos (Real.rpow_pos_of_pos (by linarith) _) (Real.Gamma_pos_of_pos (by linarith))
  have huniq := exp_form_unique _ _ (alpha + d.bkgd k - 1) (alpha + N - 1) (beta + d.T) (beta + E) hc1 hc2 (by
    intro x hx
    have h1 := h.2.2 x hx
    have h2 := hpost.2.2 x hx
    rw [← h2] at h1
    simp only [npGammaPdf, one_div_one_div, gammaPDFReal, if_pos hx.le] at h1
    rw [mul_comm x, mul_comm x]
    exact h1)
  linarith

/-! ### C33 -/

theorem gauss_form (m t x : ℝ) (ht : 0 < t) :
    gaussianPDFReal m (1 / t).toNNReal x = (Real.sqrt (2 * Real.pi))⁻¹ * t ^ (1 / 2 : ℝ) * Real.exp (-(t * ((x - m) ^ 2 / 2))) := by
  unfold gaussianPDFReal
  rw [Real.coe_toNNReal _ (by positivity), mul_one_div, Real.sqrt_div (by positivity), Real.sqrt_eq_rpow t]
  have : 0 < t ^ (1 / 2 : ℝ) := Real.rpow_pos_of_pos ht _
  have e : -(x - m) ^ 2 / (2 * (1 / t)) = -(t * ((x - m) ^ 2 / 2)) := by field_simp
  rw [e, inv_div, div_eq_inv_mul]

theorem nig_form (a : NigArgs) (ha : NigOk a) (m t : ℝ) (ht : 0 < t) :
    nigPdf a m t = (a.beta ^ a.alpha / Real.Gamma a.alpha * (Real.sqrt (2 * Real.pi))⁻¹ * a.lmbda ^ (1 / 2 : ℝ)) * t ^ (a.alpha - 1 + 1 / 2) *
      Real.exp (-(t * (a.beta + a.lmbda * (m - a.mu) ^ 2 / 2))) := by
  unfold nigPdf
  rw [gauss_form _ _ _ (mul_pos ha.1 ht), Real.mul_rpow ha.1.le ht.le]
  simp only [gammaPDFReal, if_pos ht.le]
  rw [Real.rpow_add ht, show -(t * (a.beta + a.lmbda * (m - a.mu) ^ 2 / 2)) = -(a.beta * t) + -(a.lmbda * t * ((m - a.mu) ^ 2 / 2)) by ring, Real.exp_add]
  ring

theorem nig_const_pos (a : NigArgs) (ha : NigOk a) : 0 < a.beta ^ a.alpha / Real.Gamma a.alpha * (Real.sqrt (2 * Real.pi))⁻¹ * a.lmbda ^ (1 / 2 : ℝ) := by
  have h1 := Real.rpow_pos_of_pos ha.2.2 a.alpha
  have h2 := Real.Gamma_pos_of_pos ha.2.1
  have h3 := Real.rpow_pos_of_pos ha.1 (1 / 2)
  have h4 : 0 < Real.sqrt (2 * Real.pi) := Real.sqrt_pos.2 (by positivity)
  positivity

theorem gauss_prod (l : List ℝ) (m t : ℝ) (ht : 0 < t) :
    (l.map (gaussianPDFReal m (1 / t).toNNReal)).prod
      = ((Real.sqrt (2 * Real.pi))⁻¹) ^ l.length * t ^ ((l.length : ℝ) / 2) * Real.exp (-(t * ((l.map fun x => (x - m) ^ 2).sum / 2))) := by
  induction l with
  | nil => simp
  | cons x l ih =>
    rw [List.map_cons, List.prod_cons, ih, gauss_form m t x ht, List.length_cons, List.map_cons, List.sum_cons, Nat.cast_add, Nat.cast_one,
      show ((l.length : ℝ) + 1) / 2 = 1 / 2 + (l.length : ℝ) / 2 by ring, Real.rpow_add ht, pow_succ (Real.sqrt (2 * Real.pi))⁻¹,
      show -(t * (((x - m) ^ 2 + (l.map fun x => (x - m) ^ 2).sum) / 2)) = -(t * ((x - m) ^ 2 / 2)) + -(t * ((l.map fun x => (x - m) ^ 2).sum / 2)) by ring,
      Real.exp_add]
    ring

theorem length_mul_mean (l : List ℝ) : (l.length : ℝ) * mean l = l.sum := by
  unfold mean
  rcases l with _ | ⟨a, l⟩
  · simp
  · have : ((a :: l).length : ℝ) ≠ 0 := by simp; positivity
    field_simp

theorem sum_sq_shift (l : List ℝ) (c : ℝ) : (l.map fun x => (x - c) ^ 2).sum = (l.map fun x => x ^ 2).sum - 2 * c * l.sum + l.length * c ^ 2 := by
  induction l with
  | nil => simp
  | cons a l ih => simp only [List.map_cons, List.sum_cons, ih, List.length_cons, Nat.cast_add, Nat.cast_one]; ring

theorem sum_sq_mean (l : List ℝ) (c : ℝ) : (l.map fun x => (x - c) ^ 2).sum = (l.map fun x => (x - mean l) ^ 2).sum + l.length * (mean l - c) ^ 2 := by
  rw [sum_sq_shift, sum_sq_shift l (mean l), ← length_mul_mean l]; ring

theorem nigPosterior_ok (a : NigArgs) (ha : NigOk a) (l : List ℝ) : NigOk (nigPosterior a l) := by
  obtain ⟨h1, h2, h3⟩ := ha
  have hs : 0 ≤ (l.map fun x => (x - mean l) ^ 2).sum := List.sum_nonneg (by intro x hx; obtain ⟨y, -, rfl⟩ := List.mem_map.1 hx; positivity)
  refine ⟨?_, ?_, ?_⟩ <;> unfold nigPosterior <;> dsimp only <;> positivity

/-- prior times normal likelihood is a multiple of the normal-gamma density with the posterior parameters -/
theorem nig_conj (a : NigArgs) (ha : NigOk a) (l : List ℝ) : ∃ C : ℝ, 0 < C ∧ ∀ m t, 0 < t →
    nigPdf a m t * (l.map (gaussianPDFReal m (1 / t).toNNReal)).prod = C * nigPdf (nigPosterior a l) m t := by
  have hp := nigPosterior_ok a ha l
  have c1 := nig_const_pos a ha
  have c2 := nig_const_pos _ hp
  have h4 : 0 < Real.sqrt (2 * Real.pi) := Real.sqrt_pos.2 (by positivity)
  refine ⟨(a.beta ^ a.alpha / Real.Gamma a.alpha * (Real.sqrt (2 * Real.pi))⁻¹ * a.lmbda ^ (1 / 2 : ℝ)) * ((Real.sqrt (2 * Real.pi))⁻¹) ^ l.length /
    ((nigPosterior a l).beta ^ (nigPosterior a l).alpha / Real.Gamma (nigPosterior a l).alpha * (Real.sqrt (2 * Real.pi))⁻¹ * (nigPosterior a l).lmbda ^ (1 / 2 : ℝ)),
    by positivity, fun m t ht => ?_⟩
  rw [nig_form a ha m t ht, nig_form _ hp m t ht, gauss_prod l m t ht]
  generalize a.beta ^ a.alpha / Real.Gamma a.alpha * (Real.sqrt (2 * Real.pi))⁻¹ * a.lmbda ^ (1 / 2 : ℝ) = A at c1
  generalize (nigPosterior a l).beta ^ (nigPosterior a l).alpha / Real.Gamma (nigPosterior a l).alpha * (Real.sqrt (2 * Real.pi))⁻¹ * (nigPosterior a l).lmbda ^ (1 / 2 : ℝ) = B at c2
  have hpow : t ^ ((nigPosterior a l).alpha - 1 + 1 / 2) = t ^ (a.alpha - 1 + 1 / 2) * t ^ ((l.length : ℝ) / 2) := by
    rw [← Real.rpow_add ht]; congr 1; simp only [nigPosterior]; ring
  have hexp : a.beta + a.lmbda * (m - a.mu) ^ 2 / 2 + (l.map fun x => (x - m) ^ 2).sum / 2
      = (nigPosterior a l).beta + (nigPosterior a l).lmbda * (m - (nigPosterior a l).mu) ^ 2 / 2 := by
    rw [sum_sq_mean l m]
    simp only [nigPosterior]
    rw [← length_mul_mean l]
    have hl : 0 < a.lmbda + (l.length : ℝ) := by have := ha.1; positivity
    field_simp
    ring
  rw [hpow, ← hexp, show -(t * (a.beta + a.lmbda * (m - a.mu) ^ 2 / 2 + (l.map fun x => (x - m) ^ 2).sum / 2))
    = -(t * (a.beta + a.lmbda * (m - a.mu) ^ 2 / 2)) + -(t * ((l.map fun x => (x - m) ^ 2).sum / 2)) by ring, Real.exp_add]
  field_simp

theorem nig_integral (a : NigArgs) (ha : NigOk a) : ∫ t in Set.Ioi 0, ∫ m, nigPdf a m t = 1 := by
  rw [← gammaPDF_integral ha.2.1 ha.2.2]
  refine setIntegral_congr_fun measurableSet_Ioi fun t ht => ?_
  have ht' : 0 < t := ht
  unfold nigPdf
  rw [integral_const_mul, integral_gaussianPDFReal_eq_one, mul_one]
  simp only [ne_eq, Real.toNNReal_eq_zero, not_le]
  exact one_div_pos.2 (mul_pos ha.1 ht')

theorem isPosterior2_of_prop (f prior lik : ℝ → ℝ → ℝ) (C : ℝ) (hC : 0 < C) (h1 : ∫ t in Set.Ioi 0, ∫ m, f m t = 1)
    (h : ∀ m t, 0 < t → prior m t * lik m t = C * f m t) : IsPosterior2 f prior lik := by
  have hI : ∫ t in Set.Ioi 0, ∫ m, prior m t * lik m t = C := by
    rw [setIntegral_congr_fun (g := fun t => C * ∫ m, f m t) measurableSet_Ioi (fun t ht => ?_), integral_const_mul, h1, mul_one]
    have ht' : 0 < t := ht
    dsimp only
    rw [← integral_const_mul]
    exact integral_congr_ae (Filter.Eventually.of_forall fun m => h m t ht')
  refine ⟨by rw [hI]; exact hC, fun m t ht => by rw [hI, h m t ht]; field_simp⟩

/-! #### the data -/

theorem childLag_eq (D : CTData) (dtMax : ℝ) (n : ℕ) (h0 : 0 < D.S n - D.S (D.Z n).toNat) (h1 : D.S n - D.S (D.Z n).toNat < dtMax) :
    childLag D dtMax D.Z n = pyLogit ((D.S n - D.S (D.Z n).toNat) / dtMax) 1 := by
  unfold childLag pyLogit
  have hd : 0 < dtMax := h0.trans h1
  rw [div_one]
  have e : 1 - (D.S n - D.S (D.Z n).toNat) / dtMax = (dtMax - (D.S n - D.S (D.Z n).toNat)) / dtMax := by rw [sub_div dtMax, div_self hd.ne']
  rw [e, Real.log_div h0.ne' hd.ne', Real.log_div (by linarith) hd.ne']
  ring

theorem child_window {K : ℕ} {dtMax : ℝ} {D : CTData} (hD : CTDataOk K dtMax D) {k1 k2 n : ℕ} (hn : n ∈ children D D.Z k1 k2) :
    0 < D.S n - D.S (D.Z n).toNat ∧ D.S n - D.S (D.Z n).toNat < dtMax := by
  unfold children at hn
  obtain ⟨h1, h2, -⟩ := mem_filter.1 hn
  obtain ⟨-, -, h⟩ := hD.parents n (mem_range.1 h1)
  have h8 : (0:ℝ) < 1e-8 := by norm_num
  have := h h2
  constructor <;> linarith [this.1, this.2]

/-- the likelihood of the lags is the normal likelihood of the scaled lags, up to a factor that does not depend on the parameters -/
theorem lagLik_eq (K : ℕ) (dtMax : ℝ) (dl : List CTData) (hok : ∀ D ∈ dl, CTDataOk K dtMax D) (k1 k2 : ℕ) :
    ∃ c : ℝ, 0 < c ∧ ∀ m t, 0 < t → lagLik dtMax dl k1 k2 m t = c * ((allLags dtMax dl k1 k2).flatten.map (gaussianPDFReal m (1 / t).toNNReal)).prod := by
  unfold lagLik allLags
  induction dl with
  | nil => exact ⟨1, one_pos, fun m t _ => by simp⟩
  | cons D dl ih =>
    obtain ⟨c, hc, h⟩ := ih fun D' hD' => hok D' (by simp [hD'])
    have hD := hok D (by simp)
    refine ⟨(∏ n ∈ children D D.Z k1 k2, |dtMax / ((D.S n - D.S (D.Z n).toNat) * (dtMax - (D.S n - D.S (D.Z n).toNat)))|) * c, ?_, fun m t ht => ?_⟩
    · refine mul_pos (prod_pos fun n hn => abs_pos.2 ?_) hc
      obtain ⟨a, b⟩ := child_window hD hn
      have : 0 < dtMax := a.trans b
      have : 0 < dtMax - (D.S n - D.S (D.Z n).toNat) := by linarith
      positivity
    · simp only [List.map_cons, List.prod_cons, List.flatten_cons, List.map_append, List.prod_append]
      rw [h m t ht]
      have : ∏ n ∈ children D D.Z k1 k2, pyImpulse m t dtMax (D.S n - D.S (D.Z n).toNat)
          = (∏ n ∈ children D D.Z k1 k2, |dtMax / ((D.S n - D.S (D.Z n).toNat) * (dtMax - (D.S n - D.S (D.Z n).toNat)))|) *
            (((children D D.Z k1 k2).toList.map (childLag D dtMax D.Z)).map (gaussianPDFReal m (1 / t).toNNReal)).prod := by
        rw [List.map_map, Finset.prod_map_toList, ← prod_mul_distrib]
        refine prod_congr rfl fun n hn => ?_
        obtain ⟨a, b⟩ := child_window hD hn
        rw [pyImpulse_eq m t dtMax _ ht a b, Function.comp_apply, childLag_eq D dtMax n a b]
      rw [this]
      ring

/-- the textbook parameters are Bayes' rule for the lags of all data sets -/
theorem nigPosterior_isPosterior (prior : NigArgs) (hp : NigOk prior) (K : ℕ) (dtMax : ℝ) (dl : List CTData) (hok : ∀ D ∈ dl, CTDataOk K dtMax D) (k1 k2 : ℕ) :
    IsPosterior2 (nigPdf (nigPosterior prior (allLags dtMax dl k1 k2).flatten)) (nigPdf prior) (lagLik dtMax dl k1 k2) := by
  obtain ⟨c, hc, h⟩ := lagLik_eq K dtMax dl hok k1 k2
  obtain ⟨C, hC, h2⟩ := nig_conj prior hp (allLags dtMax dl k1 k2).flatten
  refine isPosterior2_of_prop _ _ _ (c * C) (mul_pos hc hC) (nig_integral _ (nigPosterior_ok _ hp _)) fun m t ht => ?_
  rw [h m t ht, mul_left_comm, h2 m t ht, mul_assoc]

/-- sums of squares: within plus between data sets -/
theorem within_between (ls : List (List ℝ)) (c : ℝ) :
    (ls.flatten.map fun x => (x - c) ^ 2).sum = (ls.map fun l => (l.map fun x => (x - mean l) ^ 2).sum).sum + (ls.map fun l => (l.length : ℝ) * (mean l - c) ^ 2).sum := by
  induction ls with
  | nil => simp
  | cons l ls ih =>
    simp only [List.flatten_cons, List.map_append, List.sum_append, List.map_cons, List.sum_cons, ih]
    rw [sum_sq_mean l c]; ring

theorem lag_sums (K : ℕ) (dtMax : ℝ) (dl : List CTData) (hok : ∀ D ∈ dl, CTDataOk K dtMax D) (k1 k2 : ℕ) :
    (dl.foldl (fun acc d => acc + d.imp0 k1 k2) 0 = ((allLags dtMax dl k1 k2).flatten.length : ℝ)) ∧
    (dl.foldl (fun acc d => acc + d.imp1 k1 k2) 0 = (allLags dtMax dl k1 k2).flatten.sum) ∧
    (dl.foldl (fun acc d => acc + d.imp2 k1 k2) 0 = ((allLags dtMax dl k1 k2).map fun l => (l.map fun x => (x - mean l) ^ 2).sum).sum) := by
  have hm : ∀ D, mean ((children D D.Z k1 k2).toList.map (childLag D dtMax D.Z)) = (∑ i ∈ children D D.Z k1 k2, childLag D dtMax D.Z i) / (children D D.Z k1 k2).card := by
    intro D; unfold mean; rw [List.length_map, Finset.length_toList, Finset.sum_map_toList]
  simp only [foldl_add_eq, zero_add]
  induction dl with
  | nil => simp [allLags]
  | cons D dl ih =>
    obtain ⟨a, b, c⟩ := ih fun D' hD' => hok D' (by simp [hD'])
    have hD := hok D (by simp)
    have ea : allLags dtMax (D :: dl) k1 k2 = (children D D.Z k1 k2).toList.map (childLag D dtMax D.Z) :: allLags dtMax dl k1 k2 := rfl
    rw [ea]
    simp only [List.map_cons, List.sum_cons, List.flatten_cons, List.length_append, List.sum_append, a, b, c]
    refine ⟨?_, ?_, ?_⟩
    · rw [hD.imp0]; simp
    · rw [hD.imp1, Finset.sum_map_toList]
    · rw [hD.imp2, hm, List.map_map, Finset.sum_map_toList]; rfl

/-- **C33 (what the code computes).** Shape, mean and scale parameters are those of the normal-gamma posterior given all lags of all data sets; the rate parameter is that of the posterior minus half
the sum of squares *between* the data sets' mean lags, which the code leaves out. -/
theorem C33_parameters (prior : NigArgs) (K : ℕ) (dtMax : ℝ) (dl : List CTData) (hok : ∀ D ∈ dl, CTDataOk K dtMax D) (k1 k2 : ℕ) :
    let lags := allLags dtMax dl k1 k2
    let post := nigPosterior prior lags.flatten
    let args := ctImpulseArgs prior dl k1 k2
    args.alpha = post.alpha ∧ args.lmbda = post.lmbda ∧ args.mu = post.mu ∧
    args.beta = post.beta - (lags.map fun l => (l.length : ℝ) * (mean l - mean lags.flatten) ^ 2).sum / 2 := by
  intro lags post args
  obtain ⟨a, b, c⟩ := lag_sums K dtMax dl hok k1 k2
  have hmean : lags.flatten.sum / (lags.flatten.length : ℝ) = mean lags.flatten := rfl
  simp only [args, post, ctImpulseArgs, nigPosterior, a, b, c]
  change _ ∧ _ ∧ (_ + (lags.flatten.length : ℝ) * (lags.flatten.sum / (lags.flatten.length : ℝ))) / _ = _ ∧ _
  refine ⟨rfl, rfl, ?_, ?_⟩
  · rw [hmean, length_mul_mean]
  · rw [within_between lags (mean lags.flatten)]
    change _ + _ + 0.5 * prior.lmbda * (lags.flatten.length : ℝ) * (lags.flatten.sum / (lags.flatten.length : ℝ) - prior.mu) ^ 2 / (prior.lmbda + (lags.flatten.length : ℝ)) = _
    rw [hmean]
    have e : ∀ x y : ℝ, x / (2 * y) = 0.5 * x / y := fun x y => by rw [mul_comm 2 y, ← div_div, div_right_comm]; norm_num; ring
    rw [e]
    ring

theorem between_nonneg (ls : List (List ℝ)) (c : ℝ) : 0 ≤ (ls.map fun l => (l.length : ℝ) * (mean l - c) ^ 2).sum :=
  List.sum_nonneg (by intro x hx; obtain ⟨y, -, rfl⟩ := List.mem_map.1 hx; positivity)

theorem between_zero_iff (ls : List (List ℝ)) (c : ℝ) : (ls.map fun l => (l.length : ℝ) * (mean l - c) ^ 2).sum = 0 ↔ ∀ l ∈ ls, l ≠ [] → mean l = c := by
  induction ls with
  | nil => simp
  | cons l ls ih =>
    have h1 := between_nonneg ls c
    have h2 : 0 ≤ (l.length : ℝ) * (mean l - c) ^ 2 := by positivity
    rw [List.map_cons, List.sum_cons, add_eq_zero_iff_of_nonneg h2 h1, ih, mul_eq_zero]
    simp only [List.mem_cons, forall_eq_or_imp]
    refine and_congr_left fun _ => ?_
    rw [Nat.cast_eq_zero, List.length_eq_zero_iff, sq_eq_zero_iff, sub_eq_zero]
    tauto

/-- **C33 (exactly when the draw is right).** The density from which mean and precision are drawn is the Bayes posterior given all lags of all data sets if and only if every data set that has lags
between the two processes has the same mean scaled lag. -/
theorem C33_conditional_iff (prior : NigArgs) (hp : NigOk prior) (K : ℕ) (dtMax : ℝ) (dl : List CTData) (hok : ∀ D ∈ dl, CTDataOk K dtMax D) (k1 k2 : ℕ) :
    IsPosterior2 (nigPdf (ctImpulseArgs prior dl k1 k2)) (nigPdf prior) (lagLik dtMax dl k1 k2) ↔
      ∀ l ∈ allLags dtMax dl k1 k2, l ≠ [] → mean l = mean (allLags dtMax dl k1 k2).flatten := by
  obtain ⟨h1, h2, h3, h4⟩ := C33_parameters prior K dtMax dl hok k1 k2
  have hpost := nigPosterior_isPosterior prior hp K dtMax dl hok k1 k2
  have hpok := nigPosterior_ok prior hp (allLags dtMax dl k1 k2).flatten
  rw [← between_zero_iff]
  constructor
  · intro h
    have hbeta : 0 < (ctImpulseArgs prior dl k1 k2).beta := by
      obtain ⟨a, b, c⟩ := lag_sums K dtMax dl hok k1 k2
      obtain ⟨q1, q2, q3⟩ := hp
      simp only [ctImpulseArgs, a, b, c]
      have hs : 0 ≤ ((allLags dtMax dl k1 k2).map fun l => (l.map fun x => (x - mean l) ^ 2).sum).sum := List.sum_nonneg (by
        intro x hx; obtain ⟨y, -, rfl⟩ := List.mem_map.1 hx
        exact List.sum_nonneg (by intro x hx; obtain ⟨z, -, rfl⟩ := List.mem_map.1 hx; positivity))
      have hn : (0:ℝ) ≤ ((allLags dtMax dl k1 k2).flatten.length : ℝ) := Nat.cast_nonneg _
      generalize ((allLags dtMax dl k1 k2).flatten.length : ℝ) = n at *
      positivity
    have haok : NigOk (ctImpulseArgs prior dl k1 k2) := ⟨by rw [h2]; exact hpok.1, by rw [h1]; exact hpok.2.1, hbeta⟩
    have huniq := exp_form_unique _ _ ((ctImpulseArgs prior dl k1 k2).alpha - 1 + 1 / 2) ((nigPosterior prior (allLags dtMax dl k1 k2).flatten).alpha - 1 + 1 / 2)
      (ctImpulseArgs prior dl k1 k2).beta (nigPosterior prior (allLags dtMax dl k1 k2).flatten).beta (nig_const_pos _ haok) (nig_const_pos _ hpok) (by
        intro t ht
        have e1 := h.2 (nigPosterior prior (allLags dtMax dl k1 k2).flatten).mu t ht
        rw [← hpost.2 _ t ht, nig_form _ haok _ t ht, nig_form _ hpok _ t ht] at e1
        rw [h3] at e1
        simpa using e1)
    linarith
  · intro h
    have : ctImpulseArgs prior dl k1 k2 = nigPosterior prior (allLags dtMax dl k1 k2).flatten := by
      rw [h, zero_div, sub_zero] at h4
      cases hx : ctImpulseArgs prior dl k1 k2
      cases hy : nigPosterior prior (allLags dtMax dl k1 k2).flatten
      rw [hx, hy] at h1 h2 h3 h4
      simp only at h1 h2 h3 h4
      rw [h1, h2, h3, h4]
    rw [this]
    exact hpost

/-- **C33 (one data set).** With a single data set the draw is from the Bayes posterior; without any lag between the two processes it is from the prior. -/
theorem C33_single_data_set_partial (prior : NigArgs) (hp : NigOk prior) (K : ℕ) (dtMax : ℝ) (D : CTData) (hD : CTDataOk K dtMax D) (k1 k2 : ℕ) :
    IsPosterior2 (nigPdf (ctImpulseArgs prior [D] k1 k2)) (nigPdf prior) (lagLik dtMax [D] k1 k2) := by
  rw [C33_conditional_iff prior hp K dtMax [D] (by simpa using hD)]
  intro l hl _
  simp only [allLags, List.map_cons, List.map_nil, List.mem_singleton] at hl
  simp [allLags, hl]

theorem C33_no_lags_prior (prior : NigArgs) (hp : NigOk prior) (K : ℕ) (dtMax : ℝ) (dl : List CTData) (hok : ∀ D ∈ dl, CTDataOk K dtMax D) (k1 k2 : ℕ)
    (hno : ∀ D ∈ dl, children D D.Z k1 k2 = ∅) : ctImpulseArgs prior dl k1 k2 = prior := by
  obtain ⟨a, b, c⟩ := lag_sums K dtMax dl hok k1 k2
  have hz : ∀ l ∈ allLags dtMax dl k1 k2, l = [] := by
    intro l hl
    unfold allLags at hl
    obtain ⟨D, hD, rfl⟩ := List.mem_map.1 hl
    rw [hno D hD]; simp
  have hf : (allLags dtMax dl k1 k2).flatten = [] := List.flatten_eq_nil_iff.2 hz
  have hx : ((allLags dtMax dl k1 k2).map fun l => (l.map fun x => (x - mean l) ^ 2).sum).sum = 0 :=
    List.sum_eq_zero (by intro x hx; obtain ⟨l, hl, rfl⟩ := List.mem_map.1 hx; rw [hz l hl]; simp)
  unfold ctImpulseArgs
  simp only [a, b, c, hf, hx]
  have := hp.1.ne'
  cases prior
  simp at this ⊢
  field_simp

/-- a data set together with the statistics that belong to its parent assignment -/
noncomputable def withStats (dtMax : ℝ) (D : CTData) : CTData :=
  { D with bkgd := fun k => bkgdCount D D.Z k, weight := fun i j => (children D D.Z i j).card, imp0 := fun i j => (children D D.Z i j).card,
           imp1 := fun i j => ∑ n ∈ children D D.Z i j, childLag D dtMax D.Z n,
           imp2 := fun i j => ∑ n ∈ children D D.Z i j, (childLag D dtMax D.Z n - (∑ i ∈ children D D.Z i j, childLag D dtMax D.Z i) / (children D D.Z i j).card) ^ 2 }

/-- two events of process 0, the second a child of the first with the given lag -/
noncomputable def pairData (lag : ℝ) : CTData :=
  withStats 1 { N := 2, S := fun n => if n = 0 then 0 else lag, C := fun _ => 0, T := 10, bkgd := fun _ => 0, Z := fun n => if n = 0 then -1 else 0 }

theorem pairData_ok (lag : ℝ) (h0 : 1e-8 ≤ lag) (h1 : lag ≤ 1 - 1e-8) : CTDataOk 1 1 (pairData lag) := by
  have h8 : (0:ℝ) < 1e-8 := by norm_num
  refine ⟨fun i j hij hj => ?_, fun n _ => by simp [pairData, withStats], fun n hn => ?_, fun _ => rfl, fun _ _ => rfl, fun _ _ => rfl, fun _ _ => rfl, fun _ _ => rfl⟩
  · simp only [pairData, withStats]
    split_ifs <;> first | omega | linarith
  · have : n < 2 := hn
    interval_cases n <;> simp [pairData, withStats] <;> norm_num at * <;> constructor <;> linarith

theorem pairData_children (lag : ℝ) : children (pairData lag) (pairData lag).Z 0 0 = {1} := by
  unfold children
  ext n
  simp only [mem_filter, mem_range, mem_singleton, pairData, withStats]
  constructor
  · rintro ⟨h, h2, -⟩
    by_contra hc
    have : n = 0 := by omega
    subst this
    simp at h2
  · rintro rfl; simp

theorem pairData_lags (lag : ℝ) : allLags 1 [pairData lag] 0 0 = [[Real.log lag - Real.log (1 - lag)]] := by
  unfold allLags
  simp only [List.map_cons, List.map_nil, pairData_children]
  simp [childLag, pairData, withStats]

/-- **C33 (violated).** Two data sets with one lag each, 1/4 and 1/2 of the window: the draw is not from the posterior. -/
theorem C33_violated : (∀ D ∈ [pairData (1/4), pairData (1/2)], CTDataOk 1 1 D) ∧
    ¬ IsPosterior2 (nigPdf (ctImpulseArgs ⟨0, 1, 1, 1⟩ [pairData (1/4), pairData (1/2)] 0 0)) (nigPdf ⟨0, 1, 1, 1⟩)
      (lagLik 1 [pairData (1/4), pairData (1/2)] 0 0) := by
  have hok : ∀ D ∈ [pairData (1/4), pairData (1/2)], CTDataOk 1 1 D := by
    intro D hD
    simp only [List.mem_cons, List.not_mem_nil, or_false] at hD
    rcases hD with rfl | rfl
    · exact pairData_ok _ (by norm_num) (by norm_num)
    · exact pairData_ok _ (by norm_num) (by norm_num)
  refine ⟨hok, ?_⟩
  rw [C33_conditional_iff ⟨0, 1, 1, 1⟩ ⟨one_pos, one_pos, one_pos⟩ 1 1 _ hok]
  have e : allLags 1 [pairData (1/4), pairData (1/2)] 0 0 = [[Real.log (1/4) - Real.log (1 - 1/4)], [Real.log (1/2) - Real.log (1 - 1/2)]] := by
    have a := pairData_lags (1/4)
    have b := pairData_lags (1/2)
    have : allLags 1 [pairData (1/4), pairData (1/2)] 0 0 = allLags 1 [pairData (1/4)] 0 0 ++ allLags 1 [pairData (1/2)] 0 0 := rfl
    rw [this, a, b]; rfl
  rw [e]
  intro h
  have h1 := h [Real.log (1/4) - Real.log (1 - 1/4)] (by simp) (by simp)
  have h2 := h [Real.log (1/2) - Real.log (1 - 1/2)] (by simp) (by simp)
  rw [← h2] at h1
  simp only [mean, List.sum_cons, List.sum_nil, List.length_cons, List.length_nil] at h1
  norm_num at h1
  have : Real.log (1/4) < Real.log (3/4) := Real.log_lt_log (by norm_num) (by norm_num)
  norm_num at this
  linarith

end PyHawkes
