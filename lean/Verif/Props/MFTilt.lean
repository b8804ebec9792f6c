import Verif.Props.VLBNet
import Verif.Props.VLBAscent
import Verif.Spec.MeanField

/-! # C77: mean-field steps are natural-gradient steps towards the exact conditional -/
set_option linter.unusedSectionVars false

namespace PyHawkes
open Finset MeasureTheory ProbabilityTheory Spec

/-! ### Tools -/

theorem proportional_of_log {X : Type*} {s : Set X} {f g : X → ℝ} (c : ℝ) (hf : ∀ x ∈ s, 0 < f x) (hg : ∀ x ∈ s, 0 < g x)
    (h : ∀ x ∈ s, Real.log (f x) = c + Real.log (g x)) : Proportional s f g := by
  refine ⟨Real.exp c, Real.exp_pos _, fun x hx => ?_⟩
  rw [← Real.exp_log (hf x hx), h x hx, Real.exp_add, Real.exp_log (hg x hx)]

theorem stepped_pos {X : Type*} {s frac : ℝ} {old prior L : X → ℝ} {x : X} (ho : 0 < old x) (hp : 0 < prior x) : 0 < steppedDensity s frac old prior L x :=
  mul_pos (Real.rpow_pos_of_pos ho _) (Real.rpow_pos_of_pos (mul_pos hp (Real.exp_pos _)) _)

theorem log_stepped {X : Type*} {s frac : ℝ} {old prior L : X → ℝ} {x : X} (ho : 0 < old x) (hp : 0 < prior x) :
    Real.log (steppedDensity s frac old prior L x) = (1 - s) * Real.log (old x) + s * (Real.log (prior x) + L x / frac) := by
  rw [steppedDensity, Real.log_mul (Real.rpow_pos_of_pos ho _).ne' (Real.rpow_pos_of_pos (mul_pos hp (Real.exp_pos _)) _).ne', Real.log_rpow ho,
    Real.log_rpow (mul_pos hp (Real.exp_pos _)), Real.log_mul hp.ne' (Real.exp_pos _).ne', Real.log_exp]

/-- gamma factors -/
theorem gamma_step {a b al be N E s frac : ℝ} {L : ℝ → ℝ} (c : ℝ) (ha : 0 < a) (hb : 0 < b) (hal : 0 < al) (hbe : 0 < be) (hN : 0 ≤ N) (hE : 0 ≤ E)
    (hf : 0 < frac) (h0 : 0 ≤ s) (h1 : s ≤ 1) (hL : ∀ x, 0 < x → L x = N * Real.log x - E * x + c) :
    Proportional (Set.Ioi 0) (gammaPDFReal ((1 - s) * a + s * (al + N / frac)) ((1 - s) * b + s * (be + E / frac)))
      (steppedDensity s frac (gammaPDFReal a b) (gammaPDFReal al be) L) := by
  have pos : ∀ {x y z : ℝ}, 0 < x → 0 < y → 0 ≤ z → 0 < (1 - s) * x + s * (y + z / frac) := by
    intro x y z hx hy hz
    have hz' : 0 ≤ z / frac := div_nonneg hz hf.le
    rcases h0.eq_or_lt with rfl | hs
    · simpa using hx
    · have := mul_nonneg (sub_nonneg.2 h1) hx.le
      have := mul_pos hs (show 0 < y + z / frac by linarith)
      linarith
  have pa := pos ha hal hN
  have pb := pos hb hbe hE
  set a' := (1 - s) * a + s * (al + N / frac) with ha'
  set b' := (1 - s) * b + s * (be + E / frac) with hb'
  refine proportional_of_log ((a' * Real.log b' - gammaln a') - ((1 - s) * (a * Real.log b - gammaln a) + s * (al * Real.log be - gammaln al + c / frac)))
    (fun x hx => gammaPDF_pos pa pb hx) (fun x hx => stepped_pos (gammaPDF_pos ha hb hx) (gammaPDF_pos hal hbe hx)) fun x hx => ?_
  rw [log_stepped (gammaPDF_pos ha hb hx) (gammaPDF_pos hal hbe hx), log_gammaPDF pa pb hx, log_gammaPDF ha hb hx, log_gammaPDF hal hbe hx, hL x hx]
  have e1 : a' = (1 - s) * a + s * (al + N / frac) := ha'
  have e2 : b' = (1 - s) * b + s * (be + E / frac) := hb'
  generalize Real.log b' = lb at *
  generalize gammaln a' = la at *
  have : (a' - 1) * Real.log x = (1 - s) * ((a - 1) * Real.log x) + s * ((al - 1) * Real.log x + N / frac * Real.log x) := by rw [e1]; ring
  have : b' * x = (1 - s) * (b * x) + s * (be * x + E / frac * x) := by rw [e2]; ring
  have : (N * Real.log x - E * x + c) / frac = N / frac * Real.log x - E / frac * x + c / frac := by ring
  rw [this]
  linarith

theorem dirichlet_pos {n : ℕ} {g x : ℕ → ℝ} (hn : 0 < n) (hg : ∀ b < n, 0 < g b) (hx : ∀ b < n, 0 < x b) : 0 < dirichletPdf n g x := by
  unfold dirichletPdf
  refine mul_pos (div_pos (Real.Gamma_pos_of_pos (sum_pos (fun b hb => hg b (mem_range.1 hb)) ⟨0, mem_range.2 hn⟩))
    (prod_pos fun b hb => Real.Gamma_pos_of_pos (hg b (mem_range.1 hb)))) (prod_pos fun b hb => Real.rpow_pos_of_pos (hx b (mem_range.1 hb)) _)

theorem log_dirichlet_norm {n : ℕ} {g x : ℕ → ℝ} (hn : 0 < n) (hg : ∀ b < n, 0 < g b) (hx : ∀ b < n, 0 < x b) :
    Real.log (dirichletPdf n g x) = -lnDirNorm n g + ∑ b ∈ range n, (g b - 1) * Real.log (x b) := by
  unfold dirichletPdf lnDirNorm
  have h1 : 0 < Real.Gamma (∑ i ∈ range n, g i) := Real.Gamma_pos_of_pos (sum_pos (fun b hb => hg b (mem_range.1 hb)) ⟨0, mem_range.2 hn⟩)
  have h2 : ∀ b ∈ range n, Real.Gamma (g b) ≠ 0 := fun b hb => (Real.Gamma_pos_of_pos (hg b (mem_range.1 hb))).ne'
  have h3 : ∀ b ∈ range n, x b ^ (g b - 1) ≠ 0 := fun b hb => (Real.rpow_pos_of_pos (hx b (mem_range.1 hb)) _).ne'
  rw [Real.log_mul (div_ne_zero h1.ne' (prod_ne_zero_iff.2 h2)) (prod_ne_zero_iff.2 h3), Real.log_div h1.ne' (prod_ne_zero_iff.2 h2), Real.log_prod h2, Real.log_prod h3,
    sum_congr rfl fun b hb => Real.log_rpow (hx b (mem_range.1 hb)) _]
  ring

/-- Dirichlet factors -/
theorem dirichlet_step {n : ℕ} (hn : 0 < n) {q g N : ℕ → ℝ} {s frac : ℝ} (hq : ∀ b < n, 0 < q b) (hg : ∀ b < n, 0 < g b) (hN : ∀ b < n, 0 ≤ N b) (hf : 0 < frac)
    (h0 : 0 ≤ s) (h1 : s ≤ 1) {q' : ℕ → ℝ} (hq' : ∀ b < n, q' b = (1 - s) * q b + s * (g b + N b / frac)) :
    Proportional {x : ℕ → ℝ | ∀ b < n, 0 < x b} (dirichletPdf n q')
      (steppedDensity s frac (dirichletPdf n q) (dirichletPdf n g) (fun x => ∑ b ∈ range n, N b * Real.log (x b))) := by
  have pos : ∀ b < n, 0 < q' b := by
    intro b hb
    rw [hq' b hb]
    have hz' : 0 ≤ N b / frac := div_nonneg (hN b hb) hf.le
    rcases h0.eq_or_lt with rfl | hs
    · simpa using hq b hb
    · have := mul_nonneg (sub_nonneg.2 h1) (hq b hb).le
      have := mul_pos hs (show 0 < g b + N b / frac by linarith [hg b hb])
      linarith
  refine proportional_of_log (-lnDirNorm n q' - ((1 - s) * (-lnDirNorm n q) + s * (-lnDirNorm n g))) (fun x hx => dirichlet_pos hn pos hx)
    (fun x hx => stepped_pos (dirichlet_pos hn hq hx) (dirichlet_pos hn hg hx)) fun x hx => ?_
  rw [log_stepped (dirichlet_pos hn hq hx) (dirichlet_pos hn hg hx), log_dirichlet_norm hn pos hx, log_dirichlet_norm hn hq hx, log_dirichlet_norm hn hg hx]
  have e : ∑ b ∈ range n, (q' b - 1) * Real.log (x b) = (1 - s) * ∑ b ∈ range n, (q b - 1) * Real.log (x b)
      + s * (∑ b ∈ range n, (g b - 1) * Real.log (x b) + (∑ b ∈ range n, N b * Real.log (x b)) / frac) := by
    rw [sum_div, ← sum_add_distrib, mul_sum, mul_sum, ← sum_add_distrib]
    refine sum_congr rfl fun b hb => ?_
    rw [hq' b (mem_range.1 hb)]; ring
  rw [e]; ring

theorem betaPDF_pos {a b x : ℝ} (ha : 0 < a) (hb : 0 < b) (hx : x ∈ Set.Ioo (0:ℝ) 1) : 0 < betaPDFReal a b x := betaPDFReal_pos hx.1 hx.2 ha hb

/-- beta factors -/
theorem beta_step {a b al be N1 N0 s frac : ℝ} {L : ℝ → ℝ} (ha : 0 < a) (hb : 0 < b) (hal : 0 < al) (hbe : 0 < be) (hN1 : 0 ≤ N1) (hN0 : 0 ≤ N0)
    (hf : 0 < frac) (h0 : 0 ≤ s) (h1 : s ≤ 1) (hL : ∀ x ∈ Set.Ioo (0:ℝ) 1, L x = N1 * Real.log x + N0 * Real.log (1 - x)) :
    Proportional (Set.Ioo 0 1) (betaPDFReal ((1 - s) * a + s * (al + N1 / frac)) ((1 - s) * b + s * (be + N0 / frac)))
      (steppedDensity s frac (betaPDFReal a b) (betaPDFReal al be) L) := by
  have pos : ∀ {x y z : ℝ}, 0 < x → 0 < y → 0 ≤ z → 0 < (1 - s) * x + s * (y + z / frac) := by
    intro x y z hx hy hz
    have hz' : 0 ≤ z / frac := div_nonneg hz hf.le
    rcases h0.eq_or_lt with rfl | hs
    · simpa using hx
    · have := mul_nonneg (sub_nonneg.2 h1) hx.le
      have := mul_pos hs (show 0 < y + z / frac by linarith)
      linarith
  have pa := pos ha hal hN1
  have pb := pos hb hbe hN0
  refine proportional_of_log (-lnBeta ((1 - s) * a + s * (al + N1 / frac)) ((1 - s) * b + s * (be + N0 / frac)) - ((1 - s) * (-lnBeta a b) + s * (-lnBeta al be)))
    (fun x hx => betaPDF_pos pa pb hx) (fun x hx => stepped_pos (betaPDF_pos ha hb hx) (betaPDF_pos hal hbe hx)) fun x hx => ?_
  rw [log_stepped (betaPDF_pos ha hb hx) (betaPDF_pos hal hbe hx), log_betaPDF pa pb hx, log_betaPDF ha hb hx, log_betaPDF hal hbe hx, hL x hx]
  ring

theorem expSum_col (dl : List (DParents ℝ)) (k c : ℕ) : expSum dl (fun D => ((D.getEZ k).map fun z => z c).sum) = expCol dl k c := expSum_eq _ _

theorem expCol_nonneg {dl : List (DParents ℝ)} (h : ∀ D ∈ dl, EZPos D) (k c : ℕ) : 0 ≤ expCol dl k c := by
  rw [← expSum_col]; exact expSum_nonneg _ _ fun D hD => col_sum_nonneg D (h D hD) k c

theorem list_sum_mul_const {α : Type*} (l : List α) (f : α → ℝ) (c : ℝ) : (l.map fun a => f a * c).sum = (l.map f).sum * c := by
  induction l with
  | nil => simp
  | cons a l ih => simp [ih, add_mul]

/-! ### The theorems -/

/-- **C77 (background rates).** After a step of size `s` on a fraction `frac` of the data, the gamma factor of each background rate is proportional to
`old^(1-s) * (prior * exp(E[log likelihood]/frac))^s`, the likelihood being that of the background-assigned counts of every bin. -/
theorem C77_background (b : MFBias) (dl : List (DParents ℝ)) {frac s : ℝ} (k : ℕ) (ha : 0 < b.alpha) (hb : 0 < b.beta) (hm : 0 < b.mfAlpha k ∧ 0 < b.mfBeta k)
    (hdt : 0 < b.dt) (hdl : ∀ D ∈ dl, EZPos D) (hf : 0 < frac) (h0 : 0 ≤ s) (h1 : s ≤ 1) :
    Proportional (Set.Ioi 0) (gammaPDFReal ((b.update dl frac s).mfAlpha k) ((b.update dl frac s).mfBeta k))
      (steppedDensity s frac (gammaPDFReal (b.mfAlpha k) (b.mfBeta k)) (gammaPDFReal b.alpha b.beta) (bgLogLik dl b.dt k)) := by
  have hT : expSum dl (fun d => bkgdSS1 d b.dt k) = (dl.map fun D => (D.T : ℝ)).sum * b.dt := by
    rw [expSum_eq]; simp only [bkgdSS1]; rw [list_sum_mul_const]
  have hN : expSum dl (fun d => expBkgdSS0 d k) = expCol dl k 0 := expSum_col dl k 0
  have hTn : 0 ≤ (dl.map fun D => (D.T : ℝ)).sum := by rw [← expSum_eq]; exact expSum_T dl
  simp only [MFBias.update, hN, hT]
  refine gamma_step (expCol dl k 0 * Real.log b.dt) hm.1 hm.2 ha hb (expCol_nonneg hdl k 0) (mul_nonneg hTn hdt.le) hf h0 h1 fun x hx => ?_
  rw [bgLogLik, Real.log_mul hx.ne' hdt.ne', list_sum_mul_const]
  ring

/-- **C77 (impulse weights).** The same for the Dirichlet factor of each impulse response. -/
theorem C77_impulse (B : ℕ) (hB : 0 < B) (m : MFImp) (dl : List (DParents ℝ)) {frac s : ℝ} (k1 k2 : ℕ) (hg : ∀ b < B, 0 < m.gamma b)
    (hm : ∀ b < B, 0 < m.mfGamma k1 k2 b) (hdl : ∀ D ∈ dl, EZPos D) (hf : 0 < frac) (h0 : 0 ≤ s) (h1 : s ≤ 1) :
    Proportional {x : ℕ → ℝ | ∀ b < B, 0 < x b} (dirichletPdf B ((m.update B dl frac s).mfGamma k1 k2))
      (steppedDensity s frac (dirichletPdf B (m.mfGamma k1 k2)) (dirichletPdf B m.gamma) (impLogLik B dl k1 k2)) :=
  dirichlet_step hB hm hg (fun b _ => expCol_nonneg hdl k2 (1 + k1 * B + b)) hf h0 h1 fun b _ => by
    simp only [MFImp.update]
    rw [← expSum_col]; rfl

theorem weightStats (B : ℕ) (dl : List (DParents ℝ)) (i j : ℕ) :
    expSum dl (fun d => expWeightSS0 d B i j) = ∑ b ∈ range B, expCol dl j (1 + i * B + b) ∧
    expSum dl (fun d => (weightSS1 d i j : ℝ)) = (dl.map fun D => (D.Ns i : ℝ)).sum := by
  constructor
  · rw [expSum_eq]
    simp only [expWeightSS0, expCol]
    induction dl with
    | nil => simp
    | cons D l ih => simp only [List.map_cons, List.sum_cons, ih, sum_add_distrib]
  · rw [expSum_eq]; rfl

theorem listNs_nonneg (dl : List (DParents ℝ)) (i : ℕ) : 0 ≤ (dl.map fun D => (D.Ns i : ℝ)).sum :=
  List.sum_nonneg fun x hx => by obtain ⟨D, -, rfl⟩ := List.mem_map.1 hx; exact Nat.cast_nonneg _

/-- **C77 (weights).** The same for the gamma factors of a weight given that the edge is present (prior `Gamma(kappa, E[v])`) and given that it is absent (prior
`Gamma(kappa_0, nu_0)`). -/
theorem C77_weights (B : ℕ) {kappa : ℝ} (eV : Mat ℝ) (dl : List (DParents ℝ)) {frac s : ℝ} (w : MFWeights) (i j : ℕ) (hk : 0 < kappa) (hv : 0 < eV i j)
    (h00 : 0 < w.kappa0 ∧ 0 < w.nu0) (hw : 0 < w.mfKappa0 i j ∧ 0 < w.mfV0 i j ∧ 0 < w.mfKappa1 i j ∧ 0 < w.mfV1 i j) (hdl : ∀ D ∈ dl, EZPos D) (hf : 0 < frac)
    (h0 : 0 ≤ s) (h1 : s ≤ 1) :
    let w' := w.updateKappaV B kappa eV dl frac s
    Proportional (Set.Ioi 0) (gammaPDFReal (w'.mfKappa1 i j) (w'.mfV1 i j))
      (steppedDensity s frac (gammaPDFReal (w.mfKappa1 i j) (w.mfV1 i j)) (gammaPDFReal kappa (eV i j)) (weightLogLik B dl i j)) ∧
    Proportional (Set.Ioi 0) (gammaPDFReal (w'.mfKappa0 i j) (w'.mfV0 i j))
      (steppedDensity s frac (gammaPDFReal (w.mfKappa0 i j) (w.mfV0 i j)) (gammaPDFReal w.kappa0 w.nu0) (weightLogLik B dl i j)) := by
  obtain ⟨e0, e1⟩ := weightStats B dl i j
  simp only [MFWeights.updateKappaV, e0, e1, mul_one]
  have hN : 0 ≤ ∑ b ∈ range B, expCol dl j (1 + i * B + b) := sum_nonneg fun b _ => expCol_nonneg hdl _ _
  have hL : ∀ x, 0 < x → weightLogLik B dl i j x = (∑ b ∈ range B, expCol dl j (1 + i * B + b)) * Real.log x - (dl.map fun D => (D.Ns i : ℝ)).sum * x + 0 := by
    intro x _; rw [weightLogLik, list_sum_mul_const, add_zero]
  exact ⟨gamma_step 0 hw.2.2.1 hw.2.2.2 hk hv hN (listNs_nonneg dl i) hf h0 h1 hL, gamma_step 0 hw.1 hw.2.1 h00.1 h00.2 hN (listNs_nonneg dl i) hf h0 h1 hL⟩

end PyHawkes
