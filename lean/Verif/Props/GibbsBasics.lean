import Verif.Model.Gibbs
import Verif.Spec.Bayes
import Verif.Props.DParents
import Mathlib.MeasureTheory.Function.LocallyIntegrable
import Mathlib.MeasureTheory.Measure.Lebesgue.Basic

/-! Lemmas for the Gibbs conditionals: gamma-Poisson conjugacy and the log-space Bernoulli draw. -/
set_option linter.unusedSectionVars false

namespace PyHawkes
open Finset MeasureTheory Set ProbabilityTheory

theorem gammaPDF_integral {a r : ℝ} (ha : 0 < a) (hr : 0 < r) : ∫ x in Ioi 0, gammaPDFReal a r x = 1 := by
  have h : ∫ x in Ioi 0, gammaPDFReal a r x = ∫ x in Ioi (0:ℝ), r ^ a / Real.Gamma a * (x ^ (a - 1) * Real.exp (-(r * x))) := by
    refine setIntegral_congr_fun measurableSet_Ioi fun x hx => ?_
    simp only [gammaPDFReal, if_pos (le_of_lt (mem_Ioi.1 hx))]
    ring
  rw [h, integral_const_mul, Real.integral_rpow_mul_exp_neg_mul_Ioi ha hr]
  have hG := (Real.Gamma_pos_of_pos ha).ne'
  have hra : r ^ a ≠ 0 := (Real.rpow_pos_of_pos hr a).ne'
  rw [Real.div_rpow zero_le_one hr.le, Real.one_rpow]
  field_simp

theorem gammaPDF_integrable {a r : ℝ} (ha : 0 < a) (hr : 0 < r) : IntegrableOn (gammaPDFReal a r) (Ioi 0) := by
  by_contra h
  have := integral_undef h
  rw [gammaPDF_integral ha hr] at this
  exact one_ne_zero this

/-- the density `f`, a multiple of `prior * lik`, integrates to one: it is the posterior -/
theorem isPosterior_of_prop {f prior lik : ℝ → ℝ} {C : ℝ} (hC : 0 < C) (hint : IntegrableOn f (Ioi 0))
    (h1 : ∫ x in Ioi 0, f x = 1) (h : ∀ x, 0 < x → prior x * lik x = C * f x) : Spec.IsPosterior f prior lik := by
  have hI : ∫ x in Ioi 0, prior x * lik x = C := by
    rw [setIntegral_congr_fun measurableSet_Ioi (fun x hx => h x hx), integral_const_mul, h1, mul_one]
  refine ⟨?_, by rw [hI]; exact hC, fun x hx => by rw [hI, h x hx]; field_simp⟩
  exact IntegrableOn.congr_fun (show IntegrableOn (fun x => C * f x) (Ioi 0) volume from hint.const_mul C)
    (fun x hx => (h x hx).symm) measurableSet_Ioi

/-- gamma prior with a likelihood of the form `c x^N e^{-E x}` -/
theorem gamma_conj {a b N E c : ℝ} (ha : 0 < a) (hb : 0 < b) (hN : 0 ≤ N) (hE : 0 ≤ E) (hc : 0 < c) {lik : ℝ → ℝ}
    (hl : ∀ x, 0 < x → lik x = c * x ^ N * Real.exp (-(E * x))) :
    Spec.IsPosterior (gammaPDFReal (a + N) (b + E)) (gammaPDFReal a b) lik := by
  have ha' : 0 < a + N := by linarith
  have hb' : 0 < b + E := by linarith
  have hG := Real.Gamma_pos_of_pos ha
  have hG' := Real.Gamma_pos_of_pos ha'
  have hp := Real.rpow_pos_of_pos hb a
  have hp' := Real.rpow_pos_of_pos hb' (a + N)
  refine isPosterior_of_prop (C := b ^ a / Real.Gamma a * c / ((b + E) ^ (a + N) / Real.Gamma (a + N))) (by positivity)
    (gammaPDF_integrable ha' hb') (gammaPDF_integral ha' hb') fun x hx => ?_
  rw [hl x hx]
  simp only [gammaPDFReal, if_pos hx.le]
  rw [show a + N - 1 = (a - 1) + N by ring, Real.rpow_add hx, show -((b + E) * x) = -(b * x) + -(E * x) by ring, Real.exp_add]
  field_simp

/-- integral of a gamma prior against a likelihood of the form `c x^N e^{-E x}` -/
theorem gamma_evidence {a b N E c : ℝ} (ha : 0 < a) (hb : 0 < b) (hN : 0 ≤ N) (hE : 0 ≤ E) {lik : ℝ → ℝ}
    (hl : ∀ x, 0 < x → lik x = c * x ^ N * Real.exp (-(E * x))) :
    ∫ x in Ioi 0, gammaPDFReal a b x * lik x = c * (b ^ a / Real.Gamma a * (Real.Gamma (a + N) / (b + E) ^ (a + N))) := by
  have ha' : 0 < a + N := by linarith
  have hb' : 0 < b + E := by linarith
  have h : ∫ x in Ioi 0, gammaPDFReal a b x * lik x
      = ∫ x in Ioi (0:ℝ), c * (b ^ a / Real.Gamma a) * (x ^ (a + N - 1) * Real.exp (-((b + E) * x))) := by
    refine setIntegral_congr_fun measurableSet_Ioi fun x hx => ?_
    have hx' : (0:ℝ) < x := hx
    simp only [gammaPDFReal, if_pos hx'.le]
    rw [hl x hx', show a + N - 1 = (a - 1) + N by ring, Real.rpow_add hx', show -((b + E) * x) = -(b * x) + -(E * x) by ring,
      Real.exp_add]
    ring
  rw [h, integral_const_mul, Real.integral_rpow_mul_exp_neg_mul_Ioi ha' hb', Real.div_rpow zero_le_one hb'.le, Real.one_rpow]
  ring

/-- a product of Poisson probabilities with means `x * e` is `c x^(total count) e^{-(total exposure) x}` -/
theorem poisson_prod (l : List (ℕ × ℝ)) (he : ∀ q ∈ l, 0 ≤ q.2) (h0 : ∀ q ∈ l, q.2 = 0 → q.1 = 0) :
    ∃ c : ℝ, 0 < c ∧ ∀ x : ℝ, 0 < x → (l.map fun q => Spec.poissonPmf (x * q.2) q.1).prod
      = c * x ^ ((l.map fun q => (q.1 : ℝ)).sum) * Real.exp (-((l.map fun q => q.2).sum * x)) := by
  induction l with
  | nil => exact ⟨1, one_pos, fun x _ => by simp⟩
  | cons q l ih =>
    obtain ⟨c, hc, h⟩ := ih (fun q hq => he q (List.mem_cons_of_mem _ hq)) (fun q hq => h0 q (List.mem_cons_of_mem _ hq))
    have hq := he q List.mem_cons_self
    have hf : (0:ℝ) < q.1.factorial := by exact_mod_cast Nat.factorial_pos _
    refine ⟨q.2 ^ q.1 / q.1.factorial * c, ?_, fun x hx => ?_⟩
    · rcases hq.lt_or_eq with h2 | h2
      · positivity
      · rw [h0 q List.mem_cons_self h2.symm]; simpa using hc
    · simp only [List.map_cons, List.prod_cons, List.sum_cons]
      rw [h x hx, Spec.poissonPmf, Real.rpow_add hx, Real.rpow_natCast, mul_pow,
        show -((q.2 + (l.map fun q => q.2).sum) * x) = -(x * q.2) + -((l.map fun q => q.2).sum * x) by ring, Real.exp_add]
      field_simp

/-- gamma-Poisson conjugacy for a list of (count, exposure) observations -/
theorem gamma_poisson {a b : ℝ} (ha : 0 < a) (hb : 0 < b) (l : List (ℕ × ℝ)) (he : ∀ q ∈ l, 0 ≤ q.2)
    (h0 : ∀ q ∈ l, q.2 = 0 → q.1 = 0) :
    Spec.IsPosterior (gammaPDFReal (a + (l.map fun q => (q.1 : ℝ)).sum) (b + (l.map fun q => q.2).sum)) (gammaPDFReal a b)
      (fun x => (l.map fun q => Spec.poissonPmf (x * q.2) q.1).prod) := by
  obtain ⟨c, hc, h⟩ := poisson_prod l he h0
  refine gamma_conj ha hb (List.sum_nonneg ?_) (List.sum_nonneg ?_) hc h
  · intro x hx
    obtain ⟨q, -, rfl⟩ := List.mem_map.1 hx
    positivity
  · intro x hx
    obtain ⟨q, hq, rfl⟩ := List.mem_map.1 hx
    exact he q hq

theorem foldl_add_eq {α : Type*} (l : List α) (f : α → ℝ) (a : ℝ) :
    l.foldl (fun acc d => acc + f d) a = a + (l.map f).sum := by
  induction l generalizing a with
  | nil => simp
  | cons d l ih => rw [List.foldl_cons, ih, List.map_cons, List.sum_cons, add_assoc]

theorem ssSum_eq (dl : List (DParents ℝ)) (f : DParents ℝ → ℝ) : ssSum dl f = (dl.map f).sum := by
  rw [ssSum, foldl_add_eq, zero_add, zero_add]

/-! ### the Bernoulli draw in log space -/

theorem bernPost_mem {p l0 l1 : ℝ} (hp : 0 ≤ p) (hp1 : p ≤ 1) (h0 : 0 < l0) (h1 : 0 < l1) :
    0 ≤ Spec.bernPost p l0 l1 ∧ Spec.bernPost p l0 l1 ≤ 1 := by
  unfold Spec.bernPost
  have hd : 0 ≤ (1 - p) * l0 := mul_nonneg (by linarith) h0.le
  have hn : 0 ≤ p * l1 := mul_nonneg hp h1.le
  exact ⟨div_nonneg hn (add_nonneg hn hd), div_le_one_of_le₀ (by linarith) (add_nonneg hn hd)⟩

theorem edgeDraw_eq (ll0 ll1 p u : ℝ) (hp : 0 ≤ p) (hp1 : p ≤ 1) (hu : 0 ≤ u) (hu1 : u < 1) :
    edgeDraw ll0 ll1 p u = if u < Spec.bernPost p (Real.exp ll0) (Real.exp ll1) then 1 else 0 := by
  unfold edgeDraw Spec.bernPost logsumexp2
  dsimp only
  have e0 := Real.exp_pos ll0
  have e1 := Real.exp_pos ll1
  refine if_congr ?_ rfl rfl
  rcases hp.eq_or_lt with h | h
  · subst h
    simp [EReal.bot_sub, not_lt.2 hu]
  have hlp1 : (ll1 : EReal) + npLog p = ((ll1 + Real.log p : ℝ) : EReal) := by rw [npLog_of_ne h.ne']; push_cast; rfl
  rw [hlp1]
  have hexp1 : Real.exp (ll1 + Real.log p) = p * Real.exp ll1 := by rw [Real.exp_add, Real.exp_log h, mul_comm]
  have hexp0 : npExp ((ll0 : EReal) + npLog (1 - p)) = (1 - p) * Real.exp ll0 := by
    rcases hp1.eq_or_lt with h1 | h1
    · subst h1; simp
    · have : 0 < 1 - p := by linarith
      rw [npLog_of_ne this.ne', ← EReal.coe_add, npExp_coe, Real.exp_add, Real.exp_log this, mul_comm]
  have hd : 0 < (1 - p) * Real.exp ll0 + p * Real.exp ll1 := by
    have : 0 ≤ (1 - p) * Real.exp ll0 := mul_nonneg (by linarith) e0.le
    have : 0 < p * Real.exp ll1 := mul_pos h e1
    linarith
  rw [npExp_coe, hexp1, hexp0, npLog_of_ne hd.ne', ← EReal.coe_sub]
  have hval : ll1 + Real.log p - Real.log ((1 - p) * Real.exp ll0 + p * Real.exp ll1)
      = Real.log (p * Real.exp ll1 / (p * Real.exp ll1 + (1 - p) * Real.exp ll0)) := by
    rw [Real.log_div (mul_pos h e1).ne' (by linarith), Real.log_mul h.ne' e1.ne', Real.log_exp, add_comm (p * _)]
    ring
  rw [hval]
  have hq : 0 < p * Real.exp ll1 / (p * Real.exp ll1 + (1 - p) * Real.exp ll0) :=
    div_pos (mul_pos h e1) (by linarith)
  rcases hu.eq_or_lt with h2 | h2
  · subst h2
    simp [hq, EReal.bot_lt_coe]
  · rw [npLog_of_ne h2.ne', EReal.coe_lt_coe_iff, Real.log_lt_log_iff h2 hq]

/-- the uniform draws below a threshold in `[0,1]` have probability equal to the threshold -/
theorem volume_uniform (θ : ℝ) (h1 : θ ≤ 1) :
    volume {u : ℝ | 0 ≤ u ∧ u < 1 ∧ u < θ} = ENNReal.ofReal θ := by
  have : {u : ℝ | 0 ≤ u ∧ u < 1 ∧ u < θ} = Ico 0 θ := by
    ext u; simp only [Set.mem_ofPred_eq, Set.mem_Ico]; constructor
    · rintro ⟨a, -, c⟩; exact ⟨a, c⟩
    · rintro ⟨a, c⟩; exact ⟨a, lt_of_lt_of_le c h1, c⟩
  rw [this, Real.volume_Ico, sub_zero]

end PyHawkes
