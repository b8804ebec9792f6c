import Verif.Props.GibbsSweepMap

/-!
# The likelihood times the conditional probability of the parents factorises (used for C83)
-/
set_option linter.unusedSectionVars false
set_option linter.unusedVariables false

namespace PyHawkes
open Finset Spec MeasureTheory

section
variable {c : HawkesState}

/-- the model rate in an event bin -/
noncomputable def rowRate (A W : Pair c.base.K → ℝ) (lam : Fin c.base.K → ℝ) (g : Pair c.base.K → Vec ℝ) (ρ : Row c) : ℝ :=
  lam ρ.1 + ∑ i : Fin c.base.K, ∑ b ∈ range c.base.B, A (i, ρ.1) * W (i, ρ.1) * g (i, ρ.1) b * rowF ρ i b

theorem rowRate_eq (A W : Pair c.base.K → ℝ) (lam : Fin c.base.K → ℝ) (g : Pair c.base.K → Vec ℝ) (ρ : Row c) :
    ∑ j ∈ range (NPar c), parentWeightsPy (rateParams c.base A W lam g) ρ.1 (rowF ρ) j = rowRate A W lam g ρ := by
  rw [show NPar c = 1 + (rateParams c.base A W lam g).K * (rateParams c.base A W lam g).B from rfl, sum_parentWeights]
  unfold rowRate
  rw [rate_lam (K := c.base.K) _ _ _ _ _ ρ.1.2]
  congr 1
  rw [← Fin.sum_univ_eq_sum_range (fun i => ∑ b ∈ range (rateParams c.base A W lam g).B, (rateParams c.base A W lam g).Weff i ρ.1 * (rateParams c.base A W lam g).g i ρ.1 b * rowF ρ i b)]
  refine sum_congr rfl fun i _ => sum_congr rfl fun b _ => ?_
  rw [rate_W (K := c.base.K) _ _ _ _ _ i.2 ρ.1.2, rate_g (K := c.base.K) _ _ _ _ _ i.2 ρ.1.2]
  rfl

/-- the log likelihood as a sum over processes, pairs and event bins -/
theorem ll_rows (hD : ∀ D ∈ c.data, DataOk c.base.K c.base.B D) (A W : Pair c.base.K → ℝ) (lam : Fin c.base.K → ℝ) (g : Pair c.base.K → Vec ℝ) :
    llModel (rateParams c.base A W lam g) c.data = (∑ k, -(lam k * timeTotal c)) + (∑ e : Pair c.base.K, -(A e * W e * evTotal c e.1))
      + ∑ ρ : Row c, (rowCount ρ : ℝ) * Real.log (rowRate A W lam g ρ) := by
  rw [C08_model_sum, ← Fin.sum_univ_fun_getElem]
  have hone : ∀ (i : Fin c.data.length) (k : Fin c.base.K), llSingle (rateParams c.base A W lam g) c.data[i] k =
      -(lam k * ((c.data[i]).T * c.base.dt)) + (∑ j : Fin c.base.K, -(A (j, k) * W (j, k) * (c.data[i]).Ns j))
        + ∑ r : Fin ((c.data[i]).ts k).length, (rowCount (⟨k, i, r⟩ : Row c) : ℝ) * Real.log (rowRate A W lam g ⟨k, i, r⟩) := by
    intro i k
    unfold llSingle
    dsimp only
    rw [rate_lam (K := c.base.K) _ _ _ _ _ k.2, zero_add, zip_Ss_Fs, List.map_map]
    congr 1
    · congr 1
      · change -lam k * _ * c.base.dt = _; ring
      · rw [← Fin.sum_univ_eq_sum_range (fun j => (rateParams c.base A W lam g).Weff j k * ((c.data[i]).Ns j : ℝ)), sum_neg_distrib]
        congr 1
        refine sum_congr rfl fun j _ => ?_
        rw [rate_W (K := c.base.K) _ _ _ _ _ j.2 k.2]
        rfl
    · rw [← Fin.sum_univ_fun_getElem]
      refine sum_congr rfl fun r _ => ?_
      have hmem : ((c.data[i]).ts k)[r] ∈ (c.data[i]).ts k := List.getElem_mem _
      have h32 : (c.data[i]).S ((c.data[i]).ts k)[(r : ℕ)] k < 2 ^ 32 := (hD _ (List.getElem_mem _)).2 _ (mem_ts hmem).1 k k.2
      simp only [Function.comp]
      rw [toU32_of_lt h32]
      change _ = ((c.data[i]).S ((c.data[i]).ts k)[r] k : ℝ) * _
      rw [← rowRate_eq, show NPar c = 1 + (rateParams c.base A W lam g).K * (rateParams c.base A W lam g).B from rfl, sum_parentWeights]
      rw [rate_lam (K := c.base.K) _ _ _ _ _ k.2]
      rfl
  have hdata : ∀ i : Fin c.data.length, llData (rateParams c.base A W lam g) c.data[i] = ∑ k : Fin c.base.K, llSingle (rateParams c.base A W lam g) c.data[i] k := by
    intro i
    unfold llData
    rw [forRange_add, zero_add]
    exact (Fin.sum_univ_eq_sum_range (fun k => llSingle (rateParams c.base A W lam g) c.data[i] k) c.base.K).symm
  have hall : ∑ i : Fin c.data.length, llData (rateParams c.base A W lam g) c.data[i.1] = _ := sum_congr rfl fun i _ => (hdata i).trans (sum_congr rfl fun k _ => hone i k)
  rw [hall]
  simp only [sum_add_distrib]
  congr 1
  · congr 1
    · rw [sum_comm]
      refine sum_congr rfl fun k _ => ?_
      unfold timeTotal
      rw [mul_sum, sum_neg_distrib]
    · rw [Fintype.sum_prod_type, sum_comm]
      have : ∀ k : Fin c.base.K, ∑ i : Fin c.data.length, ∑ j : Fin c.base.K, -(A (j, k) * W (j, k) * ((c.data[i]).Ns j : ℝ)) = ∑ j : Fin c.base.K, -(A (j, k) * W (j, k) * evTotal c j) := by
        intro k
        rw [sum_comm]
        refine sum_congr rfl fun j _ => ?_
        unfold evTotal
        rw [mul_sum, sum_neg_distrib]
      simp only [this]
      rw [sum_comm]
  · rw [Fintype.sum_sigma, sum_comm]
    refine sum_congr rfl fun k _ => ?_
    rw [Fintype.sum_sigma]

theorem rowRate_pos {A W : Pair c.base.K → ℝ} {lam : Fin c.base.K → ℝ} {g : Pair c.base.K → Vec ℝ} (hD : ∀ D ∈ c.data, DataOk c.base.K c.base.B D) (hAW : ∀ e, 0 ≤ A e * W e)
    (hlam : ∀ k, 0 < lam k) (hg : ∀ e, ∀ b < c.base.B, 0 ≤ g e b) (ρ : Row c) : 0 < rowRate A W lam g ρ := by
  refine add_pos_of_pos_of_nonneg (hlam _) (sum_nonneg fun i _ => sum_nonneg fun b hb => mul_nonneg (mul_nonneg (hAW _) (hg _ b (mem_range.1 hb))) ?_)
  exact (hD _ (List.getElem_mem _)).1 _ (mem_ts (List.getElem_mem _)).1 i i.2 b (mem_range.1 hb)

theorem likR_eq (hD : ∀ D ∈ c.data, DataOk c.base.K c.base.B D) {A W : Pair c.base.K → ℝ} {lam : Fin c.base.K → ℝ} {g : Pair c.base.K → Vec ℝ} (hAW : ∀ e, 0 ≤ A e * W e)
    (hlam : ∀ k, 0 < lam k) (hg : ∀ e, ∀ b < c.base.B, 0 ≤ g e b) :
    likR c A W lam g = (∏ k, Real.exp (-(lam k * timeTotal c))) * (∏ e : Pair c.base.K, Real.exp (-(A e * W e * evTotal c e.1))) * ∏ ρ : Row c, rowRate A W lam g ρ ^ rowCount ρ := by
  unfold likR
  rw [ll_rows hD, Real.exp_add, Real.exp_add, Real.exp_sum, Real.exp_sum, Real.exp_sum]
  congr 1
  refine prod_congr rfl fun ρ _ => ?_
  rw [Real.exp_nat_mul, Real.exp_log (rowRate_pos hD hAW hlam hg ρ)]

/-- the part of the joint density that depends on the parents only -/
noncomputable def zCoef (z : ZSp c) : ℝ :=
  (∏ ρ : Row c, if ∑ j ∈ range (NPar c), zAt z ρ j = rowCount ρ then (Nat.multinomial (range (NPar c)) (zAt z ρ) : ℝ) else 0) *
    ∏ ρ : Row c, ∏ i : Fin c.base.K, ∏ b ∈ range c.base.B, rowF ρ i b ^ zAt z ρ (1 + i * c.base.B + b)

/-- the part that depends on the background rates and the impulse weights -/
noncomputable def phiFac (z : ZSp c) (lam : Fin c.base.K → ℝ) (g : Pair c.base.K → Vec ℝ) : ℝ :=
  (∏ k, lam k ^ bkgd z k * Real.exp (-(lam k * timeTotal c))) * ∏ e : Pair c.base.K, ∏ b ∈ range c.base.B, g e b ^ viaB z e b

/-- the part that depends on the adjacency matrix and the weights -/
noncomputable def xFac (z : ZSp c) (A W : Pair c.base.K → ℝ) : ℝ := ∏ e : Pair c.base.K, (A e * W e) ^ via z e * Real.exp (-(A e * W e * evTotal c e.1))

/-- conditional probability of the parents -/
noncomputable def zPmf (A W : Pair c.base.K → ℝ) (lam : Fin c.base.K → ℝ) (g : Pair c.base.K → Vec ℝ) (z : ZSp c) : ℝ :=
  ∏ ρ : Row c, multinomialPmf (NPar c) (rowCount ρ) (arr (NPar c) (probVec (rateParams c.base A W lam g) ρ.1 (rowF ρ))) (zAt z ρ)

theorem prod_flat {M : Type*} [CommMonoid M] (K B : ℕ) (f : ℕ → M) : ∏ j ∈ range (1 + K * B), f j = f 0 * ∏ i : Fin K, ∏ b ∈ range B, f (1 + i * B + b) := by
  have h := sum_one_add (M := Additive M) (K * B) fun j => Additive.ofMul (f j)
  rw [sum_flat (M := Additive M) K B fun j => Additive.ofMul (f (1 + j)), ← Fin.sum_univ_eq_sum_range (fun k => ∑ b ∈ range B, Additive.ofMul (f (1 + (k * B + b))))] at h
  simp only [← add_assoc] at h
  exact h

theorem lik_factor (hD : ∀ D ∈ c.data, DataOk c.base.K c.base.B D) {A W : Pair c.base.K → ℝ} {lam : Fin c.base.K → ℝ} {g : Pair c.base.K → Vec ℝ} (hAW : ∀ e, 0 ≤ A e * W e)
    (hlam : ∀ k, 0 < lam k) (hg : ∀ e, ∀ b < c.base.B, 0 ≤ g e b) (z : ZSp c) :
    likR c A W lam g * zPmf A W lam g z = zCoef z * phiFac z lam g * xFac z A W := by
  have hrow : ∀ ρ : Row c, rowRate A W lam g ρ ^ rowCount ρ * multinomialPmf (NPar c) (rowCount ρ) (arr (NPar c) (probVec (rateParams c.base A W lam g) ρ.1 (rowF ρ))) (zAt z ρ)
      = (if ∑ j ∈ range (NPar c), zAt z ρ j = rowCount ρ then (Nat.multinomial (range (NPar c)) (zAt z ρ) : ℝ) else 0) *
        ((lam ρ.1 ^ zAt z ρ 0 * ∏ i : Fin c.base.K, ∏ b ∈ range c.base.B, g (i, ρ.1) b ^ zAt z ρ (1 + i * c.base.B + b)) *
          (∏ i : Fin c.base.K, ∏ b ∈ range c.base.B, (A (i, ρ.1) * W (i, ρ.1)) ^ zAt z ρ (1 + i * c.base.B + b)) *
          ∏ i : Fin c.base.K, ∏ b ∈ range c.base.B, rowF ρ i b ^ zAt z ρ (1 + i * c.base.B + b)) := by
    intro ρ
    unfold multinomialPmf
    split_ifs with hs
    · have hr := (rowRate_pos hD hAW hlam hg ρ).ne'
      have h1 : ∏ j ∈ range (NPar c), arr (NPar c) (probVec (rateParams c.base A W lam g) ρ.1 (rowF ρ)) j ^ zAt z ρ j
          = (∏ j ∈ range (NPar c), parentWeightsPy (rateParams c.base A W lam g) ρ.1 (rowF ρ) j ^ zAt z ρ j) / rowRate A W lam g ρ ^ rowCount ρ := by
        rw [← hs, ← prod_pow_eq_pow_sum, ← prod_div_distrib]
        refine prod_congr rfl fun j hj => ?_
        unfold arr probVec
        rw [if_pos (mem_range.1 hj), ← rowRate_eq, div_pow]
        rfl
      rw [h1, show ∀ a m p : ℝ, a * (m * (p / a)) = m * (p * (a / a)) from fun a m p => by ring, div_self (pow_ne_zero _ hr), mul_one]
      congr 1
      rw [prod_flat]
      have h0 : parentWeightsPy (rateParams c.base A W lam g) ρ.1 (rowF ρ) 0 = lam ρ.1 := rate_lam (K := c.base.K) _ _ _ _ _ ρ.1.2
      have hc : ∀ i : Fin c.base.K, ∀ b ∈ range c.base.B, parentWeightsPy (rateParams c.base A W lam g) ρ.1 (rowF ρ) (1 + i * c.base.B + b) =
          g (i, ρ.1) b * (A (i, ρ.1) * W (i, ρ.1)) * rowF ρ i b := by
        intro i b hb
        have := parentWeightsPy_col (rateParams c.base A W lam g) ρ.1 i b (rowF ρ) (mem_range.1 hb)
        rw [rate_W (K := c.base.K) _ _ _ _ _ i.2 ρ.1.2, rate_g (K := c.base.K) _ _ _ _ _ i.2 ρ.1.2] at this
        exact this.trans (by ring)
      rw [h0, mul_assoc, mul_assoc, ← prod_mul_distrib, ← prod_mul_distrib]
      congr 1
      refine prod_congr rfl fun i _ => ?_
      rw [← prod_mul_distrib, ← prod_mul_distrib]
      refine prod_congr rfl fun b hb => ?_
      rw [hc i b hb, mul_pow, mul_pow, mul_assoc]
    · rw [mul_zero, zero_mul]
  have hlamP : ∏ ρ : Row c, lam ρ.1 ^ zAt z ρ 0 = ∏ k, lam k ^ bkgd z k := by
    rw [Fintype.prod_sigma]
    refine prod_congr rfl fun k _ => ?_
    rw [Fintype.prod_sigma]
    unfold bkgd
    rw [← prod_pow_eq_pow_sum]
    exact prod_congr rfl fun i _ => prod_pow_eq_pow_sum _ (fun r => zAt z ⟨k, i, r⟩ 0) (lam k)
  have hgP : ∀ f : Pair c.base.K → ℕ → ℝ, ∏ ρ : Row c, ∏ i : Fin c.base.K, ∏ b ∈ range c.base.B, f (i, ρ.1) b ^ zAt z ρ (1 + i * c.base.B + b)
      = ∏ e : Pair c.base.K, ∏ b ∈ range c.base.B, f e b ^ viaB z e b := by
    intro f
    rw [Fintype.prod_sigma, Fintype.prod_prod_type, prod_comm]
    refine prod_congr rfl fun k _ => ?_
    rw [Fintype.prod_sigma]
    have : ∀ i : Fin c.base.K, ∏ b ∈ range c.base.B, f (i, k) b ^ viaB z (i, k) b =
        ∏ d : Fin c.data.length, ∏ r : Fin ((c.data[d]).ts k).length, ∏ b ∈ range c.base.B, f (i, k) b ^ zAt z ⟨k, d, r⟩ (1 + i * c.base.B + b) := by
      intro i
      have : ∀ b ∈ range c.base.B, f (i, k) b ^ viaB z (i, k) b = ∏ d : Fin c.data.length, ∏ r : Fin ((c.data[d]).ts k).length, f (i, k) b ^ zAt z ⟨k, d, r⟩ (1 + i * c.base.B + b) := by
        intro b _
        unfold viaB
        rw [← prod_pow_eq_pow_sum]
        exact prod_congr rfl fun d _ => (prod_pow_eq_pow_sum _ _ _).symm
      rw [prod_congr rfl this, prod_comm]
      exact prod_congr rfl fun d _ => prod_comm
    simp only [this]
    rw [prod_comm]
    exact prod_congr rfl fun d _ => prod_comm
  have hAWP := hgP fun e _ => A e * W e
  have hvia : ∀ e : Pair c.base.K, ∏ b ∈ range c.base.B, (A e * W e) ^ viaB z e b = (A e * W e) ^ via z e := fun e => by unfold via; exact prod_pow_eq_pow_sum _ _ _
  rw [likR_eq hD hAW hlam hg]
  unfold zPmf
  rw [mul_assoc, ← prod_mul_distrib, prod_congr rfl fun ρ _ => hrow ρ, prod_mul_distrib, prod_mul_distrib, prod_mul_distrib, prod_mul_distrib, hlamP, hgP, hAWP]
  simp only [hvia]
  unfold zCoef phiFac xFac
  rw [prod_mul_distrib, prod_mul_distrib]
  ring

end

end PyHawkes
