import Mathlib.MeasureTheory.Measure.Prod
import Mathlib.MeasureTheory.Measure.WithDensity
import Mathlib.MeasureTheory.Constructions.Pi
import Mathlib.MeasureTheory.Integral.Marginal

/-!
# Invariance of the data-augmentation sweep, abstractly

`augment_invariant`: latent counts `z` are drawn given the parameters, then the globals `φ` are redrawn given `z`, then the network parameter `η` is redrawn, then the weights `W` are
redrawn given `η`, the adjacency matrix `A` and `z`.
-/

namespace PyHawkes
open MeasureTheory ENNReal

section
variable {Φ H 𝒜 𝒲 Z Y U Y' : Type*} [MeasurableSpace Φ] [MeasurableSpace H] [MeasurableSpace 𝒜] [MeasurableSpace 𝒲] [MeasurableSpace Y] [MeasurableSpace U] [MeasurableSpace Y']
  [Countable Z]

theorem augment_invariant (ν : Measure Φ) (ρ : Measure H) (m : Measure 𝒜) (w0 : Measure 𝒲) [SFinite ν] [SFinite ρ] [SFinite m] [SFinite w0]
    (μY : Measure Y) (μU : Measure U) (μW : Measure Y') [SFinite μY] [SFinite μU] [SFinite μW]
    (d : H → 𝒜 → 𝒲 → ℝ≥0∞) (h : Φ → 𝒜 → 𝒲 → ℝ≥0∞) (kz : Φ → 𝒜 → 𝒲 → Z → ℝ≥0∞) (fφ : Φ → Z → ℝ≥0∞) (fX : 𝒜 → 𝒲 → Z → ℝ≥0∞)
    (sφ : Z → Y → Φ) (sH : U → H → 𝒜 → 𝒲 → H) (sW : Z → H → 𝒜 → Y' → 𝒲)
    (hd : Measurable fun x : H × 𝒜 × 𝒲 => d x.1 x.2.1 x.2.2) (hfφ : ∀ z, Measurable fun φ => fφ φ z)
    (hfX : ∀ z, Measurable fun x : 𝒜 × 𝒲 => fX x.1 x.2 z)
    (hsφ : ∀ z, Measurable (sφ z)) (hsH : Measurable fun x : U × H × 𝒜 × 𝒲 => sH x.1 x.2.1 x.2.2.1 x.2.2.2)
    (hsW : ∀ z, Measurable fun x : H × 𝒜 × Y' => sW z x.1 x.2.1 x.2.2)
    -- the latent counts are drawn from their conditional distribution
    (hz : ∀ᵐ A ∂m, ∀ᵐ η ∂ρ, ∀ W, ∀ᵐ φ ∂ν, ∀ z, d η A W * (h φ A W * kz φ A W z) = d η A W * (fφ φ z * fX A W z))
    (hz1 : ∀ᵐ A ∂m, ∀ᵐ η ∂ρ, ∀ W, ∀ᵐ φ ∂ν, d η A W * ∑' z, kz φ A W z = d η A W)
    -- the globals are drawn from their conditional distribution
    (hφ : ∀ z (R : Φ → ℝ≥0∞), Measurable R → ∫⁻ φ, fφ φ z * R φ ∂ν = (∫⁻ φ, fφ φ z ∂ν) * ∫⁻ y, R (sφ z y) ∂μY)
    -- the network draw preserves the conditional distribution of the network parameter
    (hη : ∀ z, ∀ᵐ A ∂m, ∀ R : H → ℝ≥0∞, Measurable R →
      ∫⁻ η, ∫⁻ W, d η A W * (fX A W z * ∫⁻ u, R (sH u η A W) ∂μU) ∂w0 ∂ρ = ∫⁻ η, ∫⁻ W, d η A W * (fX A W z * R η) ∂w0 ∂ρ)
    -- the weights are drawn from their conditional distribution
    (hW : ∀ z, ∀ᵐ A ∂m, ∀ᵐ η ∂ρ, ∀ R : 𝒲 → ℝ≥0∞, Measurable R →
      ∫⁻ W, d η A W * (fX A W z * R W) ∂w0 = (∫⁻ W, d η A W * fX A W z ∂w0) * ∫⁻ y, R (sW z η A y) ∂μW)
    (T : Φ → H → 𝒜 → 𝒲 → ℝ≥0∞) (hT : Measurable fun x : Φ × H × 𝒜 × 𝒲 => T x.1 x.2.1 x.2.2.1 x.2.2.2) :
    ∫⁻ A, ∫⁻ η, ∫⁻ W, ∫⁻ φ, d η A W * (h φ A W * ∑' z, kz φ A W z *
        ∫⁻ y, ∫⁻ u, ∫⁻ y', T (sφ z y) (sH u η A W) A (sW z (sH u η A W) A y') ∂μW ∂μU ∂μY) ∂ν ∂w0 ∂ρ ∂m
      = ∫⁻ A, ∫⁻ η, ∫⁻ W, ∫⁻ φ, d η A W * (h φ A W * T φ η A W) ∂ν ∂w0 ∂ρ ∂m := by
  -- measurability of the inner integrals
  have mT1 : ∀ z, Measurable fun x : (Φ × H × 𝒜 × 𝒲 × U) × Y' => T x.1.1 (sH x.1.2.2.2.2 x.1.2.1 x.1.2.2.1 x.1.2.2.2.1) x.1.2.2.1
      (sW z (sH x.1.2.2.2.2 x.1.2.1 x.1.2.2.1 x.1.2.2.2.1) x.1.2.2.1 x.2) := by
    intro z
    have h1 : Measurable fun x : (Φ × H × 𝒜 × 𝒲 × U) × Y' => sH x.1.2.2.2.2 x.1.2.1 x.1.2.2.1 x.1.2.2.2.1 :=
      hsH.comp (f := fun x : (Φ × H × 𝒜 × 𝒲 × U) × Y' => (x.1.2.2.2.2, x.1.2.1, x.1.2.2.1, x.1.2.2.2.1)) (by fun_prop)
    have h2 : Measurable fun x : (Φ × H × 𝒜 × 𝒲 × U) × Y' => sW z (sH x.1.2.2.2.2 x.1.2.1 x.1.2.2.1 x.1.2.2.2.1) x.1.2.2.1 x.2 :=
      (hsW z).comp (f := fun x : (Φ × H × 𝒜 × 𝒲 × U) × Y' => (sH x.1.2.2.2.2 x.1.2.1 x.1.2.2.1 x.1.2.2.2.1, x.1.2.2.1, x.2)) (by fun_prop)
    exact hT.comp (f := fun x : (Φ × H × 𝒜 × 𝒲 × U) × Y' => (x.1.1, sH x.1.2.2.2.2 x.1.2.1 x.1.2.2.1 x.1.2.2.2.1, x.1.2.2.1,
      sW z (sH x.1.2.2.2.2 x.1.2.1 x.1.2.2.1 x.1.2.2.2.1) x.1.2.2.1 x.2)) (by fun_prop)
  have mT2 : ∀ z, Measurable fun x : Φ × H × 𝒜 × 𝒲 × U => ∫⁻ y', T x.1 (sH x.2.2.2.2 x.2.1 x.2.2.1 x.2.2.2.1) x.2.2.1
      (sW z (sH x.2.2.2.2 x.2.1 x.2.2.1 x.2.2.2.1) x.2.2.1 y') ∂μW := fun z => (mT1 z).lintegral_prod_right'
  -- the inner function after the globals were integrated
  set G : Z → Φ → H → 𝒜 → 𝒲 → ℝ≥0∞ := fun z φ η A W => ∫⁻ u, ∫⁻ y', T φ (sH u η A W) A (sW z (sH u η A W) A y') ∂μW ∂μU with hG
  have mG : ∀ z, Measurable fun x : Φ × H × 𝒜 × 𝒲 => G z x.1 x.2.1 x.2.2.1 x.2.2.2 := by
    intro z
    have : Measurable fun x : (Φ × H × 𝒜 × 𝒲) × U => ∫⁻ y', T x.1.1 (sH x.2 x.1.2.1 x.1.2.2.1 x.1.2.2.2) x.1.2.2.1
      (sW z (sH x.2 x.1.2.1 x.1.2.2.1 x.1.2.2.2) x.1.2.2.1 y') ∂μW :=
      (mT2 z).comp (f := fun x : (Φ × H × 𝒜 × 𝒲) × U => (x.1.1, x.1.2.1, x.1.2.2.1, x.1.2.2.2, x.2)) (by fun_prop)
    exact this.lintegral_prod_right'
  have mR : ∀ z, Measurable fun x : Φ × H × 𝒜 => ∫⁻ y', T x.1 x.2.1 x.2.2 (sW z x.2.1 x.2.2 y') ∂μW := by
    intro z
    have h2 : Measurable fun x : (Φ × H × 𝒜) × Y' => sW z x.1.2.1 x.1.2.2 x.2 :=
      (hsW z).comp (f := fun x : (Φ × H × 𝒜) × Y' => (x.1.2.1, x.1.2.2, x.2)) (by fun_prop)
    have : Measurable fun x : (Φ × H × 𝒜) × Y' => T x.1.1 x.1.2.1 x.1.2.2 (sW z x.1.2.1 x.1.2.2 x.2) :=
      hT.comp (f := fun x : (Φ × H × 𝒜) × Y' => (x.1.1, x.1.2.1, x.1.2.2, sW z x.1.2.1 x.1.2.2 x.2)) (by fun_prop)
    exact this.lintegral_prod_right'
  have mdA : ∀ A, Measurable fun x : H × 𝒲 => d x.1 A x.2 := fun A => hd.comp (f := fun x : H × 𝒲 => (x.1, A, x.2)) (by fun_prop)
  have mfA : ∀ z A, Measurable fun W => fX A W z := fun z A => (hfX z).comp (f := fun W => (A, W)) (by fun_prop)
  have mdHA : ∀ A η, Measurable fun W => d η A W := fun A η => (mdA A).comp (f := fun W => (η, W)) (by fun_prop)
  refine lintegral_congr_ae ?_
  have hη' : ∀ᵐ A ∂m, ∀ z, ∀ R : H → ℝ≥0∞, Measurable R →
      ∫⁻ η, ∫⁻ W, d η A W * (fX A W z * ∫⁻ u, R (sH u η A W) ∂μU) ∂w0 ∂ρ = ∫⁻ η, ∫⁻ W, d η A W * (fX A W z * R η) ∂w0 ∂ρ := ae_all_iff.2 hη
  have hW' := ae_all_iff.2 hW
  filter_upwards [hz, hz1, hη', hW'] with A hzA hz1A hηA hWA
  have mGA : ∀ z, Measurable fun x : (H × 𝒲) × Φ => G z x.2 x.1.1 A x.1.2 := fun z =>
    (mG z).comp (f := fun x : (H × 𝒲) × Φ => (x.2, x.1.1, A, x.1.2)) (by fun_prop)
  have mTA : Measurable fun x : (H × 𝒲) × Φ => T x.2 x.1.1 A x.1.2 :=
    hT.comp (f := fun x : (H × 𝒲) × Φ => (x.2, x.1.1, A, x.1.2)) (by fun_prop)
  have mRA : ∀ z φ, Measurable fun η => ∫⁻ y', T φ η A (sW z η A y') ∂μW := fun z φ =>
    (mR z).comp (f := fun η => (φ, η, A)) (by fun_prop)
  -- generic rearrangement: sum over `z` and the integral over `φ` outermost
  have swap : ∀ Q : Z → (H × 𝒲) × Φ → ℝ≥0∞, (∀ z, Measurable (Q z)) →
      ∫⁻ η, ∫⁻ W, ∫⁻ φ, ∑' z, d η A W * (fX A W z * (fφ φ z * Q z ((η, W), φ))) ∂ν ∂w0 ∂ρ
        = ∑' z, ∫⁻ φ, fφ φ z * ∫⁻ η, ∫⁻ W, d η A W * (fX A W z * Q z ((η, W), φ)) ∂w0 ∂ρ ∂ν := by
    intro Q mQ
    have mI : ∀ z, Measurable fun x : (H × 𝒲) × Φ => d x.1.1 A x.1.2 * (fX A x.1.2 z * (fφ x.2 z * Q z x)) := by
      intro z
      have h1 : Measurable fun x : (H × 𝒲) × Φ => d x.1.1 A x.1.2 := (mdA A).comp measurable_fst
      have h2 : Measurable fun x : (H × 𝒲) × Φ => fX A x.1.2 z := (mfA z A).comp (f := fun x : (H × 𝒲) × Φ => x.1.2) (by fun_prop)
      have h3 : Measurable fun x : (H × 𝒲) × Φ => fφ x.2 z := (hfφ z).comp measurable_snd
      have h4 := mQ z
      fun_prop
    have mJ : ∀ z, Measurable fun x : (H × 𝒲) × Φ => d x.1.1 A x.1.2 * (fX A x.1.2 z * Q z x) := by
      intro z
      have h1 : Measurable fun x : (H × 𝒲) × Φ => d x.1.1 A x.1.2 := (mdA A).comp measurable_fst
      have h2 : Measurable fun x : (H × 𝒲) × Φ => fX A x.1.2 z := (mfA z A).comp (f := fun x : (H × 𝒲) × Φ => x.1.2) (by fun_prop)
      have h4 := mQ z
      fun_prop
    have e1 : ∀ η W, ∫⁻ φ, ∑' z, d η A W * (fX A W z * (fφ φ z * Q z ((η, W), φ))) ∂ν
        = ∑' z, ∫⁻ φ, d η A W * (fX A W z * (fφ φ z * Q z ((η, W), φ))) ∂ν := fun η W =>
      lintegral_tsum fun z => ((mI z).comp (f := fun φ => ((η, W), φ)) (by fun_prop)).aemeasurable
    have mI1 : ∀ z, Measurable fun x : H × 𝒲 => ∫⁻ φ, d x.1 A x.2 * (fX A x.2 z * (fφ φ z * Q z (x, φ))) ∂ν := fun z => (mI z).lintegral_prod_right'
    have e2 : ∀ η, ∫⁻ W, ∫⁻ φ, ∑' z, d η A W * (fX A W z * (fφ φ z * Q z ((η, W), φ))) ∂ν ∂w0
        = ∑' z, ∫⁻ W, ∫⁻ φ, d η A W * (fX A W z * (fφ φ z * Q z ((η, W), φ))) ∂ν ∂w0 := by
      intro η
      simp only [e1]
      exact lintegral_tsum fun z => ((mI1 z).comp (f := fun W => (η, W)) (by fun_prop)).aemeasurable
    simp only [e2]
    rw [lintegral_tsum fun z => ((mI1 z).lintegral_prod_right').aemeasurable]
    refine tsum_congr fun z => ?_
    calc ∫⁻ η, ∫⁻ W, ∫⁻ φ, d η A W * (fX A W z * (fφ φ z * Q z ((η, W), φ))) ∂ν ∂w0 ∂ρ
        = ∫⁻ x, ∫⁻ φ, d x.1 A x.2 * (fX A x.2 z * (fφ φ z * Q z (x, φ))) ∂ν ∂(ρ.prod w0) := (lintegral_prod _ (mI1 z).aemeasurable).symm
      _ = ∫⁻ φ, ∫⁻ x, d x.1 A x.2 * (fX A x.2 z * (fφ φ z * Q z (x, φ))) ∂(ρ.prod w0) ∂ν := lintegral_lintegral_swap (mI z).aemeasurable
      _ = ∫⁻ φ, fφ φ z * ∫⁻ η, ∫⁻ W, d η A W * (fX A W z * Q z ((η, W), φ)) ∂w0 ∂ρ ∂ν := by
        refine lintegral_congr fun φ => ?_
        have mφ : Measurable fun x : H × 𝒲 => d x.1 A x.2 * (fX A x.2 z * Q z (x, φ)) := (mJ z).comp (f := fun x => (x, φ)) (by fun_prop)
        rw [← lintegral_prod (fun x : H × 𝒲 => d x.1 A x.2 * (fX A x.2 z * Q z (x, φ))) mφ.aemeasurable, ← lintegral_const_mul _ mφ]
        refine lintegral_congr fun x => ?_
        ring
  -- left-hand side
  have eL : ∫⁻ η, ∫⁻ W, ∫⁻ φ, d η A W * (h φ A W * ∑' z, kz φ A W z *
        ∫⁻ y, ∫⁻ u, ∫⁻ y', T (sφ z y) (sH u η A W) A (sW z (sH u η A W) A y') ∂μW ∂μU ∂μY) ∂ν ∂w0 ∂ρ
      = ∫⁻ η, ∫⁻ W, ∫⁻ φ, ∑' z, d η A W * (fX A W z * (fφ φ z * G z φ η A W)) ∂ν ∂w0 ∂ρ := by
    refine lintegral_congr_ae ?_
    filter_upwards [hzA] with η hzη
    refine lintegral_congr fun W => ?_
    have mGW : ∀ z, Measurable fun φ => G z φ η A W := fun z => (mG z).comp (f := fun φ => (φ, η, A, W)) (by fun_prop)
    calc _ = ∫⁻ φ, ∑' z, d η A W * (fX A W z * (fφ φ z * ∫⁻ y, G z (sφ z y) η A W ∂μY)) ∂ν := by
          refine lintegral_congr_ae ?_
          filter_upwards [hzη W] with φ hzφ
          rw [← ENNReal.tsum_mul_left, ← ENNReal.tsum_mul_left]
          refine tsum_congr fun z => ?_
          have := hzφ z
          calc _ = (d η A W * (h φ A W * kz φ A W z)) * ∫⁻ y, G z (sφ z y) η A W ∂μY := by rw [hG]; ring
            _ = _ := by rw [this]; ring
      _ = ∑' z, ∫⁻ φ, d η A W * (fX A W z * (fφ φ z * ∫⁻ y, G z (sφ z y) η A W ∂μY)) ∂ν := by
          refine lintegral_tsum fun z => ?_
          have := hfφ z
          exact Measurable.aemeasurable (by fun_prop)
      _ = ∑' z, ∫⁻ φ, d η A W * (fX A W z * (fφ φ z * G z φ η A W)) ∂ν := by
          refine tsum_congr fun z => ?_
          have m1 := hfφ z
          have m2 := mGW z
          rw [lintegral_const_mul _ (by fun_prop), lintegral_const_mul _ (by fun_prop), lintegral_mul_const _ m1, ← hφ z _ m2,
            lintegral_const_mul _ (by fun_prop), lintegral_const_mul _ (by fun_prop)]
      _ = _ := by
          refine (lintegral_tsum fun z => ?_).symm
          have m1 := hfφ z
          have m2 := mGW z
          exact Measurable.aemeasurable (by fun_prop)
  have eR : ∫⁻ η, ∫⁻ W, ∫⁻ φ, d η A W * (h φ A W * T φ η A W) ∂ν ∂w0 ∂ρ
      = ∫⁻ η, ∫⁻ W, ∫⁻ φ, ∑' z, d η A W * (fX A W z * (fφ φ z * T φ η A W)) ∂ν ∂w0 ∂ρ := by
    refine lintegral_congr_ae ?_
    filter_upwards [hzA, hz1A] with η hzη hz1η
    refine lintegral_congr fun W => lintegral_congr_ae ?_
    filter_upwards [hzη W, hz1η W] with φ hzφ h1φ
    calc d η A W * (h φ A W * T φ η A W) = (d η A W * ∑' z, kz φ A W z) * (h φ A W * T φ η A W) := by rw [h1φ]
      _ = ∑' z, (d η A W * (h φ A W * kz φ A W z)) * T φ η A W := by
          rw [← ENNReal.tsum_mul_left, ← ENNReal.tsum_mul_right]
          exact tsum_congr fun z => by ring
      _ = _ := tsum_congr fun z => by rw [hzφ z]; ring
  rw [eL, eR, swap (fun z x => G z x.2 x.1.1 A x.1.2) mGA, swap (fun z x => T x.2 x.1.1 A x.1.2) fun _ => mTA]
  refine tsum_congr fun z => lintegral_congr fun φ => ?_
  congr 1
  dsimp only
  rw [hG]
  dsimp only
  rw [hηA z (fun η => ∫⁻ y', T φ η A (sW z η A y') ∂μW) (mRA z φ)]
  refine lintegral_congr_ae ?_
  filter_upwards [hWA z] with η hWη
  have mTW : Measurable fun W => T φ η A W := hT.comp (f := fun W => (φ, η, A, W)) (by fun_prop)
  have mm : Measurable fun W => d η A W * fX A W z := (mdHA A η).mul (mfA z A)
  rw [hWη _ mTW, ← lintegral_mul_const _ mm]
  exact lintegral_congr fun W => by ring

end

end PyHawkes
