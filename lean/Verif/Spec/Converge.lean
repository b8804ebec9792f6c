import Mathlib.MeasureTheory.Measure.Real
import Mathlib.MeasureTheory.Integral.Bochner.Basic
import Verif.Model.Network

/-!
# What it means that a sampler converges to its target
-/
namespace PyHawkes.Spec
open MeasureTheory

/-- the laws `m 0, m 1, …` converge to `π` in total variation: for every tolerance, from some point on the two give every event the same probability up to that tolerance -/
def ConvergesTV {E : Type*} [MeasurableSpace E] (m : ℕ → Measure E) (π : Measure E) : Prop :=
  ∀ ε : ℝ, 0 < ε → ∃ N, ∀ t, N ≤ t → ∀ B, MeasurableSet B → |(m t).real B - π.real B| ≤ ε

/-- the weight scale of the network is learned (hyperparameters `alpha`, `beta` given and nonzero), or `v` is the fixed scale of the network -/
def ScaleOk (n : ERFixed) (v : ℝ) : Prop := v = n.v ∨ ∃ a b, n.alpha = some a ∧ n.beta = some b ∧ a ≠ 0 ∧ b ≠ 0

/-- Sample averages converge to expectations under `π`: for every real-valued function `f` of the parameters whose expectation under `π` exists, every burn-in `b` and every tolerance `ε`,
the average of `f` over the `n` states after the burn-in is, except with probability at most `ε`, closer than `ε` to the expectation, as soon as `n` is large enough. -/
def AveragesConverge {Ω E : Type*} [MeasurableSpace Ω] [MeasurableSpace E] (Pr : Measure Ω) (X : ℕ → Ω → E) (π : Measure E) : Prop :=
  ∀ f : E → ℝ, Measurable f → Integrable f π → ∀ (b : ℕ) (ε : ℝ), 0 < ε →
    ∃ N, ∀ n, N ≤ n → Pr.real {ω | ε ≤ |(∑ t ∈ Finset.range n, f (X (b + t) ω)) / n - ∫ θ, f θ ∂π|} ≤ ε

end PyHawkes.Spec
