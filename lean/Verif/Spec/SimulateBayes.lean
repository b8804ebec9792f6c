import Verif.Spec.Simulate
import Verif.Spec.PosteriorMixBlock
/-!
# Specification: observing data simulated by the model
-/
namespace PyHawkes.Spec
open MeasureTheory ProbabilityTheory Finset

/-- every data set of the model is what the corresponding call of `generate` with parameters `P` returns -/
def Observed {U : Type*} [MeasurableSpace U] {μ : Measure U} (Ps : PoissonSampler μ) (c : HawkesState) (P : NetParams ℝ) (x : ℕ × ℕ × ℕ → U) : Prop :=
  ∀ i (hi : i < c.data.length), Simulates P (Ps.draws x i) c.data[i].T c.data[i].S

/-- simulation settings for which training and held-out likelihood can agree: as `SimOk`, and every basis function has unit area (as all normalised bases, C03) -/
structure UnitSim (P : NetParams ℝ) : Prop extends SimOk P where
  area : ∀ b < P.B, P.dt * ∑ l ∈ range P.L, P.basis l b = 1

/-- a data set as `add_data(S)` stores it -/
structure StoredOk (P : NetParams ℝ) (D : DParents ℝ) : Prop where
  T : 0 < D.T
  F : convolve D.T P.K P.L P.B P.basis (fun t k => (D.S t k : ℝ)) = .ok D.F

/-- no event is so late that its impulse response reaches beyond the end of the recording -/
def NoLateEvents (P : NetParams ℝ) (D : DParents ℝ) : Prop := ∀ t < D.T, ∀ k < P.K, D.T < t + P.L → D.S t k = 0

/-- the seeds of the simulations are independent of each other and of the parameters, and have distribution `μ` -/
structure FreshSim {U Ω E : Type*} [MeasurableSpace U] [MeasurableSpace Ω] [MeasurableSpace E] (μ : Measure U) (Pr : Measure Ω) (past : Ω → E) (x : Ω → ℕ × ℕ × ℕ → U) : Prop where
  indep : iIndepFun (fun σ ω => x ω σ) Pr
  law : ∀ σ, HasLaw (fun ω => x ω σ) μ Pr
  fresh : IndepFun past x Pr

/-- rate parameters of a parameter value of the spike-and-slab model: `W_effective = A * W` -/
noncomputable def parSS (c : HawkesState) (θ : Theta c.base.K) : NetParams ℝ := rateParams c.base θ.1 θ.2.2.1 θ.2.2.2.1 θ.2.2.2.2

/-- rate parameters of a parameter value of the gamma-mixture model: `W_effective = W` -/
noncomputable def parMix (c : HawkesState) (θ : Theta c.base.K) : NetParams ℝ := rateParams c.base (fun _ => 1) θ.2.2.1 θ.2.2.2.1 θ.2.2.2.2

end PyHawkes.Spec

namespace PyHawkes.Spec
open Finset

/-- part of the `b`-th responses to the events of process `i` that falls behind the end of the recording -/
noncomputable def lostMass (P : NetParams ℝ) (D : DParents ℝ) (i b : ℕ) : ℝ :=
  ∑ s ∈ range D.T, (D.S s i : ℝ) * (P.dt * ∑ l ∈ range P.L, if D.T ≤ s + l then P.basis l b else 0)

/-- expected number of events triggered by the observed events after the end of the recording -/
noncomputable def cutOff (P : NetParams ℝ) (D : DParents ℝ) : ℝ :=
  ∑ j ∈ range P.K, ∑ i ∈ range P.K, P.Weff i j * ∑ b ∈ range P.B, P.g i j b * lostMass P D i b

end PyHawkes.Spec
