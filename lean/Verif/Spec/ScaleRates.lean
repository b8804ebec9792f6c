import Verif.Spec.Units
import Verif.Model.DParents
import Verif.Model.CTParents

/-!
# Specification for C114: adding events and scaling the rates

Multiplying all background rates and all weights by one factor; the number of events that the parameters predict for a recording; adding two recordings bin by bin.
-/
namespace PyHawkes.Spec
open Finset

/-- all background rates and weights multiplied by `c` -/
def scaleParams (c : ℝ) (P : NetParams ℝ) : NetParams ℝ := { P with lam0 := fun k => c * P.lam0 k, Weff := fun i j => c * P.Weff i j }

/-- all background rates and weights multiplied by `c`, continuous time -/
def scaleCT (c : ℝ) (P : CTParams) : CTParams := { P with lam0 := fun k => c * P.lam0 k, W := fun i j => c * P.W i j }

/-- the events of two recordings together -/
def together {R : Type*} [Add R] (S S' : Mat R) : Mat R := fun t k => S t k + S' t k

/-- what the parameters predict for a recording: background rate times duration, plus the weight of every event onto every process -/
def predicted (P : NetParams ℝ) (D : DParents ℝ) : ℝ := ∑ k ∈ range P.K, (P.lam0 k * (D.T * P.dt) + ∑ t ∈ range D.T, ∑ i ∈ range P.K, P.Weff i k * (D.S t i : ℝ))

/-- the same in continuous time, where every event has one process -/
noncomputable def predictedCT (P : CTParams) (D : CTData) : ℝ := ∑ k ∈ range P.K, P.lam0 k * D.T + ∑ n ∈ range D.N, ∑ k ∈ range P.K, P.A (D.C n) k * P.W (D.C n) k

end PyHawkes.Spec
