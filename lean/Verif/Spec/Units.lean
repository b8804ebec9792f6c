import Verif.Spec.Variational
import Verif.Spec.Sampler
import Verif.Model.Rate

/-!
# Specification for C108: another unit of time

The same model and data, with every duration multiplied by `c` (seconds to milliseconds: `c = 1000`) and every rate per unit of time divided by `c`. Counts, weights,
edges, impulse weights, the network and the assignment of events to parents have no unit.
-/
namespace PyHawkes.Spec
open Finset

/-- bin width in the new unit; background rates and basis functions (densities over lags) per new unit -/
noncomputable def rescaleParams (c : ℝ) (P : NetParams ℝ) : NetParams ℝ :=
  { P with dt := c * P.dt, lam0 := fun k => P.lam0 k / c, basis := fun l b => P.basis l b / c }

/-- the filtered counts are densities; counts and parents are not touched -/
noncomputable def rescaleData (c : ℝ) (D : DParents ℝ) : DParents ℝ := { D with F := fun t k b => D.F t k b / c }

/-- the sampler state; the rate parameter `beta` of the background rates' gamma prior is a duration -/
noncomputable def rescaleState (c : ℝ) (s : HawkesState) : HawkesState :=
  { s with base := rescaleParams c s.base, beta := c * s.beta, data := s.data.map (rescaleData c) }

/-- the same random draws: a background rate is drawn as in the old unit (its scale parameter is a rate) and then converted -/
noncomputable def rescaleDraws (c : ℝ) (d : StepDraws) : StepDraws := { d with lam := fun k a => d.lam k { a with scale := c * a.scale } / c }

/-- the same arguments of `add_data`: filtered counts passed by the caller are densities -/
noncomputable def rescaleArgs (c : ℝ) (a : AddArgs ℝ) : AddArgs ℝ := { a with F := a.F.map fun q => (q.1, q.2.1, q.2.2.1, fun t k b => q.2.2.2 t k b / c) }

/-- the same call -/
noncomputable def rescaleOp (c : ℝ) : Op → Op
  | .addData a => .addData (rescaleArgs c a)
  | .resample d => .resample (rescaleDraws c d)

/-- the constructor's arguments -/
noncomputable def rescaleModelArgs (c : ℝ) (a : ModelArgs) : ModelArgs := { a with dt := c * a.dt, basis := fun l b => a.basis l b / c, beta := c * a.beta }

/-- the variational state: the rate parameters of the gamma factors of the background rates are durations -/
noncomputable def rescaleMF (c : ℝ) (M : MFModel) : MFModel :=
  { M with bias := { M.bias with beta := c * M.bias.beta, dt := c * M.bias.dt, mfBeta := fun k => c * M.bias.mfBeta k }, data := M.data.map (rescaleData c) }

/-- number of events of the first `K` processes in a data set -/
def observedEvents (K : ℕ) (D : DParents ℝ) : ℕ := ∑ k ∈ range K, ∑ t ∈ range D.T, D.S t k

end PyHawkes.Spec
