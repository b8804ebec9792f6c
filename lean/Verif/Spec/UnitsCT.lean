import Verif.Spec.CTSampler

/-!
# Specification for C109: another unit of time for the continuous-time model

Every duration (event times, observation windows, `dt_max`, the rate parameter `beta` of the background prior) is multiplied by `c`, every rate divided by `c`. Weights, edges,
the parameters `mu`, `tau` of the impulse responses (they describe lags relative to `dt_max`), labels and parents have no unit.
-/
namespace PyHawkes.Spec
open Finset

/-- the parameters in the new unit -/
noncomputable def rescaleCT (c : ℝ) (P : CTParams) : CTParams := { P with dtMax := c * P.dtMax, lam0 := fun k => P.lam0 k / c }

/-- a recording in the new unit -/
noncomputable def rescaleCTData (c : ℝ) (D : CTData) : CTData := { D with S := fun n => c * D.S n, T := c * D.T }

/-- the sampler state in the new unit -/
noncomputable def rescaleCTState (c : ℝ) (s : CTState) : CTState := { s with P := rescaleCT c s.P, beta := c * s.beta, data := s.data.map (rescaleCTData c) }

/-- the same random numbers; a background rate is drawn as in the old unit (its scale parameter is a rate) and converted -/
noncomputable def rescaleCTDraws (c : ℝ) (d : CTDraws) : CTDraws := { d with lam := fun k a => d.lam k { a with scale := c * a.scale } / c }

/-- the same recording passed to `add_data` -/
noncomputable def rescaleCTArgs (c : ℝ) (a : CTArgs) : CTArgs := { a with S := fun n => c * a.S n, T := c * a.T }

/-- a simulated event in the new unit -/
noncomputable def rescaleEvent (c : ℝ) (e : GenEvent) : GenEvent := { e with time := c * e.time, parent := e.parent.map fun q => (c * q.1, q.2) }

/-- sorting the same events, in the new unit, into the same order -/
noncomputable def rescaleSorter (c : ℝ) (f : List GenEvent → List GenEvent) : List GenEvent → List GenEvent := fun l => (f (l.map (rescaleEvent (1 / c)))).map (rescaleEvent c)

/-- the same call -/
noncomputable def rescaleCTOp (c : ℝ) : CTOp → CTOp
  | .addData a => .addData (rescaleCTArgs c a)
  | .generate T maxRound keep rng sorter st => .generate (c * T) maxRound keep rng (rescaleSorter c sorter) st
  | .resample d => .resample (rescaleCTDraws c d)

/-- No lag between two events, and no distance of a lag from the maximal lag `dtMax`, is nonzero but below 1e-8 in either of the two units: the code treats shorter ones as zero. -/
def ClearOfCutoffs (c dtMax : ℝ) (D : CTData) : Prop :=
  ∀ n < D.N, ∀ m < n, (D.S n - D.S m = 0 ∨ (1e-8 < D.S n - D.S m ∧ 1e-8 < c * (D.S n - D.S m)))
    ∧ (dtMax ≤ D.S n - D.S m ∨ (1e-8 < dtMax - (D.S n - D.S m) ∧ 1e-8 < c * (dtMax - (D.S n - D.S m))))

end PyHawkes.Spec
