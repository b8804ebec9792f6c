import Verif.Model.MFSample

/-!
# Model of `GammaMixtureWeights.initialize_from_gibbs` (`pyhawkes/internals/weights.py:483-500`)
-/

namespace PyHawkes
open Finset

/-- `weights.py:483-500` — `initialize_from_gibbs(A, W, scale)`. `mf_kappa_0`, `mf_v_0` and `mf_v_1` become numbers, not arrays: their values are modelled here, the consequence for sampling in `sampleAfterGibbs`. -/
noncomputable def initFromGibbs (A W : Mat ℝ) (scale : ℝ) (w : MFWeights) : MFWeights :=
  { w with mfP := fun i j => 0.95 * A i j + (1 - 0.95) * (1 - A i j)
           mfKappa0 := fun _ _ => w.kappa0
           mfV0 := fun _ _ => w.nu0
           mfKappa1 := fun i j => scale * W i j
           mfV1 := fun _ _ => scale }

open Classical in
/-- `weights.py:415-422` — `resample_from_mf` while `mf_kappa_0` and `mf_v_0` are numbers: `np.random.gamma(mf_kappa_0, 1/mf_v_0)` is then a single draw (`d.spike 0 0`), broadcast to all pairs.
`mf_kappa_1` is an array, so there is one draw per pair for the present edges. -/
noncomputable def sampleAfterGibbs (K : ℕ) (d : MFDraws) (w : MFWeights) : Except PyErr (Mat ℝ × Mat ℝ) :=
  let A : Mat ℝ := fun i j => if d.u i j < w.mfP i j then 1 else 0
  if (w.spikeArgs 0 0).accepted then
    let W : Mat ℝ := fun i j => (1 - A i j) * d.spike 0 0 (w.spikeArgs 0 0)
    if ∀ i < K, ∀ j < K, (w.slabArgs i j).accepted then
      .ok (A, fun i j => W i j + A i j * d.slab i j (w.slabArgs i j))
    else .error .value
  else .error .value

end PyHawkes
