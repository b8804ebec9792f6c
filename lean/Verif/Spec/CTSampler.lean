import Verif.Spec.Sampler
import Verif.Spec.CT
import Verif.Spec.CTImpulse
import Verif.Spec.CTGenerate
import Verif.Model.CTModel
/-! # Specification: contracts of the draws and valid states of the continuous-time sampler -/
namespace PyHawkes.Spec
open Finset

/-- what numpy and the thread scheduler guarantee during one `resample_model` call (exact arithmetic) -/
structure CTDrawsOk (K C : ℕ) (d : CTDraws) : Prop where
  parU : ∀ i n, 0 ≤ d.parU i n ∧ d.parU i n < 1
  sched : ∀ i N, CompleteSchedule N (d.sched i N)
  lam : ∀ k a, 0 < a.shape → 0 < a.scale → 0 < d.lam k a
  nigGam : ∀ i j a, 0 < a.shape → 0 < a.scale → 0 < d.nigGam i j a
  net : NetDrawsOk C d.net d.erGamma
  weight : ∀ i j a, 0 < a.shape → 0 < a.scale → 0 < d.weight i j a
  unif : ∀ i j, 0 ≤ d.u i j ∧ d.u i j < 1
  order : d.order.Perm (List.range K)

/-- positive hyperparameters and window -/
structure CTHyperOk (s : CTState) : Prop where
  dtMax : 0 < s.P.dtMax
  alpha : 0 < s.alpha
  beta : 0 < s.beta
  nig : NigOk s.nig

/-- the sampled parameters are valid: rates, weights and precisions positive, edges 0 or 1, no forbidden self edge, a valid network -/
structure CTParamsOk (s : CTState) : Prop where
  lam0 : ∀ k < s.P.K, 0 < s.P.lam0 k
  tau : ∀ i < s.P.K, ∀ j < s.P.K, 0 < s.P.tau i j
  W : ∀ i < s.P.K, ∀ j < s.P.K, 0 < s.P.W i j
  A : ∀ i < s.P.K, ∀ j < s.P.K, s.P.A i j = 0 ∨ s.P.A i j = 1
  self : s.net.allowSelf = false → ∀ i < s.P.K, s.P.A i i = 0
  net : NetOk s.P.K s.net

/-- a call the theorems speak about; `add_data` calls are unrestricted: observation windows of zero or negative length cannot hold events but `T` enters the background update, so `T ≥ 0` -/
def CTOpOk (K C : ℕ) : CTOp → Prop
  | .addData a => 0 ≤ a.T
  | .generate T _ _ rng sorter _ => 0 < T ∧ RngOk rng ∧ SorterOk sorter
  | .resample d => CTDrawsOk K C d

end PyHawkes.Spec
