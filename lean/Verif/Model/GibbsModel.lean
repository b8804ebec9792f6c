import Verif.Model.Network

/-!
# The whole Gibbs sampler as a state machine

`pyhawkes/models.py:528-653` (construction), `:712-753` (`add_data`), `:1190-1219` (`DiscreteTimeNetworkHawkesModelSpikeAndSlab.resample_model`),
`:1230-1271` (`DiscreteTimeNetworkHawkesModelGammaMixture.resample_model`), with the component updates of `bias.py:62-76`, `impulses.py:78-90`,
`weights.py:89-178`, `:424-482`, `network.py:213-302`, `:784-791`, `:970-981`.

All random draws of one call are collected in a record of oracles, each of which receives the arguments of the generator call.
-/

namespace PyHawkes
open Finset

/-- the network object of a model: `StochasticBlockModel` / `ErdosRenyiModel` (a block model with one block), `StochasticBlockModelFixedSparsity`,
`ErdosRenyiFixedSparsity` -/
inductive Net where
  | sbm (n : SBM)
  | sbmFixed (n : SBM)
  | er (n : ERFixed)

/-- property `P` of the network -/
noncomputable def Net.P : Net → Mat ℝ
  | .sbm n => n.P
  | .sbmFixed n => n.P
  | .er n => n.P

/-- property `V` of the network -/
noncomputable def Net.V : Net → Mat ℝ
  | .sbm n => n.V
  | .sbmFixed n => n.V
  | .er n => n.V

/-- attribute `kappa` -/
def Net.kappa : Net → ℝ
  | .sbm n => n.kappa
  | .sbmFixed n => n.kappa
  | .er n => n.kappa

/-- attribute `allow_self_connections` -/
def Net.allowSelf : Net → Bool
  | .sbm n => n.allowSelf
  | .sbmFixed n => n.allowSelf
  | .er n => n.allowSelf

/-- attribute `K` -/
def Net.K : Net → ℕ
  | .sbm n => n.K
  | .sbmFixed n => n.K
  | .er n => n.K

/-- `self.network.resample(data=(A, W))`: `network.py:293-302`, `:784-791`, `:978-981` -/
noncomputable def Net.resample (huge : ℝ) (o : SBMOracle) (erGamma : GammaArgs → ℝ) (A W : Mat ℝ) : Net → Net
  | .sbm n => .sbm (sbmResample huge o A W n)
  | .sbmFixed n => .sbmFixed (sbmFixedResample huge o A W n)
  | .er n => .er (erResample erGamma A W n)

/-- the random draws of one `resample_model` call, with the implementation choices (`useGsl`: `parents.py:219-228`; `parallel`: `weights.py:22`) and the
completion order of the worker processes -/
structure StepDraws where
  mult : ℕ → ℕ → ℕ → ℕ → Vec ℝ → Vec ℕ
  lam : ℕ → GammaArgs → ℝ
  dir : ℕ → ℕ → Vec ℝ → Vec ℝ
  net : SBMOracle
  erGamma : GammaArgs → ℝ
  weight : ℕ → ℕ → GammaArgs → ℝ
  u : Mat ℝ
  useGsl : Bool
  parallel : Bool
  order : List ℕ

/-- the state of a discrete-time network model: `base` holds `K`, `B`, `dt`, the basis, `lambda0` and `g` (its `Weff` is not used),
then the gamma prior of the bias, the Dirichlet prior of the impulse responses, the network, the weight model and the data list -/
structure HawkesState where
  base : NetParams ℝ
  alpha : ℝ
  beta : ℝ
  gamma : Vec ℝ
  net : Net
  A : Mat ℝ
  W : Mat ℝ
  data : List (DParents ℝ)

/-- `weights.py:38-40` — the parameters seen by the spike-and-slab model's rate and likelihood computations: `W_effective = A * W` -/
def HawkesState.params (s : HawkesState) : NetParams ℝ := withA s.base s.W s.A

/-- `weights.py:224-226` — the gamma-mixture model: `W_effective = W` -/
def HawkesState.paramsMix (s : HawkesState) : NetParams ℝ := { s.base with Weff := s.W }

/-- `models.py:1206-1207` — `for p in self.data_list: p.resample()`; `mult i` holds the draws for the `i`-th data set -/
noncomputable def resampleDataList (P : NetParams ℝ) (useGsl : Bool) :
    (ℕ → ℕ → ℕ → ℕ → Vec ℝ → Vec ℕ) → List (DParents ℝ) → Except PyErr (List (DParents ℝ))
  | _, [] => .ok []
  | mult, D :: dl => match resampleParents P useGsl (mult 0) D with
    | .error e => .error e
    | .ok D' => match resampleDataList P useGsl (fun i => mult (i + 1)) dl with
      | .error e => .error e
      | .ok dl' => .ok (D' :: dl')

/-- `bias.py:62-76` — `bias_model.resample(data)` -/
noncomputable def resampleBias (d : StepDraws) (s : HawkesState) : HawkesState :=
  { s with base := { s.base with lam0 := fun k => d.lam k (biasArgs s.alpha s.beta s.base.dt s.data k) } }

/-- `impulses.py:78-90` — `impulse_model.resample(data)` -/
noncomputable def resampleImpulse (d : StepDraws) (s : HawkesState) : HawkesState :=
  { s with base := { s.base with g := fun k1 k2 => d.dir k1 k2 (impulseArgs s.base.B s.gamma s.data k1 k2) } }

/-- `models.py:1216` — `network.resample(data=(A, W))` -/
noncomputable def resampleNet (huge : ℝ) (d : StepDraws) (s : HawkesState) : HawkesState :=
  { s with net := s.net.resample huge d.net d.erGamma s.A s.W }

/-- `weights.py:147-161` — `resample_W_given_A_and_z` -/
noncomputable def resampleWSS (d : StepDraws) (s : HawkesState) : HawkesState :=
  { s with W := fun k1 k2 => d.weight k1 k2 (weightArgs s.base.B s.net.kappa s.net.V s.A s.data k1 k2) }

/-- `weights.py:89-145` — `_joblib_resample_A_given_W` or `_resample_A_given_W` -/
noncomputable def resampleASS (d : StepDraws) (s : HawkesState) : HawkesState :=
  { s with A := if d.parallel then parallelSweep s.base s.W s.net.P d.u s.data d.order s.A else serialSweep s.base s.W s.net.P d.u s.data s.A }

/-- `models.py:1199-1219` — `DiscreteTimeNetworkHawkesModelSpikeAndSlab.resample_model`: parents, bias, impulse responses, network, then weights (`W` before `A`,
`weights.py:163-178`). Simplification: on an exception the part of the state already written is not kept. -/
noncomputable def resampleModelSS (huge : ℝ) (d : StepDraws) (s : HawkesState) : Except PyErr HawkesState :=
  match resampleDataList s.params d.useGsl d.mult s.data with
  | .error e => .error e
  | .ok dl => .ok (resampleASS d (resampleWSS d (resampleNet huge d (resampleImpulse d (resampleBias d { s with data := dl })))))

/-- `models.py:712-753` — `add_data` as a state change -/
noncomputable def addDataState (a : AddArgs ℝ) (s : HawkesState) : Except PyErr HawkesState :=
  match addData s.base a s.data with
  | .error e => .error e
  | .ok dl => .ok { s with data := dl }

/-- what a constructor is given: sizes, basis and hyperparameters, and a network object -/
structure ModelArgs where
  K : ℕ
  B : ℕ
  dt : ℝ
  L : ℕ
  basis : Mat ℝ
  lenIsInt : Bool
  alpha : ℝ
  beta : ℝ
  gamma : Vec ℝ
  net : Net
  allowInstantaneous : Bool

/-- the components before their first draw: `lambda0`, `g` uninitialised (`np.empty`), `A = ones`, `W = zeros`, no data -/
def emptyState (a : ModelArgs) : HawkesState :=
  { base := { K := a.K, B := a.B, dt := a.dt, lam0 := fun _ => 0, Weff := fun _ _ => 0, g := fun _ _ _ => 0, L := a.L, basis := a.basis, lenIsInt := a.lenIsInt },
    alpha := a.alpha, beta := a.beta, gamma := a.gamma, net := a.net, A := fun _ _ => 1, W := fun _ _ => 0, data := [] }

/-- `models.py:557-636` with `bias.py:29-31`, `impulses.py:45-47`, `weights.py:33-36` — constructor of the spike-and-slab model: check that instantaneous self
connections are excluded; every component starts with a draw given no data (`A = ones`, `W = zeros` before that) -/
noncomputable def newModelSS (a : ModelArgs) (d : StepDraws) : Except PyErr HawkesState :=
  if a.net.K ≠ a.K then .error .assertion
  else if a.allowInstantaneous && a.net.allowSelf then .error .assertion
  else
    .ok (resampleASS d (resampleWSS d (resampleImpulse d (resampleBias d
      (emptyState a)))))

/-! ### Gamma-mixture model -/

/-- `weights.py:424-466` — `_resample_A` -/
noncomputable def resampleAMix (kappa0 nu0 : ℝ) (d : StepDraws) (s : HawkesState) : HawkesState :=
  { s with A := mixA s.base.B kappa0 nu0 s.net.kappa s.net.V s.net.P d.u s.data }

/-- `weights.py:468-482` — `_resample_W_given_A`, with the final `np.clip(W, 1e-32, inf)` -/
noncomputable def resampleWMix (kappa0 nu0 : ℝ) (d : StepDraws) (s : HawkesState) : HawkesState :=
  { s with W := fun k1 k2 => max (d.weight k1 k2 (mixWArgs s.base.B kappa0 nu0 s.net.kappa s.net.V s.A s.data k1 k2)) 1e-32 }

/-- `models.py:1251-1271` — `DiscreteTimeNetworkHawkesModelGammaMixture.resample_model(resample_network)`: weights before the network -/
noncomputable def resampleModelMix (huge kappa0 nu0 : ℝ) (resampleNetwork : Bool) (d : StepDraws) (s : HawkesState) : Except PyErr HawkesState :=
  match resampleDataList s.paramsMix d.useGsl d.mult s.data with
  | .error e => .error e
  | .ok dl =>
    let s := resampleWMix kappa0 nu0 d (resampleAMix kappa0 nu0 d (resampleImpulse d (resampleBias d { s with data := dl })))
    .ok (if resampleNetwork then resampleNet huge d s else s)

/-- constructor of the gamma-mixture model (`models.py:557-636`, `weights.py:180-222`) -/
noncomputable def newModelMix (kappa0 nu0 : ℝ) (a : ModelArgs) (d : StepDraws) : Except PyErr HawkesState :=
  if a.net.K ≠ a.K then .error .assertion
  else if a.allowInstantaneous && a.net.allowSelf then .error .assertion
  else
    .ok (resampleWMix kappa0 nu0 d (resampleAMix kappa0 nu0 d (resampleImpulse d (resampleBias d
      (emptyState a)))))

/-- one call of the user on a model -/
inductive Op where
  | addData (a : AddArgs ℝ)
  | resample (d : StepDraws)

/-- run a sequence of calls on the spike-and-slab model; a call that raises leaves the state as it was (only `add_data` can raise before it changed
anything: `models.py:712-753` appends last; for `resample_model` see the theorem that it never raises) -/
noncomputable def runSS (huge : ℝ) : List Op → HawkesState → HawkesState
  | [], s => s
  | .addData a :: ops, s => runSS huge ops (match addDataState a s with | .ok s' => s' | .error _ => s)
  | .resample d :: ops, s => runSS huge ops (match resampleModelSS huge d s with | .ok s' => s' | .error _ => s)

/-- the same for the gamma-mixture model -/
noncomputable def runMix (huge kappa0 nu0 : ℝ) : List (Op × Bool) → HawkesState → HawkesState
  | [], s => s
  | (.addData a, _) :: ops, s => runMix huge kappa0 nu0 ops (match addDataState a s with | .ok s' => s' | .error _ => s)
  | (.resample d, b) :: ops, s => runMix huge kappa0 nu0 ops (match resampleModelMix huge kappa0 nu0 b d s with | .ok s' => s' | .error _ => s)

end PyHawkes
