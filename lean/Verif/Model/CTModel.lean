import Verif.Model.CTParents
import Verif.Model.Variational
import Verif.Model.GibbsModel
import Mathlib.Analysis.Real.Pi.Bounds

/-!
# Continuous-time model: impulse responses, their resampling, `compute_rate`, `generate`, the whole sampler
`pyhawkes/internals/impulses.py:331-424`, `pyhawkes/utils/utils.py:64-76`, `pyhawkes/models.py:1408-1871`
-/

namespace PyHawkes
open Finset

/-- `impulses.py:364-372` — `impulse(dt, k1, k2)`, with `mu = self.mu[k1,k2]`, `tau = self.tau[k1,k2]` -/
noncomputable def pyImpulse (mu tau dtMax dt : ℝ) : ℝ :=
  let Z := dt * (dtMax - dt) / dtMax * Real.sqrt (2 * Real.pi / tau)
  1 / Z * Real.exp (-tau / 2 * (pyLogit (dt / dtMax) 1 - mu) ^ 2)

/-- the arguments of `sample_nig(mu0, lmbda0, alpha0, beta0)` for one entry -/
structure NigArgs where
  mu : ℝ
  lmbda : ℝ
  alpha : ℝ
  beta : ℝ

/-- `impulses.py:392-421` — `resample(data)`: parameters of the draw for entry `(k1, k2)`; `np.nan_to_num(ss[1] / n)` is 0 when `n` is 0, like Lean's division -/
noncomputable def ctImpulseArgs (prior : NigArgs) (dl : List CTData) (k1 k2 : ℕ) : NigArgs :=
  let n := dl.foldl (fun acc d => acc + d.imp0 k1 k2) 0
  let ss1 := dl.foldl (fun acc d => acc + d.imp1 k1 k2) 0
  let xvar := dl.foldl (fun acc d => acc + d.imp2 k1 k2) 0
  let xbar := ss1 / n
  { alpha := prior.alpha + n / 2,
    beta := prior.beta + 0.5 * xvar + 0.5 * prior.lmbda * n * (xbar - prior.mu) ^ 2 / (prior.lmbda + n),
    lmbda := prior.lmbda + n,
    mu := (prior.lmbda * prior.mu + n * xbar) / (prior.lmbda + n) }

/-- `utils.py:70-76` — `sample_nig`, one entry: `tau ~ gamma(alpha0, 1/beta0)`, then `mu ~ normal(mu0, sqrt(1/(lmbda0 * tau)))`; `gam` and `normal` are the generators -/
noncomputable def sampleNig (gam : GammaArgs → ℝ) (normal : ℝ → ℝ → ℝ) (a : NigArgs) : ℝ × ℝ :=
  let tau := gam { shape := a.alpha, scale := 1 / a.beta }
  (normal a.mu (Real.sqrt (1 / (a.lmbda * tau))), tau)

open Classical in
/-- `models.py:1814-1837` — `compute_rate(S, C, T, dt)`: entry `(i, k)` for grid point `t`. `np.where` lists the pairs (grid point, event) row by row, and the fancy-indexed
`rate[t_deltas, k] += imps` reads all old values before writing, so among several events in the window of one grid point only the last write remains. -/
noncomputable def ctComputeRate (P : CTParams) (D : CTData) (t : ℝ) (k : ℕ) : ℝ :=
  let inWindow := (List.range D.N).filter fun n => 0 < t - D.S n ∧ t - D.S n < P.dtMax
  inWindow.foldl (fun _ n => P.lam0 k + pyImpulse (P.mu (D.C n) k) (P.tau (D.C n) k) P.dtMax (t - D.S n)) (P.lam0 k)

/-! ### Simulation -/

/-- an event of a simulation; `parent` (time and process of the parent, `none` for background) is bookkeeping of the model, the program does not record it -/
structure GenEvent where
  time : ℝ
  proc : ℕ
  parent : Option (ℝ × ℕ)

/-- numpy's generator, with its internal state `σ` -/
structure Rng (σ : Type) where
  poisson : ℝ → σ → ℕ × σ
  randn : σ → ℝ × σ
  rand : σ → ℝ × σ

/-- `n` successive draws -/
def drawN {σ : Type} (f : σ → ℝ × σ) : ℕ → σ → List ℝ × σ
  | 0, s => ([], s)
  | n + 1, s => let r := f s
    let rest := drawN f n r.2
    (r.1 :: rest.1, rest.2)

/-- `models.py:1606-1638` — times of the children on process `c'` of an event of process `c` at time `s`, before offspring are generated -/
noncomputable def childTimes {σ : Type} (P : CTParams) (T : ℝ) (rng : Rng σ) (s : ℝ) (c c' : ℕ) (st : σ) : List ℝ × σ :=
  let n := rng.poisson (P.W c c') st
  let x := drawN rng.randn n.1 n.2
  ((x.1.map fun z => s + P.dtMax * pyLogistic (P.mu c c' + Real.sqrt (1 / P.tau c c') * z) 1).filter (fun t => decide (t < T)), x.2)

/-- `models.py:1598-1638` — `_generate_helper(S, C, s_pa, c_pa, round)` with `fuel = max_round - round`; the lists `S`, `C` are the growing list of events.
`np.random.poisson` raises on a negative rate. -/
noncomputable def genHelper {σ : Type} (P : CTParams) (T : ℝ) (rng : Rng σ) : ℕ → ℝ → ℕ → List GenEvent × σ → Except PyErr (List GenEvent × σ)
  | 0, _, _, _ => .error .assertion
  | fuel + 1, s, c, st =>
    forListE (List.range P.K) (fun c' st =>
      if P.W c c' = 0 ∨ P.A c c' = 0 then .ok st
      else if P.W c c' < 0 then .error .value
      else
        let ch := childTimes P T rng s c c' st.2
        let out := st.1 ++ ch.1.map fun t => ⟨t, c', some (s, c)⟩
        forListE ch.1 (fun t st => genHelper P T rng fuel t c' st) (out, ch.2)) st

/-- `models.py:1640-1653` — background events and their cascades -/
noncomputable def genAll {σ : Type} (P : CTParams) (T : ℝ) (maxRound : ℕ) (rng : Rng σ) (st : σ) : Except PyErr (List GenEvent × σ) :=
  forListE (List.range P.K) (fun k st =>
    if P.lam0 k * T < 0 then .error .value
    else
      let n := rng.poisson (P.lam0 k * T) st.2
      let u := drawN rng.rand n.1 n.2
      let times := u.1.map fun x => x * T
      let out := st.1 ++ times.map fun t => ⟨t, k, none⟩
      forListE times (fun t st => genHelper P T rng maxRound t k st) (out, u.2)) ([], st)

/-- the arrays handed to `add_data` -/
noncomputable def genArgs (evs : List GenEvent) (T : ℝ) : CTArgs :=
  { nS := evs.length, S := fun n => (evs.map GenEvent.time).getD n 0, sIsArray := true, sIsFloat := true,
    nC := evs.length, C := fun n => ((evs.map GenEvent.proc).getD n 0 : ℕ), cIsArray := true, cIsInt := true, T := T, tIsFloat := true }

/-- `models.py:1588-1663` — `generate(keep, T, max_round)`. `sorter` applies `np.argsort` (any sorting permutation). `np.concatenate([])` raises when `K` is 0. The model is only changed by the final `add_data`. -/
noncomputable def ctGenerate {σ : Type} (P : CTParams) (T : ℝ) (maxRound : ℕ) (keep : Bool) (rng : Rng σ) (sorter : List GenEvent → List GenEvent)
    (dl : List CTData) (st : σ) : Except PyErr (List GenEvent × List CTData) :=
  match genAll P T maxRound rng st with
  | .error e => .error e
  | .ok r =>
    if P.K = 0 then .error .value
    else
      let evs := sorter r.1
      if keep then
        match ctAddData P.K (genArgs evs T) dl with
        | .error e => .error e
        | .ok dl' => .ok (evs, dl')
      else .ok (evs, dl)

/-! ### The sampler -/

/-- state of a continuous-time network model (`models.py:1421-1466`) -/
structure CTState where
  P : CTParams
  alpha : ℝ
  beta : ℝ
  nig : NigArgs
  net : Net
  data : List CTData

/-- the random draws of one `resample_model` call: uniforms for each data set and the schedule the threads take on data set `i` with `N` events, then the component draws -/
structure CTDraws where
  parU : ℕ → Vec ℝ
  sched : ℕ → ℕ → List ℕ
  lam : ℕ → GammaArgs → ℝ
  nigGam : ℕ → ℕ → GammaArgs → ℝ
  nigNormal : ℕ → ℕ → ℝ → ℝ → ℝ
  net : SBMOracle
  erGamma : GammaArgs → ℝ
  weight : ℕ → ℕ → GammaArgs → ℝ
  u : Mat ℝ
  parallel : Bool
  order : List ℕ

/-- `models.py:1855-1858` — `for p in self.data_list: p.resample()` -/
noncomputable def ctResampleData (P : CTParams) : (ℕ → Vec ℝ) → (ℕ → ℕ → List ℕ) → List CTData → Except PyErr (List CTData)
  | _, _, [] => .ok []
  | u, sched, D :: dl => match ctResample P (u 0) (sched 0 D.N) D with
    | .error e => .error e
    | .ok D' => match ctResampleData P (fun i => u (i + 1)) (fun i => sched (i + 1)) dl with
      | .error e => .error e
      | .ok dl' => .ok (D' :: dl')

/-- `bias.py:193-209` — `bias_model.resample(data_list)` -/
noncomputable def ctResampleBias (d : CTDraws) (s : CTState) : CTState :=
  { s with P := { s.P with lam0 := fun k => d.lam k (ctBiasArgs s.alpha s.beta s.data k) } }

/-- `impulses.py:392-424` — `impulse_model.resample(data_list)`; the two final assertions test that the draws are finite, which real numbers are -/
noncomputable def ctResampleImpulse (d : CTDraws) (s : CTState) : CTState :=
  { s with P := { s.P with
      mu := fun i j => (sampleNig (d.nigGam i j) (d.nigNormal i j) (ctImpulseArgs s.nig s.data i j)).1
      tau := fun i j => (sampleNig (d.nigGam i j) (d.nigNormal i j) (ctImpulseArgs s.nig s.data i j)).2 } }

/-- `models.py:1867` — `network.resample(data=(A, W))` -/
noncomputable def ctResampleNet (huge : ℝ) (d : CTDraws) (s : CTState) : CTState :=
  { s with net := s.net.resample huge d.net d.erGamma s.P.A s.P.W }

/-- `weights.py:658-666` — `resample_W_given_A_and_z` -/
noncomputable def ctResampleW (d : CTDraws) (s : CTState) : CTState :=
  { s with P := { s.P with W := fun i j => d.weight i j (ctWeightArgs s.net.kappa s.net.V s.P.A s.data i j) } }

/-- `weights.py:573-656` — the adjacency update -/
noncomputable def ctResampleA (d : CTDraws) (s : CTState) : CTState :=
  { s with P := { s.P with A := if d.parallel then ctParallelSweep s.P s.net.P d.u s.data d.order s.P.A else ctSerialSweep s.P s.net.P d.u s.data s.P.A } }

/-- `models.py:1849-1871` — `resample_model`. Simplification: on an exception the part of the state already written is not kept. -/
noncomputable def ctResampleModel (huge : ℝ) (d : CTDraws) (s : CTState) : Except PyErr CTState :=
  match ctResampleData s.P d.parU d.sched s.data with
  | .error e => .error e
  | .ok dl => .ok (ctResampleA d (ctResampleW d (ctResampleNet huge d (ctResampleImpulse d (ctResampleBias d { s with data := dl })))))

/-- `models.py:1421-1466`, `bias.py:157-159`, `impulses.py:347-352`, `weights.py:503-518` — constructor: every component starts with a draw given no data
(`A = ones`, `W = zeros` before that) -/
noncomputable def newCTModel (K : ℕ) (dtMax alpha beta : ℝ) (nig : NigArgs) (net : Net) (d : CTDraws) : Except PyErr CTState :=
  if net.K ≠ K then .error .assertion
  else
    let s : CTState := { P := { K := K, dtMax := dtMax, lam0 := fun _ => 0, W := fun _ _ => 0, A := fun _ _ => 1, mu := fun _ _ => 0, tau := fun _ _ => 0 },
                         alpha := alpha, beta := beta, nig := nig, net := net, data := [] }
    .ok (ctResampleA d (ctResampleW d (ctResampleImpulse d (ctResampleBias d s))))

/-- one call of the user on a continuous-time model -/
inductive CTOp : Type 1 where
  | addData (a : CTArgs)
  | generate {σ : Type} (T : ℝ) (maxRound : ℕ) (keep : Bool) (rng : Rng σ) (sorter : List GenEvent → List GenEvent) (st : σ)
  | resample (d : CTDraws)

/-- the state after one call; a call that raises leaves the state as it was (see `ctResampleModel` for the simplification) -/
noncomputable def ctStep (huge : ℝ) (s : CTState) : CTOp → CTState
  | .addData a => match ctAddData s.P.K a s.data with | .ok dl => { s with data := dl } | .error _ => s
  | .generate T maxRound keep rng sorter st => match ctGenerate s.P T maxRound keep rng sorter s.data st with | .ok r => { s with data := r.2 } | .error _ => s
  | .resample d => match ctResampleModel huge d s with | .ok s' => s' | .error _ => s

/-- run a sequence of calls -/
noncomputable def ctRun (huge : ℝ) (ops : List CTOp) (s : CTState) : CTState := ops.foldl (ctStep huge) s

end PyHawkes
