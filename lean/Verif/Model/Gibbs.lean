import Verif.Model.DParents
import Verif.Prelude.EFloat
import Mathlib.Analysis.SpecialFunctions.Gamma.Basic

/-!
# Gibbs updates of the discrete-time network model
`pyhawkes/internals/bias.py:62-76`, `impulses.py:78-90`, `weights.py:89-178`, `weights.py:424-482`,
`parallel_adjacency_resampling.py:17-82`.

Random draws are oracles. What the model records of a draw are the parameters the generator is called with.
-/

namespace PyHawkes
open Finset

/-- the arguments of `np.random.gamma(shape, scale)` -/
structure GammaArgs where
  shape : ℝ
  scale : ℝ

/-- `np.zeros(..) + sum([f(d) for d in data])`, one entry (`bias.py:69-70`, `weights.py:152-153`, `impulses.py:83-84`);
Python's `sum` starts from the integer 0 and adds from the left -/
noncomputable def ssSum (dl : List (DParents ℝ)) (f : DParents ℝ → ℝ) : ℝ :=
  0 + dl.foldl (fun acc d => acc + f d) 0

/-! ### Background rates -/

/-- `bias.py:69-76` — arguments of the gamma draw for `lambda0[k]`: `gamma(alpha + ss[0], 1/(beta + ss[1]))` -/
noncomputable def biasArgs (alpha beta dt : ℝ) (dl : List (DParents ℝ)) (k : ℕ) : GammaArgs :=
  let ss0 := ssSum dl fun d => (bkgdSS0 d k : ℝ)
  let ss1 := ssSum dl fun d => bkgdSS1 d dt k
  { shape := alpha + ss0, scale := 1 / (beta + ss1) }

/-! ### Impulse responses -/

/-- `impulses.py:83-90` — argument `alpha_post` of the Dirichlet draw for `g[k1,k2,:]` -/
noncomputable def impulseArgs (B : ℕ) (gamma : Vec ℝ) (dl : List (DParents ℝ)) (k1 k2 : ℕ) : Vec ℝ := fun b =>
  gamma b + ssSum dl fun d => (irSS d B k1 k2 b : ℝ)

/-! ### Spike-and-slab weights -/

/-- `weights.py:152-161` — arguments of the gamma draw for `W[k1,k2]`; `ss[1] *= A` -/
noncomputable def weightArgs (B : ℕ) (kappa : ℝ) (V A : Mat ℝ) (dl : List (DParents ℝ)) (k1 k2 : ℕ) : GammaArgs :=
  let ss0 := ssSum dl fun d => (weightSS0 d B k1 k2 : ℝ)
  let ss1 := (ssSum dl fun d => (weightSS1 d k1 k2 : ℝ)) * A k1 k2
  { shape := kappa + ss0, scale := 1 / (V k1 k2 + ss1) }

/-- `weights.py:38-40` — the parameters with `W_effective = A * W` -/
def withA (P : NetParams ℝ) (W A : Mat ℝ) : NetParams ℝ := { P with Weff := fun i j => A i j * W i j }

/-- `weights.py:136-145`, `parallel_adjacency_resampling.py:71-80` — decide an edge from the two log likelihoods, the prior
probability and a uniform draw: `np.log(u) < lp1 - logsumexp([lp0, lp1])` -/
noncomputable def edgeDraw (ll0 ll1 p u : ℝ) : ℝ :=
  let lp0 : EReal := (ll0 : EReal) + npLog (1 - p)
  let lp1 : EReal := (ll1 : EReal) + npLog p
  let Z := logsumexp2 lp0 lp1
  if npLog u < lp1 - Z then 1 else 0

/-- `weights.py:126-145` — serial update of one entry: evaluate with the entry set to 0, then to 1, then write the draw -/
noncomputable def serialSite (P : NetParams ℝ) (W p u : Mat ℝ) (dl : List (DParents ℝ)) (k1 k2 : ℕ) (A : Mat ℝ) : Mat ℝ :=
  let A := Mat.set A k1 k2 0
  let ll0 := dl.foldl (fun acc d => acc + llSingle (withA P W A) d k2) 0
  let A := Mat.set A k1 k2 1
  let ll1 := dl.foldl (fun acc d => acc + llSingle (withA P W A) d k2) 0
  Mat.set A k1 k2 (edgeDraw ll0 ll1 (p k1 k2) (u k1 k2))

/-- `weights.py:115-145` — `_resample_A_given_W`: the serial double loop. `u k1 k2` is the uniform draw used for the entry
(the draws are independent, so naming them by entry loses nothing). `self.model` is never `None` here. -/
noncomputable def serialSweep (P : NetParams ℝ) (W p u : Mat ℝ) (dl : List (DParents ℝ)) (A : Mat ℝ) : Mat ℝ :=
  forRange P.K (fun k1 A => forRange P.K (fun k2 A => serialSite P W p u dl k1 k2 A) A) A

/-- `parallel_adjacency_resampling.py:17-37` — `_log_likelihood_single_process`, taking the effective weights of one column -/
noncomputable def llSinglePar (P : NetParams ℝ) (D : DParents ℝ) (k2 : ℕ) (Wk2 : Vec ℝ) : ℝ :=
  let ll : ℝ := 0
  let ll := ll + -(P.lam0 k2) * D.T * P.dt
  let ll := ll + -(∑ k1 ∈ range P.K, Wk2 k1 * D.Ns k1)
  let lam : Mat ℝ → ℝ := fun f => P.lam0 k2 + ∑ k1 ∈ range P.K, ∑ b ∈ range P.B, Wk2 k1 * P.g k1 k2 b * f k1 b
  ll + (((D.Ss k2).zip (D.Fs k2)).map fun p => (p.1 : ℝ) * Real.log (lam p.2)).sum

/-- `parallel_adjacency_resampling.py:50-80` (and `:117-150` for continuous time) — one iteration of the loop over `k1` of a worker
that owns one column; `ll` evaluates the log likelihood of the column -/
noncomputable def colSite (ll : Vec ℝ → ℝ) (p u : Vec ℝ) (k1 : ℕ) (Acol : Vec ℝ) : Vec ℝ :=
  if p k1 = 0 then Vec.set Acol k1 0
  else if p k1 = 1 then Vec.set Acol k1 1
  else
    let Acol := Vec.set Acol k1 0
    let ll0 := ll Acol
    let Acol := Vec.set Acol k1 1
    let ll1 := ll Acol
    Vec.set Acol k1 (edgeDraw ll0 ll1 (p k1) (u k1))

/-- `parallel_adjacency_resampling.py:39-82` — `_resample_column_of_A(k2)`: a worker's result, computed from the model's current `A` -/
noncomputable def resampleColumn (P : NetParams ℝ) (W p u : Mat ℝ) (dl : List (DParents ℝ)) (A : Mat ℝ) (k2 : ℕ) : Vec ℝ :=
  let ll : Vec ℝ → ℝ := fun Acol => dl.foldl (fun acc d => acc + llSinglePar P d k2 (fun k1 => Acol k1 * W k1 k2)) 0
  forRange P.K (colSite ll (fun k1 => p k1 k2) (fun k1 => u k1 k2)) (fun k1 => A k1 k2)

/-- `weights.py:89-113` — `_joblib_resample_A_given_W`. The workers finish in the order `order`; joblib stores each result in the slot of
its task, and `np.array(A_cols).T` puts slot `k2` in column `k2`. With no data, `A = rand(K,K) < P`. -/
noncomputable def parallelSweep (P : NetParams ℝ) (W p u : Mat ℝ) (dl : List (DParents ℝ)) (order : List ℕ) (A : Mat ℝ) : Mat ℝ :=
  if dl.length = 0 then fun k1 k2 => if u k1 k2 < p k1 k2 then 1 else 0
  else
    let slots : ℕ → Vec ℝ := order.foldl (fun s k2 => fun j => if j = k2 then resampleColumn P W p u dl A k2 else s j) (fun _ _ => 0)
    fun k1 k2 => slots k2 k1

/-! ### Gamma-mixture weights -/

/-- `weights.py:441-466` — `_resample_A`: log marginal likelihood of a component with shape `kappa`, rate `v`, given the two statistics -/
noncomputable def mixLp (kappa v ss0 ss1 : ℝ) : ℝ :=
  let lp := kappa * Real.log v - Real.log (Real.Gamma kappa)
  lp + (Real.log (Real.Gamma (kappa + ss0)) - (kappa + ss0) * Real.log (v + ss1))

/-- `weights.py:424-466` — the new `A[k1,k2]` -/
noncomputable def mixA (B : ℕ) (kappa0 nu0 kappa : ℝ) (V p u : Mat ℝ) (dl : List (DParents ℝ)) (k1 k2 : ℕ) : ℝ :=
  let ss0 := ssSum dl fun d => (weightSS0 d B k1 k2 : ℝ)
  let ss1 := ssSum dl fun d => (weightSS1 d k1 k2 : ℝ)
  edgeDraw (mixLp kappa0 nu0 ss0 ss1) (mixLp kappa (V k1 k2) ss0 ss1) (p k1 k2) (u k1 k2)

/-- `weights.py:468-480` — arguments of the gamma draw for `W[k1,k2]` given the new `A` -/
noncomputable def mixWArgs (B : ℕ) (kappa0 nu0 kappa : ℝ) (V A : Mat ℝ) (dl : List (DParents ℝ)) (k1 k2 : ℕ) : GammaArgs :=
  let ss0 := ssSum dl fun d => (weightSS0 d B k1 k2 : ℝ)
  let ss1 := ssSum dl fun d => (weightSS1 d k1 k2 : ℝ)
  let kappaPrior := kappa0 * (1 - A k1 k2) + kappa * A k1 k2
  let vPrior := nu0 * (1 - A k1 k2) + V k1 k2 * A k1 k2
  { shape := kappaPrior + ss0, scale := 1 / (vPrior + ss1) }

end PyHawkes
