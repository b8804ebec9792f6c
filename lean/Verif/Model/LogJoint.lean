import Verif.Model.Distributions
import Verif.Model.GibbsModel
import Verif.Model.CTModel

/-!
# Reported log priors and log joint probabilities

`log_likelihood(x)` / `log_probability()` of `bias.py`, `weights.py`, `impulses.py`, `network.py`, and `log_prior()` / `log_probability()` of the network models
in `models.py`. `nan` and infinities are kept (`FX`), because `0 * log 0` occurs. The shape assertions on `x` are not modelled (arrays carry the object's own
extents).
-/

namespace PyHawkes
open Finset

/-- sum of a `K × K` array of floating point values (`.sum()`) -/
noncomputable def fxSum2 (K : ℕ) (f : ℕ → ℕ → FX) : FX :=
  FX.sum ((List.range K).map fun i => FX.sum ((List.range K).map fun j => f i j))

/-- `bias.py:34-39`, `:163-168` — `log_likelihood(x)` of the gamma background rates -/
noncomputable def biasLogLik (K : ℕ) (alpha beta : ℝ) (x : Vec ℝ) : FX :=
  FX.fin K * (FX.fin alpha * FX.log beta - FX.fin (gammaln alpha)) +
    FX.sum ((List.range K).map fun k => FX.fin (alpha - 1) * FX.log (x k) - FX.fin (beta * x k))

/-- the expression `kappa * np.log(v) - gammaln(kappa) + (kappa-1) * np.log(W) - v * W` of `weights.py:64-65`, `:246-250` for one pair -/
noncomputable def lpGamma (kappa v w : ℝ) : FX :=
  FX.fin kappa * FX.log v - FX.fin (gammaln kappa) + FX.fin (kappa - 1) * FX.log w - FX.fin (v * w)

/-- `weights.py:55` — `np.clip(P, 1e-32, 1-1e-32)`. The literal `1-1e-32` is the double 1.0. -/
noncomputable def clipRho (p : ℝ) : ℝ := min (max p 1e-32) 1

/-- `weights.py:41-67` — `log_likelihood((A, W))` of the spike-and-slab weights; `P`, `V`, `kappa` come from the network -/
noncomputable def ssLogLik (huge : ℝ) (K : ℕ) (kappa : ℝ) (P V A W : Mat ℝ) : FX :=
  let ll := fxSum2 K fun i j => FX.fin (A i j) * FX.log (clipRho (P i j)) + FX.fin (1 - A i j) * FX.log (1 - clipRho (P i j))
  let ll := FX.fin (FX.nanToNum huge ll)
  ll + fxSum2 K fun i j => FX.fin (A i j) * lpGamma kappa (V i j) (W i j)

/-- `weights.py:224-261` — `log_likelihood((A, W))` of the gamma-mixture weights: the two weight terms are summed over the entries selected by `[A==0]` and `[A==1]` -/
noncomputable def mixLogLik (K : ℕ) (kappa0 nu0 kappa : ℝ) (P V A W : Mat ℝ) : FX :=
  let lpA := fxSum2 K fun i j => FX.fin (A i j) * FX.log (P i j) + FX.fin (1 - A i j) * FX.log (1 - P i j)
  let lp0 := fxSum2 K fun i j => if A i j = 0 then lpGamma kappa0 nu0 (W i j) else FX.fin 0
  let lp1 := fxSum2 K fun i j => if A i j = 1 then lpGamma kappa (V i j) (W i j) else FX.fin 0
  lpA + lp0 + lp1

/-- `impulses.py:61-73` — `log_likelihood(x)` of the Dirichlet impulse responses -/
noncomputable def impLogLik (K B : ℕ) (gamma : Vec ℝ) (x : Ten ℝ) : FX :=
  let Z := ∑ b ∈ range B, gammaln (gamma b) - gammaln (∑ b ∈ range B, gamma b)
  FX.fin (K ^ 2 * Z) + fxSum2 K fun i j => FX.sum ((List.range B).map fun b => FX.fin (gamma b - 1) * FX.log (x i j b))

/-- one term of a sum (`.sum()`, `lp += ..`) whose evaluation may raise -/
noncomputable def addE (acc : FX) : Except PyErr FX → Except PyErr FX
  | .error e => .error e
  | .ok l => .ok (acc + l)

/-- `network.py:162-180` — `log_probability()` of the block model: `Beta` receives a `C × C` batch -/
noncomputable def sbmLogProb (huge : ℝ) (n : SBM) : Except PyErr FX :=
  match dirLogProb 1 n.C (fun _ => n.pi) (fun _ => n.m) 0 with
  | .error e => .error e
  | .ok lm =>
    match forListE (List.range (n.C * n.C)) (fun r acc =>
        addE acc (betaLogProb (n.C * n.C) (fun _ => n.tau1) (fun _ => n.tau0) (fun s => n.p (s / n.C) (s % n.C)) r)) (FX.fin 0) with
    | .error e => .error e
    | .ok lp =>
      .ok (FX.fin 0 + lm + lp + FX.sum ((List.range (n.C * n.C)).map fun s => FX.fin (gammaLogProb huge n.alpha n.beta (n.v (s / n.C) (s % n.C)))) +
        FX.sum ((List.range n.K).map fun k => FX.log (n.m (n.c k))))

/-- tuple unpacking `a_1, .., a_want = x` of a tuple with `have_` elements -/
def unpack (want have_ : ℕ) : Except PyErr Unit := if have_ = want then .ok () else .error .value

/-- `network.py:179-180`, `:770-783` — `log_probability()` of the block model with fixed sparsity: the inherited `log_probability` passes `(m, p, v, c)`, the overriding `log_likelihood` unpacks three -/
noncomputable def sbmFixedLogProb (huge : ℝ) (n : SBM) : Except PyErr FX :=
  match unpack 3 4 with
  | .error e => .error e
  | .ok _ => match dirLogProb 1 n.C (fun _ => n.pi) (fun _ => n.m) 0 with
    | .error e => .error e
    | .ok lm => .ok (FX.fin 0 + lm + FX.sum ((List.range (n.C * n.C)).map fun s => FX.fin (gammaLogProb huge n.alpha n.beta (n.v (s / n.C) (s % n.C)))))

/-- `network.py:963-964` — `log_probability()` of `ErdosRenyiFixedSparsity` evaluates `self.m`, which the class never sets (`:896-926`) -/
noncomputable def erLogProb (_ : ERFixed) : Except PyErr FX := .error .attribute

/-- `network.log_probability()` -/
noncomputable def Net.logProb (huge : ℝ) : Net → Except PyErr FX
  | .sbm n => sbmLogProb huge n
  | .sbmFixed n => sbmFixedLogProb huge n
  | .er n => erLogProb n

/-- `models.py:983-991` with `weights.py:69-70` — `log_prior()` of the spike-and-slab model: only the weights' term is active -/
noncomputable def logPriorSS (huge : ℝ) (s : HawkesState) : FX := FX.fin 0 + ssLogLik huge s.base.K s.net.kappa s.net.P s.net.V s.A s.W

/-- `models.py:1011-1019` — `log_probability()` of the spike-and-slab model -/
noncomputable def logProbSS (huge : ℝ) (s : HawkesState) : FX := FX.fin (llModel s.params s.data) + logPriorSS huge s

/-- `models.py:983-991` with `weights.py:263-264` — `log_prior()` of the gamma-mixture model -/
noncomputable def logPriorMix (kappa0 nu0 : ℝ) (s : HawkesState) : FX := FX.fin 0 + mixLogLik s.base.K kappa0 nu0 s.net.kappa s.net.P s.net.V s.A s.W

/-- `models.py:1011-1019` — `log_probability()` of the gamma-mixture model -/
noncomputable def logProbMix (kappa0 nu0 : ℝ) (s : HawkesState) : FX := FX.fin (llModel s.paramsMix s.data) + logPriorMix kappa0 nu0 s

/-- `models.py:1768-1776` — `log_prior()` of the continuous-time model: bias, then `weight_model.log_probability()` (`weights.py:523-524`) and
`impulse_model.log_probability()` (`impulses.py:382-390`), which both return 0 -/
noncomputable def ctLogPrior (s : CTState) : FX := FX.fin 0 + biasLogLik s.P.K s.alpha s.beta s.P.lam0 + FX.fin 0 + FX.fin 0

/-- `models.py:1799-1807` — `log_probability()` of the continuous-time model -/
noncomputable def ctLogProb (s : CTState) : FX := FX.fin (ctLogLik s.P s.data) + ctLogPrior s

end PyHawkes
