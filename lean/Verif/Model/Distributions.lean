import Verif.Prelude.FX
import Mathlib.Analysis.SpecialFunctions.Gamma.Basic
import Mathlib.Analysis.SpecialFunctions.Gamma.Deriv

/-!
# Model of `pyhawkes/internals/distributions.py`

`gammaln` is `log ∘ Γ` and `psi` its derivative, on positive arguments.
Array-valued parameters: element `r` of the batch, last axis of length `n` where the distribution is vector valued.
-/

namespace PyHawkes
open Finset

/-- `scipy.special.gammaln` -/
noncomputable def gammaln (x : ℝ) : ℝ := Real.log (Real.Gamma x)

/-- `scipy.special.psi` -/
noncomputable def psi (x : ℝ) : ℝ := deriv gammaln x

/-! ### Gamma -/

/-- `distributions.py:104-108` — `assert np.all(alpha) >= 0`. `np.all(alpha)` is a Boolean, and both `True >= 0` and `False >= 0` hold. The
batch has `n` elements. -/
noncomputable def gammaNew (n : ℕ) (alpha beta : Vec ℝ) : Except PyErr Unit :=
  let allA : ℤ := if ∀ i < n, alpha i ≠ 0 then 1 else 0
  let allB : ℤ := if ∀ i < n, beta i ≠ 0 then 1 else 0
  if ¬ (allA ≥ 0) then .error .assertion else if ¬ (allB ≥ 0) then .error .assertion else .ok ()

/-- `distributions.py:110-120` — `Gamma.log_probability`, then `nan_to_num` -/
noncomputable def gammaLogProb (huge alpha beta lmbda : ℝ) : ℝ :=
  FX.nanToNum huge (FX.fin alpha * FX.log beta - FX.fin (gammaln alpha) + FX.fin (alpha - 1) * FX.log lmbda - FX.fin (beta * lmbda))

/-- `distributions.py:128-159` — `Gamma.negentropy` given the expectations -/
noncomputable def gammaNegent (alpha EBeta ELnBeta ELam ELnLam : ℝ) : ℝ :=
  let H := alpha * ELnBeta
  let H := H + -gammaln alpha
  let H := H + (alpha - 1) * ELnLam
  H + -EBeta * ELam

/-- `distributions.py:122-159` — `Gamma(alpha, beta).negentropy()` with default expectations -/
noncomputable def gammaNegentDefault (alpha beta : ℝ) : ℝ :=
  gammaNegent alpha beta (Real.log beta) (alpha / beta) (psi alpha - Real.log beta)

/-! ### Bernoulli and discrete -/

/-- `distributions.py:54-56` — Bernoulli constructor -/
noncomputable def bernNew (p : ℝ) : Except PyErr Unit := if 0 ≤ p ∧ p ≤ 1 then .ok () else .error .assertion

/-- `distributions.py:58-67` — `Bernoulli.log_probability`, then `nan_to_num` -/
noncomputable def bernLogProb (huge p x : ℝ) : ℝ :=
  FX.nanToNum huge (FX.fin x * FX.log p + FX.fin (1 - x) * FX.log (1 - p))

/-- `distributions.py:75-99` — `Bernoulli.negentropy` given the expectations -/
noncomputable def bernNegent (Ex Enot ELnP ELnNot : FX) : FX := Ex * ELnP + Enot * ELnNot

/-- `distributions.py:7-11` — constructor of `Discrete`; `np.allclose(p.sum(), 1)` accepts a deviation of `1e-8 + 1e-5` -/
noncomputable def discreteNew (n : ℕ) (p : Vec ℝ) : Except PyErr Unit :=
  if (∀ i < n, 0 ≤ p i) ∧ |∑ i ∈ range n, p i - 1| ≤ 1e-8 + 1e-5 then .ok () else .error .assertion

/-- `distributions.py:35-50` — `Discrete.negentropy`: `nan_to_num(E_x . E_ln_p)` -/
noncomputable def discreteNegent (huge : ℝ) (n : ℕ) (Ex : Vec ℝ) (ELnP : ℕ → FX) : ℝ :=
  FX.nanToNum huge (FX.sum ((List.range n).map fun i => FX.fin (Ex i) * ELnP i))

/-! ### Dirichlet and beta -/

/-- `distributions.py:163-165` — `assert np.all(gamma) >= 0 and gamma.shape[-1] >= 1` -/
noncomputable def dirNew (rows n : ℕ) (gamma : Mat ℝ) : Except PyErr Unit :=
  let allG : ℤ := if ∀ r < rows, ∀ i < n, gamma r i ≠ 0 then 1 else 0
  if allG ≥ 0 ∧ n ≥ 1 then .ok () else .error .assertion

/-- `distributions.py:167-170` — `Dirichlet.log_probability(x)` element `r` of the batch: `gamma.sum()` and `gammaln(gamma).sum()` have no axis
argument, so they run over the whole batch. The assertion on `x` is the `Except`. -/
noncomputable def dirLogProb (rows n : ℕ) (gamma x : Mat ℝ) (r : ℕ) : Except PyErr FX :=
  if (∀ s < rows, |∑ i ∈ range n, x s i - 1| ≤ 1e-8 + 1e-5) ∧ (∀ s < rows, ∀ i < n, 0 ≤ x s i) then
    .ok (FX.fin (gammaln (∑ s ∈ range rows, ∑ i ∈ range n, gamma s i)) - FX.fin (∑ s ∈ range rows, ∑ i ∈ range n, gammaln (gamma s i))
      + FX.sum ((List.range n).map fun i => FX.fin (gamma r i - 1) * FX.log (x r i)))
  else .error .assertion

/-- `distributions.py:201-203` — `Beta.log_probability(p)`, element `r` -/
noncomputable def betaLogProb (rows : ℕ) (tau1 tau0 p : Vec ℝ) (r : ℕ) : Except PyErr FX :=
  dirLogProb rows 2 (fun s i => if i = 0 then tau1 s else tau0 s) (fun s i => if i = 0 then p s else 1 - p s) r

/-- `distributions.py:178-191` — `Dirichlet(gamma).negentropy(E_ln_g)`. `gamma` has `rowsG` rows and `E_ln_g` `rowsE` rows of length `n`; numpy broadcasts
a single row of `gamma` over the rows of `E_ln_g`, but the normalisers are summed over the rows of `gamma` only. -/
noncomputable def dirNegent (rowsG rowsE n : ℕ) (gamma E : Mat ℝ) : ℝ :=
  let H := ∑ r ∈ range rowsG, gammaln (∑ i ∈ range n, gamma r i)
  let H := H + -∑ r ∈ range rowsG, ∑ i ∈ range n, gammaln (gamma r i)
  H + ∑ r ∈ range rowsE, ∑ i ∈ range n, (gamma (if rowsG = 1 then 0 else r) i - 1) * E r i

/-- `distributions.py:175-176` — `Dirichlet.expected_log_g` -/
noncomputable def dirELog (n : ℕ) (gamma : Vec ℝ) (i : ℕ) : ℝ := psi (gamma i) - psi (∑ i ∈ range n, gamma i)

end PyHawkes
