import Verif.Model.Distributions

/-!
# Remaining helpers of `pyhawkes/internals/distributions.py`: `Discrete.log_probability`, expectations of `Dirichlet` and `Beta`
-/

namespace PyHawkes
open Finset

/-- the argument of `Discrete.log_probability`: a Python integer, a numpy integer (a zero-dimensional array scalar), or a one-dimensional array with its dtype (integer or not) -/
inductive DiscArg where
  | pyInt (i : ℤ)
  | npInt (i : ℤ)
  | array (isInt : Bool) (x : List ℝ)

/-- `distributions.py:13-14` — `_is_one_hot`: `x.shape == (D,) and x.dtype == np.int and x.sum() == 1`; a Python integer has no `shape`. (`np.int` is the Python type of numpy
versions that still had it.) -/
noncomputable def discIsOneHot (D : ℕ) : DiscArg → Except PyErr Bool
  | .pyInt _ => .error .attribute
  | .npInt _ => .ok false
  | .array isInt x => .ok (decide (x.length = D) && isInt && decide (x.sum = 1))

/-- `distributions.py:16-17` — `_isindex`: `isinstance(x, int) and x >= 0 and x < D`; numpy integers are not `int` -/
def discIsIndex (D : ℕ) : DiscArg → Bool
  | .pyInt i => decide (0 ≤ i ∧ i < D)
  | _ => false

/-- `distributions.py:24, 26` — the value once the argument was accepted as one-hot (`x.dot(np.log(p))`) or as index (`np.log(p[x])`) -/
noncomputable def discValue (p : Vec ℝ) : DiscArg → FX
  | .pyInt i => FX.log (p i.toNat)
  | .npInt i => FX.log (p i.toNat)
  | .array _ x => FX.sum ((List.range x.length).map fun i => FX.fin (x.getD i 0) * FX.log (p i))

/-- `distributions.py:19-30` — `Discrete(p).log_probability(x)` -/
noncomputable def discLogProb (D : ℕ) (p : Vec ℝ) (x : DiscArg) : Except PyErr FX :=
  match discIsOneHot D x with
  | .error e => .error e
  | .ok b =>
    if b || discIsIndex D x then .ok (discValue p x)
    else .error .assertion

/-- `distributions.py:172-173` — `Dirichlet.expected_g`, one row -/
noncomputable def dirEG (n : ℕ) (gamma : Vec ℝ) (i : ℕ) : ℝ := gamma i / ∑ j ∈ range n, gamma j

/-- `distributions.py:195-199` — the two columns of the parameter of `Beta` -/
def betaGamma (tau1 tau0 : ℝ) : Vec ℝ := fun i => if i = 0 then tau1 else tau0

/-- `distributions.py:205-207` — `Beta.expected_p` -/
noncomputable def betaEP (tau1 tau0 : ℝ) : ℝ := dirEG 2 (betaGamma tau1 tau0) 0
/-- `distributions.py:209-211` — `Beta.expected_log_p` -/
noncomputable def betaELogP (tau1 tau0 : ℝ) : ℝ := dirELog 2 (betaGamma tau1 tau0) 0
/-- `distributions.py:213-215` — `Beta.expected_log_notp` -/
noncomputable def betaELogNotP (tau1 tau0 : ℝ) : ℝ := dirELog 2 (betaGamma tau1 tau0) 1

end PyHawkes
