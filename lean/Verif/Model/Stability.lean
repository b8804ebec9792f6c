import Verif.Model.Rate
import Mathlib.LinearAlgebra.Matrix.Charpoly.Basic
import Mathlib.Analysis.Complex.Basic
import Mathlib.Data.Complex.Basic
import Mathlib.Algebra.Polynomial.Roots

/-!
# `check_stability` (`pyhawkes/models.py:201-215`, `:755-771`, `:1666-1683`) and the parameter tuples (`:855-900`)
-/

namespace PyHawkes
open Finset

/-- a `K × K` array as a complex matrix -/
noncomputable def cMat (K : ℕ) (W : Mat ℝ) : Matrix (Fin K) (Fin K) ℂ := Matrix.of fun i j => ((W i j : ℝ) : ℂ)

/-- `np.linalg.eigvals(W)`: the roots of the characteristic polynomial, with multiplicity (exact arithmetic; the order does not matter below) -/
noncomputable def eigvals (K : ℕ) (W : Mat ℝ) : List ℂ := (cMat K W).charpoly.roots.toList

/-- `np.amax` of a list of real numbers; raises `ValueError` on an empty list -/
def npAmax : List ℝ → Except PyErr ℝ
  | [] => .error .value
  | x :: xs => .ok (xs.foldl max x)

/-- numpy's `z < 1.0` for a complex `z`: lexicographic on (real part, imaginary part) -/
def complexLtOne (z : ℂ) : Prop := z.re < 1 ∨ (z.re = 1 ∧ z.im < 0)

open Classical in
/-- `models.py:755-771` — `check_stability` of the discrete-time network models (`:1666-1683`, the continuous-time model, is the same code). `sparseEigs` is the outcome of `scipy.sparse.linalg.eigs(W, k=1)`, used from 100 processes on. -/
noncomputable def checkStability (sparseEigs : ℕ → Mat ℝ → ℂ) (K : ℕ) (Weff : Mat ℝ) : Except PyErr Bool :=
  if K < 100 then
    match npAmax ((eigvals K Weff).map Complex.re) with
    | .error e => .error e
    | .ok maxeig => .ok (decide (maxeig < 1))
  else .ok (decide (complexLtOne (sparseEigs K Weff)))

/-! ### Parameter tuples -/

/-- a Python value in a parameter tuple: arrays of one, two, three dimensions with their shapes, or something else -/
inductive PVal where
  | vec (n : ℕ) (v : Vec ℝ)
  | mat (n m : ℕ) (v : Mat ℝ)
  | ten (n m l : ℕ) (v : Ten ℝ)
  | other

/-- the parameters of a network model with all attributes that `get_parameters` / `set_parameters` touch -/
structure ParamState where
  K : ℕ
  B : ℕ
  A : PVal
  W : PVal
  g : PVal
  lambda0 : PVal
  c : PVal
  p : PVal
  v : PVal
  m : PVal

/-- `models.py:855-865` — `get_parameters()`: a tuple of six values -/
def getParameters (s : ParamState) : List PVal := [s.A, s.W, s.g, s.lambda0, s.p, s.v]

open Classical in
/-- `models.py:867-900` — `set_parameters(params)`: unpacks eight values -/
noncomputable def setParameters (params : List PVal) (s : ParamState) : Except PyErr ParamState :=
  match params with
  | [A, W, beta, lambda0, c, p, v, m] =>
    if ¬ ∃ a, A = .mat s.K s.K a then .error .assertion
    else if ¬ ∃ w : Mat ℝ, W = .mat s.K s.K w ∧ ∀ i < s.K, ∀ j < s.K, 0 ≤ w i j then .error .assertion
    else if ¬ ∃ g : Ten ℝ, beta = .ten s.K s.K s.B g ∧ ∀ i < s.K, ∀ j < s.K, |∑ b ∈ range s.B, g i j b - 1| ≤ 1e-8 + 1e-5 * 1 then .error .assertion
    else if ¬ ∃ l : Vec ℝ, lambda0 = .vec s.K l ∧ ∀ i < s.K, 0 ≤ l i then .error .assertion
    else .ok { s with A := A, W := W, g := beta, lambda0 := lambda0, c := c, p := p, v := v, m := m }
  | _ => .error .value

end PyHawkes
