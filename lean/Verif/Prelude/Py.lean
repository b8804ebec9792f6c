import Mathlib.Algebra.BigOperators.Intervals
import Mathlib.Algebra.BigOperators.Ring.Finset
import Mathlib.Algebra.Order.BigOperators.Group.Finset
import Mathlib.Algebra.Order.Field.Basic
import Mathlib.Algebra.Order.Floor.Semiring
import Mathlib.Tactic.Ring
import Mathlib.Tactic.Linarith
import Mathlib.Tactic.FieldSimp
import Mathlib.Tactic.NormNum
import Mathlib.Tactic.Positivity

/-!
# Python / numpy basics shared by the whole model

Exceptions are values, arrays are index functions whose extents are passed separately, loops are folds.
-/

namespace PyHawkes

open Finset

/-- The Python exceptions that the modelled code can raise. `silentNan` is not an exception in Python: it marks
the executions in which numpy divides by zero and carries on with `nan`/`inf`, so that no theorem can profit
from Lean's convention `x / 0 = 0`. -/
inductive PyErr where
  | assertion | value | type | index | attribute | axis | exception | notImplemented | silentNan
  deriving DecidableEq, Repr

/-- one-dimensional array -/
abbrev Vec (R : Type*) := ℕ → R
/-- two-dimensional array -/
abbrev Mat (R : Type*) := ℕ → ℕ → R
/-- three-dimensional array -/
abbrev Ten (R : Type*) := ℕ → ℕ → ℕ → R

/-- `for i in range(n): s = f(i, s)` -/
def forRange {σ : Type*} (n : ℕ) (f : ℕ → σ → σ) (s : σ) : σ :=
  (List.range n).foldl (fun s i => f i s) s

@[simp] theorem forRange_zero {σ : Type*} (f : ℕ → σ → σ) (s : σ) : forRange 0 f s = s := rfl

theorem forRange_succ {σ : Type*} (n : ℕ) (f : ℕ → σ → σ) (s : σ) :
    forRange (n + 1) f s = f n (forRange n f s) := by
  simp [forRange, List.range_succ]

/-- Loop rule: an invariant established at entry and kept by every iteration holds at exit. -/
theorem forRange_induct {σ : Type*} (P : ℕ → σ → Prop) (n : ℕ) (f : ℕ → σ → σ) (s : σ)
    (h0 : P 0 s) (hs : ∀ i, i < n → ∀ s, P i s → P (i + 1) (f i s)) : P n (forRange n f s) := by
  induction n with
  | zero => simpa
  | succ n ih =>
    rw [forRange_succ]
    exact hs n (Nat.lt_succ_self n) _ (ih (fun i hi => hs i (Nat.lt_succ_of_lt hi)))

/-- `acc += g(i)` in a loop is a finite sum. -/
theorem forRange_add {M : Type*} [AddCommMonoid M] (n : ℕ) (g : ℕ → M) (a : M) :
    forRange n (fun i acc => acc + g i) a = a + ∑ i ∈ range n, g i := by
  induction n with
  | zero => simp
  | succ n ih => rw [forRange_succ, ih, sum_range_succ, add_assoc]

/-- `for x in xs: s = f(x, s)`, where the body may raise. -/
def forListE {α σ : Type*} (xs : List α) (f : α → σ → Except PyErr σ) (s : σ) : Except PyErr σ :=
  match xs with
  | [] => .ok s
  | x :: xs => match f x s with
    | .error e => .error e
    | .ok s' => forListE xs f s'

/-- write one cell of a vector -/
def Vec.set {R : Type*} (v : Vec R) (i : ℕ) (x : R) : Vec R := fun j => if j = i then x else v j

/-- write one cell of a matrix -/
def Mat.set {R : Type*} (m : Mat R) (i j : ℕ) (x : R) : Mat R :=
  fun a b => if a = i ∧ b = j then x else m a b

end PyHawkes
