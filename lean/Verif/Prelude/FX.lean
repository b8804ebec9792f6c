import Mathlib.Analysis.SpecialFunctions.Log.Basic
import Verif.Prelude.Py

/-!
# Exact arithmetic extended with IEEE special values

`FX` is the real line with `nan`, `-inf` and `+inf` and the IEEE rules for them. It is used where the code can produce these values.
Rounding and overflow are not modelled.
-/

namespace PyHawkes

/-- a floating point result: not a number, an infinity or a real number -/
inductive FX where
  | nan | ninf | pinf
  | fin (x : ℝ)

namespace FX

/-- IEEE negation -/
noncomputable def neg : FX → FX
  | nan => nan
  | ninf => pinf
  | pinf => ninf
  | fin x => fin (-x)

/-- IEEE addition -/
noncomputable def add : FX → FX → FX
  | nan, _ => nan
  | _, nan => nan
  | ninf, pinf => nan
  | pinf, ninf => nan
  | ninf, _ => ninf
  | _, ninf => ninf
  | pinf, _ => pinf
  | _, pinf => pinf
  | fin x, fin y => fin (x + y)

/-- an infinity with the sign of a real; `0 * inf = nan` -/
noncomputable def infMul (x : ℝ) (pos : FX) (neg : FX) : FX := if x = 0 then nan else if 0 < x then pos else neg

/-- IEEE multiplication -/
noncomputable def mul : FX → FX → FX
  | nan, _ => nan
  | _, nan => nan
  | ninf, ninf => pinf
  | ninf, pinf => ninf
  | pinf, ninf => ninf
  | pinf, pinf => pinf
  | ninf, fin x => infMul x ninf pinf
  | fin x, ninf => infMul x ninf pinf
  | pinf, fin x => infMul x pinf ninf
  | fin x, pinf => infMul x pinf ninf
  | fin x, fin y => fin (x * y)

/-- `np.log` of a real number -/
noncomputable def log (x : ℝ) : FX := if x < 0 then nan else if x = 0 then ninf else fin (Real.log x)

/-- division of two reals by IEEE rules (the sign of zero is not modelled; a positive zero is assumed) -/
noncomputable def div (x y : ℝ) : FX := if y = 0 then (if x = 0 then nan else if 0 < x then pinf else ninf) else fin (x / y)

/-- the result is an ordinary number -/
def isFinite : FX → Prop
  | fin _ => True
  | _ => False

/-- `np.nan_to_num`: `nan` becomes 0, infinities become the largest finite double `huge` -/
noncomputable def nanToNum (huge : ℝ) : FX → ℝ
  | nan => 0
  | ninf => -huge
  | pinf => huge
  | fin x => x

/-- sum of a list, from the left -/
noncomputable def sum (l : List FX) : FX := l.foldl add (fin 0)

noncomputable instance : Add FX := ⟨add⟩
noncomputable instance : Mul FX := ⟨mul⟩
noncomputable instance : Neg FX := ⟨neg⟩
noncomputable instance : Sub FX := ⟨fun a b => add a (neg b)⟩

@[simp] theorem fin_add (x y : ℝ) : (fin x + fin y : FX) = fin (x + y) := rfl
@[simp] theorem fin_mul (x y : ℝ) : (fin x * fin y : FX) = fin (x * y) := rfl
@[simp] theorem neg_fin (x : ℝ) : (-fin x : FX) = fin (-x) := rfl
@[simp] theorem fin_sub (x y : ℝ) : (fin x - fin y : FX) = fin (x - y) := by
  show add (fin x) (neg (fin y)) = _
  simp [add, neg, sub_eq_add_neg]
theorem log_pos {x : ℝ} (h : 0 < x) : log x = fin (Real.log x) := by
  unfold log; rw [if_neg (by linarith), if_neg h.ne']
@[simp] theorem log_zero : log 0 = ninf := by unfold log; simp
@[simp] theorem isFinite_fin (x : ℝ) : isFinite (fin x) := trivial

theorem sum_fin (l : List ℝ) : sum (l.map fin) = fin l.sum := by
  unfold sum
  have : ∀ (a : ℝ), (l.map fin).foldl add (fin a) = fin (a + l.sum) := by
    induction l with
    | nil => simp
    | cons x l ih =>
      intro a
      rw [List.map_cons, List.foldl_cons, show add (fin a) (fin x) = fin (a + x) from rfl, ih, List.sum_cons, add_assoc]
  rw [this, zero_add]

/-- a sum with a `nan` or infinite term is not finite -/
theorem isFinite_add {a b : FX} : isFinite (add a b) ↔ isFinite a ∧ isFinite b := by
  cases a <;> cases b <;> simp [add, isFinite]

theorem isFinite_neg {a : FX} : isFinite (neg a) ↔ isFinite a := by cases a <;> simp [neg, isFinite]

theorem isFinite_sum {l : List FX} : isFinite (sum l) ↔ ∀ x ∈ l, isFinite x := by
  unfold sum
  have : ∀ a, isFinite (l.foldl add a) ↔ isFinite a ∧ ∀ x ∈ l, isFinite x := by
    induction l with
    | nil => simp
    | cons x l ih =>
      intro a
      rw [List.foldl_cons, ih, isFinite_add]
      simp [and_assoc]
  rw [this]
  simp

end FX
end PyHawkes
