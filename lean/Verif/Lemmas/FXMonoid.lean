import Verif.Prelude.FX

/-! # IEEE special values form a commutative monoid under addition (in exact arithmetic) -/
namespace PyHawkes
namespace FX

theorem add_def (a b : FX) : a + b = FX.add a b := rfl

theorem add_assoc' (a b c : FX) : a + b + c = a + (b + c) := by
  simp only [add_def]
  cases a <;> cases b <;> cases c <;> simp [FX.add, add_assoc]

theorem add_comm' (a b : FX) : a + b = b + a := by
  simp only [add_def]
  cases a <;> cases b <;> simp [FX.add, add_comm]

theorem zero_add' (a : FX) : FX.fin 0 + a = a := by
  simp only [add_def]
  cases a <;> simp [FX.add]

noncomputable instance : Zero FX := ⟨FX.fin 0⟩

noncomputable instance : AddCommMonoid FX where
  add_assoc := add_assoc'
  add_comm := add_comm'
  zero_add := zero_add'
  add_zero a := by rw [add_comm']; exact zero_add' a
  nsmul := nsmulRec

theorem zero_def : (0 : FX) = FX.fin 0 := rfl

theorem sum_eq (l : List FX) : FX.sum l = l.sum := by
  unfold FX.sum
  have : ∀ a, l.foldl FX.add a = a + l.sum := by
    induction l with
    | nil => intro a; simp
    | cons x l ih =>
      intro a
      rw [List.foldl_cons, ih, List.sum_cons, show FX.add a x = a + x from rfl, add_assoc]
  rw [this]
  exact zero_add' _

theorem fin_list_sum (l : List ℝ) : (l.map fin).sum = fin l.sum := by rw [← sum_eq, sum_fin]

/-- shifting every term by a number shifts the sum -/
theorem sum_shift {α : Type*} (l : List α) (f : α → FX) (d : α → ℝ) :
    (l.map fun a => f a + fin (d a)).sum = (l.map f).sum + fin (l.map d).sum := by
  induction l with
  | nil => simp [← zero_def]
  | cons a l ih =>
    simp only [List.map_cons, List.sum_cons, ih, ← fin_add]
    exact add_add_add_comm _ _ _ _

theorem exists_fin {x : FX} (h : x.isFinite) : ∃ r, x = fin r := by cases x <;> first | exact h.elim | exact ⟨_, rfl⟩

end FX
end PyHawkes
