import Verif.Model.FileName

/-!
# Unique file names (C61)
-/

set_option linter.unusedSectionVars false

namespace PyHawkes

/-- specification: a name without pattern characters -/
def Spec.Plain (name : List Char) : Prop := '*' ∉ name ∧ '?' ∉ name ∧ '[' ∉ name

open Spec

theorem fnmatch_star (s : List Char) : fnmatch ['*'] s = true := by
  induction s with
  | nil => simp [fnmatch]
  | cons c cs ih => simp [fnmatch, ih]

theorem fnmatch_prefix {name : List Char} (h : Plain name) (s : List Char) : fnmatch (name ++ ['*']) s = true ↔ name <+: s := by
  induction name generalizing s with
  | nil => simp [fnmatch_star]
  | cons p ps ih =>
    obtain ⟨h1, h2, h3⟩ := h
    have hp : p ≠ '*' := fun e => h1 (by simp [e])
    have hq : p ≠ '?' := fun e => h2 (by simp [e])
    have hpl : Plain ps := ⟨fun e => h1 (List.mem_cons_of_mem _ e), fun e => h2 (List.mem_cons_of_mem _ e), fun e => h3 (List.mem_cons_of_mem _ e)⟩
    rw [List.cons_append]
    cases s with
    | nil => unfold fnmatch; simp
    | cons c cs =>
      rw [fnmatch]
      · rw [List.cons_prefix_cons, ← ih hpl cs]
        simp [hq]
      · exact hp

theorem decChar_inj {a b : ℕ} (ha : a < 10) (hb : b < 10) (h : decChar a = decChar b) : a = b := by
  interval_cases a <;> interval_cases b <;> first | rfl | exact absurd h (by decide)

theorem decimal_inj {m n : ℕ} (h : decimal m = decimal n) : m = n := by
  unfold decimal at h
  have h := List.reverse_injective h
  apply Nat.digits_inj_iff (b := 10) |>.1
  have key : ∀ l1 l2 : List ℕ, (∀ d ∈ l1, d < 10) → (∀ d ∈ l2, d < 10) → l1.map decChar = l2.map decChar → l1 = l2 := by
    intro l1
    induction l1 with
    | nil => intro l2 _ _ h; simpa [eq_comm] using h
    | cons a l1 ih =>
      intro l2 h1 h2 h
      cases l2 with
      | nil => simp at h
      | cons b l2 =>
        rw [List.map_cons, List.map_cons] at h
        obtain ⟨e1, e2⟩ := List.cons.inj h
        rw [decChar_inj (h1 a (by simp)) (h2 b (by simp)) e1, ih l2 (fun d hd => h1 d (List.mem_cons_of_mem _ hd)) (fun d hd => h2 d (List.mem_cons_of_mem _ hd)) e2]
  exact key _ _ (fun d hd => Nat.digits_lt_base (by norm_num) hd) (fun d hd => Nat.digits_lt_base (by norm_num) hd) h

theorem numbered_inj {name : List Char} {m n : ℕ} (h : numbered name m = numbered name n) : m = n := by
  unfold numbered at h
  have := List.append_cancel_left h
  exact decimal_inj (List.cons.inj this).2

/-- number of names in the directory that begin with `name` -/
def Spec.prefixed (dir : List (List Char)) (name : List Char) : ℕ := (dir.filter fun f => name.isPrefixOf f).length

theorem unique_eq {name : List Char} (h : Plain name) (dir : List (List Char)) : getUniqueFileName dir name = if prefixed dir name > 0 then numbered name (prefixed dir name + 1) else name := by
  have : (dir.filter fun f => fnmatch (name ++ ['*']) f) = dir.filter fun f => name.isPrefixOf f := by
    apply List.filter_congr
    intro f _
    rw [Bool.eq_iff_iff, fnmatch_prefix h, List.isPrefixOf_iff_prefix]
  unfold getUniqueFileName Spec.prefixed
  rw [this]

/-- specification: the number that a sequence of decimal digits denotes, most significant first; `none` if some character is not a digit -/
def Spec.readDecimal (s : List Char) : Option ℕ :=
  s.foldl (fun a c => a.bind fun a => if '0' ≤ c ∧ c ≤ '9' then some (10 * a + (c.toNat - '0'.toNat)) else none) (some 0)

theorem decChar_digit {a : ℕ} (ha : a < 10) : '0' ≤ decChar a ∧ decChar a ≤ '9' ∧ (decChar a).toNat - '0'.toNat = a := by
  interval_cases a <;> decide

theorem readDecimal_decimal (n : ℕ) : readDecimal (decimal n) = some n := by
  have key : ∀ l : List ℕ, (∀ d ∈ l, d < 10) → readDecimal (l.map decChar).reverse = some (Nat.ofDigits 10 l) := by
    intro l
    induction l with
    | nil => intro _; rfl
    | cons d l ih =>
      intro h
      obtain ⟨h1, h2, h3⟩ := decChar_digit (h d (by simp))
      have ih := ih fun x hx => h x (List.mem_cons_of_mem _ hx)
      unfold readDecimal at ih ⊢
      rw [List.map_cons, List.reverse_cons, List.foldl_append, ih]
      simp only [List.foldl_cons, List.foldl_nil, Option.bind_some, h1, h2, h3, and_self, if_true, Nat.ofDigits_cons]
      congr 1
      ring
  unfold decimal
  rw [key _ fun d hd => Nat.digits_lt_base (by norm_num) hd, Nat.ofDigits_digits]

/-- **C61 (form of the name).** For a plain file name the returned name is the given one if no existing name begins with it; otherwise it is the given one, a dot, and in decimal digits one more than the number of existing names that
begin with it. -/
theorem C61_name_form_partial {name : List Char} (h : Plain name) (dir : List (List Char)) :
    (prefixed dir name = 0 → getUniqueFileName dir name = name) ∧
    (0 < prefixed dir name → ∃ ds, getUniqueFileName dir name = name ++ '.' :: ds ∧ readDecimal ds = some (prefixed dir name + 1)) := by
  rw [unique_eq h]
  refine ⟨fun h0 => if_neg (by omega), fun h0 => ⟨decimal (prefixed dir name + 1), if_pos h0, readDecimal_decimal _⟩⟩

/-- **C61 (when the name is new).** For a plain file name the returned name is new exactly if it is not the case that some existing name begins with it and `name.(n+1)` exists, `n` being the number of existing names that begin with it. -/
theorem C61_fresh_iff_partial {name : List Char} (h : Plain name) (dir : List (List Char)) : getUniqueFileName dir name ∉ dir ↔ ¬ numbered name (prefixed dir name + 1) ∈ dir := by
  rw [unique_eq h]
  by_cases hp : prefixed dir name > 0
  · rw [if_pos hp]
  · rw [if_neg hp]
    have h0 : ∀ f ∈ dir, ¬ name <+: f := by
      intro f hf hpre
      apply hp
      unfold Spec.prefixed
      exact List.length_pos_of_mem (List.mem_filter.2 ⟨hf, List.isPrefixOf_iff_prefix.2 hpre⟩)
    constructor
    · intro _ hm
      exact h0 _ hm ⟨_, rfl⟩
    · intro _ hm
      exact h0 _ hm ⟨[], by simp⟩

/-- what happens to the directory: a file is created under the name the function returns, or somebody creates a file with another name -/
inductive FileOp where
  | log
  | foreign (f : List Char)

/-- the directory after one step -/
def FileOp.run (name : List Char) : FileOp → List (List Char) → List (List Char)
  | .log, dir => getUniqueFileName dir name :: dir
  | .foreign f, dir => f :: dir

/-- **C61 (histories without deletions).** Start in a directory without numbered versions of `name`, and let files be created one after the other, either under the name returned by `get_unique_file_name` or by others under names that are not numbered
versions of `name`. Then at every moment the next name returned does not exist. -/
theorem C61_fresh_in_histories_partial {name : List Char} (h : Plain name) {dir : List (List Char)} (h0 : ∀ m, numbered name m ∉ dir) (ops : List FileOp)
    (hf : ∀ f, FileOp.foreign f ∈ ops → ∀ m, f ≠ numbered name m) :
    getUniqueFileName (ops.foldl (fun d o => o.run name d) dir) name ∉ ops.foldl (fun d o => o.run name d) dir := by
  have inv : ∀ (ops : List FileOp) (dir : List (List Char)), (∀ f, FileOp.foreign f ∈ ops → ∀ m, f ≠ numbered name m) → (∀ m, numbered name m ∈ dir → m ≤ prefixed dir name) →
      ∀ m, numbered name m ∈ ops.foldl (fun d o => o.run name d) dir → m ≤ prefixed (ops.foldl (fun d o => o.run name d) dir) name := by
    intro ops
    induction ops with
    | nil => intro dir _ h; exact h
    | cons o ops ih =>
      intro dir hf hi
      rw [List.foldl_cons]
      apply ih _ (fun f hm => hf f (List.mem_cons_of_mem _ hm))
      intro m hm
      cases o with
      | log =>
        have hpre : prefixed (FileOp.run name .log dir) name = prefixed dir name + 1 := by
          unfold FileOp.run Spec.prefixed
          rw [List.filter_cons_of_pos, List.length_cons]
          rw [List.isPrefixOf_iff_prefix, unique_eq h]
          split
          · exact ⟨_, rfl⟩
          · exact ⟨[], by simp⟩
        rw [hpre]
        unfold FileOp.run at hm
        rcases List.mem_cons.1 hm with he | hm
        · rw [unique_eq h] at he
          split at he
          · exact (numbered_inj he).le
          · exfalso
            unfold numbered at he
            have := congrArg List.length he
            simp at this
        · exact (hi m hm).trans (Nat.le_succ _)
      | foreign f =>
        unfold FileOp.run at hm ⊢
        rcases List.mem_cons.1 hm with he | hm
        · exact absurd he.symm (hf f (by simp) m)
        · refine (hi m hm).trans ?_
          unfold Spec.prefixed
          exact List.Sublist.length_le (List.Sublist.filter _ (List.sublist_cons_self f dir))
  rw [C61_fresh_iff_partial h]
  intro hm
  have := inv ops dir hf (fun m hm => absurd hm (h0 m)) _ hm
  omega

/-- **C61 (violated after a deletion).** For every plain name: call the function three times in an empty directory, creating the file each time, then delete the second file; the fourth call returns the name of the third file, which exists. -/
theorem C61_deletion_violated {name : List Char} (h : Plain name) :
    let d1 := getUniqueFileName [] name :: []
    let d2 := getUniqueFileName d1 name :: d1
    let d3 := getUniqueFileName d2 name :: d2
    let d4 := d3.erase (getUniqueFileName d1 name)
    getUniqueFileName d4 name ∈ d4 := by
  have p0 : prefixed [] name = 0 := rfl
  have pc : ∀ f d, name <+: f → prefixed (f :: d) name = prefixed d name + 1 := by
    intro f d hf
    unfold Spec.prefixed
    rw [List.filter_cons_of_pos (List.isPrefixOf_iff_prefix.2 hf), List.length_cons]
  have hn : name <+: name := ⟨[], by simp⟩
  have hnum : ∀ m, name <+: numbered name m := fun m => ⟨_, rfl⟩
  have e1 : getUniqueFileName [] name = name := by rw [unique_eq h, p0]; simp
  have e2 : getUniqueFileName [name] name = numbered name 2 := by rw [unique_eq h, pc _ _ hn, p0]; simp
  have e3 : getUniqueFileName [numbered name 2, name] name = numbered name 3 := by rw [unique_eq h, pc _ _ (hnum 2), pc _ _ hn, p0]; simp
  intro d1 d2 d3 d4
  have hd4 : d4 = [numbered name 3, name] := by
    show (getUniqueFileName (getUniqueFileName (getUniqueFileName [] name :: []) name :: getUniqueFileName [] name :: []) name :: getUniqueFileName (getUniqueFileName [] name :: []) name :: getUniqueFileName [] name :: []).erase (getUniqueFileName (getUniqueFileName [] name :: []) name) = _
    rw [e1, e2, e3]
    have hne : numbered name 3 ≠ numbered name 2 := fun e => by have := numbered_inj e; omega
    rw [List.erase_cons_tail (by simpa using hne), List.erase_cons_head]
  rw [hd4, unique_eq h, pc _ _ (hnum 3), pc _ _ hn, p0]
  simp

/-- plain names exist, e.g. `log` -/
example : Plain ['l', 'o', 'g'] := by unfold Plain; decide

end PyHawkes
