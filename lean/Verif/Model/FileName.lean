import Verif.Prelude.Py
import Mathlib.Data.Nat.Digits.Lemmas

/-!
# `get_unique_file_name` (`pyhawkes/utils/utils.py:45-62`)

Names are lists of characters.
-/

namespace PyHawkes

/-- `fnmatch.fnmatchcase` for patterns made of literal characters, `?` and `*` (used at `utils.py:54`; the `[seq]` form of patterns is not modelled: a `[` is taken literally) -/
def fnmatch : List Char → List Char → Bool
  | [], [] => true
  | [], _ :: _ => false
  | '*' :: ps, [] => fnmatch ps []
  | '*' :: ps, c :: cs => fnmatch ps (c :: cs) || fnmatch ('*' :: ps) cs
  | _ :: _, [] => false
  | p :: ps, c :: cs => (p = '?' || p = c) && fnmatch ps cs
  termination_by p s => p.length + s.length

/-- the decimal digit -/
def decChar (d : ℕ) : Char := Char.ofNat (48 + d)

/-- `"%d" % n` for a positive integer -/
def decimal (n : ℕ) : List Char := ((Nat.digits 10 n).map decChar).reverse

/-- `"%s.%d" % (filename, n)` -/
def numbered (name : List Char) (n : ℕ) : List Char := name ++ '.' :: decimal n

/-- `utils.py:45-62` — `get_unique_file_name(filedir, filename)`; `dir` is the result of `os.listdir(filedir)` -/
def getUniqueFileName (dir : List (List Char)) (name : List Char) : List Char :=
  let conflicts := dir.filter fun f => fnmatch (name ++ ['*']) f
  let nconflicts := conflicts.length
  if nconflicts > 0 then numbered name (nconflicts + 1) else name

end PyHawkes
