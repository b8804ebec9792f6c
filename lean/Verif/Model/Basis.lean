import Verif.Prelude.Py

/-!
# Model of `pyhawkes/utils/basis.py`
-/

namespace PyHawkes
open Finset

section
variable {R : Type*} [Field R] [LinearOrder R] [IsStrictOrderedRing R]

/-- `basis.py:45-50` — `sig.fftconvolve(S, basis[:,b].reshape(R,1), 'full')[:T,:]` for every `b`.
Simplification: `fftconvolve` is taken to be the exact full convolution (no FFT rounding). -/
def convRaw (T L : ℕ) (basis S : Mat R) : Ten R := fun t k b =>
  ∑ i ∈ range T, ∑ l ∈ range L, if i + l = t then S i k * basis l b else 0

/-- `basis.py:54` — `np.clip(F, 0, np.inf)` -/
def clipLow (F : Ten R) : Ten R := fun t k b => max 0 (F t k b)

/-- `basis.py:30-57` — `Basis.convolve_with_basis(S)` for a `T×K` count matrix and an `L×B` basis.
With `B = 0` the loop does not run and `np.amin` of an empty array raises; with another empty extent
`fftconvolve` returns a 1-d empty array and the `[:T,:]` index raises. -/
def convolve (T K L B : ℕ) (basis S : Mat R) : Except PyErr (Ten R) :=
  if B = 0 then .error .value
  else if T = 0 ∨ K = 0 ∨ L = 0 then .error .index
  else
    let F := convRaw T L basis S
    if (∀ l < L, ∀ b < B, 0 ≤ basis l b) ∧ (∀ t < T, ∀ k < K, 0 ≤ S t k) then
      let F' := clipLow F
      if ∀ t < T, ∀ k < K, ∀ b < B, 0 ≤ F' t k b then .ok F' else .error .assertion
    else .ok F

end

section
variable {R : Type*} [Field R] [LinearOrder R] [IsStrictOrderedRing R] [FloorSemiring R]

/-- `np.linspace(lo, hi, n)[j]` (with `n = 1` numpy returns `[lo]`) -/
def linspace (lo hi : R) (n j : ℕ) : R := if n = 1 then lo else lo + (hi - lo) * j / ((n : R) - 1)

/-- the index of the last grid point that is `≤ x` (0 if there is none) -/
def lastLE (xp : Vec R) : ℕ → R → ℕ
  | 0, _ => 0
  | n + 1, x => if xp n ≤ x then n else lastLE xp n x

/-- `np.interp(x, xp, fp)` for an increasing grid of `n` points: piecewise linear, constant outside. -/
def interp (n : ℕ) (xp fp : Vec R) (x : R) : R :=
  if x ≤ xp 0 then fp 0
  else if xp (n - 1) ≤ x then fp (n - 1)
  else
    let j := lastLE xp n x
    fp j + (fp (j + 1) - fp j) / (xp (j + 1) - xp j) * (x - xp j)

/-- `np.arange(0.0, dt_max, step=dt)` has this many entries -/
def arangeLen (dtMax dt : R) : ℕ := ⌈dtMax / dt⌉₊

/-- `basis.py:61-67` — the basis sampled at the resolution of the data, before normalisation -/
def interpRaw (L : ℕ) (basis : Mat R) (dt dtMax : R) : Mat R := fun i b =>
  interp L (fun j => linspace 0 dtMax L j) (fun j => basis j b) (dt * i)

/-- `basis.py:72` / `basis.py:185` — `ibasis / (dt * np.sum(ibasis, axis=0))` for an array with `n` rows.
A zero denominator makes numpy produce `nan`; that is the `silentNan` outcome. -/
def normCols (n B : ℕ) (dt : R) (m : Mat R) : Except PyErr (Mat R) :=
  if ∃ b < B, dt * ∑ i ∈ range n, m i b = 0 then .error .silentNan
  else .ok fun i b => m i b / (dt * ∑ i ∈ range n, m i b)

/-- `basis.py:78` — `np.vstack((np.zeros((1,B)), ibasis))` -/
def prependZero (m : Mat R) : Mat R := fun i b => match i with
  | 0 => 0
  | i + 1 => m i b

/-- A basis matrix together with its number of rows (`basis.py:22`, `self.L = self.basis.shape[0]`). -/
structure BasisArr (R : Type*) where
  rows : ℕ
  cols : ℕ
  val : Mat R

/-- `basis.py:58-80` — `Basis.interpolate_basis(basis, dt, dt_max, norm)` -/
def interpolateBasis (L B : ℕ) (basis : Mat R) (dt dtMax : R) (norm allowInst : Bool) :
    Except PyErr (BasisArr R) :=
  let n := arangeLen dtMax dt
  match (if norm then normCols n B dt (interpRaw L basis dt dtMax) else .ok (interpRaw L basis dt dtMax)) with
  | .error e => .error e
  | .ok m => if allowInst then .ok ⟨n, B, m⟩ else .ok ⟨n + 1, B, prependZero m⟩

/-- `basis.py:150-187` — `IdentityBasis(dt, dt_max, norm, allow_instantaneous)`; the assertion on line 181
compares the shape with `(self.L, self.B)`. -/
def identityBasis (dt dtMax : R) (norm allowInst : Bool) : Except PyErr (BasisArr R) :=
  let B0 := ⌊dtMax / dt⌋₊
  let B := if allowInst then B0 + 1 else B0
  let Lattr := B0 + 1
  let eye : Mat R := fun i j => if i = j then 1 else 0
  let rows := if allowInst then B else B + 1
  let m := if allowInst then eye else prependZero eye
  if rows ≠ Lattr then .error .assertion
  else if norm then
    match normCols rows B dt m with
    | .error e => .error e
    | .ok m' => .ok ⟨rows, B, m'⟩
  else .ok ⟨rows, B, m⟩

end
end PyHawkes
