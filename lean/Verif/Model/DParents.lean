import Verif.Model.Rate
import Mathlib.Analysis.SpecialFunctions.Log.Basic

/-!
# Model of `DiscreteTimeParents` (`pyhawkes/internals/parents.py:9-482`), of the cython kernels in
`pyhawkes/internals/parent_updates.pyx`, and of `add_data` / `log_likelihood` of the discrete-time network model
(`pyhawkes/models.py:712-753`, `958-1010`).
-/

namespace PyHawkes
open Finset

/-- `astype(np.uint32)` on a nonnegative integer (`parents.py:49`) -/
def toU32 (n : ℕ) : ℕ := n % 2 ^ 32

/-- One data set: what `DiscreteTimeParents.__init__` stores (`parents.py:14-56`). Only `T`, `S`, `F` are primary; the sparse
versions are computed by the functions below. `Z k` / `EZ k` are the rows of the (sampled / expected) parent counts of process `k`, one row
of length `1+K*B` per event bin; `none` before they are first touched (`parents.py:62-63`). -/
structure DParents (R : Type*) where
  T : ℕ
  S : Mat ℕ
  F : Ten R
  Z : Option (ℕ → List (Vec ℕ)) := none
  EZ : Option (ℕ → List (Vec R)) := none

section
variable {R : Type*} [Field R] [LinearOrder R] [IsStrictOrderedRing R]

/-- `parents.py:47-48` — `tk = np.where(S[:,k])[0]`: the bins with events of process `k`, in order -/
def DParents.ts (D : DParents R) (k : ℕ) : List ℕ := (List.range D.T).filter fun t => D.S t k ≠ 0

/-- `parents.py:50` — `Ss[k] = S[tk,k].astype(np.uint32)` -/
def DParents.Ss (D : DParents R) (k : ℕ) : List ℕ := (D.ts k).map fun t => toU32 (D.S t k)

/-- `parents.py:51` — `Ns[k] = S[tk,k].sum()` (taken before the cast) -/
def DParents.Ns (D : DParents R) (k : ℕ) : ℕ := ((D.ts k).map fun t => D.S t k).sum

/-- `parents.py:52` — `Fs[k] = F[tk]` -/
def DParents.Fs (D : DParents R) (k : ℕ) : List (Mat R) := (D.ts k).map fun t => D.F t

/-- `parents.py:86-93` — the `Z` property: zeros until first written -/
def DParents.getZ (D : DParents R) (k : ℕ) : List (Vec ℕ) := match D.Z with
  | some Z => Z k
  | none => (D.ts k).map fun _ _ => 0

/-- `parents.py:95-102` — the `EZ` property: zeros until first written -/
def DParents.getEZ (D : DParents R) (k : ℕ) : List (Vec R) := match D.EZ with
  | some Z => Z k
  | none => (D.ts k).map fun _ _ => 0

/-! ### Sufficient statistics -/

/-- `parents.py:164-171` — `compute_bkgd_ss`: row 0 -/
def bkgdSS0 (D : DParents R) (k : ℕ) : ℕ := ((D.getZ k).map fun z => z 0).sum

/-- `parents.py:168` — `compute_bkgd_ss`: row 1, `T * dt` -/
def bkgdSS1 (D : DParents R) (dt : R) (_k : ℕ) : R := D.T * dt

/-- `parents.py:174-182` — `compute_approx_weight_ss`, `ss[0,k1,k2] = Zk[:,1:].sum(0).reshape((K,B)).sum(1)[k1]` -/
def weightSS0 (D : DParents R) (B : ℕ) (k1 k2 : ℕ) : ℕ :=
  ∑ b ∈ range B, ((D.getZ k2).map fun z => z (1 + k1 * B + b)).sum

/-- `parents.py:181` — `ss[1,k1,k2] = Ns[k1]` -/
def weightSS1 (D : DParents R) (k1 _k2 : ℕ) : ℕ := D.Ns k1

/-- `parents.py:209-217` — `compute_ir_ss`, `ss[k1,k2,b] = Zk[:,1:].sum(0).reshape((K,B))[k1,b]` -/
def irSS (D : DParents R) (B : ℕ) (k1 k2 b : ℕ) : ℕ := ((D.getZ k2).map fun z => z (1 + k1 * B + b)).sum

/-- `parents.py:320-327` — `compute_exp_bkgd_ss`: row 0 -/
def expBkgdSS0 (D : DParents R) (k : ℕ) : R := ((D.getEZ k).map fun z => z 0).sum

/-- `parents.py:329-337` — `compute_exp_weight_ss`: `ss[0]` -/
def expWeightSS0 (D : DParents R) (B : ℕ) (k1 k2 : ℕ) : R :=
  ∑ b ∈ range B, ((D.getEZ k2).map fun z => z (1 + k1 * B + b)).sum

/-- `parents.py:339-348` — `compute_exp_ir_ss` -/
def expIrSS (D : DParents R) (B : ℕ) (k1 k2 b : ℕ) : R := ((D.getEZ k2).map fun z => z (1 + k1 * B + b)).sum

/-! ### Resampling the parents -/

/-- `a.ravel()` of a `K×B` array: C order -/
def ravel (B : ℕ) (m : Mat R) : Vec R := fun j => m (j / B) (j % B)

/-- prepend an entry to a vector: `p[0] = a; p[1:] = v` -/
def consVec (a : R) (v : Vec R) : Vec R := fun j => match j with
  | 0 => a
  | j + 1 => v j

/-- `parents.py:233-238` — unnormalised parent weights of one event bin, python version -/
def parentWeightsPy (P : NetParams R) (k2 : ℕ) (ft : Mat R) : Vec R :=
  consVec (P.lam0 k2) (ravel P.B fun k1 b => ft k1 b * P.Weff k1 k2 * P.g k1 k2 b)

/-- `parents.py:266-271` — unnormalised parent weights of one event bin, GSL version: `np.repeat(W[:,k2], B)`,
`g[:,k2,:].reshape(K*B)` and `F.reshape(K*B)` multiplied elementwise -/
def parentWeightsGsl (P : NetParams R) (k2 : ℕ) (ft : Mat R) : Vec R :=
  let Wrep : Vec R := fun j => P.Weff (j / P.B) k2
  let Grs : Vec R := ravel P.B fun k1 b => P.g k1 k2 b
  consVec (P.lam0 k2) (fun j => Wrep j * Grs j * ravel P.B ft j)

/-- `parents.py:241` / `parents.py:274` — `p / p.sum()`; a zero total gives `nan` -/
def normalise (n : ℕ) (p : Vec R) : Except PyErr (Vec R) :=
  if ∑ j ∈ range n, p j = 0 then .error .silentNan else .ok fun j => p j / ∑ j ∈ range n, p j

/-- `parents.py:230-244` — the body of `_resample_Z_python` for one event bin. `mult st p` is the outcome of
`np.random.multinomial(st, p)`. -/
def resampleRowPy (P : NetParams R) (k2 : ℕ) (mult : ℕ → Vec R → Vec ℕ) (st : ℕ) (ft : Mat R) : Except PyErr (Vec ℕ) :=
  if st = 0 then .error .assertion
  else match normalise (1 + P.K * P.B) (parentWeightsPy P k2 ft) with
    | .error e => .error e
    | .ok p => .ok (mult st p)

/-- `parents.py:263-277` — `_resample_Z_gsl` for one event bin (no assertion that `st > 0`) -/
def resampleRowGsl (P : NetParams R) (k2 : ℕ) (mult : ℕ → Vec R → Vec ℕ) (st : ℕ) (ft : Mat R) : Except PyErr (Vec ℕ) :=
  match normalise (1 + P.K * P.B) (parentWeightsGsl P k2 ft) with
    | .error e => .error e
    | .ok p => .ok (mult st p)

/-- run a row update over the event bins of one process, in order; `mult i` is the outcome of the `i`-th draw -/
def rowsE (row : (ℕ → Vec R → Vec ℕ) → ℕ → Mat R → Except PyErr (Vec ℕ)) :
    (ℕ → ℕ → Vec R → Vec ℕ) → List (ℕ × Mat R) → Except PyErr (List (Vec ℕ))
  | _, [] => .ok []
  | mult, (st, ft) :: rest => match row (mult 0) st ft with
    | .error e => .error e
    | .ok z => match rowsE row (fun i => mult (i + 1)) rest with
      | .error e => .error e
      | .ok zs => .ok (z :: zs)

/-- collect the results of a computation for `k = 0 .. n-1`, failing if one fails -/
def collectE {α : Type*} (d : α) (f : ℕ → Except PyErr α) : ℕ → Except PyErr (ℕ → α)
  | 0 => .ok fun _ => d
  | n + 1 => match collectE d f n with
    | .error e => .error e
    | .ok g => match f n with
      | .error e => .error e
      | .ok x => .ok fun k => if k = n then x else g k

/-- `parents.py:219-283` — `DiscreteTimeParents.resample`: for every process and event bin, draw the parent counts.
`mult k i` is the outcome of the `i`-th draw for process `k`; `useGsl` selects the implementation.
Simplification: on an exception the rows already written in place are not kept (the new state is only returned on success). -/
def resampleParents (P : NetParams R) (useGsl : Bool) (mult : ℕ → ℕ → ℕ → Vec R → Vec ℕ) (D : DParents R) :
    Except PyErr (DParents R) :=
  match collectE [] (fun k2 => rowsE (if useGsl then resampleRowGsl P k2 else resampleRowPy P k2) (mult k2)
      ((D.Ss k2).zip (D.Fs k2))) P.K with
  | .error e => .error e
  | .ok Z => .ok { D with Z := some Z }

/-! ### Mean field -/

/-- `parents.py:357-377` — `_mf_update_Z_python`: new expected-parent row for one event bin; `p0 = exp E[ln λ0[k2]]`,
`W k1 = exp E[ln W[k1,k2]]`, `G k1 b = exp E[ln g[k1,k2,b]]`, `s` the count, `ft` the filtered counts -/
def mfRowPy (K B : ℕ) (p0 : R) (W : Vec R) (G : Mat R) (s : R) (ft : Mat R) : Vec R :=
  let pkb : Vec R := ravel B fun k1 b => ft k1 b * W k1 * G k1 b
  let Z := p0 + ∑ j ∈ range (K * B), pkb j
  consVec (p0 / Z * s) (fun j => pkb j / Z * s)

/-- `parent_updates.pyx:42-52` — the normaliser computed by the cython kernel -/
def mfZ (K B : ℕ) (p0 : R) (W : Vec R) (G : Mat R) (ft : Mat R) : R :=
  forRange K (fun k1 z => forRange B (fun b z => z + W k1 * G k1 b * ft k1 b) z) (0 + p0)

/-- `parent_updates.pyx:35-60` — body of the parallel loop for event bin `t`: skip if the count is zero, otherwise
write row `t` of `EZ` cell by cell -/
def mfBodyCy (K B : ℕ) (p0 : R) (W : Vec R) (G : Mat R) (s : Vec R) (F : Ten R) (t : ℕ) (EZ : Mat R) : Mat R :=
  if s t = 0 then EZ
  else
    let Z := mfZ K B p0 W G (F t)
    forRange K (fun k1 m => forRange B (fun b m => Mat.set m t (1 + k1 * B + b) (W k1 * G k1 b * F t k1 b / Z * s t)) m)
      (Mat.set EZ t 0 (p0 / Z * s t))

/-- `parent_updates.pyx:33-60` — `mf_update_Z`: the iterations run in some order -/
def mfUpdateCy (K B : ℕ) (p0 : R) (W : Vec R) (G : Mat R) (s : Vec R) (F : Ten R) (order : List ℕ) (EZ : Mat R) : Mat R :=
  order.foldl (fun m t => mfBodyCy K B p0 W G s F t m) EZ

/-- `parents.py:352-381` — `meanfieldupdate` of one data set given the exponentiated expected logs -/
def mfUpdateParents (K B : ℕ) (p0 : Vec R) (W : Mat R) (G : Ten R) (D : DParents R) : DParents R :=
  { D with EZ := some fun k2 => ((D.Ss k2).zip (D.Fs k2)).map fun p =>
      mfRowPy K B (p0 k2) (fun k1 => W k1 k2) (fun k1 b => G k1 k2 b) (p.1 : R) p.2 }

/-! ### Adding data -/

/-- `models.py:736-740` — the minibatch boundaries `(offset, end)` for `offset in np.arange(T, step=m)`, `m ≥ 1` -/
def mbBounds (T m : ℕ) : List (ℕ × ℕ) :=
  (List.range ((T + m - 1) / m)).map fun i => (i * m, min (i * m + m) T)

/-- `models.py:740-745` — the data set made from rows `off .. fin-1` -/
def sliceData (S : Mat ℕ) (F : Ten R) (off fin : ℕ) : DParents R :=
  { T := fin - off, S := fun t => S (off + t), F := fun t => F (off + t) }

/-- What `add_data(S, F, minibatchsize)` is called with: the array's shape and whether its dtype is `int`. -/
structure AddArgs (R : Type*) where
  T : ℕ
  KS : ℕ
  isInt : Bool
  S : Mat ℤ
  F : Option (ℕ × ℕ × ℕ × Ten R)
  minibatch : Option ℤ

/-- `models.py:712-753` — `add_data`: check, filter, append one data set or one per minibatch.
`np.amin` of an empty array raises `ValueError`; `np.arange` with step 0 raises `ZeroDivisionError` (an `exception` here);
a negative step gives an empty range, so nothing is appended. -/
def addData (P : NetParams R) (a : AddArgs R) (dl : List (DParents R)) : Except PyErr (List (DParents R)) :=
  if a.KS ≠ P.K then .error .assertion
  else if a.T = 0 ∨ a.KS = 0 then .error .value
  else if ¬ ((∀ t < a.T, ∀ k < a.KS, 0 ≤ a.S t k) ∧ a.isInt = true) then .error .assertion
  else
    let Sn : Mat ℕ := fun t k => (a.S t k).toNat
    let Fe : Except PyErr (Ten R) := match a.F with
      | some (T', K', B', F) => if T' = a.T ∧ K' = P.K ∧ B' = P.B then .ok F else .error .assertion
      | none => convolve a.T P.K P.L P.B P.basis (fun t k => (a.S t k : R))
    match Fe with
    | .error e => .error e
    | .ok F => match a.minibatch with
      | none => .ok (dl ++ [{ T := a.T, S := Sn, F := F }])
      | some m =>
        if m = 0 then .error .exception
        else if m < 0 then .ok dl
        else .ok (dl ++ (mbBounds a.T m.toNat).map fun b => sliceData Sn F b.1 b.2)

end

/-! ### Log likelihood -/

/-- `parents.py:139-156` — `log_likelihood_single_process(k2)` -/
noncomputable def llSingle (P : NetParams ℝ) (D : DParents ℝ) (k2 : ℕ) : ℝ :=
  let ll : ℝ := 0
  let ll := ll + -(P.lam0 k2) * D.T * P.dt
  let ll := ll + -(∑ k1 ∈ range P.K, P.Weff k1 k2 * D.Ns k1)
  let lam : Mat ℝ → ℝ := fun f => P.lam0 k2 + ∑ k1 ∈ range P.K, ∑ b ∈ range P.B, P.Weff k1 k2 * P.g k1 k2 b * f k1 b
  ll + (((D.Ss k2).zip (D.Fs k2)).map fun p => (p.1 : ℝ) * Real.log (lam p.2)).sum

/-- `parents.py:119-129` — `log_likelihood()` of one data set -/
noncomputable def llData (P : NetParams ℝ) (D : DParents ℝ) : ℝ :=
  forRange P.K (fun k ll => ll + llSingle P D k) 0

/-- `models.py:996-1013` — `log_likelihood()` of the model: all data sets -/
noncomputable def llModel (P : NetParams ℝ) (dl : List (DParents ℝ)) : ℝ :=
  dl.foldl (fun ll D => ll + llData P D) 0

/-- `models.py:958-966` — `_poisson_log_likelihood(S, R)` -/
noncomputable def poissonLL (dt : ℝ) (T K : ℕ) (S : Mat ℕ) (r : Mat ℝ) : ℝ :=
  ∑ t ∈ range T, ∑ k ∈ range K, ((S t k : ℝ) * Real.log (r t k) - r t k * dt)

/-- `models.py:968-976` — `heldout_log_likelihood(S)` -/
noncomputable def heldoutLL (P : NetParams ℝ) (T : ℕ) (S : Mat ℕ) : Except PyErr ℝ :=
  match computeRate P T P.K (fun t k => (S t k : ℝ)) with
  | .error e => .error e
  | .ok r => .ok (poissonLL P.dt T P.K S r)

end PyHawkes

namespace PyHawkes
open Finset

/-- `np.nan_to_num(np.log(y))` for `y ≥ 0`: the logarithm, with `-inf` replaced by `-huge`, the most negative double
(`parents.py:451-452`, `463`, `472-473`) -/
noncomputable def nanLog (huge y : ℝ) : ℝ := if y = 0 then -huge else Real.log y

/-- `parents.py:460-464` — `nan_to_num(log F + E_ln_W + E_ln_g)`: if `F = 0` the whole sum is `-inf`, replaced by `-huge` -/
noncomputable def lnWg (huge : ℝ) (elnW : ℝ) (elng : ℝ) (f : ℝ) : ℝ :=
  if f = 0 then -huge else Real.log f + elnW + elng

/-- `parents.py:424-476` — `get_vlb_python` of one data set given its expected-parent rows `EZ`, in the order of the code:
the three loops over processes. `elnL = E[ln λ0]`, `eL = E[λ0]`, `elnW = E[ln W]`, `eW = E[W]`, `elng = E[ln g]`. -/
noncomputable def vlbParentsPy (huge : ℝ) (K B : ℕ) (elnL eL : Vec ℝ) (elnW eW : Mat ℝ) (elng : Ten ℝ)
    (D : DParents ℝ) (EZ : ℕ → List (Vec ℝ)) : ℝ :=
  let v := forRange K (fun k v =>
      let v := v + ((EZ k).map fun z => z 0 * elnL k).sum
      v + -(D.T : ℝ) * eL k) 0
  let v := forRange K (fun k v =>
      v + (((EZ k).zip (D.Ss k)).map fun p => -p.1 0 * nanLog huge (p.1 0 / (p.2 : ℝ))).sum) v
  forRange K (fun k v =>
      let v := v + (((EZ k).zip (D.Fs k)).map fun p => ∑ j ∈ range (K * B),
        p.1 (1 + j) * lnWg huge (elnW (j / B) k) (elng (j / B) k (j % B)) (p.2 (j / B) (j % B))).sum
      let v := v + -(∑ k1 ∈ range K, (D.Ns k1 : ℝ) * eW k1 k)
      v + (((EZ k).zip (D.Ss k)).map fun p => ∑ j ∈ range (K * B),
        -p.1 (1 + j) * nanLog huge (p.1 (1 + j) / (p.2 : ℝ))).sum) v

/-- `parent_updates.pyx:62-119` — `mf_vlb`, the version used by `get_vlb` (`parents.py:404-422`): the same bound for one process with `1e-32` added
inside the logarithms. The parallel loop writes `vlbs[t]` and the sum is serial. -/
noncomputable def mfVlbCy (K B : ℕ) (k2 : ℕ) (Ttot : ℕ) (elnL eL : Vec ℝ) (elnW eW : Mat ℝ) (elng : Ten ℝ)
    (Ns : Vec ℕ) (rows : List (Vec ℝ × ℕ × Mat ℝ)) : ℝ :=
  let v : ℝ := 0 + -(Ttot : ℝ) * eL k2
  let v := forRange K (fun k1 v => v + -(Ns k1 : ℝ) * eW k1 k2) v
  v + (rows.map fun r =>
    let z := r.1; let s : ℝ := (r.2.1 : ℝ); let f := r.2.2
    forRange K (fun k1 w => forRange B (fun b w =>
        w + z (1 + k1 * B + b) * (Real.log (f k1 b + 1e-32) + elnW k1 k2 + elng k1 k2 b)
          + -z (1 + k1 * B + b) * Real.log (z (1 + k1 * B + b) / s + 1e-32)) w)
      (0 + z 0 * elnL k2 + -z 0 * Real.log (z 0 / s + 1e-32))).sum

end PyHawkes
