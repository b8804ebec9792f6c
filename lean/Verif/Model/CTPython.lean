import Verif.Model.CTParents
import Verif.Model.Curves

/-!
# The pure-Python parent sampler of the continuous-time model: `parents.py:545-608`
-/

namespace PyHawkes
open Finset

/-- the value of an entry that passes `assert (distn >= 0).all()`. Simplification: `inf` is treated as a failure; the entries made by `resample_Z_python` are finite or `nan`. -/
noncomputable def FX.weight? : FX → Option ℝ
  | .fin x => if 0 ≤ x then some x else none
  | _ => none

/-- `pybasicbayes.util.stats.sample_discrete(distn)`, an external function, for `distn` of length `len` and the uniform number `u` it draws: after `assert (distn >= 0).all()`, a uniform index if all entries are zero, otherwise
the number of entries of `np.cumsum(distn)` that are smaller than `u` times the total -/
noncomputable def sampleDiscrete (u : ℝ) (len : ℕ) (p : ℕ → FX) : Except PyErr ℕ :=
  if ∃ i < len, (p i).weight? = none then .error .assertion
  else
    let q : Vec ℝ := fun i => (p i).weight?.getD 0
    if ∀ i < len, q i = 0 then .ok ⌊u * len⌋.toNat
    else .ok ((range len).filter fun i => ∑ j ∈ range (i + 1), q j < u * ∑ j ∈ range len, q j).card

/-- `parents.py:573-585` — the backward loop for event `n`, `par = m-1, .., 0`: the array `p_par` and the last value of `par`. The weights are `weight_model.W`, not `W_effective`. -/
noncomputable def pyScan (P : CTParams) (D : CTData) (n : ℕ) : ℕ → (ℕ → FX) → ℕ → (ℕ → FX) × ℕ
  | 0, p, par => (p, par)
  | m + 1, p, _ =>
    let dt := D.S n - D.S m
    if P.dtMax < dt then (Vec.set p m (.fin 0), m)
    else pyScan P D n m (Vec.set p m (.fin (P.W (D.C m) (D.C n)) * impulseFX (P.mu (D.C m) (D.C n)) (P.tau (D.C m) (D.C n)) P.dtMax dt)) m

/-- `parents.py:557-603` — the new value of `Z[n]`, with `u` the uniform number drawn inside `sample_discrete` -/
noncomputable def pyParent (P : CTParams) (D : CTData) (u : ℝ) (n : ℕ) : Except PyErr ℤ :=
  if n = 0 then .ok (-1)
  else
    let r := pyScan P D n n (fun _ => .fin 0) 0
    let minPar := r.2
    let p : ℕ → FX := fun i => if i = 0 then .fin (P.lam0 (D.C n)) else r.1 (minPar + (i - 1))
    match sampleDiscrete u (1 + (n - minPar)) p with
    | .error e => .error e
    | .ok 0 => .ok (-1)
    | .ok (i + 1) => .ok ((i : ℤ) + minPar)

/-- the arrays changed by `resample_Z_python` -/
structure PyStats where
  Z : ℕ → ℤ
  bkgd : Vec ℝ
  weight : Mat ℝ
  imp : Mat ℝ

/-- `parents.py:559-608` — one iteration of the loop over the events -/
noncomputable def pyStep (P : CTParams) (D : CTData) (u : Vec ℝ) (n : ℕ) (s : PyStats) : Except PyErr PyStats :=
  match pyParent P D (u n) n with
  | .error e => .error e
  | .ok z =>
    if z = -1 then .ok { s with Z := Vec.set s.Z n z, bkgd := Vec.set s.bkgd (D.C n) (s.bkgd (D.C n) + 1) }
    else
      let Cp := D.C z.toNat
      .ok { s with Z := Vec.set s.Z n z, weight := Mat.set s.weight Cp (D.C n) (s.weight Cp (D.C n) + 1),
                   imp := Mat.set s.imp Cp (D.C n) (s.imp Cp (D.C n) + scaledLag D P.dtMax n z.toNat) }

/-- `parents.py:545-608` — `resample_Z_python()`. `imp_ss` has shape `K × K` here, where the impulse model expects `3 × K × K`: when it adds the array to its `3 × K × K` accumulator (`impulses.py:402-404`), numpy broadcasts it to all
three statistics. -/
noncomputable def ctResamplePython (P : CTParams) (u : Vec ℝ) (D : CTData) : Except PyErr CTData :=
  match forListE (List.range D.N) (pyStep P D u) ⟨D.Z, fun _ => 0, fun _ _ => 0, fun _ _ => 0⟩ with
  | .error e => .error e
  | .ok s => .ok { D with Z := s.Z, bkgd := s.bkgd, weight := s.weight, imp0 := s.imp, imp1 := s.imp, imp2 := s.imp }

end PyHawkes
