import Verif.Model.Basis

/-!
# Model of rate evaluation and simulation of the discrete-time network model
(`pyhawkes/models.py:791-956`)
-/

namespace PyHawkes
open Finset

variable {R : Type*} [Field R] [LinearOrder R] [IsStrictOrderedRing R]

/-- The parameters of a discrete-time network Hawkes model that rates depend on: `K`, `B`, bin width `dt`
(`models.py:528-653`), background rates (`bias.py:34`), effective weights (`weights.py`), impulse weights
(`impulses.py:46`) and the basis (`basis.py:22`). `lenIsInt` records whether `basis.L` is a Python int: it is for
`CosineBasis` (`basis.py:23`), but `IdentityBasis` sets `L = dt_max // dt + 1` (`basis.py:167`), a float when `dt` is one. -/
structure NetParams (R : Type*) where
  K : ℕ
  B : ℕ
  dt : R
  lam0 : Vec R
  Weff : Mat R
  g : Ten R
  L : ℕ
  basis : Mat R
  lenIsInt : Bool := true

/-- `models.py:923-940` — `compute_rate(F=F)` for all processes: start from `lambda0`, then for each `k2` add
`np.tensordot(F, H[:,:,k2], axes=([2,1],[0,1]))` with `H = transpose(W_eff[:,:,None]*g, [2,0,1])`. -/
def rateAll (P : NetParams R) (F : Ten R) : Mat R :=
  let H : Ten R := fun b k1 k2 => P.Weff k1 k2 * P.g k1 k2 b
  forRange P.K (fun k2 (r : Mat R) => fun t k =>
      if k = k2 then r t k + ∑ b ∈ range P.B, ∑ k1 ∈ range P.K, F t k1 b * H b k1 k2 else r t k)
    (fun _ k => P.lam0 k)

/-- `models.py:942-956` — `compute_rate(proc=k)`: `lambda0[k] + tensordot(F, W_eff[:,k,None]*g[:,k,:], axes=([1,2],[0,1]))` -/
def rateProc (P : NetParams R) (F : Ten R) (k : ℕ) : Vec R := fun t =>
  P.lam0 k + ∑ k1 ∈ range P.K, ∑ b ∈ range P.B, F t k1 b * (P.Weff k1 k * P.g k1 k b)

/-- `models.py:900-940` — `compute_rate(S=S)` for a `T×KS` array: filter, then `rateAll`.
A wrong number of columns makes numpy raise `ValueError` (broadcast on line 928 or tensordot on line 937). -/
def computeRate (P : NetParams R) (T KS : ℕ) (S : Mat R) : Except PyErr (Mat R) :=
  match convolve T KS P.L P.B P.basis S with
  | .error e => .error e
  | .ok F => if KS ≠ P.K then .error .value else .ok (rateAll P F)

/-- `models.py:942-956` — `compute_rate(S=S, proc=p)`; `p` may be a negative Python index, `p < K` is asserted. -/
def computeRateProc (P : NetParams R) (T KS : ℕ) (S : Mat R) (p : ℤ) : Except PyErr (Vec R) :=
  match convolve T KS P.L P.B P.basis S with
  | .error e => .error e
  | .ok F =>
    if ¬ (p < P.K) then .error .assertion
    else if p < -(P.K : ℤ) then .error .index
    else if KS ≠ P.K then .error .value
    else .ok (rateProc P F (if p < 0 then (p + P.K).toNat else p.toNat))

/-- `models.py:808-813` — `H[l,k2,k1] = W_eff[k1,k2] * tensordot(basis, g)[l,k1,k2]` -/
def genH (P : NetParams R) : Ten R := fun l k2 k1 =>
  P.Weff k1 k2 * ∑ b ∈ range P.B, P.basis l b * P.g k1 k2 b

/-- `models.py:824-831` — one iteration of the simulation loop: draw the counts of bin `t` from the current rate
(numpy refuses a negative Poisson mean), then add their impulse responses to rows `t .. t+L-1` of the rate buffer.
`draw t k m` is the outcome of the Poisson draw with mean `m` (an arbitrary oracle). -/
def genStep (P : NetParams R) (draw : ℕ → ℕ → R → ℕ) (t : ℕ) (st : Mat ℕ × Mat R) :
    Except PyErr (Mat ℕ × Mat R) :=
  if ∃ k < P.K, st.2 t k * P.dt < 0 then .error .value
  else
    let row : Vec ℕ := fun k => draw t k (st.2 t k * P.dt)
    let S' : Mat ℕ := fun s k => if s = t then row k else st.1 s k
    let dR : Mat R := fun l k2 => ∑ k1 ∈ range P.K, genH P l k2 k1 * (row k1 : R)
    let R' : Mat R := fun s k => if t ≤ s ∧ s < t + P.L then st.2 s k + dR (s - t) k else st.2 s k
    .ok (S', R')

/-- `models.py:791-853` — `generate(keep=False, T=T)`: returns the counts and the rate buffer cut to `T` rows.
`np.zeros((T+L, K))` raises `TypeError` if `L` is a float. Simplifications: printing and the debugger trap for
more than 1000 events in a bin (`pdb.set_trace`) are no-ops; `check_stability` is evaluated and ignored. -/
def generate (P : NetParams R) (draw : ℕ → ℕ → R → ℕ) (T : ℕ) : Except PyErr (Mat ℕ × Mat R) :=
  if P.lenIsInt = false then .error .type
  else forListE (List.range T) (genStep P draw) (fun _ _ => 0, fun _ k => P.lam0 k)

end PyHawkes
