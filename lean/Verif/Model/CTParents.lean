import Verif.Model.Gibbs
import Mathlib.Analysis.SpecialFunctions.Log.Basic
import Mathlib.Analysis.SpecialFunctions.Sqrt

/-!
# Continuous time: events, parents, rates
`pyhawkes/internals/continuous_time_helpers.pyx`, `pyhawkes/internals/parents.py:483-643`, `pyhawkes/models.py:1555-1586`, `:1703-1812`.

Floating-point numbers are real numbers here. Array accesses of the cython kernels are unchecked in the code (`boundscheck=False`); the model reports an access outside the
array as an `index` error.
-/

namespace PyHawkes
open Finset

/-- the parameters a continuous-time model evaluates rates with (`models.py:1408-1475`) -/
structure CTParams where
  K : ℕ
  dtMax : ℝ
  lam0 : Vec ℝ
  W : Mat ℝ
  A : Mat ℝ
  mu : Mat ℝ
  tau : Mat ℝ

/-- `weights.py:529-531` — `W_effective = A * W` -/
noncomputable def CTParams.Weff (P : CTParams) : Mat ℝ := fun i j => P.A i j * P.W i j

/-- one data set: event times `S`, labels `C`, both of length `N`, duration `T` (`parents.py:491-513`); `Z n` is the index of the parent of event `n`, `-1` for background;
the statistics computed by the last `resample` -/
structure CTData where
  N : ℕ
  S : Vec ℝ
  C : ℕ → ℕ
  T : ℝ
  Z : ℕ → ℤ := fun _ => -1
  bkgd : Vec ℝ
  weight : Mat ℝ := fun _ _ => 0
  imp0 : Mat ℝ := fun _ _ => 0
  imp1 : Mat ℝ := fun _ _ => 0
  imp2 : Mat ℝ := fun _ _ => 0

/-- `parents.py:506` — `Ns = np.bincount(C, minlength=K)` -/
def CTData.Ns (D : CTData) (k : ℕ) : ℕ := ((List.range D.N).filter fun n => D.C n = k).length

/-- `continuous_time_helpers.pyx:16` -/
noncomputable def sqrt2pi : ℝ := 2.5066282746310002

/-- `continuous_time_helpers.pyx:20-21` — `logit` of the kernels -/
noncomputable def cyLogit (p : ℝ) : ℝ := Real.log (p / (1 - p))

/-- `continuous_time_helpers.pyx:23-35` — `ln_impulse` -/
noncomputable def lnImpulse (dt mu tau dtMax : ℝ) : ℝ :=
  if dt < 1e-8 then 0
  else if dtMax - dt < 1e-8 then 0
  else
    let Z := dt * (dtMax - dt) / dtMax * sqrt2pi / Real.sqrt tau
    Real.exp (-tau / 2 * (cyLogit (dt / dtMax) - mu) ^ 2) / Z

/-- the product `W[C[par],C[n]] * ln_impulse(dt, mu[..], tau[..], dt_max)` of the kernels, with `dt = S[n] - S[par]` -/
noncomputable def parWeight (P : CTParams) (D : CTData) (n par : ℕ) : ℝ :=
  P.Weff (D.C par) (D.C n) * lnImpulse (D.S n - D.S par) (P.mu (D.C par) (D.C n)) (P.tau (D.C par) (D.C n)) P.dtMax

/-- `continuous_time_helpers.pyx:126-138` — the backward loop of `ct_resample_Z_logistic_normal`: `par = m-1, m-2, .., 0`; returns the accumulated `denom` and the value of `par` after
the loop (the index at which it broke off, or 0) -/
noncomputable def backScan (P : CTParams) (D : CTData) (n : ℕ) : ℕ → ℝ → ℕ → ℝ × ℕ
  | 0, denom, par => (denom, par)
  | m + 1, denom, _ =>
    let dt := D.S n - D.S m
    if dt < 1e-8 then backScan P D n m denom m
    else if P.dtMax - 1e-8 < dt then (denom, m)
    else backScan P D n m (denom + parWeight P D n m) m

/-- `continuous_time_helpers.pyx:147-157` — the forward loop: walk through the candidates until the accumulated probability exceeds `u`; `-2` if that never happens -/
noncomputable def fwdScan (P : CTParams) (D : CTData) (n : ℕ) (u denom : ℝ) : List ℕ → ℝ → ℤ
  | [], _ => -2
  | par :: rest, acc =>
    let dt := D.S n - D.S par
    if dt < 1e-8 then fwdScan P D n u denom rest acc
    else if dt ≤ P.dtMax - 1e-8 then
      let acc := acc + parWeight P D n par / denom
      if u < acc then (par : ℤ) else fwdScan P D n u denom rest acc
    else fwdScan P D n u denom rest acc

/-- `continuous_time_helpers.pyx:116-157` — body of the parallel loop for event `n`: the new value of `Z[n]`. Division by zero is an exception (`cdivision=False`). -/
noncomputable def resampleOne (P : CTParams) (D : CTData) (u : Vec ℝ) (n : ℕ) : Except PyErr ℤ :=
  if n = 0 then .ok (-1)
  else
    let r := backScan P D n n (P.lam0 (D.C n)) 0
    let denom := r.1
    let minPar := r.2
    if denom = 0 then .error .exception
    else
      let acc := P.lam0 (D.C n) / denom
      if u n < acc then .ok (-1) else .ok (fwdScan P D n (u n) denom (List.range' minPar (n - minPar)) acc)

/-- state of the parallel loop: how far each iteration has got, and the shared array `Z` -/
structure ParState where
  pc : ℕ → ℕ
  Z : ℕ → ℤ

/-- One step of iteration `n` of the parallel loop (`continuous_time_helpers.pyx:116-157`): first the write `Z[n] = -2`, then everything else, which reads only arrays that no iteration
writes and ends with the write of `Z[n]`; a finished iteration does nothing. -/
noncomputable def parStep (P : CTParams) (D : CTData) (u : Vec ℝ) (n : ℕ) (st : ParState) : Except PyErr ParState :=
  if st.pc n = 0 then .ok { pc := Vec.set st.pc n 1, Z := Vec.set st.Z n (-2) }
  else if st.pc n = 1 then
    match resampleOne P D u n with
    | .error e => .error e
    | .ok z => .ok { pc := Vec.set st.pc n 2, Z := Vec.set st.Z n z }
  else .ok st

/-- `continuous_time_helpers.pyx:97-157` — `ct_resample_Z_logistic_normal`: the threads advance the iterations of the `prange` in the order given by the schedule `sched`, a list of
iteration numbers (each occurrence is one step) -/
noncomputable def ctResamplePar (P : CTParams) (D : CTData) (u : Vec ℝ) (sched : List ℕ) (Z : ℕ → ℤ) : Except PyErr (ℕ → ℤ) :=
  match forListE sched (parStep P D u) ⟨fun _ => 0, Z⟩ with
  | .error e => .error e
  | .ok st => .ok st.Z

/-- `continuous_time_helpers.pyx:65-78` — backward loop of the serial kernel, which stores the weights in the buffer `p` -/
noncomputable def backScanBuf (P : CTParams) (D : CTData) (n : ℕ) : ℕ → Vec ℝ → ℝ → ℕ → Vec ℝ × ℝ × ℕ
  | 0, p, denom, par => (p, denom, par)
  | m + 1, p, denom, _ =>
    let dt := D.S n - D.S m
    if dt < 1e-8 then backScanBuf P D n m (Vec.set p m 0) denom m
    else if P.dtMax - 1e-8 < dt then (Vec.set p m 0, denom, m)
    else backScanBuf P D n m (Vec.set p m (parWeight P D n m)) (denom + parWeight P D n m) m

/-- `continuous_time_helpers.pyx:87-91` — forward loop of the serial kernel -/
noncomputable def fwdScanBuf (p : Vec ℝ) (u denom : ℝ) : List ℕ → ℝ → ℤ
  | [], _ => -2
  | par :: rest, acc =>
    let acc := acc + p par / denom
    if u < acc then (par : ℤ) else fwdScanBuf p u denom rest acc

/-- `continuous_time_helpers.pyx:54-95` — one iteration of the serial kernel; state: the buffer and `Z` -/
noncomputable def serialStep (P : CTParams) (D : CTData) (u : Vec ℝ) (n : ℕ) (st : Vec ℝ × (ℕ → ℤ)) : Except PyErr (Vec ℝ × (ℕ → ℤ)) :=
  if n = 0 then .ok (st.1, Vec.set st.2 n (-1))
  else
    let r := backScanBuf P D n n st.1 (P.lam0 (D.C n)) 0
    let p := r.1
    let denom := r.2.1
    let minPar := r.2.2
    if denom = 0 then .error .exception
    else
      let acc := P.lam0 (D.C n) / denom
      if u n < acc then .ok (p, Vec.set st.2 n (-1))
      else .ok (p, Vec.set st.2 n (fwdScanBuf p (u n) denom (List.range' minPar (n - minPar)) acc))

/-- `continuous_time_helpers.pyx:37-95` — `ct_resample_Z_logistic_normal_serial` -/
noncomputable def ctResampleSerial (P : CTParams) (D : CTData) (u : Vec ℝ) (Z : ℕ → ℤ) : Except PyErr (ℕ → ℤ) :=
  match forListE (List.range D.N) (serialStep P D u) (fun _ => 0, Z) with
  | .error e => .error e
  | .ok st => .ok st.2

/-! ### Sufficient statistics -/

/-- the five arrays filled by `ct_compute_suff_stats` -/
structure CTStats where
  bkgd : Vec ℝ
  weight : Mat ℝ
  imp0 : Mat ℝ
  imp1 : Mat ℝ
  imp2 : Mat ℝ

/-- the scaled lag `np.log(dt) - np.log(dt_max - dt)` of event `n` behind event `par` -/
noncomputable def scaledLag (D : CTData) (dtMax : ℝ) (n par : ℕ) : ℝ :=
  Real.log (D.S n - D.S par) - Real.log (dtMax - (D.S n - D.S par))

/-- `continuous_time_helpers.pyx:171-181` — first pass, one event. `par = Z[n]` is `-1` or is used as an array index. -/
noncomputable def stats1 (D : CTData) (dtMax : ℝ) (Z : ℕ → ℤ) (n : ℕ) (s : CTStats) : Except PyErr CTStats :=
  if Z n = -1 then .ok { s with bkgd := Vec.set s.bkgd (D.C n) (s.bkgd (D.C n) + 1) }
  else if Z n < 0 ∨ (D.N : ℤ) ≤ Z n then .error .index
  else
    let par := (Z n).toNat
    .ok { s with weight := Mat.set s.weight (D.C par) (D.C n) (s.weight (D.C par) (D.C n) + 1),
                 imp0 := Mat.set s.imp0 (D.C par) (D.C n) (s.imp0 (D.C par) (D.C n) + 1),
                 imp1 := Mat.set s.imp1 (D.C par) (D.C n) (s.imp1 (D.C par) (D.C n) + scaledLag D dtMax n par) }

/-- `continuous_time_helpers.pyx:183-189` — second pass, one event; `mu = imp_ss[1] / imp_ss[0]` -/
noncomputable def stats2 (D : CTData) (dtMax : ℝ) (Z : ℕ → ℤ) (mu : Mat ℝ) (n : ℕ) (s : CTStats) : Except PyErr CTStats :=
  if -1 < Z n then
    if (D.N : ℤ) ≤ Z n then .error .index
    else
      let par := (Z n).toNat
      .ok { s with imp2 := Mat.set s.imp2 (D.C par) (D.C n) (s.imp2 (D.C par) (D.C n) + (scaledLag D dtMax n par - mu (D.C par) (D.C n)) ^ 2) }
  else .ok s

open Classical in
/-- `continuous_time_helpers.pyx:159-191` — `ct_compute_suff_stats` on zeroed arrays, with the final `assert np.isfinite(imp_ss).all()`: the logarithms are finite exactly when every
assigned lag lies strictly between 0 and `dt_max` -/
noncomputable def ctSuffStats (D : CTData) (dtMax : ℝ) (Z : ℕ → ℤ) : Except PyErr CTStats :=
  match forListE (List.range D.N) (stats1 D dtMax Z) ⟨fun _ => 0, fun _ _ => 0, fun _ _ => 0, fun _ _ => 0, fun _ _ => 0⟩ with
  | .error e => .error e
  | .ok s =>
    let mu : Mat ℝ := fun i j => s.imp1 i j / s.imp0 i j
    match forListE (List.range D.N) (stats2 D dtMax Z mu) s with
    | .error e => .error e
    | .ok s => if ∃ n < D.N, -1 < Z n ∧ ¬ (0 < D.S n - D.S (Z n).toNat ∧ D.S n - D.S (Z n).toNat < dtMax) then .error .assertion else .ok s

open Classical in
/-- `parents.py:521-543` — `ContinuousTimeParents.resample` with its assertions -/
noncomputable def ctResample (P : CTParams) (u : Vec ℝ) (sched : List ℕ) (D : CTData) : Except PyErr CTData :=
  match ctResamplePar P D u sched D.Z with
  | .error e => .error e
  | .ok Z =>
    if ¬ ∀ n < D.N, -2 < Z n then .error .assertion
    else if ¬ ∀ n < D.N, Z n < n then .error .assertion
    else match ctSuffStats D P.dtMax Z with
      | .error e => .error e
      | .ok s =>
        if ¬ ∀ k < P.K, s.bkgd k + ∑ k1 ∈ range P.K, s.weight k1 k = (D.Ns k : ℝ) then .error .assertion
        else .ok { D with Z := Z, bkgd := s.bkgd, weight := s.weight, imp0 := s.imp0, imp1 := s.imp1, imp2 := s.imp2 }

/-! ### Rates at events and the log likelihood -/

/-- `continuous_time_helpers.pyx:209-226` — backward loop of `compute_rate_at_events` for event `n` -/
noncomputable def rateScan (P : CTParams) (D : CTData) (n : ℕ) : ℕ → ℝ → ℝ
  | 0, lam => lam
  | m + 1, lam =>
    let dt := D.S n - D.S m
    if dt < 1e-8 then rateScan P D n m lam
    else if P.dtMax - 1e-8 ≤ dt then lam
    else if 0 < P.Weff (D.C m) (D.C n) then rateScan P D n m (lam + parWeight P D n m)
    else rateScan P D n m lam

/-- `models.py:1703-1742`, `continuous_time_helpers.pyx:194-226` — `compute_rate_at_events`: each iteration of the parallel loop writes `lmbda[n]` only -/
noncomputable def rateAtEvents (P : CTParams) (D : CTData) : Vec ℝ := fun n => rateScan P D n n (0 + P.lam0 (D.C n))

/-- `continuous_time_helpers.pyx:241-257` — backward loop of `compute_weighted_impulses_at_events` for event `n`; `W` is the full weight matrix here -/
noncomputable def irScan (P : CTParams) (D : CTData) (n : ℕ) : ℕ → Vec ℝ → Vec ℝ
  | 0, lam => lam
  | m + 1, lam =>
    let dt := D.S n - D.S m
    if dt < 1e-8 then irScan P D n m lam
    else if P.dtMax - 1e-8 ≤ dt then lam
    else irScan P D n m (Vec.set lam (D.C m) (lam (D.C m) +
      P.W (D.C m) (D.C n) * lnImpulse dt (P.mu (D.C m) (D.C n)) (P.tau (D.C m) (D.C n)) P.dtMax))

/-- `weights.py:562-571` — `_compute_weighted_impulses_at_events(d)[n, k1]` -/
noncomputable def weightedImpulses (P : CTParams) (D : CTData) (n : ℕ) : Vec ℝ := irScan P D n n (fun _ => 0)

/-- `models.py:1744-1766` — `compute_integrated_rate(d)[k]`: `lambda0 * T + W_effective.T.dot(Ns)` -/
noncomputable def integratedRate (P : CTParams) (D : CTData) (k : ℕ) : ℝ := P.lam0 k * D.T + ∑ k1 ∈ range P.K, P.Weff k1 k * (D.Ns k1 : ℝ)

/-- `models.py:1778-1797` — `log_likelihood(data)` -/
noncomputable def ctLogLik (P : CTParams) (dl : List CTData) : ℝ :=
  dl.foldl (fun ll d => (ll - ∑ k ∈ range P.K, integratedRate P d k) + ∑ n ∈ range d.N, Real.log (rateAtEvents P d n)) 0

/-- `weights.py:588-600`, `parallel_adjacency_resampling.py:100-115` — `_log_likelihood_single_process(k)`, as a function of the adjacency column (`A_col` in the workers, `self.A[:,k]` serially) -/
noncomputable def ctLLCol (P : CTParams) (dl : List CTData) (k : ℕ) (Acol : Vec ℝ) : ℝ :=
  dl.foldl (fun ll d =>
    let ll := ll - P.lam0 k * d.T
    let ll := ll - ∑ k1 ∈ range P.K, Acol k1 * P.W k1 k * (d.Ns k1 : ℝ)
    ll + (((List.range d.N).filter fun n => d.C n = k).map fun n =>
      Real.log (P.lam0 k + ∑ k1 ∈ range P.K, Acol k1 * weightedImpulses P d n k1)).sum) 0

/-- `weights.py:602-628` — one entry of the serial sweep: deterministic cases first -/
noncomputable def ctSerialSite (P : CTParams) (p u : Mat ℝ) (dl : List CTData) (k1 k2 : ℕ) (A : Mat ℝ) : Mat ℝ :=
  if p k1 k2 = 0 then Mat.set A k1 k2 0
  else if p k1 k2 = 1 then Mat.set A k1 k2 1
  else
    let A := Mat.set A k1 k2 0
    let ll0 := ctLLCol P dl k2 (fun i => A i k2)
    let A := Mat.set A k1 k2 1
    let ll1 := ctLLCol P dl k2 (fun i => A i k2)
    Mat.set A k1 k2 (edgeDraw ll0 ll1 (p k1 k2) (u k1 k2))

/-- `weights.py:573-632` — `_resample_A_given_W` -/
noncomputable def ctSerialSweep (P : CTParams) (p u : Mat ℝ) (dl : List CTData) (A : Mat ℝ) : Mat ℝ :=
  forRange P.K (fun k1 A => forRange P.K (fun k2 A => ctSerialSite P p u dl k1 k2 A) A) A

/-- `parallel_adjacency_resampling.py:117-152` — `_ct_resample_column_of_A(k2)` -/
noncomputable def ctResampleColumn (P : CTParams) (p u : Mat ℝ) (dl : List CTData) (A : Mat ℝ) (k2 : ℕ) : Vec ℝ :=
  forRange P.K (colSite (ctLLCol P dl k2) (fun k1 => p k1 k2) (fun k1 => u k1 k2)) (fun k1 => A k1 k2)

/-- `weights.py:634-656` — `_joblib_resample_A_given_W` -/
noncomputable def ctParallelSweep (P : CTParams) (p u : Mat ℝ) (dl : List CTData) (order : List ℕ) (A : Mat ℝ) : Mat ℝ :=
  if dl.length = 0 then fun k1 k2 => if u k1 k2 < p k1 k2 then 1 else 0
  else
    let slots : ℕ → Vec ℝ := order.foldl (fun s k2 => fun j => if j = k2 then ctResampleColumn P p u dl A k2 else s j) (fun _ _ => 0)
    fun k1 k2 => slots k2 k1

/-- `weights.py:658-690` — arguments of the gamma draw for `W[k1,k2]`: `kappa + Zsum`, `V + N[:,None]*A` -/
noncomputable def ctWeightArgs (kappa : ℝ) (V A : Mat ℝ) (dl : List CTData) (k1 k2 : ℕ) : GammaArgs :=
  let Zsum := dl.foldl (fun acc d => acc + d.weight k1 k2) 0
  let N := dl.foldl (fun acc d => acc + (d.Ns k1 : ℝ)) 0
  { shape := kappa + Zsum, scale := 1 / (V k1 k2 + N * A k1 k2) }

/-- `bias.py:177-209` — arguments of the gamma draw for `lambda0[k]`: the statistics are assigned, not added, in the loop over data sets -/
noncomputable def ctBiasArgs (alpha beta : ℝ) (dl : List CTData) (k : ℕ) : GammaArgs :=
  let ss : ℝ × ℝ := dl.foldl (fun _ d => (d.bkgd k, d.T)) (0, 0)
  { shape := alpha + ss.1, scale := 1 / (beta + ss.2) }

/-! ### Adding data -/

/-- what `add_data(S, C, T)` is called with: lengths and values of the two arrays, whether they are one-dimensional numpy arrays, their dtypes, and whether `T` is a Python float -/
structure CTArgs where
  nS : ℕ
  S : Vec ℝ
  sIsArray : Bool
  sIsFloat : Bool
  nC : ℕ
  C : ℕ → ℤ
  cIsArray : Bool
  cIsInt : Bool
  T : ℝ
  tIsFloat : Bool

/-- `parents.py:491-513` — the new data set -/
noncomputable def newCTData (a : CTArgs) : CTData :=
  let C : ℕ → ℕ := fun n => (a.C n).toNat
  { N := a.nS, S := a.S, C := C, T := a.T, bkgd := fun k => (((List.range a.nS).filter fun n => C n = k).length : ℝ) }

open Classical in
/-- `models.py:1555-1586` with the assertions of `parents.py:499-500`. `S.min()` etc. of a nonempty array do not fail; an object without `ndim` raises `AttributeError`. -/
noncomputable def ctAddData (K : ℕ) (a : CTArgs) (dl : List CTData) : Except PyErr (List CTData) :=
  if a.tIsFloat = false then .error .assertion
  else if 0 < a.nS ∧ ¬ (a.sIsArray = true ∧ (∀ n < a.nS, 0 ≤ a.S n) ∧ (∀ n < a.nS, a.S n < a.T) ∧ a.sIsFloat = true) then .error .assertion
  else if 0 < a.nS ∧ ¬ (∀ n, n + 1 < a.nS → 0 ≤ a.S (n + 1) - a.S n) then .error .assertion
  else if 0 < a.nC ∧ ¬ (a.cIsArray = true ∧ a.nC = a.nS ∧ (∀ n < a.nC, 0 ≤ a.C n) ∧ (∀ n < a.nC, a.C n < K) ∧ a.cIsInt = true) then .error .assertion
  else if a.sIsArray = false ∨ a.cIsArray = false then .error .attribute
  else if ¬ (a.nS = a.nC) then .error .assertion
  else if ¬ (a.cIsInt = true ∧ (a.nC = 0 ∨ ((∀ n < a.nC, 0 ≤ a.C n) ∧ ∀ n < a.nC, a.C n < K))) then .error .assertion
  else .ok (dl ++ [newCTData a])

end PyHawkes
