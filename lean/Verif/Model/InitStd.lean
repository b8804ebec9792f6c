import Verif.Model.Standard
import Verif.Model.GibbsModel
import Verif.Model.Variational
import Mathlib.Data.List.Sort
import Mathlib.Algebra.Order.Archimedean.Real.Basic
import Mathlib.Algebra.Order.Floor.Semiring

/-!
# Starting a network model from a standard model: `initialize_with_standard_model` (`pyhawkes/models.py:655-710`, `:1273-1295`)
-/

namespace PyHawkes
open Finset

/-- `numpy.percentile(l, q)` with the default (linear) method, for a nonempty array: the entry at position `(n-1)*q/100` of the sorted array, interpolated linearly between neighbours -/
noncomputable def npPercentile (l : List ℝ) (q : ℝ) : Except PyErr ℝ :=
  if ¬ (0 ≤ q ∧ q ≤ 100) then .error .value
  else
    let s := l.insertionSort (· ≤ ·)
    let v : ℝ := ((l.length - 1 : ℕ) : ℝ) * (q / 100)
    let i := ⌊v⌋₊
    let lo := s.getD i 0
    let hi := s.getD (min (i + 1) (l.length - 1)) 0
    .ok (lo + (v - i) * (hi - lo))

/-- a `K × K` array read in C order -/
def flatK (K : ℕ) (W : Mat ℝ) : List ℝ := (List.range (K * K)).map fun i => W (i / K) (i % K)

/-- `models.py:687-689` — impulse weights clipped below at `1e-2` and normalised over the basis -/
noncomputable def clipNormG (B : ℕ) (G : Ten ℝ) : Ten ℝ :=
  let g : Ten ℝ := fun i j b => max (1e-2) (G i j b)
  fun i j b => g i j b / ∑ b ∈ range B, g i j b

/-- `models.py:700` — mean of the `C × C` array `network.p` (a scalar is the case `C = 1`) -/
noncomputable def meanP (C : ℕ) (p : Mat ℝ) : ℝ := (∑ c ∈ range C, ∑ d ∈ range C, p c d) / ((C : ℝ) * C)

/-- `models.py:673-710` — `initialize_with_standard_model(standard_model)` with a model given. Returns the network model and the standard model as it is afterwards: reading `standard_model.G`
(line 687) writes into it, after `W` has been read (line 683). The mean of an empty `p` is `nan`, which `percentile` rejects. -/
noncomputable def initWithStandard (isStd : Bool) (C : ℕ) (p : Mat ℝ) (M : StdModel) (s : HawkesState) : Except PyErr (HawkesState × StdModel) :=
  if isStd = false then .error .assertion
  else if M.K ≠ s.base.K then .error .assertion
  else if M.B ≠ s.base.B then .error .assertion
  else
    let lam0 := M.getBias
    match M.getW with
    | .error e => .error e
    | .ok W0 =>
      let W : Mat ℝ := fun i j => W0 i j + 1e-6
      match M.getG with
      | .error e => .error e
      | .ok (G, M') =>
        let g := clipNormG s.base.B G
        if C = 0 then .error .value
        else match npPercentile (flatK s.base.K W) ((1 - meanP C p) * 100) with
          | .error e => .error e
          | .ok thr =>
            let A : Mat ℝ := fun i j => if W i j > thr then 1 else 0
            .ok ({ s with base := { s.base with lam0 := lam0, g := g }, A := A, W := W }, M')

/-- `models.py:664-672`, `:683-710` — `initialize_with_standard_model()` with no model given: make one with the default prior (`alpha = beta = 1`, `models.py:29-34`), add the counts of every data set, set the
background rate, fit by BFGS (`opt` is the optimiser, as in `fitBfgs`). `args` are `K`, `dt`, `B` of the network model and the default basis for them. -/
noncomputable def initWithFreshStandard (opt : ℕ → StdModel → Vec ℝ) (L : ℕ) (basis : Mat ℝ) (C : ℕ) (p : Mat ℝ) (s : HawkesState) : Except PyErr HawkesState :=
  match stdNew { K := s.base.K, B := s.base.B, L := L, dt := s.base.dt, alpha := 1, beta := 1, allowInstantaneous := false, allowSelf := true, wMax := none, basis := basis } with
  | .error e => .error e
  | .ok M0 =>
    match forListE s.data (fun (D : DParents ℝ) (M : StdModel) =>
        stdAddData { T := D.T, KS := s.base.K, isInt := true, S := fun t k => (D.S t k : ℤ), F := none, minibatch := none } M) M0 with
    | .error e => .error e
    | .ok M1 => match initBackground M1 with
      | .error e => .error e
      | .ok M2 => match initWithStandard true C p (fitBfgs opt M2) s with
        | .error e => .error e
        | .ok r => .ok r.1

/-- `models.py:1273-1295` — the gamma-mixture model also sets its variational parameters from the new `lambda0`, `W`, `A`, `g` -/
noncomputable def gmInitWithStandard (s : HawkesState) (V : MFModel) : MFModel :=
  { V with
    bias := { V.bias with mfAlpha := fun k => max (1e-8) (100 * s.base.lam0 k), mfBeta := fun _ => 100 * 1 }
    w := { V.w with mfKappa0 := fun i j => V.w.nu0 * s.W i j
                    mfV0 := fun _ _ => V.w.nu0 * 1
                    mfKappa1 := fun i j => 100 * s.W i j
                    mfV1 := fun _ _ => 100 * 1
                    mfP := fun i j => 0.8 * s.A i j + 0.2 * (1 - s.A i j) }
    imp := { V.imp with mfGamma := fun i j b => 100 * s.base.g i j b } }

/-- `models.py:1221-1227` — the spike-and-slab model draws new parents for every data set after the base class has set the parameters. `mult i k j` is the outcome of the `j`-th multinomial draw for process `k` of
data set `i`, as in `resample_model`. -/
noncomputable def ssInitWithStandard (isStd : Bool) (C : ℕ) (p : Mat ℝ) (useGsl : Bool) (mult : ℕ → ℕ → ℕ → ℕ → Vec ℝ → Vec ℕ) (M : StdModel) (s : HawkesState) :
    Except PyErr (HawkesState × StdModel) :=
  match initWithStandard isStd C p M s with
  | .error e => .error e
  | .ok r => match resampleDataList r.1.params useGsl mult r.1.data with
    | .error e => .error e
    | .ok dl => .ok ({ r.1 with data := dl }, r.2)

end PyHawkes
