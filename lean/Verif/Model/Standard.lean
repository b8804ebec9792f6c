import Verif.Model.DParents
import Mathlib.Analysis.SpecialFunctions.Log.Basic

/-!
# The standard Hawkes model: `DiscreteTimeStandardHawkesModel` (`pyhawkes/models.py:24-525`)

Column `0` of the weight matrix and of the filtered data is the bias, column `1 + k1*B + b` belongs to source process `k1` and basis function `b`.
-/

namespace PyHawkes
open Finset

/-- one entry `(S, F)` of `data_list` (`models.py:196`, `:199`); `add_data` does not check the shape `rows × cols` of an `F` given by the caller -/
structure StdData where
  T : ℕ
  S : Mat ℕ
  rows : ℕ
  cols : ℕ
  F : Mat ℝ

/-- the attributes of the object (`models.py:42-75`) -/
structure StdModel where
  K : ℕ
  B : ℕ
  L : ℕ
  dt : ℝ
  alpha : ℝ
  beta : ℝ
  allowSelf : Bool
  wMax : Option ℝ
  basis : Mat ℝ
  weights : Mat ℝ
  data : List StdData

/-- number of columns of `weights`: `1 + K*B` -/
abbrev StdModel.n (M : StdModel) : ℕ := 1 + M.K * M.B

/-- constructor arguments (`models.py:29-34`), with the basis object already made -/
structure StdArgs where
  K : ℕ
  B : ℕ
  L : ℕ
  dt : ℝ
  alpha : ℝ
  beta : ℝ
  allowInstantaneous : Bool
  allowSelf : Bool
  wMax : Option ℝ
  basis : Mat ℝ

/-- `models.py:77-79` — `_remove_self_weights`: `weights[k, 1+k*B : 1+(k+1)*B] = 1e-32` for every `k` -/
noncomputable def removeSelfWeights (K B : ℕ) (w : Mat ℝ) : Mat ℝ :=
  forRange K (fun k (w : Mat ℝ) => fun i c => if i = k ∧ 1 + k * B ≤ c ∧ c < 1 + (k + 1) * B then 1e-32 else w i c) w

/-- `models.py:29-75` — constructor -/
noncomputable def stdNew (a : StdArgs) : Except PyErr StdModel :=
  if a.allowInstantaneous && a.allowSelf then .error .assertion
  else if ¬ (a.alpha ≥ 1) then .error .assertion
  else
    let w : Mat ℝ := fun _ _ => 1e-3 * 1
    let w := if !a.allowSelf then removeSelfWeights a.K a.B w else w
    .ok { K := a.K, B := a.B, L := a.L, dt := a.dt, alpha := a.alpha, beta := a.beta, allowSelf := a.allowSelf, wMax := a.wMax, basis := a.basis,
          weights := w, data := [] }

/-- what `initialize_with_gibbs_model` reads of the network model -/
structure GibbsView where
  isNetworkModel : Bool
  P : NetParams ℝ

/-- `models.py:81-103` — `initialize_with_gibbs_model`. Line 92 ends in a comma, so `lambda0` is a tuple with one element, the array of length `K`:
`lambda0[0]` is the whole array (assigning it to one cell works only if it has one element, else `ValueError`) and `lambda0[k]`, `k ≥ 1`, is out of range.
With `K = 1` the array has one element. On an exception nothing has been written. -/
noncomputable def initWithGibbs (g : GibbsView) (M : StdModel) : Except PyErr StdModel :=
  if g.isNetworkModel = false then .error .assertion
  else if g.P.K ≠ M.K then .error .assertion
  else if g.P.B ≠ M.B then .error .assertion
  else if 1 < M.K then .error .value
  else
    let w : Mat ℝ := forRange M.K (fun k (w : Mat ℝ) => fun i c =>
        if i = k ∧ c = 0 then g.P.lam0 k
        else if i = k ∧ c < 1 + M.K * M.B then g.P.Weff ((c - 1) / M.B) k * g.P.g ((c - 1) / M.B) k ((c - 1) % M.B)
        else w i c) M.weights
    let w := if !M.allowSelf then removeSelfWeights M.K M.B w else w
    .ok { M with weights := w }

/-- `models.py:105-115` — `initialize_to_background_rate`; dividing by `T * dt = 0` gives `nan`. The `N += S.sum(axis=0)` and `T += S.shape[0]*dt` loops are folds. -/
noncomputable def initBackground (M : StdModel) : Except PyErr StdModel :=
  if 0 < M.data.length then
    let N : Vec ℝ := fun k => M.data.foldl (fun acc D => acc + ∑ t ∈ range D.T, (D.S t k : ℝ)) 0
    let T : ℝ := M.data.foldl (fun acc D => acc + (D.T : ℝ) * M.dt) 0
    if T = 0 then .error .silentNan
    else .ok { M with weights := fun i c => if c = 0 then N i / T else M.weights i c }
  else .ok M

/-- `models.py:117-135` — property `W`; the debug assertions compare a reshaped view with the array it views, they only fail (with an `IndexError`) on an empty array -/
noncomputable def StdModel.getW (M : StdModel) : Except PyErr (Mat ℝ) :=
  if M.K = 0 ∨ M.B = 0 then .error .index
  else .ok fun k1 k2 => ∑ b ∈ range M.B, M.weights k2 (1 + k1 * M.B + b)

/-- `models.py:137-139` — property `bias` -/
def StdModel.getBias (M : StdModel) : Vec ℝ := fun k => M.weights k 0

/-- `models.py:141-152` — property `G`. `weights[:,1:].reshape((K,K,B))` splits an axis of a strided array, which numpy does without copying, so `G /= W` writes into `self.weights`:
reading the property returns a value and a changed model. A zero row sum divides `0/0`. -/
noncomputable def StdModel.getG (M : StdModel) : Except PyErr (Ten ℝ × StdModel) :=
  let Wsum : Mat ℝ := fun i j => ∑ b ∈ range M.B, M.weights i (1 + j * M.B + b)
  if ∃ i < M.K, ∃ j < M.K, Wsum i j = 0 then .error .silentNan
  else
    let w : Mat ℝ := fun i c => if i < M.K ∧ 1 ≤ c ∧ c < 1 + M.K * M.B then M.weights i c / Wsum i ((c - 1) / M.B) else M.weights i c
    .ok (fun k1 k2 b => w k2 (1 + k1 * M.B + b), { M with weights := w })

/-- arguments of `add_data`; `F` with its shape -/
structure StdAddArgs where
  T : ℕ
  KS : ℕ
  isInt : Bool
  S : Mat ℤ
  F : Option (ℕ × ℕ × Mat ℝ)
  minibatch : Option ℤ

/-- `models.py:191-193` — rows `off .. fin-1` of a data set -/
def StdData.slice (D : StdData) (off fin : ℕ) : StdData :=
  { T := fin - off, S := fun t => D.S (off + t), rows := min fin D.rows - off, cols := D.cols, F := fun t => D.F (off + t) }

/-- `models.py:175-184` — the data set `(S, F)`: `F` as given, or the filtered counts flattened as `[ones, F00, F01, ..]` -/
noncomputable def stdMakeData (a : StdAddArgs) (M : StdModel) : Except PyErr StdData :=
  match a.F with
  | some (r, c, F) => .ok ⟨a.T, fun t k => (a.S t k).toNat, r, c, F⟩
  | none => match convolve a.T M.K M.L M.B M.basis (fun t k => (a.S t k : ℝ)) with
    | .error e => .error e
    | .ok F => .ok ⟨a.T, fun t k => (a.S t k).toNat, a.T, 1 + M.K * M.B, fun t => consVec 1 (ravel M.B (F t))⟩

/-- `models.py:155-199` — `add_data`: check the counts, filter them and flatten `[ones, F00, F01, ..]` if `F` is not given, append one data set or one per minibatch -/
noncomputable def stdAddData (a : StdAddArgs) (M : StdModel) : Except PyErr StdModel :=
  if a.KS ≠ M.K then .error .assertion
  else if a.T = 0 ∨ a.KS = 0 then .error .value
  else if ¬ ((∀ t < a.T, ∀ k < a.KS, 0 ≤ a.S t k) ∧ a.isInt = true) then .error .assertion
  else
    match stdMakeData a M with
    | .error e => .error e
    | .ok D => match a.minibatch with
      | none => .ok { M with data := M.data ++ [D] }
      | some m =>
        if m = 0 then .error .exception
        else if m < 0 then .ok M
        else .ok { M with data := M.data ++ (mbBounds a.T m.toNat).map fun b => D.slice b.1 b.2 }

/-- `models.py:201-215` — `check_stability`: `self.weights.sum(axis=2)` of a two-dimensional array raises `AxisError` -/
def StdModel.checkStability (_M : StdModel) : Except PyErr Bool := .error .axis

/-! ### Rates, likelihood, prior -/

/-- Python list indexing: `i` may be negative; `none` if out of range -/
def pyIdx (n : ℕ) (i : ℤ) : Option ℕ :=
  if 0 ≤ i ∧ i < n then some i.toNat else if i < 0 ∧ -(n : ℤ) ≤ i then some (i + n).toNat else none

/-- the argument `ks`: `None`, a Python `int`, an index array, something else -/
inductive KsArg where
  | none
  | int (k : ℕ)
  | arr (l : List ℕ)
  | other

/-- `models.py:248-263` — which processes are evaluated; `np.concatenate` of an empty list raises `ValueError` -/
def KsArg.cols (K : ℕ) : KsArg → Except PyErr (List ℕ)
  | .none => if K = 0 then .error .value else .ok (List.range K)
  | .int k => if k < K then .ok [k] else .error .index
  | .arr l => if l = [] then .error .value else if ∀ k ∈ l, k < K then .ok l else .error .index
  | .other => .error .exception

/-- `models.py:251`, `:256` — `F.dot(weights[k,:])[t]` -/
noncomputable def StdModel.rate (M : StdModel) (D : StdData) (k t : ℕ) : ℝ := ∑ c ∈ range M.n, D.F t c * M.weights k c

/-- `models.py:233-260` — `compute_rate(index, ks)`: one column per process -/
noncomputable def stdComputeRate (M : StdModel) (index : Option ℤ) (ks : KsArg) : Except PyErr (List (Vec ℝ)) :=
  match pyIdx M.data.length (index.getD 0) with
  | none => .error .index
  | some i => match M.data[i]? with
    | none => .error .index
    | some D => match ks.cols M.K with
      | .error e => .error e
      | .ok cs => if D.cols ≠ M.n then .error .value else .ok (cs.map fun k t => M.rate D k t)

/-- `models.py:266-275` — the loop body of `log_prior`. The logarithm of a weight that is not positive is `-inf` or `nan`. -/
noncomputable def stdPriorStep (M : StdModel) (k : ℕ) (lp : ℝ) : Except PyErr ℝ :=
  if M.alpha > 1 ∧ ∃ c < M.n, 1 ≤ c ∧ M.weights k c ≤ 0 then .error .silentNan
  else
    let lp := if M.alpha > 1 then lp + (M.alpha - 1) * ∑ c ∈ Ico 1 M.n, Real.log (M.weights k c) else lp
    .ok (lp + ∑ c ∈ Ico 1 M.n, -M.beta * M.weights k c)

/-- `models.py:262-276` — `log_prior(ks)`; iterating over `None` or an int raises `TypeError` -/
noncomputable def stdLogPrior (M : StdModel) (ks : KsArg) : Except PyErr ℝ :=
  match ks with
  | .arr l =>
    if ¬ ∀ k ∈ l, k < M.K then .error .index
    else forListE l (stdPriorStep M) 0
  | _ => .error .type

/-- `(S[:,k] * np.log(R[:,k]) - R[:,k]*dt).sum()` -/
noncomputable def StdModel.llTerm (M : StdModel) (D : StdData) (k : ℕ) : ℝ :=
  ∑ t ∈ range D.T, ((D.S t k : ℝ) * Real.log (M.rate D k t) - M.rate D k t * M.dt)

/-- the argument `indices`: `None`, a Python `int`, a list or array of integers -/
inductive IdxArg where
  | none
  | int (i : ℤ)
  | list (l : List ℤ)

/-- `models.py:285-288` — the data sets that are visited -/
def IdxArg.list' (len : ℕ) : IdxArg → List ℤ
  | .none => (List.range len).map fun (i : ℕ) => (i : ℤ)
  | .int i => [i]
  | .list l => l

/-- `models.py:288-296` — what one data set adds to the log likelihood. If some rate is not positive, its logarithm, multiplied by a count that may be 0, makes the result `nan` or `-inf`.
Simplification: `S` and `R` with different numbers of rows raise `ValueError` (numpy would broadcast a single row). -/
noncomputable def stdLLInc (M : StdModel) (ks : KsArg) (i : ℤ) : Except PyErr ℝ :=
  match stdComputeRate M (some i) ks with
  | .error e => .error e
  | .ok _ => match pyIdx M.data.length i with
    | none => .error .index
    | some j => match M.data[j]? with
      | none => .error .index
      | some D => match ks.cols M.K with
        | .error e => .error e
        | .ok cs =>
          if D.rows ≠ D.T then .error .value
          else if ∃ k ∈ cs, ∃ t < D.T, M.rate D k t ≤ 0 then .error .silentNan
          else .ok (cs.map fun k => M.llTerm D k).sum

/-- `models.py:288-297` — the loop body of `log_likelihood`: `ll += ..` -/
noncomputable def stdLLStep (M : StdModel) (ks : KsArg) (i : ℤ) (ll : ℝ) : Except PyErr ℝ :=
  match stdLLInc M ks i with
  | .error e => .error e
  | .ok x => .ok (ll + x)

/-- `models.py:278-299` — `log_likelihood(indices, ks)` -/
noncomputable def stdLogLik (M : StdModel) (indices : IdxArg) (ks : KsArg) : Except PyErr ℝ :=
  forListE (indices.list' M.data.length) (stdLLStep M ks) 0

/-- `models.py:294-300` — `log_posterior(indices, ks)`: `ks = None` becomes `np.arange(K)` -/
noncomputable def stdLogPost (M : StdModel) (indices : IdxArg) (ks : KsArg) : Except PyErr ℝ :=
  let ks := match ks with | .none => .arr (List.range M.K) | k => k
  match stdLogLik M indices ks with
  | .error e => .error e
  | .ok lp => match stdLogPrior M ks with
    | .error e => .error e
    | .ok lq => .ok (lp + lq)

/-! ### Gradient -/

/-- `models.py:349-357`, `:359-362`, `:322-330` — contribution of one data set: `d_ll_d_rate.dot(F)`, with `d_ll_d_rate = S[:,k]/rate - dt*ones` -/
noncomputable def StdModel.gradData (M : StdModel) (D : StdData) (k : ℕ) : Vec ℝ := fun c =>
  ∑ t ∈ range D.T, ((D.S t k : ℝ) / M.rate D k t - M.dt * 1) * D.F t c

/-- `models.py:392-405` — `_d_log_prior_d_W(k)` -/
noncomputable def StdModel.gradPrior (M : StdModel) (k : ℕ) : Vec ℝ := fun c =>
  if c = 0 then 0 else (if M.alpha > 1 then 0 + (M.alpha - 1) / M.weights k c else 0) + -M.beta

/-- `models.py:322-332` — the loop body of `compute_gradient` for one data set -/
noncomputable def stdGradBody (M : StdModel) (k : ℕ) (i : ℤ) (g : Vec ℝ) : Except PyErr (Vec ℝ) :=
  match stdComputeRate M (some i) (.int k) with
  | .error e => .error e
  | .ok _ => match pyIdx M.data.length i with
    | none => .error .index
    | some j => match M.data[j]? with
      | none => .error .index
      | some D =>
        if D.rows ≠ D.T then .error .value
        else if ∃ t < D.T, M.rate D k t = 0 then .error .silentNan
        else .ok fun c => g c + M.gradData D k c

/-- `models.py:308-347` — `compute_gradient(k, indices)`. `np.allclose(x, 0)` is `|x| ≤ 1e-8`. A zero rate (or zero weight when `alpha > 1`) divides by zero. -/
noncomputable def stdGradient (M : StdModel) (k : ℕ) (indices : IdxArg) : Except PyErr (Vec ℝ) :=
  match forListE (indices.list' M.data.length) (stdGradBody M k) (fun _ => 0) with
  | .error e => .error e
  | .ok g =>
    if ¬ k < M.K then .error .index
    else if M.alpha > 1 ∧ ∃ c < M.n, 1 ≤ c ∧ M.weights k c = 0 then .error .silentNan
    else
      let g : Vec ℝ := fun c => g c + M.gradPrior k c
      if !M.allowSelf then
        if ¬ ∀ c < 1 + (k + 1) * M.B, 1 + k * M.B ≤ c → |M.weights k c| ≤ 1e-8 then .error .assertion
        else .ok fun c => if 1 + k * M.B ≤ c ∧ c < 1 + (k + 1) * M.B then 0 else g c
      else .ok g

/-- write row `k` of the weight matrix: `self.weights[k,:] = x` -/
def StdModel.setRow (M : StdModel) (k : ℕ) (x : Vec ℝ) : StdModel := { M with weights := fun i => if i = k then x else M.weights i }

/-- `models.py:364-370`, `:425-430` — the log-space gradient `compute_gradient(k).dot(diag(weights[k,:]))` -/
noncomputable def stdLogGradient (M : StdModel) (k : ℕ) (indices : IdxArg) : Except PyErr (Vec ℝ) :=
  match stdGradient M k indices with
  | .error e => .error e
  | .ok g => .ok fun c => ∑ d ∈ range M.n, g d * (if d = c then M.weights k d else 0)

/-! ### Optimisers -/

/-- `np.exp(np.log(w) + v)` on a row; the logarithm of a weight that is not positive is `-inf` or `nan` -/
noncomputable def expStep (n : ℕ) (w v : Vec ℝ) : Except PyErr (Vec ℝ) :=
  if ∃ c < n, w c ≤ 0 then .error .silentNan else .ok fun c => Real.exp (Real.log (w c) + v c)

/-- `models.py:482-489` — one process: `grad[k,:] = compute_gradient_in_log_space`, `weights[k,:] = exp(log(weights[k,:]) + stepsz*grad[k,:])` -/
noncomputable def gradStepBody (stepsz : ℝ) (k : ℕ) (st : StdModel × Mat ℝ) : Except PyErr (StdModel × Mat ℝ) :=
  match stdLogGradient st.1 k .none with
  | .error e => .error e
  | .ok g => match expStep st.1.n (st.1.weights k) (fun c => stepsz * g c) with
    | .error e => .error e
    | .ok w => .ok (st.1.setRow k w, fun i => if i = k then g else st.2 i)

/-- `models.py:479-492` — `gradient_descent_step(stepsz)`: one pass over the processes, each seeing the rows already changed; then the log likelihood. Returns the new model, the value and the gradient rows.
Simplification: on an exception (or `nan`) the rows already written are not kept. -/
noncomputable def gradStep (stepsz : ℝ) (M : StdModel) : Except PyErr (StdModel × ℝ × Mat ℝ) :=
  match forListE (List.range M.K) (gradStepBody stepsz) (M, fun _ _ => 0) with
  | .error e => .error e
  | .ok st => match stdLogLik st.1 .none .none with
    | .error e => .error e
    | .ok ll => .ok (st.1, ll, st.2)

/-- `models.py:508-520` — one process of `sgd_step`: `velocity[k,:] = momentum*prev_velocity[k,:] + learning_rate*grad[k,:]/T`, `weights[k,:] = exp(log(weights[k,:]) + velocity[k,:])` -/
noncomputable def sgdStepBody (i T : ℕ) (prev : Mat ℝ) (lr momentum : ℝ) (k : ℕ) (st : StdModel × Mat ℝ) : Except PyErr (StdModel × Mat ℝ) :=
  match stdLogGradient st.1 k (.list [(i : ℤ)]) with
  | .error e => .error e
  | .ok g =>
    let v : Vec ℝ := fun c => momentum * prev k c + lr * (g c / (T : ℝ))
    match expStep st.1.n (st.1.weights k) v with
    | .error e => .error e
    | .ok w => .ok (st.1.setRow k w, fun j => if j = k then v else st.2 j)

/-- `models.py:494-525` — `sgd_step(prev_velocity, learning_rate, momentum)`; `mb` is the outcome of `np.random.choice(len(data_list))` (which raises for an empty list). Returns model, log likelihood, velocity. -/
noncomputable def stdSgdStep (mb : ℕ → ℕ) (prev : Option (Mat ℝ)) (lr momentum : ℝ) (M : StdModel) : Except PyErr (StdModel × ℝ × Mat ℝ) :=
  let prev : Mat ℝ := prev.getD fun _ _ => 0
  if M.data.length = 0 then .error .value
  else
    let i := mb M.data.length
    match M.data[i]? with
    | none => .error .index
    | some D =>
      if D.T = 0 then .error .silentNan else
      match forListE (List.range M.K) (sgdStepBody i D.T prev lr momentum) (M, fun _ _ => 0) with
      | .error e => .error e
      | .ok st => match stdLogLik st.1 .none .none with
        | .error e => .error e
        | .ok ll => .ok (st.1, ll, st.2)

/-- `models.py:447-477` — `fit_with_bfgs`. `opt k M` is what `scipy.optimize.minimize` returns (`res.x`) for process `k` when the model is `M`. The objective and gradient callbacks overwrite row `k` only,
and the final assignment overwrites it again, so only the optimum is left. -/
noncomputable def fitBfgs (opt : ℕ → StdModel → Vec ℝ) (M : StdModel) : StdModel :=
  forRange M.K (fun k M => M.setRow k (opt k M)) M

/-- `models.py:456-458` — the objective handed to the optimiser: write `x` into row `k`, return minus the log posterior of process `k` -/
noncomputable def bfgsObjective (M : StdModel) (k : ℕ) (x : Vec ℝ) : Except PyErr ℝ :=
  match stdLogPost (M.setRow k x) .none (.arr [k]) with
  | .error e => .error e
  | .ok v => .ok (-v)

/-- `models.py:451-454` — the bounds handed to the optimiser: at least `1e-16`; at most `W_max` except for the bias -/
def InBfgsBox (M : StdModel) (x : Vec ℝ) : Prop :=
  ∀ c < M.n, 1e-16 ≤ x c ∧ (1 ≤ c → ∀ m ∈ M.wMax, x c ≤ m)

/-! ### Held-out evaluation and copying, with the point at which an exception interrupts the call -/

/-- `models.py:302-306` — `heldout_log_likelihood(S)`: the state of the object afterwards and the outcome. `crash = some 0` interrupts the call before `add_data` has appended, `some 1` while the
log likelihood is evaluated, `some 2` after the data set has been popped. A `nan` result does not raise. -/
noncomputable def stdHeldout (crash : Option ℕ) (T KS : ℕ) (isInt : Bool) (S : Mat ℤ) (M : StdModel) : StdModel × Except PyErr ℝ :=
  if crash = some 0 then (M, .error .exception)
  else match stdAddData { T := T, KS := KS, isInt := isInt, S := S, F := none, minibatch := none } M with
    | .error e => (M, .error e)
    | .ok M1 =>
      if crash = some 1 then (M1, .error .exception)
      else match stdLogLik M1 (.int (-1)) .none with
        | .error .silentNan => ({ M1 with data := M1.data.dropLast }, .error .silentNan)
        | .error e => (M1, .error e)
        | .ok v => ({ M1 with data := M1.data.dropLast }, if crash = some 2 then .error .exception else .ok v)

/-- `models.py:217-231` — `copy_sample()`: the data list is taken off the object, the object is deep-copied, the list is put back. `crash = some 0` interrupts before the list is taken off,
`some 1` during the deep copy, `some 2` after the list is back. -/
def stdCopySample (crash : Option ℕ) (M : StdModel) : StdModel × Except PyErr StdModel :=
  if crash = some 0 then (M, .error .exception)
  else
    let dataList := M.data
    let M' := { M with data := [] }
    if crash = some 1 then (M', .error .exception)
    else
      let copy := M'
      let M'' := { M' with data := dataList }
      (M'', if crash = some 2 then .error .exception else .ok copy)

/-! ### Histories -/

/-- the velocity argument of `sgd_step`: `None`, what the previous call returned, or an array of the caller's -/
inductive VelArg where
  | none
  | last
  | given (v : Mat ℝ)

/-- one call of the user -/
inductive StdOp where
  | addData (a : StdAddArgs)
  | gradStep (stepsz : ℝ)
  | sgd (mb : ℕ → ℕ) (prev : VelArg) (lr momentum : ℝ)

/-- the model together with the velocity returned by the last `sgd_step` -/
structure StdRun where
  M : StdModel
  vel : Option (Mat ℝ)

/-- the value of the velocity argument -/
def VelArg.get (s : StdRun) : VelArg → Option (Mat ℝ)
  | .none => Option.none
  | .last => s.vel
  | .given v => some v

/-- the outcome of one call -/
noncomputable def stdCall (op : StdOp) (s : StdRun) : Except PyErr StdRun :=
  match op with
  | .addData a => match stdAddData a s.M with | .ok M => .ok { s with M := M } | .error e => .error e
  | .gradStep st => match PyHawkes.gradStep st s.M with | .ok r => .ok { s with M := r.1 } | .error e => .error e
  | .sgd mb prev lr mom =>
    match stdSgdStep mb (prev.get s) lr mom s.M with | .ok r => .ok { M := r.1, vel := some r.2.2 } | .error e => .error e

/-- the state after one call; a call that raises leaves the state as it was (see the simplification at `gradStep`) -/
noncomputable def stdStep (s : StdRun) (op : StdOp) : StdRun := match stdCall op s with | .ok s' => s' | .error _ => s

/-- run a sequence of calls -/
noncomputable def stdRun (ops : List StdOp) (s : StdRun) : StdRun := ops.foldl stdStep s

end PyHawkes
