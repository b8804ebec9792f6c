import Verif.Model.Standard
import Mathlib.Analysis.SpecialFunctions.Exp

/-!
# The nonlinear Hawkes processes (Poisson GLMs): `pyhawkes/standard_models.py`

Four node classes share one base class; a process is a list of `K` nodes, one per target process. Functions that change an object return the changed object together with the outcome, so that what a rejected
or interrupted call leaves behind is visible. A result that numpy would report as `nan` or `inf` is the error `silentNan`; it does not stop the Python program.
-/

namespace PyHawkes
open Finset

/-- the node classes `LinearHawkesNode`, `RectLinearHawkesNode`, `ExpNonlinearHawkesNode`, `HomogeneousPoissonNode` (`standard_models.py:145-189`) -/
inductive NLKind where
  | linear
  | relu
  | exp
  | homog
deriving DecidableEq

/-- `standard_models.py:156-157`, `:164-165`, `:172-173`, `:180-181` — `link(psi)` -/
noncomputable def NLKind.link : NLKind → ℝ → ℝ
  | .linear, psi => psi
  | .relu, psi => 1e-16 + Real.log (1 + Real.exp psi)
  | .exp, psi => Real.exp psi
  | .homog, psi => psi

/-- `standard_models.py:159-160`, `:167-168`, `:175-176`, `:183-184` — `invlink(lam)`; the logarithm of a number that is not positive is `-inf` or `nan` -/
noncomputable def NLKind.invlink : NLKind → ℝ → Except PyErr ℝ
  | .linear, lam => .ok lam
  | .relu, lam => if Real.exp lam - 1 ≤ 0 then .error .silentNan else .ok (Real.log (Real.exp lam - 1))
  | .exp, lam => if lam ≤ 0 then .error .silentNan else .ok (Real.log lam)
  | .homog, lam => .ok lam

/-- one entry `(F, S)` of a node's `data_list` (`standard_models.py:54`): `F` is `T × (1+K*B)`, `S` has length `T` -/
structure NLData where
  T : ℕ
  S : Vec ℕ
  F : Mat ℝ

/-- a node (`standard_models.py:36-43`); `none` for `sigma` or `lmbda` is `np.inf` -/
structure NLNode where
  kind : NLKind
  K : ℕ
  B : ℕ
  dt : ℝ
  sigma : Option ℝ
  lmbda : Option ℝ
  w : Vec ℝ
  data : List NLData

/-- number of weights: `1 + K*B` -/
abbrev NLNode.n (nd : NLNode) : ℕ := 1 + nd.K * nd.B

/-- `standard_models.py:36-43` — node constructor; the defaults are `sigma = lmbda = np.inf` -/
def nlNode (kind : NLKind) (K B : ℕ) (dt : ℝ) (sigma lmbda : Option ℝ := none) : NLNode :=
  { kind := kind, K := K, B := B, dt := dt, sigma := sigma, lmbda := lmbda, w := fun _ => 0, data := [] }

/-- `standard_models.py:45-54` — `node.add_data(F, S)` with `F` of shape `rows × cols` and `S` of length `T`, integer typed. If the bias column is missing, `np.hstack([np.ones((T,)), F])` joins a one-dimensional with a
two-dimensional array and raises `ValueError`. -/
def NLNode.addData (rows cols : ℕ) (F : Mat ℝ) (T : ℕ) (S : Vec ℕ) (nd : NLNode) : Except PyErr NLNode :=
  if T ≠ rows then .error .assertion
  else if cols = nd.K * nd.B then .error .value
  else if cols ≠ 1 + nd.K * nd.B then .error .assertion
  else .ok { nd with data := nd.data ++ [⟨T, S, F⟩] }

/-- `standard_models.py:56-67` — `initialize_to_background_rate`. A total time of zero divides by zero. -/
noncomputable def NLNode.initBackground (nd : NLNode) : Except PyErr NLNode :=
  let w : Vec ℝ := fun _ => 1e-6 * 1
  if 0 < nd.data.length then
    let N : ℝ := nd.data.foldl (fun acc D => acc + ∑ t ∈ range D.T, (D.S t : ℝ)) 0
    let T : ℝ := nd.data.foldl (fun acc D => acc + (D.T : ℝ) * nd.dt) 0
    if T = 0 then .error .silentNan
    else match nd.kind.invlink (N / T) with
      | .error e => .error e
      | .ok lambda0 => .ok { nd with w := fun c => if c = 0 then lambda0 else w c }
  else .ok { nd with w := w }

/-- `F.dot(w)` (`standard_models.py:77`, `:87`) -/
noncomputable def NLNode.psi (nd : NLNode) (D : NLData) (w : Vec ℝ) (t : ℕ) : ℝ := ∑ c ∈ range nd.n, D.F t c * w c

/-- `standard_models.py:76-79`, `:86-89` — `np.sum(S * np.log(lam) - lam*dt)` of one data set; the logarithm of a rate that is not positive (times a count that may be 0) is `-inf` or `nan` -/
noncomputable def NLNode.llData (nd : NLNode) (w : Vec ℝ) (D : NLData) : Except PyErr ℝ :=
  if ∃ t < D.T, nd.kind.link (nd.psi D w t) ≤ 0 then .error .silentNan
  else .ok (∑ t ∈ range D.T, ((D.S t : ℝ) * Real.log (nd.kind.link (nd.psi D w t)) - nd.kind.link (nd.psi D w t) * nd.dt))

/-- `standard_models.py:76-79` — the loop body of `log_likelihood` -/
noncomputable def NLNode.llStep (nd : NLNode) (D : NLData) (ll : ℝ) : Except PyErr ℝ :=
  match nd.llData nd.w D with
  | .error e => .error e
  | .ok x => .ok (ll + x)

/-- `standard_models.py:69-81` — `node.log_likelihood(index)` -/
noncomputable def NLNode.logLik (nd : NLNode) (index : Option ℤ) : Except PyErr ℝ :=
  match index with
  | none => forListE nd.data nd.llStep 0
  | some i => match pyIdx nd.data.length i with
    | none => .error .index
    | some j => match nd.data[j]? with
      | none => .error .index
      | some D => forListE [D] nd.llStep 0

/-- `standard_models.py:86-90` — the loop body of `objective` -/
noncomputable def NLNode.objStep (nd : NLNode) (w : Vec ℝ) (N : ℝ) (D : NLData) (obj : ℝ) : Except PyErr ℝ :=
  match nd.llData w D with
  | .error e => .error e
  | .ok x => .ok (obj - x / N)

/-- `standard_models.py:94` — the `L2` penalty `0.5 * sum(w[1:]**2) / sigma**2`; dividing by an infinite `sigma**2` gives 0, by zero `nan` or `inf` -/
noncomputable def NLNode.l2 (nd : NLNode) (w : Vec ℝ) : Except PyErr ℝ :=
  match nd.sigma with
  | none => .ok 0
  | some s => if s ^ 2 = 0 then .error .silentNan else .ok (0.5 * (∑ c ∈ Ico 1 nd.n, w c ^ 2) / s ^ 2)

/-- `standard_models.py:95` — the `L1` penalty `sum(abs(w[1:]) * lmbda)`; with `lmbda = inf` every term is `inf` or `nan` -/
noncomputable def NLNode.l1 (nd : NLNode) (w : Vec ℝ) : Except PyErr ℝ :=
  match nd.lmbda with
  | none => if 1 < nd.n then .error .silentNan else .ok 0
  | some l => .ok (∑ c ∈ Ico 1 nd.n, |w c| * l)

/-- `standard_models.py:83-99` — `objective(w)`; with no event every division by `N` is a division by zero -/
noncomputable def NLNode.objective (nd : NLNode) (w : Vec ℝ) : Except PyErr ℝ :=
  let N : ℝ := (nd.data.map fun D => ∑ t ∈ range D.T, (D.S t : ℝ)).sum
  if N = 0 then .error .silentNan
  else match forListE nd.data (nd.objStep w N) 0 with
    | .error e => .error e
    | .ok obj => match nd.l2 w with
      | .error e => .error e
      | .ok p2 => match nd.l1 w with
        | .error e => .error e
        | .ok p1 => .ok (obj + p2 / N + p1 / N)

/-- `standard_models.py:107-108`, `:146-154` — the box handed to the optimiser: for the linear node every weight is at least `1e-16`, the other classes are unconstrained -/
def NLNode.inBox (nd : NLNode) (w : Vec ℝ) : Prop := nd.kind = .linear → ∀ c < nd.n, 1e-16 ≤ w c

/-- `standard_models.py:101-126`, `:186-189` — `node.fit_with_bfgs()`. `opt` is the outcome `res.x` of `scipy.optimize.minimize` on this node's objective and box. The homogeneous node sets the background rate
and zeroes the other weights. -/
noncomputable def NLNode.fit (opt : NLNode → Vec ℝ) (nd : NLNode) : Except PyErr NLNode :=
  match nd.kind with
  | .homog => match nd.initBackground with
    | .error e => .error e
    | .ok nd' => .ok { nd' with w := fun c => if 1 ≤ c then 0 else nd'.w c }
  | _ => .ok { nd with w := opt nd }

/-! ### Processes -/

/-- a process (`standard_models.py:200-230`) -/
structure NLProc where
  kind : NLKind
  K : ℕ
  B : ℕ
  L : ℕ
  dt : ℝ
  basis : Mat ℝ
  nodes : List NLNode

/-- `standard_models.py:200-230` — constructor, with the basis object already made; the default of `lmbda` is 0 -/
def nlNew (kind : NLKind) (K B L : ℕ) (dt : ℝ) (basis : Mat ℝ) (sigma : Option ℝ := none) (lmbda : Option ℝ := some 0) : NLProc :=
  { kind := kind, K := K, B := B, L := L, dt := dt, basis := basis, nodes := (List.range K).map fun _ => nlNode kind K B dt sigma lmbda }

/-- `full_W = np.array([node.w for node in self.nodes])` (`standard_models.py:238`), a copy -/
def NLProc.fullW (P : NLProc) : Mat ℝ := fun k c => match P.nodes[k]? with
  | some nd => nd.w c
  | none => 0

/-- `standard_models.py:236-246` — property `W` -/
noncomputable def NLProc.getW (P : NLProc) : Mat ℝ := fun k1 k2 => ∑ b ∈ range P.B, P.fullW k2 (1 + k1 * P.B + b)

/-- `standard_models.py:248-267` — property `G`: here the array is a copy, so nothing is written back. A zero row sum divides `0/0`, and comparisons with `nan` are false, so such rows stay `nan`. -/
noncomputable def NLProc.getG (P : NLProc) : Except PyErr (Ten ℝ) :=
  let WT : Mat ℝ := fun i j => ∑ b ∈ range P.B, P.fullW i (1 + j * P.B + b)
  if ∃ i < P.K, ∃ j < P.K, WT i j = 0 then .error .silentNan
  else
    let G : Ten ℝ := fun k1 k2 b => P.fullW k2 (1 + k1 * P.B + b) / WT k2 k1
    .ok fun k1 k2 b => if ∑ b ∈ range P.B, G k1 k2 b < 1e-2 then 1 / (P.B : ℝ) else G k1 k2 b

/-- `standard_models.py:269-272` — property `bias` -/
def NLProc.getBias (P : NLProc) : Vec ℝ := fun k => P.fullW k 0

/-- arguments of `add_data(S, F)`; `F` with its shape -/
structure NLArgs where
  T : ℕ
  KS : ℕ
  isInt : Bool
  S : Mat ℤ
  F : Option (ℕ × ℕ × Mat ℝ)

/-- `standard_models.py:287-303` — the matrix handed to the nodes, with its shape: `F` as given or the filtered counts, flattened, after a column of ones. The debug assertions compare a reshaped array with itself. -/
noncomputable def nlFilter (a : NLArgs) (P : NLProc) : Except PyErr (ℕ × ℕ × Mat ℝ) :=
  match a.F with
  | some q => .ok q
  | none => match convolve a.T P.K P.L P.B P.basis (fun t k => (a.S t k : ℝ)) with
    | .error e => .error e
    | .ok F => .ok (a.T, 1 + P.K * P.B, fun t => consVec 1 (ravel P.B (F t)))

/-- `standard_models.py:305-306` — the loop over the nodes from node `k` on: the nodes before a failing one have already been changed. `crash = some j` interrupts before node `j` is served. -/
def nlAddLoop (crash : Option ℕ) (rows cols : ℕ) (F : Mat ℝ) (T : ℕ) (S : Mat ℤ) : ℕ → List NLNode → List NLNode × Except PyErr Unit
  | _, [] => ([], .ok ())
  | k, nd :: nds =>
    if crash = some k then (nd :: nds, .error .exception)
    else match nd.addData rows cols F T (fun t => (S t k).toNat) with
      | .error e => (nd :: nds, .error e)
      | .ok nd' =>
        let r := nlAddLoop crash rows cols F T S (k + 1) nds
        (nd' :: r.1, r.2)

/-- `standard_models.py:274-306` — `add_data(S, F)` -/
noncomputable def nlAddData (crash : Option ℕ) (a : NLArgs) (P : NLProc) : NLProc × Except PyErr Unit :=
  if a.KS ≠ P.K then (P, .error .assertion)
  else if a.T = 0 ∨ a.KS = 0 then (P, .error .value)
  else if ¬ ((∀ t < a.T, ∀ k < a.KS, 0 ≤ a.S t k) ∧ a.isInt = true) then (P, .error .assertion)
  else match nlFilter a P with
    | .error e => (P, .error e)
    | .ok q =>
      let r := nlAddLoop crash q.1 q.2.1 q.2.2 a.T a.S 0 P.nodes
      ({ P with nodes := r.1 }, r.2)

/-- `standard_models.py:308-310` — `remove_data(index)`: `del node.data_list[index]` node by node -/
def nlRemoveLoop (index : ℤ) : List NLNode → List NLNode × Except PyErr Unit
  | [] => ([], .ok ())
  | nd :: nds => match pyIdx nd.data.length index with
    | none => (nd :: nds, .error .index)
    | some j =>
      let r := nlRemoveLoop index nds
      ({ nd with data := nd.data.eraseIdx j } :: r.1, r.2)

/-- `standard_models.py:308-310` — `remove_data(index)` -/
def nlRemoveData (index : ℤ) (P : NLProc) : NLProc × Except PyErr Unit :=
  let r := nlRemoveLoop index P.nodes
  ({ P with nodes := r.1 }, r.2)

/-- `standard_models.py:312-314` — one term of `log_likelihood` -/
noncomputable def nlLLStep (index : Option ℤ) (nd : NLNode) (ll : ℝ) : Except PyErr ℝ :=
  match nd.logLik index with
  | .error e => .error e
  | .ok x => .ok (ll + x)

/-- `standard_models.py:312-314` — `log_likelihood(index)` -/
noncomputable def nlLogLik (index : Option ℤ) (P : NLProc) : Except PyErr ℝ := forListE P.nodes (nlLLStep index) 0

/-- `standard_models.py:316-320` — `heldout_log_likelihood(S, F)`. `crash` interrupts while the likelihood is evaluated. A `nan` result does not raise. -/
noncomputable def nlHeldout (crash : Bool) (a : NLArgs) (P : NLProc) : NLProc × Except PyErr ℝ :=
  match nlAddData none a P with
  | (P1, .error e) => (P1, .error e)
  | (P1, .ok ()) =>
    if crash then (P1, .error .exception)
    else
      let hll := nlLogLik (some (-1)) P1
      if hll = .error .index then (P1, .error .index)
      else match nlRemoveData (-1) P1 with
        | (P2, .error e) => (P2, .error e)
        | (P2, .ok ()) => (P2, hll)

/-- `standard_models.py:129-142` — `copy_node()`: the node afterwards and the copy; `crash` interrupts during the deep copy -/
def NLNode.copyNode (crash : Bool) (nd : NLNode) : NLNode × Except PyErr NLNode :=
  let dataList := nd.data
  let nd1 := { nd with data := [] }
  if crash then (nd1, .error .exception) else ({ nd1 with data := dataList }, .ok nd1)

/-- `standard_models.py:330` — `[n.copy_node() for n in nodes_original]` from node `k` on: the original nodes afterwards and the copies -/
def nlCopyLoop (crash : Option ℕ) : ℕ → List NLNode → List NLNode × Except PyErr (List NLNode)
  | _, [] => ([], .ok [])
  | k, nd :: nds => match nd.copyNode (crash == some k) with
    | (nd', .error e) => (nd' :: nds, .error e)
    | (nd', .ok c) => match nlCopyLoop crash (k + 1) nds with
      | (nds', .error e) => (nd' :: nds', .error e)
      | (nds', .ok cs) => (nd' :: nds', .ok (c :: cs))

/-- `standard_models.py:322-335` — `copy_sample()`. `crash = some k` with `k < K` interrupts the deep copy of node `k`, `some K` the deep copy of the object (whose nodes are then the data-less copies). -/
def nlCopySample (crash : Option ℕ) (P : NLProc) : NLProc × Except PyErr NLProc :=
  match nlCopyLoop crash 0 P.nodes with
  | (nds, .error e) => ({ P with nodes := nds }, .error e)
  | (nds, .ok cs) =>
    let P1 := { P with nodes := cs }
    if crash = some P.nodes.length then (P1, .error .exception) else ({ P1 with nodes := nds }, .ok P1)

/-- one step of the loops `standard_models.py:232-234`, `:337-342` that call a method of every node in turn; `nan` results do not stop the loop but are reported -/
def nlMapNodes (f : NLNode → Except PyErr NLNode) : List NLNode → Except PyErr (List NLNode)
  | [] => .ok []
  | nd :: nds => match f nd with
    | .error e => .error e
    | .ok nd' => match nlMapNodes f nds with
      | .error e => .error e
      | .ok nds' => .ok (nd' :: nds')

/-- `standard_models.py:232-234` — `initialize_to_background_rate()` -/
noncomputable def nlInit (P : NLProc) : Except PyErr NLProc :=
  match nlMapNodes NLNode.initBackground P.nodes with
  | .error e => .error e
  | .ok nds => .ok { P with nodes := nds }

/-- `standard_models.py:337-342` — `fit_with_bfgs()` -/
noncomputable def nlFit (opt : NLNode → Vec ℝ) (P : NLProc) : Except PyErr NLProc :=
  match nlMapNodes (NLNode.fit opt) P.nodes with
  | .error e => .error e
  | .ok nds => .ok { P with nodes := nds }

/-! ### Histories -/

/-- one call of the user -/
inductive NLOp where
  | addData (a : NLArgs)
  | removeData (index : ℤ)
  | heldout (a : NLArgs)
  | copySample
  | init
  | fit (opt : NLNode → Vec ℝ)
  | logLik (index : Option ℤ)

/-- the object after a call; an exception is caught by the user and the object is used further. Simplification: an `initialize_to_background_rate` or `fit_with_bfgs` whose result is not finite leaves the model as it was. -/
noncomputable def nlCall (op : NLOp) (P : NLProc) : NLProc :=
  match op with
  | .addData a => (nlAddData none a P).1
  | .removeData i => (nlRemoveData i P).1
  | .heldout a => (nlHeldout false a P).1
  | .copySample => (nlCopySample none P).1
  | .init => match nlInit P with | .ok P' => P' | .error _ => P
  | .fit opt => match nlFit opt P with | .ok P' => P' | .error _ => P
  | .logLik _ => P

/-- a sequence of calls -/
noncomputable def nlRun (ops : List NLOp) (P : NLProc) : NLProc := ops.foldl (fun P op => nlCall op P) P

end PyHawkes
