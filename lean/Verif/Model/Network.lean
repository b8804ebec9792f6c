import Verif.Model.Distributions
import Verif.Model.Gibbs

/-!
# Network models: `pyhawkes/internals/network.py`

Not modelled: `LatentDistanceAdjacencyModel` (needs the external package `graphistician`), `rvs` (raises). `np.int` is assumed to exist
(numpy < 1.24). The random draws are oracles that receive the arguments of the generator call.
-/

namespace PyHawkes
open Finset

/-- a matrix argument: `None`, a Python scalar, or an array of some shape -/
inductive MatArg where
  | none
  | scalar (x : ℝ)
  | array (n m : ℕ) (a : Mat ℝ)

/-- a label argument: `None` or an integer array of some length -/
inductive LabArg where
  | none
  | array (n : ℕ) (a : ℕ → ℤ)

/-- what `x in tuple` sees of an object when it looks for `None` -/
inductive PyVal where
  | none | scalar
  | array (size : ℕ)

def MatArg.val : MatArg → PyVal
  | .none => .none
  | .scalar _ => .scalar
  | .array n m _ => .array (n * m)

def LabArg.val : LabArg → PyVal
  | .none => .none
  | .array n _ => .array n

/-- `None in (x, y, ..)`: elements are tested from the left with `x is None or x == None`. With `elementwise = true` (numpy 1.13 and later)
comparing an array with `None` gives an array, whose truth value is an error unless it has at most one element; with `false` (older numpy) it is
`False`. -/
def noneIn (elementwise : Bool) : List PyVal → Except PyErr Bool
  | [] => .ok false
  | .none :: _ => .ok true
  | .scalar :: l => noneIn elementwise l
  | .array n :: l => if elementwise ∧ 1 < n then .error .value else noneIn elementwise l

/-- the attributes of a block model object -/
structure SBM where
  K : ℕ
  C : ℕ
  pi : Vec ℝ
  tau0 : ℝ
  tau1 : ℝ
  kappa : ℝ
  alpha : ℝ
  beta : ℝ
  allowSelf : Bool
  m : Vec ℝ
  c : ℕ → ℕ
  p : Mat ℝ
  v : Mat ℝ
  fixed : Bool
  mfPi : Vec ℝ
  mfM : Mat ℝ
  mfTau0 : Mat ℝ
  mfTau1 : Mat ℝ
  mfAlpha : Mat ℝ
  mfBeta : Mat ℝ

/-- constructor arguments; `pi` and `m` are given as vectors of the right length (`pi` scalar is the constant vector) -/
structure SBMArgs where
  K : ℕ
  C : ℕ
  c : LabArg
  pi : Vec ℝ
  m : Option (Vec ℝ)
  p : MatArg
  tau0 : ℝ
  tau1 : ℝ
  v : MatArg
  alpha : ℝ
  beta : ℝ
  kappa : ℝ
  allowSelf : Bool

/-- the random draws of the constructors: of the base class (`m`, `c`, `p`, `v`), of `MeanFieldSBM` (`mfM`) and of `GibbsSBM` (`c'`, `p'`, `v'`) -/
structure SBMDraws where
  m : Vec ℝ
  c : ℕ → ℕ
  p : Mat ℝ
  v : Mat ℝ
  mfM : Mat ℝ
  c' : ℕ → ℕ
  p' : Mat ℝ
  v' : Mat ℝ

/-- `network.py:88-95` -/
noncomputable def sbmInitM (a : SBMArgs) (draw : Vec ℝ) : Except PyErr (Vec ℝ) :=
  match a.m with
  | none => .ok draw
  | some m => if |∑ i ∈ range a.C, m i - 1| ≤ 1e-8 + 1e-5 ∧ ∀ i < a.C, 0 ≤ m i then .ok m else .error .assertion

/-- `network.py:97-104` -/
noncomputable def sbmInitC (a : SBMArgs) (draw : ℕ → ℕ) : Except PyErr (ℕ → ℕ) :=
  match a.c with
  | .none => .ok draw
  | .array n c => if n = a.K ∧ ∀ i < a.K, 0 ≤ c i ∧ c i ≤ a.C - 1 then .ok (fun i => (c i).toNat) else .error .assertion

/-- `network.py:106-117`, `:760-768` — the block probabilities: a scalar is broadcast; out of range or of the wrong shape is an assertion error -/
noncomputable def sbmInitP (C : ℕ) (p : MatArg) (draw : Mat ℝ) : Except PyErr (Mat ℝ) :=
  match p with
  | .none => .ok draw
  | .scalar x => if 0 ≤ x ∧ x ≤ 1 then .ok (fun _ _ => x * 1) else .error .assertion
  | .array n m a => if n = C ∧ m = C ∧ ∀ i < C, ∀ j < C, 0 ≤ a i j ∧ a i j ≤ 1 then .ok a else .error .assertion

/-- `network.py:119-130` -/
noncomputable def sbmInitV (C : ℕ) (v : MatArg) (draw : Mat ℝ) : Except PyErr (Mat ℝ) :=
  match v with
  | .none => .ok draw
  | .scalar x => if 0 ≤ x then .ok (fun _ _ => x * 1) else .error .assertion
  | .array n m a => if n = C ∧ m = C ∧ ∀ i < C, ∀ j < C, 0 ≤ a i j then .ok a else .error .assertion

/-- `network.py:61-137` — `_StochasticBlockModelBase.__init__`, followed by the mean-field initialisation `network.py:307-330` -/
noncomputable def sbmBase (elementwise : Bool) (a : SBMArgs) (d : SBMDraws) : Except PyErr SBM :=
  if a.C < 1 then .error .assertion else
  match sbmInitM a d.m with
  | .error e => .error e
  | .ok m =>
  match sbmInitC a d.c with
  | .error e => .error e
  | .ok c =>
  match sbmInitP a.C a.p d.p with
  | .error e => .error e
  | .ok p =>
  match sbmInitV a.C a.v d.v with
  | .error e => .error e
  | .ok v =>
  match noneIn elementwise [a.c.val, a.p.val, a.v.val] with
  | .error e => .error e
  | .ok b =>
    .ok { K := a.K, C := a.C, pi := a.pi, tau0 := a.tau0, tau1 := a.tau1, kappa := a.kappa, alpha := a.alpha, beta := a.beta,
          allowSelf := a.allowSelf, m := m, c := c, p := p, v := v, fixed := !b,
          mfPi := fun _ => 1, mfM := d.mfM, mfTau0 := fun _ _ => a.tau0 * 1, mfTau1 := fun _ _ => a.tau1 * 1,
          mfAlpha := fun _ _ => a.alpha * 1, mfBeta := fun _ _ => a.beta * 1 }

/-- `network.py:190-211` (with `:732-733`) — constructor of `StochasticBlockModel`: `GibbsSBM.__init__` redraws `c`, `m`, `p`, `v` unless fixed -/
noncomputable def sbmNew (elementwise : Bool) (a : SBMArgs) (d : SBMDraws) : Except PyErr SBM :=
  match sbmBase elementwise a d with
  | .error e => .error e
  | .ok n => .ok (if n.fixed then n else { n with c := d.c', m := fun _ => 1 / a.C * 1, p := d.p', v := d.v' })

/-- `network.py:743-768` — constructor of `StochasticBlockModelFixedSparsity` (`tau0 = tau1 = 0.1`): `p` is set again at the end -/
noncomputable def sbmFixedNew (elementwise : Bool) (a : SBMArgs) (d : SBMDraws) : Except PyErr SBM :=
  match a.p with
  | .none => .error .assertion
  | _ =>
    match sbmNew elementwise { a with tau0 := 0.1, tau1 := 0.1 } d with
    | .error e => .error e
    | .ok n => match sbmInitP a.C a.p (fun _ _ => 0) with
      | .error e => .error e
      | .ok p => .ok { n with p := p }

/-- `network.py:880-889` — constructor of `ErdosRenyiModel`: one block, `c = np.zeros(K)` -/
noncomputable def erNew (elementwise : Bool) (K : ℕ) (p v : MatArg) (tau0 tau1 alpha beta kappa : ℝ) (d : SBMDraws) : Except PyErr SBM :=
  sbmNew elementwise { K := K, C := 1, c := .array K (fun _ => 0), pi := fun _ => 1, m := none, p := p, tau0 := tau0, tau1 := tau1, v := v,
                       alpha := alpha, beta := beta, kappa := kappa, allowSelf := true } d

/-- `network.py:139-148` — property `P` -/
noncomputable def SBM.P (n : SBM) : Mat ℝ := fun i j => if !n.allowSelf ∧ i = j then 0 else n.p (n.c i) (n.c j)
/-- `network.py:150-156` — property `V` -/
def SBM.V (n : SBM) : Mat ℝ := fun i j => n.v (n.c i) (n.c j)

/-! ### Gibbs updates -/

/-- arguments of `np.random.beta(a, b)` -/
structure BetaArgs where
  a : ℝ
  b : ℝ

/-- sum of `f` over the submatrix `X[np.ix_(c==c1, c==c2)]` -/
noncomputable def blockSum (n : SBM) (c1 c2 : ℕ) (f : ℕ → ℕ → ℝ) : ℝ :=
  ∑ i ∈ range n.K, ∑ j ∈ range n.K, if n.c i = c1 ∧ n.c j = c2 then f i j else 0

/-- `network.py:213-227` — arguments of the beta draw for `p[c1,c2]` -/
noncomputable def sbmPArgs (n : SBM) (A : Mat ℝ) (c1 c2 : ℕ) : BetaArgs :=
  { a := n.tau1 + blockSum n c1 c2 fun i j => A i j, b := n.tau0 + blockSum n c1 c2 fun i j => 1 - A i j }

/-- `network.py:229-240` — arguments of the gamma draw for `v[c1,c2]` -/
noncomputable def sbmVArgs (n : SBM) (A W : Mat ℝ) (c1 c2 : ℕ) : GammaArgs :=
  let alpha := n.alpha + (blockSum n c1 c2 fun i j => A i j) * n.kappa
  let beta := n.beta + blockSum n c1 c2 fun i j => if 0 < A i j then W i j else 0
  { shape := alpha, scale := 1 / beta }

/-- `network.py:248-281` — the log weights `lp` for the label of node `k` (`m` entries are positive: a Dirichlet draw or `1/C`) -/
noncomputable def sbmLp (huge : ℝ) (n : SBM) (A W : Mat ℝ) (k ck : ℕ) : ℝ :=
  let c' : ℕ → ℕ := Vec.set n.c k ck
  let lp := 0 + Real.log (n.m ck)
  let lp := lp + ∑ j ∈ range n.K, bernLogProb huge (n.p ck (c' j)) (A k j)
  let lp := lp + ∑ j ∈ range n.K, bernLogProb huge (n.p (c' j) ck) (A j k)
  let lp := lp + ∑ j ∈ range n.K, A k j * gammaLogProb huge n.kappa (n.v ck (c' j)) (W k j)
  lp + ∑ j ∈ range n.K, A j k * gammaLogProb huge n.kappa (n.v (c' j) ck) (W j k)

/-- `network.py:286-290` — argument of the Dirichlet draw for `m`: `pi + np.bincount(c, minlength=C)` -/
noncomputable def sbmMArgs (n : SBM) (b : ℕ) : ℝ := n.pi b + ∑ k ∈ range n.K, if n.c k = b then 1 else 0

/-- the random draws of one `resample` call -/
structure SBMOracle where
  beta : ℕ → ℕ → BetaArgs → ℝ
  gamma : ℕ → ℕ → GammaArgs → ℝ
  label : ℕ → Vec ℝ → ℕ
  dirichlet : Vec ℝ → Vec ℝ

/-- `network.py:213-227` — `resample_p`. The arguments do not depend on `self.p`, so the double loop is written as one update. -/
noncomputable def sbmResampleP (o : SBMOracle) (A : Mat ℝ) (n : SBM) : SBM :=
  { n with p := fun c1 c2 => if c1 < n.C ∧ c2 < n.C then o.beta c1 c2 (sbmPArgs n A c1 c2) else n.p c1 c2 }

/-- `network.py:229-240` — `resample_v` -/
noncomputable def sbmResampleV (o : SBMOracle) (A W : Mat ℝ) (n : SBM) : SBM :=
  { n with v := fun c1 c2 => if c1 < n.C ∧ c2 < n.C then o.gamma c1 c2 (sbmVArgs n A W c1 c2) else n.v c1 c2 }

/-- `network.py:242-284` — `resample_c`: labels are redrawn one node at a time, each seeing the earlier redraws -/
noncomputable def sbmResampleC (huge : ℝ) (o : SBMOracle) (A W : Mat ℝ) (n : SBM) : SBM :=
  if n.C = 1 then n
  else forRange n.K (fun k n => { n with c := Vec.set n.c k (o.label k (sbmLp huge n A W k)) }) n

/-- `network.py:286-291` — `resample_m` -/
noncomputable def sbmResampleM (o : SBMOracle) (n : SBM) : SBM := { n with m := o.dirichlet (sbmMArgs n) }

/-- `network.py:293-302` — `GibbsSBM.resample` -/
noncomputable def sbmResample (huge : ℝ) (o : SBMOracle) (A W : Mat ℝ) (n : SBM) : SBM :=
  if n.fixed then n
  else sbmResampleM o (sbmResampleC huge o A W (sbmResampleV o A W (sbmResampleP o A n)))

/-- `network.py:784-791` — `StochasticBlockModelFixedSparsity.resample` -/
noncomputable def sbmFixedResample (huge : ℝ) (o : SBMOracle) (A W : Mat ℝ) (n : SBM) : SBM :=
  if n.fixed then n
  else sbmResampleM o (sbmResampleC huge o A W (sbmResampleV o A W n))

/-! ### `ErdosRenyiFixedSparsity` -/

/-- attributes of the object; `mf` is `none` when the attributes `mf_alpha`, `mf_beta` do not exist -/
structure ERFixed where
  K : ℕ
  p : ℝ
  kappa : ℝ
  v : ℝ
  alpha : Option ℝ
  beta : Option ℝ
  allowSelf : Bool
  mf : Option (ℝ × ℝ)

/-- Python truth of an optional number -/
noncomputable def truthy : Option ℝ → Bool
  | none => false
  | some x => decide (x ≠ 0)

/-- `network.py:896-926` — constructor of `ErdosRenyiFixedSparsity` (`beta` nonzero when used as divisor) -/
noncomputable def erFixedNew (K : ℕ) (p kappa : ℝ) (alpha beta v : Option ℝ) (allowSelf : Bool) : Except PyErr ERFixed :=
  let fin (v : ℝ) (alpha beta : Option ℝ) : Except PyErr ERFixed :=
    .ok { K := K, p := p, kappa := kappa, v := v, alpha := alpha, beta := beta, allowSelf := allowSelf,
          mf := match alpha, beta with
            | some a, some b => if truthy (some a) && truthy (some b) then some (a, b) else none
            | _, _ => none }
  match alpha, beta, v with
  | none, none, none => fin (K * kappa * p / 0.5) none none
  | _, _, some v => fin v none none
  | some a, some b, none => fin (a / b) (some a) (some b)
  | some a, none, none => fin (a / (a * K)) (some a) (some (a * K))
  | none, some _, none => .error .notImplemented

/-- `network.py:929-937` — property `P` -/
noncomputable def ERFixed.P (n : ERFixed) : Mat ℝ := fun i j => if !n.allowSelf ∧ i = j then 0 else n.p * 1
/-- `network.py:939-945` — property `V` -/
noncomputable def ERFixed.V (n : ERFixed) : Mat ℝ := fun _ _ => n.v * 1

/-- `network.py:970-976` — arguments of the gamma draw for `v` -/
noncomputable def erVArgs (n : ERFixed) (alpha beta : ℝ) (A W : Mat ℝ) : GammaArgs :=
  let a := alpha + (∑ i ∈ range n.K, ∑ j ∈ range n.K, A i j) * n.kappa
  let b := beta + ∑ i ∈ range n.K, ∑ j ∈ range n.K, if 0 < A i j then W i j else 0
  { shape := a, scale := 1 / b }

/-- `network.py:978-981` — `resample`: only when both hyperparameters are truthy -/
noncomputable def erResample (gamma : GammaArgs → ℝ) (A W : Mat ℝ) (n : ERFixed) : ERFixed :=
  match n.alpha, n.beta with
  | some a, some b => if truthy (some a) && truthy (some b) then { n with v := gamma (erVArgs n a b A W) } else n
  | _, _ => n

end PyHawkes
