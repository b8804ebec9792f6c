import Verif.Model.Nonlinear
import Verif.Spec.Standard
import Verif.Spec.Basis

/-!
# Specification vocabulary for the nonlinear models
-/

namespace PyHawkes.Spec
open Finset

/-- a whole data set as the user sees it: `T` bins, counts of all processes, regressors -/
structure NLSet where
  T : ℕ
  S : Mat ℕ
  F : Mat ℝ

/-- what node `k` must hold of a data set: the regressors and column `k` of the counts -/
def NLSet.col (k : ℕ) (D : NLSet) : NLData := ⟨D.T, fun t => D.S t k, D.F⟩

/-- the inputs that `add_data` is meant to accept: a nonempty `T × K` integer array without negative entries, and regressors, if given, of shape `T × (1 + K*B)` -/
def NLValid (K B : ℕ) (a : NLArgs) : Prop :=
  a.KS = K ∧ 0 < a.T ∧ 0 < K ∧ (∀ t < a.T, ∀ k < K, 0 ≤ a.S t k) ∧ a.isInt = true ∧ ∀ r c F, a.F = some (r, c, F) → r = a.T ∧ c = 1 + K * B

/-- `D` is the data set described by the arguments: the same counts, and the given regressors or else a constant 1 followed by the causally filtered counts, source by source -/
def NLSetOf (K B L : ℕ) (basis : Mat ℝ) (a : NLArgs) (D : NLSet) : Prop :=
  D.T = a.T ∧ (∀ t < a.T, ∀ k < K, ((D.S t k : ℕ) : ℤ) = a.S t k) ∧ (∀ r c F, a.F = some (r, c, F) → D.F = F) ∧
    (a.F = none → ∀ t < a.T, D.F t 0 = 1 ∧ ∀ k < K, ∀ b < B, D.F t (1 + k * B + b) = filtered L basis (fun t k => (a.S t k : ℝ)) t k b)

/-- position meant by a Python index into a list of length `n` (negative indices count from the end) -/
def PyPos (n : ℕ) (i : ℤ) (j : ℕ) : Prop := j < n ∧ (i = j ∨ i = (j : ℤ) - n)

/-- how one call changes the list of data sets the user has in mind. `add_data` appends the data set if it is acceptable, `remove_data` deletes the entry meant by its index if there is one; everything else, and everything rejected,
changes nothing. -/
inductive NLEffect (K B L : ℕ) (basis : Mat ℝ) : NLOp → List NLSet → List NLSet → Prop
  | add {a : NLArgs} {l : List NLSet} {D : NLSet} (hv : NLValid K B a) (hD : NLSetOf K B L basis a D) : NLEffect K B L basis (.addData a) l (l ++ [D])
  | addRejected {a : NLArgs} {l : List NLSet} (hv : ¬ NLValid K B a) : NLEffect K B L basis (.addData a) l l
  | remove {i : ℤ} {l : List NLSet} {j : ℕ} (hj : PyPos l.length i j) : NLEffect K B L basis (.removeData i) l (l.eraseIdx j)
  | removeRejected {i : ℤ} {l : List NLSet} (hj : ∀ j, ¬ PyPos l.length i j) : NLEffect K B L basis (.removeData i) l l
  | heldout {a : NLArgs} {l : List NLSet} : NLEffect K B L basis (.heldout a) l l
  | copySample {l : List NLSet} : NLEffect K B L basis .copySample l l
  | init {l : List NLSet} : NLEffect K B L basis .init l l
  | fit {opt : NLNode → Vec ℝ} {l : List NLSet} : NLEffect K B L basis (.fit opt) l l
  | logLik {i : Option ℤ} {l : List NLSet} : NLEffect K B L basis (.logLik i) l l

/-- the effect of a sequence of calls -/
inductive NLEffects (K B L : ℕ) (basis : Mat ℝ) : List NLOp → List NLSet → List NLSet → Prop
  | nil {l : List NLSet} : NLEffects K B L basis [] l l
  | cons {op : NLOp} {ops : List NLOp} {l l' l'' : List NLSet} (h : NLEffect K B L basis op l l') (hs : NLEffects K B L basis ops l' l'') :
      NLEffects K B L basis (op :: ops) l l''

/-- all nodes hold the same data sets, in the same order, node `k` with column `k` of the counts -/
def NLInStep (P : NLProc) (l : List NLSet) : Prop :=
  P.nodes.length = P.K ∧ ∀ k (h : k < P.nodes.length), P.nodes[k].data = l.map (NLSet.col k)

/-- number of events of a list of node data -/
def nlEvents (l : List NLData) : ℕ := (l.map fun D => ∑ t ∈ range D.T, D.S t).sum

/-- observed time -/
noncomputable def nlTime (dt : ℝ) (l : List NLData) : ℝ := (l.map fun D => (D.T : ℝ) * dt).sum

/-- Poisson log likelihood (up to a constant) of a list of node data under rates `r D t` -/
noncomputable def nlLL (dt : ℝ) (l : List NLData) (r : NLData → ℕ → ℝ) : ℝ :=
  (l.map fun D => ∑ t ∈ range D.T, ((D.S t : ℝ) * Real.log (r D t) - r D t * dt)).sum

/-- a linear combination of regressors -/
noncomputable def predictor (n : ℕ) (w : Vec ℝ) (D : NLData) (t : ℕ) : ℝ := ∑ c ∈ range n, D.F t c * w c

/-- ridge penalty `sum w²/(2σ²)` over all weights but the bias; none for an infinite `σ` -/
noncomputable def nlRidge (n : ℕ) (sigma : Option ℝ) (w : Vec ℝ) : ℝ :=
  match sigma with
  | none => 0
  | some s => (∑ c ∈ Ico 1 n, w c ^ 2) / (2 * s ^ 2)

/-- both penalties: ridge plus `λ sum |w|` over all weights but the bias -/
noncomputable def nlPenalty (n : ℕ) (sigma : Option ℝ) (l : ℝ) (w : Vec ℝ) : ℝ := nlRidge n sigma w + l * ∑ c ∈ Ico 1 n, |w c|

end PyHawkes.Spec
