import Verif.Model.Standard

/-!
# Specification vocabulary for the standard model

Written without reference to the functions of the model: only the fields of the data records are used.
-/

namespace PyHawkes.Spec
open Finset

/-- a well-formed data set for `K` processes and `B` basis functions: the shapes agree, the first column is the constant 1, the filtered counts are nonnegative.
(`add_data` without `F` and with a nonnegative basis produces such data.) -/
structure StdDataOk (K B : ℕ) (D : StdData) : Prop where
  rows : D.rows = D.T
  cols : D.cols = 1 + K * B
  one : ∀ t < D.T, D.F t 0 = 1
  nonneg : ∀ t < D.T, ∀ c < 1 + K * B, 0 ≤ D.F t c

/-- all data sets are well formed -/
def StdOk (M : StdModel) : Prop := ∀ D ∈ M.data, StdDataOk M.K M.B D

/-- the row `w` has positive entries -/
def PosRow (n : ℕ) (w : Vec ℝ) : Prop := ∀ c < n, 0 < w c

/-- the linear predictor of bin `t` -/
noncomputable def lin (n : ℕ) (F : Mat ℝ) (w : Vec ℝ) (t : ℕ) : ℝ := ∑ c ∈ range n, F t c * w c

/-- Poisson log likelihood (up to a constant) of the counts of process `k` in one data set when the weights are `w` -/
noncomputable def stdLL (dt : ℝ) (n k : ℕ) (D : StdData) (w : Vec ℝ) : ℝ :=
  ∑ t ∈ range D.T, ((D.S t k : ℝ) * Real.log (lin n D.F w t) - lin n D.F w t * dt)

/-- Gamma(α, β) log prior (up to a constant) of the non-bias weights -/
noncomputable def stdPrior (alpha beta : ℝ) (n : ℕ) (w : Vec ℝ) : ℝ :=
  ∑ c ∈ Ico 1 n, ((alpha - 1) * Real.log (w c) - beta * w c)

/-- log posterior of process `k` as a function of its weights -/
noncomputable def stdLP (M : StdModel) (k : ℕ) (w : Vec ℝ) : ℝ :=
  (M.data.map fun D => stdLL M.dt (1 + M.K * M.B) k D w).sum + stdPrior M.alpha M.beta (1 + M.K * M.B) w

/-- the columns of `weights[k,:]` that belong to self connections -/
def IsSelf (B k c : ℕ) : Prop := 1 + k * B ≤ c ∧ c < 1 + (k + 1) * B

instance (B k c : ℕ) : Decidable (IsSelf B k c) := inferInstanceAs (Decidable (_ ∧ _))

/-- a call that the theorems on histories speak about: the data are filtered by the model or come with well-formed filtered counts; the random minibatch is one of the data sets;
a velocity array made by the caller vanishes on forbidden self weights -/
def StdOpOk (K B : ℕ) (allowSelf : Bool) : StdOp → Prop
  | .addData a => ∀ r c F, a.F = some (r, c, F) → StdDataOk K B ⟨a.T, fun t k => (a.S t k).toNat, r, c, F⟩
  | .gradStep _ => True
  | .sgd mb prev _ _ => (∀ n, 0 < n → mb n < n) ∧ ∀ v, prev = .given v → allowSelf = false → ∀ k < K, ∀ c, IsSelf B k c → v k c = 0

/-- what an `Except` computation returns, with a default for errors -/
def okD {α : Type*} (d : α) : Except PyErr α → α
  | .ok x => x
  | .error _ => d

/-- the mean of the entries of a `C` by `C` matrix -/
noncomputable def meanEntry (C : ℕ) (p : Mat ℝ) : ℝ := (∑ x ∈ Finset.range C ×ˢ Finset.range C, p x.1 x.2) / (Finset.range C ×ˢ Finset.range C).card

end PyHawkes.Spec
