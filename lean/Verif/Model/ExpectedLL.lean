import Verif.Model.DParents
import Verif.Model.Variational
import Verif.Model.MFSample

/-!
# More of `DiscreteTimeParents` (`pyhawkes/internals/parents.py:183-206`, `:285-316`): the exact weight statistics and the "expected log likelihood"
-/

namespace PyHawkes
open Finset

section
variable {R : Type*} [Field R] [LinearOrder R] [IsStrictOrderedRing R]

/-- the pair of arrays `ss[0]`, `ss[1]` returned by the weight-statistics methods -/
structure WeightSS (R : Type*) where
  s0 : Mat R
  s1 : Mat R

/-- `parents.py:173-181` — `compute_approx_weight_ss`: for every `k2` in turn, column `k2` of `ss[0]` and of `ss[1]` is filled -/
def approxWeightSS (K B : ℕ) (D : DParents R) : WeightSS R :=
  forRange K (fun k2 ss =>
    { s0 := fun i j => if j = k2 then (∑ b ∈ range B, ((D.getZ k2).map fun z => z (1 + i * B + b)).sum : ℕ) else ss.s0 i j
      s1 := fun i j => if j = k2 then (D.Ns i : R) else ss.s1 i j }) ⟨fun _ _ => 0, fun _ _ => 0⟩

/-- `parents.py:200-201` — the double loop over `k1` and (again) `k2` that fills `ss[1]` -/
def exactFill (K B T : ℕ) (A : Mat R) (g F : Ten R) (s1 : Mat R) : Mat R :=
  forRange K (fun k1 m => forRange K (fun k2 m => Mat.set m k1 k2 (A k1 k2 * ∑ t ∈ range T, ∑ b ∈ range B, F t k1 b * g k1 k2 b)) m) s1

/-- `parents.py:183-203` — `compute_exact_weight_ss`. The inner loop reuses the name `k2` of the outer loop, which does not matter: the column of `ss[0]` was already written. -/
def exactWeightSS (K B : ℕ) (A : Mat R) (g : Ten R) (D : DParents R) : WeightSS R :=
  forRange K (fun k2 ss =>
    { s0 := fun i j => if j = k2 then (∑ b ∈ range B, ((D.getZ k2).map fun z => z (1 + i * B + b)).sum : ℕ) else ss.s0 i j
      s1 := exactFill K B D.T A g D.F ss.s1 }) ⟨fun _ _ => 0, fun _ _ => 0⟩

/-- `parents.py:205-206` — `compute_weight_ss` -/
def weightSS (K B : ℕ) (D : DParents R) : WeightSS R := approxWeightSS K B D

end

/-- `parents.py:302-315` — `expected_log_likelihood` of one data set, given `exp_lam0`, `exp_W` and `exp_G` -/
noncomputable def expectedLL (K B : ℕ) (dt : ℝ) (eL : Vec ℝ) (eW : Mat ℝ) (eG : Ten ℝ) (D : DParents ℝ) : ℝ :=
  forRange K (fun k2 ll =>
    let ll := ll + -(eL k2) * D.T * dt
    let ll := ll + -(∑ k1 ∈ range K, eW k1 k2 * D.Ns k1)
    let lam : Mat ℝ → ℝ := fun f => eL k2 + ∑ k1 ∈ range K, ∑ b ∈ range B, f k1 b * eW k1 k2 * eG k1 k2 b
    ll + (((D.Ss k2).zip (D.Fs k2)).map fun p => (p.1 : ℝ) * Real.log (lam p.2)).sum) 0

/-- `parents.py:296-298` — the expectations it uses: `expected_lambda0()`, `expected_W()`, `expected_g()` of the current variational state -/
noncomputable def MFModel.expectedLogLik (M : MFModel) (dt : ℝ) (D : DParents ℝ) : ℝ :=
  expectedLL M.K M.B dt M.bias.eLam (M.w.eW M.net.allowSelf) (M.imp.eG M.B) D

end PyHawkes
