import Verif.Model.Variational

/-!
# Sampling the parameters from the variational distribution: `resample_from_mf`

`bias.py:132-137`, `weights.py:415-422`, `impulses.py:90-94`, `:144-152`, `network.py:719-731`, `:862-872`, `:1036-1041`, `models.py:1390-1394`.

The generator calls are oracles that receive the arguments of the call. numpy raises `ValueError` for a negative shape or scale of a gamma, a nonpositive
parameter of a beta or Dirichlet distribution, and for class probabilities that are negative or do not add up to 1 (tolerance `sqrt(2^-52)`).
An exception in a later component leaves the draws of the earlier ones in place; the model only reports the exception.
-/

namespace PyHawkes
open Finset

/-- the generator calls of one `resample_from_mf` -/
structure MFDraws where
  lam : ℕ → GammaArgs → ℝ
  u : Mat ℝ
  spike : ℕ → ℕ → GammaArgs → ℝ
  slab : ℕ → ℕ → GammaArgs → ℝ
  dir : ℕ → ℕ → Vec ℝ → Vec ℝ
  net : SBMOracle
  erGamma : GammaArgs → ℝ

/-- what the call assigns outside the network: `lambda0`, `A`, `W`, `g` -/
structure MFSample where
  lam0 : Vec ℝ
  A : Mat ℝ
  W : Mat ℝ
  g : Ten ℝ

/-- `np.random.gamma` accepts these arguments -/
def GammaArgs.accepted (a : GammaArgs) : Prop := 0 ≤ a.shape ∧ 0 ≤ a.scale

/-- `bias.py:137` -/
noncomputable def MFBias.sampleArgs (b : MFBias) (k : ℕ) : GammaArgs := ⟨b.mfAlpha k, 1 / b.mfBeta k⟩
/-- `weights.py:421` -/
noncomputable def MFWeights.spikeArgs (w : MFWeights) (i j : ℕ) : GammaArgs := ⟨w.mfKappa0 i j, 1 / w.mfV0 i j⟩
/-- `weights.py:422` -/
noncomputable def MFWeights.slabArgs (w : MFWeights) (i j : ℕ) : GammaArgs := ⟨w.mfKappa1 i j, 1 / w.mfV1 i j⟩

/-- `impulses.py:90-94` — `expected_g` -/
noncomputable def MFImp.eG (B : ℕ) (m : MFImp) : Ten ℝ := fun k1 k2 b => m.mfGamma k1 k2 b / ∑ b ∈ range B, m.mfGamma k1 k2 b

open Classical in
/-- `bias.py:132-137` -/
noncomputable def MFBias.sample (K : ℕ) (lam : ℕ → GammaArgs → ℝ) (b : MFBias) : Except PyErr (Vec ℝ) :=
  if ∀ k < K, (b.sampleArgs k).accepted then .ok fun k => lam k (b.sampleArgs k) else .error .value

open Classical in
/-- `weights.py:415-422`: `A = rand(K,K) < mf_p`, then `W = (1-A) * gamma(..)`, `W += A * gamma(..)` -/
noncomputable def MFWeights.sample (K : ℕ) (d : MFDraws) (w : MFWeights) : Except PyErr (Mat ℝ × Mat ℝ) :=
  let A : Mat ℝ := fun i j => if d.u i j < w.mfP i j then 1 else 0
  if ∀ i < K, ∀ j < K, (w.spikeArgs i j).accepted then
    let W : Mat ℝ := fun i j => (1 - A i j) * d.spike i j (w.spikeArgs i j)
    if ∀ i < K, ∀ j < K, (w.slabArgs i j).accepted then
      .ok (A, fun i j => W i j + A i j * d.slab i j (w.slabArgs i j))
    else .error .value
  else .error .value

open Classical in
/-- `impulses.py:144-152`; the double loop fills a fresh array -/
noncomputable def MFImp.sample (K B : ℕ) (dir : ℕ → ℕ → Vec ℝ → Vec ℝ) (m : MFImp) : Except PyErr (Ten ℝ) :=
  if ∀ i < K, ∀ j < K, ∀ b < B, 0 < m.mfGamma i j b then .ok fun i j => dir i j (m.mfGamma i j) else .error .value

/-- `np.random.choice(C, p=p)` accepts `p` -/
def choiceAccepts (C : ℕ) (p : Vec ℝ) : Prop := (∀ c < C, 0 ≤ p c) ∧ |∑ c ∈ range C, p c - 1| ≤ 2⁻¹ ^ 26

open Classical in
/-- `network.py:719-731` (`withP`) and `:862-872` (without) -/
noncomputable def SBM.sampleMf (withP : Bool) (o : SBMOracle) (n : SBM) : Except PyErr SBM :=
  if ∀ c < n.C, 0 < n.mfPi c then
    let n := { n with m := o.dirichlet n.mfPi }
    if withP → ∀ c < n.C, ∀ d < n.C, 0 < n.mfTau1 c d ∧ 0 < n.mfTau0 c d then
      let n := { n with p := if withP then fun c d => o.beta c d ⟨n.mfTau1 c d, n.mfTau0 c d⟩ else n.p }
      if ∀ c < n.C, ∀ d < n.C, GammaArgs.accepted ⟨n.mfAlpha c d, 1 / n.mfBeta c d⟩ then
        let n := { n with v := fun c d => o.gamma c d ⟨n.mfAlpha c d, 1 / n.mfBeta c d⟩ }
        if ∀ k < n.K, choiceAccepts n.C (n.mfM k) then .ok { n with c := fun k => o.label k (n.mfM k) } else .error .value
      else .error .value
    else .error .value
  else .error .value

open Classical in
/-- `network.py:1036-1041`; without a gamma prior the object has no attribute `mf_alpha` -/
noncomputable def ERFixed.sampleMf (gam : GammaArgs → ℝ) (n : ERFixed) : Except PyErr ERFixed :=
  match n.mf with
  | none => .error .attribute
  | some (a, b) => if GammaArgs.accepted ⟨a, 1 / b⟩ then .ok { n with v := gam ⟨a, 1 / b⟩ } else .error .value

/-- `network.resample_from_mf()` -/
noncomputable def MFNet.sample (d : MFDraws) : MFNet → Except PyErr MFNet
  | .sbm n => match n.sampleMf true d.net with
    | .error e => .error e
    | .ok n => .ok (.sbm n)
  | .fixedSparsity n => match n.sampleMf false d.net with
    | .error e => .error e
    | .ok n => .ok (.fixedSparsity n)
  | .er n => match n.sampleMf d.erGamma with
    | .error e => .error e
    | .ok n => .ok (.er n)

/-- `models.py:1390-1394` — `resample_from_mf` -/
noncomputable def MFModel.resampleFromMf (d : MFDraws) (M : MFModel) : Except PyErr (MFSample × MFModel) :=
  match M.bias.sample M.K d.lam with
  | .error e => .error e
  | .ok lam0 => match M.w.sample M.K d with
    | .error e => .error e
    | .ok (A, W) => match M.imp.sample M.K M.B d.dir with
      | .error e => .error e
      | .ok g => match M.net.sample d with
        | .error e => .error e
        | .ok net => .ok (⟨lam0, A, W, g⟩, { M with net := net })

/-- properties `P` and `V` of the network object -/
noncomputable def MFNet.P : MFNet → Mat ℝ
  | .sbm n => n.P
  | .fixedSparsity n => n.P
  | .er n => n.P
noncomputable def MFNet.V : MFNet → Mat ℝ
  | .sbm n => n.V
  | .fixedSparsity n => n.V
  | .er n => n.V

end PyHawkes
