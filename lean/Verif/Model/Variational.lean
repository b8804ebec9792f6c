import Verif.Model.Network

/-!
# Mean-field variational inference for the gamma-mixture network Hawkes model

`bias.py:81-127`, `impulses.py:90-143`, `weights.py:200-413`, `network.py:332-717`, `:803-860`, `:990-1034`, `models.py:1306-1388`.
-/

namespace PyHawkes
open Finset

/-- `utils.py:64-65` — `logistic` -/
noncomputable def pyLogistic (x lamMax : ℝ) : ℝ := lamMax * 1 / (1 + Real.exp (-x))
/-- `utils.py:67-68` — `logit` -/
noncomputable def pyLogit (x lamMax : ℝ) : ℝ := Real.log (x / lamMax) - Real.log (1 - x / lamMax)

/-- `sum([f(d) for d in data])`, one entry; for a nonempty list -/
noncomputable def expSum (dl : List (DParents ℝ)) (f : DParents ℝ → ℝ) : ℝ := dl.foldl (fun acc d => acc + f d) 0

/-! ### Background rates -/

/-- mean-field part of `GammaBias` (`bias.py:20-33`) -/
structure MFBias where
  alpha : ℝ
  beta : ℝ
  dt : ℝ
  mfAlpha : Vec ℝ
  mfBeta : Vec ℝ

/-- `bias.py:81-82` -/
noncomputable def MFBias.eLam (b : MFBias) (k : ℕ) : ℝ := b.mfAlpha k / b.mfBeta k
/-- `bias.py:84-85` -/
noncomputable def MFBias.eLnLam (b : MFBias) (k : ℕ) : ℝ := psi (b.mfAlpha k) - Real.log (b.mfBeta k)

/-- `bias.py:90-100` — `mf_update_lambda0` -/
noncomputable def MFBias.update (dl : List (DParents ℝ)) (frac step : ℝ) (b : MFBias) : MFBias :=
  { b with
    mfAlpha := fun k => (1 - step) * b.mfAlpha k + step * (b.alpha + expSum dl (fun d => expBkgdSS0 d k) / frac)
    mfBeta := fun k => (1 - step) * b.mfBeta k + step * (b.beta + expSum dl (fun d => bkgdSS1 d b.dt k) / frac) }

/-- `bias.py:108-127` — `get_vlb` -/
noncomputable def MFBias.vlb (K : ℕ) (b : MFBias) : ℝ :=
  let v := 0 + ∑ k ∈ range K, gammaNegent b.alpha b.beta (Real.log b.beta) (b.eLam k) (b.eLnLam k)
  v - ∑ k ∈ range K, gammaNegentDefault (b.mfAlpha k) (b.mfBeta k)

/-! ### Impulse responses -/

/-- mean-field part of `DirichletImpulseResponses` (`impulses.py:18-52`) -/
structure MFImp where
  gamma : Vec ℝ
  mfGamma : Ten ℝ

/-- `impulses.py:96-105` — `expected_log_g` -/
noncomputable def MFImp.eLnG (B : ℕ) (m : MFImp) : Ten ℝ := fun k1 k2 b => psi (m.mfGamma k1 k2 b) - psi (∑ b ∈ range B, m.mfGamma k1 k2 b)

/-- `impulses.py:107-113` — `mf_update_gamma` -/
noncomputable def MFImp.update (B : ℕ) (dl : List (DParents ℝ)) (frac step : ℝ) (m : MFImp) : MFImp :=
  { m with mfGamma := fun k1 k2 b => (1 - step) * m.mfGamma k1 k2 b + step * (m.gamma b + expSum dl (fun d => expIrSS d B k1 k2 b) / frac) }

/-- `impulses.py:124-143` — `get_vlb`; the rows of the batch are the pairs `(k1,k2)` in C order, the prior is a single row -/
noncomputable def MFImp.vlb (K B : ℕ) (m : MFImp) : ℝ :=
  let v := 0 + dirNegent 1 (K * K) B (fun _ => m.gamma) (fun r b => m.eLnG B (r / K) (r % K) b)
  v - dirNegent (K * K) (K * K) B (fun r b => m.mfGamma (r / K) (r % K) b) (fun r b => m.eLnG B (r / K) (r % K) b)

/-! ### Network: expectations -/

/-- the network object of a model -/
inductive MFNet where
  | sbm (n : SBM)
  | fixedSparsity (n : SBM)
  | er (n : ERFixed)

/-- sum over block pairs weighted by the joint class probabilities of `i` and `j` (`network.py:340-349` and the like) -/
noncomputable def SBM.mix (n : SBM) (f : Mat ℝ) (i j : ℕ) : ℝ :=
  ∑ c1 ∈ range n.C, ∑ c2 ∈ range n.C, n.mfM i c1 * n.mfM j c2 * f c1 c2

/-- `network.py:332-352` — `expected_p` -/
noncomputable def SBM.eP (n : SBM) (i j : ℕ) : ℝ :=
  if n.fixed then n.P i j
  else if !n.allowSelf ∧ i = j then 0
  else ∑ c1 ∈ range n.C, ∑ c2 ∈ range n.C, n.mfM i c1 * n.mfM j c2 * n.mfTau1 c1 c2 / (n.mfTau0 c1 c2 + n.mfTau1 c1 c2)

/-- `expected_p` of each class: `network.py:332-352`, `:796-801`, `:984-985` -/
noncomputable def MFNet.eP : MFNet → Mat ℝ
  | .sbm n => n.eP
  | .fixedSparsity n => n.P
  | .er n => n.P

/-- `expected_notp` of each class: `network.py:354-359`, `:987-988` -/
noncomputable def MFNet.eNotP (n : MFNet) : Mat ℝ := fun i j => 1 - n.eP i j

/-- `psi(mf_tau1) - psi(mf_tau0 + mf_tau1)` -/
noncomputable def SBM.blkLnP (n : SBM) (c1 c2 : ℕ) : ℝ := psi (n.mfTau1 c1 c2) - psi (n.mfTau0 c1 c2 + n.mfTau1 c1 c2)
/-- `psi(mf_tau0) - psi(mf_tau0 + mf_tau1)` -/
noncomputable def SBM.blkLnNotP (n : SBM) (c1 c2 : ℕ) : ℝ := psi (n.mfTau0 c1 c2) - psi (n.mfTau0 c1 c2 + n.mfTau1 c1 c2)
/-- `psi(mf_alpha) - log(mf_beta)` -/
noncomputable def SBM.blkLnV (n : SBM) (c1 c2 : ℕ) : ℝ := psi (n.mfAlpha c1 c2) - Real.log (n.mfBeta c1 c2)
/-- `mf_alpha / mf_beta` -/
noncomputable def SBM.blkV (n : SBM) (c1 c2 : ℕ) : ℝ := n.mfAlpha c1 c2 / n.mfBeta c1 c2

/-- `network.py:361-382`, `:803-812`, `:990-991` — `expected_log_p`; `np.log(P)` may be `-inf` -/
noncomputable def MFNet.eLnP : MFNet → ℕ → ℕ → FX
  | .sbm n, i, j => if !n.allowSelf ∧ i = j then .ninf else if n.fixed then FX.log (n.P i j) else .fin (n.mix n.blkLnP i j)
  | .fixedSparsity n, i, j => if !n.allowSelf ∧ i = j then .ninf else FX.log (n.P i j)
  | .er n, i, j => FX.log (n.P i j)

/-- `network.py:384-405`, `:814-822`, `:993-994` — `expected_log_notp`. The diagonal is 0 in the block model and `+inf` in the fixed-sparsity one. -/
noncomputable def MFNet.eLnNotP : MFNet → ℕ → ℕ → FX
  | .sbm n, i, j => if !n.allowSelf ∧ i = j then .fin 0 else if n.fixed then FX.log (1 - n.P i j) else .fin (n.mix n.blkLnNotP i j)
  | .fixedSparsity n, i, j => if !n.allowSelf ∧ i = j then .pinf else FX.log (1 - n.P i j)
  | .er n, i, j => FX.log (1 - n.P i j)

/-- `network.py:407-423`, `:996-998` — `expected_v`; the Erdos-Renyi network without a gamma prior has no attribute `mf_alpha` -/
noncomputable def MFNet.eV : MFNet → Except PyErr (Mat ℝ)
  | .sbm n => .ok fun i j => if n.fixed then n.V i j else ∑ c1 ∈ range n.C, ∑ c2 ∈ range n.C, n.mfM i c1 * n.mfM j c2 * n.mfAlpha c1 c2 / n.mfBeta c1 c2
  | .fixedSparsity n => .ok fun i j => if n.fixed then n.V i j else ∑ c1 ∈ range n.C, ∑ c2 ∈ range n.C, n.mfM i c1 * n.mfM j c2 * n.mfAlpha c1 c2 / n.mfBeta c1 c2
  | .er n => match n.mf with
    | some (a, b) => .ok fun _ _ => a / b
    | none => .error .attribute

/-- `network.py:425-442`, `:1000-1001` — `expected_log_v` (`V` positive) -/
noncomputable def MFNet.eLnV : MFNet → Except PyErr (Mat ℝ)
  | .sbm n => .ok fun i j => if n.fixed then Real.log (n.V i j) else n.mix n.blkLnV i j
  | .fixedSparsity n => .ok fun i j => if n.fixed then Real.log (n.V i j) else n.mix n.blkLnV i j
  | .er n => match n.mf with
    | some (a, b) => .ok fun _ _ => psi a - Real.log b
    | none => .error .attribute

/-- attribute `kappa` -/
def MFNet.kappa : MFNet → ℝ
  | .sbm n => n.kappa
  | .fixedSparsity n => n.kappa
  | .er n => n.kappa

/-- attribute `allow_self_connections` -/
def MFNet.allowSelf : MFNet → Bool
  | .sbm n => n.allowSelf
  | .fixedSparsity n => n.allowSelf
  | .er n => n.allowSelf

/-- `network.py:444-445` — `expected_m` -/
noncomputable def SBM.eM (n : SBM) (c : ℕ) : ℝ := n.mfPi c / ∑ c ∈ range n.C, n.mfPi c

/-- `network.py:447-453` — `expected_log_m` -/
noncomputable def SBM.eLnM (n : SBM) (c : ℕ) : ℝ := psi (n.mfPi c) - psi (∑ c ∈ range n.C, n.mfPi c)

/-! ### Weights -/

/-- mean-field part of `GammaMixtureWeights` (`weights.py:180-222`) -/
structure MFWeights where
  kappa0 : ℝ
  nu0 : ℝ
  mfP : Mat ℝ
  mfKappa0 : Mat ℝ
  mfV0 : Mat ℝ
  mfKappa1 : Mat ℝ
  mfV1 : Mat ℝ

/-- `weights.py:205-217` — initial variational parameters -/
noncomputable def MFWeights.init (kappa0 nu0 : ℝ) (kappa : ℝ) (V : Mat ℝ) : MFWeights :=
  { kappa0 := kappa0, nu0 := nu0, mfP := fun _ _ => 1 - 1e-3, mfKappa0 := fun _ _ => kappa0 * 1, mfV0 := fun _ _ => nu0 * 1, mfKappa1 := fun _ _ => kappa * 1,
    mfV1 := fun i j => V i j * 1 }

/-- `weights.py:284-290` — `expected_W_given_A(A)` -/
noncomputable def MFWeights.eWGivenA (w : MFWeights) (A : ℝ) : Mat ℝ := fun i j =>
  A * (w.mfKappa1 i j / w.mfV1 i j) + (1 - A) * (w.mfKappa0 i j / w.mfV0 i j)

/-- `weights.py:312-317` — `expected_log_W_given_A(A)` -/
noncomputable def MFWeights.eLnWGivenA (w : MFWeights) (A : ℝ) : Mat ℝ := fun i j =>
  A * (psi (w.mfKappa1 i j) - Real.log (w.mfV1 i j)) + (1 - A) * (psi (w.mfKappa0 i j) - Real.log (w.mfV0 i j))

/-- `weights.py:269-282` — `expected_W` -/
noncomputable def MFWeights.eW (w : MFWeights) (allowSelf : Bool) : Mat ℝ := fun i j =>
  if !allowSelf ∧ i = j then 0 else w.mfP i j * w.eWGivenA 1 i j + (1 - w.mfP i j) * w.eWGivenA 0 i j

/-- `weights.py:299-310` — `expected_log_W`, with `-inf` on the diagonal when self connections are disallowed -/
noncomputable def MFWeights.eLnW (w : MFWeights) (allowSelf : Bool) : ℕ → ℕ → FX := fun i j =>
  if !allowSelf ∧ i = j then .ninf else .fin (w.mfP i j * w.eLnWGivenA 1 i j + (1 - w.mfP i j) * w.eLnWGivenA 0 i j)

/-- `np.exp` -/
noncomputable def FX.exp : FX → FX
  | .nan => .nan
  | .ninf => .fin 0
  | .pinf => .pinf
  | .fin x => .fin (Real.exp x)

/-- `np.exp(weight_model.expected_log_W())` as a real matrix: `exp(-inf) = 0` -/
noncomputable def MFWeights.expELnW (w : MFWeights) (allowSelf : Bool) : Mat ℝ := fun i j =>
  if !allowSelf ∧ i = j then 0 else Real.exp (w.mfP i j * w.eLnWGivenA 1 i j + (1 - w.mfP i j) * w.eLnWGivenA 0 i j)

/-- `weights.py:342-361` — `meanfieldupdate_kappa_v` given `E[v]` -/
noncomputable def MFWeights.updateKappaV (B : ℕ) (kappa : ℝ) (eV : Mat ℝ) (dl : List (DParents ℝ)) (frac step : ℝ) (w : MFWeights) : MFWeights :=
  let s0 : Mat ℝ := fun i j => expSum dl fun d => expWeightSS0 d B i j
  let s1 : Mat ℝ := fun i j => expSum dl fun d => (weightSS1 d i j : ℝ)
  { w with
    mfKappa0 := fun i j => (1 - step) * w.mfKappa0 i j + step * (w.kappa0 + s0 i j / frac)
    mfKappa1 := fun i j => (1 - step) * w.mfKappa1 i j + step * (kappa + s0 i j / frac)
    mfV0 := fun i j => (1 - step) * w.mfV0 i j + step * (w.nu0 * 1 + s1 i j / frac)
    mfV1 := fun i j => (1 - step) * w.mfV1 i j + step * (eV i j + s1 i j / frac) }

/-- `weights.py:322-340` — `logit_p`, one entry -/
noncomputable def MFWeights.logitP (net : MFNet) (eLnV : Mat ℝ) (w : MFWeights) (i j : ℕ) : FX :=
  let x := net.eLnP i j - net.eLnNotP i j
  let x := x + .fin (net.kappa * eLnV i j - gammaln net.kappa)
  let x := x + .fin (gammaln (w.mfKappa1 i j) - w.mfKappa1 i j * Real.log (w.mfV1 i j))
  let x := x + .fin (gammaln w.kappa0 - w.kappa0 * Real.log w.nu0)
  x + .fin (w.mfKappa0 i j * Real.log (w.mfV0 i j) - gammaln (w.mfKappa0 i j))

/-- `weights.py:335-337` — `(1-stepsize) * logit(mf_p) + stepsize * logit_p` -/
noncomputable def MFWeights.logitHat (net : MFNet) (eLnV : Mat ℝ) (step : ℝ) (w : MFWeights) (i j : ℕ) : FX :=
  .fin (1 - step) * (FX.log (w.mfP i j / 1) - FX.log (1 - w.mfP i j / 1)) + .fin step * w.logitP net eLnV i j

/-- `np.clip(logistic(x), 1e-8, 1-1e-8)`, for `x` not `nan` -/
noncomputable def clipLogistic : FX → ℝ
  | .ninf => 1e-8
  | .pinf => 1 - 1e-8
  | .fin x => min (max (pyLogistic x 1) 1e-8) (1 - 1e-8)
  | .nan => 0

open Classical in
/-- `weights.py:322-340` — `meanfieldupdate_p`; a `nan` in the result is reported as an error of the model -/
noncomputable def MFWeights.updateP (K : ℕ) (net : MFNet) (eLnV : Mat ℝ) (step : ℝ) (w : MFWeights) : Except PyErr MFWeights :=
  if ∃ i < K, ∃ j < K, w.logitHat net eLnV step i j = .nan then .error .silentNan
  else .ok { w with mfP := fun i j => clipLogistic (w.logitHat net eLnV step i j) }

/-- `weights.py:363-369` — `meanfieldupdate` and `meanfield_sgdstep` (`frac = step = 1` for the former) -/
noncomputable def MFWeights.update (K B : ℕ) (net : MFNet) (dl : List (DParents ℝ)) (frac step : ℝ) (w : MFWeights) : Except PyErr MFWeights :=
  match net.eV with
  | .error e => .error e
  | .ok eV => match net.eLnV with
    | .error e => .error e
    | .ok eLnV => (w.updateKappaV B net.kappa eV dl frac step).updateP K net eLnV step

/-- `weights.py:371-413` — `get_vlb` given `E[v]`, `E[ln v]`; sums run over the entries in C order -/
noncomputable def MFWeights.vlb (K : ℕ) (net : MFNet) (eV eLnV : Mat ℝ) (w : MFWeights) : FX :=
  let S (f : ℕ → ℕ → FX) : FX := FX.sum ((List.range (K * K)).map fun r => f (r / K) (r % K))
  let v := FX.fin 0 + S fun i j => bernNegent (.fin (w.mfP i j)) (.fin (1 - w.mfP i j)) (net.eLnP i j) (net.eLnNotP i j)
  let v := v + S fun i j => .fin (w.mfP i j * gammaNegent net.kappa (eV i j) (eLnV i j) (w.eWGivenA 1 i j) (w.eLnWGivenA 1 i j))
  let v := v + S fun i j => .fin ((1 - w.mfP i j) * gammaNegent w.kappa0 w.nu0 (Real.log w.nu0) (w.eWGivenA 0 i j) (w.eLnWGivenA 0 i j))
  let v := v - S fun i j => bernNegent (.fin (w.mfP i j)) (.fin (1 - w.mfP i j)) (FX.log (w.mfP i j)) (FX.log (1 - w.mfP i j))
  let v := v - S fun i j => .fin (w.mfP i j * gammaNegentDefault (w.mfKappa1 i j) (w.mfV1 i j))
  v - S fun i j => .fin ((1 - w.mfP i j) * gammaNegentDefault (w.mfKappa0 i j) (w.mfV0 i j))

/-! ### Network: updates -/

/-- `network.py:566-587` — `mf_update_p` -/
noncomputable def SBM.mfUpdateP (EA : Mat ℝ) (step : ℝ) (n : SBM) : SBM :=
  { n with
    mfTau1 := fun c1 c2 => (1 - step) * n.mfTau1 c1 c2 + step * (n.tau1 + ∑ i ∈ range n.K, ∑ j ∈ range n.K, n.mfM i c1 * n.mfM j c2 * EA i j)
    mfTau0 := fun c1 c2 => (1 - step) * n.mfTau0 c1 c2 + step * (n.tau0 + ∑ i ∈ range n.K, ∑ j ∈ range n.K, n.mfM i c1 * n.mfM j c2 * (1 - EA i j)) }

/-- `network.py:589-604` — `mf_update_v` -/
noncomputable def SBM.mfUpdateV (EA EW : Mat ℝ) (step : ℝ) (n : SBM) : SBM :=
  { n with
    mfAlpha := fun c1 c2 => (1 - step) * n.mfAlpha c1 c2 + step * (n.alpha + ∑ i ∈ range n.K, ∑ j ∈ range n.K, n.mfM i c1 * n.mfM j c2 * EA i j * n.kappa)
    mfBeta := fun c1 c2 => (1 - step) * n.mfBeta c1 c2 + step * (n.beta + ∑ i ∈ range n.K, ∑ j ∈ range n.K, n.mfM i c1 * n.mfM j c2 * EA i j * EW i j) }

/-- `network.py:606-612` — `mf_update_m` -/
noncomputable def SBM.mfUpdateM (step : ℝ) (n : SBM) : SBM :=
  { n with mfPi := fun c => (1 - step) * n.mfPi c + step * (n.pi c + ∑ k ∈ range n.K, n.mfM k c) }

/-- `network.py:464-556` — the log weights `lp[ck]` in `mf_update_c` for node `k`. All entries of `E_A` etc. are real numbers. -/
noncomputable def SBM.mfLp (EA EW ELW : Mat ℝ) (n : SBM) (k ck : ℕ) : ℝ :=
  let notk := (range n.K).erase k
  let avg (f : ℕ → ℝ) (j : ℕ) : ℝ := ∑ c ∈ range n.C, n.mfM j c * f c
  let lp := 0 + n.eLnM ck
  let lp := lp + ∑ j ∈ notk, (EA k j * avg (fun c => n.blkLnP ck c) j + (1 - EA k j) * avg (fun c => n.blkLnNotP ck c) j)
  let lp := lp + ∑ j ∈ notk, (EA j k * avg (fun c => n.blkLnP c ck) j + (1 - EA j k) * avg (fun c => n.blkLnNotP c ck) j)
  let lp := lp + ∑ j ∈ notk, EA k j * gammaNegent n.kappa (avg (fun c => n.blkV ck c) j) (avg (fun c => n.blkLnV ck c) j) (EW k j) (ELW k j)
  let lp := lp + ∑ j ∈ notk, EA j k * gammaNegent n.kappa (avg (fun c => n.blkV c ck) j) (avg (fun c => n.blkLnV c ck) j) (EW j k) (ELW j k)
  if n.allowSelf then
    let lp := lp + (EA k k * n.blkLnP ck ck + (1 - EA k k) * n.blkLnNotP ck ck)
    lp + EA k k * gammaNegent n.kappa (n.blkV ck ck) (n.blkLnV ck ck) (EW k k) (ELW k k)
  else lp

/-- `network.py:558-563` — one node: `Z = logsumexp(lp); mk_hat = np.exp(lp - Z)`, blended into row `k` -/
noncomputable def SBM.mfUpdateC1 (EA EW ELW : Mat ℝ) (step : ℝ) (k : ℕ) (n : SBM) : SBM :=
  let lp := n.mfLp EA EW ELW k
  let Z := Real.log (∑ c ∈ range n.C, Real.exp (lp c))
  { n with mfM := fun i c => if i = k then (1 - step) * n.mfM k c + step * Real.exp (lp c - Z) else n.mfM i c }

/-- `network.py:458-563` — `mf_update_c`: nodes in order -/
noncomputable def SBM.mfUpdateC (EA EW ELW : Mat ℝ) (step : ℝ) (n : SBM) : SBM :=
  forRange n.K (fun k n => n.mfUpdateC1 EA EW ELW step k) n

/-- the four update flags of the network updates -/
structure NetFlags where
  p : Bool := true
  v : Bool := true
  m : Bool := true
  c : Bool := true

/-- `network.py:614-640` — `MeanFieldSBM.meanfieldupdate`: note `if update_c: mf_update_p` -/
noncomputable def SBM.meanfieldupdate (w : MFWeights) (f : NetFlags) (n : SBM) : SBM :=
  let EA := w.mfP
  let EW := w.eWGivenA 1
  let ELW := w.eLnWGivenA 1
  let n := if f.c then n.mfUpdateP EA 1 else n
  let n := if f.v then n.mfUpdateV EA EW 1 else n
  let n := if f.m then n.mfUpdateM 1 else n
  if f.c then n.mfUpdateC EA EW ELW 1 else n

/-- `network.py:642-669` — `MeanFieldSBM.meanfield_sgdstep` -/
noncomputable def SBM.sgdstep (w : MFWeights) (step : ℝ) (f : NetFlags) (n : SBM) : SBM :=
  let EA := w.mfP
  let EW := w.eWGivenA 1
  let ELW := w.eLnWGivenA 1
  let n := if f.p then n.mfUpdateP EA step else n
  let n := if f.v then n.mfUpdateV EA EW step else n
  let n := if f.m then n.mfUpdateM step else n
  if f.c then n.mfUpdateC EA EW ELW step else n

/-- `network.py:1006-1024` — mean-field update of the Erdos-Renyi network -/
noncomputable def ERFixed.mfUpdate (w : MFWeights) (step : ℝ) (n : ERFixed) : Except PyErr ERFixed :=
  match n.mf, n.alpha, n.beta with
  | some (a, b), some al, some be =>
    let a' := (1 - step) * a + step * (al + ∑ i ∈ range n.K, ∑ j ∈ range n.K, w.mfP i j * n.kappa)
    let b' := (1 - step) * b + step * (be + ∑ i ∈ range n.K, ∑ j ∈ range n.K, w.mfP i j * w.eWGivenA 1 i j)
    .ok { n with mf := some (a', b') }
  | _, none, _ => .error .type
  | _, _, _ => .error .attribute

/-- `meanfieldupdate(weight_model)` with default flags: `network.py:614`, `:824-835` (`update_p=False`), `:1018-1021` -/
noncomputable def MFNet.meanfieldupdate (w : MFWeights) : MFNet → Except PyErr MFNet
  | .sbm n => .ok (.sbm (n.meanfieldupdate w {}))
  | .fixedSparsity n => .ok (.fixedSparsity (n.meanfieldupdate w { p := false }))
  | .er n => match n.mfUpdate w 1 with
    | .error e => .error e
    | .ok n => .ok (.er n)

/-- `meanfield_sgdstep(weight_model, minibatchfrac, stepsize)`: `network.py:642`, `:837-848`, `:1023-1024` -/
noncomputable def MFNet.sgdstep (w : MFWeights) (step : ℝ) : MFNet → Except PyErr MFNet
  | .sbm n => .ok (.sbm (n.sgdstep w step {}))
  | .fixedSparsity n => .ok (.fixedSparsity (n.sgdstep w step { p := false }))
  | .er n => match n.mfUpdate w step with
    | .error e => .error e
    | .ok n => .ok (.er n)

/-- `network.py:671-717` — `MeanFieldSBM.get_vlb` with its flags. The prior of `p` is a single row broadcast over the `C×C` block pairs. -/
noncomputable def SBM.vlb (huge : ℝ) (n : SBM) (f : NetFlags) : ℝ :=
  let v : ℝ := 0
  let v := if f.c then forRange n.K (fun k v =>
      let v := v + discreteNegent huge n.C (n.mfM k) (fun c => .fin (n.eLnM c))
      v - discreteNegent huge n.C (n.mfM k) (fun c => FX.log (n.mfM k c))) v else v
  let E : Mat ℝ := fun r i => if i = 0 then n.blkLnP (r / n.C) (r % n.C) else n.blkLnNotP (r / n.C) (r % n.C)
  let v := if f.p then
      v + dirNegent 1 (n.C * n.C) 2 (fun _ i => if i = 0 then n.tau1 else n.tau0) E
        - dirNegent (n.C * n.C) (n.C * n.C) 2 (fun r i => if i = 0 then n.mfTau1 (r / n.C) (r % n.C) else n.mfTau0 (r / n.C) (r % n.C)) E
    else v
  let v := if f.v then
      v + ∑ c1 ∈ range n.C, ∑ c2 ∈ range n.C, gammaNegent n.alpha n.beta (Real.log n.beta) (n.blkV c1 c2) (n.blkLnV c1 c2)
        - ∑ c1 ∈ range n.C, ∑ c2 ∈ range n.C, gammaNegentDefault (n.mfAlpha c1 c2) (n.mfBeta c1 c2)
    else v
  if f.m then
    v + dirNegent 1 1 n.C (fun _ => n.pi) (fun _ => n.eLnM) - dirNegent 1 1 n.C (fun _ => n.mfPi) (fun _ => n.eLnM)
  else v

/-- `network.py:1026-1034` — `ErdosRenyiFixedSparsity.get_vlb` -/
noncomputable def ERFixed.vlb (n : ERFixed) : Except PyErr ℝ :=
  match n.mf, n.alpha, n.beta with
  | some (a, b), some al, some be => .ok (0 + gammaNegent al be (Real.log be) (a / b) (psi a - Real.log b) - gammaNegentDefault a b)
  | _, none, _ => .error .type
  | _, _, _ => .error .attribute

/-- what `vlb += network.get_vlb()` does: the fixed-sparsity model's `get_vlb` returns `None` (`network.py:850-860`), so the addition raises -/
noncomputable def MFNet.vlb (huge : ℝ) : MFNet → Except PyErr ℝ
  | .sbm n => .ok (n.vlb huge {})
  | .fixedSparsity _ => .error .type
  | .er n => n.vlb

/-! ### The model -/

/-- the variational state of `DiscreteTimeNetworkHawkesModelGammaMixture` -/
structure MFModel where
  K : ℕ
  B : ℕ
  bias : MFBias
  imp : MFImp
  w : MFWeights
  net : MFNet
  data : List (DParents ℝ)
  sgdOffset : Option ℕ

/-- `parents.py:352-381` — `p.meanfieldupdate()` with the model's current expectations -/
noncomputable def MFModel.updateParents (M : MFModel) (D : DParents ℝ) : DParents ℝ :=
  mfUpdateParents M.K M.B (fun k => Real.exp (M.bias.eLnLam k)) (M.w.expELnW M.net.allowSelf) (fun i j b => Real.exp (M.imp.eLnG M.B i j b)) D

/-- the updates shared by the coordinate step and the stochastic step, given the data sets with fresh expectations.
`exp_ss = sum([])` is the integer 0, which cannot be indexed: with no data the bias update raises `TypeError`. -/
noncomputable def MFModel.updateGlobals (M : MFModel) (dl : List (DParents ℝ)) (frac step : ℝ) (netUpdate : MFWeights → MFNet → Except PyErr MFNet) :
    Except PyErr MFModel :=
  if dl = [] then .error .type else
  let bias := M.bias.update dl frac step
  let imp := M.imp.update M.B dl frac step
  match M.w.update M.K M.B M.net dl frac step with
  | .error e => .error e
  | .ok w => match netUpdate w M.net with
    | .error e => .error e
    | .ok net => .ok { M with bias := bias, imp := imp, w := w, net := net }

/-- `models.py:1306-1323` — `meanfield_coordinate_descent_step` (without the returned bound) -/
noncomputable def MFModel.coordStep (M : MFModel) : Except PyErr MFModel :=
  let dl := M.data.map M.updateParents
  match M.updateGlobals dl 1 1 MFNet.meanfieldupdate with
  | .error e => .error e
  | .ok M' => .ok { M' with data := dl }

/-- `models.py:1342-1353` — the window of the next stochastic step: `(offset, end)` -/
def sgdWindow (T mb : ℕ) (off : Option ℕ) : ℕ × ℕ :=
  let o := match off with
    | none => 0
    | some o => if o + mb ≥ T then 0 else o + mb
  (o, min (o + mb) T)

/-- `models.py:1337-1388` — `sgd_step(minibatchsize, stepsize)` -/
noncomputable def MFModel.sgdStep (mb : ℕ) (step : ℝ) (M : MFModel) : Except PyErr MFModel :=
  match M.data with
  | [D] =>
    let win := sgdWindow D.T mb M.sgdOffset
    let p := sliceData D.S D.F win.1 win.2
    let frac : ℝ := (p.T : ℝ) / D.T
    let p := M.updateParents p
    match M.updateGlobals [p] frac step (fun w => MFNet.sgdstep w step) with
    | .error e => .error e
    | .ok M' => .ok { M' with sgdOffset := some win.1 }
  | _ => .error .assertion

end PyHawkes
