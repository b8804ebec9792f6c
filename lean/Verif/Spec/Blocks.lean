import Verif.Spec.Relabel

/-!
# Specification for C107: renumbering the blocks of a stochastic block model

`τ` is a permutation of the block numbers: block `c` of the second network is block `τ c` of the first. The node labels are translated, everything that is stored
per block is moved to the new position, and nothing else changes.
-/
namespace PyHawkes.Spec

/-- the same block model with renumbered blocks -/
def renumberBlocks (τ : Equiv.Perm ℕ) (n : SBM) : SBM :=
  { n with
    c := fun i => τ.symm (n.c i)
    pi := fun c => n.pi (τ c)
    m := fun c => n.m (τ c)
    p := fun c1 c2 => n.p (τ c1) (τ c2)
    v := fun c1 c2 => n.v (τ c1) (τ c2)
    mfPi := fun c => n.mfPi (τ c)
    mfM := fun i c => n.mfM i (τ c)
    mfTau0 := fun c1 c2 => n.mfTau0 (τ c1) (τ c2)
    mfTau1 := fun c1 c2 => n.mfTau1 (τ c1) (τ c2)
    mfAlpha := fun c1 c2 => n.mfAlpha (τ c1) (τ c2)
    mfBeta := fun c1 c2 => n.mfBeta (τ c1) (τ c2) }

/-- the network of a variational model with renumbered blocks; the Erdos-Renyi network has none -/
def renumberMFNet (τ : Equiv.Perm ℕ) : MFNet → MFNet
  | .sbm n => .sbm (renumberBlocks τ n)
  | .fixedSparsity n => .fixedSparsity (renumberBlocks τ n)
  | .er n => .er n

/-- the variational model with renumbered blocks: background rates, impulse responses, weights and data are untouched -/
def renumberMF (τ : Equiv.Perm ℕ) (M : MFModel) : MFModel := { M with net := renumberMFNet τ M.net }

/-- the network of a sampled model with renumbered blocks -/
def renumberNet (τ : Equiv.Perm ℕ) : Net → Net
  | .sbm n => .sbm (renumberBlocks τ n)
  | .sbmFixed n => .sbmFixed (renumberBlocks τ n)
  | .er n => .er n

/-- the sampler state with renumbered blocks: rates, impulse responses, adjacency, weights and data are untouched -/
def renumberState (τ : Equiv.Perm ℕ) (s : HawkesState) : HawkesState := { s with net := renumberNet τ s.net }

/-- the same random draws for the renumbered blocks: the draw for blocks `(c1, c2)` is the draw the first network makes for `(τ c1, τ c2)`; a label drawn
with log weights `lp` is the translation of the label drawn with the log weights moved back; the block proportions are moved likewise -/
def renumberDraws (τ : Equiv.Perm ℕ) (o : SBMOracle) : SBMOracle :=
  { beta := fun c1 c2 => o.beta (τ c1) (τ c2)
    gamma := fun c1 c2 => o.gamma (τ c1) (τ c2)
    label := fun k lp => τ.symm (o.label k fun c => lp (τ.symm c))
    dirichlet := fun a c => o.dirichlet (fun c => a (τ.symm c)) (τ c) }

/-- the same call with the network's draws renumbered -/
def renumberOp (τ : Equiv.Perm ℕ) : Op → Op
  | .addData a => .addData a
  | .resample d => .resample { d with net := renumberDraws τ d.net }

/-- number of blocks the permutation has to respect -/
def netBlocks : Net → ℕ
  | .sbm n => n.C
  | .sbmFixed n => n.C
  | .er _ => 0

/-- the same for variational models -/
def blocksOf : MFNet → ℕ
  | .sbm n => n.C
  | .fixedSparsity n => n.C
  | .er _ => 0

end PyHawkes.Spec
