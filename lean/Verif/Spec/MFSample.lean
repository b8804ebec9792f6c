import Verif.Model.MFSample
import Verif.Model.VLB
import Verif.Spec.Variational
import Verif.Spec.Dirichlet
import Verif.Spec.Random
import Mathlib.Probability.HasLaw
import Mathlib.Probability.Distributions.Beta
import Mathlib.Probability.Independence.Basic
/-! # Specification: contracts of the generators used by `resample_from_mf` -/
namespace PyHawkes.Spec
open Finset MeasureTheory ProbabilityTheory

/-- what numpy guarantees about every single outcome -/
structure MFDrawsOk (B C : ℕ) (d : MFDraws) : Prop where
  lam : ∀ k a, 0 < a.shape → 0 < a.scale → 0 < d.lam k a
  spike : ∀ i j a, 0 < a.shape → 0 < a.scale → 0 < d.spike i j a
  slab : ∀ i j a, 0 < a.shape → 0 < a.scale → 0 < d.slab i j a
  dir : ∀ i j v, (∀ b < B, 0 < v b) → IsProb B (d.dir i j v)
  beta : ∀ c e a, 0 < a.a → 0 < a.b → 0 ≤ d.net.beta c e a ∧ d.net.beta c e a ≤ 1
  gamma : ∀ c e a, 0 < a.shape → 0 < a.scale → 0 < d.net.gamma c e a
  label : ∀ k p, IsProb C p → d.net.label k p < C ∧ 0 < p (d.net.label k p)
  netDir : ∀ v, (∀ c < C, 0 < v c) → IsProb C (d.net.dirichlet v)
  erGamma : ∀ a, 0 < a.shape → 0 < a.scale → 0 < d.erGamma a

/-- number of blocks of the network (1 for the Erdos-Renyi network, which has no labels) -/
def mfBlocks : MFNet → ℕ
  | .sbm n => n.C
  | .fixedSparsity n => n.C
  | .er _ => 1

/-! ### The joint law of the draws -/

/-- the generator calls of one `resample_from_mf` -/
inductive MFSite where
  | lam (k : ℕ) | unif (i j : ℕ) | spike (i j : ℕ) | slab (i j : ℕ) | imp (i j : ℕ)
  | blockM | blockP (c e : ℕ) | blockV (c e : ℕ) | label (k : ℕ) | erV

/-- what a call returns: a number, a vector, or a block number -/
def MFSite.Val : MFSite → Type
  | .imp _ _ | .blockM => ℕ → ℝ
  | .label _ => ℕ
  | _ => ℝ

instance : ∀ s : MFSite, MeasurableSpace s.Val
  | .lam _ | .unif _ _ | .spike _ _ | .slab _ _ | .blockP _ _ | .blockV _ _ | .erV => inferInstanceAs (MeasurableSpace ℝ)
  | .imp _ _ | .blockM => inferInstanceAs (MeasurableSpace (ℕ → ℝ))
  | .label _ => inferInstanceAs (MeasurableSpace ℕ)

/-- law of `np.random.choice(C, p=p)` -/
noncomputable def choiceLaw (C : ℕ) (p : ℕ → ℝ) : Measure ℕ := ∑ c ∈ range C, ENNReal.ofReal (p c) • Measure.dirac c

/-- law of `np.random.gamma(shape, scale)` -/
noncomputable def npGammaLaw (a : GammaArgs) : Measure ℝ := gammaMeasure a.shape (1 / a.scale)

variable {Ω : Type*} [MeasurableSpace Ω]

/-- each generator call has the documented law, for all legal arguments. `B` and `C` are the lengths of the Dirichlet vectors. -/
structure MFLaws (P : Measure Ω) (B C : ℕ) (d : Ω → MFDraws) : Prop where
  lam : ∀ k a, 0 < a.shape → 0 < a.scale → HasLaw (fun ω => (d ω).lam k a) (npGammaLaw a) P
  unif : ∀ i j, HasLaw (fun ω => (d ω).u i j) (volume.restrict (Set.Ico 0 1)) P
  spike : ∀ i j a, 0 < a.shape → 0 < a.scale → HasLaw (fun ω => (d ω).spike i j a) (npGammaLaw a) P
  slab : ∀ i j a, 0 < a.shape → 0 < a.scale → HasLaw (fun ω => (d ω).slab i j a) (npGammaLaw a) P
  dir : ∀ i j v, (∀ b < B, 0 < v b) → HasLaw (fun ω => (d ω).dir i j v) (dirichletLaw B v) P
  netDir : ∀ v, (∀ c < C, 0 < v c) → HasLaw (fun ω => (d ω).net.dirichlet v) (dirichletLaw C v) P
  beta : ∀ c e a, 0 < a.a → 0 < a.b → HasLaw (fun ω => (d ω).net.beta c e a) (betaMeasure a.a a.b) P
  gamma : ∀ c e a, 0 < a.shape → 0 < a.scale → HasLaw (fun ω => (d ω).net.gamma c e a) (npGammaLaw a) P
  label : ∀ k p, IsProb C p → HasLaw (fun ω => (d ω).net.label k p) (choiceLaw C p) P
  erGamma : ∀ a, 0 < a.shape → 0 < a.scale → HasLaw (fun ω => (d ω).erGamma a) (npGammaLaw a) P

/-- arguments for each of the calls -/
structure MFCallArgs where
  lam : ℕ → GammaArgs
  spike : ℕ → ℕ → GammaArgs
  slab : ℕ → ℕ → GammaArgs
  imp : ℕ → ℕ → Vec ℝ
  blockM : Vec ℝ
  blockP : ℕ → ℕ → BetaArgs
  blockV : ℕ → ℕ → GammaArgs
  label : ℕ → Vec ℝ
  erV : GammaArgs

/-- the values returned by the calls with these arguments -/
def MFDraws.value (d : MFDraws) (a : MFCallArgs) : ∀ s : MFSite, s.Val
  | .lam k => d.lam k (a.lam k)
  | .unif i j => d.u i j
  | .spike i j => d.spike i j (a.spike i j)
  | .slab i j => d.slab i j (a.slab i j)
  | .imp i j => d.dir i j (a.imp i j)
  | .blockM => d.net.dirichlet a.blockM
  | .blockP c e => d.net.beta c e (a.blockP c e)
  | .blockV c e => d.net.gamma c e (a.blockV c e)
  | .label k => d.net.label k (a.label k)
  | .erV => d.erGamma a.erV

/-- different calls are independent, whatever their arguments -/
def Independent (P : Measure Ω) (d : Ω → MFDraws) : Prop := ∀ a : MFCallArgs, iIndepFun (fun s ω => MFDraws.value (d ω) a s) P

/-! ### Histories that mix steps, draws and reading the bound -/

/-- one call of a loop such as that of `examples/inference/vb_demo.py:98-107` -/
inductive MFOp where
  | act (a : MFAct)
  /-- `resample_from_mf()`, with what the generators return -/
  | sample (d : MFDraws)
  /-- `get_vlb()` -/
  | bound

/-- a sequence of calls: the final state, the draws, and the bounds read -/
noncomputable def runOps (huge : ℝ) : List MFOp → MFModel → Except PyErr (MFModel × List MFSample × List FX)
  | [], M => .ok (M, [], [])
  | .act a :: ops, M => match a.run M with
    | .error e => .error e
    | .ok M' => runOps huge ops M'
  | .sample d :: ops, M => match M.resampleFromMf d with
    | .error e => .error e
    | .ok (s, M') => match runOps huge ops M' with
      | .error e => .error e
      | .ok (M'', ss, vs) => .ok (M'', s :: ss, vs)
  | .bound :: ops, M => match M.vlb huge with
    | .error e => .error e
    | .ok v => match runOps huge ops M with
      | .error e => .error e
      | .ok (M'', ss, vs) => .ok (M'', ss, v :: vs)

def MFOp.isSample : MFOp → Bool
  | .sample _ => true
  | _ => false

/-- the network's parameters are learned: not given at construction -/
def Learned : MFNet → Prop
  | .sbm n => n.fixed = false
  | .fixedSparsity _ => False
  | .er _ => True

end PyHawkes.Spec
