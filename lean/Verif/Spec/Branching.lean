import Verif.Spec.CTImpulse
/-! # Specification: a Hawkes process as a branching process

A simulation is a list of *litters*: each litter belongs to a parent (nobody, for the background) and a process, and is obtained by asking numpy for a Poisson number and then for that many
uniform or normal variates. -/
namespace PyHawkes.Spec
open ProbabilityTheory

/-- one answer of numpy's generator: a Poisson number with the requested rate, a standard normal, or a uniform variate -/
inductive Draw where
  | poisson (rate : ℝ) (n : ℕ)
  | normal (z : ℝ)
  | uniform (u : ℝ)

/-- the generator `rng`, with a record of all its answers -/
noncomputable def recorded {σ : Type} (rng : Rng σ) : Rng (σ × List Draw) where
  poisson := fun r s => ((rng.poisson r s.1).1, (rng.poisson r s.1).2, s.2 ++ [.poisson r (rng.poisson r s.1).1])
  randn := fun s => ((rng.randn s.1).1, (rng.randn s.1).2, s.2 ++ [.normal (rng.randn s.1).1])
  rand := fun s => ((rng.rand s.1).1, (rng.rand s.1).2, s.2 ++ [.uniform (rng.rand s.1).1])

/-- events of one process with a common parent, before those after the end of the simulation are dropped -/
structure Litter where
  parent : Option (ℝ × ℕ)
  proc : ℕ
  xs : List ℝ

/-- the draws behind a litter: a background litter on `k` has Poisson(`lambda0[k] T`) members with uniform variates, a litter on `k'` of an event of process `k` Poisson(`W[k,k']`) members with
normal variates -/
noncomputable def Litter.draws (P : CTParams) (T : ℝ) (b : Litter) : List Draw :=
  match b.parent with
  | none => .poisson (P.lam0 b.proc * T) b.xs.length :: b.xs.map .uniform
  | some (_, c) => .poisson (P.W c b.proc) b.xs.length :: b.xs.map .normal

/-- lag between a parent of process `c` and a child of process `c'` made from the standard normal variate `z` -/
noncomputable def lagOf (P : CTParams) (c c' : ℕ) (z : ℝ) : ℝ := P.dtMax / (1 + Real.exp (-(P.mu c c' + z / Real.sqrt (P.tau c c'))))

open Classical in
/-- the events of a litter: background events at uniform times in the window, children at logistic-normal lags after their parent, those at or after `T` dropped -/
noncomputable def Litter.events (P : CTParams) (T : ℝ) (b : Litter) : List GenEvent :=
  match b.parent with
  | none => b.xs.map fun u => ⟨u * T, b.proc, none⟩
  | some (s, c) => ((b.xs.map fun z => s + lagOf P c b.proc z).filter fun t => decide (t < T)).map fun t => ⟨t, b.proc, some (s, c)⟩

open Classical in
/-- the litters an event must have: one on each process it has an edge to -/
noncomputable def litterKeys (P : CTParams) (e : ℝ × ℕ) : List (Option (ℝ × ℕ) × ℕ) :=
  ((List.range P.K).filter fun c' => decide (P.A e.2 c' ≠ 0 ∧ P.W e.2 c' ≠ 0)).map fun c' => (some e, c')

/-- `evs` is a branching process simulation made from the draws `ds`: the draws are, litter after litter, those of the litters, the events are those of the litters, and there is exactly one
background litter per process and exactly one litter for every event of the simulation and every edge it has -/
def IsBranching (P : CTParams) (T : ℝ) (ds : List Draw) (evs : List GenEvent) : Prop :=
  ∃ ls : List Litter, ds = ls.flatMap (Litter.draws P T) ∧ evs = ls.flatMap (Litter.events P T) ∧
    (ls.map fun b => (b.parent, b.proc)).Perm
      ((List.range P.K).map (fun k => (none, k)) ++ evs.flatMap fun e => litterKeys P (e.time, e.proc))

/-- density of `numpy.random.normal(loc, scale)` -/
noncomputable def npNormalPdf (loc scale x : ℝ) : ℝ := gaussianPDFReal loc (scale ^ 2).toNNReal x

end PyHawkes.Spec
