import Verif.Prelude.Py
import Verif.Model.Rate

/-!
# Specification for C116: merging indistinguishable processes

`c k` is the class process `k` belongs to. The merged model has one process per class: its background rate is the sum over the class, and an event of any process of a class excites a class as strongly as it excites all processes of it together —
which needs all processes of a class to have the same total influence on every class.
-/
namespace PyHawkes.Spec
open Finset

variable {R : Type*} [Field R] [LinearOrder R] [IsStrictOrderedRing R]

/-- the processes of class `a` -/
def members (K : ℕ) (c : ℕ → ℕ) (a : ℕ) : Finset ℕ := (range K).filter fun k => c k = a

/-- the recording in which the events of all processes of a class are counted together -/
def mergedCounts (K : ℕ) (c : ℕ → ℕ) (S : Mat R) : Mat R := fun t a => ∑ k ∈ members K c a, S t k

/-- `Q` is the model `P` with the processes of each class merged into one -/
structure Merges (c : ℕ → ℕ) (P Q : NetParams R) : Prop where
  lt : ∀ k < P.K, c k < Q.K
  B : Q.B = P.B
  L : Q.L = P.L
  dt : Q.dt = P.dt
  basis : Q.basis = P.basis
  lam0 : ∀ a < Q.K, Q.lam0 a = ∑ k ∈ members P.K c a, P.lam0 k
  influence : ∀ k < P.K, ∀ a < Q.K, ∀ b < P.B, Q.Weff (c k) a * Q.g (c k) a b = ∑ k2 ∈ members P.K c a, P.Weff k k2 * P.g k k2 b

end PyHawkes.Spec
