import Verif.Spec.CT
import Verif.Model.CTModel

/-!
# Specification for C112: continuous time, the origin of time and how a recording is cut

A continuous-time data set is a list of labelled event times and a duration. Delaying all events by the same amount only changes where zero is; two recordings, the second starting when the first ends, are one recording.
-/
namespace PyHawkes.Spec
open Finset

/-- all events of a data set happen `c` later -/
def delay (c : ℝ) (D : CTData) : CTData := { D with S := fun n => D.S n + c }

/-- data set `i` is delayed by `cs[i]` -/
def delayAll (cs : List ℝ) (dl : List CTData) : List CTData := List.zipWith delay cs dl

/-- the same model, its recordings delayed -/
def delayState (cs : List ℝ) (s : CTState) : CTState := { s with data := delayAll cs s.data }

/-- `J` is the recording `D1` followed by the recording `D2`: the clock of `D2` starts when `D1` ends -/
structure Joined (D1 D2 J : CTData) : Prop where
  N : J.N = D1.N + D2.N
  T : J.T = D1.T + D2.T
  S1 : ∀ n < D1.N, J.S n = D1.S n
  C1 : ∀ n < D1.N, J.C n = D1.C n
  S2 : ∀ n < D2.N, J.S (D1.N + n) = D1.T + D2.S n
  C2 : ∀ n < D2.N, J.C (D1.N + n) = D2.C n

/-- the parents in the joined recording are the parents in the two parts -/
structure JoinedParents (D1 D2 J : CTData) : Prop where
  Z1 : ∀ n < D1.N, J.Z n = D1.Z n
  bg : ∀ n < D2.N, D2.Z n = -1 → J.Z (D1.N + n) = -1
  par : ∀ n < D2.N, ∀ m : ℕ, D2.Z n = m → J.Z (D1.N + n) = (D1.N + m : ℕ)

/-- no event of the first recording can reach an event of the second one: at least `dtMax` of silence in between -/
def SilenceBetween (dtMax : ℝ) (D1 D2 : CTData) : Prop := ∀ m < D1.N, ∀ n < D2.N, dtMax ≤ D1.T + D2.S n - D1.S m

/-- the uniform draws for the joined recording are those for the two parts -/
def JoinedUniforms (D1 D2 : CTData) (u1 u2 u : Vec ℝ) : Prop := (∀ n < D1.N, u n = u1 n) ∧ ∀ n < D2.N, u (D1.N + n) = u2 n

end PyHawkes.Spec
