import Verif.Spec.Basis
/-! # Specification: the rate of a discrete-time network Hawkes process -/
namespace PyHawkes.Spec
open Finset
variable {R : Type*} [Field R]

/-- rate of process `k2` in bin `t`: background plus, over all source processes and basis functions, effective weight times
impulse weight times filtered count -/
def rate (K B : ℕ) (lam0 : Vec R) (W : Mat R) (g : Ten R) (F : Ten R) (t k2 : ℕ) : R :=
  lam0 k2 + ∑ k1 ∈ range K, ∑ b ∈ range B, W k1 k2 * g k1 k2 b * F t k1 b

end PyHawkes.Spec
