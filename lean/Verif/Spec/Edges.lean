import Verif.Spec.Bayes
import Verif.Prelude.Py
/-! # Specification: single-site Gibbs sampling of a binary matrix -/
namespace PyHawkes.Spec

/-- Resample one entry: set it to 1 when the uniform draw `u` is below the conditional probability given by prior `p` and the likelihood of the
matrix with the entry set to 0 and to 1. -/
noncomputable def gibbsEdge (p u : ℝ) (lik : Mat ℝ → ℝ) (k1 k2 : ℕ) (A : Mat ℝ) : Mat ℝ :=
  Mat.set A k1 k2 (if u < bernPost p (lik (Mat.set A k1 k2 0)) (lik (Mat.set A k1 k2 1)) then 1 else 0)

/-- One systematic sweep over all entries in row-major order. -/
noncomputable def gibbsSweep (K : ℕ) (p u : Mat ℝ) (lik : Mat ℝ → ℝ) (A : Mat ℝ) : Mat ℝ :=
  forRange K (fun k1 A => forRange K (fun k2 A => gibbsEdge (p k1 k2) (u k1 k2) lik k1 k2 A) A) A

end PyHawkes.Spec
