import Verif.Spec.Wave

/-!
# Specification: interpolation of a periodic band-limited image
-/

namespace PyOTF.Physics

/-- Periodic interpolation kernel for `N` samples of one period, `u` in periods: the mean over the samples of the waves with less than `N / 2` oscillations. -/
noncomputable def dirichlet (N : ℕ) (u : ℝ) : ℝ :=
  (∑ m ∈ Finset.Icc (-(((N - 1) / 2 : ℕ) : ℤ)) ((N - 1) / 2 : ℕ), Real.cos (2 * Real.pi * m * u)) / N

end PyOTF.Physics
