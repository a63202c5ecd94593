import Verif.Spec.Hanser

/-!
# Specification: statistics of a wavefront over the pixels of an aperture
-/

namespace PyOTF.Physics

open Classical in
/-- Mean of `f` over the pixels inside the aperture of radius `l`, weighted by the apodisation (index `k = ni / wl`). -/
noncomputable def apertureMean (N : ℕ) (r k l : ℝ) (cd : Condition) (f : ℕ → ℕ → ℝ) : ℝ :=
  (∑ i ∈ Finset.range N, ∑ j ∈ Finset.range N, if radial N r i j < l then apodization cd (cosTheta N r k i j) * f i j else 0) /
  ∑ i ∈ Finset.range N, ∑ j ∈ Finset.range N, if radial N r i j < l then apodization cd (cosTheta N r k i j) else 0

/-- Variance of the phase `f` (radians squared) over the aperture. -/
noncomputable def wavefrontVariance (N : ℕ) (r k l : ℝ) (cd : Condition) (f : ℕ → ℕ → ℝ) : ℝ :=
  apertureMean N r k l cd fun i j => (f i j - apertureMean N r k l cd f) ^ 2

end PyOTF.Physics
