import Verif.Spec.Wave
import Mathlib.MeasureTheory.Measure.Lebesgue.Basic
import Mathlib.MeasureTheory.Measure.Prod
import Mathlib.MeasureTheory.Integral.Bochner.Basic
import Mathlib.Analysis.SpecialFunctions.Complex.Arg

/-!
# Specification: the diffraction integral over the continuous pupil (Debye)
-/

namespace PyOTF.Physics

/-- Field component `c` at `(z, Y, X)` of a pupil `Q`, a function of the lateral frequencies `fy`, `fx`: the integral of its plane waves.  `k = ni / wl`. -/
noncomputable def debyeField (k : ℝ) (v : VecCorr) (cd : Condition) (Q : ℝ → ℝ → ℂ) (c : ℕ) (z Y X : ℝ) : ℂ :=
  ∫ p : ℝ × ℝ, Q p.1 p.2 * (weightAt k p.1 p.2 v cd c : ℂ) *
    Complex.exp (2 * Real.pi * Complex.I * ((axialAt k p.1 p.2 * z + p.1 * Y + p.2 * X : ℝ) : ℂ))

/-- Intensity: the sum over the components. -/
noncomputable def debyeIntensity (k : ℝ) (v : VecCorr) (cd : Condition) (Q : ℝ → ℝ → ℂ) (z Y X : ℝ) : ℝ :=
  ∑ c ∈ Finset.range (components v), ‖debyeField k v cd Q c z Y X‖ ^ 2

open Classical in
/-- The unaberrated pupil of radius `l = na / wl`. -/
noncomputable def diskPupil (l fy fx : ℝ) : ℂ := if radialAt fy fx < l then 1 else 0

end PyOTF.Physics
