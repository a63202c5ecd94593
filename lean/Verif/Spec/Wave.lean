import Verif.Spec.Hanser
import Mathlib.Analysis.Calculus.Deriv.Basic

/-!
# Specification of a light field between the samples

A superposition of plane waves, as a function of the height `z` and the lateral position `Y`, `X` (real numbers, in the unit of the pixel size).
-/

namespace PyOTF.Physics

/-- Field component `c` of the plane waves of a pupil `P` on the `N` x `N` frequencies of a grid with pixel size `r`; `k = ni / wl`. -/
noncomputable def waveField (N : ℕ) (r k : ℝ) (v : VecCorr) (cd : Condition) (P : ℕ → ℕ → ℂ) (c : ℕ) (z Y X : ℝ) : ℂ :=
  (∑ i ∈ Finset.range N, ∑ j ∈ Finset.range N, P i j * (weight N r k v cd c i j : ℝ) *
    Complex.exp (2 * Real.pi * Complex.I * ((axial N r k i j * z + freq N r i * Y + freq N r j * X : ℝ) : ℂ))) / (N * N)

/-- Position of sample `y` of `N` samples at distance `r`, relative to sample `N // 2`. -/
noncomputable def offset (N : ℕ) (r : ℝ) (y : ℕ) : ℝ := ((y : ℝ) - (N / 2 : ℕ)) * r

/-- The wave equation of monochromatic light with `k` waves per unit length (Helmholtz): the Laplacian of `E z Y X` is `-(2 pi k)^2` times the field. -/
def Helmholtz (E : ℝ → ℝ → ℝ → ℂ) (k : ℝ) : Prop := ∀ z Y X,
  deriv (deriv fun t => E t Y X) z + deriv (deriv fun t => E z t X) Y + deriv (deriv fun t => E z Y t) X = -((2 * Real.pi * k : ℝ) : ℂ) ^ 2 * E z Y X

/-- Gauss' law without charges: the divergence of the vector field with the components `Ez`, `Ey`, `Ex` vanishes. -/
def DivergenceFree (Ez Ey Ex : ℝ → ℝ → ℝ → ℂ) : Prop := ∀ z Y X,
  deriv (fun t => Ez t Y X) z + deriv (fun t => Ey z t X) Y + deriv (fun t => Ex z Y t) X = 0

/-! ## Waves of a periodic field of view, independent of any pixel grid -/

section
variable (k : ℝ) (fy fx : ℝ)

/-- Radial frequency of the wave with lateral frequencies `fy`, `fx`. -/
noncomputable def radialAt : ℝ := √(fy ^ 2 + fx ^ 2)

/-- Axial frequency. -/
noncomputable def axialAt : ℝ := √(max 0 (k ^ 2 - radialAt fy fx ^ 2))

open Classical in
/-- Sine of the angle to the axis. -/
noncomputable def sinThetaAt : ℝ := if radialAt fy fx < k then radialAt fy fx / k else 0

/-- Cosine of the angle to the axis. -/
noncomputable def cosThetaAt : ℝ := √(1 - sinThetaAt k fy fx ^ 2)

open Classical in
/-- Cosine of the azimuth. -/
noncomputable def cosPhiAt : ℝ := if radialAt fy fx = 0 then 1 else fx / radialAt fy fx

open Classical in
/-- Sine of the azimuth. -/
noncomputable def sinPhiAt : ℝ := if radialAt fy fx = 0 then 0 else fy / radialAt fy fx

/-- Weight of component `c` of a wave. -/
noncomputable def weightAt (v : VecCorr) (cd : Condition) (c : ℕ) : ℝ := apodization cd (cosThetaAt k fy fx) *
  (polarization v (sinThetaAt k fy fx) (cosThetaAt k fy fx) (sinPhiAt fy fx) (cosPhiAt fy fx)).getD c 0

end

/-- Pairs of integers with `a^2 + b^2 < R^2`. -/
noncomputable def inDisk (R : ℝ) : Finset (ℤ × ℤ) := by
  classical exact (Finset.Icc (-⌈R⌉) ⌈R⌉ ×ˢ Finset.Icc (-⌈R⌉) ⌈R⌉).filter fun p => (p.1 : ℝ) ^ 2 + (p.2 : ℝ) ^ 2 < R ^ 2

/-- Field component `c` of an objective of aperture `l = na / wl` at `(z, Y, X)`: all waves inside the aperture whose lateral frequencies are multiples of `1 / L`,
i.e. that fit a field of view of width `L`. -/
noncomputable def fovField (L k l : ℝ) (v : VecCorr) (cd : Condition) (c : ℕ) (z Y X : ℝ) : ℂ :=
  ∑ p ∈ inDisk (L * l), (weightAt k (p.1 / L) (p.2 / L) v cd c : ℂ) *
    Complex.exp (2 * Real.pi * Complex.I * ((axialAt k (p.1 / L) (p.2 / L) * z + p.1 / L * Y + p.2 / L * X : ℝ) : ℂ))

/-- Intensity of this field. -/
noncomputable def fovIntensity (L k l : ℝ) (v : VecCorr) (cd : Condition) (z Y X : ℝ) : ℝ :=
  ∑ c ∈ Finset.range (components v), ‖fovField L k l v cd c z Y X‖ ^ 2

end PyOTF.Physics
