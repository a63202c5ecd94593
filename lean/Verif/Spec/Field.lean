import Mathlib.Analysis.SpecialFunctions.Complex.Circle

/-!
# Specification of the field of a sampled pupil

Independent of the model: the discrete diffraction integral.
-/

namespace PyOTF

/-- The field at pixel `(y, x)` of an `A`x`B` image, measured from the centre pixel `(A//2, B//2)`, of a pupil
whose sample `(i, j)` belongs to the frequency `i/A`, `j/B` (cycles per pixel): the inverse discrete Fourier
transform. -/
noncomputable def field (A B : ℕ) (P : ℕ → ℕ → ℂ) (y x : ℕ) : ℂ :=
  (∑ i ∈ Finset.range A, ∑ j ∈ Finset.range B, P i j *
    Complex.exp (2 * Real.pi * Complex.I * (((y : ℂ) - (A / 2 : ℕ)) * i / A + ((x : ℂ) - (B / 2 : ℕ)) * j / B))) / (A * B)

end PyOTF
