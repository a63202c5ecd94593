import Verif.Spec.Hanser

/-!
# Specification of iterative phase retrieval

Independent of the model of `phaseretrieval.py`: pupils and images are functions of pixel numbers.
-/

namespace PyOTF.Physics

/-- The pupil of an `N`x`N` field: the inverse of `field N N`, the discrete Fourier transform about pixel
`(N//2, N//2)`. -/
noncomputable def analysis (N : ℕ) (f : ℕ → ℕ → ℂ) (i j : ℕ) : ℂ :=
  ∑ y ∈ Finset.range N, ∑ x ∈ Finset.range N, f y x *
    Complex.exp (-(2 * Real.pi * Complex.I * (((y : ℂ) - (N / 2 : ℕ)) * i / N + ((x : ℂ) - (N / 2 : ℕ)) * j / N)))

/-- A phase retrieval problem: `Z` measured images of `N`x`N` pixels at heights `height 0, ...`, the pixel size, the
radius `shell = ni / wl` of the shell and the radius `limit = na / wl` of the pupil. -/
structure Problem where
  N : ℕ
  Z : ℕ
  pixel : ℝ
  shell : ℝ
  limit : ℝ
  height : ℕ → ℝ
  data : ℕ → ℕ → ℕ → ℝ

/-- The sample shown at pixel `y` of a centred picture: pixel `N // 2` is frequency zero, sample 0. -/
def sampleAt (N y : ℕ) : ℕ := (y + (N - N / 2)) % N

/-- The pixel of a centred picture that shows sample `i`. -/
def pixelOf (N i : ℕ) : ℕ := (i + N / 2) % N

namespace Problem

variable (S : Problem)

/-- The phase factor of defocus in plane `z`. -/
noncomputable def defocus (z i j : ℕ) : ℂ :=
  Complex.exp (2 * Real.pi * axial S.N S.pixel S.shell i j * S.height z * Complex.I)

/-- Scalar amplitude in plane `z` of a pupil. -/
noncomputable def amplitude (P : ℕ → ℕ → ℂ) (z y x : ℕ) : ℂ := field S.N S.N (fun i j => P i j * S.defocus z i j) y x

/-- Mean over all voxels. -/
noncomputable def mean (f : ℕ → ℕ → ℕ → ℝ) : ℝ :=
  (∑ z ∈ Finset.range S.Z, ∑ y ∈ Finset.range S.N, ∑ x ∈ Finset.range S.N, f z y x) / (S.Z * S.N * S.N)

/-- Mean squared error between the data and the intensity of a pupil. -/
noncomputable def mse (P : ℕ → ℕ → ℂ) : ℝ := S.mean fun z y x => (S.data z y x - ‖S.amplitude P z y x‖ ^ 2) ^ 2

/-- Total squared error of the amplitudes; negative data count as 0. -/
noncomputable def amplitudeError (P : ℕ → ℕ → ℂ) : ℝ :=
  ∑ z ∈ Finset.range S.Z, ∑ y ∈ Finset.range S.N, ∑ x ∈ Finset.range S.N,
    (‖S.amplitude P z y x‖ - √(max 0 (S.data z y x))) ^ 2

/-- The measured amplitudes with the phases of the pupil `P`. -/
noncomputable def corrected (P : ℕ → ℕ → ℂ) (z y x : ℕ) : ℂ :=
  (√(max 0 (S.data z y x)) : ℝ) * Complex.exp (Complex.I * (Complex.arg (S.amplitude P z y x) : ℝ))

/-- Is the frequency `(i, j)` inside the aperture? -/
def Inside (i j : ℕ) : Prop := radial S.N S.pixel i j < S.limit

open Classical in
/-- One iteration: every corrected image is propagated back to the pupil, the results are averaged and restricted
to the aperture. -/
noncomputable def update (P : ℕ → ℕ → ℂ) (i j : ℕ) : ℂ :=
  if S.Inside i j then
    (∑ z ∈ Finset.range S.Z, analysis S.N (S.corrected P z) i j / S.defocus z i j) / S.Z
  else 0

open Classical in
/-- One iteration that keeps only the phase. -/
noncomputable def updatePhase (P : ℕ → ℕ → ℂ) (i j : ℕ) : ℂ :=
  if S.Inside i j then Complex.exp (Complex.I * (Complex.arg (S.update P i j) : ℝ)) else 0

/-- The pupils of the iteration, starting with the ideal one. -/
noncomputable def iterate (phaseOnly : Bool) : ℕ → ℕ → ℕ → ℂ
  | 0 => aperture S.N S.pixel S.limit
  | k + 1 => (if phaseOnly then S.updatePhase else S.update) (iterate phaseOnly k)

/-- Energy of a pupil per pixel. -/
noncomputable def energy (P : ℕ → ℕ → ℂ) : ℝ :=
  (∑ i ∈ Finset.range S.N, ∑ j ∈ Finset.range S.N, ‖P i j‖ ^ 2) / (S.N * S.N)

/-- Mean squared distance of two pupils. -/
noncomputable def distance (P Q : ℕ → ℕ → ℂ) : ℝ :=
  (∑ i ∈ Finset.range S.N, ∑ j ∈ Finset.range S.N, ‖P i j - Q i j‖ ^ 2) / (S.N * S.N)

/-- The error of the `k`-th pupil. -/
noncomputable def errorAt (phaseOnly : Bool) (k : ℕ) : ℝ := S.mse (S.iterate phaseOnly k)

/-- The stopping rule for the `k`-th pupil: the error is below `mseTol`, or (from the second pupil on) the error has
changed by less than the fraction `mseTol`, or the pupil by less than the fraction `pupilTol` (no such fraction
exists when the previous error, or pupil, is zero). -/
def Stops (phaseOnly : Bool) (pupilTol mseTol : ℝ) (k : ℕ) : Prop :=
  S.errorAt phaseOnly k < mseTol ∨ ∃ j, k = j + 1 ∧
    (S.errorAt phaseOnly j ≠ 0 ∧ |S.errorAt phaseOnly j - S.errorAt phaseOnly k| / S.errorAt phaseOnly j < mseTol ∨
     S.energy (S.iterate phaseOnly j) ≠ 0 ∧
      S.distance (S.iterate phaseOnly j) (S.iterate phaseOnly k) / S.energy (S.iterate phaseOnly j) < pupilTol)

/-- `P` and `Q` are the same pupil. -/
def SamePupil (P Q : ℕ → ℕ → ℂ) : Prop := ∀ i < S.N, ∀ j < S.N, P i j = Q i j

/-- `P` vanishes outside the aperture. -/
def Supported (P : ℕ → ℕ → ℂ) : Prop := ∀ i < S.N, ∀ j < S.N, ¬ S.Inside i j → P i j = 0

end Problem

end PyOTF.Physics
