import Verif.Model.Otf
import Verif.Spec.Field
import Mathlib.Analysis.SpecialFunctions.Sqrt

/-!
# Specification of a scalar or vectorial point spread function

The physics of Hanser's model, independent of the model of the code: a grid of lateral frequencies, the
direction of each plane wave on a sphere of radius `k = ni / wl` and the weights of the field components.
Only the names of the keyword values (`VecCorr`, `Condition`) and the data type of parameters are shared.
-/

namespace PyOTF.Physics

/-- Frequency of sample `i` of `N` with sample distance `r`: `0, 1, ..., -2, -1` in units of `1 / (N r)`. -/
noncomputable def freq (N : ℕ) (r : ℝ) (i : ℕ) : ℝ := (if 2 * i < N then (i : ℝ) else i - N) / (N * r)

/-- Radial frequency of row `i` (y) and column `j` (x). -/
noncomputable def radial (N : ℕ) (r : ℝ) (i j : ℕ) : ℝ := √(freq N r i ^ 2 + freq N r j ^ 2)

open Classical in
/-- Sine of the angle to the optical axis; waves off the sphere are treated as axial. -/
noncomputable def sinTheta (N : ℕ) (r k : ℝ) (i j : ℕ) : ℝ := if radial N r i j < k then radial N r i j / k else 0

/-- Cosine of the angle to the optical axis. -/
noncomputable def cosTheta (N : ℕ) (r k : ℝ) (i j : ℕ) : ℝ := √(1 - sinTheta N r k i j ^ 2)

open Classical in
/-- Cosine of the azimuth (of the x axis). -/
noncomputable def cosPhi (N : ℕ) (r : ℝ) (i j : ℕ) : ℝ := if radial N r i j = 0 then 1 else freq N r j / radial N r i j

open Classical in
/-- Sine of the azimuth. -/
noncomputable def sinPhi (N : ℕ) (r : ℝ) (i j : ℕ) : ℝ := if radial N r i j = 0 then 0 else freq N r i / radial N r i j

/-- Axial frequency on the sphere (0 for evanescent waves). -/
noncomputable def axial (N : ℕ) (r k : ℝ) (i j : ℕ) : ℝ := √(max 0 (k ^ 2 - radial N r i j ^ 2))

/-- Amplitude factor of the aplanatic (sine) or Herschel condition, as a function of the cosine. -/
noncomputable def apodization (c : Condition) (cosθ : ℝ) : ℝ :=
  match c with
  | .none => 1
  | .sine => 1 / √cosθ
  | .herschel => 1 / cosθ

/-- Polarisation factors: the field component in direction x, y or z produced by light polarised along x and
along y.  `total`: z, y, x in turn. -/
noncomputable def polarization (v : VecCorr) (sinθ cosθ sinφ cosφ : ℝ) : List ℝ :=
  match v with
  | .none => [1]
  | .x => [cosθ * cosφ ^ 2 + sinφ ^ 2, (cosθ - 1) * sinφ * cosφ]
  | .y => [(cosθ - 1) * sinφ * cosφ, cosθ * sinφ ^ 2 + cosφ ^ 2]
  | .z => [sinθ * cosφ, sinθ * sinφ]
  | .total => [sinθ * cosφ, sinθ * sinφ, (cosθ - 1) * sinφ * cosφ, cosθ * sinφ ^ 2 + cosφ ^ 2,
      cosθ * cosφ ^ 2 + sinφ ^ 2, (cosθ - 1) * sinφ * cosφ]

/-- Weight of component `c` at frequency `(i, j)`. -/
noncomputable def weight (N : ℕ) (r k : ℝ) (v : VecCorr) (cd : Condition) (c i j : ℕ) : ℝ :=
  apodization cd (cosTheta N r k i j) *
    (polarization v (sinTheta N r k i j) (cosTheta N r k i j) (sinPhi N r i j) (cosPhi N r i j)).getD c 0

/-- Number of components. -/
def components : VecCorr → ℕ
  | .none => 1
  | .x => 2
  | .y => 2
  | .z => 2
  | .total => 6

/-- Amplitude at height `z`, pixel `(y, x)`, of component `c`: the diffraction integral of the pupil `P`. -/
noncomputable def amplitude (N : ℕ) (r k : ℝ) (v : VecCorr) (cd : Condition) (P : ℕ → ℕ → ℂ) (z : ℝ) (c y x : ℕ) : ℂ :=
  field N N (fun i j => P i j * Complex.exp (2 * Real.pi * axial N r k i j * z * Complex.I) * (weight N r k v cd c i j : ℝ)) y x

open Classical in
/-- The unaberrated pupil: 1 inside the aperture `radial < na / wl`, 0 outside. -/
noncomputable def aperture (N : ℕ) (r l : ℝ) (i j : ℕ) : ℂ := if radial N r i j < l then 1 else 0

end PyOTF.Physics

namespace PyOTF

/-- The parameters are ordinary numbers: wavelength `w`, numerical aperture `n`, index `i`, pixel size `r`,
`N` pixels, planes `zs`. -/
structure Optics (p : Params) (w n i r : ℚ) (N : ℕ) (zs : List ℚ) (v : VecCorr) (cd : Condition) : Prop where
  wl : ∃ u, p.wl = some u ∧ u.num? = some (.fin w)
  na : ∃ u, p.na = some u ∧ u.num? = some (.fin n)
  ni : ∃ u, p.ni = some u ∧ u.num? = some (.fin i)
  res : ∃ u, p.res = some u ∧ u.num? = some (.fin r)
  size : ∃ u, p.size = some u ∧ pyNat u = N
  zrange : p.zrange = some (zs.map PyFloat.fin)
  vecCorr : p.vecCorr = some v
  condition : p.condition = some cd

end PyOTF
