import Verif.Spec.Hanser

/-!
# Specification of Sheppard's three-dimensional pupil

The amplitude OTF lives on a cap of the sphere `|k| = K = ni / wl`; samples are addressed by their frequency.
-/

namespace PyOTF.Physics

/-- Frequency of element `x` of a centred axis of `N` samples at distance `r`. -/
noncomputable def centred (N : ℕ) (r : ℝ) (x : ℕ) : ℝ := ((x : ℝ) - (N / 2 : ℕ)) / (N * r)

/-- Length of a frequency vector. -/
noncomputable def length3 (kz ky kx : ℝ) : ℝ := √(kz ^ 2 + ky ^ 2 + kx ^ 2)

/-- Extent of a pixel (`dz` axially, `dk` laterally) along the direction of `k`. -/
noncomputable def pixelAlong (dz dk kz ky kx : ℝ) : ℝ := length3 (kz * dz) (ky * dk) (kx * dk) / length3 kz ky kx

/-- The frequency lies on the cap: within a pixel of the sphere of radius `K`, and at least a pixel above the rim
`√(K² - L²)` of the cap (`L = na / wl`).  With two objectives the opposite cap counts as well. -/
def OnCap (K L dz dk : ℝ) (dual : Bool) (kz ky kx : ℝ) : Prop :=
  |length3 kz ky kx - K| < pixelAlong dz dk kz ky kx ∧
  √(K ^ 2 - L ^ 2) + pixelAlong dz dk kz ky kx < if dual then |kz| else kz

/-- Vectorial factors as functions of the direction cosines `m, n, s` (x, y, z): the component in direction z, y or x
of light polarised along x and y. -/
noncomputable def capPolarization (v : VecCorr) (m n s : ℝ) : List ℝ :=
  match v with
  | .none => [1]
  | .x => [1 - m ^ 2 / (1 + s), -(m * n) / (1 + s)]
  | .y => [-(n * m) / (1 + s), 1 - n ^ 2 / (1 + s)]
  | .z => [-m, -n]
  | .total => [-m, -n, -(n * m) / (1 + s), 1 - n ^ 2 / (1 + s), 1 - m ^ 2 / (1 + s), -(m * n) / (1 + s)]

end PyOTF.Physics

namespace PyOTF

/-- Ordinary parameters of a `SheppardPSF`. -/
structure SOptics (p : Params) (w n i r z : ℚ) (N nz : ℕ) (v : VecCorr) (cd : Condition) (dual : Bool) : Prop where
  wl : ∃ u, p.wl = some u ∧ u.num? = some (.fin w)
  na : ∃ u, p.na = some u ∧ u.num? = some (.fin n)
  ni : ∃ u, p.ni = some u ∧ u.num? = some (.fin i)
  res : ∃ u, p.res = some u ∧ u.num? = some (.fin r)
  zres : ∃ u, p.zres = some u ∧ u.num? = some (.fin z)
  size : ∃ u, p.size = some u ∧ pyNat u = N
  zsize : ∃ u, p.zsize = some u ∧ pyNat u = nz
  vecCorr : p.vecCorr = some v
  condition : p.condition = some cd
  dual : p.dual = some dual

end PyOTF
