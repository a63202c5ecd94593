import Verif.Model.FloatPupil

/-!
# Apodisation and vectorial pupils in floating point

Continues `Model/FloatPupil.lean` with the remaining operations of `_gen_psf` (otf.py:384-422).  The library functions `np.arcsin`, `np.sin`, `np.cos` and `np.arctan2` are
arbitrary; the theorems assume error bounds of them.  Simplified: a division by zero gives 0 (it does not occur inside the aperture; outside, `theta` is 0 or its cosine is positive).
-/

namespace PyOTF

/-- The library functions that the weights of the pupil need. -/
structure FlTrig extends FlMath where
  /-- `np.arcsin(x)` -/
  asin : ℝ → ℝ
  /-- `np.sin(x)` -/
  sin : ℝ → ℝ
  /-- `np.cos(x)` -/
  cos : ℝ → ℝ
  /-- `np.arctan2(y, x)` -/
  atan2 : ℝ → ℝ → ℝ

namespace FlTrig

variable (A : FlTrig) (o : FlOptics)

open Classical in
/-- `theta[y, x]` (otf.py:386): the product with the truth value is exact. -/
noncomputable def theta (y x : ℕ) : ℝ := A.asin (A.fl ((if A.kr o y x < A.kmag o then A.kr o y x else 0) / A.kmag o))

/-- `_phi[y, x]` (otf.py:332-333, utils.py:169). -/
noncomputable def phi (y x : ℕ) : ℝ := A.atan2 (A.k o y) (A.k o x)

/-- A complex number times a real one: both parts are rounded. -/
noncomputable def mulReal (p : ℂ) (a : ℝ) : ℂ := ⟨A.fl (p.re * a), A.fl (p.im * a)⟩

/-- `pupil *= a` (otf.py:390-397). -/
noncomputable def apodised (cd : Condition) (z : ℝ) (y x : ℕ) : ℂ :=
  match cd with
  | .none => A.pupil o z y x
  | .sine => A.mulReal (A.pupil o z y x) (A.fl (1 / A.fl (Real.sqrt (A.cos (A.theta o y x)))))
  | .herschel => A.mulReal (A.pupil o z y x) (A.fl (1 / A.cos (A.theta o y x)))

/-- `np.cos(theta) * c ** 2 + s ** 2` (otf.py:406, 408). -/
noncomputable def along (θ c s : ℝ) : ℝ := A.fl (A.fl (A.cos θ * A.fl (c ^ 2)) + A.fl (s ^ 2))

/-- `(np.cos(theta) - 1) * np.sin(phi) * np.cos(phi)` (otf.py:405, 409). -/
noncomputable def cross (θ φ : ℝ) : ℝ := A.fl (A.fl (A.fl (A.cos θ - 1) * A.sin φ) * A.cos φ)

/-- `plist` (otf.py:400-409) at angles `θ`, `φ`. -/
noncomputable def plist (v : VecCorr) (θ φ : ℝ) : List ℝ :=
  let z := [A.fl (A.sin θ * A.cos φ), A.fl (A.sin θ * A.sin φ)]
  let y := [A.cross θ φ, A.along θ (A.sin φ) (A.cos φ)]
  let x := [A.along θ (A.cos φ) (A.sin φ), A.cross θ φ]
  match v with
  | .none => []
  | .x => x
  | .y => y
  | .z => z
  | .total => z ++ y ++ x

/-- `pupils[c, iz]` (otf.py:411, 415). -/
noncomputable def component (v : VecCorr) (cd : Condition) (c : ℕ) (z : ℝ) (y x : ℕ) : ℂ :=
  match v with
  | .none => A.apodised o cd z y x
  | v => A.mulReal (A.apodised o cd z y x) ((A.plist v (A.theta o y x) (A.phi o y x)).getD c 0)

/-- `PSFa[c, iz]` (otf.py:420-422). -/
noncomputable def psfaOf (v : VecCorr) (cd : Condition) (c : ℕ) (z : ℝ) (y x : ℕ) : ℂ :=
  A.ifft2 o.size (A.component o v cd c z) (rollIdx o.size (o.size / 2 : ℕ) y) (rollIdx o.size (o.size / 2 : ℕ) x)

/-- `PSFi[iz]` (otf.py:207): `abs` of a complex number is `hypot`, `plist` gives the number of components, the order of the additions is arbitrary. -/
noncomputable def psfiSum (v : VecCorr) (cd : Condition) (z : ℝ) (y x : ℕ) : ℝ :=
  (A.order 4 [y, x] (max 1 (A.plist v 0 0).length)).sum A.fl fun c => A.fl (A.hyp (A.psfaOf o v cd c z y x).re (A.psfaOf o v cd c z y x).im ^ 2)

end FlTrig

end PyOTF
