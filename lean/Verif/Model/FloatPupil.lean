import Verif.Model.Hanser
import Verif.Model.Rounding

/-!
# The pupil of a `HanserPSF` in floating point

`Model/Hanser.lean` computes with exact real numbers.  Here the operations of `_gen_kr`, `_gen_pupil`, `_calc_defocus` and of the scalar,
unapodised branch of `_gen_psf` are rounded, and the limit in the `res` setter is.  As in `Model/Rounding.lean` the rounding function is
arbitrary and there is neither overflow nor underflow.  The library functions `np.hypot`, `np.exp` and `ifftn` are arbitrary; the theorems assume error
bounds of them.
-/

namespace PyOTF

/-- Floating point arithmetic with the library functions that the pupil needs. -/
structure FlMath extends Arith where
  /-- `np.hypot(y, x)` -/
  hyp : ℝ → ℝ → ℝ
  /-- `np.exp(1j * x)` -/
  expi : ℝ → ℂ
  /-- `ifftn` over the last two axes, of one plane of `n` by `n` numbers -/
  ifft2 : ℕ → (ℕ → ℕ → ℂ) → ℕ → ℕ → ℂ

/-- Parameters of a model: pixels, pixel size, wavelength, numerical aperture, refractive index. -/
structure FlOptics where
  size : ℕ
  res : ℝ
  wl : ℝ
  na : ℝ
  ni : ℝ

namespace FlMath

variable (A : FlMath) (o : FlOptics)

/-- `fftfreq(size, res)[i]` (otf.py:331): NumPy computes `val = 1.0 / (n * d)` and multiplies the whole numbers with it. -/
noncomputable def k (i : ℕ) : ℝ := A.fl (fftfreqNum o.size i * A.fl (1 / A.fl (o.size * o.res)))

/-- `_kr[y, x]` (otf.py:332-333, utils.py:170). -/
noncomputable def kr (y x : ℕ) : ℝ := A.hyp (A.k o y) (A.k o x)

/-- `diff_limit` (otf.py:346). -/
noncomputable def limit : ℝ := A.fl (o.na / o.wl)

/-- `kr < diff_limit` (otf.py:349). -/
def Inside (y x : ℕ) : Prop := A.kr o y x < A.limit o

/-- `_kmag` (otf.py:335). -/
noncomputable def kmag : ℝ := A.fl (o.ni / o.wl)

/-- `_kz[y, x]` (otf.py:338, utils.py:255). -/
noncomputable def kz (y x : ℕ) : ℝ := A.fl (Real.sqrt (max 0 (A.fl (A.fl (A.kmag o ^ 2) - A.fl (A.kr o y x ^ 2)))))

/-- `_calc_defocus()` (otf.py:351-354): `2 * np.pi * 1j` is a constant, the products with `kz` and `z` are rounded. -/
noncomputable def defocus (z : ℝ) (y x : ℕ) : ℂ :=
  A.expi (A.fl (A.fl (A.fl (2 * A.fl Real.pi) * A.kz o y x) * z))

open Classical in
/-- The pupil at height `z` (otf.py:384), scalar and without apodisation: multiplying with 0 and 1 is exact. -/
noncomputable def pupil (z : ℝ) (y x : ℕ) : ℂ := if A.Inside o y x then A.defocus o z y x else 0

/-- `PSFa[0, iz]` (otf.py:420-422): transform and `fftshift`. -/
noncomputable def psfa (z : ℝ) (y x : ℕ) : ℂ :=
  A.ifft2 o.size (A.pupil o z) (rollIdx o.size (o.size / 2 : ℕ) y) (rollIdx o.size (o.size / 2 : ℕ) x)

/-- `PSFi[iz]` (otf.py:207): `abs` of a complex number is `hypot`, the sum has one term. -/
noncomputable def psfi (z : ℝ) (y x : ℕ) : ℝ := A.fl (A.hyp (A.psfa o z y x).re (A.psfa o z y x).im ^ 2)

/-- `abbe_limit` of the `res` setter (otf.py:152). -/
noncomputable def abbeLimit (na wl : ℝ) : ℝ := A.fl (1 / A.fl (A.fl (2 * na) / wl))

/-- Does the `res` setter accept the value (otf.py:153-156)? -/
def Accepts (na wl res : ℝ) : Prop := ¬ A.abbeLimit na wl ≤ res

end FlMath

end PyOTF
