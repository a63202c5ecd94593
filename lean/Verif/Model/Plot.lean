import Verif.Model.Display
import Verif.Model.Microscope

/-!
# `plot_psf` and `plot_otf` of the PSF models and of the microscopes

`pyotf/otf.py:214-256`, `pyotf/microscope.py:131-171`.  What is handed to matplotlib is modelled as in `Model/Display.lean`; further keyword
arguments are passed on and not modelled, except `mip`.  Simplified: attributes that are `nan` or infinite give `Err.nan`.
-/

namespace PyOTF

/-- `np.diff(z)` (external). -/
def diffs : List ℚ → List ℚ
  | a :: b :: l => (b - a) :: diffs (b :: l)
  | _ => []

/-- `np.isclose(a, b)` of finite numbers with its default tolerances `rtol=1e-5`, `atol=1e-8` (external). -/
def isClose (a b : ℚ) : Bool := decide (|a - b| ≤ 1 / 10 ^ 8 + 1 / 10 ^ 5 * |b|)

/-- `_validate_zrange` (otf.py:214-222); the argument is the attribute `zrange`, which a `SheppardPSF` does not have (the `AttributeError` is
caught).  With a `nan` or an infinity among the planes some difference or the mean is not finite and not close, except for `[-inf, x, inf]`
and `[inf, x, -inf]`. -/
def validateZrange (zrange : Option (List PyFloat)) : Py Unit :=
  match zrange with
  | none => .ok ()
  | some zs =>
    match zs.mapM PyFloat.fin? with
    | some zs =>
      let zsteps := diffs zs
      if zsteps.length < 2 then .error .runtimeError
      else if zsteps.all fun s => isClose s (zsteps.sum / zsteps.length) then .ok ()
      else .error .runtimeError
    | none =>
      match zs with
      | [.inf a, .fin _, .inf b] => if a = b then .error .runtimeError else .ok ()
      | _ => .error .runtimeError

/-- The value of a finite numeric attribute. -/
def realAttr (o : Option PyVal) : Py ℝ := do
  match ← pyNum (← attr o) with
  | .fin q => return (q : ℝ)
  | _ => throw .nan

open Classical in
/-- `lateral_extent` (otf.py:232, microscope.py:137). -/
noncomputable def lateralExtent (wl na res : ℝ) : Py ℝ :=
  if na = 0 then .error .zeroDivisionError
  else if res = 0 then .error .zeroDivisionError
  else .ok (wl / 2 / na / res * 32)

open Classical in
/-- `axial_extent` (otf.py:233, microscope.py:138-143); `none` is NaN.  It is evaluated after `lateral_extent`, so `na` is not 0. -/
noncomputable def axialExtent (wl na ni zres : ℝ) : Option ℝ :=
  if ni ^ 2 - na ^ 2 < 0 then none
  else some (wl / (ni - Real.sqrt (ni ^ 2 - na ^ 2)) / zres * 16)

open Classical in
/-- `slice_maker(xs, ws)` (utils.py:103-154) of integer centres and floating point widths (`none` is NaN, which compares false, is converted
to the smallest integer and fails the assertion). -/
noncomputable def sliceMakerReal (xs : List ℕ) (ws : List (Option ℝ)) : Py (List Slice) :=
  if ws.length ≠ xs.length then .error .runtimeError
  else if ∃ w, some w ∈ ws ∧ w < 0 then .error .valueError
  else (List.zip xs ws).mapM fun p =>
    match p.2 with
    | none => .error .assertionError
    | some w => sliceOne p.1 (rint w)

/-- The end of `plot_psf` (otf.py:235-237, microscope.py:145-147): crop around the brightest voxel and plot. -/
noncomputable def cropAndPlot (psf : Arr ℝ) (lateral : ℝ) (axial : Option ℝ) (zres res : ℝ) (mip : Bool) : Py (List Panel) := do
  let k ← argmax psf.ravel
  let maxLoc := unravel psf.shape k
  let crop ← sliceMakerReal maxLoc [axial, some lateral, some lateral]
  psfPlot (psf.slice crop) zres res mip

/-- `BasePSF.plot_psf` (otf.py:224-237). -/
noncomputable def Inner.plotPsf (mip : Bool := true) : PyM Inner (List Panel) := do
  let p := (← PyM.get).params
  PyM.lift (validateZrange p.zrange)
  let wl ← PyM.lift (realAttr p.wl)
  let na ← PyM.lift (realAttr p.na)
  let res ← PyM.lift (realAttr p.res)
  let lateral ← PyM.lift (lateralExtent wl na res)
  let ni ← PyM.lift (realAttr p.ni)
  let zres ← PyM.lift (realAttr p.zres)
  let axial := axialExtent wl na ni zres
  let psfi ← Inner.getPSFi
  PyM.lift (cropAndPlot psfi lateral axial zres res mip)

/-- The normalised OTF (otf.py:246-248, microscope.py:155-156): `np.fmax(otf / otf.max(), eps)` with `eps = 2^-52`.  If the largest value is 0,
NumPy's `0 / 0` is NaN and `fmax` gives `eps`, as it does here. -/
noncomputable def normalisedOtf (otfi : Arr ℂ) : Py (Arr ℝ) := do
  let otf := otfi.map fun v => ‖v‖
  let m ← maxElem otf
  return otf.map fun v => max (v / m) (1 / 2 ^ 52)

/-- `BasePSF.plot_otf` (otf.py:239-256). -/
noncomputable def Inner.plotOtf : PyM Inner (List Panel) := do
  let p := (← PyM.get).params
  PyM.lift (validateZrange p.zrange)
  let otf ← PyM.lift (normalisedOtf (← Inner.getOTFi))
  let na ← PyM.lift (realAttr p.na)
  let ni ← PyM.lift (realAttr p.ni)
  let wl ← PyM.lift (realAttr p.wl)
  let zres ← PyM.lift (realAttr p.zres)
  let res ← PyM.lift (realAttr p.res)
  PyM.lift (otfPlot otf na ni wl zres res)

namespace Micro

/-- `WidefieldMicroscope.plot_psf` (microscope.py:131-147). -/
noncomputable def plotPsf (mip : Bool := true) : PyM Micro (List Panel) := do
  let m ← PyM.get
  let wl ← PyM.lift (realAttr m.model.params.wl)
  let na ← PyM.lift (realAttr m.model.params.na)
  let pixelSize ← PyM.lift (realAttr (some m.pixelSize))
  let lateral ← PyM.lift (lateralExtent wl na pixelSize)
  let ni ← PyM.lift (realAttr m.model.params.ni)
  let axial := axialExtent wl na ni pixelSize
  let psf ← getPSF
  PyM.lift (cropAndPlot psf lateral axial pixelSize pixelSize mip)

/-- `WidefieldMicroscope.plot_otf` (microscope.py:149-171). -/
noncomputable def plotOtf : PyM Micro (List Panel) := do
  let otf ← PyM.lift (normalisedOtf (← getOTF))
  let m ← PyM.get
  let na ← PyM.lift (realAttr m.model.params.na)
  let ni ← PyM.lift (realAttr m.model.params.ni)
  let wl ← PyM.lift (realAttr m.model.params.wl)
  let pixelSize ← PyM.lift (realAttr (some m.pixelSize))
  PyM.lift (otfPlot otf na ni wl pixelSize pixelSize)

end Micro

end PyOTF
