import Verif.Model.Otf
import Mathlib.Analysis.SpecialFunctions.Trigonometric.Inverse

/-!
# `HanserPSF` (`otf.py:254-437`)

Array elements are exact complex numbers.  `Err.nan` stands for "the result contains NaN/inf" and is
returned when a parameter that enters the result is not finite (or `ni = 0` with a condition or
vectorial correction, which divides by zero).
-/

namespace PyOTF

/-- The real number of a finite float (0 otherwise; callers check finiteness first). -/
noncomputable def PyFloat.toReal : PyFloat → ℝ
  | .fin q => (q : ℝ)
  | _ => 0

/-- `r < x` for a finite array element `r` and a Python float `x`. -/
def ltPyFloat (r : ℝ) : PyFloat → Prop
  | .fin q => r < (q : ℝ)
  | .nan => False
  | .inf neg => neg = false

/-- The numbers that enter the computation of a Hanser PSF. -/
structure HanserNum where
  size : ℕ
  res : ℝ
  /-- `ni / wl`, the radius of the spherical shell -/
  kmag : ℝ
  /-- `na / wl`, the pupil radius -/
  limit : PyFloat
  z : List ℝ
  vecCorr : VecCorr
  condition : Condition

namespace HanserNum

variable (h : HanserNum)

/-- Lateral frequency of sample `i`, `fftfreq(size, res)[i]` (otf.py:331). -/
noncomputable def k (i : ℕ) : ℝ := fftfreq h.size h.res i

/-- `_kr[y, x]` (otf.py:332-333): `np.meshgrid` makes `kxx` vary along the last axis. -/
noncomputable def kr (y x : ℕ) : ℝ := (cart2pol (h.k y) (h.k x)).1

/-- `_phi[y, x]` (otf.py:332-333). -/
noncomputable def phi (y x : ℕ) : ℝ := (cart2pol (h.k y) (h.k x)).2

/-- `_kz[y, x]` (otf.py:338). -/
noncomputable def kz (y x : ℕ) : ℝ := psqrt (h.kmag ^ 2 - h.kr y x ^ 2)

open Classical in
/-- `_gen_pupil()` (otf.py:340-349). -/
noncomputable def idealPupil : Arr ℂ where
  shape := [h.size, h.size]
  get idx := if ltPyFloat (h.kr (idx.getD 0 0) (idx.getD 1 0)) h.limit then 1 else 0

/-- `_calc_defocus()[iz, y, x]` (otf.py:351-354). -/
noncomputable def defocus (iz y x : ℕ) : ℂ :=
  Complex.exp (2 * Real.pi * Complex.I * h.kz y x * (h.z.getD iz 0 : ℝ))

open Classical in
/-- `theta[y, x]` (otf.py:387). -/
noncomputable def theta (y x : ℕ) : ℝ :=
  Real.arcsin ((if h.kr y x < h.kmag then 1 else 0) * h.kr y x / h.kmag)

/-- The apodisation factor `a` (otf.py:391-398). -/
noncomputable def apod (y x : ℕ) : ℝ :=
  match h.condition with
  | .none => 1
  | .sine => 1 / Real.sqrt (Real.cos (h.theta y x))
  | .herschel => 1 / Real.cos (h.theta y x)

/-- The list `plist` of vectorial factors at one pixel (otf.py:401-410); `[1]` without correction. -/
noncomputable def vecFactors (y x : ℕ) : List ℝ :=
  let θ := h.theta y x
  let φ := h.phi y x
  let pz := [Real.sin θ * Real.cos φ, Real.sin θ * Real.sin φ]
  let py := [(Real.cos θ - 1) * Real.sin φ * Real.cos φ, Real.cos θ * Real.sin φ ^ 2 + Real.cos φ ^ 2]
  let px := [Real.cos θ * Real.cos φ ^ 2 + Real.sin φ ^ 2, (Real.cos θ - 1) * Real.sin φ * Real.cos φ]
  match h.vecCorr with
  | .none => [1]
  | .x => px
  | .y => py
  | .z => pz
  | .total => pz ++ py ++ px

/-- Number of field components (otf.py:400-415). -/
def ncomp : ℕ :=
  match h.vecCorr with
  | .none => 1
  | .x => 2
  | .y => 2
  | .z => 2
  | .total => 6

/-- Is one of the trigonometric factors of `theta` used? -/
def usesTheta : Bool := !(decide (h.condition = .none) && decide (h.vecCorr = .none))

end HanserNum

/-- NumPy broadcasting of two axis lengths. -/
def bdim (a b : ℕ) : Py ℕ :=
  if a = b then .ok a else if a = 1 then .ok b else if b = 1 then .ok a else .error .valueError

/-- Index into an axis of length `n` of a broadcast operand. -/
def bix (n i : ℕ) : ℕ := if n = 1 then 0 else i

/-- `np.fft` transforms raise `ValueError` on an axis of length zero. -/
def fftCheck (axes : List ℕ) (shape : List ℕ) : Py Unit :=
  if axes.any (fun ax => decide (shape.getD ax 0 = 0)) then .error .valueError else .ok ()

/-- The numeric parameters of a Hanser model: the Python scalar arithmetic of `_gen_kr`/`_gen_pupil`
(otf.py:331, 335, 346).  Raises what the code raises; `Err.nan` if a needed value is not finite. -/
noncomputable def hanserGenKr (p : Params) : Py (ℕ × PyFloat × PyFloat × PyFloat) := do
  let size := pyNat (← attr p.size)
  let res ← pyNum (← attr p.res)
  -- `fftfreq` computes `1.0 / (n * d)`
  let _ ← PyFloat.div (.fin 1) (PyFloat.mul (.fin (size : ℚ)) res)
  let ni ← pyNum (← attr p.ni)
  let wl ← pyNum (← attr p.wl)
  let kmag ← PyFloat.div ni wl
  let na ← pyNum (← attr p.na)
  let limit ← PyFloat.div na wl
  return (size, res, kmag, limit)

/-- All arguments finite: the reals behind them. -/
noncomputable def finReals (l : List PyFloat) : Py (List ℝ) :=
  if l.all (fun x => x.fin?.isSome) then .ok (l.map PyFloat.toReal) else .error .nan

/-- Collect the numbers once every check that can raise has passed. -/
noncomputable def hanserNum (p : Params) (size : ℕ) (res kmag limit : PyFloat) : Py HanserNum := do
  let vc ← attr p.vecCorr
  let cond ← attr p.condition
  let z ← finReals (← attr p.zrange)
  let f ← finReals [res, kmag]
  let h : HanserNum := ⟨size, f.getD 0 0, f.getD 1 0, limit, z, vc, cond⟩
  if h.usesTheta && decide (kmag = .fin 0) then throw .nan
  return h

/-- The pupils of all components and planes (otf.py:384-415) for a two-dimensional base pupil. -/
noncomputable def hanserPupils (h : HanserNum) (base : Arr ℂ) (A B : ℕ) : Arr ℂ where
  shape := [h.ncomp, h.z.length, A, B]
  get idx :=
    let c := idx.getD 0 0
    let iz := idx.getD 1 0
    let i := idx.getD 2 0
    let j := idx.getD 3 0
    let y := bix h.size i
    let x := bix h.size j
    base.get [bix (base.shape.getD 0 0) i, bix (base.shape.getD 1 0) j] * h.defocus iz y x
      * (h.apod y x : ℝ) * ((h.vecFactors y x).getD c 0 : ℝ)

/-- `_gen_psf(pupil_base)` (otf.py:356-422), without the invalidation of the caches. -/
noncomputable def hanserGenPsf (p : Params) (pupilBase : Option (Arr ℂ)) : Py (Arr ℂ) := do
  let (size, res, kmag, limit) ← hanserGenKr p
  match pupilBase with
  | none =>
    let nz := (← attr p.zrange).length
    fftCheck [2, 3] [1, nz, size, size]
    let h ← hanserNum p size res kmag limit
    return fftshift (some [2, 3]) (ifftn (some [2, 3]) (hanserPupils h h.idealPupil size size))
  | some base =>
    match base.shape with
    | [a, b] =>
      let A ← bdim a size
      let B ← bdim b size
      fftCheck [2, 3] [1, 1, A, B]
      let h ← hanserNum p size res kmag limit
      return fftshift (some [2, 3]) (ifftn (some [2, 3]) (hanserPupils h base A B))
    | _ => .error .assertionError

/-- `OTFa` from `PSFa` (otf.py:429-432). -/
noncomputable def hanserOTFa (psfa : Arr ℂ) : Py (Arr ℂ) := do
  fftCheck [1, 2, 3] psfa.shape
  return easyFft (some [1, 2, 3]) psfa

/-- `PSFi` from `PSFa` (otf.py:204-207). -/
noncomputable def psfiOf (psfa : Arr ℂ) : Arr ℝ := (psfa.map fun v => ‖v‖ ^ 2).sumAxis 0

/-- `OTFi` from `PSFi` (otf.py:209-212). -/
noncomputable def otfiOf (psfi : Arr ℝ) : Py (Arr ℂ) := do
  fftCheck (List.range psfi.shape.length) psfi.shape
  return easyFft none (psfi.map fun (v : ℝ) => (v : ℂ))

/-! ## The object -/

/-- A `HanserPSF` instance. -/
abbrev HObj := Obj (Arr ℂ) (Arr ℝ)

namespace HObj

/-- `_gen_psf` on the object (otf.py:356-422): clears the caches first. -/
noncomputable def genPsf (pupil : Option (Arr ℂ)) : PyM HObj (Arr ℂ) := do
  attributeChanged
  let o ← PyM.get
  PyM.lift (hanserGenPsf o.params pupil)

/-- Reading `PSFa` (otf.py:434-437, `functools.cached_property`). -/
noncomputable def getPSFa : PyM HObj (Arr ℂ) := do
  match (← PyM.get).psfa with
  | some a => pure a
  | none =>
    let a ← genPsf none
    PyM.modify fun o => { o with psfa := some a }
    pure a

/-- Reading `OTFa` (otf.py:429-432). -/
noncomputable def getOTFa : PyM HObj (Arr ℂ) := do
  match (← PyM.get).otfa with
  | some a => pure a
  | none =>
    let t ← PyM.lift (hanserOTFa (← getPSFa))
    PyM.modify fun o => { o with otfa := some t }
    pure t

/-- Reading `PSFi` (otf.py:204-207). -/
noncomputable def getPSFi : PyM HObj (Arr ℝ) := do
  match (← PyM.get).psfi with
  | some a => pure a
  | none =>
    let a ← getPSFa
    PyM.modify fun o => { o with psfi := some (psfiOf a) }
    pure (psfiOf a)

/-- Reading `OTFi` (otf.py:209-212). -/
noncomputable def getOTFi : PyM HObj (Arr ℂ) := do
  match (← PyM.get).otfi with
  | some a => pure a
  | none =>
    let t ← PyM.lift (otfiOf (← getPSFi))
    PyM.modify fun o => { o with otfi := some t }
    pure t

/-- `apply_pupil` (otf.py:424-427). -/
noncomputable def applyPupil (pupil : Arr ℂ) : PyM HObj Unit := do
  attributeChanged
  let a ← genPsf (some pupil)
  PyM.modify fun o => { o with psfa := some a }

/-- `HanserPSF(...)`. -/
def new (a : InitArgs) (zrange : Option ZArg := none) : Py HObj := construct (hanserInit a zrange)

end HObj

end PyOTF
