import Verif.Model.Aberration

/-!
# `pyotf/phaseretrieval.py`

Numbers in arrays are exact reals / complex numbers; `Err.nan` stands for "the array of pupils or the mean
squared error is NaN" (an empty stack).  The convergence measures, which may be NaN or infinite in ordinary
runs, keep those values (`NpReal`).  External functions are parameters: `unwrap` (skimage `unwrap_phase`) and
`lstsq` (NumPy); the theorems state what they need of them.  The plots are in
`Model/PrPlot.lean`.  Not modelled: logging, `__main__`.
-/

namespace PyOTF

/-! ## NumPy pieces -/

/-- Elementwise binary operation with broadcasting (external). -/
def Arr.zipB {α β γ : Type} (f : α → β → γ) (a : Arr α) (b : Arr β) : Py (Arr γ) := do
  let s ← bshape a.shape b.shape
  let a' ← broadcastTo s a
  let b' ← broadcastTo s b
  return ⟨s, fun i => f (a'.get i) (b'.get i)⟩

/-- In-place elementwise operation `a op= b`: the shape of `a` is kept (external). -/
def Arr.izipB {α β : Type} (f : α → β → α) (a : Arr α) (b : Arr β) : Py (Arr α) := do
  let b' ← broadcastTo a.shape b
  return ⟨a.shape, fun i => f (a.get i) (b'.get i)⟩

/-- `a.mean()` (external); the mean of an empty array is NaN. -/
noncomputable def Arr.mean (a : Arr ℝ) : Py ℝ :=
  if a.shape.prod = 0 then .error .nan else .ok (a.sum / a.shape.prod)

/-- A non-negative NumPy float. -/
inductive NpReal
  | fin (x : ℝ)
  | nan
  | inf

/-- `x < t` for a finite `t`. -/
def NpReal.lt (x : NpReal) (t : ℝ) : Prop :=
  match x with
  | .fin x => x < t
  | _ => False

open Classical in
/-- `a / b` of NumPy floats, `0 ≤ a`, `0 ≤ b` (a warning instead of an exception when `b = 0`). -/
noncomputable def npDiv (a b : ℝ) : NpReal := if b = 0 then if a = 0 then .nan else .inf else .fin (a / b)

/-! ## The parameter dictionary -/

/-- A value in the parameter dictionary: a scalar or a sequence of numbers. -/
inductive DVal
  | val (v : PyVal)
  | seq (xs : List PyFloat)

/-- A Python dictionary with string keys, in insertion order. -/
abbrev PyDict := List (String × DVal)

/-- `d[k] = v` (external): in place if the key is there, at the end otherwise. -/
def PyDict.insert (d : PyDict) (k : String) (v : DVal) : PyDict :=
  if d.any (fun p => p.1 == k) then d.map fun p => if p.1 == k then (k, v) else p else d ++ [(k, v)]

/-- `d.update(e)` (external). -/
def PyDict.update (d e : PyDict) : PyDict := e.foldl (fun d p => d.insert p.1 p.2) d

/-- `d.get(k)` (external). -/
def PyDict.find (d : PyDict) (k : String) : Option DVal := (d.find? fun p => p.1 == k).map (·.2)

/-- A scalar parameter; a sequence in its place is some non-numeric object. -/
def DVal.scalar : DVal → PyVal
  | .val v => v
  | .seq _ => .other false

/-- The value of `zrange`: `None` (default), a number or a sequence of numbers; simplified: anything else is
rejected here. -/
def DVal.zrange : DVal → Py (Option ZArg)
  | .seq xs => .ok (some (.seq xs))
  | .val .none => .ok none
  | .val v =>
    match v.num? with
    | some x => .ok (some (.scalar x))
    | none => .error .typeError

/-- The keyword arguments of `HanserPSF` (otf.py:53-55, 272). -/
def hanserKeywords : List String :=
  ["wl", "na", "ni", "res", "size", "zres", "zsize", "vec_corr", "condition", "zrange"]

/-- A required keyword argument. -/
def required (d : PyDict) (k : String) : Py PyVal :=
  match d.find k with
  | some v => .ok v.scalar
  | none => .error .typeError

/-- `HanserPSF(**params)` (phaseretrieval.py:81): unknown or missing keywords are a `TypeError`. -/
def hanserOfDict (d : PyDict) : Py HObj := do
  if ¬ d.all (fun p => decide (p.1 ∈ hanserKeywords)) then throw .typeError
  let a : InitArgs :=
    { wl := ← required d "wl", na := ← required d "na", ni := ← required d "ni", res := ← required d "res"
      size := ← required d "size", zres := ((d.find "zres").map DVal.scalar).getD .none
      zsize := ((d.find "zsize").map DVal.scalar).getD .none
      vecCorr := ((d.find "vec_corr").map DVal.scalar).getD (.str "none")
      condition := ((d.find "condition").map DVal.scalar).getD (.str "sine") }
  let z ← match d.find "zrange" with
    | none => .ok none
    | some v => v.zrange
  HObj.new a z

/-! ## `retrieve_phase` -/

/-- `_calc_mse(data1, data2)` (phaseretrieval.py:385-387). -/
noncomputable def calcMse (data1 data2 : Arr ℝ) : Py ℝ := do
  let d ← data1.zipB (fun a b => (a - b) ^ 2) data2
  d.mean

/-- Relative change of the pupil (phaseretrieval.py:104). -/
noncomputable def pupilChange (old new : Arr ℂ) : Py NpReal := do
  let d ← old.zipB (fun a b => ‖a - b‖ ^ 2) new
  return npDiv (← d.mean) (← (old.map fun v => ‖v‖ ^ 2).mean)

/-- `model._calc_defocus()` (otf.py:351-354). -/
noncomputable def HanserNum.defocusArr (h : HanserNum) : Arr ℂ :=
  ⟨[h.z.length, h.size, h.size], fun i => h.defocus (i.getD 0 0) (i.getD 1 0) (i.getD 2 0)⟩

/-- What stays fixed during the iteration: `data`, `mag`, `mask`, the coordinates of the model, tolerances. -/
structure PrConf where
  data : Arr ℝ
  mag : Arr ℝ
  mask : Arr ℝ
  h : HanserNum
  pupilTol : ℝ
  mseTol : ℝ
  phaseOnly : Bool

/-- The variables of the loop; `old` holds `old_mse`, `old_pupil` once they are set, the lists the filled
parts of `mse`, `mse_diff`, `pupil_diff`. -/
structure PrState where
  model : HObj
  pupil : Arr ℂ
  old : Option (ℝ × Arr ℂ)
  mse : List ℝ
  mseDiff : List NpReal
  pupilDiff : List NpReal

/-- The new pupil from the amplitude PSF of the current one (phaseretrieval.py:119-130). -/
noncomputable def nextPupil (c : PrConf) (psfa : Arr ℂ) : Py (Arr ℂ) := do
  let phase := psfa.squeeze.map Complex.arg
  let newPsf ← c.mag.zipB (fun (m p : ℝ) => (m : ℂ) * Complex.exp (Complex.I * (p : ℂ))) phase
  fftCheck [1, 2] newPsf.shape
  let pupils ← (fftn (some [1, 2]) (ifftshift (some [1, 2]) newPsf)).izipB (fun v d => v / d) c.h.defocusArr
  if pupils.shape.headD 0 = 0 then throw .nan
  let mean := (pupils.sumAxis 0).map fun v => v / (pupils.shape.headD 0 : ℂ)
  let new ← mean.zipB (fun v (m : ℝ) => v * (m : ℂ)) c.mask
  if c.phaseOnly then (new.map fun v => Complex.exp (Complex.I * (Complex.arg v : ℂ))).zipB (fun v (m : ℝ) => v * (m : ℂ)) c.mask
  else return new

/-- The two differences (phaseretrieval.py:100-107). -/
noncomputable def prDiffs (old : Option (ℝ × Arr ℂ)) (newMse : ℝ) (newPupil : Arr ℂ) : Py (NpReal × NpReal) :=
  match old with
  | some (oldMse, oldPupil) => do
    return (npDiv |oldMse - newMse| oldMse, ← pupilChange oldPupil newPupil)
  | none => .ok (.nan, .nan)

open Classical in
/-- One pass of the loop (phaseretrieval.py:95-130); the flag says that `break` was executed. -/
noncomputable def prBody (c : PrConf) (s : PrState) : Py (PrState × Bool) := do
  (HObj.applyPupil s.pupil s.model).1
  let model := (HObj.applyPupil s.pupil s.model).2
  let psfi ← (HObj.getPSFi model).1
  let model := (HObj.getPSFi model).2
  let newMse ← calcMse c.data psfi
  let (mseDiff, pupilDiff) ← prDiffs s.old newMse s.pupil
  let s' : PrState := ⟨model, s.pupil, s.old, s.mse ++ [newMse], s.mseDiff ++ [mseDiff], s.pupilDiff ++ [pupilDiff]⟩
  if pupilDiff.lt c.pupilTol ∨ mseDiff.lt c.mseTol ∨ newMse < c.mseTol then return (s', true)
  let psfa ← (HObj.getPSFa model).1
  let model := (HObj.getPSFa model).2
  let new ← nextPupil c psfa
  return (⟨model, new, some (newMse, s.pupil), s'.mse, s'.mseDiff, s'.pupilDiff⟩, false)

/-- `for i in range(max_iters)` (phaseretrieval.py:95) with `n` passes left. -/
noncomputable def prLoop (c : PrConf) : ℕ → PrState → Py PrState
  | 0, s => .ok s
  | n + 1, s =>
    match prBody c s with
    | .error e => .error e
    | .ok (s', true) => .ok s'
    | .ok (s', false) => prLoop c n s'

/-- A `PhaseRetrievalResult` (phaseretrieval.py:152-188). -/
structure PRResult where
  mag : Arr ℝ
  phase : Arr ℝ
  mse : List ℝ
  pupilDiff : List NpReal
  mseDiff : List NpReal
  model : HObj
  r : Arr ℝ
  theta : Arr ℝ
  na : PyVal
  wl : PyVal

/-- The coordinates of a model after `_gen_kr()` (otf.py:329-338). -/
noncomputable def genCoords (p : Params) : Py HanserNum := do
  let (size, res, kmag, limit) ← hanserGenKr p
  hanserNum p size res kmag limit

/-- `PhaseRetrievalResult(mag, phase, mse, pupil_diff, mse_diff, model)` (phaseretrieval.py:155-188). -/
noncomputable def PRResult.new (mag phase : Arr ℝ) (mse : List ℝ) (pupilDiff mseDiff : List NpReal) (model : HObj) :
    Py PRResult := do
  let h ← genCoords model.params
  return { mag := mag, phase := phase, mse := mse, pupilDiff := pupilDiff, mseDiff := mseDiff, model := model
           r := fftshift none ⟨[h.size, h.size], fun i => h.kr (i.getD 0 0) (i.getD 1 0)⟩
           theta := fftshift none ⟨[h.size, h.size], fun i => h.phi (i.getD 0 0) (i.getD 1 0)⟩
           na := ← attr model.params.na, wl := ← attr model.params.wl }

/-- The checks at the beginning (phaseretrieval.py:70-72). -/
def prChecks (data : Arr ℝ) (maxIters : ℤ) : Py (ℕ × ℕ) :=
  if ¬ 0 < maxIters then .error .assertionError
  else if data.shape.length < 3 then .error .indexError
  else if data.shape.getD 1 0 ≠ data.shape.getD 2 0 then .error .assertionError
  else if data.shape.length ≠ 3 then .error .assertionError
  else .ok (data.shape.getD 0 0, data.shape.getD 2 0)

/-- The entries that overwrite those of the caller (phaseretrieval.py:74-76). -/
def prOverride (nz nx : ℕ) : PyDict :=
  [("vec_corr", .val (.str "none")), ("condition", .val (.str "none")), ("zsize", .val (.int nz)), ("size", .val (.int nx))]

/-- The iteration and the assembly of the result (phaseretrieval.py:79-149). -/
noncomputable def prRun (unwrap : Arr ℝ → Arr ℝ) (data : Arr ℝ) (params : PyDict) (maxIters : ℕ)
    (pupilTol mseTol : ℝ) (phaseOnly : Bool) : Py PRResult := do
  let model ← hanserOfDict params
  let h ← genCoords model.params
  let mask := h.idealPupil.map Complex.re
  let c : PrConf := ⟨data, data.map psqrt, mask, h, pupilTol, mseTol, phaseOnly⟩
  let s ← prLoop c maxIters ⟨model, h.idealPupil, none, [], [], []⟩
  let mask := fftshift none mask
  let phase ← (unwrap (fftshift none (s.pupil.map Complex.arg))).zipB (fun a b => a * b) mask
  let magnitude ← (fftshift none (s.pupil.map fun v => ‖v‖)).zipB (fun a b => a * b) mask
  PRResult.new magnitude phase s.mse s.pupilDiff s.mseDiff s.model

/-- `retrieve_phase(data, params, max_iters, pupil_tol, mse_tol, phase_only)` (phaseretrieval.py:32-149); the
state is the caller's dictionary.  Simplified: `max_iters` is an integer, the tolerances are finite. -/
noncomputable def retrievePhase (unwrap : Arr ℝ → Arr ℝ) (data : Arr ℝ) (maxIters : ℤ) (pupilTol mseTol : ℝ)
    (phaseOnly : Bool) : PyM PyDict PRResult := do
  let (nz, nx) ← PyM.lift (prChecks data maxIters)
  PyM.modify fun d => d.update (prOverride nz nx)
  let d ← PyM.get
  PyM.lift (prRun unwrap data d maxIters.toNat pupilTol mseTol phaseOnly)

/-! ## `PhaseRetrievalResult` -/

/-- `complex_pupil` (phaseretrieval.py:259-262). -/
noncomputable def PRResult.complexPupil (r : PRResult) : Py (Arr ℂ) :=
  r.mag.zipB (fun (m p : ℝ) => (m : ℂ) * Complex.exp (Complex.I * (p : ℂ))) r.phase

/-- Padding or cropping of the PSF (phaseretrieval.py:214-228). -/
noncomputable def resizePsf (size : Option ℤ) (psf : Arr ℝ) : Py (Arr ℝ) :=
  match psf.shape with
  | [nz, ny, nx] =>
    if ny ≠ nx then .error .assertionError
    else
      match size with
      | none => .ok psf
      | some size =>
        if (nx : ℤ) < size then fftPad id psf (.seq [some nz, some size.toNat, some size.toNat]) .constant
        else if size < nx then
          let lb := size / 2
          let hb := size - lb
          let s : Slice := ⟨some ((nx / 2 : ℕ) - lb), some ((nx / 2 : ℕ) + hb)⟩
          .ok (psf.slice [Slice.all, s, s])
        else .ok psf
  | _ => .error .valueError

/-- `_generate_psf(complex_pupil, size, zsize, zrange)` (phaseretrieval.py:202-228) of a result whose model is
the object `ref`. -/
noncomputable def generatePsf (ref : ℕ) (complexPupil : Arr ℂ) (size : Option ℤ) (zsize : Option PyVal) (zrange : Option ZArg) :
    PyM Heap (Arr ℝ) := do
  let model ← copyRef ref
  match zsize with
  | some v => onRef model (setAttr .hanser .zsize v)
  | none => pure ()
  match zrange with
  | some z => onRef model (setZrange z)
  | none => pure ()
  onRef model (HObj.applyPupil (ifftshift none complexPupil))
  let psf ← onRef model HObj.getPSFi
  PyM.lift (resizePsf size psf)

/-! ## Zernike decomposition -/

/-- A `ZernikeDecomposition` (phaseretrieval.py:265-285). -/
structure ZD where
  mcoefs : List ℝ
  pcoefs : List ℝ
  zerns : Arr ℝ

open Classical in
/-- Indices of the points with `r <= 1`, in C order (phaseretrieval.py:410). -/
noncomputable def validPoints (r : Arr ℝ) : List (List ℕ) := (indices r.shape).filter fun i => decide (r.get i ≤ 1)

/-- `_fit_to_zerns(data, zerns, r)` (phaseretrieval.py:390-416).  The matrix is the list of its rows (one per
valid point, one column per mode, `lstsq` is also given the number of columns); boolean indexing with a mask of another
shape is an `IndexError`. -/
noncomputable def fitToZerns (lstsq : ℕ → List (List ℝ) → List ℝ → Py (List ℝ)) (data zerns r : Arr ℝ) : Py (List ℝ) :=
  if data.shape ≠ r.shape then .error .indexError
  else
    match zerns.shape with
    | m :: s =>
      if s ≠ r.shape then .error .indexError
      else lstsq m ((validPoints r).map fun p => (List.range m).map fun k => zerns.get (k :: p)) ((validPoints r).map data.get)
    | [] => .error .indexError

/-- `ZernikeDecomposition(mag_coefs, phase_coefs, zerns)` (phaseretrieval.py:268-285). -/
def ZD.new (mcoefs pcoefs : List ℝ) (zerns : Arr ℝ) : Py ZD :=
  if mcoefs.length = pcoefs.length ∧ pcoefs.length = zerns.shape.getD 0 0 then .ok ⟨mcoefs, pcoefs, zerns⟩
  else .error .assertionError

/-- `fit_to_zernikes(num_zerns)` (phaseretrieval.py:190-200).  As in `apply_aberration`, `na = 0` makes the
radius NaN, which `zernike` rejects. -/
noncomputable def PRResult.fitToZernikes (lstsq : ℕ → List (List ℝ) → List ℝ → Py (List ℝ)) (x : PRResult) (num : ℕ) : Py ZD := do
  let l ← PyFloat.div (← pyNum x.na) (← pyNum x.wl)
  let f ← finReals [l]
  if l = .fin 0 then throw .valueError
  let r := x.r.map fun v => v / f.getD 0 0
  let zerns ← zernike r x.theta [⟨[num], fun i => (i.getD 0 0 : ℤ) + 1⟩]
  let m ← fitToZerns lstsq x.mag zerns r
  let p ← fitToZerns lstsq x.phase zerns r
  ZD.new m p zerns

/-- `coefs[s]` for a slice. -/
def sliceList (s : Slice) (l : List ℝ) : List ℝ := (l.drop (s.lo l.length)).take (s.len l.length)

/-- `_recon_from_zerns(coefs, zerns)` (phaseretrieval.py:419-421). -/
noncomputable def reconFromZerns (coefs : List ℝ) (zerns : Arr ℝ) : Py (Arr ℝ) := do
  return (← (column coefs).mulB zerns).sumAxis 0

/-- `_recon(coefs, s)` (phaseretrieval.py:322-324). -/
noncomputable def ZD.recon (z : ZD) (coefs : List ℝ) (s : Slice) : Py (Arr ℝ) :=
  reconFromZerns (sliceList s coefs) (z.zerns.slice [s])

/-- `phase(s)` (phaseretrieval.py:326-328). -/
noncomputable def ZD.phase (z : ZD) (s : Slice) : Py (Arr ℝ) := z.recon z.pcoefs s

/-- `mag(s)` (phaseretrieval.py:330-332). -/
noncomputable def ZD.mag (z : ZD) (s : Slice) : Py (Arr ℝ) := z.recon z.mcoefs s

/-- `complex_pupil(smag, sphase)` (phaseretrieval.py:334-338). -/
noncomputable def ZD.complexPupil (z : ZD) (smag : Slice := Slice.all) (sphase : Slice := Slice.all) : Py (Arr ℂ) := do
  let mag ← z.mag smag
  let phase ← z.phase sphase
  mag.zipB (fun (m p : ℝ) => (m : ℂ) * Complex.exp (Complex.I * (p : ℂ))) phase

/-- `generate_psf(size, zsize, zrange)` (phaseretrieval.py:234-236) of a result whose model is the object
`ref`. -/
noncomputable def PRResult.generatePsf (x : PRResult) (ref : ℕ) (size : Option ℤ := none) (zsize : Option PyVal := none)
    (zrange : Option ZArg := none) : PyM Heap (Arr ℝ) := do
  PyOTF.generatePsf ref (← PyM.lift x.complexPupil) size zsize zrange

/-- `generate_zd_psf(sphase=slice(4, None, None), size, zsize, zrange)` (phaseretrieval.py:230-232); `zd` is
`zd_result`, absent before `fit_to_zernikes`. -/
noncomputable def generateZdPsf (zd : Option ZD) (ref : ℕ) (sphase : Slice := ⟨some 4, none⟩) (size : Option ℤ := none)
    (zsize : Option PyVal := none) (zrange : Option ZArg := none) : PyM Heap (Arr ℝ) := do
  match zd with
  | none => PyM.raise .attributeError
  | some z => generatePsf ref (← PyM.lift (z.complexPupil Slice.all sphase)) size zsize zrange

end PyOTF
