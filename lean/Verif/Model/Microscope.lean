import Verif.Model.Sheppard
import Verif.Model.Aberration

/-!
# Model of `pyotf/microscope.py`

Arrays are exact real arrays.  `Err.nan` again stands for "the result contains NaN/inf".  Not modelled:
plotting (microscope.py:131-171), logging, unknown keyword arguments, the keyword `res` (which is
overwritten anyway), `__main__`.
-/

namespace PyOTF

/-! ## The inner PSF model -/

/-- `self.model`: a `HanserPSF` or a `SheppardPSF` (microscope.py:32-35). -/
inductive Inner
  | hanser (o : HObj)
  | sheppard (o : SObj)

/-- The instance attributes of the inner model. -/
def Inner.params : Inner → Params
  | .hanser o => o.params
  | .sheppard o => o.params

/-- An array without NaN as an array of numbers. -/
noncomputable def nanFree {α : Type} [Zero α] (a : Arr (Option α)) : Py (Arr α) := by
  classical exact
  if ∃ idx, InShape idx a.shape ∧ a.get idx = none then .error .nan else .ok (a.map fun v => v.getD 0)

/-- Reading `self.model.PSFi`. -/
noncomputable def Inner.getPSFi : PyM Inner (Arr ℝ)
  | .hanser o => ((HObj.getPSFi o).1, .hanser (HObj.getPSFi o).2)
  | .sheppard o => ((SObj.getPSFi o).1.bind nanFree, .sheppard (SObj.getPSFi o).2)

/-- Reading `self.model.OTFi`. -/
noncomputable def Inner.getOTFi : PyM Inner (Arr ℂ)
  | .hanser o => ((HObj.getOTFi o).1, .hanser (HObj.getOTFi o).2)
  | .sheppard o => ((SObj.getOTFi o).1.bind nanFree, .sheppard (SObj.getOTFi o).2)

/-- Assigning an attribute of the inner model, `m.model.<attr> = v`. -/
def Inner.set (a : Attr) (v : PyVal) : PyM Inner Unit
  | .hanser o => ((setAttr .hanser a v o).1, .hanser (setAttr .hanser a v o).2)
  | .sheppard o => ((setAttr .sheppard a v o).1, .sheppard (setAttr .sheppard a v o).2)

/-! ## Construction of the base class -/

/-- Optional keyword arguments passed through to the PSF model (`**kwargs`, microscope.py:57,63). -/
structure MicroKw where
  zres : Option PyVal := none
  zsize : Option PyVal := none
  vecCorr : Option PyVal := none
  condition : Option PyVal := none
  /-- HanserPSF only -/
  zrange : Option ZArg := none
  /-- SheppardPSF only -/
  dual : Option PyVal := none

/-- Arguments of `WidefieldMicroscope` (microscope.py:57). -/
structure MicroArgs where
  model : PyVal
  na : PyVal
  ni : PyVal
  wl : PyVal
  size : PyVal
  pixelSize : PyVal
  oversample : PyVal
  kw : MicroKw := {}

/-- `self.psf_params` (microscope.py:62-72): `res` and `size` are those of the oversampled grid. -/
structure PsfParams where
  na : PyVal
  ni : PyVal
  wl : PyVal
  zres : PyVal
  zsize : PyVal
  size : PyVal
  res : PyVal
  kw : MicroKw

/-- `v * n` for a Python `int` `n > 1`.  A repeated string (or list) is represented by itself: it is
rejected by the `size` setter just the same. -/
def pyMulInt (v : PyVal) (n : ℤ) : Py PyVal :=
  match v with
  | .int z => .ok (.int (z * n))
  | .bool b => .ok (.int ((if b then 1 else 0) * n))
  | .float x => .ok (.float (PyFloat.mul x (.fin n)))
  | .none => .error .typeError
  | .str s => .ok (.str s)
  | .other h => .ok (.other h)

/-- `v / n` for a Python `int` `n > 1`. -/
def pyDivInt (v : PyVal) (n : ℤ) : Py PyVal := do
  let x ← pyNum v
  return .float (← PyFloat.div x (.fin n))

/-- The value of an `int` or `bool`. -/
def pyInt (v : PyVal) : ℤ :=
  match v with
  | .int z => z
  | .bool b => if b then 1 else 0
  | _ => 0

/-- `_choose_model(model)(**psf_params)` (microscope.py:38-45, 78). -/
def chooseModel (model : PyVal) (p : PsfParams) : Py Inner := do
  let a : InitArgs :=
    { wl := p.wl, na := p.na, ni := p.ni, res := p.res, size := p.size, zres := p.zres, zsize := p.zsize
      vecCorr := p.kw.vecCorr.getD (.str "none"), condition := p.kw.condition.getD (.str "sine") }
  match model with
  | .str s =>
    if s.toLower = "hanser" then
      if p.kw.dual.isSome then throw .typeError
      return .hanser (← HObj.new a p.kw.zrange)
    else if s.toLower = "sheppard" then
      if p.kw.zrange.isSome then throw .typeError
      return .sheppard (← SObj.new a (p.kw.dual.getD (.bool false)))
    else throw .valueError
  | _ => throw .attributeError

/-- The oversampled `size` and `res` (microscope.py:65-74). -/
def oversampled (oversample : PyVal) (size pixelSize : PyVal) : Py (PyVal × PyVal) := do
  if ¬ pyInt oversample % 2 = 1 then throw .assertionError
  if pyInt oversample = 1 then
    return (size, pixelSize)
  else if 1 < pyInt oversample then
    return (← pyMulInt size (pyInt oversample), ← pyDivInt pixelSize (pyInt oversample))
  else throw .valueError

/-! ## Microscope objects -/

/-- What the subclasses add to the instance. -/
inductive Kind (I : Type)
  | widefield
  | apotome
  /-- `model_exc`, `_pinhole_size`, `_wl_exc` (never set by the constructor) -/
  | confocal (modelExc : I) (pinhole : PyVal) (wlExc : Option PyVal)
  /-- `_na_exc`, `_wl_exc`, `_coherent`, `_dc`, `_dc_suppress`, `orientations`, `wiener` -/
  | sim (naExc wlExc coherent dc dcSuppress : PyVal) (orientations : List ℝ) (wiener : PyVal)

/-- A microscope instance; `psf`, `otf` are the `cached_property` slots. -/
structure Micro where
  oversample : PyVal
  psfParams : PsfParams
  pixelSize : PyVal
  model : Inner
  kind : Kind Inner
  psf : Option (Arr ℝ) := none
  otf : Option (Arr ℂ) := none

namespace Micro

/-- `WidefieldMicroscope.__init__` (microscope.py:57-78).  The second assignment of `oversample_factor`
(microscope.py:76) stores the value that is already there. -/
def newWidefield (a : MicroArgs) : Py Micro := do
  let o := (← numericSet PyVal.isInt none a.oversample).getD a.oversample
  let (size, res) ← oversampled o a.size a.pixelSize
  let p : PsfParams :=
    { na := a.na, ni := a.ni, wl := a.wl, zres := a.kw.zres.getD a.pixelSize, zsize := a.kw.zsize.getD a.size
      size := size, res := res, kw := a.kw }
  let model ← chooseModel a.model p
  return { oversample := o, psfParams := p, pixelSize := a.pixelSize, model := model, kind := .widefield }

/-- `ApotomeMicroscope(...)` (microscope.py:229-239): the inherited constructor. -/
def newApotome (a : MicroArgs) : Py Micro := do
  return { ← newWidefield a with kind := .apotome }

/-- `ConfocalMicroscope.__init__` (microscope.py:196-202).  `copy.deepcopy` of the model is a copy of
its state. -/
def newConfocal (a : MicroArgs) (wlExc pinhole : PyVal) : Py Micro := do
  let m ← newWidefield a
  let ph := (← numericSet PyVal.isFloatOrInt none pinhole).getD pinhole
  match Inner.set .wl wlExc m.model with
  | (.ok _, exc) => return { m with kind := .confocal exc ph none }
  | (.error e, _) => throw e

/-- `isinstance(value, float)`. -/
def isFloat : PyVal → Bool
  | .float _ => true
  | _ => false

/-- `isinstance(value, bool)`. -/
def isBool : PyVal → Bool
  | .bool _ => true
  | _ => false

/-- `BaseSIMMicroscope.__init__` (microscope.py:277-303). -/
def newSIM (a : MicroArgs) (naExc wlExc wiener coherent dc dcSuppress : PyVal) (orientations : List ℝ) :
    Py Micro := do
  let m ← newWidefield a
  let naExc := if naExc = .none then m.psfParams.na else naExc
  let na := (← numericSet isFloat none naExc).getD naExc
  let wlExc := if wlExc = .none then m.psfParams.wl else wlExc
  let wl := (← numericSet isFloat none wlExc).getD wlExc
  let co := (← numericSet isBool none coherent).getD coherent
  let d := (← numericSet isBool none dc).getD dc
  let ds := (← numericSet isBool none dcSuppress).getD dcSuppress
  if ← wiener.ltZero then throw .valueError
  return { m with kind := .sim na wl co d ds orientations wiener }

/-- `SIM2DMicroscope(...)` (microscope.py:403-407). -/
def newSIM2D (a : MicroArgs) (naExc wlExc wiener dcSuppress : PyVal) (orientations : List ℝ) : Py Micro :=
  newSIM a naExc wlExc wiener (.bool false) (.bool false) dcSuppress orientations

/-- `SIM3DMicroscope(...)` (microscope.py:410-414). -/
def newSIM3D (a : MicroArgs) (naExc wlExc wiener dcSuppress : PyVal) (orientations : List ℝ) : Py Micro :=
  newSIM a naExc wlExc wiener (.bool false) (.bool true) dcSuppress orientations

/-- `LatticeSIMMicroscope(...)` (microscope.py:417-424); `np.pi` is π. -/
noncomputable def newLattice (a : MicroArgs) (naExc wlExc wiener dcSuppress : PyVal) : Py Micro :=
  newSIM a naExc wlExc wiener (.bool true) (.bool true) dcSuppress [0, Real.pi / 2]

end Micro

/-! ## The numerical part -/

/-- `np.ceil`, then `int`, then made odd: the size of the pinhole kernel (microscope.py:176-178). -/
noncomputable def kernelSize (radius : ℝ) : ℕ :=
  let full := ⌈radius * 2⌉.toNat
  if full % 2 = 0 then full + 1 else full

open Classical in
/-- The pinhole before normalisation, `r < radius` (microscope.py:179-181). -/
noncomputable def diskMask (radius : ℝ) : Arr ℝ where
  shape := [kernelSize radius, kernelSize radius]
  get idx :=
    let c : ℝ := ((kernelSize radius - 1) / 2 : ℕ)
    if Real.sqrt (((idx.getD 0 0 : ℕ) - c) ^ 2 + ((idx.getD 1 0 : ℕ) - c) ^ 2) < radius then 1 else 0

/-- `_disk_kernel(radius)` (microscope.py:174-182). -/
noncomputable def diskKernel (radius : ℝ) : Arr ℝ := (diskMask radius).map fun v => v / (diskMask radius).sum

/-- Element of an image outside which everything is 0. -/
def zeroExt (a : Arr ℝ) (z : ℕ) (y x : ℤ) : ℝ :=
  if 0 ≤ y ∧ y < a.shape.getD 1 0 ∧ 0 ≤ x ∧ x < a.shape.getD 2 0 then a.get [z, y.toNat, x.toNat] else 0

/-- `scipy.signal.fftconvolve(a, kernel[None], "same", axes=(1, 2))` for a 2-d kernel (external; call
site microscope.py:223): linear convolution of every plane, of which the part starting at
`(K - 1) // 2` is kept. -/
def convSame (a kernel : Arr ℝ) : Arr ℝ where
  shape := a.shape
  get idx := ∑ i ∈ Finset.range (kernel.shape.getD 0 0), ∑ j ∈ Finset.range (kernel.shape.getD 1 0),
    kernel.get [i, j] * zeroExt a (idx.getD 0 0)
      ((idx.getD 1 0 : ℤ) + ((kernel.shape.getD 0 0 - 1) / 2 : ℕ) - i)
      ((idx.getD 2 0 : ℤ) + ((kernel.shape.getD 1 0 - 1) / 2 : ℕ) - j)

/-- Radius of the pinhole in pixels (microscope.py:215-218); `1.22` is exactly 61/50. -/
def pinholeRadius (p : Params) (pinhole : PyVal) : Py PyFloat := do
  let wl ← pyNum (← attr p.wl)
  let na ← pyNum (← attr p.na)
  let res ← pyNum (← attr p.res)
  let airy ← PyFloat.div (← PyFloat.div (PyFloat.mul (.fin (61 / 50)) wl) na) res
  PyFloat.div (PyFloat.mul (← pyNum pinhole) airy) (.fin 2)

/-- The detection PSF of a confocal microscope (microscope.py:220-225). -/
noncomputable def pinholed (radius : PyFloat) (psf : Arr ℝ) : Py (Arr ℝ) :=
  if PyFloat.lt (.fin (3 / 2)) radius then
    match radius with
    | .fin r => .ok (convSame psf (diskKernel r))
    | _ => .error .nan
  else .ok psf

/-- Numbers used by the SIM model (microscope.py:322-338). -/
structure SimNum where
  size : ℕ
  zsize : ℕ
  res : ℝ
  zres : ℝ
  freq : ℝ
  alpha : ℝ

namespace SimNum

variable (s : SimNum)

/-- Lateral coordinate of pixel `i` (microscope.py:322-324). -/
noncomputable def x (i : ℕ) : ℝ := ((i : ℝ) - ((s.size + 1) / 2 : ℕ)) * s.res

/-- Axial coordinate of plane `i` (microscope.py:326-328). -/
noncomputable def z (i : ℕ) : ℝ := ((i : ℝ) - ((s.zsize + 1) / 2 : ℕ)) * s.zres

/-- Coordinate along the pattern direction (microscope.py:378). -/
noncomputable def rr (o : ℝ) (iy ix : ℕ) : ℝ := s.x ix * Real.cos o + s.x iy * Real.sin o

/-- One excitation beam (microscope.py:386). -/
noncomputable def beam (theta o : ℝ) (iz iy ix : ℕ) : ℂ :=
  Complex.exp (Complex.I * (((s.rr o iy ix * Real.sin theta + s.z iz * Real.cos theta) * s.freq : ℝ) : ℂ))

/-- `base_pattern` (microscope.py:360-363). -/
noncomputable def base (dc : Bool) (iz : ℕ) : ℂ :=
  if dc then Complex.exp (Complex.I * ((s.z iz * s.freq : ℝ) : ℂ)) else 0

/-- The inner loop over `(-alpha, alpha)` (microscope.py:385-386). -/
noncomputable def addBeams (o : ℝ) (iz iy ix : ℕ) (e : ℂ) : ℂ :=
  [-s.alpha, s.alpha].foldl (fun e theta => e + s.beam theta o iz iy ix) e

/-- Effective PSF of incoherently added orientations (microscope.py:365-390, 395-398). -/
noncomputable def incoherent (dc dcSuppress : Bool) (orientations : List ℝ) (psf : ℝ) (iz iy ix : ℕ) : ℝ :=
  let t := orientations.foldl (fun t o => t + psf * ‖s.addBeams o iz iy ix (s.base dc iz)‖ ^ 2) 0
  if dcSuppress then t - (2 * orientations.length - 1) * psf else t

/-- Effective PSF of coherently added orientations (microscope.py:369-394). -/
noncomputable def coherent (dc : Bool) (orientations : List ℝ) (psf : ℝ) (iz iy ix : ℕ) : ℝ :=
  psf * ‖orientations.foldl (fun e o => s.addBeams o iz iy ix e) (s.base dc iz)‖ ^ 2

end SimNum

/-- Index into an operand of shape `a` of an element of the broadcast result of shape `b`. -/
def broadcastIdx (a b idx : List ℕ) : List ℕ :=
  if a = b then idx else List.zipWith (fun n i => if n.1 = n.2 then i else 0) (List.zip a b) idx

/-- Does an axis of length `n` fit into one of length `out` for an in-place operation? -/
def fitsInto (n out : ℕ) : Bool := decide (n = out) || decide (n = 1)

/-- The SIM PSF from the (filtered) model PSF (microscope.py:360-400).  The pattern has `zsize` planes with a DC beam (microscope.py:361) and as many as the PSF
without (microscope.py:363); the beams are added in place (microscope.py:386), and so are the effective PSFs of the orientations if they are incoherent
(microscope.py:390), while the coherent product is broadcast (microscope.py:394).  Without orientations nothing is added; then the coherent product uses an unassigned name. -/
noncomputable def simPsf (s : SimNum) (coherent dc dcSuppress : Bool) (orientations : List ℝ) (psf : Arr ℝ) : Py (Arr ℝ) :=
  let nz := psf.shape.getD 0 0
  let pz := if dc then s.zsize else nz
  let grid := [s.zsize, s.size, s.size]
  let beamsFit := fitsInto s.zsize pz && fitsInto s.size (psf.shape.getD 1 0) && fitsInto s.size (psf.shape.getD 2 0)
  if coherent then
    if orientations = [] then .error .unboundLocalError
    else if ¬ beamsFit then .error .valueError
    else
      (bdim nz pz).map fun z =>
        let out := z :: psf.shape.tail
        ⟨out, fun i =>
          let g := broadcastIdx grid out i
          s.coherent dc orientations (psf.get (broadcastIdx psf.shape out i)) (g.getD 0 0) (g.getD 1 0) (g.getD 2 0)⟩
  else if orientations ≠ [] ∧ ¬ (beamsFit ∧ fitsInto pz nz) then .error .valueError
  else .ok ⟨psf.shape, fun i =>
    let g := broadcastIdx grid psf.shape i
    s.incoherent dc dcSuppress orientations (psf.get i) (g.getD 0 0) (g.getD 1 0) (g.getD 2 0)⟩

/-- Without broadcasting. -/
theorem simPsf_same (s : SimNum) (coherent dc dcSuppress : Bool) (orientations : List ℝ) (psf : Arr ℝ) (h : psf.shape = [s.zsize, s.size, s.size]) :
    simPsf s coherent dc dcSuppress orientations psf =
  if coherent then
    if orientations = [] then .error .unboundLocalError
    else .ok ⟨psf.shape, fun i => s.coherent dc orientations (psf.get i) (i.getD 0 0) (i.getD 1 0) (i.getD 2 0)⟩
  else .ok ⟨psf.shape, fun i =>
    s.incoherent dc dcSuppress orientations (psf.get i) (i.getD 0 0) (i.getD 1 0) (i.getD 2 0)⟩ := by
  have e1 : (if dc then s.zsize else s.zsize) = s.zsize := by split_ifs <;> rfl
  have e2 : ∀ n, fitsInto n n = true := fun n => by simp [fitsInto]
  have e3 : bdim s.zsize s.zsize = .ok s.zsize := by simp [bdim]
  simp only [simPsf, h, List.getD_cons_zero, List.getD_cons_succ, e1, e2, e3, Bool.and_self, not_true_eq_false, if_false, List.tail_cons, broadcastIdx, if_true,
    Except.map, and_self, and_false]

/-- Largest element of a non-empty array of numbers. -/
noncomputable def maxElem (a : Arr ℝ) : Py ℝ := do
  let k ← argmax a.ravel
  return a.ravel.getD k 0

/-- The Wiener-filtered PSF (microscope.py:343-355) for a finite non-negative parameter. -/
noncomputable def wienerPsf (wiener : ℚ) (otfi : Arr ℂ) : Py (Arr ℝ) := by
  classical exact do
  let otf := otfi.map fun v => ‖v‖ ^ 2
  if wiener = 0 then
    return (easyIfft none (otf.map fun v => if v > 1 / 10 ^ 16 then (1 : ℂ) else 0)).map Complex.re
  else
    let w := (← maxElem otf) * (wiener : ℝ) ^ 2
    if ∃ i, InShape i otf.shape ∧ otf.get i + w = 0 then throw .nan
    return (easyIfft none (otf.map fun v => ((v / (v + w) : ℝ) : ℂ))).map Complex.re

/-- Lexicographic order of NumPy on complex numbers. -/
noncomputable def cmaxLex (a b : ℂ) : ℂ := by
  classical exact if a.re < b.re ∨ (a.re = b.re ∧ a.im < b.im) then b else a

/-- `l[i]` with Python's negative indices. -/
def pyIndex {α : Type} (l : List α) (i : ℤ) : Py α :=
  match l[(if i < 0 then i + l.length else i).toNat]? with
  | some v => if i < -(l.length : ℤ) then .error .indexError else .ok v
  | none => .error .indexError

/-- `int(np.rint(size * res / nyquist / 2))` with `nyquist = wl / na / 4` (microscope.py:252-255).
Simplified: `int(inf)` would be an `OverflowError`; non-finite parameters give `Err.nan` before that. -/
def abbeLimit (wl na size res : PyVal) : Py ℤ := do
  let nyq ← PyFloat.div (← PyFloat.div (← pyNum wl) (← pyNum na)) (.fin 4)
  let q ← PyFloat.div (← PyFloat.div (PyFloat.mul (← pyNum size) (← pyNum res)) nyq) (.fin 2)
  match q with
  | .fin q => return rint q
  | .nan => throw .valueError
  | .inf _ => throw .valueError

/-- The axial response of the Apotome (microscope.py:245-258): the radial average of the hybrid OTF of
every plane, normalised by the largest value, at half the Abbe limit. -/
noncomputable def apotomeProfile (psfi : Arr ℝ) (abbe : Py ℤ) : Py (List ℝ) := by
  classical exact do
  let hybrid := easyFft (some [1, 2]) (psfi.map fun (v : ℝ) => (v : ℂ))
  let rows ← (List.range (psfi.shape.getD 0 0)).mapM fun iz => do
    let (prof, _) ← radialProfileC ⟨hybrid.shape.tail, fun i => hybrid.get (iz :: i)⟩ none 1
    match prof.mapM id with
    | some l => .ok l
    | none => .error .nan
  match rows.flatten with
  | [] => throw .valueError
  | v :: vs =>
    let m := vs.foldl cmaxLex v
    if m = 0 then throw .nan
    let k ← abbe
    rows.mapM fun row => (pyIndex row (k / 2)).map fun v => ‖v / m‖

/-- The Apotome PSF (microscope.py:260). -/
noncomputable def apotomePsf (psfi : Arr ℝ) (abbe : Py ℤ) : Py (Arr ℝ) := do
  let p ← apotomeProfile psfi abbe
  return ⟨psfi.shape, fun i => p.getD (i.getD 0 0) 0 * psfi.get i⟩

/-- Binning of the model PSF (microscope.py:112-121); `size` is that of the oversampled grid. -/
noncomputable def binned (oversample : ℤ) (size : ℕ) (psf : Arr ℝ) : Py (Arr ℝ) :=
  if 1 < oversample then
    let shift := oversample / 2
    let psf := if size % 2 = 0 then (psf.roll shift 1).roll shift 2 else psf
    binNdarray psf none (some (.seq [1, oversample.toNat, oversample.toNat])) "sum"
  else .ok psf

open Classical in
/-- `psf / psf.sum()` (microscope.py:124). -/
noncomputable def normalised (psf : Arr ℝ) : Py (Arr ℝ) :=
  if psf.sum = 0 then .error .nan else .ok (psf.map fun v => v / psf.sum)

/-- `PSF` from `model_psf` (microscope.py:112-124). -/
noncomputable def microPsf (oversample : ℤ) (size : ℕ) (psf : Arr ℝ) : Py (Arr ℝ) :=
  (binned oversample size psf).bind normalised

namespace Micro

/-- A read of the inner model. -/
def onModel {α : Type} (f : PyM Inner α) : PyM Micro α := fun m =>
  ((f m.model).1, { m with model := (f m.model).2 })

/-- A read of the excitation model of a confocal microscope. -/
def onExc {α : Type} (f : PyM Inner α) : PyM Micro α := fun m =>
  match m.kind with
  | .confocal e ph wl => ((f e).1, { m with kind := .confocal (f e).2 ph wl })
  | _ => (.error .attributeError, m)

/-- The integer behind a `size` or `zsize` in `np.arange`. -/
def arangeLen (v : PyVal) : Py ℕ := if v.isInt then .ok (pyInt v).toNat else .error .typeError

/-- The scalar part of the SIM model (microscope.py:322-338): coordinates first, then the frequency
`2 pi ni / wl_exc` and `alpha = arcsin(na_exc / ni)`.  Simplified: `na_exc > ni` (arcsin is NaN) is
`Err.nan` even when no orientation uses it. -/
noncomputable def simNum (p : PsfParams) (naExc wlExc : PyVal) : Py SimNum := do
  let size ← arangeLen p.size
  let res ← pyNum p.res
  let zsize ← arangeLen p.zsize
  let zres ← pyNum p.zres
  let ni ← pyNum p.ni
  let kmag ← PyFloat.div ni (← pyNum wlExc)
  let sin ← PyFloat.div (← pyNum naExc) ni
  let f ← finReals [res, zres, kmag, sin]
  let h : SimNum := ⟨size, zsize, f.getD 0 0, f.getD 1 0, 2 * Real.pi * f.getD 2 0, Real.arcsin (f.getD 3 0)⟩
  match sin with
  | .fin q => if -1 ≤ q ∧ q ≤ 1 then return h else throw .nan
  | _ => throw .nan

/-- The filtered PSF of a SIM microscope (microscope.py:340-357). -/
noncomputable def simFiltered (wiener : PyVal) : PyM Micro (Arr ℝ) :=
  if wiener = .none then onModel Inner.getPSFi
  else do
    let w ← PyM.lift (pyNum wiener)
    if PyFloat.ge w (.fin 0) then do
      let otfi ← onModel Inner.getOTFi
      match w with
      | .fin q => PyM.lift (wienerPsf q otfi)
      | _ => PyM.raise .nan
    else PyM.raise .valueError

/-- `model_psf` of the four kinds (microscope.py:104-107, 211-226, 241-261, 314-400). -/
noncomputable def modelPsf : PyM Micro (Arr ℝ) := do
  let m ← PyM.get
  match m.kind with
  | .widefield => onModel Inner.getPSFi
  | .apotome => do
    let psfi ← onModel Inner.getPSFi
    PyM.lift (apotomePsf psfi (abbeLimit m.psfParams.wl m.psfParams.na m.psfParams.size m.psfParams.res))
  | .confocal _ pinhole _ => do
    let r ← PyM.lift (pinholeRadius m.model.params pinhole)
    let psfi ← onModel Inner.getPSFi
    let det ← PyM.lift (pinholed r psfi)
    let exc ← onExc Inner.getPSFi
    PyM.lift (det.mulB exc)
  | .sim naExc wlExc coherent dc dcSuppress orientations wiener => do
    let s ← PyM.lift (simNum m.psfParams naExc wlExc)
    let psf ← simFiltered wiener
    PyM.lift (simPsf s (decide (coherent = .bool true)) (decide (dc = .bool true)) (decide (dcSuppress = .bool true))
      orientations psf)

/-- Reading `PSF` (microscope.py:109-124). -/
noncomputable def getPSF : PyM Micro (Arr ℝ) := do
  match (← PyM.get).psf with
  | some a => pure a
  | none =>
    let a ← modelPsf
    let m ← PyM.get
    let b ← PyM.lift (microPsf (pyInt m.oversample) (pyInt m.psfParams.size).toNat a)
    PyM.modify fun m => { m with psf := some b }
    pure b

/-- Reading `OTF` (microscope.py:126-129). -/
noncomputable def getOTF : PyM Micro (Arr ℂ) := do
  match (← PyM.get).otf with
  | some a => pure a
  | none =>
    let a ← getPSF
    let t := easyFft none (a.map fun (v : ℝ) => (v : ℂ))
    PyM.modify fun m => { m with otf := some t }
    pure t

/-- The numeric properties of the microscope classes. -/
inductive MAttr
  | oversample | pinhole | wlExc | naExc | coherent | dc | dcSuppress
  deriving DecidableEq

/-- Stored value of a numeric property (`o`: that of `oversample_factor`); outer `none`: not a property of
this class. -/
def readAttr {I : Type} (a : MAttr) (o : PyVal) (k : Kind I) : Option (Option PyVal) :=
  match a, k with
  | .oversample, _ => some (some o)
  | .pinhole, .confocal _ ph _ => some (some ph)
  | .wlExc, .confocal _ _ w => some w
  | .wlExc, .sim _ w _ _ _ _ _ => some (some w)
  | .naExc, .sim n _ _ _ _ _ _ => some (some n)
  | .coherent, .sim _ _ c _ _ _ _ => some (some c)
  | .dc, .sim _ _ _ d _ _ _ => some (some d)
  | .dcSuppress, .sim _ _ _ _ s _ _ => some (some s)
  | _, _ => none

/-- Store a numeric property. -/
def writeAttr {I : Type} (a : MAttr) (v : PyVal) (o : PyVal) (k : Kind I) : PyVal × Kind I :=
  match a, k with
  | .oversample, _ => (v, k)
  | .pinhole, .confocal e _ w => (o, .confocal e v w)
  | .wlExc, .confocal e ph _ => (o, .confocal e ph (some v))
  | .wlExc, .sim n _ c d s os w => (o, .sim n v c d s os w)
  | .naExc, .sim _ l c d s os w => (o, .sim v l c d s os w)
  | .coherent, .sim n l _ d s os w => (o, .sim n l v d s os w)
  | .dc, .sim n l c _ s os w => (o, .sim n l c v s os w)
  | .dcSuppress, .sim n l c d _ os w => (o, .sim n l c d v os w)
  | _, _ => (o, k)

@[inherit_doc readAttr] def read (a : MAttr) (m : Micro) : Option (Option PyVal) := readAttr a m.oversample m.kind

@[inherit_doc writeAttr] def write (a : MAttr) (v : PyVal) (m : Micro) : Micro :=
  { m with oversample := (writeAttr a v m.oversample m.kind).1, kind := (writeAttr a v m.oversample m.kind).2 }

/-- `vartype` of each property (microscope.py:51-55, 188-194, 267-275). -/
def vartype : MAttr → PyVal → Bool
  | .oversample => PyVal.isInt
  | .pinhole => PyVal.isFloatOrInt
  | .wlExc => isFloat
  | .naExc => isFloat
  | .coherent => isBool
  | .dc => isBool
  | .dcSuppress => isBool

/-- Assigning a numeric property (utils.py:205-213 with `_attribute_changed` of microscope.py:91-102,
which drops both caches).  Assigning a name that is no property of the class creates an unrelated
attribute (no effect). -/
def set (a : MAttr) (v : PyVal) : PyM Micro Unit := do
  let m ← PyM.get
  match m.read a with
  | none => pure ()
  | some old =>
    match ← PyM.lift (numericSet (vartype a) old v) with
    | none => pure ()
    | some w => PyM.modify fun m => { m.write a w with psf := none, otf := none }

/-- Reading a numeric property; `AttributeError` when the backing attribute was never set. -/
def get (a : MAttr) (m : Micro) : Py PyVal := attr ((m.read a).getD none)

/-- The attribute `wiener` (microscope.py:301), if there is one. -/
def withWiener {I : Type} (w : PyVal) : Kind I → Kind I
  | .sim n l c d s o _ => .sim n l c d s o w
  | k => k

/-- The attribute `orientations` (microscope.py:299), if there is one. -/
def withOrientations {I : Type} (o : List ℝ) : Kind I → Kind I
  | .sim n l c d s _ w => .sim n l c d s o w
  | k => k

/-- Assigning the plain attribute `wiener` (no property: the caches stay). -/
def setWiener (w : PyVal) : PyM Micro Unit := PyM.modify fun m => { m with kind := withWiener w m.kind }

/-- Assigning the plain attribute `orientations`. -/
def setOrientations (o : List ℝ) : PyM Micro Unit := PyM.modify fun m => { m with kind := withOrientations o m.kind }

/-- The name of the model class in lower case without `PSF` (microscope.py:86). -/
def modelName : Inner → String
  | .hanser _ => "hanser"
  | .sheppard _ => "sheppard"

/-- The keyword arguments printed by `WidefieldMicroscope.__repr__` (microscope.py:80-89), as values:
everything in `psf_params` except `res`, then `pixel_size` and `oversample_factor`.  Simplified: the
values are kept as they are (the text shows strings without quotes). -/
def reprArgs (m : Micro) : MicroArgs :=
  { model := .str (modelName m.model), na := m.psfParams.na, ni := m.psfParams.ni, wl := m.psfParams.wl
    size := m.psfParams.size, pixelSize := m.pixelSize, oversample := m.oversample
    kw := { m.psfParams.kw with zres := some m.psfParams.zres, zsize := some m.psfParams.zsize } }

/-- `m.model.<attr> = v`. -/
def setModel (a : Attr) (v : PyVal) : PyM Micro Unit := onModel (Inner.set a v)

end Micro

end PyOTF
