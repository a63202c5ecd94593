import Verif.Model.Memory
import Verif.Model.Microscope

/-!
# Microscopes with arrays by reference

Continues `Model/Memory.lean` with `pyotf/microscope.py`: the caches `PSF` and `OTF` of a microscope are references, its `model` (and `model_exc`) are `HanserPSF` instances in
the same memory, which the caller can get at (`m.model`).  The functions are those of `Model/Microscope.lean`, line by line, with the arrays they create and hand over.

Simplified: microscopes with a `HanserPSF` only (`model="hanser"`); no assignment to `m.model`; `psf_params["zrange"]` (shown by `repr` only) is not a reference, nor is the
list of orientations; what a constructor that raises leaves behind is dropped (nothing refers to it).
-/

namespace PyOTF

/-- A microscope instance (`Micro` in Model/Microscope.lean) whose models are numbers of `HanserPSF` instances and whose cached arrays are of types `P` and `O`. -/
structure MSlot (P O : Type) where
  oversample : PyVal
  psfParams : PsfParams
  pixelSize : PyVal
  model : ℕ
  kind : Kind ℕ
  psf : Option P := none
  otf : Option O := none

/-- A microscope whose cached arrays are references. -/
abbrev RMicro := MSlot ℕ ℕ

/-- The class of a microscope and the arguments its constructor adds to those of `WidefieldMicroscope` (microscope.py:196, 277; the subclasses of `BaseSIMMicroscope` fix some). -/
inductive MClass
  | widefield
  | apotome
  | confocal (wlExc pinhole : PyVal)
  | sim (naExc wlExc wiener coherent dc dcSuppress : PyVal) (orientations : List ℝ)

/-- What the methods of one microscope see and change. -/
structure MState where
  world : World
  self : RMicro

namespace MState

/-- A method call on `self.model`. -/
def onModel {α : Type} (f : PyM RState α) : PyM MState α := fun s =>
  ((World.onObj s.self.model f s.world).1, { s with world := (World.onObj s.self.model f s.world).2 })

/-- A method call on `self.model_exc`. -/
def onExc {α : Type} (f : PyM RState α) : PyM MState α := fun s =>
  match s.self.kind with
  | .confocal e _ _ => ((World.onObj e f s.world).1, { s with world := (World.onObj e f s.world).2 })
  | _ => (.error .attributeError, s)

/-- A new array. -/
def allocR (a : Arr ℝ) : PyM MState ℕ := fun s =>
  (.ok s.world.mem.real.length, { s with world := { s.world with mem := { s.world.mem with real := s.world.mem.real ++ [a] } } })
@[inherit_doc allocR] def allocC (a : Arr ℂ) : PyM MState ℕ := fun s =>
  (.ok s.world.mem.cplx.length, { s with world := { s.world with mem := { s.world.mem with cplx := s.world.mem.cplx ++ [a] } } })

/-- The array behind a reference. -/
def derefR (r : ℕ) : PyM MState (Arr ℝ) := fun s => match s.world.mem.real[r]? with
  | some a => (.ok a, s)
  | none => (.error .runtimeError, s)
@[inherit_doc derefR] def derefC (r : ℕ) : PyM MState (Arr ℂ) := fun s => match s.world.mem.cplx[r]? with
  | some a => (.ok a, s)
  | none => (.error .runtimeError, s)

/-- The filtered PSF of a SIM microscope (microscope.py:340-357): without a Wiener filter the model's own array, which is only read afterwards. -/
noncomputable def simFiltered (wiener : PyVal) : PyM MState (Arr ℝ) :=
  if wiener = .none then do derefR (← onModel RState.getPSFi)
  else do
    let w ← PyM.lift (pyNum wiener)
    if PyFloat.ge w (.fin 0) then do
      let otfi ← derefC (← onModel RState.getOTFi)
      match w with
      | .fin q => PyM.lift (wienerPsf q otfi)
      | _ => PyM.raise .nan
    else PyM.raise .valueError

/-- `model_psf` of the four kinds (microscope.py:104-107, 211-226, 241-261, 314-400): for a widefield microscope the cache of the model itself, otherwise a new array. -/
noncomputable def modelPsf : PyM MState ℕ := do
  let s ← PyM.get
  match s.self.kind with
  | .widefield => onModel RState.getPSFi
  | .apotome => do
    let psfi ← derefR (← onModel RState.getPSFi)
    allocR (← PyM.lift (apotomePsf psfi (abbeLimit s.self.psfParams.wl s.self.psfParams.na s.self.psfParams.size s.self.psfParams.res)))
  | .confocal _ pinhole _ => do
    let p ← onModel (do return (← PyM.get).params)
    let r ← PyM.lift (pinholeRadius p pinhole)
    let psfi ← derefR (← onModel RState.getPSFi)
    let det ← PyM.lift (pinholed r psfi)
    let exc ← derefR (← onExc RState.getPSFi)
    allocR (← PyM.lift (det.mulB exc))
  | .sim naExc wlExc coherent dc dcSuppress orientations wiener => do
    let n ← PyM.lift (Micro.simNum s.self.psfParams naExc wlExc)
    let psf ← simFiltered wiener
    allocR (← PyM.lift (simPsf n (decide (coherent = .bool true)) (decide (dc = .bool true)) (decide (dcSuppress = .bool true)) orientations psf))

/-- Reading `PSF` (microscope.py:109-124): `psf / psf.sum()` is a new array. -/
noncomputable def getPSF : PyM MState ℕ := do
  match (← PyM.get).self.psf with
  | some r => pure r
  | none =>
    let a ← derefR (← modelPsf)
    let s ← PyM.get
    let r ← allocR (← PyM.lift (microPsf (pyInt s.self.oversample) (pyInt s.self.psfParams.size).toNat a))
    PyM.modify fun s => { s with self := { s.self with psf := some r } }
    pure r

/-- Reading `OTF` (microscope.py:126-129). -/
noncomputable def getOTF : PyM MState ℕ := do
  match (← PyM.get).self.otf with
  | some r => pure r
  | none =>
    let a ← derefR (← getPSF)
    let r ← allocC (easyFft none (a.map fun (v : ℝ) => (v : ℂ)))
    PyM.modify fun s => { s with self := { s.self with otf := some r } }
    pure r

/-- Assigning a numeric property (utils.py:205-213, microscope.py:91-102). -/
def set (a : Micro.MAttr) (v : PyVal) : PyM MState Unit := do
  let s ← PyM.get
  match Micro.readAttr a s.self.oversample s.self.kind with
  | none => pure ()
  | some old =>
    match ← PyM.lift (numericSet (Micro.vartype a) old v) with
    | none => pure ()
    | some w =>
      let x := Micro.writeAttr a w s.self.oversample s.self.kind
      PyM.modify fun s => { s with self := { s.self with oversample := x.1, kind := x.2, psf := none, otf := none } }

/-- Assigning the plain attribute `wiener` (microscope.py:301). -/
def setWiener (w : PyVal) : PyM MState Unit := PyM.modify fun s => { s with self := { s.self with kind := Micro.withWiener w s.self.kind } }

/-- Assigning the plain attribute `orientations` (microscope.py:299). -/
def setOrientations (o : List ℝ) : PyM MState Unit := PyM.modify fun s => { s with self := { s.self with kind := Micro.withOrientations o s.self.kind } }

end MState

namespace World

/-- A copy of the array behind a reference: the new reference and the memory. -/
def copyArr {α : Type} (l : List α) : Option ℕ → Option ℕ × List α
  | none => (none, l)
  | some r => match l[r]? with
    | some a => (some l.length, l ++ [a])
    | none => (none, l)

/-- `copy.deepcopy(model)` (microscope.py:201): a new object with copies of all arrays. -/
def deepcopy (k : ℕ) : PyM World ℕ := fun w =>
  match w.objs[k]? with
  | none => (.error .runtimeError, w)
  | some o =>
    let z := copyArr w.mem.axis (some o.zref)
    let psfa := copyArr w.mem.cplx o.obj.psfa
    let otfa := copyArr psfa.2 o.obj.otfa
    let otfi := copyArr otfa.2 o.obj.otfi
    let psfi := copyArr w.mem.real o.obj.psfi
    (.ok w.objs.length,
      { mem := ⟨otfi.2, psfi.2, z.2⟩
        objs := w.objs ++ [⟨{ o.obj with psfa := psfa.1, otfa := otfa.1, psfi := psfi.1, otfi := otfi.1 }, z.1.getD 0⟩] })

/-- `WidefieldMicroscope.__init__` (microscope.py:57-78) with `model="hanser"`; `z` is the keyword `zrange`. -/
def newBase (a : MicroArgs) (z : ZGiven) : PyM World RMicro := do
  let o := (← PyM.lift (numericSet PyVal.isInt none a.oversample)).getD a.oversample
  let (size, res) ← PyM.lift (oversampled o a.size a.pixelSize)
  let w ← PyM.get
  let p : PsfParams :=
    { na := a.na, ni := a.ni, wl := a.wl, zres := a.kw.zres.getD a.pixelSize, zsize := a.kw.zsize.getD a.size
      size := size, res := res, kw := { a.kw with zrange := z.content w.mem } }
  if p.kw.dual.isSome then PyM.raise .typeError
  else do
    let k ← World.new { wl := p.wl, na := p.na, ni := p.ni, res := p.res, size := p.size, zres := p.zres, zsize := p.zsize
                        vecCorr := p.kw.vecCorr.getD (.str "none"), condition := p.kw.condition.getD (.str "sine") } z
    return { oversample := o, psfParams := p, pixelSize := a.pixelSize, model := k, kind := .widefield }

/-- What the constructors of the subclasses add (microscope.py:196-202, 277-303). -/
def newMicro (a : MicroArgs) (z : ZGiven) (c : MClass) : PyM World RMicro := do
  let m ← newBase a z
  match c with
  | .widefield => return m
  | .apotome => return { m with kind := .apotome }
  | .confocal wlExc pinhole => do
    let ph := (← PyM.lift (numericSet PyVal.isFloatOrInt none pinhole)).getD pinhole
    let j ← deepcopy m.model
    onObj j (RState.set .wl wlExc)
    return { m with kind := .confocal j ph none }
  | .sim naExc wlExc wiener coherent dc dcSuppress orientations => do
    let naExc := if naExc = .none then m.psfParams.na else naExc
    let na := (← PyM.lift (numericSet Micro.isFloat none naExc)).getD naExc
    let wlExc := if wlExc = .none then m.psfParams.wl else wlExc
    let wl := (← PyM.lift (numericSet Micro.isFloat none wlExc)).getD wlExc
    let co := (← PyM.lift (numericSet Micro.isBool none coherent)).getD coherent
    let d := (← PyM.lift (numericSet Micro.isBool none dc)).getD dc
    let ds := (← PyM.lift (numericSet Micro.isBool none dcSuppress)).getD dcSuppress
    if ← PyM.lift wiener.ltZero then PyM.raise .valueError
    else return { m with kind := .sim na wl co d ds orientations wiener }

end World

end PyOTF
