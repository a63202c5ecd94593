import Verif.Model.Aberration

/-!
# Arrays by reference

The other modules treat arrays as values.  Here the arrays a `HanserPSF` hands out, keeps and is given are objects in memory: attributes and caches hold references, and the
caller can write into every array it has a reference to.  The functions are those of `Model/Otf.lean`, `Model/Hanser.lean` and `Model/Aberration.lean`, line by line.

Simplified: a reference is a whole array (no views of parts of an array), an array assigned to `zrange` is one-dimensional and of floats (`np.asarray` returns it unchanged;
a zero-dimensional one would have its shape changed in place).
-/

namespace PyOTF

/-- The arrays in memory: complex and real arrays, and one-dimensional arrays of planes.  Addresses count from 0; nothing is ever freed. -/
structure Mem where
  cplx : List (Arr ℂ)
  real : List (Arr ℝ)
  axis : List (List PyFloat)

/-- A `HanserPSF` instance: its cached arrays and its `_zrange` (otf.py:322) are references.  The field `obj.params.zrange` is not used. -/
structure RObj where
  obj : Obj ℕ ℕ
  zref : ℕ

/-- What the methods of one object see and change. -/
structure RState where
  mem : Mem
  self : RObj

namespace RState

/-- The attributes of the object, with the planes its `_zrange` holds now. -/
def params (s : RState) : Params := { s.self.obj.params with zrange := s.mem.axis[s.self.zref]? }

/-- A statement that concerns the attributes and the references only. -/
def onObj {α : Type} (m : PyM (Obj ℕ ℕ) α) : PyM RState α := fun s =>
  ((m s.self.obj).1, { s with self := { s.self with obj := (m s.self.obj).2 } })

/-- A new array. -/
def allocC (a : Arr ℂ) : PyM RState ℕ := fun s => (.ok s.mem.cplx.length, { s with mem := { s.mem with cplx := s.mem.cplx ++ [a] } })
@[inherit_doc allocC] def allocR (a : Arr ℝ) : PyM RState ℕ := fun s => (.ok s.mem.real.length, { s with mem := { s.mem with real := s.mem.real ++ [a] } })
@[inherit_doc allocC] def allocZ (a : List PyFloat) : PyM RState ℕ := fun s => (.ok s.mem.axis.length, { s with mem := { s.mem with axis := s.mem.axis ++ [a] } })

/-- The array behind a reference. -/
def derefC (r : ℕ) : PyM RState (Arr ℂ) := fun s => match s.mem.cplx[r]? with
  | some a => (.ok a, s)
  | none => (.error .runtimeError, s)
@[inherit_doc derefC] def derefR (r : ℕ) : PyM RState (Arr ℝ) := fun s => match s.mem.real[r]? with
  | some a => (.ok a, s)
  | none => (.error .runtimeError, s)

/-- `HanserPSF.zrange` setter (otf.py:320-327) for an array of the caller: `np.asarray` does not copy. -/
def assignZrange (r : ℕ) : PyM RState Unit := do
  PyM.modify fun s => { s with self := { s.self with zref := r } }
  onObj attributeChanged

/-- `HanserPSF.zrange` setter (otf.py:320-327) for a number or a list: a new array. -/
def setZrange (v : ZArg) : PyM RState Unit := do
  let r ← allocZ v.toList
  assignZrange r

/-- `_gen_zrange` (otf.py:290-292). -/
def genZrange : PyM RState Unit := do
  let zsize ← onObj (PyOTF.self Params.zsize)
  let zres ← PyM.lift (pyNum (← onObj (PyOTF.self Params.zres)))
  setZrange (.seq (defaultZrange (pyNat zsize) zres))

/-- `HanserPSF.zsize` setter (otf.py:294-303). -/
def setZsize (v : PyVal) : PyM RState Unit := do
  onObj (setZsizeBase v)
  PyM.ignore .attributeError genZrange

/-- `HanserPSF.zres` setter (otf.py:305-313). -/
def setZres (v : PyVal) : PyM RState Unit := do
  onObj (setZresBase v)
  PyM.ignore .attributeError genZrange

/-- `obj.<attr> = v`. -/
def set (a : Attr) (v : PyVal) : PyM RState Unit :=
  match a with
  | .zsize => setZsize v
  | .zres => setZres v
  | a => onObj (setAttr .hanser a v)

/-- `_gen_psf` (otf.py:356-422): the result is a new array, the pupil is not kept. -/
noncomputable def genPsf (pupil : Option (Arr ℂ)) : PyM RState (Arr ℂ) := do
  onObj attributeChanged
  let s ← PyM.get
  PyM.lift (hanserGenPsf s.params pupil)

/-- Reading `PSFa` (otf.py:434-437). -/
noncomputable def getPSFa : PyM RState ℕ := do
  match (← PyM.get).self.obj.psfa with
  | some r => pure r
  | none =>
    let r ← allocC (← genPsf none)
    onObj (PyM.modify fun o => { o with psfa := some r })
    pure r

/-- Reading `OTFa` (otf.py:429-432). -/
noncomputable def getOTFa : PyM RState ℕ := do
  match (← PyM.get).self.obj.otfa with
  | some r => pure r
  | none =>
    let a ← derefC (← getPSFa)
    let r ← allocC (← PyM.lift (hanserOTFa a))
    onObj (PyM.modify fun o => { o with otfa := some r })
    pure r

/-- Reading `PSFi` (otf.py:204-207). -/
noncomputable def getPSFi : PyM RState ℕ := do
  match (← PyM.get).self.obj.psfi with
  | some r => pure r
  | none =>
    let a ← derefC (← getPSFa)
    let r ← allocR (psfiOf a)
    onObj (PyM.modify fun o => { o with psfi := some r })
    pure r

/-- Reading `OTFi` (otf.py:209-212). -/
noncomputable def getOTFi : PyM RState ℕ := do
  match (← PyM.get).self.obj.otfi with
  | some r => pure r
  | none =>
    let b ← derefR (← getPSFi)
    let r ← allocC (← PyM.lift (otfiOf b))
    onObj (PyM.modify fun o => { o with otfi := some r })
    pure r

/-- `apply_pupil` (otf.py:424-427). -/
noncomputable def applyPupil (pupil : Arr ℂ) : PyM RState Unit := do
  onObj attributeChanged
  let r ← allocC (← genPsf (some pupil))
  onObj (PyM.modify fun o => { o with psfa := some r })

end RState

/-- The `zrange` argument of the constructor (otf.py:271): omitted, a number or a list, or an array of the caller. -/
inductive ZGiven
  | omitted
  | value (z : ZArg)
  | array (r : ℕ)

/-- An optional number or list. -/
def ZGiven.ofOption : Option ZArg → ZGiven
  | some z => .value z
  | none => .omitted

/-- The planes it stands for. -/
def ZGiven.content (m : Mem) : ZGiven → Option ZArg
  | .omitted => none
  | .value z => some z
  | .array r => some (.seq (m.axis.getD r []))

/-- Memory and all `HanserPSF` instances in it. -/
structure World where
  mem : Mem
  objs : List RObj

namespace World

/-- A method call on instance `k`. -/
def onObj {α : Type} (k : ℕ) (m : PyM RState α) : PyM World α := fun w =>
  match w.objs[k]? with
  | none => (.error .runtimeError, w)
  | some o => ((m ⟨w.mem, o⟩).1, ⟨(m ⟨w.mem, o⟩).2.mem, w.objs.set k (m ⟨w.mem, o⟩).2.self⟩)

/-- `copy.copy(model)` (otf.py:606): a new object with the same references. -/
def copy (k : ℕ) : PyM World ℕ := fun w =>
  match w.objs[k]? with
  | none => (.error .runtimeError, w)
  | some o => (.ok w.objs.length, { w with objs := w.objs ++ [o] })

/-- `apply_aberration(model, mcoefs, pcoefs)` (otf.py:589-639). -/
noncomputable def applyAberration (k : ℕ) (mcoefs pcoefs : Option (List ℝ)) : PyM World ℕ := do
  let j ← copy k
  match fillCoefs mcoefs pcoefs with
  | none => return j
  | some (m, ph) =>
    let pupil ← onObj j (do PyM.lift (aberratedPupil (← PyM.get).params m ph))
    onObj j (RState.applyPupil pupil)
    return j

/-- `apply_pupil` with an array of the caller. -/
noncomputable def applyPupilRef (k r : ℕ) : PyM World Unit := onObj k do RState.applyPupil (← RState.derefC r)

open Classical in
/-- The caller writes into a complex array, `a[idx] = v`. -/
noncomputable def writeC (r : ℕ) (idx : List ℕ) (v : ℂ) : PyM World Unit := fun w =>
  match w.mem.cplx[r]? with
  | none => (.error .runtimeError, w)
  | some a => if InShape idx a.shape then (.ok (), { w with mem := { w.mem with cplx := w.mem.cplx.set r ⟨a.shape, Function.update a.get idx v⟩ } })
      else (.error .indexError, w)

open Classical in
/-- The caller writes into a real array, `a[idx] = v`. -/
noncomputable def writeR (r : ℕ) (idx : List ℕ) (v : ℝ) : PyM World Unit := fun w =>
  match w.mem.real[r]? with
  | none => (.error .runtimeError, w)
  | some a => if InShape idx a.shape then (.ok (), { w with mem := { w.mem with real := w.mem.real.set r ⟨a.shape, Function.update a.get idx v⟩ } })
      else (.error .indexError, w)

/-- The caller writes into an array of planes, `a[i] = v`. -/
def writeZ (r i : ℕ) (v : PyFloat) : PyM World Unit := fun w =>
  match w.mem.axis[r]? with
  | none => (.error .runtimeError, w)
  | some a => if i < a.length then (.ok (), { w with mem := { w.mem with axis := w.mem.axis.set r (a.set i v) } }) else (.error .indexError, w)

/-- `HanserPSF(...)` (otf.py:272-281): the planes are a new array, or that of the caller.  The arrays of planes the setters create and replace during construction
are not kept (nothing refers to them). -/
def new (a : InitArgs) (zrange : ZGiven) : PyM World ℕ := fun w =>
  match construct (A := ℕ) (I := ℕ) (hanserInit a (zrange.content w.mem)) with
  | .error e => (.error e, w)
  | .ok o =>
    match zrange with
    | .array r => (.ok w.objs.length, { w with objs := w.objs ++ [⟨o, r⟩] })
    | _ => (.ok w.objs.length, { mem := { w.mem with axis := w.mem.axis ++ [o.params.zrange.getD []] }, objs := w.objs ++ [⟨o, w.mem.axis.length⟩] })

end World

end PyOTF
