import Verif.Model.MicroMemory
import Verif.Model.PhaseRetrieval

/-!
# Results of phase retrieval with arrays by reference

Continues `Model/Memory.lean` with `pyotf/phaseretrieval.py`: `mag`, `phase`, `r`, `theta` of a `PhaseRetrievalResult` and `mcoefs`, `pcoefs`, `zerns` of a
`ZernikeDecomposition` are references, the `model` of a result is a `HanserPSF` instance in the same memory.  What is computed is what `Model/PhaseRetrieval.lean` computes from
the contents.

Simplified: the arrays `retrieve_phase` creates and drops on the way are not put into memory (it writes only into arrays of its own); the curves `mse`, `mse_diff`, `pupil_diff`,
which no method except the plot reads, are left out; the dictionary of parameters (`Model/PhaseRetrieval.lean`, C67, C136) is a value, except that `params["zrange"]` may be an array of
the caller; results come from `retrieve_phase`; a cropped PSF is a view of an array nobody else has, and counts as an array.
-/

namespace PyOTF

/-- A `PhaseRetrievalResult` (phaseretrieval.py:155-188) whose arrays are of type `A`; `model` numbers the `HanserPSF` instances, `zd` the decompositions. -/
structure PSlot (A : Type) where
  mag : A
  phase : A
  r : A
  theta : A
  na : PyVal
  wl : PyVal
  model : ℕ
  zd : Option ℕ := none

/-- A `ZernikeDecomposition` (phaseretrieval.py:268-285) whose arrays are of type `A`. -/
structure ZSlot (A : Type) where
  mcoefs : A
  pcoefs : A
  zerns : A

/-- Coefficients as an array. -/
def coefArr (l : List ℝ) : Arr ℝ := ⟨[l.length], fun i => l.getD (i.getD 0 0) 0⟩

/-- The coefficients in a one-dimensional array. -/
def coefList (a : Arr ℝ) : List ℝ := (List.range (a.shape.getD 0 0)).map fun i => a.get [i]

/-- The arrays behind the references of a result. -/
def PSlot.load (m : Mem) (p : PSlot ℕ) : Py (PSlot (Arr ℝ)) :=
  match m.real[p.mag]?, m.real[p.phase]?, m.real[p.r]?, m.real[p.theta]? with
  | some a, some b, some c, some d => .ok ⟨a, b, c, d, p.na, p.wl, p.model, p.zd⟩
  | _, _, _, _ => .error .runtimeError

/-- The arrays behind the references of a decomposition. -/
def ZSlot.load (m : Mem) (z : ZSlot ℕ) : Py (ZSlot (Arr ℝ)) :=
  match m.real[z.mcoefs]?, m.real[z.pcoefs]?, m.real[z.zerns]? with
  | some a, some b, some c => .ok ⟨a, b, c⟩
  | _, _, _ => .error .runtimeError

/-- The result as in `Model/PhaseRetrieval.lean` (the curves and the model are not used by the methods below). -/
def PSlot.value (p : PSlot (Arr ℝ)) : PRResult := ⟨p.mag, p.phase, [], [], [], { params := {} }, p.r, p.theta, p.na, p.wl⟩

/-- The decomposition as in `Model/PhaseRetrieval.lean`. -/
def ZSlot.value (z : ZSlot (Arr ℝ)) : ZD := ⟨coefList z.mcoefs, coefList z.pcoefs, z.zerns⟩

namespace World

/-- A new array. -/
def allocR (a : Arr ℝ) : PyM World ℕ := fun w => (.ok w.mem.real.length, { w with mem := { w.mem with real := w.mem.real ++ [a] } })
@[inherit_doc allocR] def allocC (a : Arr ℂ) : PyM World ℕ := fun w => (.ok w.mem.cplx.length, { w with mem := { w.mem with cplx := w.mem.cplx ++ [a] } })

/-- A new array, if there is one. -/
def allocArr {α : Type} (l : List α) : Option α → Option ℕ × List α
  | none => (none, l)
  | some a => (some l.length, l ++ [a])

/-- The planes of a new instance: the caller's array, or a new one (otf.py:318-325). -/
def planesFor (l : List (List PyFloat)) (planes : List PyFloat) : Option ℕ → ℕ × List (List PyFloat)
  | some p => (p, l)
  | none => (l.length, l ++ [planes])

/-- A new `HanserPSF` instance (phaseretrieval.py:81) in the state `o`, with new arrays; its planes are the array `z` of the caller, or new. -/
def adopt (o : HObj) (z : Option ℕ) : PyM World ℕ := fun w =>
  let axis := planesFor w.mem.axis (o.params.zrange.getD []) z
  let psfa := allocArr w.mem.cplx o.psfa
  let otfa := allocArr psfa.2 o.otfa
  let otfi := allocArr otfa.2 o.otfi
  let psfi := allocArr w.mem.real o.psfi
  (.ok w.objs.length,
    { mem := ⟨otfi.2, psfi.2, axis.2⟩
      objs := w.objs ++ [⟨{ params := o.params, psfa := psfa.1, otfa := otfa.1, psfi := psfi.1, otfi := otfi.1 }, axis.1⟩] })

/-- The dictionary with the caller's array of planes under `zrange`. -/
def dictWith (w : World) (d : PyDict) : Option ℕ → PyDict
  | some p => d.insert "zrange" (.seq (w.mem.axis.getD p []))
  | none => d

/-- `retrieve_phase(data, params, ...)` (phaseretrieval.py:32-149): what the result holds at the end are new arrays, but the model keeps the caller's array of planes (otf.py:322). -/
noncomputable def retrieve (unwrap : Arr ℝ → Arr ℝ) (data : Arr ℝ) (d : PyDict) (z : Option ℕ) (maxIters : ℤ) (pupilTol mseTol : ℝ) (phaseOnly : Bool) :
    PyM World (PSlot ℕ) := do
  let x ← PyM.lift (retrievePhase unwrap data maxIters pupilTol mseTol phaseOnly ((← PyM.get).dictWith d z)).1
  let k ← adopt x.model z
  let mag ← allocR x.mag
  let phase ← allocR x.phase
  let r ← allocR x.r
  let theta ← allocR x.theta
  return { mag := mag, phase := phase, r := r, theta := theta, na := x.na, wl := x.wl, model := k }

/-- `fit_to_zernikes(num_zerns)` (phaseretrieval.py:190-200): three new arrays. -/
noncomputable def fitToZernikes (lstsq : ℕ → List (List ℝ) → List ℝ → Py (List ℝ)) (x : PSlot ℕ) (num : ℕ) : PyM World (ZSlot ℕ) := do
  let v ← PyM.lift (x.load (← PyM.get).mem)
  let zd ← PyM.lift (v.value.fitToZernikes lstsq num)
  let m ← allocR (coefArr zd.mcoefs)
  let p ← allocR (coefArr zd.pcoefs)
  let z ← allocR zd.zerns
  return ⟨m, p, z⟩

/-- `complex_pupil` of a result (phaseretrieval.py:259-262): a new array. -/
noncomputable def complexPupil (x : PSlot ℕ) : PyM World ℕ := do
  let v ← PyM.lift (x.load (← PyM.get).mem)
  allocC (← PyM.lift v.value.complexPupil)

/-- `phase(s)` of a decomposition (phaseretrieval.py:326-328): a new array. -/
noncomputable def zdPhase (x : ZSlot ℕ) (s : Slice) : PyM World ℕ := do
  let v ← PyM.lift (x.load (← PyM.get).mem)
  allocR (← PyM.lift (v.value.phase s))

/-- `mag(s)` of a decomposition (phaseretrieval.py:330-332): a new array. -/
noncomputable def zdMag (x : ZSlot ℕ) (s : Slice) : PyM World ℕ := do
  let v ← PyM.lift (x.load (← PyM.get).mem)
  allocR (← PyM.lift (v.value.mag s))

/-- `complex_pupil(smag, sphase)` of a decomposition (phaseretrieval.py:334-338): a new array. -/
noncomputable def zdPupil (x : ZSlot ℕ) (smag sphase : Slice) : PyM World ℕ := do
  let v ← PyM.lift (x.load (← PyM.get).mem)
  allocC (← PyM.lift (v.value.complexPupil smag sphase))

/-- A function whose new instances are not kept when it returns. -/
def temporary {α : Type} (m : PyM World α) : PyM World α := fun w => ((m w).1, { (m w).2 with objs := (m w).2.objs.take w.objs.length })

/-- `model.zrange = zrange` (phaseretrieval.py:209-210). -/
def assignPlanes (j : ℕ) : ZGiven → PyM World Unit
  | .omitted => pure ()
  | .value z => onObj j (RState.setZrange z)
  | .array p => onObj j (RState.assignZrange p)

/-- Padding or cropping (phaseretrieval.py:214-226): without need the array itself. -/
noncomputable def resized (size : Option ℤ) (r : ℕ) : PyM World ℕ := do
  match (← PyM.get).mem.real[r]? with
  | none => PyM.raise .runtimeError
  | some psf =>
    let b ← PyM.lift (resizePsf size psf)
    if size = none ∨ size = some ((psf.shape.getD 2 0 : ℕ) : ℤ) then pure r else allocR b

/-- `_generate_psf(complex_pupil, size, zsize, zrange)` (phaseretrieval.py:202-228): works on a copy of the model, which nobody keeps. -/
noncomputable def generatePsf (k : ℕ) (pupil : Arr ℂ) (size : Option ℤ) (zsize : Option PyVal) (z : ZGiven) : PyM World ℕ := temporary do
  let j ← copy k
  match zsize with
  | some v => onObj j (RState.set .zsize v)
  | none => pure ()
  assignPlanes j z
  onObj j (RState.applyPupil (ifftshift none pupil))
  let r ← onObj j RState.getPSFi
  resized size r

/-- `generate_psf(size, zsize, zrange)` (phaseretrieval.py:234-236). -/
noncomputable def resultPsf (x : PSlot ℕ) (size : Option ℤ) (zsize : Option PyVal) (z : ZGiven) : PyM World ℕ := do
  let v ← PyM.lift (x.load (← PyM.get).mem)
  generatePsf x.model (← PyM.lift v.value.complexPupil) size zsize z

/-- `generate_zd_psf(sphase, size, zsize, zrange)` (phaseretrieval.py:230-232) with the decomposition `y`. -/
noncomputable def decompPsf (x : PSlot ℕ) (y : ZSlot ℕ) (sphase : Slice) (size : Option ℤ) (zsize : Option PyVal) (z : ZGiven) : PyM World ℕ := do
  let v ← PyM.lift (y.load (← PyM.get).mem)
  generatePsf x.model (← PyM.lift (v.value.complexPupil Slice.all sphase)) size zsize z

end World

end PyOTF
