import Verif.Model.PhaseRetrieval

/-!
# A `PhaseRetrievalResult` as an object with a history

`Model/PhaseRetrieval.lean` models the methods of a result one by one; here they act on one object that lives on: its `model` is an object of the heap which the client can modify
(`result.model.wl = ...`), `mag` and `phase` are plain attributes, and `fit_to_zernikes` stores `zd_result`.
-/

namespace PyOTF

/-- A program's view of a `PhaseRetrievalResult` (phaseretrieval.py:152-188): the objects, the result (its `model` is the object `ref`) and `zd_result`, absent before the first
`fit_to_zernikes`. -/
structure PrWorld where
  heap : Heap
  self : PRResult
  ref : ℕ
  zd : Option ZD := none

namespace PrWorld

/-- A statement about `result.model` (phaseretrieval.py:183). -/
def onModel {α : Type} (m : PyM HObj α) : PyM PrWorld α := fun w =>
  let (r, heap) := onRef w.ref m w.heap
  (r, { w with heap := heap })

/-- `result.mag = a` (phaseretrieval.py:178: a plain attribute). -/
def setMag (a : Arr ℝ) : PyM PrWorld Unit := PyM.modify fun w => { w with self := { w.self with mag := a } }

/-- `result.phase = a` (phaseretrieval.py:179: a plain attribute). -/
def setPhase (a : Arr ℝ) : PyM PrWorld Unit := PyM.modify fun w => { w with self := { w.self with phase := a } }

/-- `result.complex_pupil` (phaseretrieval.py:259-262). -/
noncomputable def complexPupil : PyM PrWorld (Arr ℂ) := fun w => (w.self.complexPupil, w)

/-- `result.fit_to_zernikes(num_zerns)` (phaseretrieval.py:190-200): stores the decomposition and returns it. -/
noncomputable def fitToZernikes (lstsq : ℕ → List (List ℝ) → List ℝ → Py (List ℝ)) (num : ℕ) : PyM PrWorld ZD := do
  let zd ← PyM.lift ((← PyM.get).self.fitToZernikes lstsq num)
  PyM.modify fun w => { w with zd := some zd }
  return zd

/-- `result.generate_psf(size, zsize, zrange)` (phaseretrieval.py:234-236). -/
noncomputable def generatePsf (size : Option ℤ) (zsize : Option PyVal) (zrange : Option ZArg) : PyM PrWorld (Arr ℝ) := fun w =>
  let (r, heap) := w.self.generatePsf w.ref size zsize zrange w.heap
  (r, { w with heap := heap })

/-- `result.generate_zd_psf(sphase, size, zsize, zrange)` (phaseretrieval.py:230-232). -/
noncomputable def generateZdPsf (sphase : Slice) (size : Option ℤ) (zsize : Option PyVal) (zrange : Option ZArg) : PyM PrWorld (Arr ℝ) := fun w =>
  let (r, heap) := PyOTF.generateZdPsf w.zd w.ref sphase size zsize zrange w.heap
  (r, { w with heap := heap })

end PrWorld

end PyOTF
