import Verif.Model.Hanser
import Verif.Model.Zernike
import Verif.Model.Named

/-!
# `apply_aberration` and `apply_named_aberration(s)` (`otf.py:589-697`)

The functions work on references: the heap is the list of all `HanserPSF` objects and a reference is a
position in it, so that "the argument is not modified" is a statement about the heap.  Coefficient vectors
are one-dimensional float arrays (`List ℝ`).
-/

namespace PyOTF

/-- NumPy broadcasting of two shapes given from the last axis to the first. -/
def bshapeRev : List ℕ → List ℕ → Py (List ℕ)
  | [], t => .ok t
  | s, [] => .ok s
  | a :: s, b :: t => do
    let d ← bdim a b
    let r ← bshapeRev s t
    return d :: r

/-- NumPy broadcasting of two shapes. -/
def bshape (s t : List ℕ) : Py (List ℕ) := do
  let r ← bshapeRev s.reverse t.reverse
  return r.reverse

/-- `a * b` of two arrays, with broadcasting. -/
def Arr.mulB (a b : Arr ℝ) : Py (Arr ℝ) := do
  let s ← bshape a.shape b.shape
  let a' ← broadcastTo s a
  let b' ← broadcastTo s b
  return ⟨s, fun i => a'.get i * b'.get i⟩

/-- `a += b` (the shape of `a` is kept). -/
def Arr.iadd (a b : Arr ℝ) : Py (Arr ℝ) := do
  let b' ← broadcastTo a.shape b
  return ⟨a.shape, fun i => a.get i + b'.get i⟩

/-- `coefs[:, None, None]`. -/
def column (coefs : List ℝ) : Arr ℝ := ⟨[coefs.length, 1, 1], fun i => coefs.getD (i.getD 0 0) 0⟩

/-- The optional coefficient vectors after the two `zeros_like` lines (otf.py:611-615). -/
def fillCoefs : Option (List ℝ) → Option (List ℝ) → Option (List ℝ × List ℝ)
  | none, none => none
  | none, some p => some (p.map fun _ => 0, p)
  | some m, none => some (m, m.map fun _ => 0)
  | some m, some p => some (m, p)

/-- The aberrated pupil (otf.py:617-636) of a model with parameters `p`.  With `na = 0` the radius
`kr * wl / na` is `0/0` at the origin, which `zernike` rejects (`ValueError`). -/
noncomputable def aberratedPupil (p : Params) (mcoefs pcoefs : List ℝ) : Py (Arr ℂ) := do
  if mcoefs.length ≠ pcoefs.length then throw .assertionError
  let (size, res, kmag, limit) ← hanserGenKr p
  let wl ← pyNum (← attr p.wl)
  let na ← pyNum (← attr p.na)
  let f ← finReals [res, kmag, wl, na]
  let h : HanserNum := ⟨size, f.getD 0 0, f.getD 1 0, limit, [], .none, .none⟩
  if na = .fin 0 then throw .valueError
  let r : Arr ℝ := ⟨[size, size], fun i => h.kr (i.getD 0 0) (i.getD 1 0) * f.getD 2 0 / f.getD 3 0⟩
  let theta : Arr ℝ := ⟨[size, size], fun i => h.phi (i.getD 0 0) (i.getD 1 0)⟩
  let zerns ← zernike r theta [⟨[mcoefs.length], fun i => (i.getD 0 0 : ℤ) + 1⟩]
  let phase := (← zerns.mulB (column pcoefs)).sumAxis 0
  let mag := (← zerns.mulB (column mcoefs)).sumAxis 0
  let mag ← mag.iadd (h.idealPupil.map fun v => ‖v‖)
  -- `pupil_mag * np.exp(1j * pupil_phase)`: both have the same shape
  return ⟨mag.shape, fun i => (mag.get i : ℂ) * Complex.exp (Complex.I * (phase.get i : ℝ))⟩

/-- All `HanserPSF` objects of the program. -/
abbrev Heap := List HObj

/-- Run a statement on the object behind a reference (what it changed before an exception stays). -/
def onRef {α : Type} (ref : ℕ) (m : PyM HObj α) : PyM Heap α := fun heap =>
  match heap[ref]? with
  | none => (.error .runtimeError, heap)
  | some o => let (r, o') := m o; (r, heap.set ref o')

/-- `copy.copy(model)`: a new object with the same instance dictionary (parameters and cached arrays). -/
def copyRef (ref : ℕ) : PyM Heap ℕ := fun heap =>
  match heap[ref]? with
  | none => (.error .runtimeError, heap)
  | some o => (.ok heap.length, heap ++ [o])

/-- `apply_aberration(model, mcoefs, pcoefs)` (otf.py:589-639).  The coordinates generated on the copy
(otf.py:619) are scratch attributes overwritten by every `_gen_kr` and are not modelled. -/
noncomputable def applyAberration (model : ℕ) (mcoefs pcoefs : Option (List ℝ)) : PyM Heap ℕ := do
  let model ← copyRef model
  match fillCoefs mcoefs pcoefs with
  | none => return model
  | some (m, ph) =>
    let pupil ← onRef model (do PyM.lift (aberratedPupil (← PyM.get).params m ph))
    onRef model (HObj.applyPupil pupil)
    return model

/-- `apply_named_aberration` (otf.py:642-645). -/
noncomputable def applyNamedAberration (model : ℕ) (aberration : String) (magnitude : ℝ) : PyM Heap ℕ := do
  let pcoefs ← PyM.lift (namedAberrationToPcoefs aberration magnitude)
  applyAberration model none (some pcoefs)

/-- `apply_named_aberrations` (otf.py:676-697). -/
noncomputable def applyNamedAberrations (model : ℕ) (aberrations : List (String × ℝ)) : PyM Heap ℕ := do
  let pcoefs ← PyM.lift (namedAberrationsPcoefs aberrations)
  applyAberration model none (some pcoefs)

end PyOTF
