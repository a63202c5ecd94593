import Verif.Spec.Aliasing
import Verif.Model.PrMemory
import Verif.Model.PrObject

/-!
# Client programs with phase retrieval: by reference and with values

Extends the programs of `Spec/Aliasing.lean` by retrieval results and Zernike decompositions.  With values, a result owns its arrays (`Model/PhaseRetrieval.lean`); its model is
also a model of the client (`result.model`).
-/

namespace PyOTF

/-- Library functions used by `phaseretrieval.py`: `unwrap_phase` and `numpy.linalg.lstsq`. -/
structure PrLib where
  unwrap : Arr ℝ → Arr ℝ
  lstsq : ℕ → List (List ℝ) → List ℝ → Py (List ℝ)

/-- An argument `zrange` of the client: omitted, a number or a list, or a variable. -/
inductive ZVar
  | omitted
  | value (z : ZArg)
  | var (x : ℕ)

/-- One statement of a client; `i` numbers the results, `j` the decompositions, `x` the variables. -/
inductive PStmt
  /-- a statement about models and arrays -/
  | base (st : Stmt)
  /-- `data = np.array([[[...]]])` -/
  | image (a : Arr ℝ)
  /-- `result = retrieve_phase(x, d, ...)`; `z` is a variable that `d["zrange"]` refers to -/
  | retrieve (x : ℕ) (d : PyDict) (z : Option ℕ) (maxIters : ℤ) (pupilTol mseTol : ℝ) (phaseOnly : Bool)
  /-- `result.mag`, `result.phase`, `result.r`, `result.theta`, `result.model`, `result.zd_result` -/
  | mag (i : ℕ)
  | phase (i : ℕ)
  | r (i : ℕ)
  | theta (i : ℕ)
  | model (i : ℕ)
  | zdResult (i : ℕ)
  /-- `result.mag = x`, `result.phase = x` -/
  | setMag (i x : ℕ)
  | setPhase (i x : ℕ)
  /-- `result.complex_pupil`, `result.fit_to_zernikes(num)` -/
  | pupil (i : ℕ)
  | fit (i num : ℕ)
  /-- `zd.mcoefs`, `zd.pcoefs`, `zd.zerns`, `zd.mag(s)`, `zd.phase(s)`, `zd.complex_pupil(smag, sphase)` -/
  | mcoefs (j : ℕ)
  | pcoefs (j : ℕ)
  | zerns (j : ℕ)
  | zdMag (j : ℕ) (s : Slice)
  | zdPhase (j : ℕ) (s : Slice)
  | zdPupil (j : ℕ) (smag sphase : Slice)
  /-- `result.generate_psf(size, zsize, zrange)`, `result.generate_zd_psf(sphase, size, zsize, zrange)` -/
  | psf (i : ℕ) (size : Option ℤ) (zsize : Option PyVal) (z : ZVar)
  | zdPsf (i : ℕ) (sphase : Slice) (size : Option ℤ) (zsize : Option PyVal) (z : ZVar)

/-- By reference. -/
structure QRProg where
  prog : RProg
  res : List (PSlot ℕ)
  zds : List (ZSlot ℕ)

/-- With values. -/
structure QVProg where
  prog : VProg
  res : List (PSlot (Arr ℝ))
  zds : List (ZSlot (Arr ℝ))

/-- The element with a number. -/
def getObj {α : Type} (l : List α) (i : ℕ) : Py α := ((l[i]?).map .ok).getD (.error .runtimeError)

/-- The decomposition a result refers to. -/
def PSlot.zdNum {A : Type} (x : PSlot A) : Py ℕ := (x.zd.map .ok).getD (.error .attributeError)

namespace QRProg

/-- A real array is returned. -/
def seeR (s : QRProg) (f : PyM World ℕ) : Py Seen × QRProg := ((s.prog.seeR (f s.prog.world)).1, { s with prog := (s.prog.seeR (f s.prog.world)).2 })
/-- A complex array is returned. -/
def seeC (s : QRProg) (f : PyM World ℕ) : Py Seen × QRProg := ((s.prog.seeC (f s.prog.world)).1, { s with prog := (s.prog.seeC (f s.prog.world)).2 })
/-- The number of an object is returned. -/
def seeN (s : QRProg) (x : Py ℕ) : Py Seen × QRProg := (x.map .model, s)

/-- The argument `zrange`. -/
def zarg (s : QRProg) : ZVar → Py ZGiven
  | .omitted => .ok .omitted
  | .value z => .ok (.value z)
  | .var x => (getObj s.prog.z x).map .array

/-- `result.mag = x` etc. -/
def assign (s : QRProg) (i x : ℕ) (f : ℕ → PSlot ℕ → PSlot ℕ) : Py Seen × QRProg :=
  match s.res[i]?, s.prog.r[x]? with
  | some y, some p => (.ok .done, { s with res := s.res.set i (f p y) })
  | _, _ => (.error .runtimeError, s)

/-- One statement, by reference. -/
noncomputable def step (L : PrLib) (s : QRProg) : PStmt → Py Seen × QRProg
  | .base st => ((s.prog.step st).1, { s with prog := (s.prog.step st).2 })
  | .image a => s.seeR (World.allocR a)
  | .retrieve x d z n pt mt po =>
    match (do let p ← getObj s.prog.r x; let a ← getObj s.prog.world.mem.real p; let z ← z.mapM (getObj s.prog.z); return (a, z) : Py _) with
    | .error e => (.error e, s)
    | .ok (a, z) => match World.retrieve L.unwrap a d z n pt mt po s.prog.world with
      | (.ok y, w) => (.ok (.model s.res.length), { s with prog := { s.prog with world := w }, res := s.res ++ [y] })
      | (.error e, w) => (.error e, { s with prog := { s.prog with world := w } })
  | .mag i => s.seeR (do return (← PyM.lift (getObj s.res i)).mag)
  | .phase i => s.seeR (do return (← PyM.lift (getObj s.res i)).phase)
  | .r i => s.seeR (do return (← PyM.lift (getObj s.res i)).r)
  | .theta i => s.seeR (do return (← PyM.lift (getObj s.res i)).theta)
  | .model i => s.seeN (do return (← getObj s.res i).model)
  | .zdResult i => s.seeN (do (← getObj s.res i).zdNum)
  | .setMag i x => s.assign i x fun p y => { y with mag := p }
  | .setPhase i x => s.assign i x fun p y => { y with phase := p }
  | .pupil i => s.seeC (do World.complexPupil (← PyM.lift (getObj s.res i)))
  | .fit i num =>
    match s.res[i]? with
    | none => (.error .runtimeError, s)
    | some x => match World.fitToZernikes L.lstsq x num s.prog.world with
      | (.ok y, w) => (.ok (.model s.zds.length), ⟨{ s.prog with world := w }, s.res.set i { x with zd := some s.zds.length }, s.zds ++ [y]⟩)
      | (.error e, w) => (.error e, { s with prog := { s.prog with world := w } })
  | .mcoefs j => s.seeR (do return (← PyM.lift (getObj s.zds j)).mcoefs)
  | .pcoefs j => s.seeR (do return (← PyM.lift (getObj s.zds j)).pcoefs)
  | .zerns j => s.seeR (do return (← PyM.lift (getObj s.zds j)).zerns)
  | .zdMag j c => s.seeR (do World.zdMag (← PyM.lift (getObj s.zds j)) c)
  | .zdPhase j c => s.seeR (do World.zdPhase (← PyM.lift (getObj s.zds j)) c)
  | .zdPupil j a b => s.seeC (do World.zdPupil (← PyM.lift (getObj s.zds j)) a b)
  | .psf i size zsize z => s.seeR (do World.resultPsf (← PyM.lift (getObj s.res i)) size zsize (← PyM.lift (s.zarg z)))
  | .zdPsf i c size zsize z => s.seeR (do
      let x ← PyM.lift (getObj s.res i)
      World.decompPsf x (← PyM.lift (x.zdNum >>= getObj s.zds)) c size zsize (← PyM.lift (s.zarg z)))

/-- Nothing has been created yet. -/
def empty : QRProg := ⟨RProg.empty, [], []⟩

end QRProg

namespace QVProg

@[inherit_doc QRProg.seeR] def seeR (s : QVProg) (f : PyM Heap (Arr ℝ)) : Py Seen × QVProg := ((s.prog.seeR (f s.prog.objs)).1, { s with prog := (s.prog.seeR (f s.prog.objs)).2 })
@[inherit_doc QRProg.seeC] def seeC (s : QVProg) (f : PyM Heap (Arr ℂ)) : Py Seen × QVProg := ((s.prog.seeC (f s.prog.objs)).1, { s with prog := (s.prog.seeC (f s.prog.objs)).2 })
@[inherit_doc QRProg.seeN] def seeN (s : QVProg) (x : Py ℕ) : Py Seen × QVProg := (x.map .model, s)

@[inherit_doc QRProg.zarg] def zarg (s : QVProg) : ZVar → Py (Option ZArg)
  | .omitted => .ok none
  | .value z => .ok (some z)
  | .var x => (getObj s.prog.z x).map fun z => some (.seq z)

@[inherit_doc QRProg.assign] def assign (s : QVProg) (i x : ℕ) (f : Arr ℝ → PSlot (Arr ℝ) → PSlot (Arr ℝ)) : Py Seen × QVProg :=
  match s.res[i]?, s.prog.r[x]? with
  | some y, some p => (.ok .done, { s with res := s.res.set i (f p y) })
  | _, _ => (.error .runtimeError, s)

/-- The heap afterwards is that before: `generate_psf` leaves the models alone, and its copy is dropped. -/
def dropped {α : Type} (f : PyM Heap α) : PyM Heap α := fun h => ((f h).1, (f h).2.take h.length)

open Classical in
/-- One statement, with values: the functions of `Model/PhaseRetrieval.lean`. -/
noncomputable def step (L : PrLib) (s : QVProg) : PStmt → Py Seen × QVProg
  | .base st => ((s.prog.step st).1, { s with prog := (s.prog.step st).2 })
  | .image a => s.seeR (PyM.lift (.ok a))
  | .retrieve x d z n pt mt po =>
    match (do let a ← getObj s.prog.r x; let z ← z.mapM (getObj s.prog.z); return (a, z) : Py _) with
    | .error e => (.error e, s)
    | .ok (a, z) => match (retrievePhase L.unwrap a n pt mt po ((z.map fun l => d.insert "zrange" (.seq l)).getD d)).1 with
      | .error e => (.error e, s)
      | .ok y => (.ok (.model s.res.length),
          { s with prog := { s.prog with objs := s.prog.objs ++ [y.model] }, res := s.res ++ [⟨y.mag, y.phase, y.r, y.theta, y.na, y.wl, s.prog.objs.length, none⟩] })
  | .mag i => s.seeR (PyM.lift (do return (← getObj s.res i).mag))
  | .phase i => s.seeR (PyM.lift (do return (← getObj s.res i).phase))
  | .r i => s.seeR (PyM.lift (do return (← getObj s.res i).r))
  | .theta i => s.seeR (PyM.lift (do return (← getObj s.res i).theta))
  | .model i => s.seeN (do return (← getObj s.res i).model)
  | .zdResult i => s.seeN (do (← getObj s.res i).zdNum)
  | .setMag i x => s.assign i x fun p y => { y with mag := p }
  | .setPhase i x => s.assign i x fun p y => { y with phase := p }
  | .pupil i => s.seeC (PyM.lift (do (← getObj s.res i).value.complexPupil))
  | .fit i num =>
    match s.res[i]? with
    | none => (.error .runtimeError, s)
    | some x => match x.value.fitToZernikes L.lstsq num with
      | .error e => (.error e, s)
      | .ok y => (.ok (.model s.zds.length), ⟨s.prog, s.res.set i { x with zd := some s.zds.length }, s.zds ++ [⟨coefArr y.mcoefs, coefArr y.pcoefs, y.zerns⟩]⟩)
  | .mcoefs j => s.seeR (PyM.lift (do return (← getObj s.zds j).mcoefs))
  | .pcoefs j => s.seeR (PyM.lift (do return (← getObj s.zds j).pcoefs))
  | .zerns j => s.seeR (PyM.lift (do return (← getObj s.zds j).zerns))
  | .zdMag j c => s.seeR (PyM.lift (do (← getObj s.zds j).value.mag c))
  | .zdPhase j c => s.seeR (PyM.lift (do (← getObj s.zds j).value.phase c))
  | .zdPupil j a b => s.seeC (PyM.lift (do (← getObj s.zds j).value.complexPupil a b))
  | .psf i size zsize z => s.seeR (do
      let x ← PyM.lift (getObj s.res i)
      let z ← PyM.lift (s.zarg z)
      dropped (x.value.generatePsf x.model size zsize z))
  | .zdPsf i c size zsize z => s.seeR (do
      let x ← PyM.lift (getObj s.res i)
      let y ← PyM.lift (x.zdNum >>= getObj s.zds)
      let z ← PyM.lift (s.zarg z)
      dropped (PyOTF.generateZdPsf (some y.value) x.model c size zsize z))

/-- Nothing has been created yet. -/
def empty : QVProg := ⟨VProg.empty, [], []⟩

end QVProg

/-- The arrays of a result. -/
def PSlot.Holds (x : PSlot ℕ) (p : ℕ) : Prop := x.mag = p ∨ x.phase = p ∨ x.r = p ∨ x.theta = p

/-- The arrays of a decomposition. -/
def ZSlot.Holds (x : ZSlot ℕ) (p : ℕ) : Prop := x.mcoefs = p ∨ x.pcoefs = p ∨ x.zerns = p

/-- A write is harmless if no model, no result, no decomposition and no other variable refers to the array. -/
def PStmt.Private (s : QRProg) : PStmt → Prop
  | .base st => st.Private s.prog ∧ match st with
    | .writeR x _ _ => ∀ p, s.prog.r[x]? = some p → (∀ y ∈ s.res, ¬ y.Holds p) ∧ ∀ y ∈ s.zds, ¬ y.Holds p
    | _ => True
  | _ => True

/-- Is it a write? -/
def PStmt.IsWrite : PStmt → Prop
  | .base st => st.IsWrite
  | _ => False

/-- Every write of the program is harmless at the time it happens. -/
def QUnshared (L : PrLib) : QRProg → List PStmt → Prop
  | _, [] => True
  | s, st :: rest => st.Private s ∧ QUnshared L (s.step L st).2 rest

end PyOTF
