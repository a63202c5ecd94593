import Verif.Spec.Aliasing
import Verif.Model.MicroMemory

/-!
# Client programs with microscopes: by reference and with values

Extends the programs of `Spec/Aliasing.lean` by microscopes.  With values, a microscope is the `Micro` of `Model/Microscope.lean`; its models are also models of the client
(`m.model`), so they are kept with the other models, under a number.
-/

namespace PyOTF

/-- One statement of a client; `i` numbers the microscopes. -/
inductive MStmt
  /-- a statement about models and arrays -/
  | base (st : Stmt)
  /-- `m = WidefieldMicroscope(model="hanser", ...)` etc.; `z` is a variable given as the keyword `zrange` (otherwise `a.kw.zrange`) -/
  | new (a : MicroArgs) (z : Option ℕ) (c : MClass)
  /-- `m.model`, `m.model_exc` -/
  | model (i : ℕ)
  | modelExc (i : ℕ)
  /-- `m.model_psf`, `m.PSF`, `m.OTF` -/
  | modelPsf (i : ℕ)
  | PSF (i : ℕ)
  | OTF (i : ℕ)
  /-- `m.attr = v` -/
  | set (i : ℕ) (a : Micro.MAttr) (v : PyVal)
  | setWiener (i : ℕ) (w : PyVal)
  | setOrientations (i : ℕ) (o : List ℝ)

/-- By reference. -/
structure MRProg where
  prog : RProg
  micros : List RMicro

/-- A microscope that owns its cached arrays. -/
abbrev VMicro := MSlot (Arr ℝ) (Arr ℂ)

/-- With values. -/
structure MVProg where
  prog : VProg
  micros : List VMicro

/-- The other model of a confocal microscope. -/
def Kind.exc {I : Type} : Kind I → Option I
  | .confocal e _ _ => some e
  | _ => none

/-- Replace the other model of a confocal microscope. -/
def Kind.map {I J : Type} (f : I → J) : Kind I → Kind J
  | .widefield => .widefield
  | .apotome => .apotome
  | .confocal e ph w => .confocal (f e) ph w
  | .sim n l c d s o w => .sim n l c d s o w

/-- The outcome of a call on microscope `i` of `s`. -/
def MRProg.onMicro {α : Type} (i : ℕ) (f : PyM MState α) (s : MRProg) : Py α × World × List RMicro :=
  match s.micros[i]? with
  | none => (.error .runtimeError, s.prog.world, s.micros)
  | some m => ((f ⟨s.prog.world, m⟩).1, (f ⟨s.prog.world, m⟩).2.world, s.micros.set i (f ⟨s.prog.world, m⟩).2.self)

namespace MRProg

/-- A real array is returned. -/
def seeR (s : MRProg) (x : Py ℕ × World × List RMicro) : Py Seen × MRProg := ((s.prog.seeR (x.1, x.2.1)).1, ⟨(s.prog.seeR (x.1, x.2.1)).2, x.2.2⟩)
/-- A complex array is returned. -/
def seeC (s : MRProg) (x : Py ℕ × World × List RMicro) : Py Seen × MRProg := ((s.prog.seeC (x.1, x.2.1)).1, ⟨(s.prog.seeC (x.1, x.2.1)).2, x.2.2⟩)
/-- Nothing is returned. -/
def ran (s : MRProg) (x : Py Unit × World × List RMicro) : Py Seen × MRProg := (x.1.map fun _ => .done, ⟨{ s.prog with world := x.2.1 }, x.2.2⟩)

/-- The keyword `zrange`. -/
def zarg (s : MRProg) (a : MicroArgs) : Option ℕ → Py ZGiven
  | none => .ok (.ofOption a.kw.zrange)
  | some x => match s.prog.z[x]? with
    | some p => .ok (.array p)
    | none => .error .runtimeError

/-- One statement, by reference. -/
noncomputable def step (s : MRProg) : MStmt → Py Seen × MRProg
  | .base st => ((s.prog.step st).1, { s with prog := (s.prog.step st).2 })
  | .new a z c => match s.zarg a z with
    | .error e => (.error e, s)
    | .ok z => match World.newMicro a z c s.prog.world with
      | (.ok m, w) => (.ok (.model s.micros.length), ⟨{ s.prog with world := w }, s.micros ++ [m]⟩)
      | (.error e, _) => (.error e, s)
  | .model i => (((s.micros[i]?).map fun m => .ok (.model m.model)).getD (.error .runtimeError), s)
  | .modelExc i => (((s.micros[i]?).map fun m => (m.kind.exc.map fun j => .ok (.model j)).getD (.error .attributeError)).getD (.error .runtimeError), s)
  | .modelPsf i => s.seeR (s.onMicro i MState.modelPsf)
  | .PSF i => s.seeR (s.onMicro i MState.getPSF)
  | .OTF i => s.seeC (s.onMicro i MState.getOTF)
  | .set i a v => s.ran (s.onMicro i (MState.set a v))
  | .setWiener i w => s.ran (s.onMicro i (MState.setWiener w))
  | .setOrientations i o => s.ran (s.onMicro i (MState.setOrientations o))

/-- Nothing has been created yet. -/
def empty : MRProg := ⟨RProg.empty, []⟩

end MRProg

/-- The microscope as an object with its own models. -/
def VMicro.load (h : Heap) (m : VMicro) : Option Micro := do
  let o ← h[m.model]?
  let k ← match m.kind.exc with
    | none => some (m.kind.map fun _ => Inner.hanser o)
    | some j => (h[j]?).map fun e => m.kind.map fun _ => Inner.hanser e
  return ⟨m.oversample, m.psfParams, m.pixelSize, .hanser o, k, m.psf, m.otf⟩

/-- The models after a call. -/
def VMicro.models (h : Heap) (m : VMicro) (m' : Micro) : Heap :=
  let h := match m'.model with
    | .hanser o => h.set m.model o
    | .sheppard _ => h
  match m.kind.exc, m'.kind.exc with
  | some j, some (.hanser e) => h.set j e
  | _, _ => h

/-- The microscope after a call. -/
def VMicro.slot (m : VMicro) (m' : Micro) : VMicro :=
  ⟨m'.oversample, m'.psfParams, m'.pixelSize, m.model, m'.kind.map fun _ => m.kind.exc.getD 0, m'.psf, m'.otf⟩

/-- The outcome of a call on microscope `i` of `s`. -/
def MVProg.onMicro {α : Type} (i : ℕ) (f : PyM Micro α) (s : MVProg) : Py α × Heap × List VMicro :=
  match s.micros[i]? with
  | none => (.error .runtimeError, s.prog.objs, s.micros)
  | some m => match m.load s.prog.objs with
    | none => (.error .runtimeError, s.prog.objs, s.micros)
    | some x => ((f x).1, m.models s.prog.objs (f x).2, s.micros.set i (m.slot (f x).2))

/-- The constructors of Model/Microscope.lean. -/
def MClass.build (a : MicroArgs) : MClass → Py Micro
  | .widefield => Micro.newWidefield a
  | .apotome => Micro.newApotome a
  | .confocal wlExc pinhole => Micro.newConfocal a wlExc pinhole
  | .sim naExc wlExc wiener coherent dc dcSuppress orientations => Micro.newSIM a naExc wlExc wiener coherent dc dcSuppress orientations

/-- Keep a new microscope and its models, which get the next numbers. -/
def VMicro.keep (h : Heap) (m : Micro) : Option (VMicro × Heap) :=
  match m.model, m.kind.exc with
  | .hanser o, none => some (⟨m.oversample, m.psfParams, m.pixelSize, h.length, m.kind.map fun _ => 0, m.psf, m.otf⟩, h ++ [o])
  | .hanser o, some (.hanser e) => some (⟨m.oversample, m.psfParams, m.pixelSize, h.length, m.kind.map fun _ => h.length + 1, m.psf, m.otf⟩, h ++ [o, e])
  | _, _ => none

namespace MVProg

@[inherit_doc MRProg.seeR] def seeR (s : MVProg) (x : Py (Arr ℝ) × Heap × List VMicro) : Py Seen × MVProg := ((s.prog.seeR (x.1, x.2.1)).1, ⟨(s.prog.seeR (x.1, x.2.1)).2, x.2.2⟩)
@[inherit_doc MRProg.seeC] def seeC (s : MVProg) (x : Py (Arr ℂ) × Heap × List VMicro) : Py Seen × MVProg := ((s.prog.seeC (x.1, x.2.1)).1, ⟨(s.prog.seeC (x.1, x.2.1)).2, x.2.2⟩)
@[inherit_doc MRProg.ran] def ran (s : MVProg) (x : Py Unit × Heap × List VMicro) : Py Seen × MVProg := (x.1.map fun _ => .done, ⟨{ s.prog with objs := x.2.1 }, x.2.2⟩)

/-- The keyword `zrange`. -/
def zarg (s : MVProg) (a : MicroArgs) : Option ℕ → Py (Option ZArg)
  | none => .ok a.kw.zrange
  | some x => match s.prog.z[x]? with
    | some z => .ok (some (.seq z))
    | none => .error .runtimeError

/-- One statement, with values. -/
noncomputable def step (s : MVProg) : MStmt → Py Seen × MVProg
  | .base st => ((s.prog.step st).1, { s with prog := (s.prog.step st).2 })
  | .new a z c => match s.zarg a z with
    | .error e => (.error e, s)
    | .ok z => match c.build { a with model := .str "hanser", kw := { a.kw with zrange := z } } with
      | .error e => (.error e, s)
      | .ok m => match VMicro.keep s.prog.objs m with
        | some (m, h) => (.ok (.model s.micros.length), ⟨{ s.prog with objs := h }, s.micros ++ [m]⟩)
        | none => (.error .runtimeError, s)
  | .model i => (((s.micros[i]?).map fun m => .ok (.model m.model)).getD (.error .runtimeError), s)
  | .modelExc i => (((s.micros[i]?).map fun m => (m.kind.exc.map fun j => .ok (.model j)).getD (.error .attributeError)).getD (.error .runtimeError), s)
  | .modelPsf i => s.seeR (s.onMicro i Micro.modelPsf)
  | .PSF i => s.seeR (s.onMicro i Micro.getPSF)
  | .OTF i => s.seeC (s.onMicro i Micro.getOTF)
  | .set i a v => s.ran (s.onMicro i (Micro.set a v))
  | .setWiener i w => s.ran (s.onMicro i (Micro.setWiener w))
  | .setOrientations i o => s.ran (s.onMicro i (Micro.setOrientations o))

/-- Nothing has been created yet. -/
def empty : MVProg := ⟨VProg.empty, []⟩

end MVProg

/-- A write is harmless if no model, no microscope and no other variable refers to the array. -/
def MStmt.Private (s : MRProg) : MStmt → Prop
  | .base st => st.Private s.prog ∧ match st with
    | .writeC x _ _ => ∀ p, s.prog.c[x]? = some p → ∀ m ∈ s.micros, m.otf ≠ some p
    | .writeR x _ _ => ∀ p, s.prog.r[x]? = some p → ∀ m ∈ s.micros, m.psf ≠ some p
    | _ => True
  | _ => True

/-- Is it a write? -/
def MStmt.IsWrite : MStmt → Prop
  | .base st => st.IsWrite
  | _ => False

/-- Every write of the program is harmless at the time it happens. -/
def MUnshared : MRProg → List MStmt → Prop
  | _, [] => True
  | s, st :: rest => st.Private s ∧ MUnshared (s.step st).2 rest

end PyOTF
