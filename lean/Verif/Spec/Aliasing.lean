import Verif.Model.Memory

/-!
# Client programs: the same program with arrays by reference and with arrays as values

A client creates arrays and models, assigns attributes, reads outputs and writes into arrays it holds.  The program is run twice: once with references (what Python
does), once with values (every variable and every cache has its own copy).  The two differ only when an array is shared.
-/

namespace PyOTF

/-- One statement of a client.  `k` numbers the models, `x` the client's variables of the respective kind (complex arrays, real arrays, arrays of planes). -/
inductive Stmt
  /-- `z = np.array([...])`, `P = np.array([[...]])` -/
  | planes (z : List PyFloat)
  | pupil (P : Arr ℂ)
  /-- `m = HanserPSF(..., zrange=None / number / list)`, `m = HanserPSF(..., zrange=z)` -/
  | new (a : InitArgs) (z : Option ZArg)
  | newWith (a : InitArgs) (x : ℕ)
  /-- `m.attr = v`, `m.zrange = number / list`, `m.zrange = z` -/
  | set (k : ℕ) (a : Attr) (v : PyVal)
  | setZrange (k : ℕ) (z : ZArg)
  | setZrangeVar (k x : ℕ)
  /-- `m.apply_pupil(P)`, `m' = apply_aberration(m, mcoefs, pcoefs)` -/
  | applyPupil (k x : ℕ)
  | aberrate (k : ℕ) (mcoefs pcoefs : Option (List ℝ))
  /-- `z = m.zrange`, `a = m.PSFa`, ... -/
  | zrange (k : ℕ)
  | PSFa (k : ℕ)
  | OTFa (k : ℕ)
  | PSFi (k : ℕ)
  | OTFi (k : ℕ)
  /-- `a[idx] = v` -/
  | writeC (x : ℕ) (idx : List ℕ) (v : ℂ)
  | writeR (x : ℕ) (idx : List ℕ) (v : ℝ)
  | writeZ (x i : ℕ) (v : PyFloat)

/-- What a statement shows the client: the contents of the array read, the number of the new model. -/
inductive Seen
  | done
  | model (k : ℕ)
  | cplx (a : Arr ℂ)
  | real (a : Arr ℝ)
  | planes (z : List PyFloat)

/-- The client and the package, by reference: memory, models and variables. -/
structure RProg where
  world : World
  c : List ℕ
  r : List ℕ
  z : List ℕ

/-- The client and the package, with values. -/
structure VProg where
  objs : Heap
  c : List (Arr ℂ)
  r : List (Arr ℝ)
  z : List (List PyFloat)

namespace RProg

/-- Keep a returned reference in a new variable and look at the array. -/
def seeC (s : RProg) (x : Py ℕ × World) : Py Seen × RProg :=
  match x with
  | (.ok p, w) => ((match w.mem.cplx[p]? with | some a => .ok (.cplx a) | none => .error .runtimeError), { s with world := w, c := s.c ++ [p] })
  | (.error e, w) => (.error e, { s with world := w })
@[inherit_doc seeC] def seeR (s : RProg) (x : Py ℕ × World) : Py Seen × RProg :=
  match x with
  | (.ok p, w) => ((match w.mem.real[p]? with | some a => .ok (.real a) | none => .error .runtimeError), { s with world := w, r := s.r ++ [p] })
  | (.error e, w) => (.error e, { s with world := w })
@[inherit_doc seeC] def seeZ (s : RProg) (x : Py ℕ × World) : Py Seen × RProg :=
  match x with
  | (.ok p, w) => ((match w.mem.axis[p]? with | some a => .ok (.planes a) | none => .error .runtimeError), { s with world := w, z := s.z ++ [p] })
  | (.error e, w) => (.error e, { s with world := w })

/-- A statement without a result, or with a new model. -/
def ran {α : Type} (s : RProg) (f : α → Seen) (x : Py α × World) : Py Seen × RProg := (x.1.map f, { s with world := x.2 })

/-- A variable that does not exist. -/
def noVar (s : RProg) : Py Seen × RProg := (.error .runtimeError, s)

/-- One statement, by reference. -/
noncomputable def step (s : RProg) : Stmt → Py Seen × RProg
  | .planes z => s.seeZ (.ok s.world.mem.axis.length, { s.world with mem := { s.world.mem with axis := s.world.mem.axis ++ [z] } })
  | .pupil P => s.seeC (.ok s.world.mem.cplx.length, { s.world with mem := { s.world.mem with cplx := s.world.mem.cplx ++ [P] } })
  | .new a z => s.ran .model (World.new a (.ofOption z) s.world)
  | .newWith a x => match s.z[x]? with
    | some p => s.ran .model (World.new a (.array p) s.world)
    | none => s.noVar
  | .set k a v => s.ran (fun _ => .done) (World.onObj k (RState.set a v) s.world)
  | .setZrange k z => s.ran (fun _ => .done) (World.onObj k (RState.setZrange z) s.world)
  | .setZrangeVar k x => match s.z[x]? with
    | some p => s.ran (fun _ => .done) (World.onObj k (RState.assignZrange p) s.world)
    | none => s.noVar
  | .applyPupil k x => match s.c[x]? with
    | some p => s.ran (fun _ => .done) (World.applyPupilRef k p s.world)
    | none => s.noVar
  | .aberrate k m p => s.ran .model (World.applyAberration k m p s.world)
  | .zrange k => s.seeZ (World.onObj k (fun t => (.ok t.self.zref, t)) s.world)
  | .PSFa k => s.seeC (World.onObj k RState.getPSFa s.world)
  | .OTFa k => s.seeC (World.onObj k RState.getOTFa s.world)
  | .PSFi k => s.seeR (World.onObj k RState.getPSFi s.world)
  | .OTFi k => s.seeC (World.onObj k RState.getOTFi s.world)
  | .writeC x idx v => match s.c[x]? with
    | some p => s.ran (fun _ => .done) (World.writeC p idx v s.world)
    | none => s.noVar
  | .writeR x idx v => match s.r[x]? with
    | some p => s.ran (fun _ => .done) (World.writeR p idx v s.world)
    | none => s.noVar
  | .writeZ x i v => match s.z[x]? with
    | some p => s.ran (fun _ => .done) (World.writeZ p i v s.world)
    | none => s.noVar

/-- Nothing has been created yet. -/
def empty : RProg := ⟨⟨⟨[], [], []⟩, []⟩, [], [], []⟩

end RProg

namespace VProg

@[inherit_doc RProg.seeC] def seeC (s : VProg) (x : Py (Arr ℂ) × Heap) : Py Seen × VProg :=
  match x with
  | (.ok a, h) => (.ok (.cplx a), { s with objs := h, c := s.c ++ [a] })
  | (.error e, h) => (.error e, { s with objs := h })
@[inherit_doc RProg.seeC] def seeR (s : VProg) (x : Py (Arr ℝ) × Heap) : Py Seen × VProg :=
  match x with
  | (.ok a, h) => (.ok (.real a), { s with objs := h, r := s.r ++ [a] })
  | (.error e, h) => (.error e, { s with objs := h })
@[inherit_doc RProg.seeC] def seeZ (s : VProg) (x : Py (List PyFloat) × Heap) : Py Seen × VProg :=
  match x with
  | (.ok a, h) => (.ok (.planes a), { s with objs := h, z := s.z ++ [a] })
  | (.error e, h) => (.error e, { s with objs := h })
@[inherit_doc RProg.ran] def ran {α : Type} (s : VProg) (f : α → Seen) (x : Py α × Heap) : Py Seen × VProg := (x.1.map f, { s with objs := x.2 })
@[inherit_doc RProg.noVar] def noVar (s : VProg) : Py Seen × VProg := (.error .runtimeError, s)

/-- `HanserPSF(...)` in the heap of values. -/
def newObj (a : InitArgs) (z : Option ZArg) : PyM Heap ℕ := fun h =>
  match HObj.new a z with
  | .ok o => (.ok h.length, h ++ [o])
  | .error e => (.error e, h)

open Classical in
/-- One statement, with values: a write changes the client's own copy and nothing else. -/
noncomputable def step (s : VProg) : Stmt → Py Seen × VProg
  | .planes z => s.seeZ (.ok z, s.objs)
  | .pupil P => s.seeC (.ok P, s.objs)
  | .new a z => s.ran .model (newObj a z s.objs)
  | .newWith a x => match s.z[x]? with
    | some z => s.ran .model (newObj a (some (.seq z)) s.objs)
    | none => s.noVar
  | .set k a v => s.ran (fun _ => .done) (onRef k (setAttr .hanser a v) s.objs)
  | .setZrange k z => s.ran (fun _ => .done) (onRef k (PyOTF.setZrange z) s.objs)
  | .setZrangeVar k x => match s.z[x]? with
    | some z => s.ran (fun _ => .done) (onRef k (PyOTF.setZrange (.seq z)) s.objs)
    | none => s.noVar
  | .applyPupil k x => match s.c[x]? with
    | some P => s.ran (fun _ => .done) (onRef k (HObj.applyPupil P) s.objs)
    | none => s.noVar
  | .aberrate k m p => s.ran .model (PyOTF.applyAberration k m p s.objs)
  | .zrange k => s.seeZ (onRef k (PyOTF.self Params.zrange) s.objs)
  | .PSFa k => s.seeC (onRef k HObj.getPSFa s.objs)
  | .OTFa k => s.seeC (onRef k HObj.getOTFa s.objs)
  | .PSFi k => s.seeR (onRef k HObj.getPSFi s.objs)
  | .OTFi k => s.seeC (onRef k HObj.getOTFi s.objs)
  | .writeC x idx v => match s.c[x]? with
    | some a => if InShape idx a.shape then (.ok .done, { s with c := s.c.set x ⟨a.shape, Function.update a.get idx v⟩ }) else (.error .indexError, s)
    | none => s.noVar
  | .writeR x idx v => match s.r[x]? with
    | some a => if InShape idx a.shape then (.ok .done, { s with r := s.r.set x ⟨a.shape, Function.update a.get idx v⟩ }) else (.error .indexError, s)
    | none => s.noVar
  | .writeZ x i v => match s.z[x]? with
    | some a => if i < a.length then (.ok .done, { s with z := s.z.set x (a.set i v) }) else (.error .indexError, s)
    | none => s.noVar

/-- Nothing has been created yet. -/
def empty : VProg := ⟨[], [], [], []⟩

end VProg

/-- The complex arrays a model keeps. -/
def RObj.HoldsC (o : RObj) (r : ℕ) : Prop := o.obj.psfa = some r ∨ o.obj.otfa = some r ∨ o.obj.otfi = some r

/-- A write is harmless if no model and no other variable refers to the array. -/
def Stmt.Private (s : RProg) : Stmt → Prop
  | .writeC x _ _ => ∀ p, s.c[x]? = some p → (∀ o ∈ s.world.objs, ¬ o.HoldsC p) ∧ ∀ y, s.c[y]? = some p → y = x
  | .writeR x _ _ => ∀ p, s.r[x]? = some p → (∀ o ∈ s.world.objs, o.obj.psfi ≠ some p) ∧ ∀ y, s.r[y]? = some p → y = x
  | .writeZ x _ _ => ∀ p, s.z[x]? = some p → (∀ o ∈ s.world.objs, o.zref ≠ p) ∧ ∀ y, s.z[y]? = some p → y = x
  | _ => True

/-- Is it a write? -/
def Stmt.IsWrite : Stmt → Prop
  | .writeC .. | .writeR .. | .writeZ .. => True
  | _ => False

/-- Every write of the program is harmless at the time it happens. -/
def Unshared : RProg → List Stmt → Prop
  | _, [] => True
  | s, st :: rest => st.Private s ∧ Unshared (s.step st).2 rest

end PyOTF
