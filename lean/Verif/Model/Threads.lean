import Verif.Model.Hanser

/-!
# Threads that share `HanserPSF` objects

The package has no locks of its own, so a user who calls it from several threads gets whatever interleaving of
attribute accesses the interpreter chooses.  Here a thread is a program of *atomic* steps - one access to one entry
of an instance `__dict__` each - and a schedule is any sequence of thread numbers.  What a thread does between two
accesses touches only its own local variables.

`functools.cached_property` (used at otf.py:194-212, 429-437) takes a lock that belongs to the property, not to
the object, in Python 3.8-3.11, and none from 3.12 on: both versions are modelled (`locked`).  The lock is an
`RLock`; the programs here never acquire a lock they already hold (`C133_terminates` shows that they never get
stuck), so it is modelled as a plain lock.
-/

namespace PyOTF

/-! ## Programs and schedules (no line of `/repo`) -/

/-- A thread: finished with a result, or about to make one atomic access to the shared state `σ` (`st` is the
effect, `k` continues with what was there before), or about to acquire or release a lock. -/
inductive Prog (σ L α : Type) : Type
  | ret (a : α)
  | act (st : σ → σ) (k : σ → Prog σ L α)
  | lock (l : L) (k : Prog σ L α)
  | unlock (l : L) (k : Prog σ L α)

namespace Prog

variable {σ L α β : Type}

/-- Sequential composition. -/
def bind (p : Prog σ L α) (f : α → Prog σ L β) : Prog σ L β :=
  match p with
  | ret a => f a
  | act st k => act st fun s => (k s).bind f
  | lock l k => lock l (k.bind f)
  | unlock l k => unlock l (k.bind f)

/-- A thread that runs alone, from start to end. -/
def alone : Prog σ L α → σ → α × σ
  | ret a, s => (a, s)
  | act st k, s => (k s).alone (st s)
  | lock _ k, s => k.alone s
  | unlock _ k, s => k.alone s

end Prog

/-- A running interpreter: the shared state, who holds which lock, and what is left of every thread. -/
structure Conf (σ L α : Type) where
  heap : σ
  owner : L → Option ℕ
  thread : List (Prog σ L α)

namespace Conf

variable {σ L α : Type} [DecidableEq L]

/-- The interpreter lets thread `i` make one step; a thread that is finished or waits for a lock stays put. -/
def step (c : Conf σ L α) (i : ℕ) : Conf σ L α :=
  match c.thread[i]? with
  | some (.act st k) => { c with heap := st c.heap, thread := c.thread.set i (k c.heap) }
  | some (.lock l k) =>
    if c.owner l = none then
      { c with owner := Function.update c.owner l (some i), thread := c.thread.set i k }
    else c
  | some (.unlock l k) => { c with owner := Function.update c.owner l none, thread := c.thread.set i k }
  | _ => c

/-- Can thread `i` make a step? -/
def Enabled (c : Conf σ L α) (i : ℕ) : Prop :=
  match c.thread[i]? with
  | some (.act _ _) => True
  | some (.lock l _) => c.owner l = none
  | some (.unlock _ _) => True
  | _ => False

/-- Run a schedule. -/
def run (c : Conf σ L α) (sched : List ℕ) : Conf σ L α := sched.foldl step c

/-- The start: nobody holds a lock. -/
def start (heap : σ) (threads : List (Prog σ L α)) : Conf σ L α := ⟨heap, fun _ => none, threads⟩

end Conf

/-! ## The shared state -/

/-- The properties that are cached; each has its own lock. -/
inductive Slot
  | psfa | otfa | psfi | otfi
  deriving DecidableEq

/-- What determines the arrays `_k`, `_kr` and `_phi` (otf.py:331-333): the size and the pixel size they were
computed from. -/
structure Grid where
  size : ℕ
  res : PyFloat
  deriving DecidableEq

/-- The entries of the instance `__dict__` that `_gen_kr` writes (otf.py:329-338); `none` = not there.  An array is
represented by the values it was computed from. -/
structure Scratch where
  k : Option Grid := none
  kr : Option Grid := none
  phi : Option Grid := none
  kmag : Option PyFloat := none
  kz : Option (PyFloat × Grid) := none

/-- The `__dict__` of one `HanserPSF`. -/
structure HCell where
  obj : HObj
  scr : Scratch := {}

/-- Several objects, by number. -/
abbrev Dicts := ℕ → HCell

/-- A program that acts on objects and may raise. -/
abbrev TM (α : Type) := Prog Dicts Slot (Py α)

namespace TM

variable {α β : Type}

/-- Go on unless an exception was raised. -/
def bind (p : TM α) (f : α → TM β) : TM β :=
  Prog.bind p fun
    | .ok a => f a
    | .error e => .ret (.error e)

/-- Read an entry of object `i`. -/
def rd (i : ℕ) (f : HCell → Py α) : TM α := .act id fun s => .ret (f (s i))

/-- Write an entry of object `i`. -/
def wr (i : ℕ) (f : HCell → HCell) : TM Unit :=
  .act (fun s => Function.update s i (f (s i))) fun _ => .ret (.ok ())

/-- A local computation. -/
def loc (x : Py α) : TM α := .ret x

end TM

open TM

/-! ## `HanserPSF`, access by access -/

/-- `_attribute_changed()` (otf.py:114-124): four separate deletions; deleting what is not there raises an
`AttributeError` that is caught. -/
def attributeChangedT (i : ℕ) : TM Unit :=
  (wr i fun c => { c with obj := { c.obj with psfa := none } }).bind fun _ =>
  (wr i fun c => { c with obj := { c.obj with otfa := none } }).bind fun _ =>
  (wr i fun c => { c with obj := { c.obj with psfi := none } }).bind fun _ =>
  wr i fun c => { c with obj := { c.obj with otfi := none } }

/-- `fftfreq(self.size, self.res)` (otf.py:331) divides by `size * res`. -/
def gridOf (size : PyVal) (res : PyFloat) : Py Grid := do
  let _ ← PyFloat.div (.fin 1) (PyFloat.mul (.fin (pyNat size : ℚ)) res)
  return ⟨pyNat size, res⟩

/-- `_gen_kr()` (otf.py:329-338). -/
def genKrT (i : ℕ) : TM Unit :=
  (rd i fun c => attr c.obj.params.size).bind fun size =>
  (rd i fun c => attr c.obj.params.res >>= pyNum).bind fun res =>
  (loc (gridOf size res)).bind fun g =>
  (wr i fun c => { c with scr := { c.scr with k := some g } }).bind fun _ =>
  (wr i fun c => { c with scr := { c.scr with kr := some g } }).bind fun _ =>
  (wr i fun c => { c with scr := { c.scr with phi := some g } }).bind fun _ =>
  (rd i fun c => attr c.obj.params.ni >>= pyNum).bind fun ni =>
  (rd i fun c => attr c.obj.params.wl >>= pyNum).bind fun wl =>
  (loc (PyFloat.div ni wl)).bind fun kmag =>
  (wr i fun c => { c with scr := { c.scr with kmag := some kmag } }).bind fun _ =>
  (rd i fun c => attr c.scr.kmag).bind fun kmag' =>
  (rd i fun c => attr c.scr.kr).bind fun kr =>
  wr i fun c => { c with scr := { c.scr with kz := some (kmag', kr) } }

/-- What the rest of `_gen_psf` reads. -/
structure Reads where
  /-- `_kr` and `na / wl` in `_gen_pupil` (otf.py:342-346); not read if a pupil is given -/
  pupil : Option (Grid × PyFloat)
  kr : Grid
  phi : Grid
  kmag : PyFloat
  kz : PyFloat × Grid
  z : List PyFloat
  /-- every read of `self.condition` (otf.py:391-396) -/
  conds : List Condition
  /-- every read of `self.vec_corr` (otf.py:401-410) -/
  vecs : List VecCorr

/-- All reads of the coordinates come from one computation of them, and repeated reads agree. -/
def Reads.Consistent (r : Reads) : Prop :=
  (∀ q, r.pupil = some q → q.1 = r.kr) ∧ r.phi = r.kr ∧ r.kz = (r.kmag, r.kr) ∧
  (∀ c ∈ r.conds, some c = r.conds.head?) ∧ (∀ v ∈ r.vecs, some v = r.vecs.head?)

/-- The reads of `self.condition` (otf.py:391-398). -/
def condsT (i : ℕ) : TM (List Condition) :=
  let c := rd i fun c => attr c.obj.params.condition
  c.bind fun c1 =>
  if c1 = .none then loc (.ok [c1]) else
  c.bind fun c2 =>
  if c2 = .sine then loc (.ok [c1, c2]) else
  c.bind fun c3 =>
  if c3 = .herschel then loc (.ok [c1, c2, c3]) else loc (.error .runtimeError)

/-- `self.vec_corr == a or self.vec_corr == "total"` (otf.py:403, 406, 409): one read or two. -/
def vecTestT (i : ℕ) (a : VecCorr) : TM (List VecCorr) :=
  let v := rd i fun c => attr c.obj.params.vecCorr
  v.bind fun v1 =>
  if v1 = a then loc (.ok [v1]) else
  v.bind fun v2 =>
  loc (.ok [v1, v2])

/-- The reads of `self.vec_corr` (otf.py:401-415). -/
def vecsT (i : ℕ) : TM (List VecCorr) :=
  (rd i fun c => attr c.obj.params.vecCorr).bind fun v0 =>
  if v0 = .none then loc (.ok [v0]) else
  (vecTestT i .z).bind fun lz =>
  (vecTestT i .y).bind fun ly =>
  (vecTestT i .x).bind fun lx =>
  loc (.ok (v0 :: (lz ++ ly ++ lx)))

/-- `_gen_pupil()` (otf.py:340-349), or the check of the given pupil (otf.py:375). -/
def pupilT (i : ℕ) (base : Option (Arr ℂ)) : TM (Option (Grid × PyFloat)) :=
  match base with
  | none =>
    (rd i fun c => attr c.scr.kr).bind fun kr =>
    (rd i fun c => attr c.obj.params.na >>= pyNum).bind fun na =>
    (rd i fun c => attr c.obj.params.wl >>= pyNum).bind fun wl =>
    (loc (PyFloat.div na wl)).bind fun limit =>
    loc (.ok (some (kr, limit)))
  | some b => if b.shape.length = 2 then loc (.ok none) else loc (.error .assertionError)

/-- The reads of `_gen_psf` after `_gen_kr` (otf.py:371-415). -/
def readsT (i : ℕ) (base : Option (Arr ℂ)) : TM Reads :=
  (pupilT i base).bind fun pupil =>
  (rd i fun c => attr c.scr.kr).bind fun kr =>
  (rd i fun c => attr c.scr.phi).bind fun phi =>
  (rd i fun c => attr c.scr.kmag).bind fun kmag =>
  (rd i fun c => attr c.scr.kz).bind fun kz =>
  (rd i fun c => attr c.obj.params.zrange).bind fun z =>
  (condsT i).bind fun conds =>
  (vecsT i).bind fun vecs =>
  loc (.ok ⟨pupil, kr, phi, kmag, kz, z, conds, vecs⟩)

/-- What `_gen_psf` computes from coordinates, `zrange`, `condition` and `vec_corr` (otf.py:371-422): the part of
`hanserGenPsf` after the scalar arithmetic. -/
noncomputable def hanserTail (q : Params) (base : Option (Arr ℂ)) (size : ℕ) (res kmag limit : PyFloat) : Py (Arr ℂ) :=
  match base with
  | none => do
    let nz := (← attr q.zrange).length
    fftCheck [2, 3] [1, nz, size, size]
    let h ← hanserNum q size res kmag limit
    return fftshift (some [2, 3]) (ifftn (some [2, 3]) (hanserPupils h h.idealPupil size size))
  | some base =>
    match base.shape with
    | [a, b] => do
      let A ← bdim a size
      let B ← bdim b size
      fftCheck [2, 3] [1, 1, A, B]
      let h ← hanserNum q size res kmag limit
      return fftshift (some [2, 3]) (ifftn (some [2, 3]) (hanserPupils h base A B))
    | _ => .error .assertionError

open Classical in
/-- The result of `_gen_psf` from what it read.  When the reads do not fit together - which needs a write by another
thread in between - the result is left open: it is `mix` of what was read, and every theorem is about every `mix`. -/
noncomputable def finishPsf (mix : Option (Arr ℂ) → Reads → Py (Arr ℂ)) (base : Option (Arr ℂ)) (r : Reads) :
    Py (Arr ℂ) :=
  if r.Consistent then
    hanserTail { vecCorr := r.vecs.head?, condition := r.conds.head?, zrange := some r.z } base r.kr.size r.kr.res
      r.kmag ((r.pupil.map Prod.snd).getD (.fin 0))
  else mix base r

/-- What can vary: which `cached_property`, and what a computation on mixed reads gives. -/
structure Impl where
  /-- Python 3.8-3.11: `cached_property` locks -/
  locked : Bool
  mix : Option (Arr ℂ) → Reads → Py (Arr ℂ)

/-- `_gen_psf(pupil_base)` (otf.py:356-422). -/
noncomputable def genPsfT (I : Impl) (i : ℕ) (base : Option (Arr ℂ)) : TM (Arr ℂ) :=
  (attributeChangedT i).bind fun _ =>
  (genKrT i).bind fun _ =>
  (readsT i base).bind fun r =>
  loc (finishPsf I.mix base r)

/-- Reading a `cached_property`: the attribute lookup finds an entry of the `__dict__` or calls
`cached_property.__get__`, which looks again, (with a lock: acquires it, looks once more,) calls the function and
stores what it returned.  The lock is released when the function raises, too. -/
def cachedT {α : Type} (I : Impl) (l : Slot) (i : ℕ) (get : HObj → Option α) (put : α → HObj → HObj) (func : TM α) :
    TM α :=
  let look (k : TM α) : TM α := .act id fun s =>
    match get (s i).obj with
    | some a => .ret (.ok a)
    | none => k
  let fill : TM α := func.bind fun a => (wr i fun c => { c with obj := put a c.obj }).bind fun _ => loc (.ok a)
  look <| look <|
    if I.locked then .lock l (Prog.bind (look fill) fun r => .unlock l (.ret r)) else fill

/-- `PSFa` (otf.py:434-437). -/
noncomputable def psfaT (I : Impl) (i : ℕ) : TM (Arr ℂ) :=
  cachedT I .psfa i (·.psfa) (fun a o => { o with psfa := some a }) (genPsfT I i none)

/-- `OTFa` (otf.py:429-432). -/
noncomputable def otfaT (I : Impl) (i : ℕ) : TM (Arr ℂ) :=
  cachedT I .otfa i (·.otfa) (fun a o => { o with otfa := some a }) ((psfaT I i).bind fun a => loc (hanserOTFa a))

/-- `PSFi` (otf.py:204-207). -/
noncomputable def psfiT (I : Impl) (i : ℕ) : TM (Arr ℝ) :=
  cachedT I .psfi i (·.psfi) (fun a o => { o with psfi := some a }) ((psfaT I i).bind fun a => loc (.ok (psfiOf a)))

/-- `OTFi` (otf.py:209-212). -/
noncomputable def otfiT (I : Impl) (i : ℕ) : TM (Arr ℂ) :=
  cachedT I .otfi i (·.otfi) (fun a o => { o with otfi := some a }) ((psfiT I i).bind fun a => loc (otfiOf a))

/-- `apply_pupil(pupil)` (otf.py:424-427). -/
noncomputable def applyPupilT (I : Impl) (i : ℕ) (pupil : Arr ℂ) : TM Unit :=
  (attributeChangedT i).bind fun _ =>
  (genPsfT I i (some pupil)).bind fun a =>
  wr i fun c => { c with obj := { c.obj with psfa := some a } }

/-- Assignment to `size` (otf.py:50, utils.py:205-213): the value is checked and compared with the stored one, then
stored, then the caches are deleted one by one. -/
def setSizeT (i : ℕ) (v : PyVal) : TM Unit :=
  (rd i fun c => numericSet PyVal.isInt c.obj.params.size v).bind fun
  | none => loc (.ok ())
  | some w =>
    (wr i fun c => { c with obj := { c.obj with params := { c.obj.params with size := some w } } }).bind fun _ =>
    attributeChangedT i

end PyOTF
