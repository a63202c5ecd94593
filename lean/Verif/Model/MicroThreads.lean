import Verif.Model.Microscope
import Verif.Model.SheppardThreads

/-!
# Threads that share microscopes

A microscope refers to its PSF models (microscope.py:78, 201): several microscopes may refer to the same model, and a
thread may use a model directly.  The programs of `Threads.lean` and `SheppardThreads.lean` run unchanged on the models;
here are the microscopes.  `PSF` and `OTF` are `functools.cached_property` (microscope.py:109, 126), so in Python
3.8-3.11 each has one lock for all microscopes, and so has each of `PSFi`, `OTFi` of `BasePSF` (otf.py:204-212) for all
models of both classes.
-/

namespace PyOTF

/-! ## Programs on a part of the memory (no line of `/repo`) -/

/-- The same program on a part of a larger memory, with renamed locks. -/
def Prog.lift {σ τ L M α : Type} (get : τ → σ) (put : σ → τ → τ) (name : L → M) : Prog σ L α → Prog τ M α
  | .ret a => .ret a
  | .act st k => .act (fun t => put (st (get t)) t) fun t => (k (get t)).lift get put name
  | .lock l k => .lock (name l) (k.lift get put name)
  | .unlock l k => .unlock (name l) (k.lift get put name)

/-! ## The shared state -/

/-- Which PSF model: the number of a `HanserPSF` or of a `SheppardPSF`. -/
inductive MRef
  | hanser (i : ℕ)
  | sheppard (i : ℕ)

/-- The same kind of microscope with other models. -/
def Kind.swap {I J : Type} (f : I → J) : Kind I → Kind J
  | .widefield => .widefield
  | .apotome => .apotome
  | .confocal e ph w => .confocal (f e) ph w
  | .sim n l c d s o w => .sim n l c d s o w

/-- The attributes of a microscope other than its caches. -/
structure MConfig where
  oversample : PyVal
  psfParams : PsfParams
  pixelSize : PyVal
  model : MRef
  kind : Kind MRef

/-- The `__dict__` of one microscope. -/
structure MCell where
  cfg : MConfig
  psf : Option (Arr ℝ) := none
  otf : Option (Arr ℂ) := none

/-- PSF models and microscopes, by number. -/
structure Lab where
  hans : Dicts
  shep : SDicts
  mics : ℕ → MCell

/-- The object behind a reference. -/
def Lab.inner (w : Lab) : MRef → Inner
  | .hanser i => .hanser (w.hans i).obj
  | .sheppard i => .sheppard (w.shep i).obj

/-- Microscope `i` as a value: with its models instead of references to them. -/
def Lab.micro (w : Lab) (i : ℕ) : Micro :=
  { oversample := (w.mics i).cfg.oversample, psfParams := (w.mics i).cfg.psfParams, pixelSize := (w.mics i).cfg.pixelSize
    model := w.inner (w.mics i).cfg.model, kind := (w.mics i).cfg.kind.swap w.inner
    psf := (w.mics i).psf, otf := (w.mics i).otf }

/-- The locks: one for each cached property that is written down in the package. -/
inductive LabLock
  | hanserPSFa | hanserOTFa | sheppardPSFa | sheppardOTFa | PSFi | OTFi | microPSF | microOTF
  deriving DecidableEq

/-- The lock of a cached property of a `HanserPSF` (otf.py:204-212, 429-437). -/
def hanserLock : Slot → LabLock
  | .psfa => .hanserPSFa
  | .otfa => .hanserOTFa
  | .psfi => .PSFi
  | .otfi => .OTFi

/-- The lock of a cached property of a `SheppardPSF` (otf.py:204-212, 578-586). -/
def sheppardLock : Slot → LabLock
  | .psfa => .sheppardPSFa
  | .otfa => .sheppardOTFa
  | .psfi => .PSFi
  | .otfi => .OTFi

/-- A program that acts on microscopes and their models and may raise. -/
abbrev LTM (α : Type) := Prog Lab LabLock (Py α)

namespace LTM

variable {α β : Type}

/-- Go on unless an exception was raised. -/
def bind (p : LTM α) (f : α → LTM β) : LTM β :=
  Prog.bind p fun
    | .ok a => f a
    | .error e => .ret (.error e)

/-- Read an attribute of microscope `i`. -/
def rd (i : ℕ) (f : MConfig → Py α) : LTM α := .act id fun w => .ret (f (w.mics i).cfg)

/-- Write an entry of microscope `i`. -/
def wr (i : ℕ) (f : MCell → MCell) : LTM Unit :=
  .act (fun w => { w with mics := Function.update w.mics i (f (w.mics i)) }) fun _ => .ret (.ok ())

/-- Read an attribute of a PSF model. -/
def rdModel (r : MRef) (f : Params → Py α) : LTM α := .act id fun w => .ret (f (w.inner r).params)

/-- A local computation. -/
def loc (x : Py α) : LTM α := .ret x

/-- A program of a `HanserPSF`. -/
def hanser (p : TM α) : LTM α := p.lift Lab.hans (fun h w => { w with hans := h }) hanserLock

/-- A program of a `SheppardPSF`. -/
def sheppard (p : STM α) : LTM α := p.lift Lab.shep (fun s w => { w with shep := s }) sheppardLock

end LTM

open LTM

/-- What can vary: which `cached_property`, and what computations on mixed reads give. -/
structure LabImpl where
  /-- Python 3.8-3.11: `cached_property` locks -/
  locked : Bool
  mix : Option (Arr ℂ) → Reads → Py (Arr ℂ)
  mixSel : SSel → Py Unit
  mixOtf : SSel × SSel × SSel → List Condition → List VecCorr → List ℕ → List SSrc → Py (Arr (Option ℂ))

/-- For the two PSF models. -/
def LabImpl.h (I : LabImpl) : Impl := ⟨I.locked, I.mix⟩
@[inherit_doc LabImpl.h] def LabImpl.s (I : LabImpl) : SImpl := ⟨I.locked, I.mixSel, I.mixOtf⟩

/-! ## Microscopes, access by access -/

/-- `PSFi` of a model (otf.py:204-207). -/
noncomputable def modelPSFiT (I : LabImpl) : MRef → LTM (Arr ℝ)
  | .hanser j => hanser (psfiT I.h j)
  | .sheppard j => (sheppard (sPsfiT I.s j)).bind fun a => loc (nanFree a)

/-- `OTFi` of a model (otf.py:209-212). -/
noncomputable def modelOTFiT (I : LabImpl) : MRef → LTM (Arr ℂ)
  | .hanser j => hanser (otfiT I.h j)
  | .sheppard j => (sheppard (sOtfiT I.s j)).bind fun a => loc (nanFree a)

/-- `self.model` and then something of it. -/
def withModel {α : Type} (i : ℕ) (f : MRef → LTM α) : LTM α := (rd i fun c => .ok c.model).bind f

/-- The radius of the pinhole (microscope.py:215-218): `self.model` is read each time.  `1.22` is exactly 61/50. -/
def pinholeT (i : ℕ) : LTM PyFloat :=
  (withModel i fun r => rdModel r fun p => attr p.wl >>= pyNum).bind fun wl =>
  (withModel i fun r => rdModel r fun p => attr p.na >>= pyNum).bind fun na =>
  (withModel i fun r => rdModel r fun p => attr p.res >>= pyNum).bind fun res =>
  (loc (PyFloat.div (PyFloat.mul (.fin (61 / 50)) wl) na >>= fun x => PyFloat.div x res)).bind fun airy =>
  (rd i fun c => match c.kind with | .confocal _ ph _ => pyNum ph | _ => .error .attributeError).bind fun ph =>
  loc (PyFloat.div (PyFloat.mul ph airy) (.fin 2))

/-- An attribute of a structured illumination microscope. -/
def rdSim {α : Type} (i : ℕ) (f : (naExc wlExc coherent dc dcSuppress : PyVal) → List ℝ → (wiener : PyVal) → α) : LTM α :=
  rd i fun c => match c.kind with
    | .sim n l co d s o w => .ok (f n l co d s o w)
    | _ => .error .attributeError

/-- The filtered PSF (microscope.py:340-357).  Simplified: `wiener` is read once. -/
noncomputable def simFilteredT (I : LabImpl) (i : ℕ) : LTM (Arr ℝ) :=
  (rdSim i fun _ _ _ _ _ _ w => w).bind fun wiener =>
  if wiener = .none then withModel i (modelPSFiT I)
  else
    (loc (pyNum wiener)).bind fun w =>
    if PyFloat.ge w (.fin 0) then
      (withModel i (modelOTFiT I)).bind fun otfi =>
      match w with
      | .fin q => loc (wienerPsf q otfi)
      | _ => loc (.error .nan)
    else loc (.error .valueError)

/-- `model_psf` of the four classes (microscope.py:104-107, 211-226, 241-261, 314-400).  Simplified: `psf_params`, which
nothing writes after construction, and the flags and orientations of a structured illumination microscope are read
once each. -/
noncomputable def microModelPsfT (I : LabImpl) (i : ℕ) : LTM (Arr ℝ) :=
  (rd i fun c => .ok c.kind).bind fun
  | .widefield => withModel i (modelPSFiT I)
  | .apotome =>
    (withModel i (modelPSFiT I)).bind fun psfi =>
    (rd i fun c => .ok c.psfParams).bind fun p =>
    loc (apotomePsf psfi (abbeLimit p.wl p.na p.size p.res))
  | .confocal _ _ _ =>
    (pinholeT i).bind fun r =>
    (withModel i (modelPSFiT I)).bind fun psfi =>
    (loc (pinholed r psfi)).bind fun det =>
    (rd i fun c => match c.kind with | .confocal e _ _ => .ok e | _ => .error .attributeError).bind fun e =>
    (modelPSFiT I e).bind fun exc =>
    loc (det.mulB exc)
  | .sim _ _ _ _ _ _ _ =>
    (rd i fun c => .ok c.psfParams).bind fun p =>
    (rdSim i fun _ l _ _ _ _ _ => l).bind fun wlExc =>
    (rdSim i fun n _ _ _ _ _ _ => n).bind fun naExc =>
    (loc (Micro.simNum p naExc wlExc)).bind fun s =>
    (simFilteredT I i).bind fun psf =>
    (rdSim i fun _ _ _ d _ _ _ => d).bind fun dc =>
    (rdSim i fun _ _ c _ _ _ _ => c).bind fun coherent =>
    (rdSim i fun _ _ _ _ _ o _ => o).bind fun orientations =>
    (rdSim i fun _ _ _ _ s _ _ => s).bind fun dcSuppress =>
    loc (simPsf s (decide (coherent = .bool true)) (decide (dc = .bool true)) (decide (dcSuppress = .bool true)) orientations psf)

/-- Reading a `cached_property` of a microscope; see `cachedT`. -/
def microCachedT {α : Type} (I : LabImpl) (l : LabLock) (i : ℕ) (get : MCell → Option α) (put : α → MCell → MCell)
    (func : LTM α) : LTM α :=
  let look (k : LTM α) : LTM α := .act id fun w =>
    match get (w.mics i) with
    | some a => .ret (.ok a)
    | none => k
  let fill : LTM α := func.bind fun a => (wr i (put a)).bind fun _ => loc (.ok a)
  look <| look <|
    if I.locked then .lock l (Prog.bind (look fill) fun r => .unlock l (.ret r)) else fill

/-- `PSF` (microscope.py:109-124).  Simplified: `oversample_factor` is read once. -/
noncomputable def microPSFT (I : LabImpl) (i : ℕ) : LTM (Arr ℝ) :=
  microCachedT I .microPSF i (·.psf) (fun a c => { c with psf := some a })
    ((microModelPsfT I i).bind fun a =>
      (rd i fun c => .ok c.oversample).bind fun o =>
      (rd i fun c => .ok c.psfParams).bind fun p =>
      loc (microPsf (pyInt o) (pyInt p.size).toNat a))

/-- `OTF` (microscope.py:126-129). -/
noncomputable def microOTFT (I : LabImpl) (i : ℕ) : LTM (Arr ℂ) :=
  microCachedT I .microOTF i (·.otf) (fun a c => { c with otf := some a })
    ((microPSFT I i).bind fun a => loc (.ok (easyFft none (a.map fun (v : ℝ) => (v : ℂ)))))

/-- Assigning a numeric property (utils.py:205-213, microscope.py:91-102): the value is checked and compared with the
stored one, then stored, then the two caches are deleted one after the other. -/
def microSetT (i : ℕ) (a : Micro.MAttr) (v : PyVal) : LTM Unit :=
  (rd i fun c => match Micro.readAttr a c.oversample c.kind with
    | none => .ok none
    | some old => numericSet (Micro.vartype a) old v).bind fun
  | none => loc (.ok ())
  | some x =>
    (wr i fun c => { c with cfg := { c.cfg with
      oversample := (Micro.writeAttr a x c.cfg.oversample c.cfg.kind).1
      kind := (Micro.writeAttr a x c.cfg.oversample c.cfg.kind).2 } }).bind fun _ =>
    (wr i fun c => { c with psf := none }).bind fun _ =>
    wr i fun c => { c with otf := none }

end PyOTF
