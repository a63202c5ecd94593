import Verif.Model.Sheppard
import Verif.Model.Threads

/-!
# `SheppardPSF`, attribute access by attribute access

Threads, locks and schedules are those of `Model/Threads.lean`.  Besides the caches a `SheppardPSF` keeps the
attributes `kmag`, `dk`, `dkz`, `valid_points`, `kzz`, `kyy`, `kxx` ("save output for user", otf.py:503); here they
are part of the state.
-/

namespace PyOTF

/-- What determines `valid_points` (otf.py:494-526): the two frequency axes, `kmag`, `na / wl` and `dual`. -/
structure SSrc where
  xy : Grid
  z : Grid
  kmag : PyFloat
  limit : PyFloat
  dual : Bool
  deriving DecidableEq

/-- What determines `kzz`, `kyy` and `kxx` (otf.py:527): the axes of the grid that is indexed and the mask it is
indexed with. -/
structure SSel where
  xy : Grid
  z : Grid
  mask : SSrc
  deriving DecidableEq

/-- The attributes that `_gen_kr` of a `SheppardPSF` writes (otf.py:500, 504, 526-527); `none` = not there.  An array
is represented by the values it was computed from; `dk` and `dkz` by the axis whose spacing they are. -/
structure SScratch where
  kmag : Option PyFloat := none
  dk : Option Grid := none
  dkz : Option Grid := none
  valid : Option SSrc := none
  kzz : Option SSel := none
  kyy : Option SSel := none
  kxx : Option SSel := none

/-! What a user sees in them. -/

/-- `dk` or `dkz` (otf.py:502). -/
noncomputable def Grid.spacing (g : Grid) : Option ℝ :=
  match g.res with
  | .fin q => some (fftfreq g.size q 1 - fftfreq g.size q 0)
  | _ => none

/-- The `__dict__` of one `SheppardPSF`. -/
structure SCell where
  obj : SObj
  scr : SScratch := {}

/-- Several objects, by number. -/
abbrev SDicts := ℕ → SCell

/-- A program that acts on `SheppardPSF` objects and may raise. -/
abbrev STM (α : Type) := Prog SDicts Slot (Py α)

namespace STM

variable {α β : Type}

/-- Go on unless an exception was raised. -/
def bind (p : STM α) (f : α → STM β) : STM β :=
  Prog.bind p fun
    | .ok a => f a
    | .error e => .ret (.error e)

/-- Read an entry of object `i`. -/
def rd (i : ℕ) (f : SCell → Py α) : STM α := .act id fun s => .ret (f (s i))

/-- Write an entry of object `i`. -/
def wr (i : ℕ) (f : SCell → SCell) : STM Unit :=
  .act (fun s => Function.update s i (f (s i))) fun _ => .ret (.ok ())

/-- A local computation. -/
def loc (x : Py α) : STM α := .ret x

end STM

open STM

/-- `_attribute_changed()` (otf.py:114-124): four separate deletions. -/
def sAttributeChangedT (i : ℕ) : STM Unit :=
  (wr i fun c => { c with obj := { c.obj with psfa := none } }).bind fun _ =>
  (wr i fun c => { c with obj := { c.obj with otfa := none } }).bind fun _ =>
  (wr i fun c => { c with obj := { c.obj with psfi := none } }).bind fun _ =>
  wr i fun c => { c with obj := { c.obj with otfi := none } }

/-- `k[1]` (otf.py:502) exists if there are at least two frequencies. -/
def secondOf (g : Grid) : Py Unit := if g.size < 2 then .error .indexError else .ok ()

/-- The numbers of a computation. -/
noncomputable def SSrc.num (q : SSrc) (v : VecCorr) (c : Condition) : Py SheppardNum := do
  let f ← finReals [q.xy.res, q.z.res, q.kmag, q.limit]
  return ⟨q.xy.size, q.z.size, f.getD 0 0, f.getD 1 0, f.getD 2 0, f.getD 3 0, v, c, q.dual⟩

/-- `valid_points[iz, iy, ix]` (otf.py:526). -/
def SSrc.valid (q : SSrc) (iz iy ix : ℕ) : Prop := ∃ h, q.num .none .none = .ok h ∧ h.valid iz iy ix

open Classical in
/-- `k[self.valid_points]` (otf.py:527): the coordinates at the points of the mask, in the order of the array.  `axis` is
0 for `kzz`, 1 for `kyy`, 2 for `kxx`. -/
noncomputable def SSel.values (s : SSel) (axis : ℕ) : List ℝ :=
  (List.range s.z.size).flatMap fun iz => (List.range s.xy.size).flatMap fun iy => (List.range s.xy.size).filterMap fun ix =>
    if s.mask.valid iz iy ix then
      let g := if axis = 0 then s.z else s.xy
      match g.res with
      | .fin q => some (fftfreq g.size q ([iz, iy, ix].getD axis 0))
      | _ => none
    else none

open Classical in
/-- `kz_min` and the assertion (otf.py:506-508); `dual` does not matter. -/
noncomputable def shellCheck (xy z : Grid) (kmag limit : PyFloat) : Py Unit := do
  let h ← (⟨xy, z, kmag, limit, false⟩ : SSrc).num .none .none
  if h.kmag ^ 2 < h.limit ^ 2 then throw .assertionError
  return ()

/-- What can vary: which `cached_property`, and what computations on reads that do not fit together give.  The latter
needs a write by another thread in between; every theorem is about every `SImpl`. -/
structure SImpl where
  /-- Python 3.8-3.11: `cached_property` locks -/
  locked : Bool
  /-- boolean indexing with a mask that belongs to other axes -/
  mixSel : SSel → Py Unit
  /-- the rest of `_gen_otf` on mixed reads -/
  mixOtf : SSel × SSel × SSel → List Condition → List VecCorr → List ℕ → List SSrc → Py (Arr (Option ℂ))

/-- `k[self.valid_points]` for one of the three coordinate arrays (otf.py:527). -/
def selectT (I : SImpl) (i : ℕ) (xy z : Grid) : STM SSel :=
  (rd i fun c => attr c.scr.valid).bind fun mask =>
  if mask.xy = xy ∧ mask.z = z then loc (.ok ⟨xy, z, mask⟩)
  else (loc (I.mixSel ⟨xy, z, mask⟩)).bind fun _ => loc (.ok ⟨xy, z, mask⟩)

/-- `_gen_kr()` (otf.py:491-527). -/
noncomputable def sGenKrT (I : SImpl) (i : ℕ) : STM Unit :=
  (rd i fun c => attr c.obj.params.size).bind fun size =>
  (rd i fun c => attr c.obj.params.res >>= pyNum).bind fun res =>
  (loc (gridOf size res)).bind fun xy =>
  (rd i fun c => attr c.obj.params.zsize).bind fun zsize =>
  (rd i fun c => attr c.obj.params.zres >>= pyNum).bind fun zres =>
  (loc (gridOf zsize zres)).bind fun z =>
  (rd i fun c => attr c.obj.params.ni >>= pyNum).bind fun ni =>
  (rd i fun c => attr c.obj.params.wl >>= pyNum).bind fun wl =>
  (loc (PyFloat.div ni wl)).bind fun kmag =>
  (wr i fun c => { c with scr := { c.scr with kmag := some kmag } }).bind fun _ =>
  (loc (secondOf xy)).bind fun _ =>
  (loc (secondOf z)).bind fun _ =>
  (wr i fun c => { c with scr := { c.scr with dk := some xy } }).bind fun _ =>
  (wr i fun c => { c with scr := { c.scr with dkz := some z } }).bind fun _ =>
  (rd i fun c => attr c.obj.params.na >>= pyNum).bind fun na =>
  (rd i fun c => attr c.obj.params.wl >>= pyNum).bind fun wl' =>
  (loc (PyFloat.div na wl')).bind fun limit =>
  (loc (shellCheck xy z kmag limit)).bind fun _ =>
  (rd i fun c => attr c.obj.params.dual).bind fun dual =>
  (wr i fun c => { c with scr := { c.scr with valid := some ⟨xy, z, kmag, limit, dual⟩ } }).bind fun _ =>
  (selectT I i xy z).bind fun kzz =>
  (selectT I i xy z).bind fun kyy =>
  (selectT I i xy z).bind fun kxx =>
  (wr i fun c => { c with scr := { c.scr with kzz := some kzz } }).bind fun _ =>
  (wr i fun c => { c with scr := { c.scr with kyy := some kyy } }).bind fun _ =>
  wr i fun c => { c with scr := { c.scr with kxx := some kxx } }

/-- The reads of `self.condition` (otf.py:539-546). -/
def sCondsT (i : ℕ) : STM (List Condition) :=
  let c := rd i fun c => attr c.obj.params.condition
  c.bind fun c1 =>
  if c1 = .sine then loc (.ok [c1]) else
  c.bind fun c2 =>
  if c2 = .herschel then loc (.ok [c1, c2]) else
  c.bind fun c3 =>
  if c3 = .none then loc (.ok [c1, c2, c3]) else loc (.error .runtimeError)

/-- `self.vec_corr == a or self.vec_corr == "total"` (otf.py:550, 553, 556): one read or two, and how many components
are appended. -/
def sVecTestT (i : ℕ) (a : VecCorr) : STM (List VecCorr × ℕ) :=
  let v := rd i fun c => attr c.obj.params.vecCorr
  v.bind fun v1 =>
  if v1 = a then loc (.ok ([v1], 2)) else
  v.bind fun v2 =>
  loc (.ok ([v1, v2], if v2 = .total then 2 else 0))

/-- `self.valid_points`, once per component (otf.py:562-563). -/
def sMasksT (i : ℕ) : ℕ → STM (List SSrc)
  | 0 => loc (.ok [])
  | n + 1 =>
    (rd i fun c => attr c.scr.valid).bind fun m =>
    (sMasksT i n).bind fun ms => loc (.ok (m :: ms))

/-- `self.zsize`, `self.size`, `self.size` (otf.py:560, 571). -/
def sSizesT (i : ℕ) : STM (List ℕ) :=
  (rd i fun c => attr c.obj.params.zsize).bind fun a =>
  (rd i fun c => attr c.obj.params.size).bind fun b =>
  (rd i fun c => attr c.obj.params.size).bind fun c =>
  loc (.ok [pyNat a, pyNat b, pyNat c])

/-- All reads come from one computation of the coordinates and repeated reads agree. -/
def SConsistent (k : SSel × SSel × SSel) (conds : List Condition) (vecs : List VecCorr) (sizes : List ℕ)
    (masks : List SSrc) : Prop :=
  let q := k.1.mask
  k.1 = ⟨q.xy, q.z, q⟩ ∧ k.2.1 = k.1 ∧ k.2.2 = k.1 ∧ (∀ c ∈ conds, some c = conds.head?) ∧
  (∀ v ∈ vecs, some v = vecs.head?) ∧ sizes = [q.z.size, q.xy.size, q.xy.size] ∧ (∀ m ∈ masks, m = q)

open Classical in
/-- The result of `_gen_otf` from what it read (otf.py:536-576). -/
noncomputable def sFinish (I : SImpl) (k : SSel × SSel × SSel) (conds : List Condition) (vecs : List VecCorr)
    (sizes : List ℕ) (masks : List SSrc) : Py (Arr (Option ℂ)) :=
  if SConsistent k conds vecs sizes masks then do
    let h ← k.1.mask.num (← attr vecs.head?) (← attr conds.head?)
    return fftshift (some [1, 2, 3]) h.otf
  else I.mixOtf k conds vecs sizes masks

/-- `_gen_otf()` (otf.py:529-576). -/
noncomputable def sGenOtfT (I : SImpl) (i : ℕ) : STM (Arr (Option ℂ)) :=
  (sAttributeChangedT i).bind fun _ =>
  (sGenKrT I i).bind fun _ =>
  (rd i fun c => attr c.scr.kxx).bind fun kxx =>
  (rd i fun c => attr c.scr.kyy).bind fun kyy =>
  (rd i fun c => attr c.scr.kzz).bind fun kzz =>
  (sCondsT i).bind fun conds =>
  (rd i fun c => attr c.obj.params.vecCorr).bind fun v0 =>
  if v0 = .none then
    (sSizesT i).bind fun sizes =>
    (sMasksT i 1).bind fun masks =>
    loc (sFinish I (kxx, kyy, kzz) conds [v0] sizes masks)
  else
    (sVecTestT i .z).bind fun z =>
    (sVecTestT i .y).bind fun y =>
    (sVecTestT i .x).bind fun x =>
    (sSizesT i).bind fun sizes =>
    (sMasksT i (z.2 + y.2 + x.2)).bind fun masks =>
    loc (sFinish I (kxx, kyy, kzz) conds (v0 :: (z.1 ++ y.1 ++ x.1)) sizes masks)

/-- Reading a `cached_property`: as `cachedT` of `Model/Threads.lean`. -/
def sCachedT {α : Type} (I : SImpl) (l : Slot) (i : ℕ) (get : SObj → Option α) (put : α → SObj → SObj)
    (func : STM α) : STM α :=
  let look (k : STM α) : STM α := .act id fun s =>
    match get (s i).obj with
    | some a => .ret (.ok a)
    | none => k
  let fill : STM α := func.bind fun a => (wr i fun c => { c with obj := put a c.obj }).bind fun _ => loc (.ok a)
  look <| look <|
    if I.locked then .lock l (Prog.bind (look fill) fun r => .unlock l (.ret r)) else fill

/-- `OTFa` (otf.py:578-581). -/
noncomputable def sOtfaT (I : SImpl) (i : ℕ) : STM (Arr (Option ℂ)) :=
  sCachedT I .otfa i (·.otfa) (fun a o => { o with otfa := some a }) (sGenOtfT I i)

/-- `PSFa` (otf.py:583-586). -/
noncomputable def sPsfaT (I : SImpl) (i : ℕ) : STM (Arr (Option ℂ)) :=
  sCachedT I .psfa i (·.psfa) (fun a o => { o with psfa := some a })
    ((sOtfaT I i).bind fun a => loc (.ok (sheppardPSFa a)))

/-- `PSFi` (otf.py:204-207). -/
noncomputable def sPsfiT (I : SImpl) (i : ℕ) : STM (Arr (Option ℝ)) :=
  sCachedT I .psfi i (·.psfi) (fun a o => { o with psfi := some a })
    ((sPsfaT I i).bind fun a => loc (.ok (sheppardPSFi a)))

/-- `OTFi` (otf.py:209-212). -/
noncomputable def sOtfiT (I : SImpl) (i : ℕ) : STM (Arr (Option ℂ)) :=
  sCachedT I .otfi i (·.otfi) (fun a o => { o with otfi := some a })
    ((sPsfiT I i).bind fun a => loc (.ok (sheppardOTFi a)))

/-- Assignment to `size` (otf.py:50, utils.py:205-213): the value is checked and compared with the stored one, then
stored, then the caches are deleted one by one. -/
def sSetSizeT (i : ℕ) (v : PyVal) : STM Unit :=
  (rd i fun c => numericSet PyVal.isInt c.obj.params.size v).bind fun
  | none => loc (.ok ())
  | some w =>
    (wr i fun c => { c with obj := { c.obj with params := { c.obj.params with size := some w } } }).bind fun _ =>
    sAttributeChangedT i

end PyOTF
