import Verif.Model.Hanser

/-!
# `SheppardPSF` (`otf.py:440-586`)

Elements are `Option ℂ`, `none` = NaN.  Parameters that are not finite are outside the model
(`Err.nan`).
-/

namespace PyOTF

/-- The numbers that enter the computation of a Sheppard PSF. -/
structure SheppardNum where
  size : ℕ
  zsize : ℕ
  res : ℝ
  zres : ℝ
  kmag : ℝ
  /-- `na / wl` -/
  limit : ℝ
  vecCorr : VecCorr
  condition : Condition
  dual : Bool

namespace SheppardNum

variable (h : SheppardNum)

/-- `k = fftfreq(size, res)` (otf.py:494). -/
noncomputable def k (i : ℕ) : ℝ := fftfreq h.size h.res i

/-- `kz = fftfreq(zsize, zres)` (otf.py:495). -/
noncomputable def kz (i : ℕ) : ℝ := fftfreq h.zsize h.zres i

/-- `kr[iz, iy, ix]` (otf.py:496-498): `indexing="ij"` keeps the order z, y, x. -/
noncomputable def kr (iz iy ix : ℕ) : ℝ := Real.sqrt (h.kz iz ^ 2 + h.k iy ^ 2 + h.k ix ^ 2)

/-- `dk` (otf.py:502). -/
noncomputable def dk : ℝ := h.k 1 - h.k 0

/-- `dkz` (otf.py:502). -/
noncomputable def dkz : ℝ := h.kz 1 - h.kz 0

/-- `kz_min` (otf.py:506). -/
noncomputable def kzMin : ℝ := Real.sqrt (h.kmag ^ 2 - h.limit ^ 2)

open Classical in
/-- `dkr` (otf.py:511-518). -/
noncomputable def dkr (iz iy ix : ℕ) : ℝ :=
  if h.dk ≠ h.dkz then
    if iz = 0 ∧ iy = 0 ∧ ix = 0 then 0
    else Real.sqrt ((h.kz iz * h.dkz) ^ 2 + (h.k iy * h.dk) ^ 2 + (h.k ix * h.dk) ^ 2) / h.kr iz iy ix
  else h.dk

/-- The `kzz` used by the mask (otf.py:519-523). -/
noncomputable def kzz (iz : ℕ) : ℝ := if h.dual then |h.kz iz| else h.kz iz

/-- `valid_points[iz, iy, ix]` (otf.py:526). -/
def valid (iz iy ix : ℕ) : Prop :=
  |h.kr iz iy ix - h.kmag| < h.dkr iz iy ix ∧ h.kzz iz > h.kzMin + h.dkr iz iy ix

/-- Direction cosines `m, n, s` (otf.py:537); the signed `kz` is used. -/
noncomputable def m (iz iy ix : ℕ) : ℝ := h.k ix / h.kr iz iy ix
@[inherit_doc m] noncomputable def n (iz iy ix : ℕ) : ℝ := h.k iy / h.kr iz iy ix
@[inherit_doc m] noncomputable def s (iz iy ix : ℕ) : ℝ := h.kz iz / h.kr iz iy ix

/-- Division by a possibly zero number: `none` is NaN/inf. -/
noncomputable def div? (a b : ℝ) : Option ℝ := by
  classical exact if b = 0 then none else some (a / b)

/-- `a` (otf.py:539-546); NaN for the square root of a negative number, inf for division by zero. -/
noncomputable def apod (iz iy ix : ℕ) : Option ℝ :=
  match h.condition with
  | .sine => (npSqrt (h.s iz iy ix)).bind fun r => div? 1 r
  | .herschel => div? 1 (h.s iz iy ix)
  | .none => some 1

/-- The list `plist` of vectorial factors (otf.py:548-558). -/
noncomputable def vecFactors (iz iy ix : ℕ) : List (Option ℝ) :=
  let m := h.m iz iy ix
  let n := h.n iz iy ix
  let s := h.s iz iy ix
  let pz := [some (-m), some (-n)]
  let py := [div? (-n * m) (1 + s), (div? (n ^ 2) (1 + s)).map (1 - ·)]
  let px := [(div? (m ^ 2) (1 + s)).map (1 - ·), div? (-m * n) (1 + s)]
  match h.vecCorr with
  | .none => []
  | .x => px
  | .y => py
  | .z => pz
  | .total => pz ++ py ++ px

/-- Number of components (otf.py:548-574). -/
def ncomp : ℕ :=
  match h.vecCorr with
  | .none => 1
  | .x => 2
  | .y => 2
  | .z => 2
  | .total => 6

open Classical in
/-- The unshifted amplitude OTF (otf.py:548-574). -/
noncomputable def otf : Arr (Option ℂ) where
  shape := [h.ncomp, h.zsize, h.size, h.size]
  get idx :=
    let c := idx.getD 0 0
    let iz := idx.getD 1 0
    let iy := idx.getD 2 0
    let ix := idx.getD 3 0
    if h.valid iz iy ix then
      if h.vecCorr = .none then some 1
      else ((h.vecFactors iz iy ix).getD c none).bind fun p =>
        (h.apod iz iy ix).map fun a => ((p * a : ℝ) : ℂ)
    else some 0

end SheppardNum

open Classical in
/-- `_gen_otf()` (otf.py:491-576), without the invalidation of the caches.  Order of the checks:
`fftfreq` twice (`ZeroDivisionError`), `ni / wl`, `k[1]`, `kz[1]` (`IndexError`), `na / wl`, the
assertion on `kz_min` (the square root of a negative number is NaN). -/
noncomputable def sheppardGenOtf (p : Params) : Py (Arr (Option ℂ)) := do
  let size := pyNat (← attr p.size)
  let res ← pyNum (← attr p.res)
  let _ ← PyFloat.div (.fin 1) (PyFloat.mul (.fin (size : ℚ)) res)
  let zsize := pyNat (← attr p.zsize)
  let zres ← pyNum (← attr p.zres)
  let _ ← PyFloat.div (.fin 1) (PyFloat.mul (.fin (zsize : ℚ)) zres)
  let ni ← pyNum (← attr p.ni)
  let wl ← pyNum (← attr p.wl)
  let kmag ← PyFloat.div ni wl
  if size < 2 then throw .indexError
  if zsize < 2 then throw .indexError
  let na ← pyNum (← attr p.na)
  let limit ← PyFloat.div na wl
  let f ← finReals [res, zres, kmag, limit]
  let h : SheppardNum := ⟨size, zsize, f.getD 0 0, f.getD 1 0, f.getD 2 0, f.getD 3 0,
    ← attr p.vecCorr, ← attr p.condition, ← attr p.dual⟩
  if h.kmag ^ 2 < h.limit ^ 2 then throw .assertionError
  return fftshift (some [1, 2, 3]) h.otf

/-- NaN-propagating transform of every component of a 4-d array along its last three axes: a single
NaN makes the whole component NaN (every output is a sum over all inputs). -/
noncomputable def nanTransform (F : Arr ℂ → Arr ℂ) (a : Arr (Option ℂ)) : Arr (Option ℂ) := by
  classical exact
  { shape := a.shape
    get := fun idx =>
      if ∃ t, InShape t a.shape.tail ∧ a.get (idx.headD 0 :: t) = none then none
      else some ((F (a.map fun v => v.getD 0)).get idx) }

/-- `PSFa` from `OTFa` (otf.py:583-586). -/
noncomputable def sheppardPSFa (otfa : Arr (Option ℂ)) : Arr (Option ℂ) :=
  nanTransform (easyIfft (some [1, 2, 3])) otfa

/-- Sum of optional values, NaN-propagating. -/
noncomputable def nanSum (n : ℕ) (f : ℕ → Option ℝ) : Option ℝ := by
  classical exact
  if ∃ i < n, f i = none then none else some (∑ i ∈ Finset.range n, (f i).getD 0)

/-- `PSFi` from `PSFa` with NaN (otf.py:204-207). -/
noncomputable def sheppardPSFi (psfa : Arr (Option ℂ)) : Arr (Option ℝ) where
  shape := psfa.shape.tail
  get idx := nanSum (psfa.shape.headD 0) fun c => (psfa.get (c :: idx)).map fun v => ‖v‖ ^ 2

/-- `OTFi` from `PSFi` with NaN (otf.py:209-212). -/
noncomputable def sheppardOTFi (psfi : Arr (Option ℝ)) : Arr (Option ℂ) := by
  classical exact
  { shape := psfi.shape
    get := fun idx =>
      if ∃ t, InShape t psfi.shape ∧ psfi.get t = none then none
      else some ((easyFft none (psfi.map fun (v : Option ℝ) => ((v.getD 0 : ℝ) : ℂ))).get idx) }

/-! ## The object -/

/-- A `SheppardPSF` instance. -/
abbrev SObj := Obj (Arr (Option ℂ)) (Arr (Option ℝ))

namespace SObj

/-- Reading `OTFa` (otf.py:578-581); `_gen_otf` clears the caches first (otf.py:532). -/
noncomputable def getOTFa : PyM SObj (Arr (Option ℂ)) := do
  match (← PyM.get).otfa with
  | some a => pure a
  | none =>
    attributeChanged
    let a ← PyM.lift (sheppardGenOtf (← PyM.get).params)
    PyM.modify fun o => { o with otfa := some a }
    pure a

/-- Reading `PSFa` (otf.py:583-586). -/
noncomputable def getPSFa : PyM SObj (Arr (Option ℂ)) := do
  match (← PyM.get).psfa with
  | some a => pure a
  | none =>
    let t ← getOTFa
    PyM.modify fun o => { o with psfa := some (sheppardPSFa t) }
    pure (sheppardPSFa t)

/-- Reading `PSFi` (otf.py:204-207). -/
noncomputable def getPSFi : PyM SObj (Arr (Option ℝ)) := do
  match (← PyM.get).psfi with
  | some a => pure a
  | none =>
    let a ← getPSFa
    PyM.modify fun o => { o with psfi := some (sheppardPSFi a) }
    pure (sheppardPSFi a)

/-- Reading `OTFi` (otf.py:209-212). -/
noncomputable def getOTFi : PyM SObj (Arr (Option ℂ)) := do
  match (← PyM.get).otfi with
  | some a => pure a
  | none =>
    let a ← getPSFi
    PyM.modify fun o => { o with otfi := some (sheppardOTFi a) }
    pure (sheppardOTFi a)

/-- `SheppardPSF(...)`. -/
def new (a : InitArgs) (dual : PyVal := .bool false) : Py SObj := construct (sheppardInit a dual)

end SObj

end PyOTF
