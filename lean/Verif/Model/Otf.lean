import Verif.Model.Utils
import Verif.Model.PyVal
import Verif.Model.PyM

/-!
# Parameters of the PSF classes: attributes and setters (`otf.py:45-192`, `272-327`, `449-489`)

Python `float`s are exact (see `PyVal`).  An object is its parameters and its four cached arrays; a setter
is an imperative statement on it (`PyM`), so that what a failing setter has already stored is visible.

NumPy scalars other than `np.float64` (a subclass of `float`) are `PyVal.other`; the code would accept
them for `res`, `zres` and reject them for the other attributes; here they are always rejected.
For a zero divisor the model raises `ZeroDivisionError` as Python's `float` does; an `np.float64` would give
an infinity and a warning instead, which is not modelled.
-/

namespace PyOTF

/-- Keywords of `vec_corr` (otf.py:175). -/
inductive VecCorr
  | none | x | y | z | total
  deriving DecidableEq, Repr

/-- Keywords of `condition` (otf.py:188). -/
inductive Condition
  | none | sine | herschel
  deriving DecidableEq, Repr

/-- The `valid_values` of `vec_corr` (otf.py:175). -/
def VecCorr.ofString : String → Option VecCorr
  | "none" => some .none
  | "x" => some .x
  | "y" => some .y
  | "z" => some .z
  | "total" => some .total
  | _ => Option.none

/-- The `valid_values` of `condition` (otf.py:188). -/
def Condition.ofString : String → Option Condition
  | "none" => some .none
  | "sine" => some .sine
  | "herschel" => some .herschel
  | _ => Option.none

/-- `value not in valid_values` for a set of strings: the matching keyword, `ValueError` if there is
none, `TypeError` for an unhashable value. -/
def keyword {α : Type} (f : String → Option α) (value : PyVal) : Py α :=
  match value with
  | .str s => match f s with
    | some a => .ok a
    | Option.none => .error .valueError
  | .other false => .error .typeError
  | _ => .error .valueError

/-- The instance attributes of a PSF object other than the cached arrays; `none` = not set yet
(only during construction, or not an attribute of that class). -/
structure Params where
  wl : Option PyVal := none
  na : Option PyVal := none
  ni : Option PyVal := none
  size : Option PyVal := none
  zsize : Option PyVal := none
  res : Option PyVal := none
  zres : Option PyVal := none
  vecCorr : Option VecCorr := none
  condition : Option Condition := none
  /-- `_zrange` (HanserPSF only), one-dimensional. -/
  zrange : Option (List PyFloat) := none
  /-- `_dual` (SheppardPSF only). -/
  dual : Option Bool := none
  deriving DecidableEq, Repr

/-- A PSF object: parameters and the four `cached_property` slots (`A`: type of the complex outputs,
`I`: type of the real output).  `none` = not in the instance `__dict__`. -/
structure Obj (A I : Type) where
  params : Params
  psfa : Option A := none
  otfa : Option A := none
  psfi : Option I := none
  otfi : Option A := none

variable {A I : Type}

/-- `_attribute_changed` (otf.py:114-124): drop the cached arrays. -/
def attributeChanged : PyM (Obj A I) Unit := PyM.modify fun o => { params := o.params }

/-- Store a backing attribute. -/
def store (f : Params → Params) : PyM (Obj A I) Unit :=
  PyM.modify fun o => { o with params := f o.params }

/-- Reading an attribute; `AttributeError` if it has not been set. -/
def attr {α : Type} (o : Option α) : Py α :=
  match o with
  | some a => .ok a
  | none => .error .attributeError

/-- Reading a backing attribute of the object. -/
def self {α : Type} (f : Params → Option α) : PyM (Obj A I) α := fun o => (attr (f o.params), o)

/-- The number behind a value in an arithmetic expression; `TypeError` if it is not a number. -/
def pyNum (v : PyVal) : Py PyFloat :=
  match v.num? with
  | some x => .ok x
  | none => .error .typeError

/-- Setter of a `NumericProperty` (utils.py:205-213): `numericSet` decides, then
`setattr(obj, attr, value); obj._attribute_changed()`. -/
def setNumeric (isVartype : PyVal → Bool) (rd : Params → Option PyVal) (wr : PyVal → Params → Params)
    (value : PyVal) : PyM (Obj A I) Unit := do
  let o ← PyM.get
  match ← PyM.lift (numericSet isVartype (rd o.params) value) with
  | none => pure ()
  | some v => do
    store (wr v)
    attributeChanged

/-- `wl` setter: `NumericProperty(vartype=(float, int))` (otf.py:47). -/
def setWl : PyVal → PyM (Obj A I) Unit :=
  setNumeric PyVal.isFloatOrInt Params.wl fun v p => { p with wl := some v }

/-- `na` setter (otf.py:48). -/
def setNa : PyVal → PyM (Obj A I) Unit :=
  setNumeric PyVal.isFloatOrInt Params.na fun v p => { p with na := some v }

/-- `ni` setter (otf.py:49). -/
def setNi : PyVal → PyM (Obj A I) Unit :=
  setNumeric PyVal.isFloatOrInt Params.ni fun v p => { p with ni := some v }

/-- `size` setter: `NumericProperty(vartype=int)` (otf.py:50). -/
def setSize : PyVal → PyM (Obj A I) Unit :=
  setNumeric PyVal.isInt Params.size fun v p => { p with size := some v }

/-- `BasePSF.zsize` setter (otf.py:51). -/
def setZsizeBase : PyVal → PyM (Obj A I) Unit :=
  setNumeric PyVal.isInt Params.zsize fun v p => { p with zsize := some v }

/-- `BasePSF.zres` setter (otf.py:131-137). -/
def setZresBase (v : PyVal) : PyM (Obj A I) Unit := do
  let x ← PyM.lift (pyNum v)
  if !(PyFloat.lt (.fin 0) x) then PyM.raise .valueError
  else do
    store fun p => { p with zres := some v }
    attributeChanged

/-- `res` setter (otf.py:144-163).  The log message for the Nyquist limit is not modelled. -/
def setRes (v : PyVal) : PyM (Obj A I) Unit := do
  let na ← PyM.lift (pyNum (← self Params.na))
  let wl ← PyM.lift (pyNum (← self Params.wl))
  let q ← PyM.lift (PyFloat.div (PyFloat.mul (.fin 2) na) wl)
  let abbeLimit ← PyM.lift (PyFloat.div (.fin 1) q)
  let x ← PyM.lift (pyNum v)
  if PyFloat.ge x abbeLimit then PyM.raise .valueError
  else do
    store fun p => { p with res := some v }
    attributeChanged

/-- `vec_corr` setter (otf.py:173-179). -/
def setVecCorr (v : PyVal) : PyM (Obj A I) Unit := do
  let w ← PyM.lift (keyword VecCorr.ofString v)
  store fun p => { p with vecCorr := some w }
  attributeChanged

/-- `condition` setter (otf.py:186-192). -/
def setCondition (v : PyVal) : PyM (Obj A I) Unit := do
  let w ← PyM.lift (keyword Condition.ofString v)
  store fun p => { p with condition := some w }
  attributeChanged

/-! ### HanserPSF -/

/-- The value assigned to `zrange`: a scalar or a one-dimensional sequence of numbers.  (Arrays of
higher rank and non-numeric values are not modelled.) -/
inductive ZArg
  | scalar (x : PyFloat)
  | seq (xs : List PyFloat)

/-- `np.asarray(value)`, made one-dimensional (otf.py:322-326). -/
def ZArg.toList : ZArg → List PyFloat
  | .scalar x => [x]
  | .seq xs => xs

/-- `HanserPSF.zrange` setter (otf.py:320-327). -/
def setZrange (v : ZArg) : PyM (Obj A I) Unit := do
  store fun p => { p with zrange := some v.toList }
  attributeChanged

/-- The integer behind `size` / `zsize` (an `int` or `bool` that passed the setter). -/
def pyNat (v : PyVal) : ℕ :=
  match v with
  | .int z => z.toNat
  | .bool b => if b then 1 else 0
  | _ => 0

/-- The array `(np.arange(zsize) - (zsize + 1) // 2) * zres` (otf.py:292). -/
def defaultZrange (zsize : ℕ) (zres : PyFloat) : List PyFloat :=
  (List.range zsize).map fun (i : ℕ) => PyFloat.mul (.fin ((i : ℚ) - ((zsize + 1) / 2 : ℕ))) zres

/-- `_gen_zrange` (otf.py:290-292). -/
def genZrange : PyM (Obj A I) Unit := do
  let zsize ← self Params.zsize
  let zres ← PyM.lift (pyNum (← self Params.zres))
  setZrange (.seq (defaultZrange (pyNat zsize) zres))

/-- `HanserPSF.zsize` setter (otf.py:294-303). -/
def setZsizeHanser (v : PyVal) : PyM (Obj A I) Unit := do
  setZsizeBase v
  PyM.ignore .attributeError genZrange

/-- `HanserPSF.zres` setter (otf.py:305-313). -/
def setZresHanser (v : PyVal) : PyM (Obj A I) Unit := do
  setZresBase v
  PyM.ignore .attributeError genZrange

/-! ### SheppardPSF -/

/-- `SheppardPSF.dual` setter (otf.py:471-476). -/
def setDual (v : PyVal) : PyM (Obj A I) Unit :=
  match v with
  | .bool b => do
    store fun p => { p with dual := some b }
    attributeChanged
  | _ => PyM.raise .typeError

/-- `SheppardPSF.zres` setter (otf.py:478-489). -/
def setZresSheppard (v : PyVal) : PyM (Obj A I) Unit := do
  let wl ← PyM.lift (pyNum (← self Params.wl))
  let half ← PyM.lift (PyFloat.div wl (.fin 2))
  let ni ← PyM.lift (pyNum (← self Params.ni))
  let maxVal ← PyM.lift (PyFloat.div half ni)
  let x ← PyM.lift (pyNum v)
  if PyFloat.ge x maxVal then PyM.raise .valueError
  else setZresBase v

/-! ### Attribute assignment and construction -/

/-- The scalar attributes a user can assign. -/
inductive Attr
  | wl | na | ni | size | zsize | res | zres | vecCorr | condition | dual
  deriving DecidableEq, Repr

/-- The two PSF classes. -/
inductive Cls
  | hanser | sheppard
  deriving DecidableEq, Repr

/-- `obj.<attr> = v`: which setter runs.  Assigning `dual` to a `HanserPSF` merely creates an unrelated
instance attribute, which is not modelled (no effect). -/
def setAttr (c : Cls) (a : Attr) (v : PyVal) : PyM (Obj A I) Unit :=
  match a, c with
  | .wl, _ => setWl v
  | .na, _ => setNa v
  | .ni, _ => setNi v
  | .size, _ => setSize v
  | .zsize, .hanser => setZsizeHanser v
  | .zsize, .sheppard => setZsizeBase v
  | .res, _ => setRes v
  | .zres, .hanser => setZresHanser v
  | .zres, .sheppard => setZresSheppard v
  | .vecCorr, _ => setVecCorr v
  | .condition, _ => setCondition v
  | .dual, .hanser => pure ()
  | .dual, .sheppard => setDual v

/-- Constructor arguments of `BasePSF.__init__` (otf.py:53-55); omitted `zres`, `zsize` are `None`. -/
structure InitArgs where
  wl : PyVal
  na : PyVal
  ni : PyVal
  res : PyVal
  size : PyVal
  zres : PyVal := .none
  zsize : PyVal := .none
  vecCorr : PyVal := .str "none"
  condition : PyVal := .str "sine"

/-- `BasePSF.__init__` (otf.py:90-104) run by class `c`. -/
def baseInit (c : Cls) (a : InitArgs) : PyM (Obj A I) Unit := do
  setAttr c .wl a.wl
  setAttr c .na a.na
  setAttr c .ni a.ni
  setAttr c .res a.res
  setAttr c .size a.size
  let zres := if a.zres = .none then a.res else a.zres
  setAttr c .zres zres
  let zsize := if a.zsize = .none then a.size else a.zsize
  setAttr c .zsize zsize
  setAttr c .vecCorr a.vecCorr
  setAttr c .condition a.condition

/-- `HanserPSF.__init__` (otf.py:272-281). -/
def hanserInit (a : InitArgs) (zrange : Option ZArg) : PyM (Obj A I) Unit := do
  baseInit .hanser a
  match zrange with
  | none => genZrange
  | some z => setZrange z

/-- `SheppardPSF.__init__` (otf.py:452-457). -/
def sheppardInit (a : InitArgs) (dual : PyVal) : PyM (Obj A I) Unit := do
  baseInit .sheppard a
  setAttr .sheppard .dual dual

/-- Running a constructor on a fresh object: an exception means there is no object. -/
def construct (m : PyM (Obj A I) Unit) : Py (Obj A I) :=
  match m { params := {} } with
  | (.ok _, o) => .ok o
  | (.error e, _) => .error e

end PyOTF
