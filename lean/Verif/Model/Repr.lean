import Verif.Model.Sheppard

/-!
# `repr` of the PSF classes (`otf.py:106-112`, `286-288`, `462-464`)

The text is `Class(keyword=value, ...)`.  Modelled are the keyword arguments somebody who evaluates the text passes to the
constructor.  Simplified: the digits of the numbers are those of the stored values (NumPy prints 8 significant digits of a `zrange` and
abbreviates one of more than 1000 planes), `nan`, `inf` and `array` name the NumPy objects.
-/

namespace PyOTF

/-- The text of a keyword of `vec_corr`. -/
def VecCorr.str : VecCorr → String
  | .none => "none"
  | .x => "x"
  | .y => "y"
  | .z => "z"
  | .total => "total"

/-- The text of a keyword of `condition`. -/
def Condition.str : Condition → String
  | .none => "none"
  | .sine => "sine"
  | .herschel => "herschel"

/-- The arguments shown by `BasePSF.__repr__` (otf.py:106-112); reading an attribute that is not set is an `AttributeError`. -/
def baseRepr (p : Params) : Py InitArgs := do
  return { wl := ← attr p.wl, na := ← attr p.na, ni := ← attr p.ni, res := ← attr p.res, size := ← attr p.size
           zres := ← attr p.zres, zsize := ← attr p.zsize, vecCorr := .str (← attr p.vecCorr).str
           condition := .str (← attr p.condition).str }

/-- `HanserPSF.__repr__` (otf.py:286-288): the arguments of the base class and `zrange=array([...])`. -/
def hanserRepr (p : Params) : Py (InitArgs × Option ZArg) := do
  return (← baseRepr p, some (.seq (← attr p.zrange)))

/-- `SheppardPSF.__repr__` (otf.py:462-464): the arguments of the base class and `dual`. -/
def sheppardRepr (p : Params) : Py (InitArgs × PyVal) := do
  return (← baseRepr p, .bool (← attr p.dual))

end PyOTF
