import Verif.Model.NumPy
import Mathlib.Data.Rat.Cast.Order

/-!
# Python values and `NumericProperty` (`utils.py:174-215`)

Simplifications: a finite Python `float` is represented by the rational number it denotes, arithmetic
on floats is exact (no rounding, overflow or signed zeros); complex numbers, NumPy scalars and all
other objects are `PyVal.other`.
-/

namespace PyOTF

/-- A Python float (IEEE special values kept). -/
inductive PyFloat
  | fin (q : ℚ)
  | nan
  | inf (neg : Bool)
  deriving DecidableEq, Repr

/-- A Python value passed to a setter.  `other hashable` is any object that is not a number, `bool`,
`None` or `str`. -/
inductive PyVal
  | int (z : ℤ)
  | float (x : PyFloat)
  | bool (b : Bool)
  | none
  | str (s : String)
  | other (hashable : Bool)
  deriving DecidableEq, Repr

namespace PyFloat

/-- `x < y`. -/
def lt : PyFloat → PyFloat → Bool
  | nan, _ => false
  | _, nan => false
  | fin a, fin b => decide (a < b)
  | fin _, inf neg => !neg
  | inf neg, fin _ => neg
  | inf n1, inf n2 => n1 && !n2

/-- `x == y`. -/
def eq : PyFloat → PyFloat → Bool
  | fin a, fin b => decide (a = b)
  | inf a, inf b => a == b
  | _, _ => false

/-- `x >= y`. -/
def ge (x y : PyFloat) : Bool := lt y x || eq x y

/-- Sign as a rational: -1, 0, 1. -/
def sgn (q : ℚ) : ℚ := if q < 0 then -1 else if q = 0 then 0 else 1

/-- `x * y`. -/
def mul : PyFloat → PyFloat → PyFloat
  | fin a, fin b => fin (a * b)
  | fin a, inf n => if a = 0 then nan else inf (n != decide (a < 0))
  | inf n, fin a => if a = 0 then nan else inf (n != decide (a < 0))
  | inf n, inf m => inf (n != m)
  | _, _ => nan

/-- `x / y`; `ZeroDivisionError` when `y` is zero. -/
def div : PyFloat → PyFloat → Py PyFloat
  | fin a, fin b => if b = 0 then .error .zeroDivisionError else .ok (fin (a / b))
  | inf n, fin b => if b = 0 then .error .zeroDivisionError else .ok (inf (n != decide (b < 0)))
  | nan, fin b => if b = 0 then .error .zeroDivisionError else .ok nan
  | fin _, inf _ => .ok (fin 0)
  | inf _, inf _ => .ok nan
  | nan, inf _ => .ok nan
  | _, nan => .ok nan

/-- The rational value of a finite float. -/
def fin? : PyFloat → Option ℚ
  | fin q => some q
  | _ => Option.none

end PyFloat

/-- The numeric value of an `int`, `float` or `bool`. -/
def PyVal.num? : PyVal → Option PyFloat
  | .int z => some (.fin z)
  | .float x => some x
  | .bool b => some (.fin (if b then 1 else 0))
  | _ => Option.none

/-- `isinstance(value, int)` (`bool` is a subclass of `int`). -/
def PyVal.isInt : PyVal → Bool
  | .int _ => true
  | .bool _ => true
  | _ => false

/-- `isinstance(value, (float, int))`. -/
def PyVal.isFloatOrInt : PyVal → Bool
  | .int _ => true
  | .bool _ => true
  | .float _ => true
  | _ => false

/-- `a != b`: numbers compare by value, other values by identity (structure). -/
def PyVal.ne (a b : PyVal) : Bool :=
  match a.num?, b.num? with
  | some x, some y => !(PyFloat.eq x y)
  | _, _ => !(decide (a = b))

/-- The comparison `value < 0` of a Python value; `TypeError` if it is not a number. -/
def PyVal.ltZero (v : PyVal) : Py Bool :=
  match v.num? with
  | some x => .ok (x.lt (.fin 0))
  | .none => .error .typeError

/-- The setter built by `NumericProperty.__init__` (`utils.py:205-213`).  `old` is the backing
attribute (`none` if not yet set).  `.ok none`: the value equals the stored one, nothing happens;
`.ok (some v)`: `v` is stored and `obj._attribute_changed()` is called. -/
def numericSet (isVartype : PyVal → Bool) (old : Option PyVal) (value : PyVal) :
    Py (Option PyVal) := do
  if !isVartype value then throw .typeError
  if ← value.ltZero then throw .valueError
  -- `getattr(obj, self.attr, None) != value`
  if (old.getD .none).ne value then return some value else return none

end PyOTF
