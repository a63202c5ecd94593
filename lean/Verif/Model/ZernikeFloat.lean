import Verif.Model.Zernike
import Verif.Model.PyVal
import Mathlib.Analysis.SpecialFunctions.Pow.Real

/-!
# `pyotf/zernike.py` with degrees in floating point

Continues `Model/Zernike.lean`: index arguments may be arrays of floats, as in `zernike(r, theta, 2.0, 0.0)`.  Exact real arithmetic, except that `nan` and infinite degrees behave as
in IEEE arithmetic.  Not modelled: other element types (unsigned, `bool`, complex, objects), `RuntimeWarning`s.
-/

namespace PyOTF

/-- An index argument after `np.asarray`. -/
inductive DegArr
  | ints (a : Arr ℤ)
  | floats (a : Arr PyFloat)

/-- An integer as a float. -/
def PyFloat.ofInt (z : ℤ) : PyFloat := .fin z

/-- The array as an array of floats. -/
def DegArr.toFloats : DegArr → Arr PyFloat
  | .ints a => a.map PyFloat.ofInt
  | .floats a => a

/-- Is it an integer array? -/
def DegArr.ints? : DegArr → Option (Arr ℤ)
  | .ints a => some a
  | .floats _ => none

/-- `noll2degrees(noll)` (zernike.py:172-183) with the test of the element type. -/
noncomputable def noll2degreesN : DegArr → Py (List (ℤ × ℤ))
  | .ints a => noll2degrees a.ravel
  | .floats _ => .error .valueError

/-- `degrees2noll(n, m)` (zernike.py:186-199) with the tests of the element types; arrays of one size (no broadcasting). -/
def degrees2nollN : DegArr → DegArr → Py (List ℕ)
  | .ints n, .ints m => degrees2noll (List.zip n.ravel m.ravel)
  | _, _ => .error .valueError

/-- `n >= abs(m)` (zernike.py:273). -/
def geAbs : PyFloat → PyFloat → Bool
  | .fin n, .fin m => decide (|m| ≤ n)
  | .inf false, .fin _ => true
  | .inf false, .inf _ => true
  | _, _ => false

/-- `(n - m) % 2` is false for `m = abs(m)` (zernike.py:310); a difference of infinities, or the remainder of one, is `nan`, which is true. -/
def evenDiff : PyFloat → PyFloat → Bool
  | .fin n, .fin m => decide ((n - |m|) - 2 * ⌊(n - |m|) / 2⌋ = 0)
  | _, _ => false

/-- `scipy.special.eval_jacobi(k, a, 0, x)` with a `k` of type float (external; call site zernike.py:297): `binom(k + a, k) * hyp2f1(-k, k + a + 1, a + 1, (1 - x) / 2)`, for a whole number
`k >= 0`. -/
noncomputable def evalJacobiFloat (k : ℕ) (a x : ℝ) : ℝ :=
  (∏ i ∈ Finset.range k, (a + i + 1) / (i + 1)) *
    ∑ s ∈ Finset.range (k + 1), (∏ i ∈ Finset.range s, ((-k + i) * (k + a + 1 + i)) / ((a + 1 + i) * (i + 1))) * ((1 - x) / 2) ^ s

/-- `_radial_zernike(r, n, m)` (zernike.py:280-299), pointwise, for finite `n >= |m|` such that `n - |m|` is an even whole number (checked by the callers). -/
noncomputable def radialZernikeFloat (r : ℝ) (n m : ℚ) : ℝ :=
  if r ≤ 1 then
    if m = 0 ∧ n = 0 then 1
    else
      let m := |m|
      let coef1 : ℤ := ⌊(n + m) / 2⌋
      let coef2 : ℤ := ⌊(n - m) / 2⌋
      let jacobi := evalJacobiFloat coef2.toNat m (1 - 2 * r ^ 2)
      (-1) ^ coef1 * r ^ ((m : ℚ) : ℝ) * jacobi
  else 0

/-- `_zernike(r, theta, n, m, norm)` (zernike.py:302-331), pointwise. -/
noncomputable def zernikeFloat1 (r theta : ℝ) (n m : PyFloat) (norm : Bool) : ℝ :=
  match n, m with
  | .fin n, .fin m =>
    if evenDiff (.fin n) (.fin m) then
      let mneg : Bool := decide (m < 0)
      let m := |m|
      let zern := radialZernikeFloat r n m
      let zern := if mneg then zern * Real.sin (m * theta) else zern * Real.cos (m * theta)
      if norm then
        let norm := if m = 0 then Real.sqrt (n + 1) else Real.sqrt (2 * (n + 1))
        zern * norm
      else zern
    else 0
  | _, _ => 0

/-- The argument dispatch of `zernike` (zernike.py:236-258) if an argument is a float array; `np.asarray` of a pair with one float array is a float array. -/
def zernikeDegreesFloat : List DegArr → Py (List (PyFloat × PyFloat))
  | [x] =>
    let a := x.toFloats
    match a.shape with
    | [] => .error .valueError
    | [_] => .error .valueError
    | [k, c] => if k = 2 then .ok ((List.range c).map fun i => (a.get [0, i], a.get [1, i])) else .error .runtimeError
    | _ => .error .valueError
  | [x, y] =>
    let n := x.toFloats
    let m := y.toFloats
    if n.shape ≠ m.shape then .error .valueError
    else if n.shape.length > 1 then .error .valueError
    else .ok (List.zip n.ravel m.ravel)
  | _ => .error .valueError

open Classical in
/-- `zernike(r, theta, *args, norm=...)` (zernike.py:202-277). -/
noncomputable def zernikeN (r theta : Arr ℝ) (args : List DegArr) (norm : Bool := true) : Py (Arr ℝ) :=
  match args.mapM DegArr.ints? with
  | some l => zernike r theta l norm
  | none => do
    let nm ← zernikeDegreesFloat args
    if ¬ ∀ i, InShape i r.shape → 0 ≤ r.get i then throw .valueError
    if r.shape.length > 2 then throw .valueError
    if nm.any (fun p => !geAbs p.1 p.2) then throw .valueError
    let theta ← if nm.any (fun p => evenDiff p.1 p.2) then broadcastTo r.shape theta else .ok ⟨r.shape, fun _ => 0⟩
    if nm = [] then return ⟨[0], fun _ => 0⟩
    let stack : Arr ℝ := ⟨nm.length :: r.shape, fun idx =>
      let p := nm.getD (idx.headD 0) (.fin 0, .fin 0)
      zernikeFloat1 (r.get idx.tail) (theta.get idx.tail) p.1 p.2 norm⟩
    return stack.squeeze

end PyOTF
