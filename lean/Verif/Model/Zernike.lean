import Verif.Model.NumPy
import Mathlib.Analysis.SpecialFunctions.Trigonometric.Basic
import Mathlib.Analysis.SpecialFunctions.Sqrt
import Mathlib.Data.List.Sort
import Mathlib.Data.Nat.Choose.Basic

/-!
# Model of `pyotf/zernike.py`

Simplifications: exact real arithmetic; integer arrays only for the index arguments (float degrees:
`Model/ZernikeFloat.lean`).
-/

namespace PyOTF

/-- `noll_mapping` (zernike.py:21-144). -/
def nollMapping : List ℕ := [
  1, 3, 2, 5, 4, 6, 9, 7, 8, 10, 15, 13, 11, 12, 14, 21, 19, 17, 16, 18,
  20, 27, 25, 23, 22, 24, 26, 28, 35, 33, 31, 29, 30, 32, 34, 36, 45, 43, 41, 39,
  37, 38, 40, 42, 44, 55, 53, 51, 49, 47, 46, 48, 50, 52, 54, 65, 63, 61, 59, 57,
  56, 58, 60, 62, 64, 66, 77, 75, 73, 71, 69, 67, 68, 70, 72, 74, 76, 78, 91, 89,
  87, 85, 83, 81, 79, 80, 82, 84, 86, 88, 90, 105, 103, 101, 99, 97, 95, 93, 92, 94,
  96, 98, 100, 102, 104, 119, 117, 115, 113, 111, 109, 107, 106, 108, 110, 112, 114, 116, 118, 120]

/-- `ndarray.argsort()`: indices in increasing order of value (call site zernike.py:147). -/
def argsort (l : List ℕ) : List ℕ :=
  (List.range l.length).insertionSort fun i j => l.getD i 0 ≤ l.getD j 0

/-- `noll_inverse` (zernike.py:147). -/
def nollInverse : List ℕ := argsort nollMapping

/-- `noll2name` (zernike.py:151-167) as an association list in insertion order. -/
def noll2name : List (ℕ × String) := [
  (1, "piston"), (2, "tip"), (3, "tilt"), (4, "defocus"), (5, "oblique astigmatism"),
  (6, "vertical astigmatism"), (7, "vertical coma"), (8, "horizontal coma"),
  (9, "vertical trefoil"), (10, "oblique trefoil"), (11, "primary spherical"),
  (12, "vertical secondary astigmatism"), (13, "oblique secondary astigmatism"),
  (14, "vertical quadrafoil"), (15, "oblique quadrafoil")]

/-- `name2noll` (zernike.py:169). -/
def name2noll : List (String × ℕ) := noll2name.map fun p => (p.2, p.1)

/-- NumPy integer indexing `l[i]` of a 1-d array: negative indices count from the end. -/
def npIndex (l : List ℕ) (i : ℤ) : Py ℕ :=
  if i < -(l.length : ℤ) ∨ (l.length : ℤ) ≤ i then .error .indexError
  else .ok (l.getD (if i < 0 then i + l.length else i).toNat 0)

/-- Radial degree from the flat position, `np.ceil((-3 + np.sqrt(9 + 8 * p)) / 2)` (zernike.py:181). -/
noncomputable def radialDegree (p : ℕ) : ℤ := ⌈(-3 + Real.sqrt (9 + 8 * p)) / 2⌉

/-- `noll2degrees` (zernike.py:172-183) on a flat integer array.  The `ValueError` for another dtype is
not modelled (the input type excludes it). -/
noncomputable def noll2degrees (noll : List ℤ) : Py (List (ℤ × ℤ)) :=
  if noll.any (fun j => decide (¬ 0 < j)) then .error .valueError
  else noll.mapM fun j => do
    let p ← npIndex nollInverse (j - 1)
    let n := radialDegree p
    let m := 2 * (p : ℤ) - n * (n + 2)
    return (n, m)

/-- `degrees2noll` (zernike.py:186-199) on pairs of integers.  `.astype(int)` truncates towards zero
(the sum is even, so nothing is lost). -/
def degrees2noll (nm : List (ℤ × ℤ)) : Py (List ℕ) :=
  if nm.any (fun p => decide ((p.1 - p.2) % 2 ≠ 0)) then .error .valueError
  else nm.mapM fun p => npIndex nollMapping ((p.2 + p.1 * (p.1 + 2)).tdiv 2)

/-- `scipy.special.eval_jacobi(k, m, 0, x)` for naturals `k`, `m`: the Jacobi polynomial
`P_k^{(m,0)}(x) = Σ_s C(k,s) C(m+k+s,k) ((x-1)/2)^s` (external; call site zernike.py:297). -/
noncomputable def evalJacobi (k m : ℕ) (x : ℝ) : ℝ :=
  ∑ s ∈ Finset.range (k + 1), (k.choose s : ℝ) * ((m + k + s).choose k : ℝ) * ((x - 1) / 2) ^ s

/-- `_radial_zernike(r, n, m)` (zernike.py:280-299), pointwise, for `n ≥ |m|` (checked by the caller). -/
noncomputable def radialZernike (r : ℝ) (n m : ℤ) : ℝ :=
  if r ≤ 1 then
    if m = 0 ∧ n = 0 then 1
    else
      let m := |m|
      let coef1 := (n + m) / 2
      let coef2 := (n - m) / 2
      let jacobi := evalJacobi coef2.toNat m.toNat (1 - 2 * r ^ 2)
      (-1) ^ coef1.toNat * r ^ m.toNat * jacobi
  else 0

/-- `_zernike(r, theta, n, m, norm)` (zernike.py:302-331), pointwise. -/
noncomputable def zernike1 (r theta : ℝ) (n m : ℤ) (norm : Bool) : ℝ :=
  let mneg : Bool := decide (m < 0)
  let m := |m|
  if (n - m) % 2 ≠ 0 then 0
  else
    let zern := radialZernike r n m
    let zern := if mneg then zern * Real.sin (m * theta) else zern * Real.cos (m * theta)
    if norm then
      let norm := if m = 0 then Real.sqrt (n + 1) else Real.sqrt (2 * (n + 1))
      zern * norm
    else zern

/-- The argument dispatch of `zernike` (zernike.py:236-258): the positional index arguments (as
integer arrays) turned into a list of `(n, m)`.  Two arguments of different shapes cannot be stacked
by `np.asarray` (`ValueError` in NumPy ≥ 1.24). -/
noncomputable def zernikeDegrees (args : List (Arr ℤ)) : Py (List (ℤ × ℤ)) :=
  match args with
  | [a] =>
    match a.shape with
    | [] => noll2degrees a.ravel
    | [_] => noll2degrees a.ravel
    | [k, c] =>
      if k = 2 then
        .ok ((List.range c).map fun i => (a.get [0, i], a.get [1, i]))
      else .error .runtimeError
    | _ => .error .valueError
  | [n, m] =>
    if n.shape ≠ m.shape then .error .valueError
    else if n.shape.length > 1 then .error .valueError
    else .ok (List.zip n.ravel m.ravel)
  | _ => .error .valueError

/-- Right-aligned NumPy broadcast of `a` to `shape`; `ValueError` if impossible. -/
def broadcastTo {α : Type} (shape : List ℕ) (a : Arr α) : Py (Arr α) :=
  let pad := List.replicate (shape.length - a.shape.length) 1 ++ a.shape
  if shape.length < a.shape.length then .error .valueError
  else if (List.zip pad shape).all (fun p => decide (p.1 = p.2 ∨ p.1 = 1)) then
    .ok ⟨shape, fun idx => a.get
      ((List.zipWith (fun (i n : ℕ) => if n = 1 then 0 else i) idx pad).drop (shape.length - a.shape.length))⟩
  else .error .valueError

/-- Re-insert the zeros of axes of length one removed by `squeeze`. -/
def unsqueezeIdx : List ℕ → List ℕ → List ℕ
  | [], _ => []
  | n :: s, idx =>
    if n = 1 then 0 :: unsqueezeIdx s idx
    else match idx with
      | [] => 0 :: unsqueezeIdx s []
      | i :: idx => i :: unsqueezeIdx s idx

/-- `a.squeeze()`. -/
def Arr.squeeze {α : Type} (a : Arr α) : Arr α where
  shape := a.shape.filter (· ≠ 1)
  get idx := a.get (unsqueezeIdx a.shape idx)

open Classical in
/-- `zernike(r, theta, *args, norm=...)` (zernike.py:202-277). -/
noncomputable def zernike (r theta : Arr ℝ) (args : List (Arr ℤ)) (norm : Bool := true) :
    Py (Arr ℝ) := do
  let nm ← zernikeDegrees args
  if ¬ ∀ i, InShape i r.shape → 0 ≤ r.get i then throw .valueError
  if r.shape.length > 2 then throw .valueError
  if nm.any (fun p => decide (¬ |p.2| ≤ p.1)) then throw .valueError
  -- `theta` is only used (and has to broadcast to the shape of `r`) for modes with even `n - m`
  let theta ← if nm.any (fun p => decide ((p.1 - |p.2|) % 2 = 0)) then broadcastTo r.shape theta
    else .ok ⟨r.shape, fun _ => 0⟩
  if nm = [] then return ⟨[0], fun _ => 0⟩
  let stack : Arr ℝ := ⟨nm.length :: r.shape, fun idx =>
    let p := nm.getD (idx.headD 0) (0, 0)
    zernike1 (r.get idx.tail) (theta.get idx.tail) p.1 p.2 norm⟩
  return stack.squeeze

end PyOTF
