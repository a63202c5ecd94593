import Verif.Model.Microscope

/-!
# Floating point sums

The other modules compute with exact real numbers.  Here the part of the code that adds many numbers - `bin_ndarray` and the normalisation of the microscopes'
PSF - is modelled with rounded operations, for an arbitrary rounding function and arbitrary orders of summation (NumPy adds in blocks and pairwise, in an order that depends on
the length, the memory layout and the hardware).
-/

namespace PyOTF

/-- An order of adding elements `0, 1, ...` of a one-dimensional array. -/
inductive SumTree
  | zero
  | leaf (i : ℕ)
  | node (l r : SumTree)

namespace SumTree

/-- The elements that are added. -/
def terms : SumTree → List ℕ
  | zero => []
  | leaf i => [i]
  | node l r => l.terms ++ r.terms

/-- The largest number of additions an element goes through. -/
def height : SumTree → ℕ
  | zero => 0
  | leaf _ => 0
  | node l r => max l.height r.height + 1

/-- The result if every addition is rounded by `fl`. -/
noncomputable def sum (fl : ℝ → ℝ) (f : ℕ → ℝ) : SumTree → ℝ
  | zero => 0
  | leaf i => f i
  | node l r => fl (l.sum fl f + r.sum fl f)

end SumTree

/-- Floating point arithmetic: `fl` rounds the exact result of an operation; `order s idx n` is the order in which reduction number `s` adds the `n` numbers
that make up element `idx` of its result.  Simplified: no overflow, no underflow (numbers are unbounded in both directions). -/
structure Arith where
  fl : ℝ → ℝ
  order : ℕ → List ℕ → ℕ → SumTree

namespace Arith

variable (A : Arith)

/-- `a.sum(ax)` in floating point. -/
noncomputable def sumAxis (s : ℕ) (ax : ℕ) (a : Arr ℝ) : Arr ℝ where
  shape := a.shape.eraseIdx ax
  get idx := (A.order s idx (a.shape.getD ax 0)).sum A.fl fun j => a.get (idx.insertIdx ax j)

/-- `a.sum()` in floating point. -/
noncomputable def sumAll (s : ℕ) (a : Arr ℝ) : ℝ := (A.order s [] a.shape.prod).sum A.fl fun k => a.get (unravel a.shape k)

/-- One step of the reduction loop of `bin_ndarray` (utils.py:341-343) in floating point. -/
noncomputable def binReduce (mean : Bool) (i : ℕ) (a : Arr ℝ) : Arr ℝ :=
  let ax := a.shape.length - (i + 1)
  let s := A.sumAxis i ax a
  if mean then s.map fun v => A.fl (v / (a.shape.getD ax 0 : ℝ)) else s

end Arith

/-- `bin_ndarray` (utils.py:297-344) with a given way to reduce an axis; see `binNdarray`. -/
noncomputable def binNdarrayWith (reduce : Bool → ℕ → Arr ℝ → Arr ℝ) (ndarray : Arr ℝ) (newShape? : Option (List ℕ)) (binSize : Option BinSize)
    (operation : String) : Py (Arr ℝ) := do
  let (ndarray, newShape) ← (match newShape? with
    | none =>
      match binSize with
      | none => .error .valueError
      | some b => do
        let oldShape := ndarray.shape
        let bs ← b.broadcast oldShape.length
        let newShape := List.zipWith (· / ·) oldShape bs
        let crop := (List.zipWith npMod oldShape bs).map fun (r : ℕ) =>
          if r ≠ 0 then (⟨none, some (-(r : ℤ))⟩ : Slice) else Slice.all
        return (ndarray.slice crop, newShape)
    | some s => return (ndarray, s) : Py (Arr ℝ × List ℕ))
  let operation := operation.toLower
  if operation ≠ "sum" ∧ operation ≠ "mean" then throw .valueError
  if ndarray.shape.length ≠ newShape.length then throw .valueError
  if newShape?.isSome ∧ 0 ∈ newShape then throw .zeroDivisionError
  let flattened := (List.zip newShape ndarray.shape).flatMap fun p => [p.1, p.2 / p.1]
  if flattened.prod ≠ ndarray.shape.prod then throw .valueError
  if operation = "mean" ∧ 0 ∈ ndarray.shape ∧ 0 ∉ newShape then throw .nan
  let r := ndarray.reshape flattened
  return (List.range newShape.length).foldl (fun a i => reduce (operation == "mean") i a) r

/-- The exact model is the instance with exact sums. -/
theorem binNdarray_eq : binNdarray = binNdarrayWith binReduce := rfl

namespace Arith

variable (A : Arith)

/-- `bin_ndarray` (utils.py:297-344) in floating point. -/
noncomputable def binNdarray : Arr ℝ → Option (List ℕ) → Option BinSize → String → Py (Arr ℝ) := binNdarrayWith A.binReduce

/-- Binning of the model PSF (microscope.py:112-121) in floating point. -/
noncomputable def binned (oversample : ℤ) (size : ℕ) (psf : Arr ℝ) : Py (Arr ℝ) :=
  if 1 < oversample then
    let shift := oversample / 2
    let psf := if size % 2 = 0 then (psf.roll shift 1).roll shift 2 else psf
    A.binNdarray psf none (some (.seq [1, oversample.toNat, oversample.toNat])) "sum"
  else .ok psf

open Classical in
/-- `psf / psf.sum()` (microscope.py:124) in floating point. -/
noncomputable def normalised (psf : Arr ℝ) : Py (Arr ℝ) :=
  if A.sumAll 3 psf = 0 then .error .nan else .ok (psf.map fun v => A.fl (v / A.sumAll 3 psf))

/-- `PSF` from `model_psf` (microscope.py:112-124) in floating point. -/
noncomputable def microPsf (oversample : ℤ) (size : ℕ) (psf : Arr ℝ) : Py (Arr ℝ) :=
  (A.binned oversample size psf).bind A.normalised

end Arith

end PyOTF
