import Mathlib.Algebra.BigOperators.Group.Finset.Basic
import Mathlib.Algebra.Order.Floor.Ring
import Mathlib.Analysis.SpecialFunctions.Complex.Circle
import Mathlib.Data.Complex.Basic

/-!
# Python / NumPy primitives used by pyOTF

This file models the pieces of Python and NumPy that pyOTF calls.  They are external code: the
definitions state the *documented* behaviour (see DESIGN.md, trusted base).  Nothing in here models a
line of `/repo`; each definition names the call sites it is used for.
-/

namespace PyOTF

/-- Python exception classes that can escape from pyOTF calls.  `nan` is not an exception: it is the
out-of-band answer "the returned array contains NaN/inf", used where element values are otherwise
real or complex. -/
inductive Err
  | typeError | valueError | keyError | indexError | attributeError | assertionError
  | runtimeError | zeroDivisionError | unboundLocalError | nan
  deriving DecidableEq, Repr

/-- Result of a Python call. -/
abbrev Py (α : Type) := Except Err α

/-! ## Rounding -/

/-- `np.rint` / `np.round` (round half to even), call sites `utils.py:140,141,399`,
`microscope.py:254`. -/
def rint {K : Type} [Field K] [LinearOrder K] [FloorRing K] (x : K) : ℤ :=
  let f := ⌊x⌋
  if 2 * Int.fract x < 1 then f
  else if 1 < 2 * Int.fract x then f + 1
  else if f % 2 = 0 then f else f + 1

/-! ## Slices -/

/-- `slice(start, stop, None)`. -/
structure Slice where
  start : Option ℤ
  stop : Option ℤ
  deriving DecidableEq, Repr

/-- Python's normalisation of one slice bound on an axis of length `n`: negative bounds count from
the end, everything is clipped to `[0, n]`. -/
def clipBound (n : ℕ) (v : ℤ) : ℕ :=
  if v < 0 then (v + n).toNat else min v.toNat n

/-- First index selected on an axis of length `n`. -/
def Slice.lo (s : Slice) (n : ℕ) : ℕ := s.start.elim 0 (clipBound n)

/-- One past the last index selected on an axis of length `n`. -/
def Slice.hi (s : Slice) (n : ℕ) : ℕ := s.stop.elim n (clipBound n)

/-- Number of selected indices on an axis of length `n` (empty if `hi < lo`). -/
def Slice.len (s : Slice) (n : ℕ) : ℕ := s.hi n - s.lo n

/-- `slice(None)`. -/
def Slice.all : Slice := ⟨none, none⟩

/-! ## Arrays -/

/-- An `ndarray`: its shape and its elements addressed by index lists (C order).  Only indices that
are in range for `shape` are meaningful. -/
structure Arr (α : Type) where
  shape : List ℕ
  get : List ℕ → α

/-- `idx` is a legal (non-negative) index for an array of the given shape. -/
def InShape (idx shape : List ℕ) : Prop := List.Forall₂ (· < ·) idx shape

/-- Same array: equal shape and equal elements at every legal index. -/
def Arr.Same {α : Type} (a b : Arr α) : Prop :=
  a.shape = b.shape ∧ ∀ idx, InShape idx a.shape → a.get idx = b.get idx

/-- All legal indices of a shape in C order (the order of `ravel`, `argmax`, `np.indices`). -/
def indices : List ℕ → List (List ℕ)
  | [] => [[]]
  | n :: s => (List.range n).flatMap fun i => (indices s).map (i :: ·)

/-- `a.ravel()` as a list. -/
def Arr.ravel {α : Type} (a : Arr α) : List α := (indices a.shape).map a.get

/-- Sum of `f` over all legal indices of a shape. -/
def sumIdx {α : Type} [AddCommMonoid α] : List ℕ → (List ℕ → α) → α
  | [], f => f []
  | n :: s, f => ∑ i ∈ Finset.range n, sumIdx s (fun t => f (i :: t))

/-- `a.sum()`. -/
def Arr.sum {α : Type} [AddCommMonoid α] (a : Arr α) : α := sumIdx a.shape a.get

/-- Elementwise function. -/
def Arr.map {α β : Type} (f : α → β) (a : Arr α) : Arr β := ⟨a.shape, fun i => f (a.get i)⟩

/-- Apply a one-dimensional transform `F n : (ℕ → α) → (ℕ → α)` along axis `ax` (`n` is the length of
that axis); the shape is unchanged. -/
def Arr.alongAxis {α : Type} (F : ℕ → (ℕ → α) → ℕ → α) (ax : ℕ) (a : Arr α) : Arr α where
  shape := a.shape
  get idx := F (a.shape.getD ax 0) (fun j => a.get (idx.set ax j)) (idx.getD ax 0)

/-- Source index of element `i` of `np.roll(x, s)` on an axis of length `n`. -/
def rollIdx (n : ℕ) (s : ℤ) (i : ℕ) : ℕ := (((i : ℤ) - s) % (n : ℤ)).toNat

/-- 1-d `np.roll(x, s)` where the shift may depend on the length. -/
def roll1 {α : Type} (s : ℕ → ℤ) (n : ℕ) (x : ℕ → α) (i : ℕ) : α := x (rollIdx n (s n) i)

/-- `np.roll(a, s, axis=ax)`. -/
def Arr.roll {α : Type} (s : ℤ) (ax : ℕ) (a : Arr α) : Arr α := a.alongAxis (roll1 fun _ => s) ax

/-- 1-d `np.fft.fftshift`: roll by `n // 2`. -/
def fftshift1 {α : Type} : ℕ → (ℕ → α) → ℕ → α := roll1 fun n => (n / 2 : ℕ)

/-- 1-d `np.fft.ifftshift`: roll by `-(n // 2)`. -/
def ifftshift1 {α : Type} : ℕ → (ℕ → α) → ℕ → α := roll1 fun n => -(n / 2 : ℕ)

/-- 1-d `np.fft.fft`. -/
noncomputable def fft1 (n : ℕ) (x : ℕ → ℂ) (k : ℕ) : ℂ :=
  ∑ j ∈ Finset.range n, x j * Complex.exp (-(2 * Real.pi * Complex.I * (j * k) / n))

/-- 1-d `np.fft.ifft` (with the `1/n` factor). -/
noncomputable def ifft1 (n : ℕ) (x : ℕ → ℂ) (j : ℕ) : ℂ :=
  (∑ k ∈ Finset.range n, x k * Complex.exp (2 * Real.pi * Complex.I * (j * k) / n)) / n

/-- Apply a 1-d transform along several axes, last axis first (the order of NumPy's `_raw_fftnd`). -/
def Arr.alongAxes {α : Type} (F : ℕ → (ℕ → α) → ℕ → α) (axes : List ℕ) (a : Arr α) : Arr α :=
  axes.foldr (Arr.alongAxis F) a

/-- `axes=None` means all axes. -/
def axesOf (axes : Option (List ℕ)) (shape : List ℕ) : List ℕ :=
  axes.getD (List.range shape.length)

/-- `np.fft.fftshift(a, axes)`. -/
def fftshift {α : Type} (axes : Option (List ℕ)) (a : Arr α) : Arr α :=
  a.alongAxes fftshift1 (axesOf axes a.shape)

/-- `np.fft.ifftshift(a, axes)`. -/
def ifftshift {α : Type} (axes : Option (List ℕ)) (a : Arr α) : Arr α :=
  a.alongAxes ifftshift1 (axesOf axes a.shape)

/-- `np.fft.fftn(a, axes=axes)`.  Simplified: a transformed axis of length 0 makes NumPy raise `ValueError`; here the result is
empty like the argument. -/
noncomputable def fftn (axes : Option (List ℕ)) (a : Arr ℂ) : Arr ℂ :=
  a.alongAxes fft1 (axesOf axes a.shape)

/-- `np.fft.ifftn(a, axes=axes)`.  Simplified as `fftn` is. -/
noncomputable def ifftn (axes : Option (List ℕ)) (a : Arr ℂ) : Arr ℂ :=
  a.alongAxes ifft1 (axesOf axes a.shape)

/-- Integer sample numbers of `np.fft.fftfreq(n, d)`: `0, 1, …, (n-1)//2, -(n//2), …, -1`. -/
def fftfreqNum (n i : ℕ) : ℤ := if i < (n - 1) / 2 + 1 then i else (i : ℤ) - n

/-- `np.fft.fftfreq(n, d)[i] = num[i] * (1.0 / (n * d))`. -/
noncomputable def fftfreq (n : ℕ) (d : ℝ) (i : ℕ) : ℝ := fftfreqNum n i * (1 / (n * d))

/-- Basic indexing `a[slices]` with one slice per leading axis; remaining axes are taken whole.
(More slices than axes raises `IndexError` in NumPy, see `Arr.slice?`.) -/
def Arr.slice {α : Type} (sl : List Slice) (a : Arr α) : Arr α where
  shape := List.zipWith (fun (s : Slice) n => s.len n) (sl ++ List.replicate (a.shape.length - sl.length) Slice.all) a.shape
  get idx := a.get (List.zipWith (fun (i lo : ℕ) => lo + i) idx
    (List.zipWith (fun (s : Slice) n => s.lo n) (sl ++ List.replicate (a.shape.length - sl.length) Slice.all) a.shape))

/-- `a[(Ellipsis,) + slices]`: the slices apply to the trailing axes. -/
def Arr.sliceTrailing {α : Type} (sl : List Slice) (a : Arr α) : Arr α :=
  a.slice (List.replicate (a.shape.length - sl.length) Slice.all ++ sl)

/-- `np.pad` modes: `'constant'` with zeros, or any other mode, represented by the value it puts at
each index outside the original data (it may depend on the data in any way). -/
inductive PadMode (α : Type)
  | constant
  | other (fill : Arr α → List ℕ → α)

/-- Is padded index `idx` inside the original data (offsets `lo`, original shape `shape`)? -/
def insideB : List ℕ → List ℕ → List ℕ → Bool
  | i :: idx, p :: lo, n :: shape => decide (p ≤ i) && decide (i < p + n) && insideB idx lo shape
  | [], [], [] => true
  | _, _, _ => false

/-- `np.pad(a, widths, mode)` with one `(before, after)` pair per axis. -/
def Arr.pad {α : Type} [Zero α] (w : List (ℕ × ℕ)) (mode : PadMode α) (a : Arr α) : Arr α where
  shape := List.zipWith (fun (p : ℕ × ℕ) n => p.1 + n + p.2) w a.shape
  get idx :=
    if insideB idx (w.map Prod.fst) a.shape then
      a.get (List.zipWith (fun i (p : ℕ × ℕ) => i - p.1) idx w)
    else match mode with
      | .constant => 0
      | .other fill => fill a idx

/-- Position of the first maximum of a list (`np.argmax`), given a strict order test. -/
def argmaxAux {α : Type} [LinearOrder α] : List α → ℕ → α → ℕ → ℕ
  | [], best, _, _ => best
  | x :: xs, best, bv, i => if bv < x then argmaxAux xs i x (i + 1) else argmaxAux xs best bv (i + 1)

/-- `np.argmax` of a flattened array; raises `ValueError` on an empty one. -/
def argmax {α : Type} [LinearOrder α] : List α → Py ℕ
  | [] => .error .valueError
  | x :: xs => .ok (argmaxAux xs 0 x 1)

/-- `np.unravel_index(k, shape)`. -/
def unravel (shape : List ℕ) (k : ℕ) : List ℕ :=
  match shape with
  | [] => []
  | _ :: s => (k / s.prod) :: unravel s (k % s.prod)

/-- Flat C-order position of an index. -/
def flatten : List ℕ → List ℕ → ℕ
  | _ :: s, i :: idx => i * s.prod + flatten s idx
  | _, _ => 0

/-- `a.reshape(shape)` (the caller has checked that the sizes agree). -/
def Arr.reshape {α : Type} (shape : List ℕ) (a : Arr α) : Arr α where
  shape := shape
  get idx := a.get (unravel a.shape (flatten shape idx))

/-- `a.sum(ax)` for a non-negative axis: sum along one axis, which disappears. -/
def Arr.sumAxis {α : Type} [AddCommMonoid α] (ax : ℕ) (a : Arr α) : Arr α where
  shape := a.shape.eraseIdx ax
  get idx := ∑ j ∈ Finset.range (a.shape.getD ax 0), a.get (idx.insertIdx ax j)

end PyOTF
