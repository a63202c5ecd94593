import Verif.Model.NumPy
import Mathlib.Analysis.SpecialFunctions.Complex.Arg
import Mathlib.Analysis.SpecialFunctions.Pow.Real

/-!
# Model of `pyotf/utils.py`

`NumericProperty` (utils.py:174-215) is modelled in `Verif.Model.PyVal` because it needs Python's
dynamic values.
-/

namespace PyOTF

/-- `_calc_crop` (utils.py:16-20). -/
def calcCrop (s1 s2 : ℤ) : Slice :=
  let a1 : Option ℤ := if s1 < 0 then some |s1| else none
  let a2 : Option ℤ := if s2 < 0 then some s2 else none
  ⟨a1, a2⟩

/-- `_calc_pad` (utils.py:23-63).  Python's `//` and `%` by 2 are `/` and `%` on `ℤ` (both floor). -/
def calcPad (oldnum newnum : ℤ) : ℤ × ℤ :=
  let width := newnum - oldnum
  let pad_s := width / 2
  let pad_b := width - pad_s
  if oldnum % 2 ≠ 0 then (pad_s, pad_b) else (pad_b, pad_s)

/-- First comprehension of `_padding_slices` (utils.py:72-74): raw (possibly negative) pad widths.
`zip` truncates to the shorter of the two shapes. -/
def rawPadding (oldshape : List ℕ) (newshape : List (Option ℕ)) : List (ℤ × ℤ) :=
  List.zipWith (fun (o : ℕ) (n : Option ℕ) =>
    match n with
    | some n => calcPad o n
    | none => calcPad o o) oldshape newshape

/-- `_padding_slices` (utils.py:66-79): pad widths clipped at 0, and crop slices. -/
def paddingSlices (oldshape : List ℕ) (newshape : List (Option ℕ)) :
    List (ℕ × ℕ) × List Slice :=
  let padding := rawPadding oldshape newshape
  let slices := padding.map fun s => calcCrop s.1 s.2
  let padding := padding.map fun s => ((max s.1 0).toNat, (max s.2 0).toNat)
  (padding, slices)

/-- `np.pad`'s interpretation of a list of `(before, after)` pairs for `ndim` axes: an empty list is a
float array (`TypeError`), a single pair is used for every axis, any other length mismatch is a
`ValueError`. -/
def asPairs (w : List (ℕ × ℕ)) (ndim : ℕ) : Py (List (ℕ × ℕ)) :=
  match w with
  | [] => .error .typeError
  | p :: w' =>
    if w'.length + 1 = ndim then .ok (p :: w')
    else if w' = [] then .ok (List.replicate ndim p) else .error .valueError

/-- `np.pad`'s check that only `mode='constant'` extends an empty axis. -/
def emptyAxisCheck {α : Type} (w : List (ℕ × ℕ)) (mode : PadMode α) (shape : List ℕ) : Py Unit :=
  match mode with
  | .constant => .ok ()
  | .other _ =>
    if (List.zip w shape).any (fun p => decide (p.2 = 0 ∧ p.1 ≠ (0, 0))) then .error .valueError
    else .ok ()

/-- The `newshape` argument of `fft_pad`: omitted, an iterable (whose entries may be `None`) or one
`int`.  Other Python objects are rejected by the real code and are not modelled. -/
inductive NewShape
  | omitted
  | seq (s : List (Option ℕ))
  | int (n : ℕ)

/-- `fft_pad` (utils.py:82-100).  `nextFast` stands for `scipy.fftpack.next_fast_len`. -/
def fftPad {α : Type} [Zero α] (nextFast : ℕ → ℕ) (array : Arr α) (newshape : NewShape)
    (mode : PadMode α) : Py (Arr α) := do
  let oldshape := array.shape
  let newshape : List (Option ℕ) := match newshape with
    | .omitted => oldshape.map fun n => some (nextFast n)
    | .seq s => s
    | .int n => oldshape.map fun _ => some n
  let (padding, slices) := paddingSlices oldshape newshape
  let w ← asPairs padding oldshape.length
  emptyAxisCheck w mode (array.slice slices).shape
  return (array.slice slices).pad w mode

/-- A numeric scalar handed to `slice_maker`: real (every finite float is rational) or complex. -/
inductive Num
  | real (q : ℚ)
  | cplx (re im : ℚ)

/-- The `ws` argument of `slice_maker`: a scalar or a sequence. -/
inductive Widths
  | scalar (w : Num)
  | seq (ws : List Num)

/-- `scipy.ndimage._ni_support._normalize_sequence(ws, rank)` (called at utils.py:134). -/
def normalizeSequence (ws : Widths) (rank : ℕ) : Py (List Num) :=
  match ws with
  | .scalar w => .ok (List.replicate rank w)
  | .seq ws => if ws.length = rank then .ok ws else .error .runtimeError

/-- The real value of a `Num` if it is real. -/
def Num.real? : Num → Option ℚ
  | .real q => some q
  | .cplx _ _ => none

/-- One iteration of the loop of `slice_maker` (utils.py:144-152) for integer `x`, `w`. -/
def sliceOne (x w : ℤ) : Py Slice :=
  let (half2, half1) := calcPad 0 w
  let xstart := x - half1
  let xend := x + half2
  if ¬ (xstart ≤ xend) then .error .assertionError
  else
    let (xstart, xend) := if xend ≤ 0 then ((0 : ℤ), (0 : ℤ)) else (xstart, xend)
    .ok ⟨some (max 0 xstart), some xend⟩

/-- `slice_maker` (utils.py:103-154). -/
def sliceMaker (xs : List Num) (ws : Widths) : Py (List Slice) := do
  let ws ← normalizeSequence ws xs.length
  match xs.mapM Num.real?, ws.mapM Num.real? with
  | some xs, some ws =>
    if ws.any (fun w => decide (w < 0)) then .error .valueError
    else
      let xs := xs.map rint
      let ws := ws.map rint
      (List.zip xs ws).mapM fun p => sliceOne p.1 p.2
  | _, _ => .error .typeError

/-- `easy_fft` (utils.py:157-159). -/
noncomputable def easyFft (axes : Option (List ℕ)) (data : Arr ℂ) : Arr ℂ :=
  fftshift axes (fftn axes (ifftshift axes data))

/-- `easy_ifft` (utils.py:162-164). -/
noncomputable def easyIfft (axes : Option (List ℕ)) (data : Arr ℂ) : Arr ℂ :=
  ifftshift axes (ifftn axes (fftshift axes data))

/-- `cart2pol` (utils.py:167-171), pointwise, returning `(rho, theta)`.  `np.arctan2(y, x)` is
`Complex.arg (x + i y)` (signed zeros are not modelled). -/
noncomputable def cart2pol (y x : ℝ) : ℝ × ℝ :=
  let theta := Complex.arg ⟨x, y⟩
  let rho := Real.sqrt (y ^ 2 + x ^ 2)
  (rho, theta)

/-- `center_data` (utils.py:218-239). -/
def centerData {α : Type} [LinearOrder α] (data : Arr α) : Py (Arr α) := do
  let k ← argmax data.ravel
  let maxLoc := unravel data.shape k
  return (List.zip maxLoc data.shape).zipIdx.foldl
    (fun (a : Arr α) (p : (ℕ × ℕ) × ℕ) => a.roll ((p.1.2 / 2 : ℕ) - (p.1.1 : ℤ)) p.2) data

/-- `np.bincount(l)` for integers; `ValueError` on a negative entry. -/
def bincount (l : List ℤ) : Py (List ℕ) :=
  if l.any (fun v => decide (v < 0)) then .error .valueError
  else .ok ((List.range (l.foldr (fun v m => max (v.toNat + 1) m) 0)).map fun (v : ℕ) => l.count (v : ℤ))

/-- `np.bincount(data.ravel()).argmax()` of `remove_bg` (utils.py:249). -/
def modeOf (l : List ℤ) : Py ℕ := do
  let counts ← bincount l
  argmax counts

/-- `remove_bg` (utils.py:242-250) for integer data (other dtypes are rejected by `np.bincount`). -/
noncomputable def removeBg (data : Arr ℤ) (multiplier : ℝ) : Py (Arr ℝ) := do
  let mode ← modeOf data.ravel
  return data.map fun (v : ℤ) => (v : ℝ) - multiplier * (mode : ℝ)

/-- `psqrt` (utils.py:253-255), pointwise. -/
noncomputable def psqrt (x : ℝ) : ℝ := Real.sqrt (max 0 x)

/-- `prep_data_for_PR` (utils.py:258-294).  The `ValueError` of unpacking a shape that is not
3-dimensional is kept. -/
noncomputable def prepDataForPR (data : Arr ℤ) (xysize : Option ℕ) (multiplier : ℝ) : Py (Arr ℝ) :=
  match data.shape with
  | [nz, ny, nx] => do
    let dataWithoutBg ← removeBg data multiplier
    let xysize := xysize.getD (max ny nx)
    if xysize = ny ∧ ny = nx then
      return dataWithoutBg.map (max 0)
    else if xysize ≥ max ny nx then
      let padData ← fftPad id dataWithoutBg (.seq [some nz, some xysize, some xysize]) .constant
      return padData.map (max 0)
    else
      let mySlice ← sliceMaker [.real ((ny + 1) / 2 : ℕ), .real ((nx + 1) / 2 : ℕ)]
        (.scalar (.real xysize))
      let c ← centerData dataWithoutBg
      return c.sliceTrailing mySlice
  | _ => .error .valueError

/-- The `bin_size` argument of `bin_ndarray`. -/
inductive BinSize
  | scalar (b : ℕ)
  | seq (bs : List ℕ)

/-- NumPy broadcasting of `bin_size` against the shape vector (utils.py:323,325).  A 1-d array with a
longer `bin_size` makes too many crop slices: `IndexError`. -/
def BinSize.broadcast (b : BinSize) (ndim : ℕ) : Py (List ℕ) :=
  match b with
  | .scalar b => .ok (List.replicate ndim b)
  | .seq bs =>
    if bs.length = ndim then .ok bs
    else match bs with
      | [b] => .ok (List.replicate ndim b)
      | _ => if ndim = 1 then .error .indexError else .error .valueError

/-- `old_shape % bin_size` with NumPy's convention `n % 0 = 0`. -/
def npMod (n b : ℕ) : ℕ := if b = 0 then 0 else n % b

/-- One step of the reduction loop of `bin_ndarray` (utils.py:341-343): sum or mean over the axis
`-1 * (i + 1)`. -/
noncomputable def binReduce (mean : Bool) (i : ℕ) (a : Arr ℝ) : Arr ℝ :=
  let ax := a.shape.length - (i + 1)
  let s := a.sumAxis ax
  if mean then s.map (· / (a.shape.getD ax 0 : ℝ)) else s

/-- `bin_ndarray` (utils.py:297-344) on real data.  A zero in an explicit `new_shape` divides a Python
`int` by zero (utils.py:335); computed shapes are NumPy integers, for which `c // 0 = 0`.  Means over an
empty axis (possible only if an empty array is to get a non-empty shape) are NaN: `Err.nan`. -/
noncomputable def binNdarray (ndarray : Arr ℝ) (newShape? : Option (List ℕ)) (binSize : Option BinSize)
    (operation : String) : Py (Arr ℝ) := do
  let (ndarray, newShape) ← (match newShape? with
    | none =>
      match binSize with
      | none => .error .valueError
      | some b => do
        let oldShape := ndarray.shape
        let bs ← b.broadcast oldShape.length
        let newShape := List.zipWith (· / ·) oldShape bs
        let crop := (List.zipWith npMod oldShape bs).map fun (r : ℕ) =>
          if r ≠ 0 then (⟨none, some (-(r : ℤ))⟩ : Slice) else Slice.all
        return (ndarray.slice crop, newShape)
    | some s => return (ndarray, s) : Py (Arr ℝ × List ℕ))
  let operation := operation.toLower
  if operation ≠ "sum" ∧ operation ≠ "mean" then throw .valueError
  if ndarray.shape.length ≠ newShape.length then throw .valueError
  if newShape?.isSome ∧ 0 ∈ newShape then throw .zeroDivisionError
  let flattened := (List.zip newShape ndarray.shape).flatMap fun p => [p.1, p.2 / p.1]
  if flattened.prod ≠ ndarray.shape.prod then throw .valueError
  if operation = "mean" ∧ 0 ∈ ndarray.shape ∧ 0 ∉ newShape then throw .nan
  let r := ndarray.reshape flattened
  return (List.range newShape.length).foldl (fun a i => binReduce (operation == "mean") i a) r

/-- Ring number of an index in `radial_profile` (utils.py:388-399): the rounded distance to the
centre in units of `binsize`. -/
noncomputable def ringOf (center : List ℝ) (binsize : ℝ) (idx : List ℕ) : ℤ :=
  rint (Real.sqrt ((List.zipWith (fun (i : ℕ) (c : ℝ) => ((i : ℝ) - c) ^ 2) idx center).sum) / binsize)

/-- `np.sqrt` with NaN (= `none`) on negative input. -/
noncomputable def npSqrt (x : ℝ) : Option ℝ := if x < 0 then none else some (Real.sqrt x)

/-- Centre used by `radial_profile` (utils.py:389-396); a one-element centre broadcasts.  Simplified:
1-d data with a longer centre (which NumPy broadcasts the other way round) is not modelled. -/
noncomputable def radialCenter (shape : List ℕ) (center : Option (List ℝ)) : Py (List ℝ) :=
  match center with
  | none => .ok (shape.map fun n => ((n / 2 : ℕ) : ℝ))
  | some c =>
    if c.length = shape.length then .ok c
    else match c with
      | [x] => .ok (List.replicate shape.length x)
      | _ => .error .valueError

/-- `radial_profile` for real data (utils.py:387-413).  Entry `k` of the two results is `none` (NaN)
when ring `k` is empty (0/0).  `binsize = 0` is not modelled; `np.int` is read as `int`. -/
noncomputable def radialProfile (data : Arr ℝ) (center : Option (List ℝ)) (binsize : ℝ) :
    Py (List (Option ℝ) × List (Option ℝ)) := do
  let center ← radialCenter data.shape center
  let idx := indices data.shape
  if idx.any (fun i => decide (ringOf center binsize i < 0)) then throw .valueError
  let ring := fun i => (ringOf center binsize i).toNat
  let nbins := idx.foldr (fun i m => max (ring i + 1) m) 0
  let inRing := fun k => idx.filter fun i => ring i == k
  let tbin := fun k => ((inRing k).map data.get).sum
  let tbin2 := fun k => ((inRing k).map fun i => data.get i ^ 2).sum
  let nr := fun k => (inRing k).length
  let mean := fun k => if nr k = 0 then none else some (tbin k / (nr k : ℝ))
  let std := fun k =>
    if nr k = 0 then none else npSqrt (tbin2 k / (nr k : ℝ) - (tbin k / (nr k : ℝ)) ^ 2)
  return ((List.range nbins).map mean, (List.range nbins).map std)

/-- `radial_profile` for complex data (utils.py:377-382): profiles of the real and imaginary parts,
combined; NaN in either part gives NaN. -/
noncomputable def radialProfileC (data : Arr ℂ) (center : Option (List ℝ)) (binsize : ℝ) :
    Py (List (Option ℂ) × List (Option ℝ)) := do
  let (rp, rs) ← radialProfile (data.map Complex.re) center binsize
  let (ip, is) ← radialProfile (data.map Complex.im) center binsize
  let prof := List.zipWith (fun (a b : Option ℝ) => a.bind fun a => b.map fun b => (⟨a, b⟩ : ℂ)) rp ip
  let std := List.zipWith
    (fun (a b : Option ℝ) => a.bind fun a => b.map fun b => Real.sqrt (a ^ 2 + b ^ 2)) rs is
  return (prof, std)

end PyOTF
