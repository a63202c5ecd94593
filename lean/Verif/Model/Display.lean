import Verif.Model.NumPy
import Mathlib.Analysis.SpecialFunctions.Trigonometric.Inverse
import Mathlib.Data.Finset.Lattice.Fold

/-!
# `pyotf/display.py`

Numbers are exact reals.  A plot is modelled by what is handed to matplotlib: for every panel its title, image, extent and
patches.  Not modelled: colour maps, norms, figure creation, ticks, the optional `fig`, `loc` and keyword arguments.
-/

namespace PyOTF

/-- `max_min(n, d)` (display.py:23-46). -/
noncomputable def maxMin (n : ℤ) (d : ℝ) : ℝ × ℝ :=
  let min_ := ((n / 2 : ℤ) : ℝ) * d
  let max_ := ((n / 2 - (n - 1) % 2 : ℤ) : ℝ) * d
  (-min_, max_)

open Classical in
/-- `fft_max_min(n, d)` (display.py:49-71). -/
noncomputable def fftMaxMin (n : ℤ) (d : ℝ) : Py (ℝ × ℝ) :=
  if d = 0 ∨ n = 0 then .error .zeroDivisionError
  else
    let stepSize := 1 / d / n
    .ok (maxMin n stepSize)

/-- The inner function of `z_squeeze` (display.py:84-85). -/
noncomputable def zFunc (na n : ℝ) : ℝ := n - Real.sqrt (max 0 (n ^ 2 - na ^ 2))

open Classical in
/-- `z_squeeze(n1, n2, na)` (display.py:74-87); the quotient is one of NumPy floats, `Err.nan` stands for NaN or an infinity. -/
noncomputable def zSqueeze (n1 n2 na : ℝ) : Py ℝ :=
  if n1 = n2 then .ok 1
  else if zFunc na n2 = 0 then .error .nan
  else .ok (zFunc na n1 / zFunc na n2)

/-! ## Panels -/

/-- `a.max(ax)` (external): a `ValueError` if the axis is empty. -/
noncomputable def Arr.maxAxis (ax : ℕ) (a : Arr ℝ) : Py (Arr ℝ) :=
  if h : a.shape.getD ax 0 = 0 then .error .valueError
  else .ok ⟨a.shape.eraseIdx ax, fun idx =>
    (Finset.range (a.shape.getD ax 0)).sup' ⟨0, Finset.mem_range.mpr (Nat.pos_of_ne_zero h)⟩ fun j => a.get (idx.insertIdx ax j)⟩

/-- `a[.., k, ..]` with `k` on axis `ax` (external): an `IndexError` if out of range. -/
def Arr.takeAxis (ax k : ℕ) (a : Arr ℝ) : Py (Arr ℝ) :=
  if a.shape.getD ax 0 ≤ k then .error .indexError
  else .ok ⟨a.shape.eraseIdx ax, fun idx => a.get (idx.insertIdx ax k)⟩

/-- `a.T` (external). -/
def Arr.T (a : Arr ℝ) : Arr ℝ := ⟨a.shape.reverse, fun idx => a.get idx.reverse⟩

/-- `patches.Wedge(center, r, theta1, theta2, width=0)`: an arc; angles in degrees. -/
structure Wedge where
  x : ℝ
  y : ℝ
  r : ℝ
  theta1 : ℝ
  theta2 : ℝ

/-- One panel: `imshow(image, extent=(left, right, bottom, top))`, its title and patches. -/
structure Panel where
  title : String
  image : Arr ℝ
  left : ℝ
  right : ℝ
  bottom : ℝ
  top : ℝ
  /-- radius of a circle around the origin -/
  circle : Option ℝ := none
  wedges : List Wedge := []

/-- `psf_plot(psf, zres=zres, res=res, mip=mip)` (display.py:90-171): the panels `grid[3]`, `grid[2]`, `grid[1]`. -/
noncomputable def psfPlot (psf : Arr ℝ) (zres res : ℝ) (mip : Bool := true) : Py (List Panel) :=
  match psf.shape with
  | [nz, ny, nx] => do
    let kz := maxMin nz zres
    let ky := maxMin ny res
    let kx := maxMin nx res
    let g3 ← if mip then psf.maxAxis 0 else psf.takeAxis 0 (nz / 2)
    let g2 ← if mip then psf.maxAxis 1 else psf.takeAxis 1 (ny / 2)
    let g1 ← if mip then psf.maxAxis 2 else psf.takeAxis 2 (nx / 2)
    return [Panel.mk "$XY$" g3 kx.1 kx.2 ky.1 ky.2 none [], Panel.mk "$YZ$" g2.T kz.1 kz.2 ky.1 ky.2 none [],
      Panel.mk "$XZ$" g1 kx.1 kx.2 kz.1 kz.2 none []]
  | _ => .error .valueError

/-- `np.rad2deg` (external). -/
noncomputable def rad2deg (x : ℝ) : ℝ := x * 180 / Real.pi

/-- The arcs of one panel (display.py:259-274) for the value `b` of the loop variable. -/
noncomputable def bowtie (nl a b : ℝ) : List Wedge :=
  [0, Real.pi].flatMap fun j => [0, Real.pi].map fun i =>
    Wedge.mk (nl * Real.sin (a + b + j)) (nl * Real.cos (a + b + i)) nl
      (rad2deg (-a - Real.pi / 2 + i * Real.cos b - (j + Real.pi) * Real.sin b + b))
      (rad2deg (a - Real.pi / 2 + i * Real.cos b - (j + Real.pi) * Real.sin b + b))

open Classical in
/-- `otf_plot(otf, na=na, ni=ni, wl=wl, zres=zres, res=res)` (display.py:174-276): the panels `grid[3]`, `grid[2]`,
`grid[1]`. -/
noncomputable def otfPlot (otf : Arr ℝ) (na ni wl zres res : ℝ) : Py (List Panel) :=
  match otf.shape with
  | [nz, ny, nx] => do
    if nx ≠ ny then throw .assertionError
    let kz ← fftMaxMin nz zres
    let ky ← fftMaxMin ny res
    let kx ← fftMaxMin nx res
    let g3 ← otf.takeAxis 0 (nz / 2)
    let g2 ← otf.takeAxis 1 (ny / 2)
    let g1 ← otf.takeAxis 2 (nx / 2)
    if ni = 0 ∨ wl = 0 then throw .zeroDivisionError
    let a := Real.arcsin (min 1 (na / ni))
    let nl := ni / wl
    return [Panel.mk "$k_{XY}$" g3 kx.1 kx.2 ky.1 ky.2 (some (2 * na / wl)) [],
      Panel.mk "$k_{YZ}$" g2.T kz.1 kz.2 ky.1 ky.2 none (bowtie nl a (Real.pi / 2)),
      Panel.mk "$k_{XZ}$" g1 kx.1 kx.2 kz.1 kz.2 none (bowtie nl a 0)]
  | _ => .error .valueError

end PyOTF
