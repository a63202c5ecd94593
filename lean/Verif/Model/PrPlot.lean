import Verif.Model.PhaseRetrieval
import Verif.Model.Named

/-!
# The plots of `pyotf/phaseretrieval.py`

phaseretrieval.py:238-257, 287-320, 340-382.  A plot is modelled by what is handed to matplotlib: images with their mask and limits, curves,
bars with their labels.  Not modelled: figure creation, the optional `axs`, colour maps, norms, layout, NumPy's adaptation of a mask of
another shape in `np.ma.array` (both arrays come from one object and have the same shape; another shape is an error here).
-/

namespace PyOTF

/-- One image: `none` is a masked pixel. -/
structure MaskedImage where
  title : String
  image : Arr (Option ℝ)
  /-- `vmin`, `vmax` -/
  limits : Option (ℝ × ℝ)

open Classical in
/-- `np.ma.array(phase, mask=mag == 0)` (external; call site phaseretrieval.py:363). -/
noncomputable def maskWhereZero (phase mag : Arr ℝ) : Py (Arr (Option ℝ)) :=
  if mag.shape ≠ phase.shape then .error .valueError
  else .ok ⟨phase.shape, fun i => if mag.get i = 0 then none else some (phase.get i)⟩

/-- `ax.matshow(a)` (external): only matrices can be shown. -/
def matshow {α : Type} (a : Arr α) : Py (Arr α) := if a.shape.length ≠ 2 then .error .valueError else .ok a

/-- `_plot_complex_pupil(mag, phase)` (phaseretrieval.py:353-382). -/
noncomputable def plotComplexPupil (mag phase : Arr ℝ) : Py (List MaskedImage) := do
  let p ← matshow (← maskWhereZero phase mag)
  let m ← matshow mag
  return [⟨"Pupil Phase", p, some (-Real.pi, Real.pi)⟩, ⟨"Pupil Magnitude", m.map some, none⟩]

/-- `PhaseRetrievalResult.plot()` (phaseretrieval.py:238-240). -/
noncomputable def PRResult.plot (x : PRResult) : Py (List MaskedImage) := plotComplexPupil x.mag x.phase

/-- `ZernikeDecomposition.plot(smag, sphase)` (phaseretrieval.py:340-352). -/
noncomputable def ZD.plot (z : ZD) (smag : Slice := Slice.all) (sphase : Slice := Slice.all) : Py (List MaskedImage) := do
  let mag ← z.mag smag
  let phase ← z.phase sphase
  plotComplexPupil mag phase

/-- `PhaseRetrievalResult.plot_convergence()` (phaseretrieval.py:242-257): title and points of every curve. -/
noncomputable def PRResult.plotConvergence (x : PRResult) : List (String × List NpReal) :=
  List.zip ["Mean Squared Error", "Relative Change in MSE", "Relative Change in Pupil"] [x.mse.map .fin, x.mseDiff, x.pupilDiff]

/-- `str.title()` of ASCII text (external): letters after a letter are lower case, other letters upper case. -/
def titleChars : Bool → List Char → List Char
  | _, [] => []
  | prev, c :: l => (if prev then c.toLower else c.toUpper) :: titleChars c.isAlpha l

/-- `s.title()`. -/
def title (s : String) : String := String.ofList (titleChars false s.toList)

/-- One bar. -/
structure Bar where
  x : ℕ
  height : ℝ
  label : Option String

/-- `ax.bar(x, heights, tick_label=labels)` (external): positions and heights are broadcast against each other. -/
def bar (x : List ℕ) (heights : List ℝ) (labels : Option (List String)) : Py (List Bar) :=
  let n := if x.length = 1 then heights.length else x.length
  let get {α : Type} (l : List α) (d : α) (k : ℕ) : α := if l.length = 1 then l.headD d else l.getD k d
  if x.length ≠ heights.length ∧ x.length ≠ 1 ∧ heights.length ≠ 1 then .error .valueError
  else .ok ((List.range n).map fun k => ⟨get x 0 k, get heights 0 k, labels.map fun l => l.getD k ""⟩)

/-- `ordered_names` (phaseretrieval.py:295). -/
def orderedNames : Py (List String) :=
  (List.range noll2name.length).mapM fun i =>
    match noll2name.lookup (i + 1) with
    | some n => .ok (title n)
    | none => .error .keyError

/-- `plot_named_coefs()` (phaseretrieval.py:287-308). -/
noncomputable def ZD.plotNamedCoefs (z : ZD) : Py (List Bar) := do
  let names ← orderedNames
  let x := (List.range names.length).map (· + 1)
  let data := z.pcoefs.take names.length
  bar (x.drop 4) (data.drop 4) (some (names.drop 4))

/-- `plot_coefs()` (phaseretrieval.py:310-320): title and bars of both panels. -/
noncomputable def ZD.plotCoefs (z : ZD) : Py (List (String × List Bar)) := do
  let m ← bar ((List.range z.mcoefs.length).map (· + 1)) z.mcoefs none
  let p ← bar ((List.range z.pcoefs.length).map (· + 1)) z.pcoefs none
  return List.zip ["Magnitude Coefficients", "Phase Coefficients"] [m, p]

end PyOTF
