import Verif.Model.NumPy

/-!
# Specification vocabulary for padding / cropping (independent of `utils.py`)
-/

namespace PyOTF

/-- Lists `old`, `new` of axis lengths and indices `i` (into `new`), `j` (into `old`): on every axis the
offset of `i` from index `(new+1)//2` equals the offset of `j` from index `(old+1)//2`. -/
def Aligned : List ℕ → List ℕ → List ℕ → List ℕ → Prop
  | o :: old, n :: new, i :: is, j :: js =>
    ((i : ℤ) - ((n + 1) / 2 : ℕ) = (j : ℤ) - ((o + 1) / 2 : ℕ)) ∧ Aligned old new is js
  | [], [], [], [] => True
  | _, _, _, _ => False

/-- The index of the FFT centre (where `fftshift` puts frequency zero): `n // 2` on every axis. -/
def fftCentre (shape : List ℕ) : List ℕ := shape.map (· / 2)

/-- The shape requested by a `newshape` with `None` entries ("keep this axis"). -/
def requested (old : List ℕ) (new : List (Option ℕ)) : List ℕ :=
  List.zipWith (fun o n => n.getD o) old new

/-- No empty axis is asked to grow (`np.pad` can only do that with zeros). -/
def NoEmptyGrowth (old new : List ℕ) : Prop :=
  List.Forall₂ (fun o n => o = 0 → n = 0) old new

end PyOTF
