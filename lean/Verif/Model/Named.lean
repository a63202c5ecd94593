import Verif.Model.Zernike

/-!
# Named aberrations (`otf.py:642-697`)

Coefficient vectors are lists of reals (exact arithmetic).  A `dict` is an association list with
distinct keys in insertion order.
-/

namespace PyOTF

/-- `d[key]` on an association list; `KeyError` if absent. -/
def dictGet {α : Type} (d : List (String × α)) (key : String) : Py α :=
  match d.lookup key with
  | some v => .ok v
  | none => .error .keyError

/-- `named_aberration_to_pcoefs` (otf.py:648-673). -/
noncomputable def namedAberrationToPcoefs (aberration : String) (magnitude : ℝ) : Py (List ℝ) := do
  let noll ← dictGet name2noll aberration
  let pcoefs := List.replicate name2noll.length (0 : ℝ)
  return pcoefs.set (noll - 1) magnitude

/-- The coefficient sum of `apply_named_aberrations` (otf.py:692-695). -/
noncomputable def namedAberrationsPcoefs (aberrations : List (String × ℝ)) : Py (List ℝ) :=
  aberrations.foldlM (fun pcoefs p => do
    let c ← namedAberrationToPcoefs p.1 p.2
    return List.zipWith (· + ·) pcoefs c) (List.replicate name2noll.length (0 : ℝ))

end PyOTF
