import Verif.Model.Rounding
import Verif.Model.Zernike

/-!
# Whole numbers computed through floating point

`noll2degrees`, `degrees2noll` and `radial_profile` compute whole numbers (radial degrees, positions in a table, ring numbers) from rounded square roots and quotients.  The other modules use
exact real numbers there; here every operation is rounded, as in `Model/Rounding.lean`.
-/

namespace PyOTF

namespace Arith

variable (A : Arith)

/-- `np.ceil((-3 + np.sqrt(9 + 8 * p)) / 2)` (zernike.py:181) in floating point; `9 + 8 * p` is an integer. -/
noncomputable def radialDegree (p : ℕ) : ℤ := ⌈A.fl (A.fl (-3 + A.fl (Real.sqrt (9 + 8 * p))) / 2)⌉

/-- The value converted by `.astype(int)`: truncation. -/
noncomputable def trunc (x : ℝ) : ℤ := if 0 ≤ x then ⌊x⌋ else ⌈x⌉

/-- `noll2degrees` (zernike.py:172-183) in floating point: `n` is a float array, so `m = 2 * p - n * (n + 2)` is computed in floating point, too. -/
noncomputable def noll2degrees (noll : List ℤ) : Py (List (ℤ × ℤ)) :=
  if noll.any (fun j => decide (¬ 0 < j)) then .error .valueError
  else noll.mapM fun j => do
    let p ← npIndex nollInverse (j - 1)
    let n : ℝ := A.radialDegree p
    let m := A.fl (2 * (p : ℝ) - A.fl (n * A.fl (n + 2)))
    return (trunc n, trunc m)

/-- `degrees2noll` (zernike.py:186-199) in floating point: the quotient by 2 is a float. -/
noncomputable def degrees2noll (nm : List (ℤ × ℤ)) : Py (List ℕ) :=
  if nm.any (fun p => decide ((p.1 - p.2) % 2 ≠ 0)) then .error .valueError
  else nm.mapM fun p => npIndex nollMapping (trunc (A.fl (A.fl ((p.2 + p.1 * (p.1 + 2) : ℤ) : ℝ) / 2)))

/-- Ring number of an index in `radial_profile` (utils.py:388-399) in floating point.  With the default centre the squares and their sum are integers, which is the
case of exact rounding. -/
noncomputable def ringOf (center : List ℝ) (binsize : ℝ) (idx : List ℕ) : ℤ :=
  rint (A.fl (A.fl (Real.sqrt ((List.zipWith (fun (i : ℕ) (c : ℝ) => A.fl (A.fl ((i : ℝ) - c) ^ 2)) idx center).foldl (fun s x => A.fl (s + x)) 0)) / binsize))

/-- `radial_profile` for real data (utils.py:387-413) in floating point; see `radialProfile`.  Reductions 0 and 1 are the two weighted `np.bincount`. -/
noncomputable def radialProfile (data : Arr ℝ) (center : Option (List ℝ)) (binsize : ℝ) : Py (List (Option ℝ) × List (Option ℝ)) := do
  let center ← radialCenter data.shape center
  let idx := indices data.shape
  if idx.any (fun i => decide (A.ringOf center binsize i < 0)) then throw .valueError
  let ring := fun i => (A.ringOf center binsize i).toNat
  let nbins := idx.foldr (fun i m => max (ring i + 1) m) 0
  let inRing := fun k => idx.filter fun i => ring i == k
  let nr := fun k => (inRing k).length
  let tbin := fun k => (A.order 0 [k] (nr k)).sum A.fl fun j => data.get ((inRing k).getD j [])
  let tbin2 := fun k => (A.order 1 [k] (nr k)).sum A.fl fun j => A.fl (data.get ((inRing k).getD j []) ^ 2)
  let radialMean := fun k => A.fl (tbin k / (nr k : ℝ))
  let mean := fun k => if nr k = 0 then none else some (radialMean k)
  let std := fun k =>
    if nr k = 0 then none else (npSqrt (A.fl (A.fl (tbin2 k / (nr k : ℝ)) - A.fl (radialMean k ^ 2)))).map A.fl
  return ((List.range nbins).map mean, (List.range nbins).map std)

end Arith

end PyOTF
