import Verif.Model.PhaseRetrieval

/-!
# `pyotf/labview.py`
-/

namespace PyOTF

/-- `a.tolist()` of a two-dimensional array (external). -/
def Arr.tolist2 (a : Arr ℝ) : List (List ℝ) :=
  (List.range (a.shape.getD 0 0)).map fun y => (List.range (a.shape.getD 1 0)).map fun x => a.get [y, x]

/-- `labview(data, wl, na, ni, res, zres, max_iters, pupil_tol, mse_tol, phase_only)` (labview.py:15-59) of integer data
(`remove_bg` rejects others); `prep_data_for_PR` is called with its defaults `xysize=None, multiplier=1.5`. -/
noncomputable def labview (unwrap : Arr ℝ → Arr ℝ) (data : Arr ℤ) (wl na ni res zres : PyVal) (maxIters : ℤ := 200)
    (pupilTol : ℝ := 1e-8) (mseTol : ℝ := 1e-8) (phaseOnly : Bool := false) : Py (List (List ℝ)) := do
  let params : PyDict := [("wl", .val wl), ("na", .val na), ("ni", .val ni), ("res", .val res), ("zres", .val zres)]
  let dataPrepped ← prepDataForPR data none (3 / 2)
  let prResult ← (retrievePhase unwrap dataPrepped maxIters pupilTol mseTol phaseOnly params).1
  return prResult.phase.tolist2

end PyOTF
