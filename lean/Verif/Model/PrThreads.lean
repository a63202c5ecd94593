import Verif.Model.PhaseRetrieval
import Verif.Model.Interrupt

/-!
# One parameter dictionary for several calls of `retrieve_phase`

`retrieve_phase` writes into the dictionary the caller passes, and reads it a moment later.  Nothing else in the call is shared: the model and all
arrays it writes to are its own, and the data are only read.  Here is the call, access by access, for callers that are interrupted or use one
dictionary in several threads.
-/

namespace PyOTF

/-- The arguments of a call other than the dictionary. -/
structure PrJob where
  data : Arr ℝ
  maxIters : ℤ
  pupilTol : ℝ
  mseTol : ℝ
  phaseOnly : Bool

/-- The call as in `Model/PhaseRetrieval.lean` (phaseretrieval.py:32-149). -/
noncomputable def PrJob.call (unwrap : Arr ℝ → Arr ℝ) (j : PrJob) : PyM PyDict PRResult :=
  retrievePhase unwrap j.data j.maxIters j.pupilTol j.mseTol j.phaseOnly

/-- `retrieve_phase(...)` (phaseretrieval.py:32-149): the checks touch nothing, `params.update(...)` (74-76) and `HanserPSF(**params)` (81) access the
dictionary once each - one C function, whose keys are strings -, the rest is local. -/
noncomputable def PrJob.prog (unwrap : Arr ℝ → Arr ℝ) (j : PrJob) : Prog PyDict Unit (Py PRResult) :=
  match prChecks j.data j.maxIters with
  | .error e => .ret (.error e)
  | .ok (nz, nx) =>
    .act (fun d => d.update (prOverride nz nx)) fun _ =>
    .act id fun d =>
    .ret (prRun unwrap j.data d j.maxIters.toNat j.pupilTol j.mseTol j.phaseOnly)

/-- Calls with the same dictionary one after the other, each run to its end (`none`) or abandoned after a number of accesses (no line of `/repo`). -/
noncomputable def prSession (unwrap : Arr ℝ → Arr ℝ) : List (PrJob × Option ℕ) → PyDict → PyDict
  | [], d => d
  | (j, none) :: js, d => prSession unwrap js ((j.prog unwrap).alone d).2
  | (j, some n) :: js, d => prSession unwrap js ((j.prog unwrap).cut n d)

end PyOTF
