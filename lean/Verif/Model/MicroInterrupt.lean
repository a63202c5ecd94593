import Verif.Model.MicroThreads
import Verif.Model.Interrupt
import Verif.Props.C142_Reads

/-!
# Calls on microscopes that are interrupted

As in `Interrupt.lean`: `KeyboardInterrupt` abandons a call between two of its accesses; what it has written stays, and the
locks it holds are released by the `with` statements of `cached_property`.
-/

namespace PyOTF

/-- A call: a read (microscope.py:104-129, 211-261, 314-400; otf.py:204-212, 429-437, 578-586) or an assignment to a
numeric attribute of a microscope (utils.py:205-213). -/
inductive LCall
  | read (q : LOp)
  | set (i : ℕ) (b : Micro.MAttr) (v : PyVal)

/-- What a call leaves when it is run to its end (`none`) or abandoned after a number of accesses (no line of `/repo`). -/
noncomputable def LCall.leaves (I : LabImpl) : LCall → Option ℕ → Lab → Lab
  | .read q, none, w => (Prog.alone (labReadT I q) w).2
  | .read q, some n, w => (labReadT I q).cut n w
  | .set i b v, none, w => (Prog.alone (microSetT i b v) w).2
  | .set i b v, some n, w => (microSetT i b v).cut n w

/-- A session: calls one after the other, each run to its end or abandoned (no line of `/repo`). -/
noncomputable def labSessionT (I : LabImpl) : List (LCall × Option ℕ) → Lab → Lab
  | [], w => w
  | (c, n) :: cs, w => labSessionT I cs (c.leaves I n w)

end PyOTF
