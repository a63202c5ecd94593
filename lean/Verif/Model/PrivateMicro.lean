import Verif.Model.MicroInterrupt

/-!
# Threads that read and assign

A thread makes calls one after the other, reads as well as assignments, and records what each returned or raised.  Nothing in the
package keeps two threads from using the same microscope; whose microscopes they are is an agreement between the threads.
-/

namespace PyOTF

open LTM

/-- One call, access by access (microscope.py:91-129, 211-261, 314-400; utils.py:205-213; otf.py:204-212, 429-437, 578-586). -/
noncomputable def labCallT (I : LabImpl) : LCall → Prog Lab LabLock LSeen
  | .read q => labReadT I q
  | .set i b v => Prog.bind (microSetT i b v) fun r => .ret (.exact (r.map fun _ => .done))

/-- A thread that makes a list of calls (no line of `/repo`). -/
noncomputable def labCallsT (I : LabImpl) : List LCall → Prog Lab LabLock (List LSeen)
  | [] => .ret []
  | c :: cs => Prog.bind (labCallT I c) fun r => Prog.bind (labCallsT I cs) fun rs => .ret (r :: rs)

/-- The call as an operation of the sequential model on microscope `i`, if it is one (no line of `/repo`). -/
def LCall.on (i : ℕ) : LCall → Option POp
  | .read q => q.on i
  | .set j b v => if j = i then some (.set b v) else none

/-- The agreement: a microscope either has no owner, and then it is only read, or is used by its owner only.  Models may be used
by all (no line of `/repo`). -/
def LCall.Allowed (owner : ℕ → Option ℕ) (j : ℕ) : LCall → Prop
  | .read q => ∀ i, q.on i ≠ none → owner i = none ∨ owner i = some j
  | .set i _ _ => owner i = some j

end PyOTF
