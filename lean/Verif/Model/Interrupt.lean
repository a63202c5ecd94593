import Verif.Model.Threads
import Verif.Props.C31_Hanser

/-!
# Calls that are interrupted

Control-C raises `KeyboardInterrupt` between any two accesses a method makes (and a failing allocation raises
`MemoryError` in the middle of one of its computations); nothing in the package catches either.  The call is abandoned, what it has written so
far stays, and the lock `cached_property` may hold is released by its `with` statement.  The accesses are those of `Model/Threads.lean`; here are the
assignments to the remaining attributes of `HanserPSF`, access by access.
-/

namespace PyOTF

/-- What is left of the shared state when a program is abandoned after `n` steps (no line of `/repo`). -/
def Prog.cut {σ L α : Type} : ℕ → Prog σ L α → σ → σ
  | 0, _, s => s
  | _ + 1, .ret _, s => s
  | n + 1, .act st k, s => (k s).cut n (st s)
  | n + 1, .lock _ k, s => k.cut n s
  | n + 1, .unlock _ k, s => k.cut n s

open TM

/-- Assignment to a `NumericProperty` (utils.py:205-213): the value is checked and compared with the stored one, stored, and then the caches are
deleted one by one. -/
def setNumericT (i : ℕ) (isVartype : PyVal → Bool) (get : Params → Option PyVal) (put : PyVal → Params → Params) (v : PyVal) : TM Unit :=
  (rd i fun c => numericSet isVartype (get c.obj.params) v).bind fun
  | none => loc (.ok ())
  | some w =>
    (wr i fun c => { c with obj := { c.obj with params := put w c.obj.params } }).bind fun _ =>
    attributeChangedT i

/-- `zrange` setter (otf.py:320-327).  Simplified: the array is given its shape before it is stored (a scalar is stored first and reshaped in place
then). -/
def setZrangeT (i : ℕ) (v : ZArg) : TM Unit :=
  (wr i fun c => { c with obj := { c.obj with params := { c.obj.params with zrange := some v.toList } } }).bind fun _ =>
  attributeChangedT i

/-- `_gen_zrange` (otf.py:290-292): `zsize` is read twice, then `zres`. -/
def genZrangeT (i : ℕ) : TM Unit :=
  (rd i fun c => attr c.obj.params.zsize).bind fun n =>
  (rd i fun c => attr c.obj.params.zsize).bind fun m =>
  (rd i fun c => attr c.obj.params.zres >>= pyNum).bind fun zres =>
  setZrangeT i (.seq ((List.range (pyNat n)).map fun (k : ℕ) => PyFloat.mul (.fin ((k : ℚ) - ((pyNat m + 1) / 2 : ℕ))) zres))

/-- `try: ... except AttributeError: pass` (otf.py:299-303, 310-313). -/
def ignoreT (p : TM Unit) : TM Unit :=
  Prog.bind p fun
    | .error .attributeError => .ret (.ok ())
    | r => .ret r

/-- `res` setter (otf.py:144-163). -/
def setResT (i : ℕ) (v : PyVal) : TM Unit :=
  (rd i fun c => attr c.obj.params.na >>= pyNum).bind fun na =>
  (rd i fun c => attr c.obj.params.wl >>= pyNum).bind fun wl =>
  (loc (PyFloat.div (PyFloat.mul (.fin 2) na) wl)).bind fun q =>
  (loc (PyFloat.div (.fin 1) q)).bind fun abbeLimit =>
  (loc (pyNum v)).bind fun x =>
  if PyFloat.ge x abbeLimit then loc (.error .valueError)
  else
    (wr i fun c => { c with obj := { c.obj with params := { c.obj.params with res := some v } } }).bind fun _ =>
    attributeChangedT i

/-- `BasePSF.zres` setter (otf.py:131-137). -/
def setZresBaseT (i : ℕ) (v : PyVal) : TM Unit :=
  (loc (pyNum v)).bind fun x =>
  if !(PyFloat.lt (.fin 0) x) then loc (.error .valueError)
  else
    (wr i fun c => { c with obj := { c.obj with params := { c.obj.params with zres := some v } } }).bind fun _ =>
    attributeChangedT i

/-- `vec_corr` setter (otf.py:173-179). -/
def setVecCorrT (i : ℕ) (v : PyVal) : TM Unit :=
  (loc (keyword VecCorr.ofString v)).bind fun w =>
  (wr i fun c => { c with obj := { c.obj with params := { c.obj.params with vecCorr := some w } } }).bind fun _ =>
  attributeChangedT i

/-- `condition` setter (otf.py:186-192). -/
def setConditionT (i : ℕ) (v : PyVal) : TM Unit :=
  (loc (keyword Condition.ofString v)).bind fun w =>
  (wr i fun c => { c with obj := { c.obj with params := { c.obj.params with condition := some w } } }).bind fun _ =>
  attributeChangedT i

/-- `obj.<attr> = v` of a `HanserPSF` (otf.py:47-51, 126-192, 294-313); as in the sequential model, assigning `dual` has no effect. -/
def setAttrT (i : ℕ) (a : Attr) (v : PyVal) : TM Unit :=
  match a with
  | .wl => setNumericT i PyVal.isFloatOrInt Params.wl (fun v p => { p with wl := some v }) v
  | .na => setNumericT i PyVal.isFloatOrInt Params.na (fun v p => { p with na := some v }) v
  | .ni => setNumericT i PyVal.isFloatOrInt Params.ni (fun v p => { p with ni := some v }) v
  | .size => setNumericT i PyVal.isInt Params.size (fun v p => { p with size := some v }) v
  | .zsize =>
    (setNumericT i PyVal.isInt Params.zsize (fun v p => { p with zsize := some v }) v).bind fun _ =>
    ignoreT (genZrangeT i)
  | .res => setResT i v
  | .zres => (setZresBaseT i v).bind fun _ => ignoreT (genZrangeT i)
  | .vecCorr => setVecCorrT i v
  | .condition => setConditionT i v
  | .dual => loc (.ok ())

/-- Keep the result of a call, whatever it is (no line of `/repo`). -/
def yieldT {α : Type} (f : α → Out (Arr ℂ) (Arr ℝ)) (p : TM α) : TM (Out (Arr ℂ) (Arr ℝ)) :=
  Prog.bind p fun r => .ret (r.map f)

/-- One call on object `i`, access by access (otf.py:47-51, 114-212, 294-327, 424-437). -/
noncomputable def callT (I : Impl) (i : ℕ) : HOp → TM (Out (Arr ℂ) (Arr ℝ))
  | .set a v => yieldT (fun _ => .done) (setAttrT i a v)
  | .setZrange z => yieldT (fun _ => .done) (setZrangeT i z)
  | .applyPupil P => yieldT (fun _ => .done) (applyPupilT I i P)
  | .readPSFa => yieldT .cplx (psfaT I i)
  | .readOTFa => yieldT .cplx (otfaT I i)
  | .readPSFi => yieldT .real (psfiT I i)
  | .readOTFi => yieldT .cplx (otfiT I i)

/-- A session: calls on object `i` one after the other, each run to its end (`none`) or abandoned after a number of steps (no line of `/repo`). -/
noncomputable def sessionT (I : Impl) (i : ℕ) : List (HOp × Option ℕ) → Dicts → Dicts
  | [], s => s
  | (op, none) :: cs, s => sessionT I i cs ((callT I i op).alone s).2
  | (op, some n) :: cs, s => sessionT I i cs ((callT I i op).cut n s)

end PyOTF
