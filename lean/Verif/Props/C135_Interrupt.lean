import Verif.Lemmas.Interrupt
import Verif.Props.C94_Attributes

/-!
# C135: calls that are interrupted
-/

namespace PyOTF

open TM Prog

/-- The assignment to `size` of `Model/Threads.lean` is the one studied here. -/
theorem setSizeT_eq (i : ℕ) (v : PyVal) : setSizeT i v = setAttrT i .size v := rfl

/-! ## Crash points of an assignment -/

/-- Where an assignment is abandoned the object is untouched, or the assignment is one that would have been accepted and the object has the new
parameters (of `zsize` and `zres`: perhaps without the new `zrange`) and some of the old caches. -/
def Halfway (a : Attr) (v : PyVal) (o o' : HObj) : Prop :=
  o' = o ∨ setAttr .hanser a v o = (.ok (), { params := (setAttr .hanser a v o).2.params }) ∧
    (Sub o' { o with params := (setAttr .hanser a v o).2.params } ∨
      ((a = .zsize ∧ Sub o' { o with params := { o.params with zsize := (setAttr .hanser a v o).2.params.zsize } }) ∨
        (a = .zres ∧ Sub o' { o with params := { o.params with zres := (setAttr .hanser a v o).2.params.zres } })))

theorem halfway_numeric {a : Attr} {i : ℕ} {isV : PyVal → Bool} {get : Params → Option PyVal} {put : PyVal → Params → Params} {v : PyVal} {s : Dicts}
    (h : ∀ o : HObj, setAttr .hanser a v o = setNumeric isV get put v o) :
    Always (fun t => Halfway a v (s i).obj (t i).obj) (setNumericT i isV get put v) s := by
  unfold setNumericT
  refine always_tbind (always_rd (.inl rfl)) ?_
  intro w s1 h1
  rw [alone_rd] at h1
  obtain ⟨g1, rfl⟩ := Prod.mk.inj h1
  rcases w with _ | w
  · exact always_loc (.inl rfl)
  have e : setAttr .hanser a v (s i).obj = (.ok (), { params := put w (s i).obj.params }) := by
    rw [h, setNumeric_run, g1]
  refine (always_assign i (put w) s).imp fun t ht => ht.imp id fun ht => ?_
  rw [e]
  exact ⟨rfl, .inl ht⟩

theorem halfway_assign {a : Attr} {i : ℕ} {f : Params → Params} {v : PyVal} {s : Dicts}
    (h : setAttr .hanser a v (s i).obj = (.ok (), { params := f (s i).obj.params })) :
    Always (fun t => Halfway a v (s i).obj (t i).obj) (assignT i f) s := by
  refine (always_assign i f s).imp fun t ht => ht.imp id fun ht => ?_
  rw [h]
  exact ⟨rfl, .inl ht⟩

theorem ready_zres {p : Params} (hr : Ready .hanser p) : ∃ z x, p.zres = some z ∧ pyNum z = .ok x := by
  obtain ⟨z, x, h1, h2⟩ := hr.zres
  exact ⟨z, x, h1, pyNum_of_num h2⟩

theorem zsize_run {v : PyVal} {o : HObj} {w : Option PyVal} {n z : PyVal} {x : PyFloat} (hw : numericSet PyVal.isInt o.params.zsize v = .ok w)
    (hn : (match w with | none => o.params.zsize | some u => some u) = some n) (hz : o.params.zres = some z) (hx : pyNum z = .ok x) :
    setAttr .hanser .zsize v o =
      (.ok (), { params := { o.params with zsize := some n, zrange := some (defaultZrange (pyNat n) x) } }) := by
  simp only [setAttr, setZsizeHanser, setZsizeBase, PyM.bind_apply, setNumeric_run, hw]
  rcases w with _ | u
  · simp only at hn
    simp only [PyM.ignore, genZrange_run, hz, hx, hn]
  · simp only at hn
    simp only [PyM.ignore, genZrange_run, hz, hx, hn]

theorem zres_run {v : PyVal} {o : HObj} {n : PyVal} {x : PyFloat} (hv : pyNum v = .ok x) (hx : PyFloat.lt (.fin 0) x = true)
    (hn : o.params.zsize = some n) : setAttr .hanser .zres v o =
      (.ok (), { params := { o.params with zres := some v, zrange := some (defaultZrange (pyNat n) x) } }) := by
  simp only [setAttr, setZresHanser, PyM.bind_apply, setZresBase_run, hv, if_pos hx, PyM.ignore, genZrange_run, hn]

theorem halfway_setAttr (i : ℕ) (a : Attr) (v : PyVal) (s : Dicts) (hr : Ready .hanser (s i).obj.params) :
    Always (fun t => Halfway a v (s i).obj (t i).obj) (setAttrT i a v) s := by
  cases a with
  | wl => exact halfway_numeric (put := fun v p => { p with wl := some v }) fun _ => rfl
  | na => exact halfway_numeric (put := fun v p => { p with na := some v }) fun _ => rfl
  | ni => exact halfway_numeric (put := fun v p => { p with ni := some v }) fun _ => rfl
  | size => exact halfway_numeric (put := fun v p => { p with size := some v }) fun _ => rfl
  | zsize =>
    simp only [setAttrT]
    obtain ⟨z, x, hz, hx⟩ := ready_zres hr
    obtain ⟨n0, hn0, -⟩ := hr.zsize
    have first : Always (fun t => Halfway .zsize v (s i).obj (t i).obj)
        (setNumericT i PyVal.isInt Params.zsize (fun v p => { p with zsize := some v }) v) s := by
      unfold setNumericT
      refine always_tbind (always_rd (.inl rfl)) fun w s1 h1 => ?_
      rw [alone_rd] at h1
      obtain ⟨g1, rfl⟩ := Prod.mk.inj h1
      rcases w with _ | w
      · exact always_loc (.inl rfl)
      have e := zsize_run (n := w) g1 rfl hz hx
      have hwv : w = v := (numericSet_some g1).1
      refine (always_assign i (fun p => { p with zsize := some w }) s).imp fun t ht => ht.imp id fun ht => ?_
      rw [e]
      exact ⟨rfl, .inr (.inl ⟨rfl, ht⟩)⟩
    refine always_tbind first fun _ s1 h1 => ?_
    unfold setNumericT at h1
    rw [alone_tbind, alone_rd] at h1
    rcases hw : numericSet PyVal.isInt (s i).obj.params.zsize v with e | _ | w
    · rw [hw] at h1; cases h1
    · rw [hw] at h1
      obtain ⟨-, rfl⟩ := Prod.mk.inj h1
      have e := zsize_run (n := n0) hw hn0 hz hx
      refine (always_genZrange i s).imp fun t ht => ht.imp id ?_
      rintro ⟨n, z', x', a1, a2, a3, ht⟩
      rw [hn0] at a1; cases a1
      rw [hz] at a2; cases a2
      rw [hx] at a3; cases a3
      rw [e]
      refine ⟨rfl, .inl ?_⟩
      rw [hn0.symm]
      exact ht
    · rw [hw] at h1
      have h1' : Prog.alone (assignT i fun p => { p with zsize := some w }) s = (.ok (), s1) := h1
      rw [alone_assign] at h1'
      obtain ⟨-, rfl⟩ := Prod.mk.inj h1'
      have e := zsize_run (n := w) hw rfl hz hx
      have hwv : w = v := (numericSet_some hw).1
      refine (always_genZrange i _).imp fun t ht => .inr ?_
      rw [e]
      refine ⟨rfl, ?_⟩
      simp only [Function.update_self] at ht
      rcases ht with ht | ⟨n, z', x', a1, a2, a3, ht⟩
      · rw [ht]
        exact .inr (.inl ⟨rfl, rfl, .inl rfl, .inl rfl, .inl rfl, .inl rfl⟩)
      · cases a1
        rw [hz] at a2; cases a2
        rw [hx] at a3; cases a3
        exact .inl (ht.cleared rfl)
  | res =>
    simp only [setAttrT, setResT]
    refine always_tbind (always_rd (.inl rfl)) fun na s1 h1 => ?_
    rw [alone_rd] at h1
    obtain ⟨g1, rfl⟩ := Prod.mk.inj h1
    refine always_tbind (always_rd (.inl rfl)) fun wl s2 h2 => ?_
    rw [alone_rd] at h2
    obtain ⟨g2, rfl⟩ := Prod.mk.inj h2
    refine always_tbind (always_loc (.inl rfl)) fun q s3 h3 => ?_
    rw [alone_loc] at h3
    obtain ⟨g3, rfl⟩ := Prod.mk.inj h3
    refine always_tbind (always_loc (.inl rfl)) fun l s4 h4 => ?_
    rw [alone_loc] at h4
    obtain ⟨g4, rfl⟩ := Prod.mk.inj h4
    refine always_tbind (always_loc (.inl rfl)) fun x s5 h5 => ?_
    rw [alone_loc] at h5
    obtain ⟨g5, rfl⟩ := Prod.mk.inj h5
    by_cases h : PyFloat.ge x l = true
    · rw [if_pos h]; exact always_loc (.inl rfl)
    · rw [if_neg h]
      refine halfway_assign (f := fun p => { p with res := some v }) ?_
      rcases hna : (s i).obj.params.na with _ | na'
      · rw [hna] at g1; cases g1
      rcases hwl : (s i).obj.params.wl with _ | wl'
      · rw [hwl] at g2; cases g2
      rw [hna] at g1
      rw [hwl] at g2
      have g1' : pyNum na' = .ok na := g1
      have g2' : pyNum wl' = .ok wl := g2
      simp [setAttr, setRes, self, attr, hna, hwl, g1', g2', g3, g4, g5, h, store, attributeChanged, PyM.bind_apply, PyM.lift_apply, PyM.modify_apply]
  | zres =>
    simp only [setAttrT]
    obtain ⟨n0, hn0, -⟩ := hr.zsize
    have first : Always (fun t => Halfway .zres v (s i).obj (t i).obj) (setZresBaseT i v) s := by
      unfold setZresBaseT
      refine always_tbind (always_loc (.inl rfl)) fun x s1 h1 => ?_
      rw [alone_loc] at h1
      obtain ⟨g1, rfl⟩ := Prod.mk.inj h1
      by_cases h : PyFloat.lt (.fin 0) x = true
      · rw [if_neg (by simp [h])]
        have e := zres_run g1 h hn0
        refine (always_assign i (fun p => { p with zres := some v }) s).imp fun t ht => ht.imp id fun ht => ?_
        rw [e]
        exact ⟨rfl, .inr (.inr ⟨rfl, ht⟩)⟩
      · rw [if_pos (by simp [h])]; exact always_loc (.inl rfl)
    refine always_tbind first fun _ s1 h1 => ?_
    unfold setZresBaseT at h1
    rw [alone_tbind, alone_loc] at h1
    rcases hv : pyNum v with e | x
    · rw [hv] at h1; cases h1
    rw [hv] at h1
    simp only at h1
    by_cases h : PyFloat.lt (.fin 0) x = true
    · rw [if_neg (by simp [h])] at h1
      have h1' : Prog.alone (assignT i fun p => { p with zres := some v }) s = (.ok (), s1) := h1
      rw [alone_assign] at h1'
      obtain ⟨-, rfl⟩ := Prod.mk.inj h1'
      have e := zres_run hv h hn0
      refine (always_genZrange i _).imp fun t ht => .inr ?_
      rw [e]
      refine ⟨rfl, ?_⟩
      simp only [Function.update_self] at ht
      rcases ht with ht | ⟨n, z', x', a1, a2, a3, ht⟩
      · rw [ht]
        exact .inr (.inr ⟨rfl, rfl, .inl rfl, .inl rfl, .inl rfl, .inl rfl⟩)
      · rw [hn0] at a1; cases a1
        cases a2
        rw [hv] at a3; cases a3
        exact .inl (ht.cleared rfl)
    · rw [if_pos (by simp [h])] at h1; cases h1
  | vecCorr =>
    simp only [setAttrT, setVecCorrT]
    refine always_tbind (always_loc (.inl rfl)) fun w s1 h1 => ?_
    rw [alone_loc] at h1
    obtain ⟨g1, rfl⟩ := Prod.mk.inj h1
    refine halfway_assign (f := fun p => { p with vecCorr := some w }) ?_
    simp [setAttr, setVecCorr, g1, store, attributeChanged, PyM.bind_apply, PyM.lift_apply, PyM.modify_apply]
  | condition =>
    simp only [setAttrT, setConditionT]
    refine always_tbind (always_loc (.inl rfl)) fun w s1 h1 => ?_
    rw [alone_loc] at h1
    obtain ⟨g1, rfl⟩ := Prod.mk.inj h1
    refine halfway_assign (f := fun p => { p with condition := some w }) ?_
    simp [setAttr, setCondition, g1, store, attributeChanged, PyM.bind_apply, PyM.lift_apply, PyM.modify_apply]
  | dual => exact always_loc (.inl rfl)

/-! ## What is read at a crash point -/

theorem getPSFa_dropped {o : HObj} (h : o.psfa = none) : (HObj.getPSFa o) = HObj.getPSFa { params := o.params } := by
  simp only [HObj.getPSFa, PyM.bind_apply, PyM.get_apply, h, HObj.genPsf, attributeChanged, PyM.modify_apply, PyM.lift_apply]

theorem getPSFa_hit {o : HObj} {a : Arr ℂ} (h : o.psfa = some a) : HObj.getPSFa o = (.ok a, o) := by
  simp only [HObj.getPSFa, PyM.bind_apply, PyM.get_apply, h, PyM.pure_apply]

theorem getPSFi_dropped {o : HObj} (h : o.psfi = none) (h' : o.psfa = none) : HObj.getPSFi o = HObj.getPSFi { params := o.params } := by
  simp only [HObj.getPSFi, PyM.bind_apply, PyM.get_apply, h, getPSFa_dropped h']

/-- Every output read from an object with the caches of one object and the parameters of another is that of one or the other. -/
theorem mixed_read {o o' : HObj} {s : HSpec} {p : Params} (h : HRel o s) (hr : Ready .hanser p) (hs : Sub o' { o with params := p }) (r : ROp) :
    (o'.step r.toHOp).1 = (o.step r.toHOp).1 ∨ (o'.step r.toHOp).1 = (HObj.step { params := p } r.toHOp).1 := by
  have hp : o'.params = p := hs.params
  have ht := HRel.cleared hr
  have A : (HObj.getPSFa o').1 = s.PSFa ∨ o'.psfa = none := by
    rcases hs.psfa with e | e
    · exact .inr e
    · rcases ha : o'.psfa with _ | a
      · exact .inr rfl
      · rw [ha] at e
        exact .inl (by rw [getPSFa_hit ha]; exact (h.psfa a e.symm).symm)
  have Ia : (HObj.getPSFi o').1 = s.PSFi ∨ (o'.psfi = none ∧ o'.psfa = none) := by
    rcases ha : o'.psfi with _ | a
    · refine A.imp (fun A => ?_) fun A => ⟨rfl, A⟩
      simp only [HObj.getPSFi, PyM.bind_apply, PyM.get_apply, ha, HSpec.PSFi, ← A]
      rcases HObj.getPSFa o' with ⟨e | a, o1⟩ <;> rfl
    · rcases hs.psfi with e | e
      · rw [ha] at e; cases e
      · rw [ha] at e
        refine .inl ?_
        simp only [HObj.getPSFi, PyM.bind_apply, PyM.get_apply, ha, PyM.pure_apply]
        exact (h.psfi a e.symm).symm
  cases r with
  | PSFa =>
    simp only [ROp.toHOp, HObj.step, outAs]
    refine A.imp (fun A => ?_) fun A => ?_
    · rw [A, (getPSFa_rel h).1]
    · rw [getPSFa_dropped A, hp]
  | PSFi =>
    simp only [ROp.toHOp, HObj.step, outAs]
    refine Ia.imp (fun A => ?_) fun A => ?_
    · rw [A, (getPSFi_rel h).1]
    · rw [getPSFi_dropped A.1 A.2, hp]
  | OTFa =>
    simp only [ROp.toHOp, HObj.step, outAs]
    rcases ha : o'.otfa with _ | a
    · refine A.imp (fun A => ?_) fun A => ?_
      · rw [(getOTFa_rel h).1]
        simp only [HObj.getOTFa, PyM.bind_apply, PyM.get_apply, ha, HSpec.OTFa, ← A, PyM.lift_apply]
        rcases HObj.getPSFa o' with ⟨e | a, o1⟩
        · rfl
        · simp only [Bind.bind, Except.bind]
          rcases hanserOTFa a with e | t <;> rfl
      · simp only [HObj.getOTFa, PyM.bind_apply, PyM.get_apply, ha, getPSFa_dropped A, hp]
    · rcases hs.otfa with e | e
      · rw [ha] at e; cases e
      · rw [ha] at e
        refine .inl ?_
        rw [(getOTFa_rel h).1, h.otfa a e.symm]
        simp only [HObj.getOTFa, PyM.bind_apply, PyM.get_apply, ha, PyM.pure_apply]
  | OTFi =>
    simp only [ROp.toHOp, HObj.step, outAs]
    rcases ha : o'.otfi with _ | a
    · refine Ia.imp (fun A => ?_) fun A => ?_
      · rw [(getOTFi_rel h).1]
        simp only [HObj.getOTFi, PyM.bind_apply, PyM.get_apply, ha, HSpec.OTFi, ← A, PyM.lift_apply]
        rcases HObj.getPSFi o' with ⟨e | a, o1⟩
        · rfl
        · simp only [Bind.bind, Except.bind]
          rcases otfiOf a with e | t <;> rfl
      · simp only [HObj.getOTFi, PyM.bind_apply, PyM.get_apply, ha, getPSFi_dropped A.1 A.2, hp]
    · rcases hs.otfi with e | e
      · rw [ha] at e; cases e
      · rw [ha] at e
        refine .inl ?_
        rw [(getOTFi_rel h).1, h.otfi a e.symm]
        simp only [HObj.getOTFi, PyM.bind_apply, PyM.get_apply, ha, PyM.pure_apply]

/-- `zsize` and `zres` enter no output of a `HanserPSF` but through `zrange`. -/
theorem genPsf_zfields {p q : Params} (h : { p with zsize := q.zsize, zres := q.zres } = q) (b : Option (Arr ℂ)) : hanserGenPsf p b = hanserGenPsf q b := by
  rw [← h]; rfl

theorem cleared_reads {p q : Params} (hp : Ready .hanser p) (hq : Ready .hanser q) (h : { p with zsize := q.zsize, zres := q.zres } = q) (r : ROp) :
    (HObj.step { params := p } r.toHOp).1 = (HObj.step { params := q } r.toHOp).1 := by
  rw [(step_rel (HRel.cleared hp) _).1, (step_rel (HRel.cleared hq) _).1]
  have e : (⟨p, none⟩ : HSpec).PSFa = (⟨q, none⟩ : HSpec).PSFa := genPsf_zfields h none
  cases r <;> simp only [ROp.toHOp, HSpec.step, HSpec.OTFa, HSpec.PSFi, HSpec.OTFi, e]

theorem lived_ready {o : HObj} (h : Lived o) : Ready .hanser o.params := by
  obtain ⟨s, hs⟩ := h.rel
  rw [hs.params]; exact hs.ready

theorem ready_set {o : HObj} (hr : Ready .hanser o.params) (a : Attr) (v : PyVal) : Ready .hanser (setAttr .hanser a v o).2.params := by
  obtain ⟨q, hq, -, hc⟩ := setAttr_run (Arr ℂ) (Arr ℝ) .hanser a v o.params hr
  have e := hq o rfl
  rcases q with er | _ | p'
  · rw [e]; exact hr
  · rw [e]; exact hr
  · rw [e]; exact (hc p' rfl).2

/-! ## The calls, run to their end -/

theorem call_alone (I : Impl) (i : ℕ) (op : HOp) (s : Dicts) (hr : Ready .hanser (s i).obj.params) :
    ∃ scr, (callT I i op).alone s = (((s i).obj.step op).1, Function.update s i ⟨((s i).obj.step op).2, scr⟩) := by
  have key : ∀ {α : Type} (f : α → Out (Arr ℂ) (Arr ℝ)) (p : TM α) (m : PyM HObj α), SameAs i s p m →
      ∃ scr, (yieldT f p).alone s = ((outAs f (m (s i).obj)).1, Function.update s i ⟨(outAs f (m (s i).obj)).2, scr⟩) := by
    rintro α f p m ⟨scr, h⟩
    refine ⟨scr, ?_⟩
    unfold yieldT
    rw [Prog.alone_bind, h]
    rfl
  obtain ⟨h1, h2, h3, h4, h5, -⟩ := alone_ready I i s hr
  cases op with
  | set a v => exact key _ _ _ (sameAs_setAttr i s a v)
  | setZrange z =>
    refine key _ _ (setZrange z) ⟨(s i).scr, ?_⟩
    rw [setZrange_run]
    exact alone_assign i (fun p => { p with zrange := some z.toList }) s
  | applyPupil P => exact key _ _ _ (h5 P)
  | readPSFa => exact key _ _ _ h1
  | readOTFa => exact key _ _ _ h2
  | readPSFi => exact key _ _ _ h3
  | readOTFi => exact key _ _ _ h4

/-- C135: run to its end, a call returns what the sequential model returns and leaves the object as the sequential model says. -/
theorem C135_alone (I : Impl) (i : ℕ) (op : HOp) (heap : Dicts) (hl : Lived (heap i).obj) :
    ((callT I i op).alone heap).1 = ((heap i).obj.step op).1 ∧ (((callT I i op).alone heap).2 i).obj = ((heap i).obj.step op).2 ∧
    ∀ j, j ≠ i → ((callT I i op).alone heap).2 j = heap j := by
  obtain ⟨scr, h⟩ := call_alone I i op heap (lived_ready hl)
  rw [h]
  exact ⟨rfl, by simp, fun j hj => Function.update_of_ne hj _ _⟩

/-! ## Interrupted reads -/

/-- C135: reading an output, abandoned after any number of accesses, changes nothing an observer could tell: every object has its parameters and
answers every later history of operations as if the read had never been started. -/
theorem C135_read (I : Impl) (i : ℕ) (r : ROp) (n : ℕ) (heap : Dicts) (hh : ∀ j, Lived (heap j).obj) (j : ℕ) :
    (((callT I i r.toHOp).cut n heap) j).obj.params = (heap j).obj.params ∧
    ∀ ops, (runHistory HObj.step (((callT I i r.toHOp).cut n heap) j).obj ops).1 = (runHistory HObj.step (heap j).obj ops).1 := by
  choose spec hspec using fun i => (hh i).rel
  have hI : TInv spec heap := hspec
  have e : callT I i r.toHOp = readT I i r := by cases r <;> rfl
  rw [e]
  have hI' : TInv spec ((readT I i r).cut n heap) := (tsafe_read I i r hI).cut (heapLe_refl spec) hI n
  refine ⟨((hI' j).params).trans (hspec j).params.symm, fun ops => ?_⟩
  rw [(run_rel (hI' j) ops).1, (run_rel (hspec j) ops).1]

/-! ## Interrupted assignments -/

theorem halfway_call (I : Impl) (i : ℕ) (a : Attr) (v : PyVal) (s : Dicts) (hr : Ready .hanser (s i).obj.params) :
    Always (fun t => Halfway a v (s i).obj (t i).obj) (callT I i (.set a v)) s :=
  (halfway_setAttr i a v s hr).bind (always_ret (halfway_setAttr i a v s hr).final)

/-- C135: an assignment abandoned after any number of accesses leaves the object untouched; or it is one that would have been accepted, and then the
parameters are those after the assignment (of `zsize` and `zres` perhaps without the new `zrange`) and each output is the one before the
assignment or the one after it (of `zsize` and `zres` perhaps the one before with the applied pupil forgotten).  No other object is
touched. -/
theorem C135_assignment (I : Impl) (i : ℕ) (a : Attr) (v : PyVal) (n : ℕ) (heap : Dicts) (hl : Lived (heap i).obj) :
    let o := (heap i).obj
    let o' := ((callT I i (.set a v)).cut n heap i).obj
    let new := o.step (.set a v)
    (o' = o ∨ new.1 = .ok .done ∧
      (o'.params = new.2.params ∨ (a = .zsize ∧ o'.params = { o.params with zsize := new.2.params.zsize }) ∨ (a = .zres ∧ o'.params = { o.params with zres := new.2.params.zres })) ∧
      ∀ r : ROp, (o'.step r.toHOp).1 = (o.step r.toHOp).1 ∨ (o'.step r.toHOp).1 = (new.2.step r.toHOp).1 ∨
        ((a = .zsize ∨ a = .zres) ∧ (o'.step r.toHOp).1 = (HObj.step { params := o.params } r.toHOp).1)) ∧
    ∀ j, j ≠ i → (callT I i (.set a v)).cut n heap j = heap j := by
  intro o o' new
  refine ⟨?_, call_others I i _ heap n⟩
  have hr := lived_ready hl
  obtain ⟨s, hs⟩ := hl.rel
  rcases halfway_call I i a v heap hr n with h | ⟨h1, h2⟩
  · exact .inl h
  refine .inr ⟨?_, ?_⟩
  · show (Except.map _ (setAttr .hanser a v o).1) = _
    rw [h1]; rfl
  have hnew : new.2 = { params := (setAttr .hanser a v o).2.params } := by
    show (setAttr .hanser a v o).2 = _
    conv_lhs => rw [h1]
  have hr' : Ready .hanser (setAttr .hanser a v o).2.params := ready_set hr a v
  rw [hnew]
  rcases h2 with h2 | ⟨rfl, h2⟩ | ⟨rfl, h2⟩
  · exact ⟨.inl h2.params, fun r => (mixed_read hs hr' h2 r).imp id .inl⟩
  · have hz : Ready .hanser { o.params with zsize := (setAttr .hanser .zsize v o).2.params.zsize } := { hr with zsize := hr'.zsize }
    refine ⟨.inr (.inl ⟨rfl, h2.params⟩), fun r => (mixed_read hs hz h2 r).imp id fun h => .inr ⟨.inl rfl, h.trans ?_⟩⟩
    exact cleared_reads hz hr rfl r
  · have hz : Ready .hanser { o.params with zres := (setAttr .hanser .zres v o).2.params.zres } := { hr with zres := hr'.zres }
    refine ⟨.inr (.inr ⟨rfl, h2.params⟩), fun r => (mixed_read hs hz h2 r).imp id fun h => .inr ⟨.inr rfl, h.trans ?_⟩⟩
    exact cleared_reads hz hr rfl r

theorem always_zrange (I : Impl) (i : ℕ) (z : ZArg) (s : Dicts) : Always (fun t => (t i).obj = (s i).obj ∨
    Sub (t i).obj { (s i).obj with params := { (s i).obj.params with zrange := some z.toList } }) (callT I i (.setZrange z)) s := by
  have h := always_assign i (fun p => { p with zrange := some z.toList }) s
  exact h.bind (always_ret h.final)

/-- C135: the same for an assignment to `zrange`, which is always accepted. -/
theorem C135_zrange (I : Impl) (i : ℕ) (z : ZArg) (n : ℕ) (heap : Dicts) (hl : Lived (heap i).obj) :
    let o := (heap i).obj
    let o' := ((callT I i (.setZrange z)).cut n heap i).obj
    let new := o.step (.setZrange z)
    (o' = o ∨ o'.params = new.2.params ∧ ∀ r : ROp, (o'.step r.toHOp).1 = (o.step r.toHOp).1 ∨ (o'.step r.toHOp).1 = (new.2.step r.toHOp).1) ∧
    ∀ j, j ≠ i → (callT I i (.setZrange z)).cut n heap j = heap j := by
  intro o o' new
  refine ⟨?_, call_others I i _ heap n⟩
  obtain ⟨s, hs⟩ := hl.rel
  have hnew : new.2 = { params := { o.params with zrange := some z.toList } } := by
    show (setZrange z o).2 = _
    rw [setZrange_run]
  rw [hnew]
  exact (always_zrange I i z heap n).imp id fun h =>
    ⟨h.params, mixed_read hs { lived_ready hl with zrange := fun _ => rfl } h⟩

/-! ## Interrupted pupils -/

theorem always_applyPupil (I : Impl) (i : ℕ) (P : Arr ℂ) (s : Dicts) (hr : Ready .hanser (s i).obj.params) :
    Always (fun t => Sub (t i).obj (s i).obj ∨ (t i).obj = (HObj.applyPupil P (s i).obj).2) (callT I i (.applyPupil P)) s := by
  have hI : ClosedS i fun t : Dicts => Sub (t i).obj (s i).obj := by
    intro t c ht hc
    rw [Function.update_self]; exact hc.trans ht
  have h1 : Always (fun t => Sub (t i).obj (s i).obj) (attributeChangedT i) s := (maint_attributeChanged hI).always (Sub.refl _)
  have main : Always (fun t => Sub (t i).obj (s i).obj ∨ (t i).obj = (HObj.applyPupil P (s i).obj).2) (applyPupilT I i P) s := by
    refine always_tbind (h1.imp fun t => .inl) fun _ s1 e1 => ?_
    have g1 := h1.final
    rw [alone_attributeChanged] at e1 g1
    obtain ⟨-, e1⟩ := Prod.mk.inj e1
    rw [e1] at g1
    have h2 : Always (fun t => Sub (t i).obj (s i).obj) (genPsfT I i (some P)) s1 := (maint_genPsf I hI _).always g1
    refine always_tbind (h2.imp fun t => .inl) fun a s2 e2 => ?_
    have g2 := h2.final
    rw [e2] at g2
    refine always_wr (.inl g2) (.inr ?_)
    have hp : (s1 i).obj = { params := (s i).obj.params } := by rw [← e1, Function.update_self]
    obtain ⟨scr, e3⟩ := alone_genPsf I i (some P) s1 (by rw [hp]; exact hr)
    rw [e2, hp] at e3
    obtain ⟨e4, e5⟩ := Prod.mk.inj e3
    rw [e5]
    simp only [Function.update_self]
    simp only [HObj.applyPupil, HObj.genPsf, attributeChanged, PyM.bind_apply, PyM.modify_apply, PyM.get_apply, PyM.lift_apply]
    rw [← e4]
  exact main.bind (always_ret main.final)

/-- C135: `apply_pupil` abandoned after any number of accesses leaves the parameters alone, and each output is the one before, the one after, or the
one of the same parameters without any pupil. -/
theorem C135_pupil (I : Impl) (i : ℕ) (P : Arr ℂ) (n : ℕ) (heap : Dicts) (hl : Lived (heap i).obj) :
    let o := (heap i).obj
    let o' := ((callT I i (.applyPupil P)).cut n heap i).obj
    let new := o.step (.applyPupil P)
    o'.params = o.params ∧
    (∀ r : ROp, (o'.step r.toHOp).1 = (o.step r.toHOp).1 ∨ (o'.step r.toHOp).1 = (new.2.step r.toHOp).1 ∨
      (o'.step r.toHOp).1 = (HObj.step { params := o.params } r.toHOp).1) ∧
    ∀ j, j ≠ i → (callT I i (.applyPupil P)).cut n heap j = heap j := by
  intro o o' new
  refine ⟨call_params I i (.applyPupil P) heap (by simp) (by simp) n, ?_, call_others I i _ heap n⟩
  obtain ⟨s, hs⟩ := hl.rel
  intro r
  rcases always_applyPupil I i P heap (lived_ready hl) n with h | h
  · exact (mixed_read hs (lived_ready hl) h r).imp id .inr
  · exact .inr (.inl (congrArg (fun x : HObj => (x.step r.toHOp).1) h))

end PyOTF
