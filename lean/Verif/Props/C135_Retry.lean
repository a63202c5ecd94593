import Verif.Props.C135_Interrupt
import Verif.Model.Repr

/-!
# C135: after an interruption
-/

namespace PyOTF

open TM Prog

/-! ## Repeating the call -/

theorem numericSet_self {isV : PyVal → Bool} {v w : PyVal} {old : Option PyVal} (h : numericSet isV old v = .ok (some w)) (hv : v.ne v = false) :
    numericSet isV (some v) v = .ok none := by
  unfold numericSet at h ⊢
  simp only [Bind.bind, Except.bind, pure, Except.pure] at h ⊢
  by_cases h1 : isV v = true
  · simp only [h1, Bool.not_true, Bool.false_eq_true, if_false] at h ⊢
    rcases h2 : v.ltZero with e | b
    · rw [h2] at h; cases h
    · rw [h2] at h
      rcases b with _ | _
      · simp [hv]
      · simp at h
  · simp [h1] at h

theorem int_ne_self {v : PyVal} (h : v.isInt = true) : v.ne v = false := by
  cases v <;> simp_all [PyVal.isInt, PyVal.ne, PyVal.num?, PyFloat.eq]

/-- An assignment that went through goes through again and ends in the same state - but for `wl`, `na`, `ni` and `size`. -/
theorem set_again {a : Attr} {v : PyVal} {o o' : HObj} (hr : Ready .hanser o.params) (h1 : a ≠ .wl) (h2 : a ≠ .na) (h3 : a ≠ .ni) (h4 : a ≠ .size)
    (h : Halfway a v o o') : setAttr .hanser a v o' = setAttr .hanser a v o := by
  rcases h with rfl | ⟨h, h'⟩
  · rfl
  cases a with
  | wl => exact absurd rfl h1
  | na => exact absurd rfl h2
  | ni => exact absurd rfl h3
  | size => exact absurd rfl h4
  | dual =>
    rcases h' with h' | ⟨h', -⟩ | ⟨h', -⟩
    · have e : setAttr .hanser .dual v o = (.ok (), o) := rfl
      have e' : setAttr .hanser .dual v o' = (.ok (), o') := rfl
      rw [e] at h h'
      rw [e, e']
      have ho : o = { params := o.params } := (Prod.mk.inj h).2
      obtain ⟨a1, a2, a3, a4, a5⟩ := h'
      have b2 : o.psfa = none := by rw [ho]
      have b3 : o.otfa = none := by rw [ho]
      have b4 : o.psfi = none := by rw [ho]
      have b5 : o.otfi = none := by rw [ho]
      simp only [b2, b3, b4, b5, or_self] at a2 a3 a4 a5
      have : o' = o := by
        rcases o' with ⟨p, b, c, d, e⟩
        rcases o with ⟨p', b', c', d', e'⟩
        simp only at a1 a2 a3 a4 a5 b2 b3 b4 b5
        subst a1 a2 a3 a4 a5 b2 b3 b4 b5
        rfl
      rw [this]
    · cases h'
    · cases h'
  | vecCorr =>
    rcases h' with h' | ⟨h', -⟩ | ⟨h', -⟩
    · have hp := h'.params
      simp only [setAttr, setVecCorr, store, attributeChanged, PyM.bind_apply, PyM.lift_apply, PyM.modify_apply] at h hp ⊢
      rcases hk : keyword VecCorr.ofString v with e | w
      · rw [hk] at h; cases h
      · rw [hk] at hp
        simp only [hp]
    · cases h'
    · cases h'
  | condition =>
    rcases h' with h' | ⟨h', -⟩ | ⟨h', -⟩
    · have hp := h'.params
      simp only [setAttr, setCondition, store, attributeChanged, PyM.bind_apply, PyM.lift_apply, PyM.modify_apply] at h hp ⊢
      rcases hk : keyword Condition.ofString v with e | w
      · rw [hk] at h; cases h
      · rw [hk] at hp
        simp only [hp]
    · cases h'
    · cases h'
  | res =>
    rcases h' with h' | ⟨h', -⟩ | ⟨h', -⟩
    · have hp := h'.params
      obtain ⟨q, hq, -, -⟩ := setAttr_run (Arr ℂ) (Arr ℝ) .hanser .res v o.params hr
      obtain ⟨na, xna, hna, hxna⟩ := hr.na
      obtain ⟨wl, xwl, hwl, hxwl⟩ := hr.wl
      have run : ∀ x : HObj, x.params.na = some na → x.params.wl = some wl → setAttr .hanser .res v x =
          match (do
            let q ← PyFloat.div (PyFloat.mul (.fin 2) xna) xwl
            let l ← PyFloat.div (.fin 1) q
            let y ← pyNum v
            if PyFloat.ge y l then .error .valueError else .ok () : Py Unit) with
          | .error e => (.error e, x)
          | .ok _ => (.ok (), { params := { x.params with res := some v } }) := by
        intro x g1 g2
        simp only [setAttr, setRes, self, attr, g1, g2, pyNum_of_num hxna, pyNum_of_num hxwl, PyM.bind_apply, PyM.lift_apply]
        rcases PyFloat.div (PyFloat.mul (.fin 2) xna) xwl with e | q
        · rfl
        simp only [Bind.bind, Except.bind]
        rcases PyFloat.div (.fin 1) q with e | l
        · rfl
        simp only []
        rcases pyNum v with e | y
        · rfl
        simp only []
        generalize PyFloat.ge y l = b
        cases b
        · rw [← g1, ← g2]; rfl
        · rfl
      have e := run o hna hwl
      rw [e] at h hp
      generalize hd : (do
            let q ← PyFloat.div (PyFloat.mul (.fin 2) xna) xwl
            let l ← PyFloat.div (.fin 1) q
            let y ← pyNum v
            if PyFloat.ge y l then .error .valueError else .ok () : Py Unit) = d at e h hp run
      rcases d with er | _
      · cases h
      · simp only at hp
        rw [run o' (by rw [hp]; exact hna) (by rw [hp]; exact hwl), e]
        simp only [hp]
    · cases h'
    · cases h'
  | zres =>
    obtain ⟨n0, hn0, -⟩ := hr.zsize
    rcases hw : pyNum v with e | x
    · have : (setAttr .hanser .zres v o).1 = .error e := by
        simp only [setAttr, setZresHanser, PyM.bind_apply, setZresBase_run, hw]
      rw [h] at this; cases this
    by_cases hx : PyFloat.lt (.fin 0) x = true
    · rw [zres_run hw hx hn0] at h' ⊢
      rcases h' with h' | ⟨h', -⟩ | ⟨-, h'⟩
      · have hp := h'.params
        rw [zres_run hw hx (by rw [hp]; exact hn0), hp]
      · cases h'
      · have hp := h'.params
        rw [zres_run hw hx (by rw [hp]; exact hn0), hp]
    · have : (setAttr .hanser .zres v o).1 = .error .valueError := by
        simp only [setAttr, setZresHanser, PyM.bind_apply, setZresBase_run, hw, if_neg hx]
      rw [h] at this; cases this
  | zsize =>
    obtain ⟨z, x, hz, hx⟩ := ready_zres hr
    obtain ⟨n0, hn0, -⟩ := hr.zsize
    rcases hw : numericSet PyVal.isInt o.params.zsize v with e | _ | w
    · have : (setAttr .hanser .zsize v o).1 = .error e := by
        simp only [setAttr, setZsizeHanser, setZsizeBase, PyM.bind_apply, setNumeric_run, hw]
      rw [h] at this; cases this
    · have e := zsize_run (n := n0) hw hn0 hz hx
      rw [e] at h' ⊢
      have hp : o'.params.zsize = o.params.zsize ∧ o'.params.zres = o.params.zres ∧
          { o'.params with zsize := some n0, zrange := some (defaultZrange (pyNat n0) x) } =
          { o.params with zsize := some n0, zrange := some (defaultZrange (pyNat n0) x) } := by
        rcases h' with h' | ⟨-, h'⟩ | ⟨h', -⟩
        · rw [h'.params]; exact ⟨hn0.symm, rfl, rfl⟩
        · rw [h'.params]; exact ⟨hn0.symm, rfl, rfl⟩
        · cases h'
      have hw' : numericSet PyVal.isInt o'.params.zsize v = .ok none := by rw [hp.1]; exact hw
      rw [zsize_run (n := n0) hw' (hp.1.trans hn0) (hp.2.1.trans hz) hx, hp.2.2]
    · have e := zsize_run (n := w) hw rfl hz hx
      rw [e] at h' ⊢
      obtain ⟨rfl, hint, -⟩ := numericSet_some hw
      have hp : o'.params.zsize = some w ∧ o'.params.zres = o.params.zres ∧
          { o'.params with zsize := some w, zrange := some (defaultZrange (pyNat w) x) } =
          { o.params with zsize := some w, zrange := some (defaultZrange (pyNat w) x) } := by
        rcases h' with h' | ⟨-, h'⟩ | ⟨h', -⟩
        · rw [h'.params]; exact ⟨rfl, rfl, rfl⟩
        · rw [h'.params]; exact ⟨rfl, rfl, rfl⟩
        · cases h'
      have hw' : numericSet PyVal.isInt o'.params.zsize w = .ok none := by
        rw [hp.1]; exact numericSet_self hw (int_ne_self hint)
      rw [zsize_run (n := w) hw' hp.1 (hp.2.1.trans hz) hx, hp.2.2]

/-- C135: a call that was abandoned after any number of accesses can simply be repeated - unless it assigns `wl`, `na`, `ni` or `size`.  Run to its end
now, it returns or raises what it would have without the interruption, and the object answers every later history as it would have. -/
theorem C135_retry (I : Impl) (i : ℕ) (op : HOp) (hop : ∀ a v, op = .set a v → a ≠ .wl ∧ a ≠ .na ∧ a ≠ .ni ∧ a ≠ .size) (n : ℕ) (heap : Dicts)
    (hh : ∀ j, Lived (heap j).obj) :
    let heap' := (callT I i op).cut n heap
    ((callT I i op).alone heap').1 = ((heap i).obj.step op).1 ∧
    (((callT I i op).alone heap').2 i).obj.params = ((heap i).obj.step op).2.params ∧
    ∀ ops, (runHistory HObj.step (((callT I i op).alone heap').2 i).obj ops).1 = (runHistory HObj.step ((heap i).obj.step op).2 ops).1 := by
  intro heap'
  have hr := lived_ready (hh i)
  have exact_case : Ready .hanser (heap' i).obj.params → (heap' i).obj.step op = (heap i).obj.step op →
      ((callT I i op).alone heap').1 = ((heap i).obj.step op).1 ∧
      (((callT I i op).alone heap').2 i).obj.params = ((heap i).obj.step op).2.params ∧
      ∀ ops, (runHistory HObj.step (((callT I i op).alone heap').2 i).obj ops).1 = (runHistory HObj.step ((heap i).obj.step op).2 ops).1 := by
    intro hr' e
    obtain ⟨scr, h⟩ := call_alone I i op heap' hr'
    rw [h, e]
    simp
  have read_case : ∀ r : ROp, op = r.toHOp → ((callT I i op).alone heap').1 = ((heap i).obj.step op).1 ∧
      (((callT I i op).alone heap').2 i).obj.params = ((heap i).obj.step op).2.params ∧
      ∀ ops, (runHistory HObj.step (((callT I i op).alone heap').2 i).obj ops).1 = (runHistory HObj.step ((heap i).obj.step op).2 ops).1 := by
    rintro r rfl
    obtain ⟨h1, h2⟩ := C135_read I i r n heap hh i
    have hr' : Ready .hanser (heap' i).obj.params := by rw [h1]; exact hr
    obtain ⟨scr, h⟩ := call_alone I i r.toHOp heap' hr'
    rw [h]
    obtain ⟨s, hs⟩ := (hh i).rel
    obtain ⟨s', hs'⟩ : ∃ s', HRel (heap' i).obj s' ∧ s' = s := by
      choose spec hspec using fun j => (hh j).rel
      by_contra hcon
      push Not at hcon
      have hI : TInv (Function.update spec i s) heap := fun j => by
        by_cases hj : j = i
        · subst hj; rw [Function.update_self]; exact hs
        · rw [Function.update_of_ne hj]; exact hspec j
      have e : callT I i r.toHOp = readT I i r := by cases r <;> rfl
      have hI' : TInv (Function.update spec i s) ((readT I i r).cut n heap) := (tsafe_read I i r hI).cut (heapLe_refl _) hI n
      have := hI' i
      rw [Function.update_self, ← e] at this
      exact hcon s this rfl
    obtain ⟨hs', rfl⟩ := hs'
    refine ⟨?_, ?_, fun ops => ?_⟩
    · rw [(step_rel hs' _).1, (step_rel hs _).1]
    · simp only [Function.update_self]
      rw [(step_rel hs' _).2.params, (step_rel hs _).2.params]
    · simp only [Function.update_self]
      rw [(run_rel (step_rel hs' _).2 ops).1, (run_rel (step_rel hs _).2 ops).1]
  cases op with
  | set a v =>
    obtain ⟨k1, k2, k3, k4⟩ := hop a v rfl
    have hw := halfway_call I i a v heap hr n
    refine exact_case ?_ ?_
    · rcases hw with e | ⟨-, e | ⟨rfl, e⟩ | ⟨rfl, e⟩⟩
      · rw [e]; exact hr
      · rw [e.params]; exact ready_set hr a v
      · rw [e.params]; exact { hr with zsize := (ready_set hr .zsize v).zsize }
      · rw [e.params]; exact { hr with zres := (ready_set hr .zres v).zres }
    · exact congrArg (outAs _) (set_again hr k1 k2 k3 k4 hw)
  | setZrange z =>
    have hw := always_zrange I i z heap n
    refine exact_case ?_ ?_
    · rcases hw with e | e
      · rw [e]; exact hr
      · rw [e.params]; exact { hr with zrange := fun _ => rfl }
    · rcases hw with e | e
      · rw [e]
      · refine congrArg (outAs _) ?_
        have hp : (heap' i).obj.params = _ := e.params
        rw [setZrange_run, setZrange_run, hp]
  | applyPupil P =>
    have hp := call_params I i (.applyPupil P) heap (by simp) (by simp) n
    refine exact_case (by rw [hp]; exact hr) ?_
    simp only [HObj.step, HObj.applyPupil, HObj.genPsf, attributeChanged, PyM.bind_apply, PyM.modify_apply, PyM.get_apply, PyM.lift_apply]
    have hp' : (heap' i).obj.params = (heap i).obj.params := hp
    rw [hp']
  | readPSFa => exact read_case .PSFa rfl
  | readOTFa => exact read_case .OTFa rfl
  | readPSFi => exact read_case .PSFi rfl
  | readOTFi => exact read_case .OTFi rfl

/-! ## Repeating an assignment to `wl`, `na`, `ni` or `size` -/

/-- The output `r` of `o` is cached, with value `out`. -/
def Holds (o : HObj) (r : ROp) (out : Out (Arr ℂ) (Arr ℝ)) : Prop :=
  match r with
  | .PSFa => ∃ a, o.psfa = some a ∧ out = .cplx a
  | .OTFa => ∃ a, o.otfa = some a ∧ out = .cplx a
  | .PSFi => ∃ a, o.psfi = some a ∧ out = .real a
  | .OTFi => ∃ a, o.otfi = some a ∧ out = .cplx a

theorem holds_after {o : HObj} {r : ROp} {out : Out (Arr ℂ) (Arr ℝ)} (h : (o.step r.toHOp).1 = .ok out) : Holds (o.step r.toHOp).2 r out := by
  cases r with
  | PSFa =>
    simp only [ROp.toHOp, HObj.step, outAs, Holds] at h ⊢
    simp only [HObj.getPSFa, PyM.bind_apply, PyM.get_apply] at h ⊢
    rcases ha : o.psfa with _ | a
    · simp only [ha, PyM.bind_apply] at h ⊢
      generalize HObj.genPsf none o = g at h ⊢
      rcases g with ⟨e | a, o1⟩
      · cases h
      · exact ⟨a, rfl, (Except.ok.inj h).symm⟩
    · simp only [ha, PyM.pure_apply] at h ⊢
      exact ⟨a, rfl, (Except.ok.inj h).symm⟩
  | OTFa =>
    simp only [ROp.toHOp, HObj.step, outAs, Holds] at h ⊢
    simp only [HObj.getOTFa, PyM.bind_apply, PyM.get_apply] at h ⊢
    rcases ha : o.otfa with _ | a
    · simp only [ha, PyM.bind_apply] at h ⊢
      generalize HObj.getPSFa o = g at h ⊢
      rcases g with ⟨e | a, o1⟩
      · cases h
      · simp only [PyM.lift_apply] at h ⊢
        generalize hanserOTFa a = g at h ⊢
        rcases g with e | t
        · cases h
        · exact ⟨t, rfl, (Except.ok.inj h).symm⟩
    · simp only [ha, PyM.pure_apply] at h ⊢
      exact ⟨a, rfl, (Except.ok.inj h).symm⟩
  | PSFi =>
    simp only [ROp.toHOp, HObj.step, outAs, Holds] at h ⊢
    simp only [HObj.getPSFi, PyM.bind_apply, PyM.get_apply] at h ⊢
    rcases ha : o.psfi with _ | a
    · simp only [ha, PyM.bind_apply] at h ⊢
      generalize HObj.getPSFa o = g at h ⊢
      rcases g with ⟨e | a, o1⟩
      · cases h
      · exact ⟨psfiOf a, rfl, (Except.ok.inj h).symm⟩
    · simp only [ha, PyM.pure_apply] at h ⊢
      exact ⟨a, rfl, (Except.ok.inj h).symm⟩
  | OTFi =>
    simp only [ROp.toHOp, HObj.step, outAs, Holds] at h ⊢
    simp only [HObj.getOTFi, PyM.bind_apply, PyM.get_apply] at h ⊢
    rcases ha : o.otfi with _ | a
    · simp only [ha, PyM.bind_apply] at h ⊢
      generalize HObj.getPSFi o = g at h ⊢
      rcases g with ⟨e | a, o1⟩
      · cases h
      · simp only [PyM.lift_apply] at h ⊢
        generalize otfiOf a = g at h ⊢
        rcases g with e | t
        · cases h
        · exact ⟨t, rfl, (Except.ok.inj h).symm⟩
    · simp only [ha, PyM.pure_apply] at h ⊢
      exact ⟨a, rfl, (Except.ok.inj h).symm⟩

theorem Holds.read {o : HObj} {r : ROp} {out : Out (Arr ℂ) (Arr ℝ)} (h : Holds o r out) : o.step r.toHOp = (.ok out, o) := by
  cases r <;> obtain ⟨a, h, rfl⟩ := h
  · simp only [ROp.toHOp, HObj.step, outAs, HObj.getPSFa, PyM.bind_apply, PyM.get_apply, h, PyM.pure_apply]; rfl
  · simp only [ROp.toHOp, HObj.step, outAs, HObj.getOTFa, PyM.bind_apply, PyM.get_apply, h, PyM.pure_apply]; rfl
  · simp only [ROp.toHOp, HObj.step, outAs, HObj.getPSFi, PyM.bind_apply, PyM.get_apply, h, PyM.pure_apply]; rfl
  · simp only [ROp.toHOp, HObj.step, outAs, HObj.getOTFi, PyM.bind_apply, PyM.get_apply, h, PyM.pure_apply]; rfl

/-- C135: not so for `wl`, `na`, `ni` and `size`.  An output has been read; then an assignment that changes one of these attributes to a finite number is
abandoned when the new value is stored (two accesses).  Repeating the assignment does nothing, without an error: the attribute has the new
value, but the output is still the old one. -/
theorem C135_retry_stale (I : Impl) (i : ℕ) (a : Attr) (ha : a = .wl ∨ a = .na ∨ a = .ni ∨ a = .size) (v : PyVal) (q : ℚ) (hq : v.num? = some (.fin q))
    (heap : Dicts) (r : ROp) (o : HObj) (hl : Lived o) (out : Out (Arr ℂ) (Arr ℝ)) (ho : o.step r.toHOp = (.ok out, (heap i).obj))
    (hv : ((heap i).obj.step (.set a v)).1 = .ok .done) (hc : ((heap i).obj.step (.set a v)).2.params ≠ (heap i).obj.params) :
    let heap' := (callT I i (.set a v)).cut 2 heap
    ((callT I i (.set a v)).alone heap').1 = .ok .done ∧
    (((callT I i (.set a v)).alone heap').2 i).obj.params = ((heap i).obj.step (.set a v)).2.params ∧
    ((((callT I i (.set a v)).alone heap').2 i).obj.step r.toHOp).1 = .ok out := by
  intro heap'
  have hh : Holds (heap i).obj r out := by
    have := holds_after (o := o) (r := r) (out := out) (by rw [ho])
    rwa [ho] at this
  have hlv : Lived (heap i).obj := by
    obtain ⟨a, zr, o0, ops, h1, h2⟩ := hl
    refine ⟨a, zr, o0, ops ++ [r.toHOp], h1, ?_⟩
    have app : ∀ (xs ys : List HOp) (x : HObj), (runHistory HObj.step x (xs ++ ys)).2 = (runHistory HObj.step (runHistory HObj.step x xs).2 ys).2 := by
      intro xs ys
      induction xs with
      | nil => intro x; rfl
      | cons z zs ih => intro x; exact ih _
    rw [app, ← h2]
    simp only [runHistory, ho]
  have hvne : v.ne v = false := by
    unfold PyVal.ne
    rw [hq]
    simp [PyFloat.eq]
  have key : ∀ (isV : PyVal → Bool) (get : Params → Option PyVal) (put : PyVal → Params → Params),
      (∀ x : HObj, setAttr .hanser a v x = setNumeric isV get put v x) → setAttrT i a v = setNumericT i isV get put v → (∀ p, get (put v p) = some v) →
      ((callT I i (.set a v)).alone heap').1 = .ok .done ∧
      (((callT I i (.set a v)).alone heap').2 i).obj.params = ((heap i).obj.step (.set a v)).2.params ∧
      ((((callT I i (.set a v)).alone heap').2 i).obj.step r.toHOp).1 = .ok out := by
    intro isV get put h1 h2 h3
    rcases hw : numericSet isV (get (heap i).obj.params) v with e | _ | w
    · simp only [HObj.step, outAs, h1, setNumeric_run, hw] at hv; cases hv
    · exact absurd (by simp only [HObj.step, outAs, h1, setNumeric_run, hw]) hc
    obtain ⟨rfl, -, -⟩ := numericSet_some hw
    have e' : (heap' i).obj = { (heap i).obj with params := put w (heap i).obj.params } := by
      have : heap' = Function.update heap i { heap i with obj := { (heap i).obj with params := put w (heap i).obj.params } } := by
        show (callT I i (.set a w)).cut 2 heap = _
        simp only [callT, yieldT, h2, setNumericT, rd, wr, TM.bind, Prog.bind, Prog.cut, hw, id]
      rw [this, Function.update_self]
    have hw' : numericSet isV (get (heap' i).obj.params) w = .ok none := by
      rw [e', h3]; exact numericSet_self hw hvne
    have hnew : ((heap i).obj.step (.set a w)).2 = { params := put w (heap i).obj.params } := by
      simp only [HObj.step, outAs, h1, setNumeric_run, hw]
    have hrdy : Ready .hanser (heap' i).obj.params := by
      have := ready_set (lived_ready hlv) a w
      have e2 : (setAttr .hanser a w (heap i).obj).2 = { params := put w (heap i).obj.params } := hnew
      rw [e2] at this
      rw [e']; exact this
    obtain ⟨scr, hal⟩ := call_alone I i (.set a w) heap' hrdy
    have hst : (heap' i).obj.step (.set a w) = (.ok .done, (heap' i).obj) := by
      simp only [HObj.step, outAs, h1, setNumeric_run, hw']
      rfl
    rw [hal, hst]
    refine ⟨rfl, ?_, ?_⟩
    · simp only [Function.update_self, e', hnew]
    · simp only [Function.update_self]
      have : Holds (heap' i).obj r out := by
        rw [e']
        cases r <;> exact hh
      rw [this.read]
  rcases ha with rfl | rfl | rfl | rfl
  · exact key PyVal.isFloatOrInt Params.wl (fun v p => { p with wl := some v }) (fun _ => rfl) rfl fun _ => rfl
  · exact key PyVal.isFloatOrInt Params.na (fun v p => { p with na := some v }) (fun _ => rfl) rfl fun _ => rfl
  · exact key PyVal.isFloatOrInt Params.ni (fun v p => { p with ni := some v }) (fun _ => rfl) rfl fun _ => rfl
  · exact key PyVal.isInt Params.size (fun v p => { p with size := some v }) (fun _ => rfl) rfl fun _ => rfl

/-! ## Repair -/

theorem ready_session (I : Impl) (i : ℕ) (cs : List (HOp × Option ℕ)) (s : Dicts) (hr : Ready .hanser (s i).obj.params) :
    Ready .hanser (sessionT I i cs s i).obj.params ∧ ∀ j, j ≠ i → sessionT I i cs s j = s j := by
  have cut : ∀ (op : HOp) (s : Dicts), Ready .hanser (s i).obj.params → Always (fun t => Ready .hanser (t i).obj.params) (callT I i op) s := by
    intro op s hr n
    have other : (∀ a v, op ≠ .set a v) → (∀ z, op ≠ .setZrange z) → Ready .hanser ((callT I i op).cut n s i).obj.params := fun h1 h2 => by
      rw [call_params I i op s h1 h2 n]; exact hr
    cases op with
    | set a v =>
      rcases halfway_call I i a v s hr n with e | ⟨-, e | ⟨rfl, e⟩ | ⟨rfl, e⟩⟩
      · rw [e]; exact hr
      · rw [e.params]; exact ready_set hr a v
      · rw [e.params]; exact { hr with zsize := (ready_set hr .zsize v).zsize }
      · rw [e.params]; exact { hr with zres := (ready_set hr .zres v).zres }
    | setZrange z =>
      rcases always_zrange I i z s n with e | e
      · rw [e]; exact hr
      · rw [e.params]; exact { hr with zrange := fun _ => rfl }
    | applyPupil P => exact other (by simp) (by simp)
    | readPSFa => exact other (by simp) (by simp)
    | readOTFa => exact other (by simp) (by simp)
    | readPSFi => exact other (by simp) (by simp)
    | readOTFi => exact other (by simp) (by simp)
  induction cs generalizing s with
  | nil => exact ⟨hr, fun _ _ => rfl⟩
  | cons c cs ih =>
    obtain ⟨op, _ | n⟩ := c
    · obtain ⟨h1, h2⟩ := ih ((callT I i op).alone s).2 (cut op s hr).final
      exact ⟨h1, fun j hj => (h2 j hj).trans ((call_others I i op s).final j hj)⟩
    · obtain ⟨h1, h2⟩ := ih ((callT I i op).cut n s) (cut op s hr n)
      exact ⟨h1, fun j hj => (h2 j hj).trans (call_others I i op s n j hj)⟩

theorem ofString_str (v : VecCorr) : keyword VecCorr.ofString (.str v.str) = .ok v := by
  cases v <;> rfl

/-- C135: however many calls were abandoned, and wherever, an object can be repaired: assigning `vec_corr` the value it has is accepted, and from then on
the object answers every history as one with its parameters that never cached anything and has no pupil applied; and applying a pupil gives
or raises what it should, and from then on the object answers every history as one with its parameters and that pupil.  All
other objects are untouched. -/
theorem C135_repair (I : Impl) (i : ℕ) (heap : Dicts) (hl : Lived (heap i).obj) (cs : List (HOp × Option ℕ)) :
    let o := (sessionT I i cs heap i).obj
    (∃ v, o.params.vecCorr = some v ∧ (o.step (.set .vecCorr (.str v.str))).1 = .ok .done ∧
      (o.step (.set .vecCorr (.str v.str))).2.params = o.params ∧
      ∀ ops, (runHistory HObj.step (o.step (.set .vecCorr (.str v.str))).2 ops).1 = (runHistory HSpec.step ⟨o.params, none⟩ ops).1) ∧
    (∀ P ops, (runHistory HObj.step o (.applyPupil P :: ops)).1 = (runHistory HSpec.step ⟨o.params, none⟩ (.applyPupil P :: ops)).1) ∧
    ∀ j, j ≠ i → sessionT I i cs heap j = heap j := by
  intro o
  obtain ⟨hr, hj⟩ := ready_session I i cs heap (lived_ready hl)
  refine ⟨?_, ?_, hj⟩
  · obtain ⟨v, hv⟩ := Option.isSome_iff_exists.mp hr.vecCorr
    have e : setAttr .hanser .vecCorr (.str v.str) o = (.ok (), { params := o.params }) := by
      simp only [setAttr, setVecCorr, ofString_str, store, attributeChanged, PyM.bind_apply, PyM.lift_apply, PyM.modify_apply]
      have : { o.params with vecCorr := some v } = o.params := by rw [← hv]
      rw [this]
    refine ⟨v, hv, ?_, ?_, fun ops => ?_⟩
    · simp only [HObj.step, outAs, e]; rfl
    · simp only [HObj.step, outAs, e]
    · simp only [HObj.step, outAs, e]
      exact (run_rel (HRel.cleared hr) ops).1
  · intro P ops
    have e : o.step (.applyPupil P) = HObj.step { params := o.params } (.applyPupil P) := by
      simp only [HObj.step, HObj.applyPupil, HObj.genPsf, attributeChanged, PyM.bind_apply, PyM.modify_apply, PyM.get_apply, PyM.lift_apply]
    have := (run_rel (HRel.cleared hr) (.applyPupil P :: ops)).1
    rw [← this]
    simp only [runHistory, e]
    rfl

/-! ## Concrete cases -/

/-- Non-vacuity of `C135_retry_stale`: `PSFa` of `HanserPSF(wl=520, na=0.85, ni=1.0, res=130, size=64)` has been read; `size = 32` is interrupted, then
repeated; the object says `size == 32`, and `PSFa` is still 64 pixels wide. -/
example (I : Impl) : ∃ (heap : Dicts) (a : Arr ℂ), (∀ j, Lived (heap j).obj) ∧
    let heap' := ((callT I 0 (.set .size (.int 32))).alone ((callT I 0 (.set .size (.int 32))).cut 2 heap)).2
    (heap' 0).obj.params.size = some (.int 32) ∧ (HObj.getPSFa (heap' 0).obj).1 = .ok a ∧ ∃ C Z, a.shape = [C, Z, 64, 64] := by
  obtain ⟨o, a, ho, -, -, ha⟩ := demo_optics
  obtain ⟨hr, he⟩ := hanser_ready ho
  have hrel : HRel o ⟨o.params, none⟩ := by rw [he]; exact HRel.cleared hr
  obtain ⟨-, -, -, -, hs, -⟩ := C34_hanser_attributes _ _ _ ho
  obtain ⟨h1, h2, h3⟩ := getPSFa_rel hrel
  have hread : o.step (ROp.toHOp .PSFa) = (.ok (.cplx a), (HObj.getPSFa o).2) := by
    simp only [ROp.toHOp, HObj.step, outAs, h1, ha]; rfl
  have hs' : (HObj.getPSFa o).2.params.size = some (.int 64) := by rw [h2.params]; exact hs
  have hset : setAttr .hanser .size (.int 32) (HObj.getPSFa o).2 = (.ok (), { params := { (HObj.getPSFa o).2.params with size := some (.int 32) } }) := by
    simp [setAttr, setSize, setNumeric_run, numericSet, PyVal.isInt, PyVal.ltZero, PyVal.num?, PyFloat.lt, hs', PyVal.ne, PyFloat.eq]
    rfl
  have hl : Lived (HObj.getPSFa o).2 := ⟨_, _, o, [.readPSFa], ho, rfl⟩
  obtain ⟨k1, k2, k3⟩ := C135_retry_stale I 0 .size (by simp) (.int 32) 32 rfl (fun _ => ⟨(HObj.getPSFa o).2, {}⟩) .PSFa o ⟨_, _, o, [], ho, rfl⟩ (.cplx a) hread
    (by simp only [HObj.step, outAs, hset]; rfl) (by
      simp only [HObj.step, outAs, hset]
      intro e
      have := congrArg Params.size e
      rw [hs'] at this
      simp at this)
  refine ⟨fun _ => ⟨(HObj.getPSFa o).2, {}⟩, a, fun _ => hl, ?_, ?_, ?_⟩
  · rw [k2]; simp only [HObj.step, outAs, hset]
  · simp only [ROp.toHOp, HObj.step, outAs] at k3
    generalize HObj.getPSFa _ = g at k3 ⊢
    rcases g with ⟨e | b, o1⟩
    · cases k3
    · cases k3; rfl
  · obtain ⟨hN, g1, g2, -⟩ := genPsf_closed (show hanserGenPsf o.params none = .ok a from ha) (by intro P v hP; cases hP)
    obtain ⟨v, e1, e2⟩ := g1.size
    have hs0 : o.params.size = some (.int 64) := hs
    rw [hs0] at e1
    have e3 := Option.some.inj e1
    subst e3
    exact ⟨_, _, by rw [g2, e2]; rfl⟩

/-- Non-vacuity of the other theorems: an object in use, an interrupted assignment to `zsize` that leaves it half done, its repetition, and the repair of an
object after three interrupted calls. -/
example (I : Impl) : ∃ (heap : Dicts), (∀ j, Lived (heap j).obj) ∧
    ((callT I 0 (.set .zsize (.int 8))).cut 4 heap 0).obj.params.zsize = some (.int 8) ∧
    ((callT I 0 (.set .zsize (.int 8))).cut 4 heap 0).obj.params.zrange = (heap 0).obj.params.zrange ∧
    ((callT I 0 (.set .zsize (.int 8))).alone ((callT I 0 (.set .zsize (.int 8))).cut 4 heap)).1 = .ok .done ∧
    ∀ P, let o := (sessionT I 0 [(.set .size (.int 32), some 3), (.readOTFi, some 20), (.applyPupil P, some 9)] heap 0).obj
      ∃ v : VecCorr, ∀ ops, (runHistory HObj.step (o.step (.set .vecCorr (.str v.str))).2 ops).1 = (runHistory HSpec.step ⟨o.params, none⟩ ops).1 := by
  obtain ⟨o, a, ho, -, -, ha⟩ := demo_optics
  obtain ⟨hr, he⟩ := hanser_ready ho
  obtain ⟨-, -, -, -, -, -, hs⟩ := C34_hanser_attributes _ _ _ ho
  have hl : Lived o := ⟨_, _, o, [], ho, rfl⟩
  have hzs : ∃ w, o.params.zsize = some w ∧ w ≠ .int 8 ∧ numericSet PyVal.isInt (some w) (.int 8) = .ok (some (.int 8)) := by
    refine ⟨.int 64, hs, by simp, ?_⟩
    simp [numericSet, PyVal.isInt, PyVal.ltZero, PyVal.num?, PyFloat.lt, PyVal.ne, PyFloat.eq]
    rfl
  obtain ⟨w, hw, hw8, hset⟩ := hzs
  refine ⟨fun _ => ⟨o, {}⟩, fun _ => hl, ?_, ?_, ?_, fun P => ?_⟩
  · simp [callT, yieldT, setAttrT, setNumericT, rd, wr, attributeChangedT, TM.bind, Prog.bind, Prog.cut, hw, hset]
  · simp [callT, yieldT, setAttrT, setNumericT, rd, wr, attributeChangedT, TM.bind, Prog.bind, Prog.cut, hw, hset]
  · rw [(C135_retry I 0 (.set .zsize (.int 8)) (by intro a v h; cases h; simp) 4 (fun _ => ⟨o, {}⟩) fun _ => hl).1]
    obtain ⟨z, x, hz, hx⟩ := ready_zres hr
    simp only [HObj.step, outAs, zsize_run (n := .int 8) (by rw [hw]; exact hset) rfl hz hx]
    rfl
  · intro o'
    obtain ⟨⟨v, -, -, -, h⟩, -⟩ := C135_repair I 0 (fun _ => ⟨o, {}⟩) hl [(.set .size (.int 32), some 3), (.readOTFi, some 20), (.applyPupil P, some 9)]
    exact ⟨v, h⟩

end PyOTF
