import Verif.Model.Sheppard

/-!
# Running the setters of the PSF classes
-/

namespace PyOTF

variable {A I : Type}

theorem setNumeric_run (isV : PyVal → Bool) (rd : Params → Option PyVal) (wr : PyVal → Params → Params)
    (v : PyVal) (o : Obj A I) : setNumeric isV rd wr v o =
    match numericSet isV (rd o.params) v with
    | .error e => (.error e, o)
    | .ok none => (.ok (), o)
    | .ok (some w) => (.ok (), { params := wr w o.params }) := by
  simp only [setNumeric, PyM.bind_apply, PyM.get_apply, PyM.lift_apply]
  rcases numericSet isV (rd o.params) v with e | _ | w <;> rfl

theorem numericSet_some {isV : PyVal → Bool} {old : Option PyVal} {v w : PyVal}
    (h : numericSet isV old v = .ok (some w)) : w = v ∧ isV v = true ∧ (old.getD .none).ne v = true := by
  unfold numericSet at h
  simp only [bind, Except.bind, pure, Except.pure] at h
  by_cases h1 : isV v = true
  · simp only [h1] at h
    rcases h2 : v.ltZero with e | b
    · rw [h2] at h; simp at h
    · rw [h2] at h
      cases b
      · by_cases h3 : (old.getD .none).ne v = true
        · simp [h3] at h
          exact ⟨h.symm, h1, h3⟩
        · simp [h3] at h
      · simp [throw, throwThe, MonadExceptOf.throw] at h
  · simp [h1, throw, throwThe, MonadExceptOf.throw] at h

theorem numericSet_none {isV : PyVal → Bool} {old : Option PyVal} {v : PyVal}
    (h : numericSet isV old v = .ok none) : isV v = true ∧ (old.getD .none).ne v = false := by
  unfold numericSet at h
  simp only [bind, Except.bind, pure, Except.pure] at h
  by_cases h1 : isV v = true
  · simp only [h1] at h
    rcases h2 : v.ltZero with e | b
    · rw [h2] at h; simp at h
    · rw [h2] at h
      cases b
      · by_cases h3 : (old.getD .none).ne v = true
        · simp [h3] at h
        · exact ⟨h1, by simpa using h3⟩
      · simp [throw, throwThe, MonadExceptOf.throw] at h
  · simp [h1, throw, throwThe, MonadExceptOf.throw] at h

theorem setZresBase_run (v : PyVal) (o : Obj A I) : setZresBase v o =
    match pyNum v with
    | .error e => (.error e, o)
    | .ok x => if PyFloat.lt (.fin 0) x = true then (.ok (), { params := { o.params with zres := some v } })
      else (.error .valueError, o) := by
  simp only [setZresBase, PyM.bind_apply, PyM.lift_apply]
  rcases pyNum v with e | x
  · rfl
  · by_cases h : PyFloat.lt (.fin 0) x = true
    · simp [h]; rfl
    · simp [h]

theorem setZrange_run (v : ZArg) (o : Obj A I) :
    setZrange v o = (.ok (), { params := { o.params with zrange := some v.toList } }) := rfl

theorem genZrange_run (o : Obj A I) : genZrange o =
    match o.params.zsize, o.params.zres with
    | some n, some z => match pyNum z with
      | .ok z => (.ok (), { params := { o.params with zrange := some (defaultZrange (pyNat n) z) } })
      | .error e => (.error e, o)
    | _, _ => (.error .attributeError, o) := by
  simp only [genZrange, PyM.bind_apply, self, PyM.lift_apply]
  rcases hn : o.params.zsize with _ | n
  · rfl
  · rcases hz : o.params.zres with _ | z
    · simp only [hz, attr]
    · simp only [hz, attr]
      rcases hx : pyNum z with e | x
      · simp only []
      · simp only [setZrange_run, hn, ZArg.toList, hz]

/-- A number, as stored by the setters. -/
def IsNum (v : Option PyVal) : Prop := ∃ w x, v = some w ∧ w.num? = some x

/-- A natural number, as stored by the `size` setters. -/
def IsNat (v : Option PyVal) : Prop := ∃ w, v = some w ∧ w.isInt = true

/-- All attributes of a constructed object are set and well typed. -/
structure Ready (c : Cls) (p : Params) : Prop where
  wl : IsNum p.wl
  na : IsNum p.na
  ni : IsNum p.ni
  res : IsNum p.res
  zres : IsNum p.zres
  size : IsNat p.size
  zsize : IsNat p.zsize
  vecCorr : p.vecCorr.isSome = true
  condition : p.condition.isSome = true
  zrange : c = .hanser → p.zrange.isSome = true
  dual : c = .sheppard → p.dual.isSome = true

theorem pyNum_of_num {v : PyVal} {x : PyFloat} (h : v.num? = some x) : pyNum v = .ok x := by
  simp [pyNum, h]

theorem pyNum_none {v : PyVal} (h : v.num? = none) : pyNum v = .error .typeError := by
  simp [pyNum, h]

theorem isFloatOrInt_num {v : PyVal} (h : v.isFloatOrInt = true) : ∃ x, v.num? = some x := by
  cases v <;> simp_all [PyVal.isFloatOrInt, PyVal.num?]

/-- Does an accepted assignment leave the object completely alone? -/
def Keeps (c : Cls) (a : Attr) (v : PyVal) (p : Params) : Prop :=
  match a with
  | .wl => (p.wl.getD .none).ne v = false
  | .na => (p.na.getD .none).ne v = false
  | .ni => (p.ni.getD .none).ne v = false
  | .size => (p.size.getD .none).ne v = false
  | .zsize => c = .sheppard ∧ (p.zsize.getD .none).ne v = false
  | .dual => c = .hanser
  | _ => False

/-- The effect of an assignment as a function of the parameters alone. -/
def Effect (A I : Type) (c : Cls) (a : Attr) (v : PyVal) (p : Params) (q : Py (Option Params)) : Prop :=
  ∀ o : Obj A I, o.params = p → setAttr c a v o =
    match q with
    | .error e => (.error e, o)
    | .ok none => (.ok (), o)
    | .ok (some p') => (.ok (), { params := p' })

/-- What one assignment does to a constructed object: it raises and changes nothing, or it is accepted
and changes nothing, or it replaces the parameters and drops all caches. -/
theorem setAttr_run (A I : Type) (c : Cls) (a : Attr) (v : PyVal) (p : Params) (hr : Ready c p) :
    ∃ q, Effect A I c a v p q ∧ (q = .ok none → Keeps c a v p) ∧
      ∀ p', q = .ok (some p') → ¬ Keeps c a v p ∧ Ready c p' := by
  have err : ∀ e, Effect A I c a v p (.error e) → ∃ q, Effect A I c a v p q ∧ (q = .ok none → Keeps c a v p) ∧
      ∀ p', q = .ok (some p') → ¬ Keeps c a v p ∧ Ready c p' :=
    fun e h => ⟨_, h, by simp, by simp⟩
  have keep : Effect A I c a v p (.ok none) → Keeps c a v p → ∃ q, Effect A I c a v p q ∧
      (q = .ok none → Keeps c a v p) ∧ ∀ p', q = .ok (some p') → ¬ Keeps c a v p ∧ Ready c p' :=
    fun h hk => ⟨_, h, fun _ => hk, by simp⟩
  have chg : ∀ p', Effect A I c a v p (.ok (some p')) → ¬ Keeps c a v p → Ready c p' →
      ∃ q, Effect A I c a v p q ∧
      (q = .ok none → Keeps c a v p) ∧ ∀ p', q = .ok (some p') → ¬ Keeps c a v p ∧ Ready c p' :=
    fun p' h hk hr => ⟨_, h, by simp, by rintro p'' h'; cases h'; exact ⟨hk, hr⟩⟩
  have num : ∀ (isV : PyVal → Bool) (rd : Params → Option PyVal) (wr : PyVal → Params → Params)
      (hset : ∀ o : Obj A I, setAttr c a v o = setNumeric isV rd wr v o)
      (hk : Keeps c a v p ↔ ((rd p).getD .none).ne v = false)
      (hw : isV v = true → Ready c (wr v p)),
      ∃ q, Effect A I c a v p q ∧ (q = .ok none → Keeps c a v p) ∧
      ∀ p', q = .ok (some p') → ¬ Keeps c a v p ∧ Ready c p' := by
    intro isV rd wr hset hk hw
    rcases hn : numericSet isV (rd p) v with e | _ | w
    · exact err e fun o ho => by subst ho; rw [hset, setNumeric_run, hn]
    · exact keep (fun o ho => by subst ho; rw [hset, setNumeric_run, hn]) (hk.mpr (numericSet_none hn).2)
    · obtain ⟨rfl, h1, h2⟩ := numericSet_some hn
      refine chg (wr w p) (fun o ho => by subst ho; rw [hset, setNumeric_run, hn]) ?_ (hw h1)
      rw [hk, h2]; simp
  cases a with
  | wl =>
    refine num PyVal.isFloatOrInt Params.wl _ (fun o => rfl) Iff.rfl fun hv => ?_
    obtain ⟨x, hx⟩ := isFloatOrInt_num hv
    exact { hr with wl := ⟨v, x, rfl, hx⟩ }
  | na =>
    refine num PyVal.isFloatOrInt Params.na _ (fun o => rfl) Iff.rfl fun hv => ?_
    obtain ⟨x, hx⟩ := isFloatOrInt_num hv
    exact { hr with na := ⟨v, x, rfl, hx⟩ }
  | ni =>
    refine num PyVal.isFloatOrInt Params.ni _ (fun o => rfl) Iff.rfl fun hv => ?_
    obtain ⟨x, hx⟩ := isFloatOrInt_num hv
    exact { hr with ni := ⟨v, x, rfl, hx⟩ }
  | size =>
    refine num PyVal.isInt Params.size _ (fun o => rfl) Iff.rfl fun hv => ?_
    exact { hr with size := ⟨v, rfl, hv⟩ }
  | zsize =>
    cases c with
    | sheppard =>
      refine num PyVal.isInt Params.zsize _ (fun o => rfl) (by simp [Keeps]) fun hv => ?_
      exact { hr with zsize := ⟨v, rfl, hv⟩ }
    | hanser =>
      obtain ⟨zr, zx, hz1, hz2⟩ := hr.zres
      obtain ⟨n, hn1, hn2⟩ := hr.zsize
      have e : ∀ o : Obj A I, setAttr .hanser .zsize v o = setZsizeHanser v o := fun o => rfl
      rcases hn : numericSet PyVal.isInt p.zsize v with er | _ | w
      · refine err er fun o ho => ?_
        subst ho
        simp only [e, setZsizeHanser, PyM.bind_apply, setZsizeBase, setNumeric_run, hn]
      · refine chg { p with zrange := some (defaultZrange (pyNat n) zx) } (fun o ho => ?_) (by simp [Keeps])
          { hr with zrange := fun _ => rfl }
        subst ho
        simp only [e, setZsizeHanser, PyM.bind_apply, setZsizeBase, setNumeric_run, hn]
        simp only [PyM.ignore, genZrange_run, hn1, hz1, pyNum_of_num hz2]
      · obtain ⟨rfl, h1, h2⟩ := numericSet_some hn
        refine chg { p with zsize := some w, zrange := some (defaultZrange (pyNat w) zx) } (fun o ho => ?_) (by simp [Keeps])
          { hr with zsize := ⟨w, rfl, h1⟩, zrange := fun _ => rfl }
        subst ho
        simp only [e, setZsizeHanser, PyM.bind_apply, setZsizeBase, setNumeric_run, hn]
        simp only [PyM.ignore, genZrange_run, hz1, pyNum_of_num hz2]
  | res =>
    obtain ⟨na, nax, h1, h2⟩ := hr.na
    obtain ⟨wl, wlx, h3, h4⟩ := hr.wl
    have e : ∀ o : Obj A I, setAttr c .res v o = setRes v o := fun o => by cases c <;> rfl
    rcases hq : PyFloat.div (PyFloat.mul (.fin 2) nax) wlx with er | q
    · refine err er fun o ho => ?_
      subst ho
      simp only [e, setRes, PyM.bind_apply, self, PyM.lift_apply, h1, h3, attr, pyNum_of_num h2, pyNum_of_num h4, hq]
    · rcases hl : PyFloat.div (.fin 1) q with er | l
      · refine err er fun o ho => ?_
        subst ho
        simp only [e, setRes, PyM.bind_apply, self, PyM.lift_apply, h1, h3, attr, pyNum_of_num h2, pyNum_of_num h4, hq, hl]
      · rcases hx : v.num? with _ | x
        · refine err .typeError fun o ho => ?_
          subst ho
          simp only [e, setRes, PyM.bind_apply, self, PyM.lift_apply, h1, h3, attr, pyNum_of_num h2, pyNum_of_num h4, hq, hl, pyNum_none hx]
        · by_cases hg : PyFloat.ge x l = true
          · refine err .valueError fun o ho => ?_
            subst ho
            simp only [e, setRes, PyM.bind_apply, self, PyM.lift_apply, h1, h3, attr, pyNum_of_num h2, pyNum_of_num h4, hq, hl, pyNum_of_num hx, hg, if_true, PyM.raise_apply]
          · refine chg { p with res := some v } (fun o ho => ?_) (by simp [Keeps]) { hr with res := ⟨v, x, rfl, hx⟩ }
            subst ho
            simp only [e, setRes, PyM.bind_apply, self, PyM.lift_apply, h1, h3, attr, pyNum_of_num h2, pyNum_of_num h4, hq, hl, pyNum_of_num hx]
            rw [if_neg hg]
            simp only [← h1, ← h3]
            rfl
  | zres =>
    cases c with
    | hanser =>
      obtain ⟨n, hn1, hn2⟩ := hr.zsize
      have e : ∀ o : Obj A I, setAttr .hanser .zres v o = setZresHanser v o := fun o => rfl
      rcases hx : v.num? with _ | x
      · refine err .typeError fun o ho => ?_
        simp only [e, setZresHanser, PyM.bind_apply, setZresBase_run, pyNum_none hx]
      · by_cases hg : PyFloat.lt (.fin 0) x = true
        · refine chg { p with zres := some v, zrange := some (defaultZrange (pyNat n) x) } (fun o ho => ?_) (by simp [Keeps])
            { hr with zres := ⟨v, x, rfl, hx⟩, zrange := fun _ => rfl }
          subst ho
          simp only [e, setZresHanser, PyM.bind_apply, setZresBase_run, pyNum_of_num hx, hg, if_true]
          simp only [PyM.ignore, genZrange_run, hn1, pyNum_of_num hx]
        · refine err .valueError fun o ho => ?_
          simp only [e, setZresHanser, PyM.bind_apply, setZresBase_run, pyNum_of_num hx]
          rw [if_neg hg]
    | sheppard =>
      obtain ⟨ni, nix, h1, h2⟩ := hr.ni
      obtain ⟨wl, wlx, h3, h4⟩ := hr.wl
      have e : ∀ o : Obj A I, setAttr .sheppard .zres v o = setZresSheppard v o := fun o => rfl
      rcases hq : PyFloat.div wlx (.fin 2) with er | q
      · refine err er fun o ho => ?_
        subst ho
        simp only [e, setZresSheppard, PyM.bind_apply, self, PyM.lift_apply, h3, attr, pyNum_of_num h4, hq]
      · rcases hl : PyFloat.div q nix with er | l
        · refine err er fun o ho => ?_
          subst ho
          simp only [e, setZresSheppard, PyM.bind_apply, self, PyM.lift_apply, h1, h3, attr, pyNum_of_num h2, pyNum_of_num h4, hq, hl]
        · rcases hx : v.num? with _ | x
          · refine err .typeError fun o ho => ?_
            subst ho
            simp only [e, setZresSheppard, PyM.bind_apply, self, PyM.lift_apply, h1, h3, attr, pyNum_of_num h2, pyNum_of_num h4, hq, hl, pyNum_none hx]
          · by_cases hg : PyFloat.ge x l = true
            · refine err .valueError fun o ho => ?_
              subst ho
              simp only [e, setZresSheppard, PyM.bind_apply, self, PyM.lift_apply, h1, h3, attr, pyNum_of_num h2, pyNum_of_num h4, hq, hl, pyNum_of_num hx, hg, if_true, PyM.raise_apply]
            · by_cases hg2 : PyFloat.lt (.fin 0) x = true
              · refine chg { p with zres := some v } (fun o ho => ?_) (by simp [Keeps]) { hr with zres := ⟨v, x, rfl, hx⟩ }
                subst ho
                simp only [e, setZresSheppard, PyM.bind_apply, self, PyM.lift_apply, h1, h3, attr, pyNum_of_num h2, pyNum_of_num h4, hq, hl, pyNum_of_num hx]
                rw [if_neg hg, setZresBase_run, pyNum_of_num hx]
                simp only [if_pos hg2, ← h1, ← h3]
              · refine err .valueError fun o ho => ?_
                subst ho
                simp only [e, setZresSheppard, PyM.bind_apply, self, PyM.lift_apply, h1, h3, attr, pyNum_of_num h2, pyNum_of_num h4, hq, hl, pyNum_of_num hx]
                rw [if_neg hg, setZresBase_run, pyNum_of_num hx]
                simp only [if_neg hg2]
  | vecCorr =>
    have e : ∀ o : Obj A I, setAttr c .vecCorr v o = setVecCorr v o := fun o => by cases c <;> rfl
    rcases hk : keyword VecCorr.ofString v with er | w
    · refine err er fun o ho => ?_
      simp only [e, setVecCorr, PyM.bind_apply, PyM.lift_apply, hk]
    · refine chg { p with vecCorr := some w } (fun o ho => ?_) (by simp [Keeps]) { hr with vecCorr := rfl }
      subst ho
      simp only [e, setVecCorr, PyM.bind_apply, PyM.lift_apply, hk]
      rfl
  | condition =>
    have e : ∀ o : Obj A I, setAttr c .condition v o = setCondition v o := fun o => by cases c <;> rfl
    rcases hk : keyword Condition.ofString v with er | w
    · refine err er fun o ho => ?_
      simp only [e, setCondition, PyM.bind_apply, PyM.lift_apply, hk]
    · refine chg { p with condition := some w } (fun o ho => ?_) (by simp [Keeps]) { hr with condition := rfl }
      subst ho
      simp only [e, setCondition, PyM.bind_apply, PyM.lift_apply, hk]
      rfl
  | dual =>
    cases c with
    | hanser => exact keep (fun o ho => rfl) rfl
    | sheppard =>
      cases v with
      | bool b =>
        refine chg { p with dual := some b } (fun o ho => ?_) (by simp [Keeps]) { hr with dual := fun _ => rfl }
        subst ho
        rfl
      | _ => exact err .typeError fun o ho => rfl

end PyOTF
