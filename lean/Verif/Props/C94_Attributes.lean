import Verif.Props.C56_Micro
import Verif.Props.C87_C88_Repr

/-!
# C94: an assigned attribute reads back and no other attribute changes
-/

namespace PyOTF

/-! ## Microscopes -/

/-- The assignment of `v` to a numeric attribute with stored value `old`, seen from outside: `t` are the admissible types, `m` is the
microscope before, `m1` the microscope with `v` stored and without cached arrays, `r` the outcome. -/
structure Assigns (t : PyVal → Prop) (old : Option PyVal) (v : PyVal) (m m1 : Micro) (r : Py Unit × Micro) : Prop where
  badType : ¬ t v → r = (.error .typeError, m)
  negative : t v → IsNegative v → r = (.error .valueError, m)
  same : t v → ¬ IsNegative v → (∃ w, old = some w ∧ SameNumber w v) → r = (.ok (), m)
  stored : t v → ¬ IsNegative v → (¬ ∃ w, old = some w ∧ SameNumber w v) → r = (.ok (), m1)

/-- A Python `float`, a Python `bool`, a Python `int` (`bool` included), a `float` or `int`. -/
def IsFloat (v : PyVal) : Prop := ∃ x, v = .float x
@[inherit_doc IsFloat] def IsBool (v : PyVal) : Prop := ∃ b, v = .bool b
@[inherit_doc IsFloat] def IsInt (v : PyVal) : Prop := (∃ z, v = .int z) ∨ IsBool v
@[inherit_doc IsFloat] def IsReal (v : PyVal) : Prop := IsFloat v ∨ IsInt v

theorem isFloat_iff (v : PyVal) : Micro.isFloat v = true ↔ IsFloat v := by cases v <;> simp [Micro.isFloat, IsFloat]
theorem isBool_iff (v : PyVal) : Micro.isBool v = true ↔ IsBool v := by cases v <;> simp [Micro.isBool, IsBool]
theorem isInt_iff (v : PyVal) : PyVal.isInt v = true ↔ IsInt v := by cases v <;> simp [PyVal.isInt, IsInt, IsBool]
theorem isReal_iff (v : PyVal) : PyVal.isFloatOrInt v = true ↔ IsReal v := by
  cases v <;> simp [PyVal.isFloatOrInt, IsReal, IsInt, IsFloat, IsBool]

theorem numericType_isFloat : NumericType Micro.isFloat := by rintro (_ | _ | _ | _ | _ | _) <;> simp [Micro.isFloat, PyVal.num?]
theorem numericType_isBool : NumericType Micro.isBool := by rintro (_ | _ | _ | _ | _ | _) <;> simp [Micro.isBool, PyVal.num?]

theorem assigns_of {a : Micro.MAttr} {T : PyVal → Prop} (ht : NumericType (Micro.vartype a)) (hT : ∀ v, Micro.vartype a v = true ↔ T v)
    {m : Micro} {old : Option PyVal} (hr : m.read a = some old) (v : PyVal) (m1 : Micro)
    (h1 : { m.write a v with psf := none, otf := none } = m1) : Assigns T old v m m1 (Micro.set a v m) := by
  have h := C21_numeric_property (Micro.vartype a) ht ⟨old, 0⟩ v
  simp only [NumAttr.assign] at h
  have e := set_run a v m
  rw [hr] at e
  simp only [] at e
  constructor
  · intro hv
    have := h.1 (by rw [← Bool.not_eq_true, hT]; exact hv)
    rcases hn : numericSet (Micro.vartype a) old v with er | _ | w
    · rw [hn] at this e; simp at this; rw [e, this]
    · rw [hn] at this; simp at this
    · rw [hn] at this; simp at this
  · intro hv hneg
    have := h.2.1 ((hT v).mpr hv) hneg
    rcases hn : numericSet (Micro.vartype a) old v with er | _ | w
    · rw [hn] at this e; simp at this; rw [e, this]
    · rw [hn] at this; simp at this
    · rw [hn] at this; simp at this
  · intro hv hneg hs
    have := h.2.2.1 ((hT v).mpr hv) hneg hs
    rcases hn : numericSet (Micro.vartype a) old v with er | _ | w
    · rw [hn] at this; simp at this
    · rw [hn] at e; exact e
    · rw [hn] at this; simp at this
  · intro hv hneg hs
    have := h.2.2.2 ((hT v).mpr hv) hneg hs
    rcases hn : numericSet (Micro.vartype a) old v with er | _ | w
    · rw [hn] at this; simp at this
    · rw [hn] at this; simp at this
    · rw [hn] at this e; simp at this; rw [this] at e; rw [e, ← h1]

/-- C94: `oversample_factor` of every microscope: an `int`, stored as given, everything else stays. -/
theorem C94_oversample (m : Micro) (v : PyVal) :
    Assigns IsInt (some m.oversample) v m { m with oversample := v, psf := none, otf := none } (Micro.set .oversample v m) ∧
    Micro.get .oversample m = .ok m.oversample :=
  ⟨assigns_of (a := .oversample) numericType_int isInt_iff rfl v _ rfl, rfl⟩

/-- C94: the attributes of a confocal microscope: `pinhole_size` a `float` or `int`, `wl_exc` a `float`; reading `wl_exc` before it was
assigned raises `AttributeError`. -/
theorem C94_confocal (m : Micro) (v : PyVal) (e : Inner) (ph : PyVal) (wl : Option PyVal) (hk : m.kind = .confocal e ph wl) :
    Assigns IsReal (some ph) v m { m with kind := .confocal e v wl, psf := none, otf := none } (Micro.set .pinhole v m) ∧
    Assigns IsFloat wl v m { m with kind := .confocal e ph (some v), psf := none, otf := none } (Micro.set .wlExc v m) ∧
    Micro.get .pinhole m = .ok ph ∧ (∀ w, wl = some w → Micro.get .wlExc m = .ok w) ∧ (wl = none → Micro.get .wlExc m = .error .attributeError) := by
  refine ⟨assigns_of (a := .pinhole) numericType_float isReal_iff ?_ v _ ?_, assigns_of (a := .wlExc) numericType_isFloat isFloat_iff ?_ v _ ?_,
    ?_, ?_, ?_⟩
  · simp [Micro.read, Micro.readAttr, hk]
  · simp [Micro.write, Micro.writeAttr, hk]
  · simp [Micro.read, Micro.readAttr, hk]
  · simp [Micro.write, Micro.writeAttr, hk]
  · simp [Micro.get, Micro.read, Micro.readAttr, hk, attr]
  · rintro w rfl; simp [Micro.get, Micro.read, Micro.readAttr, hk, attr]
  · rintro rfl; simp [Micro.get, Micro.read, Micro.readAttr, hk, attr]

/-- C94: the attributes of a SIM microscope: `na_exc` and `wl_exc` are `float`s, `coherent`, `dc`, `dc_suppress` `bool`s. -/
theorem C94_sim (m : Micro) (v na wl co dc ds : PyVal) (os : List ℝ) (w : PyVal) (hk : m.kind = .sim na wl co dc ds os w) :
    Assigns IsFloat (some na) v m { m with kind := .sim v wl co dc ds os w, psf := none, otf := none } (Micro.set .naExc v m) ∧
    Assigns IsFloat (some wl) v m { m with kind := .sim na v co dc ds os w, psf := none, otf := none } (Micro.set .wlExc v m) ∧
    Assigns IsBool (some co) v m { m with kind := .sim na wl v dc ds os w, psf := none, otf := none } (Micro.set .coherent v m) ∧
    Assigns IsBool (some dc) v m { m with kind := .sim na wl co v ds os w, psf := none, otf := none } (Micro.set .dc v m) ∧
    Assigns IsBool (some ds) v m { m with kind := .sim na wl co dc v os w, psf := none, otf := none } (Micro.set .dcSuppress v m) ∧
    Micro.get .naExc m = .ok na ∧ Micro.get .wlExc m = .ok wl ∧ Micro.get .coherent m = .ok co ∧ Micro.get .dc m = .ok dc ∧
    Micro.get .dcSuppress m = .ok ds := by
  refine ⟨assigns_of (a := .naExc) numericType_isFloat isFloat_iff ?_ v _ ?_, assigns_of (a := .wlExc) numericType_isFloat isFloat_iff ?_ v _ ?_,
    assigns_of (a := .coherent) numericType_isBool isBool_iff ?_ v _ ?_, assigns_of (a := .dc) numericType_isBool isBool_iff ?_ v _ ?_,
    assigns_of (a := .dcSuppress) numericType_isBool isBool_iff ?_ v _ ?_, ?_, ?_, ?_, ?_, ?_⟩
  all_goals simp [Micro.read, Micro.readAttr, Micro.write, Micro.writeAttr, Micro.get, hk, attr]

/-- C94: the attributes `wiener` and `orientations` of a SIM microscope take any value, even a negative one, and change nothing else - the cached
arrays included. -/
theorem C94_plain (m : Micro) (na wl co dc ds : PyVal) (os : List ℝ) (w : PyVal) (hk : m.kind = .sim na wl co dc ds os w) (w' : PyVal) (os' : List ℝ) :
    Micro.setWiener w' m = (.ok (), { m with kind := .sim na wl co dc ds os w' }) ∧
    Micro.setOrientations os' m = (.ok (), { m with kind := .sim na wl co dc ds os' w }) := by
  simp [Micro.setWiener, Micro.setOrientations, hk, Micro.withWiener, Micro.withOrientations]

/-- The attributes of a microscope have the declared types and are not negative. -/
structure ValidMicro (m : Micro) : Prop where
  oversample : IsInt m.oversample ∧ ¬ IsNegative m.oversample
  pinhole : ∀ e ph wl, m.kind = .confocal e ph wl → IsReal ph ∧ ¬ IsNegative ph
  confWl : ∀ e ph wl, m.kind = .confocal e ph (some wl) → IsFloat wl ∧ ¬ IsNegative wl
  sim : ∀ na wl co dc ds os w, m.kind = .sim na wl co dc ds os w →
    (IsFloat na ∧ ¬ IsNegative na) ∧ (IsFloat wl ∧ ¬ IsNegative wl) ∧ IsBool co ∧ IsBool dc ∧ IsBool ds

theorem numericSet_new {t : PyVal → Bool} (ht : NumericType t) {v : PyVal} {w : Option PyVal} (h : numericSet t none v = .ok w) :
    t v = true ∧ ¬ IsNegative v ∧ w.getD v = v := by
  have h' := C21_numeric_property t ht ⟨none, 0⟩ v
  simp only [NumAttr.assign, h] at h'
  by_cases h1 : t v = true
  · by_cases h2 : IsNegative v
    · have := h'.2.1 h1 h2; cases w <;> simp at this
    · refine ⟨h1, h2, ?_⟩
      cases w with
      | none => rfl
      | some u => have := h'.2.2.2 h1 h2 (by simp); simp at this; exact this
  · have := h'.1 (by simpa using h1); cases w <;> simp at this

theorem newWidefield_valid {a : MicroArgs} {m : Micro} (h : Micro.newWidefield a = .ok m) :
    IsInt m.oversample ∧ ¬ IsNegative m.oversample ∧ m.kind = .widefield := by
  unfold Micro.newWidefield at h
  obtain ⟨o, ho, h⟩ := py_bind_ok h
  obtain ⟨⟨size, res⟩, hs, h⟩ := py_bind_ok h
  obtain ⟨mo, hm, h⟩ := py_bind_ok h
  cases h
  obtain ⟨h1, h2, h3⟩ := numericSet_new numericType_int ho
  refine ⟨?_, ?_, rfl⟩
  · simp only [h3]; exact (isInt_iff _).mp h1
  · simp only [h3]; exact h2

theorem constructed_valid {m : Micro} (h : Constructed m) : ValidMicro m := by
  rcases h with ⟨a, h⟩ | ⟨a, h⟩ | ⟨a, wl, ph, h⟩ | ⟨a, na, wl, w, co, dc, ds, os, h⟩
  · obtain ⟨h1, h2, h3⟩ := newWidefield_valid h
    exact ⟨⟨h1, h2⟩, by simp [h3], by simp [h3], by simp [h3]⟩
  · unfold Micro.newApotome at h
    obtain ⟨m', h', h⟩ := py_bind_ok h
    obtain ⟨h1, h2, -⟩ := newWidefield_valid h'
    cases h
    exact ⟨⟨h1, h2⟩, by simp, by simp, by simp⟩
  · unfold Micro.newConfocal at h
    obtain ⟨m', h', h⟩ := py_bind_ok h
    obtain ⟨h1, h2, -⟩ := newWidefield_valid h'
    obtain ⟨p, hp, h⟩ := py_bind_ok h
    obtain ⟨p1, p2, p3⟩ := numericSet_new numericType_float hp
    rw [p3] at h
    split at h
    · cases h
      refine ⟨⟨h1, h2⟩, ?_, by simp, by simp⟩
      rintro e ph' wl' hk
      cases hk
      exact ⟨(isReal_iff _).mp p1, p2⟩
    · cases h
  · unfold Micro.newSIM at h
    obtain ⟨m', h', h⟩ := py_bind_ok h
    obtain ⟨h1, h2, -⟩ := newWidefield_valid h'
    simp only [] at h
    obtain ⟨n, hn, h⟩ := py_bind_ok h
    obtain ⟨l, hl, h⟩ := py_bind_ok h
    obtain ⟨c, hc, h⟩ := py_bind_ok h
    obtain ⟨d, hd, h⟩ := py_bind_ok h
    obtain ⟨s, hs, h⟩ := py_bind_ok h
    obtain ⟨n1, n2, n3⟩ := numericSet_new numericType_isFloat hn
    obtain ⟨l1, l2, l3⟩ := numericSet_new numericType_isFloat hl
    obtain ⟨c1, -, c3⟩ := numericSet_new numericType_isBool hc
    obtain ⟨d1, -, d3⟩ := numericSet_new numericType_isBool hd
    obtain ⟨s1, -, s3⟩ := numericSet_new numericType_isBool hs
    rw [n3, l3, c3, d3, s3] at h
    obtain ⟨b, hb, h⟩ := py_bind_ok h
    cases b with
    | true => simp [bind, Except.bind, throw, throwThe, MonadExceptOf.throw] at h
    | false =>
      cases h
      refine ⟨⟨h1, h2⟩, by simp, by simp, ?_⟩
      rintro _ _ _ _ _ _ _ hk
      cases hk
      exact ⟨⟨(isFloat_iff _).mp n1, n2⟩, ⟨(isFloat_iff _).mp l1, l2⟩, (isBool_iff _).mp c1, (isBool_iff _).mp d1, (isBool_iff _).mp s1⟩

theorem Assigns.cases {t : PyVal → Prop} {old : Option PyVal} {v : PyVal} {m m1 : Micro} {r : Py Unit × Micro} (h : Assigns t old v m m1 r) :
    r.2 = m ∨ (t v ∧ ¬ IsNegative v ∧ r.2 = m1) := by
  by_cases h1 : t v
  · by_cases h2 : IsNegative v
    · left; rw [h.negative h1 h2]
    · by_cases h3 : ∃ w, old = some w ∧ SameNumber w v
      · left; rw [h.same h1 h2 h3]
      · right; exact ⟨h1, h2, by rw [h.stored h1 h2 h3]⟩
  · left; rw [h.badType h1]

theorem set_absent {a : Micro.MAttr} {m : Micro} (v : PyVal) (h : m.read a = none) : Micro.set a v m = (.ok (), m) := by
  rw [set_run, h]

theorem set_valid {m : Micro} (h : ValidMicro m) (a : Micro.MAttr) (v : PyVal) : ValidMicro (Micro.set a v m).2 := by
  by_cases hr : m.read a = none
  · rw [set_absent v hr]; exact h
  cases a with
  | oversample =>
    rcases (C94_oversample m v).1.cases with e | ⟨h1, h2, e⟩
    · rw [e]; exact h
    · rw [e]; exact { h with oversample := ⟨h1, h2⟩ }
  | pinhole =>
    cases hk : m.kind with
    | confocal e ph wl =>
      rcases (C94_confocal m v e ph wl hk).1.cases with e' | ⟨h1, h2, e'⟩
      · rw [e']; exact h
      · rw [e']
        refine ⟨h.oversample, ?_, ?_, by simp⟩
        · rintro _ _ _ hk'; cases hk'; exact ⟨h1, h2⟩
        · rintro _ _ _ hk'; cases hk'; exact h.confWl _ _ _ hk
    | _ => simp [Micro.read, Micro.readAttr, hk] at hr
  | wlExc =>
    cases hk : m.kind with
    | confocal e ph wl =>
      rcases (C94_confocal m v e ph wl hk).2.1.cases with e' | ⟨h1, h2, e'⟩
      · rw [e']; exact h
      · rw [e']
        refine ⟨h.oversample, ?_, ?_, by simp⟩
        · rintro _ _ _ hk'; cases hk'; exact h.pinhole _ _ _ hk
        · rintro _ _ _ hk'; cases hk'; exact ⟨h1, h2⟩
    | sim na wl co dc ds os w =>
      rcases (C94_sim m v na wl co dc ds os w hk).2.1.cases with e' | ⟨h1, h2, e'⟩
      · rw [e']; exact h
      · rw [e']
        refine ⟨h.oversample, by simp, by simp, ?_⟩
        rintro _ _ _ _ _ _ _ hk'; cases hk'
        have := h.sim _ _ _ _ _ _ _ hk
        exact ⟨this.1, ⟨h1, h2⟩, this.2.2⟩
    | _ => simp [Micro.read, Micro.readAttr, hk] at hr
  | naExc =>
    cases hk : m.kind with
    | sim na wl co dc ds os w =>
      rcases (C94_sim m v na wl co dc ds os w hk).1.cases with e' | ⟨h1, h2, e'⟩
      · rw [e']; exact h
      · rw [e']
        refine ⟨h.oversample, by simp, by simp, ?_⟩
        rintro _ _ _ _ _ _ _ hk'; cases hk'
        have := h.sim _ _ _ _ _ _ _ hk
        exact ⟨⟨h1, h2⟩, this.2⟩
    | _ => simp [Micro.read, Micro.readAttr, hk] at hr
  | coherent =>
    cases hk : m.kind with
    | sim na wl co dc ds os w =>
      rcases (C94_sim m v na wl co dc ds os w hk).2.2.1.cases with e' | ⟨h1, h2, e'⟩
      · rw [e']; exact h
      · rw [e']
        refine ⟨h.oversample, by simp, by simp, ?_⟩
        rintro _ _ _ _ _ _ _ hk'; cases hk'
        have := h.sim _ _ _ _ _ _ _ hk
        exact ⟨this.1, this.2.1, h1, this.2.2.2⟩
    | _ => simp [Micro.read, Micro.readAttr, hk] at hr
  | dc =>
    cases hk : m.kind with
    | sim na wl co dc ds os w =>
      rcases (C94_sim m v na wl co dc ds os w hk).2.2.2.1.cases with e' | ⟨h1, h2, e'⟩
      · rw [e']; exact h
      · rw [e']
        refine ⟨h.oversample, by simp, by simp, ?_⟩
        rintro _ _ _ _ _ _ _ hk'; cases hk'
        have := h.sim _ _ _ _ _ _ _ hk
        exact ⟨this.1, this.2.1, this.2.2.1, h1, this.2.2.2.2⟩
    | _ => simp [Micro.read, Micro.readAttr, hk] at hr
  | dcSuppress =>
    cases hk : m.kind with
    | sim na wl co dc ds os w =>
      rcases (C94_sim m v na wl co dc ds os w hk).2.2.2.2.1.cases with e' | ⟨h1, h2, e'⟩
      · rw [e']; exact h
      · rw [e']
        refine ⟨h.oversample, by simp, by simp, ?_⟩
        rintro _ _ _ _ _ _ _ hk'; cases hk'
        have := h.sim _ _ _ _ _ _ _ hk
        exact ⟨this.1, this.2.1, this.2.2.1, this.2.2.2.1, h1⟩
    | _ => simp [Micro.read, Micro.readAttr, hk] at hr

theorem live_valid {m m' : Micro} {s : MSpec} (h : MLive m s) (h' : MLive m' s) (hv : ValidMicro m) : ValidMicro m' := by
  have ho : m'.oversample = m.oversample := h'.oversample.trans h.oversample.symm
  have k := h.kind
  have k' := h'.kind
  refine ⟨ho ▸ hv.oversample, fun e ph wl hk => ?_, fun e ph wl hk => ?_, fun na wl co dc ds os w hk => ?_⟩
  · rw [hk] at k'
    cases hs : s.kind with
    | confocal e1 ph1 wl1 =>
      rw [hs] at k k'
      cases hm : m.kind with
      | confocal e2 ph2 wl2 => rw [hm] at k; have := hv.pinhole _ _ _ hm; rw [k.2.1] at this; rw [k'.2.1]; exact this
      | _ => rw [hm] at k; exact k.elim
    | _ => rw [hs] at k'; exact k'.elim
  · rw [hk] at k'
    cases hs : s.kind with
    | confocal e1 ph1 wl1 =>
      rw [hs] at k k'
      cases hm : m.kind with
      | confocal e2 ph2 wl2 =>
        rw [hm] at k
        exact hv.confWl e2 ph2 wl (by rw [hm, k.2.2, ← k'.2.2])
      | _ => rw [hm] at k; exact k.elim
    | _ => rw [hs] at k'; exact k'.elim
  · rw [hk] at k'
    cases hs : s.kind with
    | sim n l c d f o w1 =>
      rw [hs] at k k'
      cases hm : m.kind with
      | sim n2 l2 c2 d2 f2 o2 w2 =>
        rw [hm] at k
        obtain ⟨rfl, rfl, rfl, rfl, rfl, rfl, rfl⟩ := k
        obtain ⟨rfl, rfl, rfl, rfl, rfl, rfl, rfl⟩ := k'
        exact hv.sim _ _ _ _ _ _ _ hm
      | _ => rw [hm] at k; exact k.elim
    | _ => rw [hs] at k'; exact k'.elim

/-- C94: after the constructor of any microscope and any history of reads, assignments (accepted or rejected) and changes of the PSF models, the
attributes have the declared types and are not negative. -/
theorem C94_valid (m : Micro) (hm : Constructed m) (ops : List UOp) : ValidMicro (runHistory Micro.ustep m ops).2 := by
  have key : ∀ (ops : List UOp) (m : Micro) (s : MSpec), MLive m s → ValidMicro m → ValidMicro (runHistory Micro.ustep m ops).2 := by
    intro ops
    induction ops with
    | nil => exact fun m s _ h => h
    | cons op ops ih =>
      intro m s hl hv
      refine ih _ _ (ustep_live hl op) ?_
      have hl' := ustep_live hl op
      cases op with
      | p op =>
        cases op with
        | set a v => exact set_valid hv a v
        | readPSF => exact live_valid hl hl' hv
        | readOTF => exact live_valid hl hl' hv
        | readModelPsf => exact live_valid hl hl' hv
      | wiener w =>
        refine ⟨hv.oversample, fun e ph wl hk => ?_, fun e ph wl hk => ?_, fun na wl co dc ds os w' hk => ?_⟩
        all_goals
          simp only [Micro.setWiener, PyM.modify_apply] at hk
          cases hm : m.kind with
          | widefield => simp [hm, Micro.withWiener] at hk
          | apotome => simp [hm, Micro.withWiener] at hk
          | confocal => rw [hm] at hk; cases hk <;> first | exact hv.pinhole _ _ _ hm | exact hv.confWl _ _ _ hm
          | sim => rw [hm] at hk; cases hk <;> exact hv.sim _ _ _ _ _ _ _ hm
      | orientations o =>
        refine ⟨hv.oversample, fun e ph wl hk => ?_, fun e ph wl hk => ?_, fun na wl co dc ds os w' hk => ?_⟩
        all_goals
          simp only [Micro.setOrientations, PyM.modify_apply] at hk
          cases hm : m.kind with
          | widefield => simp [hm, Micro.withOrientations] at hk
          | apotome => simp [hm, Micro.withOrientations] at hk
          | confocal => rw [hm] at hk; cases hk <;> first | exact hv.pinhole _ _ _ hm | exact hv.confWl _ _ _ hm
          | sim => rw [hm] at hk; cases hk <;> exact hv.sim _ _ _ _ _ _ _ hm
      | model op => exact ⟨hv.oversample, hv.pinhole, hv.confWl, hv.sim⟩
      | excModel op =>
        refine ⟨hv.oversample, fun e ph wl hk => ?_, fun e ph wl hk => ?_, fun na wl co dc ds os w' hk => ?_⟩
        all_goals
          simp only at hk
          cases hm : m.kind with
          | widefield => simp [hm, Kind.mapExc] at hk
          | apotome => simp [hm, Kind.mapExc] at hk
          | confocal => rw [hm] at hk; cases hk <;> first | exact hv.pinhole _ _ _ hm | exact hv.confWl _ _ _ hm
          | sim => rw [hm] at hk; cases hk <;> exact hv.sim _ _ _ _ _ _ _ hm
  exact key ops m _ (constructed_live hm) (constructed_valid hm)

/-! ## PSF models -/

/-- What `obj.<attribute>` reads. -/
def Attr.reads : Attr → Params → Option PyVal
  | .wl, p => p.wl
  | .na, p => p.na
  | .ni, p => p.ni
  | .size, p => p.size
  | .zsize, p => p.zsize
  | .res, p => p.res
  | .zres, p => p.zres
  | .vecCorr, p => p.vecCorr.map fun w => .str w.str
  | .condition, p => p.condition.map fun w => .str w.str
  | .dual, p => p.dual.map .bool

theorem keyword_vec_eq {v : PyVal} {w : VecCorr} (h : keyword VecCorr.ofString v = .ok w) : v = .str w.str := by
  unfold keyword at h
  split at h
  · rename_i s
    split at h
    · rename_i hs
      cases h
      unfold VecCorr.ofString at hs
      split at hs <;> cases hs <;> rfl
    · cases h
  · cases h
  · cases h

theorem keyword_cond_eq {v : PyVal} {w : Condition} (h : keyword Condition.ofString v = .ok w) : v = .str w.str := by
  unfold keyword at h
  split at h
  · rename_i s
    split at h
    · rename_i hs
      cases h
      unfold Condition.ofString at hs
      split at hs <;> cases hs <;> rfl
    · cases h
  · cases h
  · cases h

section
variable {A I : Type}

theorem Pres.ite {α : Type} {P : Params → Prop} (b : Prop) [Decidable b] {m m' : PyM (Obj A I) α} (h : Pres P m) (h' : Pres P m') :
    Pres P (if b then m else m') := by
  by_cases hb : b
  · rw [if_pos hb]; exact h
  · rw [if_neg hb]; exact h'

/-- An assignment to attribute `a` keeps all others (and the planes, if `k`). -/
theorem frame_setAttr (c : Cls) (a : Attr) (v : PyVal) (p0 : Params) :
    Pres (fun p => (∀ b, b ≠ a → b.reads p = b.reads p0) ∧ (¬ (c = .hanser ∧ (a = .zsize ∨ a = .zres)) → p.zrange = p0.zrange))
      (setAttr c a v : PyM (Obj A I) Unit) := by
  have hzres : a = .zres → Pres (fun p => (∀ b, b ≠ a → b.reads p = b.reads p0) ∧
      (¬ (c = .hanser ∧ (a = .zsize ∨ a = .zres)) → p.zrange = p0.zrange)) (setZresBase v : PyM (Obj A I) Unit) := by
    rintro rfl
    refine .zresBase v fun x hx h1 p h => ⟨fun b hb => ?_, h.2⟩
    rw [← h.1 b hb]; cases b <;> first | rfl | exact absurd rfl hb
  have hgen : c = .hanser → (a = .zsize ∨ a = .zres) → Pres (fun p => (∀ b, b ≠ a → b.reads p = b.reads p0) ∧
      (¬ (c = .hanser ∧ (a = .zsize ∨ a = .zres)) → p.zrange = p0.zrange)) (genZrange : PyM (Obj A I) Unit) := by
    intro hc ha
    refine .genZrange fun z p h => ⟨fun b hb => ?_, fun h' => absurd ⟨hc, ha⟩ h'⟩
    rw [← h.1 b hb]; cases b <;> rfl
  cases a with
  | wl => exact .numeric numericType_float _ _ v fun _ _ p h => ⟨fun b hb => by rw [← h.1 b hb]; cases b <;> first | rfl | exact absurd rfl hb, h.2⟩
  | na => exact .numeric numericType_float _ _ v fun _ _ p h => ⟨fun b hb => by rw [← h.1 b hb]; cases b <;> first | rfl | exact absurd rfl hb, h.2⟩
  | ni => exact .numeric numericType_float _ _ v fun _ _ p h => ⟨fun b hb => by rw [← h.1 b hb]; cases b <;> first | rfl | exact absurd rfl hb, h.2⟩
  | size => exact .numeric numericType_int _ _ v fun _ _ p h => ⟨fun b hb => by rw [← h.1 b hb]; cases b <;> first | rfl | exact absurd rfl hb, h.2⟩
  | zsize =>
    have : Pres (fun p => (∀ b, b ≠ Attr.zsize → b.reads p = b.reads p0) ∧
      (¬ (c = .hanser ∧ (Attr.zsize = .zsize ∨ Attr.zsize = .zres)) → p.zrange = p0.zrange)) (setZsizeBase v : PyM (Obj A I) Unit) :=
      .numeric numericType_int _ _ v fun _ _ p h => ⟨fun b hb => by rw [← h.1 b hb]; cases b <;> first | rfl | exact absurd rfl hb, h.2⟩
    cases c with
    | hanser => exact .bind this fun _ => .ignore _ (hgen rfl (Or.inl rfl))
    | sheppard => exact this
  | res =>
    refine .bind (.self _) fun _ => .bind (.lift _) fun _ => .bind (.self _) fun _ => .bind (.lift _) fun _ => .bind (.lift _) fun _ =>
      .bind (.lift _) fun _ => .bind (.lift _) fun _ => ?_
    exact .ite _ (.raise _) (.bind (.store _ fun p h =>
      ⟨fun b hb => by rw [← h.1 b hb]; cases b <;> first | rfl | exact absurd rfl hb, h.2⟩) fun _ => .changed)
  | zres =>
    cases c with
    | hanser => exact .bind (hzres rfl) fun _ => .ignore _ (hgen rfl (Or.inr rfl))
    | sheppard =>
      refine .bind (.self _) fun _ => .bind (.lift _) fun _ => .bind (.lift _) fun _ => .bind (.self _) fun _ => .bind (.lift _) fun _ =>
        .bind (.lift _) fun _ => .bind (.lift _) fun _ => ?_
      exact .ite _ (.raise _) (hzres rfl)
  | vecCorr =>
    exact .bind (.lift _) fun w => .bind (.store _ fun p h =>
      ⟨fun b hb => by rw [← h.1 b hb]; cases b <;> first | rfl | exact absurd rfl hb, h.2⟩) fun _ => .changed
  | condition =>
    exact .bind (.lift _) fun w => .bind (.store _ fun p h =>
      ⟨fun b hb => by rw [← h.1 b hb]; cases b <;> first | rfl | exact absurd rfl hb, h.2⟩) fun _ => .changed
  | dual =>
    cases c with
    | hanser => exact .pure _
    | sheppard =>
      cases v with
      | bool b => exact .bind (.store _ fun p h =>
          ⟨fun b hb => by rw [← h.1 b hb]; cases b <;> first | rfl | exact absurd rfl hb, h.2⟩) fun _ => .changed
      | _ => exact .raise _

/-- Reads `v` afterwards, or read the same number before and still does. -/
def ReadBack (a : Attr) (v : PyVal) (p p' : Params) : Prop :=
  a.reads p' = some v ∨ ∃ w, a.reads p = some w ∧ SameNumber w v ∧ a.reads p' = some w

theorem readBack_numeric {t : PyVal → Bool} (ht : NumericType t) {a : Attr} {rd : Params → Option PyVal} {wr : PyVal → Params → Params} {v : PyVal}
    (h1 : ∀ p, a.reads p = rd p) (h2 : ∀ p, rd (wr v p) = some v) {o o' : Obj A I} (h : setNumeric t rd wr v o = (.ok (), o')) :
    ReadBack a v o.params o'.params := by
  rw [setNumeric_run] at h
  have h' := C21_numeric_property t ht ⟨rd o.params, 0⟩ v
  simp only [NumAttr.assign] at h'
  rcases hn : numericSet t (rd o.params) v with e | _ | w
  · rw [hn] at h; cases h
  · rw [hn] at h h'
    cases h
    right
    by_cases t1 : t v = true
    · by_cases t2 : IsNegative v
      · have := h'.2.1 t1 t2; simp at this
      · by_cases t3 : ∃ w, rd o.params = some w ∧ SameNumber w v
        · obtain ⟨w, e1, e2⟩ := t3
          exact ⟨w, by rw [h1, e1], e2, by rw [h1, e1]⟩
        · have := h'.2.2.2 t1 t2 t3; simp at this
    · have := h'.1 (by simpa using t1); simp at this
  · rw [hn] at h
    cases h
    obtain ⟨rfl, -⟩ := numericSet_some hn
    left; rw [h1, h2]

theorem ignore_genZrange_reads {e : Err} {o o' : Obj A I} (h : PyM.ignore e genZrange o = (.ok (), o')) (a : Attr) :
    a.reads o'.params = a.reads o.params := by
  have := (Pres.ignore e (Pres.genZrange (A := A) (I := I) (P := fun p => a.reads p = a.reads o.params)
    fun z p h => by rw [← h]; cases a <;> rfl)) o rfl
  rw [h] at this; exact this

theorem readBack_zres {v : PyVal} {o o' : Obj A I} (h : setZresBase v o = (.ok (), o')) : ReadBack .zres v o.params o'.params := by
  rw [setZresBase_run] at h
  rcases hv : pyNum v with e | x
  · rw [hv] at h; cases h
  · rw [hv] at h
    simp only [] at h
    split_ifs at h
    · cases h; exact Or.inl rfl
    · cases h

theorem bind_ok {σ α β : Type} {m : PyM σ α} {f : α → PyM σ β} {s s' : σ} {b : β} (h : (m >>= f) s = (.ok b, s')) :
    ∃ a s1, m s = (.ok a, s1) ∧ f a s1 = (.ok b, s') := by
  rw [PyM.bind_apply] at h
  rcases hm : m s with ⟨e | a, s1⟩
  · rw [hm] at h; cases h
  · rw [hm] at h; exact ⟨a, s1, rfl, h⟩

theorem self_ok {α : Type} {f : Params → Option α} {o o' : Obj A I} {a : α} (h : self f o = (.ok a, o')) : o' = o := (congrArg Prod.snd h).symm
theorem lift_ok {α : Type} {x : Py α} {o o' : Obj A I} {a : α} (h : PyM.lift x o = (.ok a, o')) : o' = o := (congrArg Prod.snd h).symm

theorem readBack_setAttr (c : Cls) (a : Attr) (v : PyVal) (hd : ¬ (c = .hanser ∧ a = .dual)) {o o' : Obj A I}
    (h : setAttr c a v o = (.ok (), o')) : ReadBack a v o.params o'.params := by
  cases a with
  | wl => exact readBack_numeric numericType_float (fun _ => rfl) (fun _ => rfl) h
  | na => exact readBack_numeric numericType_float (fun _ => rfl) (fun _ => rfl) h
  | ni => exact readBack_numeric numericType_float (fun _ => rfl) (fun _ => rfl) h
  | size => exact readBack_numeric numericType_int (fun _ => rfl) (fun _ => rfl) h
  | zsize =>
    cases c with
    | hanser =>
      obtain ⟨_, o1, h1, h2⟩ := bind_ok (show (setZsizeBase v >>= fun _ => PyM.ignore .attributeError genZrange) o = (.ok (), o') from h)
      have := readBack_numeric (a := .zsize) numericType_int (fun _ => rfl) (fun _ => rfl) h1
      unfold ReadBack at this ⊢
      rw [ignore_genZrange_reads h2]; exact this
    | sheppard => exact readBack_numeric numericType_int (fun _ => rfl) (fun _ => rfl) h
  | res =>
    have h : setRes v o = (.ok (), o') := by cases c <;> exact h
    unfold setRes at h
    obtain ⟨_, _, e, h⟩ := bind_ok h; cases self_ok e
    obtain ⟨_, _, e, h⟩ := bind_ok h; cases lift_ok e
    obtain ⟨_, _, e, h⟩ := bind_ok h; cases self_ok e
    obtain ⟨_, _, e, h⟩ := bind_ok h; cases lift_ok e
    obtain ⟨_, _, e, h⟩ := bind_ok h; cases lift_ok e
    obtain ⟨_, _, e, h⟩ := bind_ok h; cases lift_ok e
    obtain ⟨_, _, e, h⟩ := bind_ok h; cases lift_ok e
    split_ifs at h
    · cases h
    · cases h; exact Or.inl rfl
  | zres =>
    cases c with
    | hanser =>
      obtain ⟨_, o1, h1, h2⟩ := bind_ok (show (setZresBase v >>= fun _ => PyM.ignore .attributeError genZrange) o = (.ok (), o') from h)
      have := readBack_zres h1
      unfold ReadBack at this ⊢
      rw [ignore_genZrange_reads h2]; exact this
    | sheppard =>
      have h : setZresSheppard v o = (.ok (), o') := h
      unfold setZresSheppard at h
      obtain ⟨_, _, e, h⟩ := bind_ok h; cases self_ok e
      obtain ⟨_, _, e, h⟩ := bind_ok h; cases lift_ok e
      obtain ⟨_, _, e, h⟩ := bind_ok h; cases lift_ok e
      obtain ⟨_, _, e, h⟩ := bind_ok h; cases self_ok e
      obtain ⟨_, _, e, h⟩ := bind_ok h; cases lift_ok e
      obtain ⟨_, _, e, h⟩ := bind_ok h; cases lift_ok e
      obtain ⟨_, _, e, h⟩ := bind_ok h; cases lift_ok e
      split_ifs at h
      · cases h
      · exact readBack_zres h
  | vecCorr =>
    have h : setVecCorr v o = (.ok (), o') := by cases c <;> exact h
    unfold setVecCorr at h
    obtain ⟨w, _, e, h⟩ := bind_ok h; cases lift_ok e
    rw [keyword_vec_eq (congrArg Prod.fst e)]
    cases h; exact Or.inl rfl
  | condition =>
    have h : setCondition v o = (.ok (), o') := by cases c <;> exact h
    unfold setCondition at h
    obtain ⟨w, _, e, h⟩ := bind_ok h; cases lift_ok e
    rw [keyword_cond_eq (congrArg Prod.fst e)]
    cases h; exact Or.inl rfl
  | dual =>
    cases c with
    | hanser => exact absurd ⟨rfl, rfl⟩ hd
    | sheppard =>
      have h : setDual v o = (.ok (), o') := h
      unfold setDual at h
      split at h
      · cases h; exact Or.inl rfl
      · cases h

/-- C94: an accepted assignment to an attribute of a PSF model of either class, in any state: the attribute reads the assigned value (or still the
equal number it had), all other attributes read what they did, and the planes stay except after `zsize` and `zres` of a `HanserPSF`. -/
theorem C94_psf (c : Cls) (a : Attr) (v : PyVal) (hd : ¬ (c = .hanser ∧ a = .dual)) (o o' : Obj A I)
    (h : setAttr c a v o = (.ok (), o')) :
    (a.reads o'.params = some v ∨ ∃ w, a.reads o.params = some w ∧ SameNumber w v ∧ a.reads o'.params = some w) ∧
    (∀ b, b ≠ a → b.reads o'.params = b.reads o.params) ∧
    (¬ (c = .hanser ∧ (a = .zsize ∨ a = .zres)) → o'.params.zrange = o.params.zrange) := by
  have := frame_setAttr (A := A) (I := I) c a v o.params o ⟨fun _ _ => rfl, fun _ => rfl⟩
  rw [h] at this
  exact ⟨readBack_setAttr c a v hd h, this⟩

/-- The admissible values of `vec_corr` and of `condition`. -/
def vecCorrNames : List String := ["none", "x", "y", "z", "total"]
@[inherit_doc vecCorrNames] def conditionNames : List String := ["none", "sine", "herschel"]

theorem keyword_outcome {α : Type} (f : String → Option α) (names : List String) (hf : ∀ s, (f s).isSome ↔ s ∈ names) (v : PyVal) :
    ((∃ s ∈ names, v = .str s) → ∃ w, keyword f v = .ok w) ∧ (v = .other false → keyword f v = .error .typeError) ∧
    ((¬ ∃ s ∈ names, v = .str s) → v ≠ .other false → keyword f v = .error .valueError) := by
  refine ⟨?_, ?_, ?_⟩
  · rintro ⟨s, hs, rfl⟩
    obtain ⟨w, hw⟩ := Option.isSome_iff_exists.mp ((hf s).mpr hs)
    exact ⟨w, by simp [keyword, hw]⟩
  · rintro rfl; rfl
  · intro h1 h2
    match v with
    | .str s =>
      have : f s = none := by
        rw [← Option.not_isSome_iff_eq_none, hf]
        exact fun hs => h1 ⟨s, hs, rfl⟩
      simp [keyword, this]
    | .other false => exact absurd rfl h2
    | .other true => rfl
    | .int _ => rfl
    | .float _ => rfl
    | .bool _ => rfl
    | .none => rfl

theorem vecCorr_names (s : String) : (VecCorr.ofString s).isSome ↔ s ∈ vecCorrNames := by
  unfold VecCorr.ofString vecCorrNames
  split <;> simp_all

theorem condition_names (s : String) : (Condition.ofString s).isSome ↔ s ∈ conditionNames := by
  unfold Condition.ofString conditionNames
  split <;> simp_all

/-- C94: `vec_corr` and `condition` of either class, in any state: one of the listed names is accepted, stored, and discards the cached arrays;
an unhashable value raises `TypeError`, any other value `ValueError`, and then nothing changes. -/
theorem C94_keywords (c : Cls) (o : Obj A I) (v : PyVal) (a : Attr) (names : List String)
    (ha : (a = .vecCorr ∧ names = vecCorrNames) ∨ (a = .condition ∧ names = conditionNames)) :
    ((∃ s ∈ names, v = .str s) → ∃ o', setAttr c a v o = (.ok (), o') ∧ a.reads o'.params = some v ∧ o' = { params := o'.params }) ∧
    (v = .other false → setAttr c a v o = (.error .typeError, o)) ∧
    ((¬ ∃ s ∈ names, v = .str s) → v ≠ .other false → setAttr c a v o = (.error .valueError, o)) := by
  rcases ha with ⟨rfl, rfl⟩ | ⟨rfl, rfl⟩
  · obtain ⟨h1, h2, h3⟩ := keyword_outcome VecCorr.ofString vecCorrNames vecCorr_names v
    have e : setAttr (A := A) (I := I) c .vecCorr v = setVecCorr v := by cases c <;> rfl
    rw [e]
    refine ⟨fun h => ?_, fun h => ?_, fun h h' => ?_⟩
    · obtain ⟨w, hw⟩ := h1 h
      refine ⟨{ params := { o.params with vecCorr := some w } }, ?_, ?_, rfl⟩
      · simp [setVecCorr, hw, store, attributeChanged, PyM.bind_apply, PyM.lift_apply, PyM.modify_apply]
      · rw [keyword_vec_eq hw]; rfl
    · simp [setVecCorr, h2 h, PyM.bind_apply, PyM.lift_apply]
    · simp [setVecCorr, h3 h h', PyM.bind_apply, PyM.lift_apply]
  · obtain ⟨h1, h2, h3⟩ := keyword_outcome Condition.ofString conditionNames condition_names v
    have e : setAttr (A := A) (I := I) c .condition v = setCondition v := by cases c <;> rfl
    rw [e]
    refine ⟨fun h => ?_, fun h => ?_, fun h h' => ?_⟩
    · obtain ⟨w, hw⟩ := h1 h
      refine ⟨{ params := { o.params with condition := some w } }, ?_, ?_, rfl⟩
      · simp [setCondition, hw, store, attributeChanged, PyM.bind_apply, PyM.lift_apply, PyM.modify_apply]
      · rw [keyword_cond_eq hw]; rfl
    · simp [setCondition, h2 h, PyM.bind_apply, PyM.lift_apply]
    · simp [setCondition, h3 h h', PyM.bind_apply, PyM.lift_apply]

end

/-- Non-vacuity: two assignments to the default lattice-like SIM instance, one stored and one rejected. -/
example (m : Micro) (hk : m.kind = .sim (.float (.fin (17 / 20))) (.float (.fin 488)) (.bool false) (.bool true) (.bool false) [0] (.float (.fin 1))) :
    Micro.set .wlExc (.float (.fin 561)) m = (.ok (), { m with
      kind := .sim (.float (.fin (17 / 20))) (.float (.fin 561)) (.bool false) (.bool true) (.bool false) [0] (.float (.fin 1)), psf := none, otf := none }) ∧
    Micro.set .wlExc (.int 561) m = (.error .typeError, m) := by
  obtain ⟨-, h, -⟩ := C94_sim m (.float (.fin 561)) _ _ _ _ _ _ _ hk
  obtain ⟨-, h', -⟩ := C94_sim m (.int 561) _ _ _ _ _ _ _ hk
  refine ⟨h.stored ⟨_, rfl⟩ ?_ ?_, h'.badType (by rintro ⟨x, hx⟩; cases hx)⟩
  · rintro (h | ⟨q, h, hq⟩) <;> simp [PyVal.num?] at h
    subst h; norm_num at hq
  · rintro ⟨w, h, hs⟩
    simp at h; subst h
    rcases hs with ⟨q, h1, h2⟩ | ⟨b, h1, h2⟩ <;> simp [PyVal.num?] at h1 h2
    subst h1; norm_num at h2

end PyOTF
