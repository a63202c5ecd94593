import Verif.Lemmas.PsfInit

/-!
# C31: a `HanserPSF` is coherent with its parameters, for every history

The specification is a machine without caches: its state is the current parameters and the pupil
currently applied (if any), and every read recomputes from scratch.
-/

namespace PyOTF

/-! ## Specification machines -/

/-- What a user can do with a `HanserPSF`. -/
inductive HOp
  | set (a : Attr) (v : PyVal)
  | setZrange (z : ZArg)
  | applyPupil (pupil : Arr ℂ)
  | readPSFa | readOTFa | readPSFi | readOTFi

/-- What an operation returns. -/
inductive Out (A I : Type)
  | done
  | cplx (a : A)
  | real (a : I)

/-- The cache-free view of a `HanserPSF`: parameters and applied pupil. -/
structure HSpec where
  params : Params
  pupil : Option (Arr ℂ)

namespace HSpec

/-- The four outputs, recomputed from scratch. -/
noncomputable def PSFa (s : HSpec) : Py (Arr ℂ) := hanserGenPsf s.params s.pupil
@[inherit_doc PSFa] noncomputable def OTFa (s : HSpec) : Py (Arr ℂ) := do hanserOTFa (← s.PSFa)
@[inherit_doc PSFa] noncomputable def PSFi (s : HSpec) : Py (Arr ℝ) := do return psfiOf (← s.PSFa)
@[inherit_doc PSFa] noncomputable def OTFi (s : HSpec) : Py (Arr ℂ) := do otfiOf (← s.PSFi)

open Classical in
/-- An assignment: the setter decides about the parameters; an accepted assignment forgets the pupil,
unless it gives `wl`, `na`, `ni` or `size` the value (as a number) it already has. -/
noncomputable def set (a : Attr) (v : PyVal) (s : HSpec) : Py Unit × HSpec :=
  let r := setAttr .hanser a v ({ params := s.params } : HObj)
  match r.1 with
  | .error e => (.error e, s)
  | .ok _ => (.ok (), ⟨r.2.params,
      if a = .dual ∨ (a = .wl ∧ SameNumber (s.params.wl.getD .none) v) ∨ (a = .na ∧ SameNumber (s.params.na.getD .none) v) ∨
        (a = .ni ∧ SameNumber (s.params.ni.getD .none) v) ∨ (a = .size ∧ SameNumber (s.params.size.getD .none) v)
      then s.pupil else none⟩)

/-- Applying a pupil: remembered if it works, otherwise any previous pupil is forgotten too. -/
noncomputable def applyPupil (P : Arr ℂ) (s : HSpec) : Py Unit × HSpec :=
  match hanserGenPsf s.params (some P) with
  | .ok _ => (.ok (), ⟨s.params, some P⟩)
  | .error e => (.error e, ⟨s.params, none⟩)

end HSpec

/-- Tag the result of an operation. -/
def outAs {α A I σ : Type} (f : α → Out A I) (r : Py α × σ) : Py (Out A I) × σ := (r.1.map f, r.2)

/-- One operation on the cache-free machine. -/
noncomputable def HSpec.step (s : HSpec) : HOp → Py (Out (Arr ℂ) (Arr ℝ)) × HSpec
  | .set a v => outAs (fun _ => .done) (s.set a v)
  | .setZrange z => (.ok .done, ⟨{ s.params with zrange := some z.toList }, none⟩)
  | .applyPupil P => outAs (fun _ => .done) (s.applyPupil P)
  | .readPSFa => (s.PSFa.map .cplx, s)
  | .readOTFa => (s.OTFa.map .cplx, s)
  | .readPSFi => (s.PSFi.map .real, s)
  | .readOTFi => (s.OTFi.map .cplx, s)

/-- One operation on the modelled object. -/
noncomputable def HObj.step (o : HObj) : HOp → Py (Out (Arr ℂ) (Arr ℝ)) × HObj
  | .set a v => outAs (fun _ => .done) (setAttr .hanser a v o)
  | .setZrange z => outAs (fun _ => .done) (PyOTF.setZrange z o)
  | .applyPupil P => outAs (fun _ => .done) (HObj.applyPupil P o)
  | .readPSFa => outAs .cplx (HObj.getPSFa o)
  | .readOTFa => outAs .cplx (HObj.getOTFa o)
  | .readPSFi => outAs .real (HObj.getPSFi o)
  | .readOTFi => outAs .cplx (HObj.getOTFi o)

/-- Run a history, collecting what every operation returned or raised. -/
def runHistory {σ Op R : Type} (step : σ → Op → R × σ) : σ → List Op → List R × σ
  | s, [] => ([], s)
  | s, op :: ops =>
    let (r, s') := step s op
    let (rs, s'') := runHistory step s' ops
    (r :: rs, s'')

/-! ## The simulation -/

/-- The object `o` represents the specification state `s`. -/
structure HRel (o : HObj) (s : HSpec) : Prop where
  params : o.params = s.params
  ready : Ready .hanser s.params
  pupil : o.psfa = none → s.pupil = none
  psfa : ∀ a, o.psfa = some a → s.PSFa = .ok a
  otfa : ∀ a, o.otfa = some a → s.OTFa = .ok a
  psfi : ∀ a, o.psfi = some a → s.PSFi = .ok a
  otfi : ∀ a, o.otfi = some a → s.OTFi = .ok a

theorem HRel.cleared {p : Params} (h : Ready .hanser p) : HRel { params := p } ⟨p, none⟩ :=
  ⟨rfl, h, fun _ => rfl, by simp, by simp, by simp, by simp⟩

theorem keeps_iff {a : Attr} {v : PyVal} {p : Params} (hv : v.num?.isSome = true ∨ a = .dual) :
    Keeps .hanser a v p ↔ (a = .dual ∨ (a = .wl ∧ SameNumber (p.wl.getD .none) v) ∨
      (a = .na ∧ SameNumber (p.na.getD .none) v) ∨
      (a = .ni ∧ SameNumber (p.ni.getD .none) v) ∨ (a = .size ∧ SameNumber (p.size.getD .none) v)) := by
  cases a <;> simp [Keeps] at hv ⊢ <;> exact ne_false_iff (by simpa using hv)

theorem getPSFa_rel {o : HObj} {s : HSpec} (h : HRel o s) :
    (HObj.getPSFa o).1 = s.PSFa ∧ HRel (HObj.getPSFa o).2 s ∧ (∀ a, s.PSFa = .ok a → (HObj.getPSFa o).2.psfa = some a) := by
  rcases ha : o.psfa with _ | a
  · have hp := h.pupil ha
    have e : HObj.getPSFa o = match hanserGenPsf s.params none with
        | .ok a => (.ok a, { params := s.params, psfa := some a })
        | .error e => (.error e, { params := s.params }) := by
      simp only [HObj.getPSFa, PyM.bind_apply, PyM.get_apply, ha, HObj.genPsf, attributeChanged, PyM.modify_apply,
        PyM.lift_apply, h.params]
      rcases hanserGenPsf s.params none with e | a <;> rfl
    have es : s.PSFa = hanserGenPsf s.params none := by rw [HSpec.PSFa, hp]
    rw [e]
    rcases hg : hanserGenPsf s.params none with er | a
    · rw [hg] at es
      refine ⟨es.symm, ⟨rfl, h.ready, fun _ => hp, by simp, by simp, by simp, by simp⟩, ?_⟩
      intro a' h'; rw [es] at h'; cases h'
    · rw [hg] at es
      refine ⟨es.symm, ⟨rfl, h.ready, by simp, ?_, by simp, by simp, by simp⟩, ?_⟩
      · intro a' h'; cases h'; exact es
      · intro a' h'; rw [es] at h'; cases h'; rfl
  · have e : HObj.getPSFa o = (.ok a, o) := by
      simp only [HObj.getPSFa, PyM.bind_apply, PyM.get_apply, ha, PyM.pure_apply]
    rw [e]
    refine ⟨(h.psfa a ha).symm, h, ?_⟩
    intro a' h'; rw [h.psfa a ha] at h'; cases h'; exact ha

theorem getOTFa_rel {o : HObj} {s : HSpec} (h : HRel o s) :
    (HObj.getOTFa o).1 = s.OTFa ∧ HRel (HObj.getOTFa o).2 s := by
  rcases ha : o.otfa with _ | a
  · obtain ⟨h1, h2, h3⟩ := getPSFa_rel h
    have e : HObj.getOTFa o = match s.PSFa with
        | .ok a => match hanserOTFa a with
          | .ok t => (.ok t, { (HObj.getPSFa o).2 with otfa := some t })
          | .error e => (.error e, (HObj.getPSFa o).2)
        | .error e => (.error e, (HObj.getPSFa o).2) := by
      simp only [HObj.getOTFa, PyM.bind_apply, PyM.get_apply, ha, PyM.lift_apply]
      rw [← h1]
      rcases HObj.getPSFa o with ⟨e | a, o1⟩
      · rfl
      · simp only []
        rcases hanserOTFa a with e | t <;> rfl
    rw [e]
    have es : s.OTFa = (do hanserOTFa (← s.PSFa)) := rfl
    rcases hp : s.PSFa with er | a
    · rw [hp] at es; exact ⟨es.symm, h2⟩
    · rw [hp] at es
      have es' : s.OTFa = hanserOTFa a := es
      rcases ht : hanserOTFa a with er | t
      · simp only [ht]; exact ⟨by rw [es', ht], h2⟩
      · simp only [ht]; refine ⟨by rw [es', ht], ⟨h2.params, h2.ready, h2.pupil, h2.psfa, ?_, h2.psfi, h2.otfi⟩⟩
        intro t' h'; cases h'; rw [es', ht]
  · have e : HObj.getOTFa o = (.ok a, o) := by
      simp only [HObj.getOTFa, PyM.bind_apply, PyM.get_apply, ha, PyM.pure_apply]
    rw [e]
    exact ⟨(h.otfa a ha).symm, h⟩

theorem getPSFi_rel {o : HObj} {s : HSpec} (h : HRel o s) :
    (HObj.getPSFi o).1 = s.PSFi ∧ HRel (HObj.getPSFi o).2 s := by
  rcases ha : o.psfi with _ | a
  · obtain ⟨h1, h2, h3⟩ := getPSFa_rel h
    have e : HObj.getPSFi o = match s.PSFa with
        | .ok a => (.ok (psfiOf a), { (HObj.getPSFa o).2 with psfi := some (psfiOf a) })
        | .error e => (.error e, (HObj.getPSFa o).2) := by
      simp only [HObj.getPSFi, PyM.bind_apply, PyM.get_apply, ha]
      rw [← h1]
      rcases HObj.getPSFa o with ⟨e | a, o1⟩ <;> rfl
    rw [e]
    have es : s.PSFi = (do return psfiOf (← s.PSFa)) := rfl
    rcases hp : s.PSFa with er | a
    · rw [hp] at es; exact ⟨es.symm, h2⟩
    · rw [hp] at es
      refine ⟨es.symm, ⟨h2.params, h2.ready, h2.pupil, h2.psfa, h2.otfa, ?_, h2.otfi⟩⟩
      intro t' h'; cases h'; exact es
  · have e : HObj.getPSFi o = (.ok a, o) := by
      simp only [HObj.getPSFi, PyM.bind_apply, PyM.get_apply, ha, PyM.pure_apply]
    rw [e]
    exact ⟨(h.psfi a ha).symm, h⟩

theorem getOTFi_rel {o : HObj} {s : HSpec} (h : HRel o s) :
    (HObj.getOTFi o).1 = s.OTFi ∧ HRel (HObj.getOTFi o).2 s := by
  rcases ha : o.otfi with _ | a
  · obtain ⟨h1, h2⟩ := getPSFi_rel h
    have e : HObj.getOTFi o = match s.PSFi with
        | .ok a => match otfiOf a with
          | .ok t => (.ok t, { (HObj.getPSFi o).2 with otfi := some t })
          | .error e => (.error e, (HObj.getPSFi o).2)
        | .error e => (.error e, (HObj.getPSFi o).2) := by
      simp only [HObj.getOTFi, PyM.bind_apply, PyM.get_apply, ha, PyM.lift_apply]
      rw [← h1]
      rcases HObj.getPSFi o with ⟨e | a, o1⟩
      · rfl
      · simp only []
        rcases otfiOf a with e | t <;> rfl
    rw [e]
    have es : s.OTFi = (do otfiOf (← s.PSFi)) := rfl
    rcases hp : s.PSFi with er | a
    · rw [hp] at es; exact ⟨es.symm, h2⟩
    · rw [hp] at es
      have es' : s.OTFi = otfiOf a := es
      rcases ht : otfiOf a with er | t
      · simp only [ht]; exact ⟨by rw [es', ht], h2⟩
      · simp only [ht]; refine ⟨by rw [es', ht], ⟨h2.params, h2.ready, h2.pupil, h2.psfa, h2.otfa, h2.psfi, ?_⟩⟩
        intro t' h'; cases h'; rw [es', ht]
  · have e : HObj.getOTFi o = (.ok a, o) := by
      simp only [HObj.getOTFi, PyM.bind_apply, PyM.get_apply, ha, PyM.pure_apply]
    rw [e]
    exact ⟨(h.otfi a ha).symm, h⟩

theorem applyPupil_rel {o : HObj} {s : HSpec} (h : HRel o s) (P : Arr ℂ) :
    (HObj.applyPupil P o).1 = (s.applyPupil P).1 ∧ HRel (HObj.applyPupil P o).2 (s.applyPupil P).2 := by
  have e : HObj.applyPupil P o = match hanserGenPsf s.params (some P) with
      | .ok a => (.ok (), { params := s.params, psfa := some a })
      | .error e => (.error e, { params := s.params }) := by
    simp only [HObj.applyPupil, PyM.bind_apply, PyM.get_apply, HObj.genPsf, attributeChanged, PyM.modify_apply,
      PyM.lift_apply, h.params]
    rcases hanserGenPsf s.params (some P) with e | a <;> rfl
  rw [e, HSpec.applyPupil]
  rcases hg : hanserGenPsf s.params (some P) with er | a
  · exact ⟨rfl, HRel.cleared h.ready⟩
  · refine ⟨rfl, ⟨rfl, h.ready, by simp, ?_, by simp, by simp, by simp⟩⟩
    intro a' h'; cases h'; exact hg

theorem set_num {c : Cls} {a : Attr} {v : PyVal} {o : HObj} (ha : a = .wl ∨ a = .na ∨ a = .ni ∨ a = .size)
    (h : ∃ o', setAttr c a v o = (.ok (), o')) : v.num?.isSome = true := by
  obtain ⟨o', h⟩ := h
  have key : ∀ (t : PyVal → Bool) (ht : NumericType t) (rd : Params → Option PyVal) (wr : PyVal → Params → Params),
      setNumeric t rd wr v o = (.ok (), o') → v.num?.isSome = true := by
    intro t ht rd wr hh
    rw [setNumeric_run] at hh
    rcases hn : numericSet t (rd o.params) v with e | _ | w
    · rw [hn] at hh; cases hh
    · exact ht v (numericSet_none hn).1
    · exact ht v (numericSet_some hn).2.1
  rcases ha with rfl | rfl | rfl | rfl
  · exact key _ numericType_float _ _ h
  · exact key _ numericType_float _ _ h
  · exact key _ numericType_float _ _ h
  · exact key _ numericType_int _ _ h

theorem set_rel {o : HObj} {s : HSpec} (h : HRel o s) (a : Attr) (v : PyVal) :
    (setAttr .hanser a v o).1 = (s.set a v).1 ∧ HRel (setAttr .hanser a v o).2 (s.set a v).2 := by
  obtain ⟨q, hq, hk, hc⟩ := setAttr_run (Arr ℂ) (Arr ℝ) .hanser a v s.params h.ready
  have e1 := hq o h.params
  have e2 := hq { params := s.params } rfl
  rw [HSpec.set]
  rcases q with er | _ | p'
  · rw [e1, e2]; exact ⟨rfl, h⟩
  · have hkk := hk rfl
    rw [e1, e2]
    refine ⟨rfl, ?_⟩
    have hcond : (a = .dual ∨ (a = .wl ∧ SameNumber (s.params.wl.getD .none) v) ∨
        (a = .na ∧ SameNumber (s.params.na.getD .none) v) ∨ (a = .ni ∧ SameNumber (s.params.ni.getD .none) v) ∨
        (a = .size ∧ SameNumber (s.params.size.getD .none) v)) := by
      refine (keeps_iff ?_).mp hkk
      cases a with
      | dual => exact Or.inr rfl
      | wl => exact Or.inl (set_num (by simp) ⟨_, e1⟩)
      | na => exact Or.inl (set_num (by simp) ⟨_, e1⟩)
      | ni => exact Or.inl (set_num (by simp) ⟨_, e1⟩)
      | size => exact Or.inl (set_num (by simp) ⟨_, e1⟩)
      | _ => simp [Keeps] at hkk
    simp only [if_pos hcond]
    exact h
  · obtain ⟨hnk, hready⟩ := hc p' rfl
    rw [e1, e2]
    refine ⟨rfl, ?_⟩
    have hcond : ¬ (a = .dual ∨ (a = .wl ∧ SameNumber (s.params.wl.getD .none) v) ∨
        (a = .na ∧ SameNumber (s.params.na.getD .none) v) ∨ (a = .ni ∧ SameNumber (s.params.ni.getD .none) v) ∨
        (a = .size ∧ SameNumber (s.params.size.getD .none) v)) := by
      intro hh
      apply hnk
      refine (keeps_iff ?_).mpr hh
      cases a with
      | dual => exact Or.inr rfl
      | wl => exact Or.inl (set_num (by simp) ⟨_, e1⟩)
      | na => exact Or.inl (set_num (by simp) ⟨_, e1⟩)
      | ni => exact Or.inl (set_num (by simp) ⟨_, e1⟩)
      | size => exact Or.inl (set_num (by simp) ⟨_, e1⟩)
      | _ => simp at hh
    simp only [if_neg hcond]
    exact HRel.cleared hready

theorem step_rel {o : HObj} {s : HSpec} (h : HRel o s) (op : HOp) :
    (o.step op).1 = (s.step op).1 ∧ HRel (o.step op).2 (s.step op).2 := by
  cases op with
  | set a v =>
    obtain ⟨h1, h2⟩ := set_rel h a v
    exact ⟨by simp only [HObj.step, HSpec.step, outAs, h1], h2⟩
  | setZrange z =>
    refine ⟨rfl, ?_⟩
    have : (o.step (.setZrange z)).2 = { params := { s.params with zrange := some z.toList } } := by
      simp only [HObj.step, outAs, setZrange_run, h.params]
    rw [this]
    exact HRel.cleared { h.ready with zrange := fun _ => rfl }
  | applyPupil P =>
    obtain ⟨h1, h2⟩ := applyPupil_rel h P
    exact ⟨by simp only [HObj.step, HSpec.step, outAs, h1], h2⟩
  | readPSFa =>
    obtain ⟨h1, h2, _⟩ := getPSFa_rel h
    exact ⟨by simp only [HObj.step, HSpec.step, outAs, h1], h2⟩
  | readOTFa =>
    obtain ⟨h1, h2⟩ := getOTFa_rel h
    exact ⟨by simp only [HObj.step, HSpec.step, outAs, h1], h2⟩
  | readPSFi =>
    obtain ⟨h1, h2⟩ := getPSFi_rel h
    exact ⟨by simp only [HObj.step, HSpec.step, outAs, h1], h2⟩
  | readOTFi =>
    obtain ⟨h1, h2⟩ := getOTFi_rel h
    exact ⟨by simp only [HObj.step, HSpec.step, outAs, h1], h2⟩

theorem run_rel {o : HObj} {s : HSpec} (h : HRel o s) (ops : List HOp) :
    (runHistory HObj.step o ops).1 = (runHistory HSpec.step s ops).1 ∧
    HRel (runHistory HObj.step o ops).2 (runHistory HSpec.step s ops).2 := by
  induction ops generalizing o s with
  | nil => exact ⟨rfl, h⟩
  | cons op ops ih =>
    obtain ⟨h1, h2⟩ := step_rel h op
    obtain ⟨h3, h4⟩ := ih h2
    simp only [runHistory]
    exact ⟨by rw [h1, h3], h4⟩

/-! ## C31 -/

/-- C31: for every constructor call that succeeds and every history of assignments (accepted or
rejected), pupil applications (successful or not) and reads, what each operation returns or raises is
what the cache-free machine returns or raises, and the parameters agree at the end. -/
theorem C31_hanser_coherent (a : InitArgs) (zr : Option ZArg) (o : HObj) (ho : HObj.new a zr = .ok o)
    (ops : List HOp) :
    (runHistory HObj.step o ops).1 = (runHistory HSpec.step ⟨o.params, none⟩ ops).1 ∧
    (runHistory HObj.step o ops).2.params = (runHistory HSpec.step ⟨o.params, none⟩ ops).2.params := by
  obtain ⟨h1, h2⟩ := hanser_ready ho
  have hrel : HRel o ⟨o.params, none⟩ := by rw [h2]; exact HRel.cleared h1
  obtain ⟨h3, h4⟩ := run_rel hrel ops
  exact ⟨h3, h4.params⟩

/-- C31: in particular after any history all four outputs are functions of the current parameters and
of the pupil in force, and reading them in any order gives mutually consistent values. -/
theorem C31_outputs_from_state (a : InitArgs) (zr : Option ZArg) (o : HObj) (ho : HObj.new a zr = .ok o)
    (ops : List HOp) (o' : HObj) (ho' : o' = (runHistory HObj.step o ops).2) :
    ∃ pupil : Option (Arr ℂ), (pupil = none ∨ ∃ P, pupil = some P ∧ HOp.applyPupil P ∈ ops) ∧
      (HObj.getPSFa o').1 = hanserGenPsf o'.params pupil ∧
      (HObj.getOTFa o').1 = (do hanserOTFa (← hanserGenPsf o'.params pupil)) ∧
      (HObj.getPSFi o').1 = (do return psfiOf (← hanserGenPsf o'.params pupil)) ∧
      (HObj.getOTFi o').1 = (do otfiOf (psfiOf (← hanserGenPsf o'.params pupil))) := by
  obtain ⟨h1, h2⟩ := hanser_ready ho
  have hrel : HRel o ⟨o.params, none⟩ := by rw [h2]; exact HRel.cleared h1
  obtain ⟨_, h4⟩ := run_rel hrel ops
  rw [← ho'] at h4
  refine ⟨(runHistory HSpec.step ⟨o.params, none⟩ ops).2.pupil, ?_, ?_⟩
  · have key : ∀ (ops : List HOp) (s : HSpec), (runHistory HSpec.step s ops).2.pupil = none ∨
        (runHistory HSpec.step s ops).2.pupil = s.pupil ∨
        ∃ P, (runHistory HSpec.step s ops).2.pupil = some P ∧ HOp.applyPupil P ∈ ops := by
      intro ops
      induction ops with
      | nil => exact fun s => Or.inr (Or.inl rfl)
      | cons op ops ih =>
        intro s
        have hs : (s.step op).2.pupil = none ∨ (s.step op).2.pupil = s.pupil ∨
            ∃ P, (s.step op).2.pupil = some P ∧ op = .applyPupil P := by
          cases op with
          | set a v =>
            simp only [HSpec.step, outAs, HSpec.set]
            split
            · exact Or.inr (Or.inl rfl)
            · simp only []; split_ifs <;> simp
          | applyPupil P =>
            simp only [HSpec.step, outAs, HSpec.applyPupil]
            split
            · exact Or.inr (Or.inr ⟨P, rfl, rfl⟩)
            · exact Or.inl rfl
          | setZrange z => exact Or.inl rfl
          | _ => exact Or.inr (Or.inl rfl)
        rcases ih (s.step op).2 with h | h | ⟨P, h, hP⟩
        · exact Or.inl h
        · rcases hs with hs | hs | ⟨P, hs, rfl⟩
          · exact Or.inl (h.trans hs)
          · exact Or.inr (Or.inl (h.trans hs))
          · exact Or.inr (Or.inr ⟨P, h.trans hs, by simp⟩)
        · exact Or.inr (Or.inr ⟨P, h, by simp [hP]⟩)
    rcases key ops ⟨o.params, none⟩ with h | h | h
    · exact Or.inl h
    · exact Or.inl h
    · exact Or.inr h
  · rw [(getPSFa_rel h4).1, (getOTFa_rel h4).1, (getPSFi_rel h4).1, (getOTFi_rel h4).1, h4.params]
    refine ⟨rfl, rfl, rfl, ?_⟩
    simp only [HSpec.OTFi, HSpec.PSFi, HSpec.PSFa]
    rcases hanserGenPsf _ _ with e | a <;> rfl

end PyOTF
