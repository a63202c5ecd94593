import Verif.Props.C31_Hanser

/-!
# C32: a `SheppardPSF` is coherent with its parameters, for every history; C33: rejected assignments

The specification machine of a `SheppardPSF` has no caches: its state is the parameters.
-/

namespace PyOTF

/-- What a user can do with a `SheppardPSF`. -/
inductive SOp
  | set (a : Attr) (v : PyVal)
  | readPSFa | readOTFa | readPSFi | readOTFi

namespace SSpec

/-- The four outputs, recomputed from scratch. -/
noncomputable def OTFa (p : Params) : Py (Arr (Option ℂ)) := sheppardGenOtf p
@[inherit_doc OTFa] noncomputable def PSFa (p : Params) : Py (Arr (Option ℂ)) := (OTFa p).map sheppardPSFa
@[inherit_doc OTFa] noncomputable def PSFi (p : Params) : Py (Arr (Option ℝ)) := (PSFa p).map sheppardPSFi
@[inherit_doc OTFa] noncomputable def OTFi (p : Params) : Py (Arr (Option ℂ)) := (PSFi p).map sheppardOTFi

/-- One operation on the cache-free machine. -/
noncomputable def step (p : Params) : SOp → Py (Out (Arr (Option ℂ)) (Arr (Option ℝ))) × Params
  | .set a v =>
    let r := setAttr .sheppard a v ({ params := p } : SObj)
    match r.1 with
    | .error e => (.error e, p)
    | .ok _ => (.ok .done, r.2.params)
  | .readPSFa => ((PSFa p).map .cplx, p)
  | .readOTFa => ((OTFa p).map .cplx, p)
  | .readPSFi => ((PSFi p).map .real, p)
  | .readOTFi => ((OTFi p).map .cplx, p)

end SSpec

/-- One operation on the modelled object. -/
noncomputable def SObj.step (o : SObj) : SOp → Py (Out (Arr (Option ℂ)) (Arr (Option ℝ))) × SObj
  | .set a v => outAs (fun _ => .done) (setAttr .sheppard a v o)
  | .readPSFa => outAs .cplx (SObj.getPSFa o)
  | .readOTFa => outAs .cplx (SObj.getOTFa o)
  | .readPSFi => outAs .real (SObj.getPSFi o)
  | .readOTFi => outAs .cplx (SObj.getOTFi o)

/-- The object `o` represents the parameters `p`. -/
structure SRel (o : SObj) (p : Params) : Prop where
  params : o.params = p
  ready : Ready .sheppard p
  otfa : ∀ a, o.otfa = some a → SSpec.OTFa p = .ok a
  psfa : ∀ a, o.psfa = some a → SSpec.PSFa p = .ok a
  psfi : ∀ a, o.psfi = some a → SSpec.PSFi p = .ok a
  otfi : ∀ a, o.otfi = some a → SSpec.OTFi p = .ok a

namespace SObj

theorem rel_cleared {p : Params} (h : Ready .sheppard p) : SRel { params := p } p :=
  ⟨rfl, h, by simp, by simp, by simp, by simp⟩

theorem getOTFa_rel {o : SObj} {p : Params} (h : SRel o p) :
    (getOTFa o).1 = SSpec.OTFa p ∧ SRel (getOTFa o).2 p := by
  rcases ha : o.otfa with _ | a
  · have e : getOTFa o = match SSpec.OTFa p with
        | .ok a => (.ok a, { params := p, otfa := some a })
        | .error e => (.error e, { params := p }) := by
      simp only [getOTFa, PyM.bind_apply, PyM.get_apply, ha, attributeChanged, PyM.modify_apply,
        PyM.lift_apply, h.params, SSpec.OTFa]
      rcases sheppardGenOtf p with e | a <;> rfl
    rw [e]
    rcases hg : SSpec.OTFa p with er | a
    · exact ⟨rfl, rel_cleared h.ready⟩
    · refine ⟨rfl, ⟨rfl, h.ready, ?_, by simp, by simp, by simp⟩⟩
      intro a' h'; cases h'; exact hg
  · have e : getOTFa o = (.ok a, o) := by
      simp only [getOTFa, PyM.bind_apply, PyM.get_apply, ha, PyM.pure_apply]
    rw [e]
    exact ⟨(h.otfa a ha).symm, h⟩

theorem getPSFa_rel {o : SObj} {p : Params} (h : SRel o p) :
    (getPSFa o).1 = SSpec.PSFa p ∧ SRel (getPSFa o).2 p := by
  rcases ha : o.psfa with _ | a
  · obtain ⟨h1, h2⟩ := getOTFa_rel h
    have e : getPSFa o = match SSpec.OTFa p with
        | .ok a => (.ok (sheppardPSFa a), { (getOTFa o).2 with psfa := some (sheppardPSFa a) })
        | .error e => (.error e, (getOTFa o).2) := by
      simp only [getPSFa, PyM.bind_apply, PyM.get_apply, ha]
      rw [← h1]
      rcases getOTFa o with ⟨e | a, o1⟩ <;> rfl
    rw [e]
    have es : SSpec.PSFa p = (SSpec.OTFa p).map sheppardPSFa := rfl
    rcases hp : SSpec.OTFa p with er | a
    · rw [hp] at es; exact ⟨es.symm, h2⟩
    · rw [hp] at es
      refine ⟨es.symm, ⟨h2.params, h2.ready, h2.otfa, ?_, h2.psfi, h2.otfi⟩⟩
      intro t' h'; cases h'; exact es
  · have e : getPSFa o = (.ok a, o) := by
      simp only [getPSFa, PyM.bind_apply, PyM.get_apply, ha, PyM.pure_apply]
    rw [e]
    exact ⟨(h.psfa a ha).symm, h⟩

theorem getPSFi_rel {o : SObj} {p : Params} (h : SRel o p) :
    (getPSFi o).1 = SSpec.PSFi p ∧ SRel (getPSFi o).2 p := by
  rcases ha : o.psfi with _ | a
  · obtain ⟨h1, h2⟩ := getPSFa_rel h
    have e : getPSFi o = match SSpec.PSFa p with
        | .ok a => (.ok (sheppardPSFi a), { (getPSFa o).2 with psfi := some (sheppardPSFi a) })
        | .error e => (.error e, (getPSFa o).2) := by
      simp only [getPSFi, PyM.bind_apply, PyM.get_apply, ha]
      rw [← h1]
      rcases getPSFa o with ⟨e | a, o1⟩ <;> rfl
    rw [e]
    have es : SSpec.PSFi p = (SSpec.PSFa p).map sheppardPSFi := rfl
    rcases hp : SSpec.PSFa p with er | a
    · rw [hp] at es; exact ⟨es.symm, h2⟩
    · rw [hp] at es
      refine ⟨es.symm, ⟨h2.params, h2.ready, h2.otfa, h2.psfa, ?_, h2.otfi⟩⟩
      intro t' h'; cases h'; exact es
  · have e : getPSFi o = (.ok a, o) := by
      simp only [getPSFi, PyM.bind_apply, PyM.get_apply, ha, PyM.pure_apply]
    rw [e]
    exact ⟨(h.psfi a ha).symm, h⟩

theorem getOTFi_rel {o : SObj} {p : Params} (h : SRel o p) :
    (getOTFi o).1 = SSpec.OTFi p ∧ SRel (getOTFi o).2 p := by
  rcases ha : o.otfi with _ | a
  · obtain ⟨h1, h2⟩ := getPSFi_rel h
    have e : getOTFi o = match SSpec.PSFi p with
        | .ok a => (.ok (sheppardOTFi a), { (getPSFi o).2 with otfi := some (sheppardOTFi a) })
        | .error e => (.error e, (getPSFi o).2) := by
      simp only [getOTFi, PyM.bind_apply, PyM.get_apply, ha]
      rw [← h1]
      rcases getPSFi o with ⟨e | a, o1⟩ <;> rfl
    rw [e]
    have es : SSpec.OTFi p = (SSpec.PSFi p).map sheppardOTFi := rfl
    rcases hp : SSpec.PSFi p with er | a
    · rw [hp] at es; exact ⟨es.symm, h2⟩
    · rw [hp] at es
      refine ⟨es.symm, ⟨h2.params, h2.ready, h2.otfa, h2.psfa, h2.psfi, ?_⟩⟩
      intro t' h'; cases h'; exact es
  · have e : getOTFi o = (.ok a, o) := by
      simp only [getOTFi, PyM.bind_apply, PyM.get_apply, ha, PyM.pure_apply]
    rw [e]
    exact ⟨(h.otfi a ha).symm, h⟩

theorem step_rel {o : SObj} {p : Params} (h : SRel o p) (op : SOp) :
    (o.step op).1 = (SSpec.step p op).1 ∧ SRel (o.step op).2 (SSpec.step p op).2 := by
  cases op with
  | set a v =>
    obtain ⟨q, hq, -, hc⟩ := setAttr_run (Arr (Option ℂ)) (Arr (Option ℝ)) .sheppard a v p h.ready
    have e1 := hq o h.params
    have e2 := hq { params := p } rfl
    simp only [step, SSpec.step]
    rcases q with er | _ | p'
    · rw [e1, e2]; exact ⟨rfl, h⟩
    · rw [e1, e2]; exact ⟨rfl, h⟩
    · rw [e1, e2]; exact ⟨rfl, rel_cleared (hc p' rfl).2⟩
  | readPSFa =>
    obtain ⟨h1, h2⟩ := getPSFa_rel h
    exact ⟨by simp only [step, SSpec.step, outAs, h1], h2⟩
  | readOTFa =>
    obtain ⟨h1, h2⟩ := getOTFa_rel h
    exact ⟨by simp only [step, SSpec.step, outAs, h1], h2⟩
  | readPSFi =>
    obtain ⟨h1, h2⟩ := getPSFi_rel h
    exact ⟨by simp only [step, SSpec.step, outAs, h1], h2⟩
  | readOTFi =>
    obtain ⟨h1, h2⟩ := getOTFi_rel h
    exact ⟨by simp only [step, SSpec.step, outAs, h1], h2⟩

theorem run_rel {o : SObj} {p : Params} (h : SRel o p) (ops : List SOp) :
    (runHistory SObj.step o ops).1 = (runHistory SSpec.step p ops).1 ∧
    SRel (runHistory SObj.step o ops).2 (runHistory SSpec.step p ops).2 := by
  induction ops generalizing o p with
  | nil => exact ⟨rfl, h⟩
  | cons op ops ih =>
    obtain ⟨h1, h2⟩ := step_rel h op
    obtain ⟨h3, h4⟩ := ih h2
    simp only [runHistory]
    exact ⟨by rw [h1, h3], h4⟩

end SObj

/-- C32: for every constructor call that succeeds and every history of assignments and reads, what each
operation on a `SheppardPSF` returns or raises is what the cache-free machine returns or raises, and the
parameters agree at the end. -/
theorem C32_sheppard_coherent (a : InitArgs) (dual : PyVal) (o : SObj) (ho : SObj.new a dual = .ok o)
    (ops : List SOp) :
    (runHistory SObj.step o ops).1 = (runHistory SSpec.step o.params ops).1 ∧
    (runHistory SObj.step o ops).2.params = (runHistory SSpec.step o.params ops).2 := by
  obtain ⟨h1, h2⟩ := sheppard_ready ho
  have hrel : SRel o o.params := by rw [h2]; exact SObj.rel_cleared h1
  obtain ⟨h3, h4⟩ := SObj.run_rel hrel ops
  exact ⟨h3, h4.params⟩

/-- C32: after any history the four outputs are functions of the current parameters alone. -/
theorem C32_outputs_from_params (a : InitArgs) (dual : PyVal) (o : SObj) (ho : SObj.new a dual = .ok o)
    (ops : List SOp) (o' : SObj) (ho' : o' = (runHistory SObj.step o ops).2) :
    (SObj.getOTFa o').1 = sheppardGenOtf o'.params ∧
    (SObj.getPSFa o').1 = (sheppardGenOtf o'.params).map sheppardPSFa ∧
    (SObj.getPSFi o').1 = ((sheppardGenOtf o'.params).map sheppardPSFa).map sheppardPSFi ∧
    (SObj.getOTFi o').1 = (((sheppardGenOtf o'.params).map sheppardPSFa).map sheppardPSFi).map sheppardOTFi := by
  obtain ⟨h1, h2⟩ := sheppard_ready ho
  have hrel : SRel o o.params := by rw [h2]; exact SObj.rel_cleared h1
  obtain ⟨_, h4⟩ := SObj.run_rel hrel ops
  rw [← ho'] at h4
  rw [(SObj.getPSFa_rel h4).1, (SObj.getOTFa_rel h4).1, (SObj.getPSFi_rel h4).1, (SObj.getOTFi_rel h4).1, h4.params]
  exact ⟨rfl, rfl, rfl, rfl⟩

/-! ## C33 -/

/-- C33: after any history, an assignment to a `HanserPSF` that raises leaves the object exactly as it was:
parameters, applied pupil and cached arrays. -/
theorem C33_hanser_rejected (a : InitArgs) (zr : Option ZArg) (o : HObj) (ho : HObj.new a zr = .ok o)
    (ops : List HOp) (o' o'' : HObj) (ho' : o' = (runHistory HObj.step o ops).2) (at' : Attr) (v : PyVal) (e : Err)
    (he : setAttr .hanser at' v o' = (.error e, o'')) : o'' = o' := by
  obtain ⟨h1, h2⟩ := hanser_ready ho
  have hrel : HRel o ⟨o.params, none⟩ := by rw [h2]; exact HRel.cleared h1
  obtain ⟨_, h4⟩ := run_rel hrel ops
  rw [← ho'] at h4
  obtain ⟨q, hq, -, -⟩ := setAttr_run (Arr ℂ) (Arr ℝ) .hanser at' v _ h4.ready
  have e1 := hq o' h4.params
  rw [he] at e1
  rcases q with er | _ | p' <;> simp at e1
  exact e1.2

/-- C33: the same for a `SheppardPSF`. -/
theorem C33_sheppard_rejected (a : InitArgs) (dual : PyVal) (o : SObj) (ho : SObj.new a dual = .ok o)
    (ops : List SOp) (o' o'' : SObj) (ho' : o' = (runHistory SObj.step o ops).2) (at' : Attr) (v : PyVal) (e : Err)
    (he : setAttr .sheppard at' v o' = (.error e, o'')) : o'' = o' := by
  obtain ⟨h1, h2⟩ := sheppard_ready ho
  have hrel : SRel o o.params := by rw [h2]; exact SObj.rel_cleared h1
  obtain ⟨_, h4⟩ := SObj.run_rel hrel ops
  rw [← ho'] at h4
  obtain ⟨q, hq, -, -⟩ := setAttr_run (Arr (Option ℂ)) (Arr (Option ℝ)) .sheppard at' v _ h4.ready
  have e1 := hq o' h4.params
  rw [he] at e1
  rcases q with er | _ | p' <;> simp at e1
  exact e1.2

end PyOTF
