import Verif.Model.PrObject
import Verif.Props.C68_C69_Phase
import Verif.Props.C34_C37_Params

/-!
# C132: the life of a `PhaseRetrievalResult`
-/

namespace PyOTF

/-! ## Specification: a machine without copies and caches -/

/-- What a client can do with a result. -/
inductive PrOp
  | model (op : HOp)
  | setMag (a : Arr ℝ)
  | setPhase (a : Arr ℝ)
  | complexPupil
  | fit (num : ℕ)
  | generate (size : Option ℤ) (zsize : Option PyVal) (zrange : Option ZArg)
  | generateZd (sphase : Slice) (size : Option ℤ) (zsize : Option PyVal) (zrange : Option ZArg)

/-- What an operation returns. -/
inductive PrOut
  | model (o : Out (Arr ℂ) (Arr ℝ))
  | done
  | pupil (a : Arr ℂ)
  | psf (a : Arr ℝ)
  | zd (z : ZD)

/-- State of the specification: the attributes of the result, the parameters of its model with the pupil in force there, and the last decomposition. -/
structure PrSpec where
  self : PRResult
  model : HSpec
  zd : Option ZD

/-- The parameters after `zsize` has been assigned, if it is given. -/
def withZsize (p : Params) : Option PyVal → Py Params
  | none => .ok p
  | some v => (setAttr .hanser .zsize v ({ params := p } : HObj)).1.map fun _ => (setAttr .hanser .zsize v ({ params := p } : HObj)).2.params

/-- The parameters after `zrange` has been assigned, if it is given. -/
def withZrange (p : Params) : Option ZArg → Params
  | none => p
  | some z => { p with zrange := some z.toList }

/-- The intensity PSF a new `HanserPSF` with the parameters `p` shows for the pupil `P` (frequency 0 in the middle), after `zsize` and `zrange` have been assigned if they are given,
padded or cropped to `size`. -/
noncomputable def freshPsf (p : Params) (P : Arr ℂ) (size : Option ℤ) (zsize : Option PyVal) (zrange : Option ZArg) : Py (Arr ℝ) := do
  let p ← withZsize p zsize
  resizePsf size (← (⟨withZrange p zrange, some (ifftshift none P)⟩ : HSpec).PSFi)

/-- One operation.  Generating a PSF changes nothing; fitting only replaces the decomposition, and uses neither the model nor its parameters. -/
noncomputable def PrSpec.step (lstsq : ℕ → List (List ℝ) → List ℝ → Py (List ℝ)) (s : PrSpec) : PrOp → Py PrOut × PrSpec
  | .model op => ((s.model.step op).1.map .model, { s with model := (s.model.step op).2 })
  | .setMag a => (.ok .done, { s with self := { s.self with mag := a } })
  | .setPhase a => (.ok .done, { s with self := { s.self with phase := a } })
  | .complexPupil => (s.self.complexPupil.map .pupil, s)
  | .fit num =>
    match s.self.fitToZernikes lstsq num with
    | .ok z => (.ok (.zd z), { s with zd := some z })
    | .error e => (.error e, s)
  | .generate size zsize zrange => ((do freshPsf s.model.params (← s.self.complexPupil) size zsize zrange : Py (Arr ℝ)).map .psf, s)
  | .generateZd sphase size zsize zrange =>
    match s.zd with
    | none => (.error .attributeError, s)
    | some z => ((do freshPsf s.model.params (← z.complexPupil Slice.all sphase) size zsize zrange : Py (Arr ℝ)).map .psf, s)

/-- One operation on the modelled object. -/
noncomputable def PrWorld.step (lstsq : ℕ → List (List ℝ) → List ℝ → Py (List ℝ)) (w : PrWorld) : PrOp → Py PrOut × PrWorld
  | .model op => let r := PrWorld.onModel (fun o => o.step op) w; (r.1.map .model, r.2)
  | .setMag a => let r := PrWorld.setMag a w; (r.1.map fun _ => .done, r.2)
  | .setPhase a => let r := PrWorld.setPhase a w; (r.1.map fun _ => .done, r.2)
  | .complexPupil => let r := PrWorld.complexPupil w; (r.1.map .pupil, r.2)
  | .fit num => let r := PrWorld.fitToZernikes lstsq num w; (r.1.map .zd, r.2)
  | .generate size zsize zrange => let r := PrWorld.generatePsf size zsize zrange w; (r.1.map .psf, r.2)
  | .generateZd sphase size zsize zrange => let r := PrWorld.generateZdPsf sphase size zsize zrange w; (r.1.map .psf, r.2)

/-! ## Proofs -/

theorem applyPupil_getPSFi (P : Arr ℂ) (o : HObj) :
    ((do HObj.applyPupil P; HObj.getPSFi : PyM HObj (Arr ℝ)) o).1 = (⟨o.params, some P⟩ : HSpec).PSFi := by
  simp only [PyM.bind_apply, applyPupil_run, HSpec.PSFi, HSpec.PSFa]
  rcases h : hanserGenPsf o.params (some P) with e | a
  · rfl
  · simp only [getPSFi_held]; rfl

theorem bind_onRef_last {α β : Type} (heap : Heap) (o : HObj) (m : PyM HObj α) (k : α → PyM Heap β) : (onRef heap.length m >>= k) (heap ++ [o]) =
    match m o with
    | (.ok a, o') => k a (heap ++ [o'])
    | (.error e, o') => (.error e, heap ++ [o']) := by
  rw [PyM.bind_apply, onRef_last]
  rcases m o with ⟨e | a, o'⟩ <;> rfl

/-- Generating a PSF from a model with any caches. -/
theorem generatePsf_run {heap : Heap} {ref : ℕ} {o : HObj} {p : Params} (href : heap[ref]? = some o) (hop : o.params = p) (hr : Ready .hanser p)
    (P : Arr ℂ) (size : Option ℤ) (zsize : Option PyVal) (zrange : Option ZArg) :
    ∃ o', generatePsf ref P size zsize zrange heap = (freshPsf p P size zsize zrange, heap ++ [o']) := by
  have hc : copyRef ref heap = (.ok heap.length, heap ++ [o]) := by unfold copyRef; rw [href]
  -- the last two steps
  have tail : ∀ (o1 : HObj) (p1 : Params), o1.params = p1 → ∃ o', (do
      onRef heap.length (HObj.applyPupil (ifftshift none P))
      let psf ← onRef heap.length HObj.getPSFi
      PyM.lift (resizePsf size psf) : PyM Heap (Arr ℝ)) (heap ++ [o1])
        = ((do resizePsf size (← (⟨p1, some (ifftshift none P)⟩ : HSpec).PSFi) : Py (Arr ℝ)), heap ++ [o']) := by
    intro o1 p1 h1
    simp only [PyM.bind_apply, onRef_last, applyPupil_run, HSpec.PSFi, HSpec.PSFa, h1]
    rcases h : hanserGenPsf p1 (some (ifftshift none P)) with e | a
    · exact ⟨_, rfl⟩
    · simp only [onRef_last, getPSFi_held, PyM.lift_apply]
      exact ⟨_, rfl⟩
  -- assignment of `zrange`
  have mid : ∀ (o1 : HObj) (p1 : Params), o1.params = p1 → ∃ o', (do
      match zrange with
      | some z => onRef heap.length (setZrange z)
      | none => pure ()
      onRef heap.length (HObj.applyPupil (ifftshift none P))
      let psf ← onRef heap.length HObj.getPSFi
      PyM.lift (resizePsf size psf) : PyM Heap (Arr ℝ)) (heap ++ [o1])
        = ((do resizePsf size (← (⟨withZrange p1 zrange, some (ifftshift none P)⟩ : HSpec).PSFi) : Py (Arr ℝ)), heap ++ [o']) := by
    intro o1 p1 h1
    rcases zrange with _ | z
    · exact tail o1 p1 h1
    · have hz := setZrange_run z o1
      obtain ⟨o', ho'⟩ := tail { params := { o1.params with zrange := some z.toList } } { p1 with zrange := some z.toList } (by rw [h1])
      refine ⟨o', (bind_onRef_last heap o1 (setZrange z) _).trans ?_⟩
      rw [hz]
      exact ho'
  unfold generatePsf freshPsf
  rw [PyM.bind_apply, hc]
  rcases zsize with _ | v
  · obtain ⟨o', ho'⟩ := mid o p hop
    exact ⟨o', ho'⟩
  · obtain ⟨q, hq, -, -⟩ := setAttr_run (Arr ℂ) (Arr ℝ) .hanser .zsize v p hr
    have e1 := hq o hop
    have e2 := hq { params := p } rfl
    have hw : withZsize p (some v) = q.map fun p' => p'.getD p := by
      simp only [withZsize, e2]
      rcases q with er | _ | p' <;> rfl
    rw [hw]
    rcases q with er | _ | p'
    · refine ⟨o, (bind_onRef_last heap o (setAttr .hanser .zsize v) _).trans ?_⟩
      rw [e1]
      rfl
    · obtain ⟨o', ho'⟩ := mid o p hop
      refine ⟨o', (bind_onRef_last heap o (setAttr .hanser .zsize v) _).trans ?_⟩
      rw [e1]
      exact ho'
    · obtain ⟨o', ho'⟩ := mid { params := p' } p' rfl
      refine ⟨o', (bind_onRef_last heap o (setAttr .hanser .zsize v) _).trans ?_⟩
      rw [e1]
      exact ho'

/-- The object represents the specification state. -/
def PrRel (w : PrWorld) (s : PrSpec) : Prop := w.self = s.self ∧ w.zd = s.zd ∧ ∃ o, w.heap[w.ref]? = some o ∧ HRel o s.model

theorem pr_step_rel (lstsq : ℕ → List (List ℝ) → List ℝ → Py (List ℝ)) {w : PrWorld} {s : PrSpec} (h : PrRel w s) (op : PrOp) :
    (w.step lstsq op).1 = (s.step lstsq op).1 ∧ PrRel (w.step lstsq op).2 (s.step lstsq op).2 := by
  obtain ⟨h1, h2, o, ho, hrel⟩ := h
  obtain ⟨heap, self, ref, zd⟩ := w
  obtain ⟨self', model, zd'⟩ := s
  simp only at h1 h2 ho hrel
  subst h1 h2
  have hlt : ref < heap.length := (List.getElem?_eq_some_iff.mp ho).1
  have gen : ∀ (P : Arr ℂ) (size : Option ℤ) (zsize : Option PyVal) (zrange : Option ZArg), ∃ o', PyOTF.generatePsf ref P size zsize zrange heap
      = (freshPsf model.params P size zsize zrange, heap ++ [o']) := fun P size zsize zrange => generatePsf_run ho hrel.params hrel.ready P size zsize zrange
  have app : ∀ o', (heap ++ [o'])[ref]? = some o := fun o' => by rw [List.getElem?_append_left hlt, ho]
  cases op with
  | model op =>
    obtain ⟨e1, e2⟩ := step_rel hrel op
    simp only [PrWorld.step, PrSpec.step, PrWorld.onModel, onRef, ho]
    refine ⟨by rw [e1], rfl, rfl, (o.step op).2, ?_, e2⟩
    simp [hlt]
  | setMag a => exact ⟨rfl, by simp only [PrWorld.step, PrSpec.step, PrWorld.setMag, PyM.modify_apply], rfl, o, ho, hrel⟩
  | setPhase a => exact ⟨rfl, by simp only [PrWorld.step, PrSpec.step, PrWorld.setPhase, PyM.modify_apply], rfl, o, ho, hrel⟩
  | complexPupil => exact ⟨by simp only [PrWorld.step, PrSpec.step, PrWorld.complexPupil], rfl, rfl, o, ho, hrel⟩
  | fit num =>
    simp only [PrWorld.step, PrSpec.step, PrWorld.fitToZernikes, PyM.bind_apply, PyM.get_apply, PyM.lift_apply]
    rcases self.fitToZernikes lstsq num with e | z
    · exact ⟨rfl, rfl, rfl, o, ho, hrel⟩
    · exact ⟨rfl, rfl, rfl, o, ho, hrel⟩
  | generate size zsize zrange =>
    simp only [PrWorld.step, PrSpec.step, PrWorld.generatePsf, PRResult.generatePsf, PyM.bind_apply, PyM.lift_apply]
    rcases self.complexPupil with e | P
    · exact ⟨rfl, rfl, rfl, o, ho, hrel⟩
    · obtain ⟨o', ho'⟩ := gen P size zsize zrange
      simp only [ho']
      exact ⟨rfl, rfl, rfl, o, app o', hrel⟩
  | generateZd sphase size zsize zrange =>
    simp only [PrWorld.step, PrSpec.step, PrWorld.generateZdPsf, PyOTF.generateZdPsf]
    rcases zd with _ | z
    · exact ⟨rfl, rfl, rfl, o, ho, hrel⟩
    · simp only [PyM.bind_apply, PyM.lift_apply]
      rcases z.complexPupil Slice.all sphase with e | P
      · exact ⟨rfl, rfl, rfl, o, ho, hrel⟩
      · obtain ⟨o', ho'⟩ := gen P size zsize zrange
        simp only [ho']
        exact ⟨rfl, rfl, rfl, o, app o', hrel⟩

theorem pr_run_rel (lstsq : ℕ → List (List ℝ) → List ℝ → Py (List ℝ)) {w : PrWorld} {s : PrSpec} (h : PrRel w s) (ops : List PrOp) :
    (runHistory (PrWorld.step lstsq) w ops).1 = (runHistory (PrSpec.step lstsq) s ops).1 ∧
    PrRel (runHistory (PrWorld.step lstsq) w ops).2 (runHistory (PrSpec.step lstsq) s ops).2 := by
  induction ops generalizing w s with
  | nil => exact ⟨rfl, h⟩
  | cons op ops ih =>
    obtain ⟨h1, h2⟩ := pr_step_rel lstsq h op
    obtain ⟨h3, h4⟩ := ih h2
    simp only [runHistory]
    exact ⟨by rw [h1, h3], h4⟩

theorem hrel_new {a : InitArgs} {zr : Option ZArg} {o : HObj} (ho : HObj.new a zr = .ok o) : HRel o ⟨o.params, none⟩ := by
  obtain ⟨h1, h2⟩ := hanser_ready ho
  rw [h2]; exact HRel.cleared h1

theorem hanserOfDict_new {d : PyDict} {o : HObj} (h : hanserOfDict d = .ok o) : ∃ a zr, HObj.new a zr = .ok o := by
  unfold hanserOfDict at h
  simp only [bind, Except.bind] at h
  repeat' split at h
  all_goals first
    | exact ⟨_, _, h⟩
    | (cases h; done)

theorem prBody_rel {c : PrConf} {st st' : PrState} {b : Bool} (h : prBody c st = .ok (st', b)) (hm : ∃ s, HRel st.model s) : ∃ s, HRel st'.model s := by
  obtain ⟨s, hs⟩ := hm
  have h1 := (applyPupil_rel hs st.pupil).2
  have h2 := (getPSFi_rel h1).2
  have h3 := (getPSFa_rel h2).2.1
  unfold prBody at h
  simp only [bind, Except.bind, pure, Except.pure] at h
  repeat' split at h
  all_goals first
    | (cases h; done)
    | (cases h; exact ⟨_, h2⟩)
    | (cases h; exact ⟨_, h3⟩)

theorem prLoop_rel {c : PrConf} : ∀ (n : ℕ) {st st' : PrState}, prLoop c n st = .ok st' → (∃ s, HRel st.model s) → ∃ s, HRel st'.model s
  | 0, st, st', h, hm => by
    simp only [prLoop, Except.ok.injEq] at h
    rwa [← h]
  | n + 1, st, st', h, hm => by
    rw [prLoop] at h
    rcases hb : prBody c st with e | ⟨s1, b⟩
    · rw [hb] at h; cases h
    · rw [hb] at h
      have := prBody_rel hb hm
      cases b
      · exact prLoop_rel n h this
      · simp only [Except.ok.injEq] at h
        rwa [← h]

/-- The model in a result is in a consistent state. -/
theorem retrieved_rel {unwrap : Arr ℝ → Arr ℝ} {data : Arr ℝ} {M : ℤ} {pt mt : ℝ} {b : Bool} {d d' : PyDict} {res : PRResult}
    (h : retrievePhase unwrap data M pt mt b d = (.ok res, d')) : ∃ s, HRel res.model s := by
  simp only [retrievePhase, PyM.bind_apply, PyM.lift_apply, PyM.modify_apply, PyM.get_apply] at h
  rcases hc : prChecks data M with e | ⟨nz, nx⟩
  · rw [hc] at h; simp at h
  rw [hc] at h
  simp only [Prod.mk.injEq] at h
  have hr := h.1
  unfold prRun at hr
  simp only [bind, Except.bind] at hr
  rcases hm : hanserOfDict (d.update (prOverride nz nx)) with e | o
  · rw [hm] at hr; cases hr
  rw [hm] at hr
  obtain ⟨a, zr, ho⟩ := hanserOfDict_new hm
  simp only at hr
  split at hr
  · cases hr
  split at hr
  · cases hr
  rename_i st hl
  have hst := prLoop_rel _ hl ⟨_, hrel_new ho⟩
  have hnew : ∀ {mg ph : Arr ℝ}, PRResult.new mg ph st.mse st.pupilDiff st.mseDiff st.model = .ok res → res.model = st.model := by
    intro mg ph hn
    unfold PRResult.new at hn
    simp only [bind, Except.bind, pure, Except.pure] at hn
    repeat' split at hn
    all_goals first
      | (cases hn; done)
      | (cases hn; rfl)
  repeat' split at hr
  all_goals first
    | (cases hr; done)
    | (rw [hnew hr]; exact hst)

/-! ## C132 -/

/-- C132: a result made from a `HanserPSF` with any past.  Whatever the client does with the result and its model, every operation returns or raises what the specification says, which
has neither copies nor caches: generating PSFs has no effect on anything, `fit_to_zernikes` depends only on the attributes of the result, PSFs are generated with the current parameters of
the model, and `generate_zd_psf` uses the last successful fit. -/
theorem C132_history (lstsq : ℕ → List (List ℝ) → List ℝ → Py (List ℝ)) (a : InitArgs) (zr : Option ZArg) (o model : HObj) (ho : HObj.new a zr = .ok o) (past : List HOp)
    (hm : model = (runHistory HObj.step o past).2) (x : PRResult) (hx : x.model = model) (heap : Heap) (ref : ℕ) (href : heap[ref]? = some x.model) (ops : List PrOp) :
    (runHistory (PrWorld.step lstsq) ⟨heap, x, ref, none⟩ ops).1 =
      (runHistory (PrSpec.step lstsq) ⟨x, (runHistory HSpec.step ⟨o.params, none⟩ past).2, none⟩ ops).1 := by
  have h1 := hrel_reachable ho past
  rw [← hm] at h1
  exact (pr_run_rel lstsq (w := ⟨heap, x, ref, none⟩) ⟨rfl, rfl, model, hx ▸ href, h1⟩ ops).1

/-- C132: the same for what `retrieve_phase` returns. -/
theorem C132_retrieved (lstsq : ℕ → List (List ℝ) → List ℝ → Py (List ℝ)) {unwrap : Arr ℝ → Arr ℝ} {data : Arr ℝ} {M : ℤ} {pt mt : ℝ} {b : Bool} {d d' : PyDict} {res : PRResult}
    (h : retrievePhase unwrap data M pt mt b d = (.ok res, d')) (heap : Heap) (ref : ℕ) (href : heap[ref]? = some res.model) :
    ∃ pupil, ∀ ops, (runHistory (PrWorld.step lstsq) ⟨heap, res, ref, none⟩ ops).1 = (runHistory (PrSpec.step lstsq) ⟨res, ⟨res.model.params, pupil⟩, none⟩ ops).1 := by
  obtain ⟨s, hs⟩ := retrieved_rel h
  refine ⟨s.pupil, fun ops => ?_⟩
  have e : s = ⟨res.model.params, s.pupil⟩ := by rw [hs.params]
  rw [e] at hs
  exact (pr_run_rel lstsq (w := ⟨heap, res, ref, none⟩) ⟨rfl, rfl, res.model, href, hs⟩ ops).1

/-- Operations that assign neither to the result nor to a parameter of its model (applying pupils to the model is allowed). -/
def PrOp.Keeps : PrOp → Prop
  | .model (.set _ _) | .model (.setZrange _) | .setMag _ | .setPhase _ => False
  | _ => True

/-- Operations that do not assign to the result itself. -/
def PrOp.KeepsResult : PrOp → Prop
  | .setMag _ | .setPhase _ => False
  | _ => True

theorem keeps_step (lstsq : ℕ → List (List ℝ) → List ℝ → Py (List ℝ)) (s : PrSpec) (op : PrOp) (h : op.Keeps) :
    (s.step lstsq op).2.self = s.self ∧ (s.step lstsq op).2.model.params = s.model.params := by
  cases op with
  | model op =>
    cases op with
    | set a v => exact h.elim
    | setZrange z => exact h.elim
    | applyPupil P =>
      refine ⟨rfl, ?_⟩
      simp only [PrSpec.step, HSpec.step, outAs, HSpec.applyPupil]
      split <;> rfl
    | _ => exact ⟨rfl, rfl⟩
  | setMag a => exact h.elim
  | setPhase a => exact h.elim
  | fit num =>
    simp only [PrSpec.step]
    split <;> exact ⟨rfl, rfl⟩
  | generateZd sphase size zsize zrange =>
    simp only [PrSpec.step]
    split <;> exact ⟨rfl, rfl⟩
  | _ => exact ⟨rfl, rfl⟩

theorem keepsResult_step (lstsq : ℕ → List (List ℝ) → List ℝ → Py (List ℝ)) (s : PrSpec) (op : PrOp) (h : op.KeepsResult) : (s.step lstsq op).2.self = s.self := by
  cases op with
  | setMag a => exact h.elim
  | setPhase a => exact h.elim
  | fit num =>
    simp only [PrSpec.step]
    split <;> rfl
  | generateZd sphase size zsize zrange =>
    simp only [PrSpec.step]
    split <;> rfl
  | _ => rfl

theorem keeps_run (lstsq : ℕ → List (List ℝ) → List ℝ → Py (List ℝ)) (ops : List PrOp) : ∀ s : PrSpec, (∀ op ∈ ops, op.Keeps) →
    (runHistory (PrSpec.step lstsq) s ops).2.self = s.self ∧ (runHistory (PrSpec.step lstsq) s ops).2.model.params = s.model.params := by
  induction ops with
  | nil => exact fun s _ => ⟨rfl, rfl⟩
  | cons op ops ih =>
    intro s h
    obtain ⟨a1, a2⟩ := keeps_step lstsq s op (h op (by simp))
    obtain ⟨b1, b2⟩ := ih (s.step lstsq op).2 fun o ho => h o (by simp [ho])
    simp only [runHistory]
    exact ⟨b1.trans a1, b2.trans a2⟩

theorem keepsResult_run (lstsq : ℕ → List (List ℝ) → List ℝ → Py (List ℝ)) (ops : List PrOp) : ∀ s : PrSpec, (∀ op ∈ ops, op.KeepsResult) →
    (runHistory (PrSpec.step lstsq) s ops).2.self = s.self := by
  induction ops with
  | nil => exact fun s _ => rfl
  | cons op ops ih =>
    intro s h
    simp only [runHistory]
    exact (ih (s.step lstsq op).2 fun o ho => h o (by simp [ho])).trans (keepsResult_step lstsq s op (h op (by simp)))

/-- C132: after `retrieve_phase` and any use of the result, further reads, fits, generated PSFs and pupils applied to `result.model` do not change what `generate_psf` returns. -/
theorem C132_generate_stable (lstsq : ℕ → List (List ℝ) → List ℝ → Py (List ℝ)) {unwrap : Arr ℝ → Arr ℝ} {data : Arr ℝ} {M : ℤ} {pt mt : ℝ} {b : Bool} {d d' : PyDict}
    {res : PRResult} (h : retrievePhase unwrap data M pt mt b d = (.ok res, d')) (heap : Heap) (ref : ℕ) (href : heap[ref]? = some res.model) (before ops : List PrOp)
    (hops : ∀ op ∈ ops, op.Keeps) (w w' : PrWorld) (hw : w = (runHistory (PrWorld.step lstsq) ⟨heap, res, ref, none⟩ before).2)
    (hw' : w' = (runHistory (PrWorld.step lstsq) w ops).2) (size : Option ℤ) (zsize : Option PyVal) (zrange : Option ZArg) :
    (PrWorld.generatePsf size zsize zrange w').1 = (PrWorld.generatePsf size zsize zrange w).1 := by
  obtain ⟨s0, hs0⟩ := retrieved_rel h
  have r1 := (pr_run_rel lstsq (w := ⟨heap, res, ref, none⟩) (s := ⟨res, s0, none⟩) ⟨rfl, rfl, res.model, href, hs0⟩ before).2
  rw [← hw] at r1
  generalize (runHistory (PrSpec.step lstsq) ⟨res, s0, none⟩ before).2 = s at r1
  have r2 := (pr_run_rel lstsq r1 ops).2
  rw [← hw'] at r2
  obtain ⟨k1, k2⟩ := keeps_run lstsq ops s hops
  have out : ∀ {w : PrWorld} {s : PrSpec}, PrRel w s →
      (PrWorld.generatePsf size zsize zrange w).1 = (do freshPsf s.model.params (← s.self.complexPupil) size zsize zrange : Py (Arr ℝ)) := by
    intro w s hr
    obtain ⟨a1, -, o, ho, hrel⟩ := hr
    simp only [PrWorld.generatePsf, PRResult.generatePsf, PyM.bind_apply, PyM.lift_apply, a1]
    rcases s.self.complexPupil with e | P
    · rfl
    · obtain ⟨o', ho'⟩ := generatePsf_run ho hrel.params hrel.ready P size zsize zrange
      simp only [ho']; rfl
  rw [out r1, out r2, k1, k2]

/-- C132: `fit_to_zernikes` gives the same decomposition whatever has been done since to the model, including changes of its wavelength, aperture, pixel size or array size. -/
theorem C132_fit_stable (lstsq : ℕ → List (List ℝ) → List ℝ → Py (List ℝ)) {unwrap : Arr ℝ → Arr ℝ} {data : Arr ℝ} {M : ℤ} {pt mt : ℝ} {b : Bool} {d d' : PyDict}
    {res : PRResult} (h : retrievePhase unwrap data M pt mt b d = (.ok res, d')) (heap : Heap) (ref : ℕ) (href : heap[ref]? = some res.model) (before ops : List PrOp)
    (hops : ∀ op ∈ ops, op.KeepsResult) (w w' : PrWorld) (hw : w = (runHistory (PrWorld.step lstsq) ⟨heap, res, ref, none⟩ before).2)
    (hw' : w' = (runHistory (PrWorld.step lstsq) w ops).2) (num : ℕ) :
    (PrWorld.fitToZernikes lstsq num w').1 = (PrWorld.fitToZernikes lstsq num w).1 := by
  obtain ⟨s0, hs0⟩ := retrieved_rel h
  have r1 := (pr_run_rel lstsq (w := ⟨heap, res, ref, none⟩) (s := ⟨res, s0, none⟩) ⟨rfl, rfl, res.model, href, hs0⟩ before).2
  rw [← hw] at r1
  generalize (runHistory (PrSpec.step lstsq) ⟨res, s0, none⟩ before).2 = s at r1
  have r2 := (pr_run_rel lstsq r1 ops).2
  rw [← hw'] at r2
  have k1 := keepsResult_run lstsq ops s hops
  have out : ∀ {w : PrWorld} {s : PrSpec}, PrRel w s → (PrWorld.fitToZernikes lstsq num w).1 = s.self.fitToZernikes lstsq num := by
    intro w s hr
    simp only [PrWorld.fitToZernikes, PyM.bind_apply, PyM.get_apply, PyM.lift_apply, hr.1]
    rcases s.self.fitToZernikes lstsq num with e | z <;> rfl
  rw [out r1, out r2, k1]

/-- C132: `generate_zd_psf` before the first fit is an `AttributeError`. -/
theorem C132_zd_before_fit (sphase : Slice) (size : Option ℤ) (zsize : Option PyVal) (zrange : Option ZArg) (w : PrWorld) (h : w.zd = none) :
    (PrWorld.generateZdPsf sphase size zsize zrange w).1 = .error .attributeError := by
  simp only [PrWorld.generateZdPsf, generateZdPsf, h]; rfl

/-- Non-vacuity of C132: a result that is fitted, whose model then gets another wavelength and another pupil. -/
example (lstsq : ℕ → List (List ℝ) → List ℝ → Py (List ℝ)) (P : Arr ℂ) : ∃ res d', retrievePhase id ⟨[3, 8, 8], fun _ => 1⟩ 5 0 0 false demoDict = (.ok res, d') ∧
    ∃ pupil, ∀ ops, ops = [PrOp.fit 11, .model (.set .wl (.float (.fin 600))), .model (.applyPupil P), .generate none none none, .model .readPSFi] →
      (runHistory (PrWorld.step lstsq) ⟨[res.model], res, 0, none⟩ ops).1 = (runHistory (PrSpec.step lstsq) ⟨res, ⟨res.model.params, pupil⟩, none⟩ ops).1 := by
  obtain ⟨res, d', h⟩ := C62_returns id (fun _ => rfl) ⟨[3, 8, 8], fun _ => 1⟩ _ _ _ _ _ 3 8 _ (demoDict_setup 3) rfl (by norm_num) (by norm_num) 5 (by norm_num) 0 0 false
  obtain ⟨pupil, hp⟩ := C132_retrieved lstsq h [res.model] 0 rfl
  exact ⟨res, d', h, pupil, fun ops _ => hp ops⟩

end PyOTF
