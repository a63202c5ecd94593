import Verif.Lemmas.MicroMemory

/-!
# Microscopes by reference and with values: programs
-/

namespace PyOTF

/-- The microscope by reference corresponds to the one with values. -/
structure RelMicro (w : Mem) (r : RMicro) (v : VMicro) : Prop where
  over : v.oversample = r.oversample
  par : v.psfParams = r.psfParams
  pix : v.pixelSize = r.pixelSize
  model : v.model = r.model
  kind : v.kind = r.kind
  psf : Option.Rel (fun p a => w.real[p]? = some a) r.psf v.psf
  otf : Option.Rel (fun p a => w.cplx[p]? = some a) r.otf v.otf

/-- The models of the microscope exist and are different. -/
structure MSlot.Models {P O : Type} (m : MSlot P O) (n : ℕ) : Prop where
  model : m.model < n
  exc : ∀ j, m.kind.exc = some j → j < n
  ne : m.kind.exc ≠ some m.model

theorem MSlot.Models.mono {P O : Type} {m : MSlot P O} {n n' : ℕ} (h : m.Models n) (hn : n ≤ n') : m.Models n' :=
  ⟨h.model.trans_le hn, fun j hj => (h.exc j hj).trans_le hn, h.ne⟩

theorem RelMicro.ext {w w' : Mem} {r : RMicro} {v : VMicro} (h : RelMicro w r v) (he : w.Ext w') : RelMicro w' r v :=
  ⟨h.over, h.par, h.pix, h.model, h.kind, optRel_mono (fun _ _ x => he.real _ _ x) h.psf, optRel_mono (fun _ _ x => he.cplx _ _ x) h.otf⟩

/-- Program states correspond. -/
structure RelM (s : MRProg) (t : MVProg) : Prop where
  prog : RelP s.prog t.prog
  micros : List.Forall₂ (RelMicro s.prog.world.mem) s.micros t.micros
  models : ∀ m ∈ s.micros, m.Models s.prog.world.objs.length

theorem RelW.length {w : World} {h : Heap} (hw : RelW w h) : h.length = w.objs.length := by rw [hw.objs]; simp

theorem load_rel {w : World} {h : Heap} (hw : RelW w h) {r : RMicro} {v : VMicro} (hr : RelMicro w.mem r v) (hm : r.Models w.objs.length) :
    ∃ x, v.load h = some x ∧ RelMS ⟨w, r⟩ h x := by
  have hl := hw.length
  obtain ⟨o, ho⟩ : ∃ o, h[v.model]? = some o := ⟨_, List.getElem?_eq_getElem (by rw [hr.model, hl]; exact hm.model)⟩
  rcases e : v.kind.exc with _ | j
  · refine ⟨⟨v.oversample, v.psfParams, v.pixelSize, .hanser o, v.kind.map fun _ => .hanser o, v.psf, v.otf⟩, ?_, hw, hr.over, hr.par, hr.pix, ⟨_, ?_, rfl⟩, ?_, fun j hj => ?_,
      hm.ne, hr.psf, hr.otf⟩
    · simp only [VMicro.load, ho, e]; rfl
    · rw [← hr.model]; exact ho
    · simp only [Kind.map_map, hr.kind]
    · rw [hr.kind] at e; simp only [e] at hj; cases hj
  · obtain ⟨x, hj'⟩ : ∃ x, h[j]? = some x := ⟨_, List.getElem?_eq_getElem (by rw [hl]; exact hm.exc j (by rw [← hr.kind]; exact e))⟩
    refine ⟨⟨v.oversample, v.psfParams, v.pixelSize, .hanser o, v.kind.map fun _ => .hanser x, v.psf, v.otf⟩, ?_, hw, hr.over, hr.par, hr.pix, ⟨_, ?_, rfl⟩, ?_, fun i hi => ?_,
      hm.ne, hr.psf, hr.otf⟩
    · simp only [VMicro.load, ho, e, hj']; rfl
    · rw [← hr.model]; exact ho
    · simp only [Kind.map_map, hr.kind]
    · have : i = j := by rw [hr.kind] at e; simp only [e] at hi; exact (Option.some.inj hi).symm
      subst this
      exact ⟨_, hj', by simp only [Kind.exc_map, e]; rfl⟩

theorem store_rel {w : World} {h h' : Heap} {r : RMicro} {v : VMicro} (hr : RelMicro w.mem r v) (hl : r.Models h.length) {s' : MState} {m' : Micro} (h1 : RelMS s' h' m') (h2 : r.Same h h')
    (h3 : s'.self.model = r.model ∧ s'.self.kind.exc = r.kind.exc) : v.models h m' = h' ∧ RelMicro s'.world.mem s'.self (v.slot m') := by
  obtain ⟨o, ho, hm⟩ := h1.model
  rw [h3.1] at ho
  constructor
  · apply List.ext_getElem?
    intro i
    rcases e : r.kind.exc with _ | j
    · have : v.models h m' = h.set r.model o := by
        simp only [VMicro.models, hm, hr.kind, e, hr.model]
      rw [this]
      by_cases hi : i = r.model
      · subst hi; rw [List.getElem?_set_self hl.model, ho]
      · rw [List.getElem?_set_ne (Ne.symm hi), h2.2 i hi (by rw [e]; simp)]
    · obtain ⟨x, hx, hx'⟩ := h1.exc j (by rw [h3.2, e])
      have : v.models h m' = (h.set r.model o).set j x := by
        simp only [VMicro.models, hm, hr.kind, e, hr.model, hx']
      rw [this]
      by_cases hj : i = j
      · subst hj; rw [List.getElem?_set_self (by simpa using hl.exc i e), hx]
      · rw [List.getElem?_set_ne (Ne.symm hj)]
        by_cases hi : i = r.model
        · subst hi; rw [List.getElem?_set_self hl.model, ho]
        · rw [List.getElem?_set_ne (Ne.symm hi), h2.2 i hi (by rw [e]; intro q; exact hj (Option.some.inj q).symm)]
  · refine ⟨h1.over, h1.par, h1.pix, hr.model.trans h3.1.symm, ?_, h1.psf, h1.otf⟩
    have : (v.slot m').kind = (m'.kind.map fun _ => ()).map fun _ => v.kind.exc.getD 0 := by
      simp only [VMicro.slot, Kind.map_map]; rfl
    rw [this, h1.kind, Kind.map_map]
    refine Kind.map_id _ _ fun j hj => ?_
    rw [h3.2, ← hr.kind] at hj
    simp [hj]

/-- A method call on a microscope. -/
theorem RelM.call {s : MRProg} {t : MVProg} (h : RelM s t) (i : ℕ) {α β : Type} {c : Mem → α → β → Prop} {f : PyM MState α} {g : PyM Micro β}
    (hf : ∀ {s h m}, RelMS s h m → SimM s h m c f g) :
    Match (c (s.onMicro i f).2.1.mem) (s.onMicro i f).1 (t.onMicro i g).1 ∧ RelW (s.onMicro i f).2.1 (t.onMicro i g).2.1 ∧
      s.prog.world.mem.Ext (s.onMicro i f).2.1.mem ∧
      List.Forall₂ (RelMicro (s.onMicro i f).2.1.mem) (s.onMicro i f).2.2 (t.onMicro i g).2.2 ∧
      ∀ m ∈ (s.onMicro i f).2.2, m.Models (s.onMicro i f).2.1.objs.length := by
  rcases forall₂_get h.micros i with ⟨e, e'⟩ | ⟨r, v, e, e', hrv⟩
  · simp only [MRProg.onMicro, MVProg.onMicro, e, e']
    exact ⟨rfl, h.prog.world, Mem.Ext.refl _, h.micros, h.models⟩
  · have hmod := h.models r (List.mem_of_getElem? e)
    obtain ⟨x, hx, hrel⟩ := load_rel h.prog.world hrv hmod
    obtain ⟨⟨h', h1, h2⟩, h3, h4, h5⟩ := hf hrel
    have hl := h.prog.world.length
    obtain ⟨q1, q2⟩ := store_rel hrv (by rw [hl]; exact hmod) h1 h2 h4
    have hlen : s.prog.world.objs.length = (f ⟨s.prog.world, r⟩).2.world.objs.length := by
      rw [← h1.world.length, h2.1, hl]
    simp only [MRProg.onMicro, MVProg.onMicro, e, e', hx]
    refine ⟨h5, by rw [q1]; exact h1.world, h3, ?_, fun m hm => ?_⟩
    · rw [List.forall₂_iff_get]
      obtain ⟨l1, l2⟩ := List.forall₂_iff_get.mp h.micros
      refine ⟨by simp [l1], fun n hn hn' => ?_⟩
      simp only [List.get_eq_getElem]
      by_cases hni : n = i
      · subst hni; simp only [List.getElem_set_self]; exact q2
      · rw [List.getElem_set_ne (Ne.symm hni), List.getElem_set_ne (Ne.symm hni)]
        exact (l2 n (by simpa using hn) (by simpa using hn')).ext h3
    · rw [← hlen]
      rcases List.mem_or_eq_of_mem_set hm with hm | rfl
      · exact h.models m hm
      · exact ⟨by rw [h4.1]; exact hmod.model, fun j hj => hmod.exc j (by rw [← h4.2]; exact hj), by rw [h4.1, h4.2]; exact hmod.ne⟩

theorem RelM.seeR {s : MRProg} {t : MVProg} (h : RelM s t) (i : ℕ) {f : PyM MState ℕ} {g : PyM Micro (Arr ℝ)}
    (hf : ∀ {s h m}, RelMS s h m → SimM s h m (fun w r b => w.real[r]? = some b) f g) :
    (s.seeR (s.onMicro i f)).1 = (t.seeR (t.onMicro i g)).1 ∧ RelM (s.seeR (s.onMicro i f)).2 (t.seeR (t.onMicro i g)).2 ∧
      s.prog.world.mem.Ext (s.seeR (s.onMicro i f)).2.prog.world.mem := by
  obtain ⟨h1, h2, h3, h4, h5⟩ := h.call i hf
  rcases e : s.onMicro i f with ⟨r, w, ms⟩
  rcases e' : t.onMicro i g with ⟨r', hp, ms'⟩
  rw [e] at h1 h2 h3 h4 h5
  rw [e'] at h1 h2 h4
  have hh := h.prog.run h2 h3
  match r, r', h1 with
  | .error x, .error y, h1 =>
    obtain rfl : x = y := h1
    exact ⟨rfl, ⟨hh, h4, h5⟩, h3⟩
  | .ok a, .ok b, h1 =>
    have h1 : w.mem.real[a]? = some b := h1
    refine ⟨by simp [MRProg.seeR, MVProg.seeR, RProg.seeR, VProg.seeR, h1], ⟨⟨h2, hh.c, forall₂_push hh.r h1, hh.z⟩, h4, h5⟩, h3⟩

theorem RelM.seeC {s : MRProg} {t : MVProg} (h : RelM s t) (i : ℕ) {f : PyM MState ℕ} {g : PyM Micro (Arr ℂ)}
    (hf : ∀ {s h m}, RelMS s h m → SimM s h m (fun w r b => w.cplx[r]? = some b) f g) :
    (s.seeC (s.onMicro i f)).1 = (t.seeC (t.onMicro i g)).1 ∧ RelM (s.seeC (s.onMicro i f)).2 (t.seeC (t.onMicro i g)).2 ∧
      s.prog.world.mem.Ext (s.seeC (s.onMicro i f)).2.prog.world.mem := by
  obtain ⟨h1, h2, h3, h4, h5⟩ := h.call i hf
  rcases e : s.onMicro i f with ⟨r, w, ms⟩
  rcases e' : t.onMicro i g with ⟨r', hp, ms'⟩
  rw [e] at h1 h2 h3 h4 h5
  rw [e'] at h1 h2 h4
  have hh := h.prog.run h2 h3
  match r, r', h1 with
  | .error x, .error y, h1 =>
    obtain rfl : x = y := h1
    exact ⟨rfl, ⟨hh, h4, h5⟩, h3⟩
  | .ok a, .ok b, h1 =>
    have h1 : w.mem.cplx[a]? = some b := h1
    refine ⟨by simp [MRProg.seeC, MVProg.seeC, RProg.seeC, VProg.seeC, h1], ⟨⟨h2, forall₂_push hh.c h1, hh.r, hh.z⟩, h4, h5⟩, h3⟩

theorem RelM.ran {s : MRProg} {t : MVProg} (h : RelM s t) (i : ℕ) {f : PyM MState Unit} {g : PyM Micro Unit}
    (hf : ∀ {s h m}, RelMS s h m → SimM s h m (fun _ _ _ => True) f g) :
    (s.ran (s.onMicro i f)).1 = (t.ran (t.onMicro i g)).1 ∧ RelM (s.ran (s.onMicro i f)).2 (t.ran (t.onMicro i g)).2 ∧
      s.prog.world.mem.Ext (s.ran (s.onMicro i f)).2.prog.world.mem := by
  obtain ⟨h1, h2, h3, h4, h5⟩ := h.call i hf
  rcases e : s.onMicro i f with ⟨r, w, ms⟩
  rcases e' : t.onMicro i g with ⟨r', hp, ms'⟩
  rw [e] at h1 h2 h3 h4 h5
  rw [e'] at h1 h2 h4
  have hh := h.prog.run h2 h3
  match r, r', h1 with
  | .error x, .error y, h1 =>
    obtain rfl : x = y := h1
    exact ⟨rfl, ⟨hh, h4, h5⟩, h3⟩
  | .ok a, .ok b, h1 => exact ⟨rfl, ⟨hh, h4, h5⟩, h3⟩

/-! ## Models are never lost -/

theorem onObj_length {α : Type} (k : ℕ) (f : PyM RState α) (w : World) : (World.onObj k f w).2.objs.length = w.objs.length := by
  unfold World.onObj
  rcases w.objs[k]? with _ | o
  · rfl
  · simp

theorem new_length (a : InitArgs) (z : ZGiven) (w : World) : w.objs.length ≤ (World.new a z w).2.objs.length := by
  unfold World.new
  rcases construct (A := ℕ) (I := ℕ) (hanserInit a (z.content w.mem)) with e | o
  · exact le_rfl
  · cases z <;> simp

theorem copy_length (k : ℕ) (w : World) : w.objs.length ≤ (World.copy k w).2.objs.length := by
  unfold World.copy
  rcases w.objs[k]? with _ | o
  · exact le_rfl
  · simp

theorem aberrate_length (k : ℕ) (m p : Option (List ℝ)) (w : World) : w.objs.length ≤ (World.applyAberration k m p w).2.objs.length := by
  simp only [World.applyAberration, PyM.bind_apply]
  have h0 := copy_length k w
  rcases e : World.copy k w with ⟨r, w'⟩
  rw [e] at h0
  rcases r with x | j
  · exact h0
  · rcases fillCoefs m p with _ | ⟨m, ph⟩
    · exact h0
    · simp only [PyM.bind_apply]
      have h1 := onObj_length j (do PyM.lift (aberratedPupil (← PyM.get).params m ph)) w'
      rcases e1 : World.onObj j (do PyM.lift (aberratedPupil (← PyM.get).params m ph)) w' with ⟨r1, w1⟩
      rw [e1] at h1
      simp only [e1] at *
      rcases r1 with x | P
      · exact h0.trans h1.ge
      · have h2 := onObj_length j (RState.applyPupil P) w1
        rcases e2 : World.onObj j (RState.applyPupil P) w1 with ⟨r2, w2⟩
        rw [e2] at h2
        simp only [e2] at *
        rcases r2 with x | P
        · exact h0.trans (h1.ge.trans h2.ge)
        · exact h0.trans (h1.ge.trans h2.ge)

theorem seeC_world (s : RProg) (x : Py ℕ × World) : (s.seeC x).2.world = x.2 := by rcases x with ⟨e | p, w⟩ <;> rfl
theorem seeR_world (s : RProg) (x : Py ℕ × World) : (s.seeR x).2.world = x.2 := by rcases x with ⟨e | p, w⟩ <;> rfl
theorem seeZ_world (s : RProg) (x : Py ℕ × World) : (s.seeZ x).2.world = x.2 := by rcases x with ⟨e | p, w⟩ <;> rfl

theorem step_length (s : RProg) (st : Stmt) : s.world.objs.length ≤ (s.step st).2.world.objs.length := by
  cases st with
  | planes z => exact le_rfl
  | pupil P => exact le_rfl
  | new a z => exact new_length _ _ _
  | newWith a x =>
    simp only [RProg.step]
    rcases s.z[x]? with _ | p
    · exact le_rfl
    · exact new_length _ _ _
  | set k a v => exact (onObj_length _ _ _).ge
  | setZrange k z => exact (onObj_length _ _ _).ge
  | setZrangeVar k x =>
    simp only [RProg.step]
    rcases s.z[x]? with _ | p
    · exact le_rfl
    · exact (onObj_length _ _ _).ge
  | applyPupil k x =>
    simp only [RProg.step]
    rcases s.c[x]? with _ | p
    · exact le_rfl
    · exact (onObj_length _ _ _).ge
  | aberrate k m p => exact aberrate_length _ _ _ _
  | zrange k => simp only [RProg.step, seeZ_world]; exact (onObj_length _ _ _).ge
  | PSFa k => simp only [RProg.step, seeC_world]; exact (onObj_length _ _ _).ge
  | OTFa k => simp only [RProg.step, seeC_world]; exact (onObj_length _ _ _).ge
  | PSFi k => simp only [RProg.step, seeR_world]; exact (onObj_length _ _ _).ge
  | OTFi k => simp only [RProg.step, seeC_world]; exact (onObj_length _ _ _).ge
  | writeC x idx v => rcases step_write (s := s) (st := .writeC x idx v) trivial with e | ⟨p, a, e⟩ | ⟨p, a, e⟩ | ⟨p, a, e⟩ <;> rw [e]
  | writeR x idx v => rcases step_write (s := s) (st := .writeR x idx v) trivial with e | ⟨p, a, e⟩ | ⟨p, a, e⟩ | ⟨p, a, e⟩ <;> rw [e]
  | writeZ x i v => rcases step_write (s := s) (st := .writeZ x i v) trivial with e | ⟨p, a, e⟩ | ⟨p, a, e⟩ | ⟨p, a, e⟩ <;> rw [e]

end PyOTF
