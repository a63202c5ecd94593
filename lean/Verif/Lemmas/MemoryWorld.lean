import Verif.Lemmas.Memory

/-!
# Client programs by reference and with values: the simulation
-/

namespace PyOTF

/-! ## Models in memory -/

/-- The heap of values shows what the world holds. -/
structure RelW (w : World) (h : Heap) : Prop where
  objs : h = w.objs.map (·.view w.mem)
  valid : ∀ o ∈ w.objs, o.Valid w.mem

/-- Arrays the models keep in `w'` are those models kept in `w`, and new ones. -/
def KeptW (w w' : World) : Prop := (∀ p, (∃ o ∈ w'.objs, o.HoldsC p) → (∃ o ∈ w.objs, o.HoldsC p) ∨ w.mem.cplx.length ≤ p) ∧
  (∀ p, (∃ o ∈ w'.objs, o.obj.psfi = some p) → (∃ o ∈ w.objs, o.obj.psfi = some p) ∨ w.mem.real.length ≤ p)

theorem KeptW.refl (w : World) : KeptW w w := ⟨fun _ h => .inl h, fun _ h => .inl h⟩

theorem KeptW.trans {a b c : World} (h : KeptW a b) (h' : KeptW b c) (he : a.mem.Ext b.mem) : KeptW a c :=
  ⟨fun r hr => (h'.1 r hr).elim (h.1 r) fun x => .inr (he.lengths.1.trans x), fun r hr => (h'.2 r hr).elim (h.2 r) fun x => .inr (he.lengths.2.1.trans x)⟩

structure SimW {α β : Type} (w : World) (h : Heap) (c : World → α → β → Prop) (m : PyM World α) (m' : PyM Heap β) : Prop where
  rel : RelW (m w).2 (m' h).2
  ext : w.mem.Ext (m w).2.mem
  held : KeptW w (m w).2
  out : Match (c (m w).2) (m w).1 (m' h).1

theorem SimW.bind {α β α' β' : Type} {w : World} {h : Heap} {c : World → α → β → Prop} {d : World → α' → β' → Prop} {m : PyM World α} {m' : PyM Heap β}
    {f : α → PyM World α'} {f' : β → PyM Heap β'} (hm : SimW w h c m m')
    (hf : ∀ a b, (m w).1 = .ok a → (m' h).1 = .ok b → c (m w).2 a b → RelW (m w).2 (m' h).2 → SimW (m w).2 (m' h).2 d (f a) (f' b)) :
    SimW w h d (m >>= f) (m' >>= f') := by
  obtain ⟨h1, h2, h3, h4⟩ := hm
  rcases e : m w with ⟨r, s'⟩
  rcases e' : m' h with ⟨r', o'⟩
  rw [e] at h1 h2 h3 h4 hf
  rw [e'] at h1 h4 hf
  simp only at h1 h2 h3 h4 hf
  match r, r', h4 with
  | .error x, .error y, h4 =>
    have hxy : x = y := h4
    subst hxy
    have q : (m >>= f) w = (.error x, s') := by rw [PyM.bind_apply, e]
    have q' : (m' >>= f') h = (.error x, o') := by rw [PyM.bind_apply, e']
    exact ⟨by rw [q, q']; exact h1, by rw [q]; exact h2, by rw [q]; exact h3, by rw [q, q']; exact rfl⟩
  | .ok a, .ok b, h4 =>
    have q : (m >>= f) w = f a s' := by rw [PyM.bind_apply, e]
    have q' : (m' >>= f') h = f' b o' := by rw [PyM.bind_apply, e']
    obtain ⟨g1, g2, g3, g4⟩ := hf a b rfl rfl h4 h1
    exact ⟨by rw [q, q']; exact g1, by rw [q]; exact h2.trans g2, by rw [q]; exact h3.trans g3 h2, by rw [q, q']; exact g4⟩

theorem RelW.get {w : World} {h : Heap} (hw : RelW w h) (k : ℕ) : h[k]? = (w.objs[k]?).map (·.view w.mem) := by
  rw [hw.objs, List.getElem?_map]

theorem SimW.onObj {α β : Type} {w : World} {h : Heap} (hw : RelW w h) (k : ℕ) {c : Mem → α → β → Prop} {m : PyM RState α} {m' : PyM HObj β}
    (hm : ∀ o, w.objs[k]? = some o → SimAt ⟨w.mem, o⟩ c m m') : SimW w h (fun v => c v.mem) (World.onObj k m) (onRef k m') := by
  have hg := hw.get k
  rcases e : w.objs[k]? with _ | o
  · rw [e] at hg
    have q : World.onObj k m w = (.error .runtimeError, w) := by simp only [World.onObj, e]
    have q' : onRef k m' h = (.error .runtimeError, h) := by simp only [onRef, hg, Option.map_none]
    exact ⟨by rw [q, q']; exact hw, by rw [q]; exact Mem.Ext.refl _, by rw [q]; exact KeptW.refl _, by rw [q, q']; exact rfl⟩
  · rw [e, Option.map_some] at hg
    obtain ⟨h1, h2, h3, h5, h4⟩ := hm o e
    have q : World.onObj k m w = ((m ⟨w.mem, o⟩).1, ⟨(m ⟨w.mem, o⟩).2.mem, w.objs.set k (m ⟨w.mem, o⟩).2.self⟩) := by simp only [World.onObj, e]
    have q' : onRef k m' h = ((m' (o.view w.mem)).1, h.set k (m' (o.view w.mem)).2) := by simp only [onRef, hg]
    refine ⟨?_, by rw [q]; exact h2, ?_, by rw [q, q']; exact h4⟩
    · rw [q, q']
      constructor
      · simp only at h3
        have e2 : w.objs.map (·.view w.mem) = w.objs.map (·.view (m ⟨w.mem, o⟩).2.mem) :=
          List.map_congr_left fun o' ho' => (view_ext (hw.valid o' ho') h2).symm
        show h.set k (m' (o.view w.mem)).2 = (w.objs.set k (m ⟨w.mem, o⟩).2.self).map (·.view (m ⟨w.mem, o⟩).2.mem)
        rw [h3, hw.objs, List.map_set, e2]
      · intro o' ho'
        rcases List.mem_or_eq_of_mem_set ho' with ho' | rfl
        · exact (hw.valid o' ho').ext h2
        · exact h1
    · rw [q]
      have hmem := List.mem_of_getElem? e
      constructor
      · rintro p ⟨o', ho', hp⟩
        rcases List.mem_or_eq_of_mem_set ho' with ho' | rfl
        · exact .inl ⟨o', ho', hp⟩
        · exact (h5.1 p hp).imp (fun x => ⟨o, hmem, x⟩) id
      · rintro p ⟨o', ho', hp⟩
        rcases List.mem_or_eq_of_mem_set ho' with ho' | rfl
        · exact .inl ⟨o', ho', hp⟩
        · exact (h5.2 p hp).imp (fun x => ⟨o, hmem, x⟩) id

theorem SimW.copy {w : World} {h : Heap} (hw : RelW w h) (k : ℕ) : SimW w h (fun _ a b => a = b) (World.copy k) (copyRef k) := by
  have hg := hw.get k
  rcases e : w.objs[k]? with _ | o
  · rw [e] at hg
    have q : World.copy k w = (.error .runtimeError, w) := by simp only [World.copy, e]
    have q' : copyRef k h = (.error .runtimeError, h) := by simp only [copyRef, hg, Option.map_none]
    exact ⟨by rw [q, q']; exact hw, by rw [q]; exact Mem.Ext.refl _, by rw [q]; exact KeptW.refl _, by rw [q, q']; exact rfl⟩
  · rw [e, Option.map_some] at hg
    have q : World.copy k w = (.ok w.objs.length, { w with objs := w.objs ++ [o] }) := by simp only [World.copy, e]
    have q' : copyRef k h = (.ok h.length, h ++ [o.view w.mem]) := by simp only [copyRef, hg]
    have hmem := List.mem_of_getElem? e
    refine ⟨?_, by rw [q]; exact Mem.Ext.refl _, ?_, by rw [q, q']; simp [Match, hw.objs]⟩
    · rw [q, q']
      refine ⟨by simp [hw.objs], fun o' ho' => ?_⟩
      rcases List.mem_append.mp ho' with ho' | ho'
      · exact hw.valid o' ho'
      · rw [List.mem_singleton.mp ho']; exact hw.valid o hmem
    · rw [q]
      constructor <;>
      · rintro p ⟨o', ho', hp⟩
        rcases List.mem_append.mp ho' with ho' | ho'
        · exact .inl ⟨o', ho', hp⟩
        · rw [List.mem_singleton.mp ho'] at hp
          exact .inl ⟨o, hmem, hp⟩

theorem SimW.applyAberration {w : World} {h : Heap} (hw : RelW w h) (k : ℕ) (m p : Option (List ℝ)) :
    SimW w h (fun _ a b => a = b) (World.applyAberration k m p) (PyOTF.applyAberration k m p) := by
  refine SimW.bind (SimW.copy hw k) fun j j' _ _ (hj : j = j') hw' => ?_
  subst hj
  rcases fillCoefs m p with _ | ⟨m, ph⟩
  · exact ⟨hw', Mem.Ext.refl _, KeptW.refl _, rfl⟩
  · refine SimW.bind (c := fun _ a b => a = b) (SimW.onObj (c := fun _ a b => a = b) hw' j fun o ho => ?_) fun P P' _ _ (hP : P = P') hw'' => ?_
    · refine SimAt.bind (SimAt.get (hw'.valid o (List.mem_of_getElem? ho))) fun a b _ _ hab hv' => ?_
      obtain ⟨rfl, rfl⟩ := hab
      rw [params_view]
      exact SimAt.lift hv' _ fun _ => rfl
    · subst hP
      refine SimW.bind (c := fun _ _ _ => True) (SimW.onObj (c := fun _ _ _ => True) hw'' j fun o ho => sim_applyPupil (hw''.valid o (List.mem_of_getElem? ho)) P)
        fun _ _ _ _ _ hw3 => ?_
      exact ⟨hw3, Mem.Ext.refl _, KeptW.refl _, rfl⟩

/-! ## Construction -/

/-- The same statement on an object without cached arrays, whatever the caches are made of. -/
def Par {α : Type} (m : PyM (Obj ℕ ℕ) α) (m' : PyM HObj α) : Prop :=
  ∀ p : Params, ∃ r q, m { params := p } = (r, { params := q }) ∧ m' { params := p } = (r, { params := q })

theorem Par.bind {α β : Type} {m : PyM (Obj ℕ ℕ) α} {m' : PyM HObj α} {f : α → PyM (Obj ℕ ℕ) β} {f' : α → PyM HObj β} (h : Par m m') (hf : ∀ a, Par (f a) (f' a)) :
    Par (m >>= f) (m' >>= f') := by
  intro p
  obtain ⟨r, q, h1, h2⟩ := h p
  rw [PyM.bind_apply, PyM.bind_apply, h1, h2]
  rcases r with e | a
  · exact ⟨_, q, rfl, rfl⟩
  · exact hf a q

theorem Par.seq {β : Type} {m : PyM (Obj ℕ ℕ) Unit} {m' : PyM HObj Unit} {f : PyM (Obj ℕ ℕ) β} {f' : PyM HObj β} (h : Par m m') (hf : Par f f') :
    Par (m >>= fun _ => f) (m' >>= fun _ => f') := h.bind fun _ => hf

theorem par_pure {α : Type} (a : α) : Par (pure a) (pure a) := fun p => ⟨_, p, rfl, rfl⟩
theorem par_raise {α : Type} (e : Err) : Par (PyM.raise e : PyM (Obj ℕ ℕ) α) (PyM.raise e) := fun p => ⟨_, p, rfl, rfl⟩
theorem par_lift {α : Type} (x : Py α) : Par (PyM.lift x) (PyM.lift x) := fun p => ⟨_, p, rfl, rfl⟩
theorem par_self {α : Type} (f : Params → Option α) : Par (PyOTF.self f) (PyOTF.self f) := fun p => ⟨_, p, rfl, rfl⟩
theorem par_store (f : Params → Params) : Par (store f) (store f) := fun p => ⟨_, f p, rfl, rfl⟩
theorem par_changed : Par attributeChanged attributeChanged := fun p => ⟨_, p, rfl, rfl⟩

theorem Par.ignore {m : PyM (Obj ℕ ℕ) Unit} {m' : PyM HObj Unit} {e : Err} (h : Par m m') : Par (PyM.ignore e m) (PyM.ignore e m') := by
  intro p
  obtain ⟨r, q, h1, h2⟩ := h p
  simp only [PyM.ignore, h1, h2]
  rcases r with x | x
  · by_cases hx : x = e
    · simp only [hx, if_true]; exact ⟨_, q, rfl, rfl⟩
    · simp only [hx, if_false]; exact ⟨_, q, rfl, rfl⟩
  · exact ⟨_, q, rfl, rfl⟩

theorem par_numeric (isV : PyVal → Bool) (rd : Params → Option PyVal) (wr : PyVal → Params → Params) (v : PyVal) : Par (setNumeric isV rd wr v) (setNumeric isV rd wr v) := by
  intro p
  rw [setNumeric_run, setNumeric_run]
  rcases numericSet isV (rd p) v with e | _ | w
  · exact ⟨_, p, rfl, rfl⟩
  · exact ⟨_, p, rfl, rfl⟩
  · exact ⟨_, _, rfl, rfl⟩

theorem par_setZrange (z : ZArg) : Par (setZrange z) (setZrange z) := (par_store _).seq par_changed

theorem par_genZrange : Par genZrange genZrange :=
  (par_self _).bind fun _ => (par_self _).bind fun _ => (par_lift _).bind fun _ => par_setZrange _

theorem par_zresBase (v : PyVal) : Par (setZresBase v) (setZresBase v) := by
  refine (par_lift _).bind fun x => ?_
  by_cases hx : (!PyFloat.lt (.fin 0) x) = true
  · simp only [hx, if_true]; exact par_raise _
  · simp only [hx]; exact (par_store _).seq par_changed

theorem par_res (v : PyVal) : Par (setRes v) (setRes v) := by
  refine (par_self _).bind fun na => (par_lift _).bind fun na' => (par_self _).bind fun wl => (par_lift _).bind fun wl' => (par_lift _).bind fun q =>
    (par_lift _).bind fun ab => (par_lift _).bind fun x => ?_
  by_cases hx : PyFloat.ge x ab = true
  · simp only [hx, if_true]; exact par_raise _
  · simp only [hx]; exact (par_store _).seq par_changed

theorem par_setAttr (a : Attr) (v : PyVal) : Par (setAttr .hanser a v) (setAttr .hanser a v) := by
  cases a
  · exact par_numeric _ _ _ _
  · exact par_numeric _ _ _ _
  · exact par_numeric _ _ _ _
  · exact par_numeric _ _ _ _
  · exact (par_numeric _ _ _ _).seq par_genZrange.ignore
  · exact par_res v
  · exact (par_zresBase v).seq par_genZrange.ignore
  · exact (par_lift _).bind fun _ => (par_store _).seq par_changed
  · exact (par_lift _).bind fun _ => (par_store _).seq par_changed
  · exact par_pure _

theorem par_init (a : InitArgs) (z : Option ZArg) : Par (hanserInit a z) (hanserInit a z) := by
  refine Par.seq ?_ ?_
  · exact (par_setAttr _ _).seq <| (par_setAttr _ _).seq <| (par_setAttr _ _).seq <| (par_setAttr _ _).seq <| (par_setAttr _ _).seq <| (par_setAttr _ _).seq <|
      (par_setAttr _ _).seq <| (par_setAttr _ _).seq <| par_setAttr _ _
  · rcases z with _ | z
    · exact par_genZrange
    · exact par_setZrange z

/-- The constructor gives the same attributes and no cached arrays. -/
theorem construct_par (a : InitArgs) (z : Option ZArg) : (∃ q, construct (A := ℕ) (I := ℕ) (hanserInit a z) = .ok { params := q } ∧ HObj.new a z = .ok { params := q }) ∨
    ∃ e, construct (A := ℕ) (I := ℕ) (hanserInit a z) = .error e ∧ HObj.new a z = .error e := by
  obtain ⟨r, q, h1, h2⟩ := par_init a z {}
  rcases r with e | u
  · exact .inr ⟨e, by simp only [construct, h1], by simp only [HObj.new, construct, h2]⟩
  · exact .inl ⟨q, by simp only [construct, h1], by simp only [HObj.new, construct, h2]⟩

theorem new_zrange {a : InitArgs} {z : Option ZArg} {o : HObj} (h : HObj.new a z = .ok o) : ∃ l, o.params.zrange = some l ∧ ∀ y, z = some y → l = y.toList := by
  obtain ⟨l, x, z', vc, cd, hh⟩ := (hanser_new_iff a z o).mp h
  rcases z with _ | y
  · obtain ⟨-, -, -, -, -, -, -, -, -, -, -, -, rfl⟩ := hh
    exact ⟨_, rfl, by simp⟩
  · obtain ⟨-, -, -, -, -, -, -, -, -, -, -, -, rfl⟩ := hh
    exact ⟨_, rfl, by intro y hy; cases hy; rfl⟩

/-! ## One statement of a program -/

theorem RelW.alloc {w : World} {h : Heap} (hw : RelW w h) {m : Mem} (he : w.mem.Ext m) : RelW { w with mem := m } h :=
  ⟨by rw [hw.objs]; exact List.map_congr_left fun o ho => (view_ext (hw.valid o ho) he).symm, fun o ho => (hw.valid o ho).ext he⟩

theorem RelW.push {w : World} {h : Heap} (hw : RelW w h) {o : RObj} (ho : o.Valid w.mem) : RelW { w with objs := w.objs ++ [o] } (h ++ [o.view w.mem]) := by
  refine ⟨by simp [hw.objs], fun o' ho' => ?_⟩
  rcases List.mem_append.mp ho' with ho' | ho'
  · exact hw.valid o' ho'
  · rw [List.mem_singleton.mp ho']; exact ho

theorem KeptW.push {w : World} {m : Mem} {p : Params} {z : ℕ} : KeptW w { mem := m, objs := w.objs ++ [⟨{ params := p }, z⟩] } := by
  constructor <;>
  · rintro q ⟨o', ho', hp⟩
    rcases List.mem_append.mp ho' with ho' | ho'
    · exact .inl ⟨o', ho', hp⟩
    · rw [List.mem_singleton.mp ho'] at hp
      simp [RObj.HoldsC] at hp

theorem SimW.new {w : World} {h : Heap} (hw : RelW w h) (a : InitArgs) (z : Option ZArg) :
    SimW w h (fun _ a b => a = b) (World.new a (.ofOption z)) (VProg.newObj a z) := by
  rcases construct_par a z with ⟨q, h1, h2⟩ | ⟨e, h1, h2⟩
  · obtain ⟨l, hl, -⟩ := new_zrange h2
    have he := ext_allocZ w.mem l
    have q1 : World.new a (.ofOption z) w =
        (.ok w.objs.length, { mem := { w.mem with axis := w.mem.axis ++ [l] }, objs := w.objs ++ [⟨{ params := q }, w.mem.axis.length⟩] }) := by
      simp only at hl
      rcases z with _ | z <;> simp only [World.new, ZGiven.ofOption, ZGiven.content, h1, hl, Option.getD_some]
    have q2 : VProg.newObj a z h = (.ok h.length, h ++ [{ params := q }]) := by simp only [VProg.newObj, h2]
    have hv : RObj.Valid { w.mem with axis := w.mem.axis ++ [l] } ⟨{ params := q }, w.mem.axis.length⟩ :=
      ⟨⟨l, by simp⟩, by simp, by simp, by simp, by simp⟩
    refine ⟨?_, by rw [q1]; exact he, by rw [q1]; exact KeptW.push, by rw [q1, q2]; simp [Match, hw.objs]⟩
    rw [q1, q2]
    have := (hw.alloc he).push hv
    have hview : RObj.view { w.mem with axis := w.mem.axis ++ [l] } ⟨{ params := q }, w.mem.axis.length⟩ = { params := q } := by
      simp only at hl
      simp [RObj.view, ← hl]
    rw [hview] at this
    exact this
  · have q1 : World.new a (.ofOption z) w = (.error e, w) := by
      rcases z with _ | z <;> simp only [World.new, ZGiven.ofOption, ZGiven.content, h1]
    have q2 : VProg.newObj a z h = (.error e, h) := by simp only [VProg.newObj, h2]
    exact ⟨by rw [q1, q2]; exact hw, by rw [q1]; exact Mem.Ext.refl _, by rw [q1]; exact KeptW.refl _, by rw [q1, q2]; exact rfl⟩

theorem SimW.newWith {w : World} {h : Heap} (hw : RelW w h) (a : InitArgs) {p : ℕ} {z : List PyFloat} (hp : w.mem.axis[p]? = some z) :
    SimW w h (fun _ a b => a = b) (World.new a (.array p)) (VProg.newObj a (some (.seq z))) := by
  have hz : w.mem.axis.getD p [] = z := by rw [List.getD_eq_getElem?_getD, hp]; rfl
  rcases construct_par a (some (.seq z)) with ⟨q, h1, h2⟩ | ⟨e, h1, h2⟩
  · obtain ⟨l, hl, hl'⟩ := new_zrange h2
    obtain rfl : l = z := hl' _ rfl
    have q1 : World.new a (.array p) w = (.ok w.objs.length, { w with objs := w.objs ++ [⟨{ params := q }, p⟩] }) := by
      simp only [World.new, ZGiven.content, hz, h1]
    have q2 : VProg.newObj a (some (.seq l)) h = (.ok h.length, h ++ [{ params := q }]) := by simp only [VProg.newObj, h2]
    have hv : RObj.Valid w.mem ⟨{ params := q }, p⟩ := ⟨⟨l, hp⟩, by simp, by simp, by simp, by simp⟩
    refine ⟨?_, by rw [q1]; exact Mem.Ext.refl _, by rw [q1]; exact KeptW.push, by rw [q1, q2]; simp [Match, hw.objs]⟩
    rw [q1, q2]
    have := hw.push hv
    have hview : RObj.view w.mem ⟨{ params := q }, p⟩ = { params := q } := by
      simp only at hl
      simp [RObj.view, hp, ← hl]
    rw [hview] at this
    exact this
  · have q1 : World.new a (.array p) w = (.error e, w) := by simp only [World.new, ZGiven.content, hz, h1]
    have q2 : VProg.newObj a (some (.seq z)) h = (.error e, h) := by simp only [VProg.newObj, h2]
    exact ⟨by rw [q1, q2]; exact hw, by rw [q1]; exact Mem.Ext.refl _, by rw [q1]; exact KeptW.refl _, by rw [q1, q2]; exact rfl⟩

/-- Program states correspond. -/
structure RelP (s : RProg) (t : VProg) : Prop where
  world : RelW s.world t.objs
  c : List.Forall₂ (fun p a => s.world.mem.cplx[p]? = some a) s.c t.c
  r : List.Forall₂ (fun p a => s.world.mem.real[p]? = some a) s.r t.r
  z : List.Forall₂ (fun p a => s.world.mem.axis[p]? = some a) s.z t.z

theorem RelP.run {s : RProg} {t : VProg} (h : RelP s t) {w : World} {hp : Heap} (hw : RelW w hp) (he : s.world.mem.Ext w.mem) :
    RelP { s with world := w } { t with objs := hp } :=
  ⟨hw, h.c.imp fun _ _ x => he.cplx _ _ x, h.r.imp fun _ _ x => he.real _ _ x, h.z.imp fun _ _ x => he.axis _ _ x⟩

theorem forall₂_get {α β : Type} {R : α → β → Prop} {l : List α} {l' : List β} (h : List.Forall₂ R l l') (x : ℕ) :
    (l[x]? = none ∧ l'[x]? = none) ∨ ∃ a b, l[x]? = some a ∧ l'[x]? = some b ∧ R a b := by
  induction h generalizing x with
  | nil => exact .inl ⟨by simp, by simp⟩
  | cons hab _ ih =>
    cases x with
    | zero => exact .inr ⟨_, _, rfl, rfl, hab⟩
    | succ x => simpa using ih x

theorem forall₂_push {α β : Type} {R : α → β → Prop} {l : List α} {l' : List β} (h : List.Forall₂ R l l') {a : α} {b : β} (hab : R a b) :
    List.Forall₂ R (l ++ [a]) (l' ++ [b]) := List.rel_append h (List.Forall₂.cons hab List.Forall₂.nil)

/-- What one statement (other than a write) does: the client sees the same, the states correspond, no existing array changes, models keep the arrays they kept and new ones. -/
structure StepSim (s : RProg) (x : Py Seen × RProg) (y : Py Seen × VProg) (write : Prop) : Prop where
  out : x.1 = y.1
  rel : RelP x.2 y.2
  frame : ¬ write → s.world.mem.Ext x.2.world.mem ∧ KeptW s.world x.2.world

theorem RelP.seeC {s : RProg} {t : VProg} (h : RelP s t) {m : PyM World ℕ} {m' : PyM Heap (Arr ℂ)}
    (hm : SimW s.world t.objs (fun w p a => w.mem.cplx[p]? = some a) m m') :
    StepSim s (s.seeC (m s.world)) (t.seeC (m' t.objs)) False := by
  obtain ⟨h1, h2, h3, h4⟩ := hm
  rcases e : m s.world with ⟨r, w⟩
  rcases e' : m' t.objs with ⟨r', hp⟩
  rw [e] at h1 h2 h3 h4
  rw [e'] at h1 h4
  match r, r', h4 with
  | .error x, .error y, h4 =>
    have hxy : x = y := h4
    subst hxy
    exact ⟨rfl, h.run h1 h2, fun _ => ⟨h2, h3⟩⟩
  | .ok a, .ok b, h4 =>
    have h4 : w.mem.cplx[a]? = some b := h4
    refine ⟨by simp [RProg.seeC, VProg.seeC, h4], ?_, fun _ => ⟨h2, h3⟩⟩
    have hh := h.run h1 h2
    exact ⟨h1, forall₂_push hh.c h4, hh.r, hh.z⟩

theorem RelP.seeR {s : RProg} {t : VProg} (h : RelP s t) {m : PyM World ℕ} {m' : PyM Heap (Arr ℝ)}
    (hm : SimW s.world t.objs (fun w p a => w.mem.real[p]? = some a) m m') :
    StepSim s (s.seeR (m s.world)) (t.seeR (m' t.objs)) False := by
  obtain ⟨h1, h2, h3, h4⟩ := hm
  rcases e : m s.world with ⟨r, w⟩
  rcases e' : m' t.objs with ⟨r', hp⟩
  rw [e] at h1 h2 h3 h4
  rw [e'] at h1 h4
  match r, r', h4 with
  | .error x, .error y, h4 =>
    have hxy : x = y := h4
    subst hxy
    exact ⟨rfl, h.run h1 h2, fun _ => ⟨h2, h3⟩⟩
  | .ok a, .ok b, h4 =>
    have h4 : w.mem.real[a]? = some b := h4
    refine ⟨by simp [RProg.seeR, VProg.seeR, h4], ?_, fun _ => ⟨h2, h3⟩⟩
    have hh := h.run h1 h2
    exact ⟨h1, hh.c, forall₂_push hh.r h4, hh.z⟩

theorem RelP.seeZ {s : RProg} {t : VProg} (h : RelP s t) {m : PyM World ℕ} {m' : PyM Heap (List PyFloat)}
    (hm : SimW s.world t.objs (fun w p a => w.mem.axis[p]? = some a) m m') :
    StepSim s (s.seeZ (m s.world)) (t.seeZ (m' t.objs)) False := by
  obtain ⟨h1, h2, h3, h4⟩ := hm
  rcases e : m s.world with ⟨r, w⟩
  rcases e' : m' t.objs with ⟨r', hp⟩
  rw [e] at h1 h2 h3 h4
  rw [e'] at h1 h4
  match r, r', h4 with
  | .error x, .error y, h4 =>
    have hxy : x = y := h4
    subst hxy
    exact ⟨rfl, h.run h1 h2, fun _ => ⟨h2, h3⟩⟩
  | .ok a, .ok b, h4 =>
    have h4 : w.mem.axis[a]? = some b := h4
    refine ⟨by simp [RProg.seeZ, VProg.seeZ, h4], ?_, fun _ => ⟨h2, h3⟩⟩
    have hh := h.run h1 h2
    exact ⟨h1, hh.c, hh.r, forall₂_push hh.z h4⟩

theorem RelP.ran {α : Type} {s : RProg} {t : VProg} (h : RelP s t) (f : α → Seen) {m : PyM World α} {m' : PyM Heap α}
    (hm : SimW s.world t.objs (fun _ a b => f a = f b) m m') :
    StepSim s (s.ran f (m s.world)) (t.ran f (m' t.objs)) False := by
  obtain ⟨h1, h2, h3, h4⟩ := hm
  refine ⟨?_, h.run h1 h2, fun _ => ⟨h2, h3⟩⟩
  rcases e : (m s.world).1 with x | a <;> rcases e' : (m' t.objs).1 with y | b <;> rw [e, e'] at h4
  · have : x = y := h4
    subst this
    simp [RProg.ran, VProg.ran, e, e', Except.map]
  · exact h4.elim
  · exact h4.elim
  · have h4 : f a = f b := h4
    simp [RProg.ran, VProg.ran, e, e', h4, Except.map]

end PyOTF
