import Verif.Lemmas.MicroProg

/-!
# Who holds the arrays of a microscope
-/

namespace PyOTF

theorem relW_iff (w : World) : (∃ h, RelW w h) ↔ ∀ o ∈ w.objs, o.Valid w.mem := ⟨fun ⟨_, h⟩ => h.valid, fun h => ⟨_, rfl, h⟩⟩

/-- The real array `r` is new since `w` and no model of `w'` keeps it. -/
structure FreshReal (w w' : World) (r : ℕ) : Prop where
  new : w.mem.real.length ≤ r
  lt : r < w'.mem.real.length
  out : ∀ o ∈ w'.objs, o.obj.psfi ≠ some r

/-- The complex array `r` is new since `w` and no model of `w'` keeps it. -/
structure FreshCplx (w w' : World) (r : ℕ) : Prop where
  new : w.mem.cplx.length ≤ r
  lt : r < w'.mem.cplx.length
  out : ∀ o ∈ w'.objs, ¬ o.HoldsC r

/-- What a method of a microscope may do to arrays. -/
structure Upd (s s' : MState) : Prop where
  valid : ∀ o ∈ s'.world.objs, o.Valid s'.world.mem
  ext : s.world.mem.Ext s'.world.mem
  kept : KeptW s.world s'.world
  psf : ∀ r, s'.self.psf = some r → s.self.psf = some r ∨ FreshReal s.world s'.world r
  otf : ∀ r, s'.self.otf = some r → s.self.otf = some r ∨ FreshCplx s.world s'.world r

theorem FreshReal.mono {w w' w'' : World} {r : ℕ} (h : FreshReal w w' r) (he : w'.mem.Ext w''.mem) (hk : KeptW w' w'') : FreshReal w w'' r :=
  ⟨h.new, h.lt.trans_le he.lengths.2.1, fun o ho hr => by
    rcases hk.2 r ⟨o, ho, hr⟩ with ⟨o', ho', hr'⟩ | hl
    · exact h.out o' ho' hr'
    · have := h.lt; omega⟩

theorem FreshCplx.mono {w w' w'' : World} {r : ℕ} (h : FreshCplx w w' r) (he : w'.mem.Ext w''.mem) (hk : KeptW w' w'') : FreshCplx w w'' r :=
  ⟨h.new, h.lt.trans_le he.lengths.1, fun o ho hr => by
    rcases hk.1 r ⟨o, ho, hr⟩ with ⟨o', ho', hr'⟩ | hl
    · exact h.out o' ho' hr'
    · have := h.lt; omega⟩

theorem FreshReal.earlier {w w' w'' : World} {r : ℕ} (h : FreshReal w' w'' r) (he : w.mem.Ext w'.mem) : FreshReal w w'' r := ⟨he.lengths.2.1.trans h.new, h.lt, h.out⟩
theorem FreshCplx.earlier {w w' w'' : World} {r : ℕ} (h : FreshCplx w' w'' r) (he : w.mem.Ext w'.mem) : FreshCplx w w'' r := ⟨he.lengths.1.trans h.new, h.lt, h.out⟩

theorem Upd.refl {s : MState} (h : ∀ o ∈ s.world.objs, o.Valid s.world.mem) : Upd s s := ⟨h, Mem.Ext.refl _, KeptW.refl _, fun _ h => .inl h, fun _ h => .inl h⟩

theorem Upd.trans {a b c : MState} (h : Upd a b) (h' : Upd b c) : Upd a c :=
  ⟨h'.valid, h.ext.trans h'.ext, h.kept.trans h'.kept h.ext,
    fun r hr => (h'.psf r hr).elim (fun hr => (h.psf r hr).imp id fun f => f.mono h'.ext h'.kept) fun f => .inr (f.earlier h.ext),
    fun r hr => (h'.otf r hr).elim (fun hr => (h.otf r hr).imp id fun f => f.mono h'.ext h'.kept) fun f => .inr (f.earlier h.ext)⟩

/-- A method that does only that. -/
def Safe {α : Type} (f : PyM MState α) : Prop := ∀ s : MState, (∀ o ∈ s.world.objs, o.Valid s.world.mem) → Upd s (f s).2

/-- A method that leaves the microscope alone, but for its models. -/
def Still {α : Type} (f : PyM MState α) : Prop := Safe f ∧ ∀ s, (f s).2.self = s.self

section
variable {α β : Type}

theorem Safe.bind {f : PyM MState α} {g : α → PyM MState β} (hf : Safe f) (hg : ∀ a, Safe (g a)) : Safe (f >>= g) := by
  intro s hs
  have h1 := hf s hs
  simp only [PyM.bind_apply]
  rcases e : f s with ⟨x | a, s'⟩
  · rw [e] at h1; exact h1
  · rw [e] at h1; exact h1.trans (hg a s' h1.valid)

theorem Still.bind {f : PyM MState α} {g : α → PyM MState β} (hf : Still f) (hg : ∀ a, Still (g a)) : Still (f >>= g) := by
  refine ⟨hf.1.bind fun a => (hg a).1, fun s => ?_⟩
  have h1 := hf.2 s
  simp only [PyM.bind_apply]
  rcases e : f s with ⟨x | a, s'⟩
  · rw [e] at h1; exact h1
  · rw [e] at h1; exact ((hg a).2 s').trans h1

theorem Still.pure (a : α) : Still (pure a : PyM MState α) := ⟨fun _ hs => .refl hs, fun _ => rfl⟩
theorem Still.raise (e : Err) : Still (PyM.raise e : PyM MState α) := ⟨fun _ hs => .refl hs, fun _ => rfl⟩
theorem Still.lift (x : Py α) : Still (PyM.lift x : PyM MState α) := by
  refine ⟨fun s hs => ?_, fun s => ?_⟩ <;> rw [PyM.lift_apply]
  exact .refl hs
theorem Still.get : Still (PyM.get : PyM MState MState) := ⟨fun _ hs => .refl hs, fun _ => rfl⟩

theorem Still.derefR (r : ℕ) : Still (MState.derefR r) := by
  refine ⟨fun s hs => ?_, fun s => ?_⟩ <;> unfold MState.derefR <;> rcases s.world.mem.real[r]? with _ | a
  · exact .refl hs
  · exact .refl hs
  · rfl
  · rfl

theorem Still.derefC (r : ℕ) : Still (MState.derefC r) := by
  refine ⟨fun s hs => ?_, fun s => ?_⟩ <;> unfold MState.derefC <;> rcases s.world.mem.cplx[r]? with _ | a
  · exact .refl hs
  · exact .refl hs
  · rfl
  · rfl

theorem Still.allocR (a : Arr ℝ) : Still (MState.allocR a) := by
  refine ⟨fun s hs => ⟨fun o ho => ?_, ?_, ⟨fun _ h => .inl h, fun _ h => .inl h⟩, fun _ h => .inl h, fun _ h => .inl h⟩, fun _ => rfl⟩
  · exact (hs o ho).ext ⟨fun _ _ h => h, fun _ _ => append_ext _ _ _ _, fun _ _ h => h⟩
  · exact ⟨fun _ _ h => h, fun _ _ => append_ext _ _ _ _, fun _ _ h => h⟩

theorem Still.allocC (a : Arr ℂ) : Still (MState.allocC a) := by
  refine ⟨fun s hs => ⟨fun o ho => ?_, ?_, ⟨fun _ h => .inl h, fun _ h => .inl h⟩, fun _ h => .inl h, fun _ h => .inl h⟩, fun _ => rfl⟩
  · exact (hs o ho).ext ⟨fun _ _ => append_ext _ _ _ _, fun _ _ h => h, fun _ _ h => h⟩
  · exact ⟨fun _ _ => append_ext _ _ _ _, fun _ _ h => h, fun _ _ h => h⟩

theorem onObj_upd {c : Mem → α → β → Prop} {f : PyM RState α} {g : PyM HObj β} (hf : ∀ s : RState, s.self.Valid s.mem → SimAt s c f g) (k : ℕ) {w : World}
    (hw : ∀ o ∈ w.objs, o.Valid w.mem) : (∀ o ∈ (World.onObj k f w).2.objs, o.Valid (World.onObj k f w).2.mem) ∧ w.mem.Ext (World.onObj k f w).2.mem ∧ KeptW w (World.onObj k f w).2 := by
  obtain ⟨h, hw⟩ := (relW_iff w).mpr hw
  obtain ⟨h1, h2, h3, -⟩ := SimW.onObj (c := c) hw k fun o ho => hf ⟨w.mem, o⟩ (hw.valid o (List.mem_of_getElem? ho))
  exact ⟨h1.valid, h2, h3⟩

theorem Still.onModel {c : Mem → α → β → Prop} {f : PyM RState α} {g : PyM HObj β} (hf : ∀ s : RState, s.self.Valid s.mem → SimAt s c f g) : Still (MState.onModel f) := by
  refine ⟨fun s hs => ?_, fun s => rfl⟩
  obtain ⟨h1, h2, h3⟩ := onObj_upd hf s.self.model hs
  exact ⟨h1, h2, h3, fun _ h => .inl h, fun _ h => .inl h⟩

theorem Still.onExc {c : Mem → α → β → Prop} {f : PyM RState α} {g : PyM HObj β} (hf : ∀ s : RState, s.self.Valid s.mem → SimAt s c f g) : Still (MState.onExc f) := by
  refine ⟨fun s hs => ?_, fun s => ?_⟩ <;> unfold MState.onExc <;> rcases s.self.kind with _ | _ | ⟨j, ph, w⟩ | ⟨a1, a2, a3, a4, a5, a6, a7⟩
  · exact .refl hs
  · exact .refl hs
  · obtain ⟨h1, h2, h3⟩ := onObj_upd hf j hs
    exact ⟨h1, h2, h3, fun _ h => .inl h, fun _ h => .inl h⟩
  · exact .refl hs
  all_goals rfl

end

theorem still_simFiltered (w : PyVal) : Still (MState.simFiltered w) := by
  unfold MState.simFiltered
  split
  · exact (Still.onModel fun s hs => sim_getPSFi hs).bind fun r => Still.derefR r
  · refine (Still.lift _).bind fun q => ?_
    split
    · refine (Still.onModel fun s hs => sim_getOTFi hs).bind fun r => (Still.derefC r).bind fun a => ?_
      split
      · exact Still.lift _
      · exact Still.raise _
    · exact Still.raise _

/-- The parameters of the model are only read. -/
theorem sim_params {s : RState} (hs : s.self.Valid s.mem) : SimAt s (fun _ _ _ => True) (do return (← PyM.get).params : PyM RState Params) (pure ()) :=
  ⟨hs, Mem.Ext.refl _, rfl, Kept.refl _, trivial⟩

theorem still_modelPsf : Still MState.modelPsf := by
  unfold MState.modelPsf
  refine Still.get.bind fun s => ?_
  split
  · exact Still.onModel fun s hs => sim_getPSFi hs
  · exact (Still.onModel fun s hs => sim_getPSFi hs).bind fun r => (Still.derefR r).bind fun a => (Still.lift _).bind fun b => Still.allocR b
  · exact (Still.onModel fun s hs => sim_params hs).bind fun p => (Still.lift _).bind fun q => (Still.onModel fun s hs => sim_getPSFi hs).bind fun r => (Still.derefR r).bind fun a =>
      (Still.lift _).bind fun d => (Still.onExc fun s hs => sim_getPSFi hs).bind fun r => (Still.derefR r).bind fun a => (Still.lift _).bind fun b => Still.allocR b
  · exact (Still.lift _).bind fun n => (still_simFiltered _).bind fun a => (Still.lift _).bind fun b => Still.allocR b

/-- The result is a new array that no model keeps. -/
def NewArray (f : PyM MState ℕ) : Prop := ∀ (s : MState) (r : ℕ), (∀ o ∈ s.world.objs, o.Valid s.world.mem) → (f s).1 = .ok r → FreshReal s.world (f s).2.world r

theorem NewArray.bind {α : Type} {f : PyM MState α} {g : α → PyM MState ℕ} (hf : Still f) (hg : ∀ a, NewArray (g a)) : NewArray (f >>= g) := by
  intro s r hs hr
  have h1 := hf.1 s hs
  simp only [PyM.bind_apply] at hr ⊢
  rcases e : f s with ⟨x | a, s'⟩
  · rw [e] at hr; cases hr
  · rw [e] at h1 hr; exact (hg a s' r h1.valid hr).earlier h1.ext

theorem NewArray.allocR (a : Arr ℝ) : NewArray (MState.allocR a) := by
  intro s r hs hr
  obtain rfl : s.world.mem.real.length = r := Except.ok.inj hr
  refine ⟨le_rfl, by simp [MState.allocR], fun o ho hp => ?_⟩
  obtain ⟨b, hb⟩ := (hs o ho).psfi _ hp
  simp at hb

theorem fresh_modelPsf {s : MState} (hs : ∀ o ∈ s.world.objs, o.Valid s.world.mem) (hk : s.self.kind ≠ .widefield) {r : ℕ} (hr : (MState.modelPsf s).1 = .ok r) :
    FreshReal s.world (MState.modelPsf s).2.world r := by
  simp only [MState.modelPsf, PyM.bind_apply, PyM.get_apply] at hr ⊢
  revert hr
  rcases e : s.self.kind with _ | _ | ⟨j, ph, w⟩ | ⟨a1, a2, a3, a4, a5, a6, a7⟩
  · exact (hk e).elim
  · exact NewArray.bind (Still.onModel fun s hs => sim_getPSFi hs) (fun r => .bind (Still.derefR r) fun a => .bind (Still.lift _) fun b => NewArray.allocR b) s r hs
  · exact NewArray.bind (Still.onModel fun s hs => sim_params hs) (fun p => .bind (Still.lift _) fun q => .bind (Still.onModel fun s hs => sim_getPSFi hs) fun r => .bind (Still.derefR r) fun a =>
      .bind (Still.lift _) fun d => .bind (Still.onExc fun s hs => sim_getPSFi hs) fun r => .bind (Still.derefR r) fun a => .bind (Still.lift _) fun b => NewArray.allocR b) s r hs
  · exact NewArray.bind (Still.lift _) (fun n => .bind (still_simFiltered _) fun a => .bind (Still.lift _) fun b => NewArray.allocR b) s r hs

/-- Computing `PSF` and keeping it. -/
theorem safe_store_psf (a : Arr ℝ) : Safe (do let r ← MState.allocR a; PyM.modify fun s : MState => { s with self := { s.self with psf := some r } }; pure r) := by
  intro s hs
  have h1 := (Still.allocR a).1 s hs
  refine ⟨h1.valid, h1.ext, h1.kept, fun r hr => .inr ?_, fun r hr => .inl hr⟩
  obtain rfl : s.world.mem.real.length = r := Option.some.inj hr
  exact NewArray.allocR a s _ hs rfl

theorem safe_store_otf (a : Arr ℂ) : Safe (do let r ← MState.allocC a; PyM.modify fun s : MState => { s with self := { s.self with otf := some r } }; pure r) := by
  intro s hs
  have h1 := (Still.allocC a).1 s hs
  refine ⟨h1.valid, h1.ext, h1.kept, fun r hr => .inl hr, fun r hr => .inr ?_⟩
  obtain rfl : s.world.mem.cplx.length = r := Option.some.inj hr
  refine ⟨le_rfl, ?_, fun o ho hp => ?_⟩
  · show s.world.mem.cplx.length < (s.world.mem.cplx ++ [a]).length
    simp
  · have hv := hs o ho
    have : ∃ a, s.world.mem.cplx[s.world.mem.cplx.length]? = some a := by
      rcases hp with hp | hp | hp
      · exact hv.psfa _ hp
      · exact hv.otfa _ hp
      · exact hv.otfi _ hp
    simp at this

theorem safe_getPSF : Safe MState.getPSF := by
  unfold MState.getPSF
  refine Still.get.1.bind fun s => ?_
  split
  · exact (Still.pure _).1
  · exact still_modelPsf.1.bind fun r => (Still.derefR r).1.bind fun a => Still.get.1.bind fun _ => (Still.lift _).1.bind fun b => safe_store_psf b

theorem safe_getOTF : Safe MState.getOTF := by
  unfold MState.getOTF
  refine Still.get.1.bind fun s => ?_
  split
  · exact (Still.pure _).1
  · exact safe_getPSF.bind fun r => (Still.derefR r).1.bind fun a => safe_store_otf _

theorem safe_modify (f : RMicro → RMicro) (h1 : ∀ m r, (f m).psf = some r → m.psf = some r) (h2 : ∀ m r, (f m).otf = some r → m.otf = some r) :
    Safe (PyM.modify fun s : MState => { s with self := f s.self }) := fun s hs => ⟨hs, Mem.Ext.refl _, KeptW.refl _, fun r hr => .inl (h1 _ r hr), fun r hr => .inl (h2 _ r hr)⟩

theorem safe_set (a : Micro.MAttr) (v : PyVal) : Safe (MState.set a v) := by
  unfold MState.set
  refine Still.get.1.bind fun s => ?_
  split
  · exact (Still.pure _).1
  · refine (Still.lift _).1.bind fun w => ?_
    split
    · exact (Still.pure _).1
    · exact safe_modify (fun m => { m with oversample := _, kind := _, psf := none, otf := none }) (fun _ _ h => by cases h) fun _ _ h => by cases h

theorem safe_setWiener (w : PyVal) : Safe (MState.setWiener w) := safe_modify (fun m => { m with kind := Micro.withWiener w m.kind }) (fun _ _ h => h) fun _ _ h => h
theorem safe_setOrientations (o : List ℝ) : Safe (MState.setOrientations o) := safe_modify (fun m => { m with kind := Micro.withOrientations o m.kind }) (fun _ _ h => h) fun _ _ h => h

/-! ## The invariant -/

/-- Models and microscopes have their arrays to themselves, and refer to arrays that exist. -/
structure Sep (s : MRProg) : Prop where
  good : Good s.prog
  models : ∀ m ∈ s.micros, m.Models s.prog.world.objs.length
  psf : ∀ m ∈ s.micros, ∀ r, m.psf = some r → r < s.prog.world.mem.real.length ∧ ∀ o ∈ s.prog.world.objs, o.obj.psfi ≠ some r
  otf : ∀ m ∈ s.micros, ∀ r, m.otf = some r → r < s.prog.world.mem.cplx.length ∧ ∀ o ∈ s.prog.world.objs, ¬ o.HoldsC r
  psf_only : ∀ (i j : ℕ) (m m' : RMicro) (r : ℕ), s.micros[i]? = some m → s.micros[j]? = some m' → m.psf = some r → m'.psf = some r → i = j
  otf_only : ∀ (i j : ℕ) (m m' : RMicro) (r : ℕ), s.micros[i]? = some m → s.micros[j]? = some m' → m.otf = some r → m'.otf = some r → i = j

theorem Sep.valid {s : MRProg} (h : Sep s) : ∀ o ∈ s.prog.world.objs, o.Valid s.prog.world.mem := ((good_iff _).mp h.good).1

theorem sep_empty : Sep MRProg.empty := by
  refine ⟨good_empty, ?_, ?_, ?_, ?_, ?_⟩ <;> simp [MRProg.empty]

/-- The values of the microscopes. -/
theorem Sep.rel {s : MRProg} (h : Sep s) : ∃ t, RelM s t := by
  obtain ⟨t, ht⟩ := h.good
  have : ∀ l : List RMicro, (∀ m ∈ l, m ∈ s.micros) → ∃ l', List.Forall₂ (RelMicro s.prog.world.mem) l l' := by
    intro l
    induction l with
    | nil => exact fun _ => ⟨[], .nil⟩
    | cons m l ih =>
      intro hl
      obtain ⟨l', hl'⟩ := ih fun x hx => hl x (by simp [hx])
      have e1 : ∃ y, Option.Rel (fun p a => s.prog.world.mem.real[p]? = some a) m.psf y := by
        rcases e : m.psf with _ | r
        · exact ⟨none, .none⟩
        · exact ⟨some _, .some (List.getElem?_eq_getElem (h.psf m (hl m (by simp)) r e).1)⟩
      have e2 : ∃ y, Option.Rel (fun p a => s.prog.world.mem.cplx[p]? = some a) m.otf y := by
        rcases e : m.otf with _ | r
        · exact ⟨none, .none⟩
        · exact ⟨some _, .some (List.getElem?_eq_getElem (h.otf m (hl m (by simp)) r e).1)⟩
      obtain ⟨y1, e1⟩ := e1
      obtain ⟨y2, e2⟩ := e2
      exact ⟨⟨m.oversample, m.psfParams, m.pixelSize, m.model, m.kind, y1, y2⟩ :: l', .cons ⟨rfl, rfl, rfl, rfl, rfl, e1, e2⟩ hl'⟩
  obtain ⟨l', hl'⟩ := this s.micros fun _ h => h
  exact ⟨⟨t, l'⟩, ht, hl', h.models⟩

theorem RelM.good {s : MRProg} {t : MVProg} (h : RelM s t) : Good s.prog := ⟨_, h.prog⟩

theorem Sep.real {s : MRProg} (h : Sep s) {w : World} (he : s.prog.world.mem.Ext w.mem) (hk : KeptW s.prog.world w) {m : RMicro} (hm : m ∈ s.micros) {r : ℕ} (hr : m.psf = some r) :
    r < w.mem.real.length ∧ ∀ o ∈ w.objs, o.obj.psfi ≠ some r := by
  obtain ⟨h1, h2⟩ := h.psf m hm r hr
  refine ⟨h1.trans_le he.lengths.2.1, fun o ho ho' => ?_⟩
  rcases hk.2 r ⟨o, ho, ho'⟩ with ⟨o', q, q'⟩ | q
  · exact h2 o' q q'
  · omega

theorem Sep.cplx {s : MRProg} (h : Sep s) {w : World} (he : s.prog.world.mem.Ext w.mem) (hk : KeptW s.prog.world w) {m : RMicro} (hm : m ∈ s.micros) {r : ℕ} (hr : m.otf = some r) :
    r < w.mem.cplx.length ∧ ∀ o ∈ w.objs, ¬ o.HoldsC r := by
  obtain ⟨h1, h2⟩ := h.otf m hm r hr
  refine ⟨h1.trans_le he.lengths.1, fun o ho ho' => ?_⟩
  rcases hk.1 r ⟨o, ho, ho'⟩ with ⟨o', q, q'⟩ | q
  · exact h2 o' q q'
  · omega

/-- A call on a microscope. -/
theorem Sep.call {s : MRProg} (h : Sep s) (i : ℕ) {α : Type} {f : PyM MState α} (hf : Safe f) {x : MRProg} {t : MVProg} (hx : RelM x t) (hp : x.prog.world = (s.onMicro i f).2.1)
    (hm : x.micros = (s.onMicro i f).2.2) : Sep x := by
  rcases e : s.micros[i]? with _ | m
  · simp only [MRProg.onMicro, e] at hp hm
    refine ⟨hx.good, hx.models, ?_, ?_, ?_, ?_⟩ <;> rw [hm]
    · rw [hp]; exact h.psf
    · rw [hp]; exact h.otf
    · exact h.psf_only
    · exact h.otf_only
  · simp only [MRProg.onMicro, e] at hp hm
    have hu := hf ⟨s.prog.world, m⟩ h.valid
    generalize (f ⟨s.prog.world, m⟩).2 = s' at *
    obtain ⟨u1, u2, u3, u4, u5⟩ := hu
    have hmem := List.mem_of_getElem? e
    have hil := (List.getElem?_eq_some_iff.mp e).1
    have cases_ : ∀ (j : ℕ) (y : RMicro), (s.micros.set i s'.self)[j]? = some y → (j = i ∧ y = s'.self) ∨ (j ≠ i ∧ s.micros[j]? = some y) := by
      intro j y hy
      by_cases hj : j = i
      · subst hj; rw [List.getElem?_set_self hil] at hy; exact .inl ⟨rfl, (Option.some.inj hy).symm⟩
      · rw [List.getElem?_set_ne (Ne.symm hj)] at hy; exact .inr ⟨hj, hy⟩
    refine ⟨hx.good, hx.models, fun y hy r hr => ?_, fun y hy r hr => ?_, fun j k y y' r hj hk hr hr' => ?_, fun j k y y' r hj hk hr hr' => ?_⟩
    · rw [hp]
      rw [hm] at hy
      rcases List.mem_or_eq_of_mem_set hy with hy | rfl
      · exact h.real u2 u3 hy hr
      · rcases u4 r hr with q | q
        · exact h.real u2 u3 hmem q
        · exact ⟨q.lt, q.out⟩
    · rw [hp]
      rw [hm] at hy
      rcases List.mem_or_eq_of_mem_set hy with hy | rfl
      · exact h.cplx u2 u3 hy hr
      · rcases u5 r hr with q | q
        · exact h.cplx u2 u3 hmem q
        · exact ⟨q.lt, q.out⟩
    · rw [hm] at hj hk
      rcases cases_ j y hj with ⟨a1, rfl⟩ | ⟨a1, a2⟩ <;> rcases cases_ k y' hk with ⟨b1, rfl⟩ | ⟨b1, b2⟩
      · rw [a1, b1]
      · rcases u4 r hr with q | q
        · rw [a1]; exact h.psf_only i k m y' r e b2 q hr'
        · have := (h.psf y' (List.mem_of_getElem? b2) r hr').1; have := q.new; simp only at this; omega
      · rcases u4 r hr' with q | q
        · rw [b1]; exact h.psf_only j i y m r a2 e hr q
        · have := (h.psf y (List.mem_of_getElem? a2) r hr).1; have := q.new; simp only at this; omega
      · exact h.psf_only j k y y' r a2 b2 hr hr'
    · rw [hm] at hj hk
      rcases cases_ j y hj with ⟨a1, rfl⟩ | ⟨a1, a2⟩ <;> rcases cases_ k y' hk with ⟨b1, rfl⟩ | ⟨b1, b2⟩
      · rw [a1, b1]
      · rcases u5 r hr with q | q
        · rw [a1]; exact h.otf_only i k m y' r e b2 q hr'
        · have := (h.otf y' (List.mem_of_getElem? b2) r hr').1; have := q.new; simp only at this; omega
      · rcases u5 r hr' with q | q
        · rw [b1]; exact h.otf_only j i y m r a2 e hr q
        · have := (h.otf y (List.mem_of_getElem? a2) r hr).1; have := q.new; simp only at this; omega
      · exact h.otf_only j k y y' r a2 b2 hr hr'

theorem mseeR_world (s : MRProg) (x : Py ℕ × World × List RMicro) : (s.seeR x).2.prog.world = x.2.1 := seeR_world _ _
theorem mseeC_world (s : MRProg) (x : Py ℕ × World × List RMicro) : (s.seeC x).2.prog.world = x.2.1 := seeC_world _ _

/-- Every statement keeps it, writes included. -/
theorem Sep.step {s : MRProg} (h : Sep s) (st : MStmt) : Sep (s.step st).2 := by
  obtain ⟨t, ht⟩ := h.rel
  have hpriv : ∀ st : MStmt, (¬ st.IsWrite) → RelM (s.step st).2 (t.step st).2 := fun st hw => by
    refine (mstep_sim ht st ?_).rel
    cases st with
    | base st => exact ⟨private_of_not_write hw, by cases st <;> first | trivial | exact (hw trivial).elim⟩
    | _ => trivial
  cases st with
  | base st =>
    by_cases hw : st.IsWrite
    · have hg := h.good.step st
      rcases step_write (s := s.prog) hw with e | ⟨p, a, e⟩ | ⟨p, a, e⟩ | ⟨p, a, e⟩
      · simp only [MRProg.step, e]; exact h
      all_goals
        rw [e] at hg
        simp only [MRProg.step, e]
        refine ⟨hg, h.models, fun m hm r hr => ?_, fun m hm r hr => ?_, h.psf_only, h.otf_only⟩
        · have := h.psf m hm r hr; simpa using this
        · have := h.otf m hm r hr; simpa using this
    · have hx := hpriv (.base st) hw
      obtain ⟨he, hk⟩ := (step_sim ht.prog st (private_of_not_write hw)).frame hw
      exact ⟨hx.good, hx.models, fun m hm r hr => h.real he hk hm hr, fun m hm r hr => h.cplx he hk hm hr, h.psf_only, h.otf_only⟩
  | new a z c =>
    have hx := hpriv (.new a z c) id
    revert hx
    simp only [MRProg.step]
    rcases ez : s.zarg a z with x | g
    · exact fun _ => h
    · simp only
      rcases en : World.newMicro a g c s.prog.world with ⟨x | r, w'⟩
      · exact fun _ => h
      · intro hx
        have hzr : ∃ v, ZRel s.prog.world.mem g v := by
          rcases z with _ | x
          · obtain rfl := Except.ok.inj ez; exact ⟨_, .inl rfl⟩
          · rcases forall₂_get ht.prog.z x with ⟨e, e'⟩ | ⟨p, l, e, e', hpl⟩
            · simp only [MRProg.zarg, e] at ez; cases ez
            · simp only [MRProg.zarg, e] at ez
              obtain rfl := Except.ok.inj ez
              exact ⟨_, .inr ⟨p, l, rfl, rfl, hpl⟩⟩
        obtain ⟨v, hzr⟩ := hzr
        have hb := newMicro_spec ht.prog.world hzr a c
        rcases e : c.build { a with model := .str "hanser", kw := { a.kw with zrange := v } } with x | m
        · rw [e, en] at hb; cases hb
        · rw [e, en] at hb
          obtain ⟨r', w'', v', h', b1, -, -, he, -, -, p1, p2, -, hk⟩ := hb
          obtain ⟨rfl, rfl⟩ : r = r' ∧ w' = w'' := by
            have := Prod.mk.inj b1
            exact ⟨Except.ok.inj this.1, this.2⟩
          have cases_ : ∀ (j : ℕ) (y : RMicro), (s.micros ++ [r])[j]? = some y → s.micros[j]? = some y ∨ y = r := by
            intro j y hy
            by_cases hj : j < s.micros.length
            · rw [List.getElem?_append_left hj] at hy; exact .inl hy
            · have := List.mem_of_getElem? (by rw [List.getElem?_append_right (by omega)] at hy; exact hy)
              exact .inr (by simpa using this)
          refine ⟨hx.good, hx.models, fun m hm r hr => ?_, fun m hm r hr => ?_, fun j k y y' q hj hk hr hr' => ?_, fun j k y y' q hj hk hr hr' => ?_⟩
          · rcases List.mem_append.mp hm with hm | hm
            · exact h.real he hk hm hr
            · simp only [List.mem_singleton] at hm; rw [hm, p1] at hr; cases hr
          · rcases List.mem_append.mp hm with hm | hm
            · exact h.cplx he hk hm hr
            · simp only [List.mem_singleton] at hm; rw [hm, p2] at hr; cases hr
          · rcases cases_ j y hj with a1 | rfl
            · rcases cases_ k y' hk with b1 | rfl
              · exact h.psf_only _ _ _ _ _ a1 b1 hr hr'
              · rw [p1] at hr'; cases hr'
            · rw [p1] at hr; cases hr
          · rcases cases_ j y hj with a1 | rfl
            · rcases cases_ k y' hk with b1 | rfl
              · exact h.otf_only _ _ _ _ _ a1 b1 hr hr'
              · rw [p2] at hr'; cases hr'
            · rw [p2] at hr; cases hr
  | model i => exact h
  | modelExc i => exact h
  | modelPsf i => exact h.call i still_modelPsf.1 (hpriv (.modelPsf i) id) (mseeR_world _ _) rfl
  | PSF i => exact h.call i safe_getPSF (hpriv (.PSF i) id) (mseeR_world _ _) rfl
  | OTF i => exact h.call i safe_getOTF (hpriv (.OTF i) id) (mseeC_world _ _) rfl
  | set i a v => exact h.call i (safe_set a v) (hpriv (.set i a v) id) rfl rfl
  | setWiener i w => exact h.call i (safe_setWiener w) (hpriv (.setWiener i w) id) rfl rfl
  | setOrientations i o => exact h.call i (safe_setOrientations o) (hpriv (.setOrientations i o) id) rfl rfl

theorem Sep.run {s : MRProg} (h : Sep s) (prog : List MStmt) : Sep (runHistory MRProg.step s prog).2 := by
  induction prog generalizing s with
  | nil => exact h
  | cons st rest ih => exact ih (h.step st)

end PyOTF
