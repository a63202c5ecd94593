import Verif.Lemmas.MemoryWorld

/-!
# One statement of a client program: simulation, frame, sharing
-/

namespace PyOTF

theorem SimW.weaken {α β : Type} {w : World} {h : Heap} {c d : World → α → β → Prop} {m : PyM World α} {m' : PyM Heap β} (hm : SimW w h c m m')
    (hcd : ∀ v a b, c v a b → d v a b) : SimW w h d m m' := by
  refine ⟨hm.rel, hm.ext, hm.held, ?_⟩
  have := hm.out
  rcases q : (m w).1 with x | a <;> rcases q' : (m' h).1 with y | b <;> rw [q, q'] at this
  · exact this
  · exact this
  · exact this
  · exact hcd _ a b this

theorem sim_zref {s : RState} (hs : s.self.Valid s.mem) :
    SimAt s (fun m p a => m.axis[p]? = some a) (fun t => (.ok t.self.zref, t)) (PyOTF.self Params.zrange) := by
  obtain ⟨z, hz⟩ := hs.zref
  refine ⟨hs, Mem.Ext.refl _, rfl, Kept.refl _, ?_⟩
  simp [PyOTF.self, RObj.view, hz, attr, Match]

/-! ## Writes -/

theorem set_other {α : Type} (l : List α) (p q : ℕ) (a : α) (h : q ≠ p) : (l.set p a)[q]? = l[q]? := by
  rw [List.getElem?_set_ne (Ne.symm h)]

theorem view_writeC {m : Mem} {o : RObj} {p : ℕ} {a : Arr ℂ} (h : ¬ o.HoldsC p) : o.view { m with cplx := m.cplx.set p a } = o.view m := by
  have key : ∀ x : Option ℕ, x ≠ some p → x.bind ((m.cplx.set p a)[·]?) = x.bind (m.cplx[·]?) := by
    intro x hx
    rcases x with _ | q
    · rfl
    · simp only [Option.bind_some]
      exact set_other _ _ _ _ fun e => hx (by rw [e])
  simp only [RObj.HoldsC, not_or] at h
  simp only [RObj.view, key _ h.1, key _ h.2.1, key _ h.2.2]

theorem view_writeR {m : Mem} {o : RObj} {p : ℕ} {a : Arr ℝ} (h : o.obj.psfi ≠ some p) : o.view { m with real := m.real.set p a } = o.view m := by
  have key : o.obj.psfi.bind ((m.real.set p a)[·]?) = o.obj.psfi.bind (m.real[·]?) := by
    rcases e : o.obj.psfi with _ | q
    · rfl
    · simp only [Option.bind_some]
      exact set_other _ _ _ _ fun e' => h (by rw [e, e'])
  simp only [RObj.view, key]

theorem view_writeZ {m : Mem} {o : RObj} {p : ℕ} {a : List PyFloat} (h : o.zref ≠ p) : o.view { m with axis := m.axis.set p a } = o.view m := by
  simp only [RObj.view, set_other _ _ _ _ h]

theorem some_of_set {α : Type} (l : List α) (p q : ℕ) (a : α) (h : ∃ b, l[q]? = some b) : ∃ b, (l.set p a)[q]? = some b := by
  obtain ⟨b, hb⟩ := h
  have := (List.getElem?_eq_some_iff.mp hb).1
  exact ⟨_, List.getElem?_eq_getElem (by simpa using this)⟩

theorem RObj.Valid.writeC {m : Mem} {o : RObj} (h : o.Valid m) (p : ℕ) (a : Arr ℂ) : o.Valid { m with cplx := m.cplx.set p a } :=
  ⟨h.zref, fun r hr => some_of_set _ _ _ _ (h.psfa r hr), fun r hr => some_of_set _ _ _ _ (h.otfa r hr), h.psfi, fun r hr => some_of_set _ _ _ _ (h.otfi r hr)⟩
theorem RObj.Valid.writeR {m : Mem} {o : RObj} (h : o.Valid m) (p : ℕ) (a : Arr ℝ) : o.Valid { m with real := m.real.set p a } :=
  ⟨h.zref, h.psfa, h.otfa, fun r hr => some_of_set _ _ _ _ (h.psfi r hr), h.otfi⟩
theorem RObj.Valid.writeZ {m : Mem} {o : RObj} (h : o.Valid m) (p : ℕ) (a : List PyFloat) : o.Valid { m with axis := m.axis.set p a } :=
  ⟨some_of_set _ _ _ _ h.zref, h.psfa, h.otfa, h.psfi, h.otfi⟩

theorem forall₂_write {α : Type} {l : List α} {vs : List ℕ} {xs : List α} (h : List.Forall₂ (fun p a => l[p]? = some a) vs xs) {x p : ℕ} (a' : α)
    (hx : vs[x]? = some p) (hu : ∀ y, vs[y]? = some p → y = x) :
    List.Forall₂ (fun q a => (l.set p a')[q]? = some a) vs (xs.set x a') := by
  rw [List.forall₂_iff_get] at h ⊢
  obtain ⟨h1, h2⟩ := h
  refine ⟨by simp [h1], fun i hi hi' => ?_⟩
  have hi2 : i < xs.length := by rwa [← h1]
  have hb := h2 i hi hi2
  simp only [List.get_eq_getElem] at hb ⊢
  by_cases hix : i = x
  · subst hix
    have : vs[i] = p := by rw [List.getElem?_eq_getElem hi] at hx; exact Option.some.inj hx
    have hp : p < l.length := by rw [← this]; exact (List.getElem?_eq_some_iff.mp hb).1
    rw [this, List.getElem_set_self, List.getElem?_set_self hp]
  · have hne : vs[i] ≠ p := fun e => hix (hu i (by rw [List.getElem?_eq_getElem hi, e]))
    rw [List.getElem_set_ne (Ne.symm hix), set_other _ _ _ _ hne, hb]

/-! ## The simulation -/

theorem step_sim {s : RProg} {t : VProg} (h : RelP s t) (st : Stmt) (hp : st.Private s) :
    StepSim s (s.step st) (t.step st) st.IsWrite := by
  have hv : ∀ {k : ℕ} {o : RObj}, s.world.objs[k]? = some o → RObj.Valid s.world.mem o := fun {k o} e => h.world.valid o (List.mem_of_getElem? e)
  have done : ∀ {k : ℕ} {m : PyM RState Unit} {m' : PyM HObj Unit}, (∀ o, s.world.objs[k]? = some o → SimAt ⟨s.world.mem, o⟩ (fun _ _ _ => True) m m') →
      SimW s.world t.objs (fun _ _ _ => Seen.done = Seen.done) (World.onObj k m) (onRef k m') := fun {k m m'} x =>
    (SimW.onObj (c := fun _ _ _ => True) h.world k x).weaken fun _ _ _ _ => rfl
  cases st with
  | planes z =>
    exact h.seeZ (m := fun w => (.ok w.mem.axis.length, { w with mem := { w.mem with axis := w.mem.axis ++ [z] } })) (m' := fun o => (.ok z, o))
      ⟨h.world.alloc (ext_allocZ _ _), ext_allocZ _ _, ⟨fun _ x => .inl x, fun _ x => .inl x⟩, by simp [Match]⟩
  | pupil P =>
    exact h.seeC (m := fun w => (.ok w.mem.cplx.length, { w with mem := { w.mem with cplx := w.mem.cplx ++ [P] } })) (m' := fun o => (.ok P, o))
      ⟨h.world.alloc (ext_allocC _ _), ext_allocC _ _, ⟨fun _ x => .inl x, fun _ x => .inl x⟩, by simp [Match]⟩
  | new a z => exact h.ran _ ((SimW.new h.world a z).weaken fun _ _ _ e => by rw [e])
  | newWith a x =>
    rcases forall₂_get h.z x with ⟨e, e'⟩ | ⟨p, z, e, e', hpz⟩
    · simp only [RProg.step, VProg.step, e, e']; exact ⟨rfl, h, fun _ => ⟨Mem.Ext.refl _, KeptW.refl _⟩⟩
    · simp only [RProg.step, VProg.step, e, e']
      exact h.ran _ ((SimW.newWith h.world a hpz).weaken fun _ _ _ e => by rw [e])
  | set k a v => exact h.ran _ (done fun o ho => sim_set (hv ho) a v)
  | setZrange k z => exact h.ran _ (done fun o ho => sim_setZrange (hv ho) z)
  | setZrangeVar k x =>
    rcases forall₂_get h.z x with ⟨e, e'⟩ | ⟨p, z, e, e', hpz⟩
    · simp only [RProg.step, VProg.step, e, e']; exact ⟨rfl, h, fun _ => ⟨Mem.Ext.refl _, KeptW.refl _⟩⟩
    · simp only [RProg.step, VProg.step, e, e']
      exact h.ran _ (done fun o ho => sim_assignZrange p z hpz)
  | applyPupil k x =>
    rcases forall₂_get h.c x with ⟨e, e'⟩ | ⟨p, P, e, e', hpz⟩
    · simp only [RProg.step, VProg.step, e, e']; exact ⟨rfl, h, fun _ => ⟨Mem.Ext.refl _, KeptW.refl _⟩⟩
    · simp only [RProg.step, VProg.step, e, e']
      exact h.ran _ (done fun o ho => SimAt.derefC (s := ⟨s.world.mem, o⟩) hpz (sim_applyPupil (hv ho) P))
  | aberrate k m p => exact h.ran _ ((SimW.applyAberration h.world k m p).weaken fun _ _ _ e => by rw [e])
  | zrange k => exact h.seeZ (SimW.onObj h.world k fun o ho => sim_zref (hv ho))
  | PSFa k => exact h.seeC (SimW.onObj h.world k fun o ho => sim_getPSFa (hv ho))
  | OTFa k => exact h.seeC (SimW.onObj h.world k fun o ho => sim_getOTFa (hv ho))
  | PSFi k => exact h.seeR (SimW.onObj h.world k fun o ho => sim_getPSFi (hv ho))
  | OTFi k => exact h.seeC (SimW.onObj h.world k fun o ho => sim_getOTFi (hv ho))
  | writeC x idx v =>
    rcases forall₂_get h.c x with ⟨e, e'⟩ | ⟨p, a, e, e', hpa⟩
    · simp only [RProg.step, VProg.step, e, e']; exact ⟨rfl, h, fun _ => ⟨Mem.Ext.refl _, KeptW.refl _⟩⟩
    · obtain ⟨u1, u2⟩ := hp p e
      by_cases hi : InShape idx a.shape
      · simp only [RProg.step, VProg.step, e, e', World.writeC, hpa, RProg.ran]
        rw [if_pos hi, if_pos hi]
        refine ⟨rfl, ⟨⟨?_, fun o ho => (h.world.valid o ho).writeC _ _⟩, forall₂_write h.c _ e u2, h.r, h.z⟩, fun hn => (hn trivial).elim⟩
        simp only [h.world.objs]
        exact List.map_congr_left fun o ho => (view_writeC (u1 o ho)).symm
      · simp only [RProg.step, VProg.step, e, e', World.writeC, hpa, RProg.ran]
        rw [if_neg hi, if_neg hi]
        exact ⟨rfl, h, fun _ => ⟨Mem.Ext.refl _, KeptW.refl _⟩⟩
  | writeR x idx v =>
    rcases forall₂_get h.r x with ⟨e, e'⟩ | ⟨p, a, e, e', hpa⟩
    · simp only [RProg.step, VProg.step, e, e']; exact ⟨rfl, h, fun _ => ⟨Mem.Ext.refl _, KeptW.refl _⟩⟩
    · obtain ⟨u1, u2⟩ := hp p e
      by_cases hi : InShape idx a.shape
      · simp only [RProg.step, VProg.step, e, e', World.writeR, hpa, RProg.ran]
        rw [if_pos hi, if_pos hi]
        refine ⟨rfl, ⟨⟨?_, fun o ho => (h.world.valid o ho).writeR _ _⟩, h.c, forall₂_write h.r _ e u2, h.z⟩, fun hn => (hn trivial).elim⟩
        simp only [h.world.objs]
        exact List.map_congr_left fun o ho => (view_writeR (u1 o ho)).symm
      · simp only [RProg.step, VProg.step, e, e', World.writeR, hpa, RProg.ran]
        rw [if_neg hi, if_neg hi]
        exact ⟨rfl, h, fun _ => ⟨Mem.Ext.refl _, KeptW.refl _⟩⟩
  | writeZ x i v =>
    rcases forall₂_get h.z x with ⟨e, e'⟩ | ⟨p, a, e, e', hpa⟩
    · simp only [RProg.step, VProg.step, e, e']; exact ⟨rfl, h, fun _ => ⟨Mem.Ext.refl _, KeptW.refl _⟩⟩
    · obtain ⟨u1, u2⟩ := hp p e
      by_cases hi : i < a.length
      · simp only [RProg.step, VProg.step, e, e', World.writeZ, hpa, RProg.ran]
        rw [if_pos hi, if_pos hi]
        refine ⟨rfl, ⟨⟨?_, fun o ho => (h.world.valid o ho).writeZ _ _⟩, h.c, h.r, forall₂_write h.z _ e u2⟩, fun hn => (hn trivial).elim⟩
        simp only [h.world.objs]
        exact List.map_congr_left fun o ho => (view_writeZ (u1 o ho)).symm
      · simp only [RProg.step, VProg.step, e, e', World.writeZ, hpa, RProg.ran]
        rw [if_neg hi, if_neg hi]
        exact ⟨rfl, h, fun _ => ⟨Mem.Ext.refl _, KeptW.refl _⟩⟩

/-! ## States a program can reach -/

/-- All references are to existing arrays. -/
def Good (s : RProg) : Prop := ∃ t, RelP s t

theorem exists_values {α : Type} (l : List α) : ∀ vs : List ℕ, (∀ p ∈ vs, ∃ a, l[p]? = some a) → ∃ xs, List.Forall₂ (fun p a => l[p]? = some a) vs xs
  | [], _ => ⟨[], .nil⟩
  | v :: vs, h => by
    obtain ⟨a, ha⟩ := h v (by simp)
    obtain ⟨xs, hxs⟩ := exists_values l vs fun p hp => h p (by simp [hp])
    exact ⟨a :: xs, .cons ha hxs⟩

theorem values_exist {α : Type} {l : List α} {vs : List ℕ} {xs : List α} (h : List.Forall₂ (fun p a => l[p]? = some a) vs xs) : ∀ p ∈ vs, ∃ a, l[p]? = some a := by
  induction h with
  | nil => simp
  | cons hab _ ih =>
    intro p hp
    rcases List.mem_cons.mp hp with rfl | hp
    · exact ⟨_, hab⟩
    · exact ih p hp

theorem good_iff (s : RProg) : Good s ↔ (∀ o ∈ s.world.objs, o.Valid s.world.mem) ∧ (∀ p ∈ s.c, ∃ a, s.world.mem.cplx[p]? = some a) ∧
    (∀ p ∈ s.r, ∃ a, s.world.mem.real[p]? = some a) ∧ (∀ p ∈ s.z, ∃ a, s.world.mem.axis[p]? = some a) := by
  constructor
  · rintro ⟨t, h⟩
    exact ⟨h.world.valid, values_exist h.c, values_exist h.r, values_exist h.z⟩
  · rintro ⟨h1, h2, h3, h4⟩
    obtain ⟨c, hc⟩ := exists_values _ _ h2
    obtain ⟨r, hr⟩ := exists_values _ _ h3
    obtain ⟨z, hz⟩ := exists_values _ _ h4
    exact ⟨⟨_, c, r, z⟩, ⟨rfl, h1⟩, hc, hr, hz⟩

/-- A write: nothing but contents changes. -/
theorem step_write {s : RProg} {st : Stmt} (hw : st.IsWrite) : ((s.step st).2 = s ∨
    (∃ p a, (s.step st).2 = { s with world := { s.world with mem := { s.world.mem with cplx := s.world.mem.cplx.set p a } } }) ∨
    (∃ p a, (s.step st).2 = { s with world := { s.world with mem := { s.world.mem with real := s.world.mem.real.set p a } } }) ∨
    (∃ p a, (s.step st).2 = { s with world := { s.world with mem := { s.world.mem with axis := s.world.mem.axis.set p a } } })) := by
  cases st with
  | writeC x idx v =>
    rcases e : s.c[x]? with _ | p
    · left; simp only [RProg.step, e, RProg.noVar]
    · simp only [RProg.step, e, RProg.ran, World.writeC]
      rcases e' : s.world.mem.cplx[p]? with _ | a
      · exact .inl rfl
      · simp only
        by_cases hi : InShape idx a.shape
        · rw [if_pos hi]; exact .inr (.inl ⟨_, _, rfl⟩)
        · rw [if_neg hi]; exact .inl rfl
  | writeR x idx v =>
    rcases e : s.r[x]? with _ | p
    · left; simp only [RProg.step, e, RProg.noVar]
    · simp only [RProg.step, e, RProg.ran, World.writeR]
      rcases e' : s.world.mem.real[p]? with _ | a
      · exact .inl rfl
      · simp only
        by_cases hi : InShape idx a.shape
        · rw [if_pos hi]; exact .inr (.inr (.inl ⟨_, _, rfl⟩))
        · rw [if_neg hi]; exact .inl rfl
  | writeZ x i v =>
    rcases e : s.z[x]? with _ | p
    · left; simp only [RProg.step, e, RProg.noVar]
    · simp only [RProg.step, e, RProg.ran, World.writeZ]
      rcases e' : s.world.mem.axis[p]? with _ | a
      · exact .inl rfl
      · simp only
        by_cases hi : i < a.length
        · rw [if_pos hi]; exact .inr (.inr (.inr ⟨_, _, rfl⟩))
        · rw [if_neg hi]; exact .inl rfl
  | _ => exact hw.elim

theorem private_of_not_write {s : RProg} {st : Stmt} (h : ¬ st.IsWrite) : st.Private s := by
  cases st <;> first | trivial | exact (h trivial).elim

open Classical in
theorem Good.step {s : RProg} (h : Good s) (st : Stmt) : Good (s.step st).2 := by
  by_cases hw : st.IsWrite
  · rw [good_iff] at h
    obtain ⟨h1, h2, h3, h4⟩ := h
    rcases step_write (s := s) hw with e | ⟨p, a, e⟩ | ⟨p, a, e⟩ | ⟨p, a, e⟩ <;> rw [e, good_iff]
    · exact ⟨h1, h2, h3, h4⟩
    · exact ⟨fun o ho => (h1 o ho).writeC _ _, fun q hq => some_of_set _ _ _ _ (h2 q hq), h3, h4⟩
    · exact ⟨fun o ho => (h1 o ho).writeR _ _, h2, fun q hq => some_of_set _ _ _ _ (h3 q hq), h4⟩
    · exact ⟨fun o ho => (h1 o ho).writeZ _ _, h2, h3, fun q hq => some_of_set _ _ _ _ (h4 q hq)⟩
  · obtain ⟨t, ht⟩ := h
    exact ⟨_, (step_sim ht st (private_of_not_write hw)).rel⟩

theorem good_empty : Good RProg.empty := ⟨VProg.empty, ⟨rfl, by simp [RProg.empty]⟩, .nil, .nil, .nil⟩

theorem Good.run {s : RProg} (h : Good s) (prog : List Stmt) : Good (runHistory RProg.step s prog).2 := by
  induction prog generalizing s with
  | nil => exact h
  | cons st rest ih => exact ih (h.step st)

/-! ## Who holds an array -/

theorem getPSFa_holds {s : RState} {r : ℕ} (h : (RState.getPSFa s).1 = .ok r) : (RState.getPSFa s).2.self.obj.psfa = some r := by
  rcases e : s.self.obj.psfa with _ | q
  · simp only [RState.getPSFa, PyM.bind_apply, PyM.get_apply, e] at h ⊢
    revert h
    rcases RState.genPsf none s with ⟨x | a, s'⟩
    · intro h; cases h
    · intro h; cases h; rfl
  · simp only [RState.getPSFa, PyM.bind_apply, PyM.get_apply, e] at h ⊢
    cases h; exact e

theorem getOTFa_holds {s : RState} {r : ℕ} (h : (RState.getOTFa s).1 = .ok r) : (RState.getOTFa s).2.self.obj.otfa = some r := by
  rcases e : s.self.obj.otfa with _ | q
  · simp only [RState.getOTFa, PyM.bind_apply, PyM.get_apply, e] at h ⊢
    revert h
    rcases RState.getPSFa s with ⟨x | a, s'⟩
    · intro h; cases h
    · simp only
      rcases RState.derefC a s' with ⟨x | b, s''⟩
      · intro h; cases h
      · simp only [PyM.lift_apply]
        rcases hanserOTFa b with x | t
        · intro h; cases h
        · intro h; cases h; rfl
  · simp only [RState.getOTFa, PyM.bind_apply, PyM.get_apply, e] at h ⊢
    cases h; exact e

theorem getPSFi_holds {s : RState} {r : ℕ} (h : (RState.getPSFi s).1 = .ok r) : (RState.getPSFi s).2.self.obj.psfi = some r := by
  rcases e : s.self.obj.psfi with _ | q
  · simp only [RState.getPSFi, PyM.bind_apply, PyM.get_apply, e] at h ⊢
    revert h
    rcases RState.getPSFa s with ⟨x | a, s'⟩
    · intro h; cases h
    · simp only
      rcases RState.derefC a s' with ⟨x | b, s''⟩
      · intro h; cases h
      · intro h; cases h; rfl
  · simp only [RState.getPSFi, PyM.bind_apply, PyM.get_apply, e] at h ⊢
    cases h; exact e

theorem getOTFi_holds {s : RState} {r : ℕ} (h : (RState.getOTFi s).1 = .ok r) : (RState.getOTFi s).2.self.obj.otfi = some r := by
  rcases e : s.self.obj.otfi with _ | q
  · simp only [RState.getOTFi, PyM.bind_apply, PyM.get_apply, e] at h ⊢
    revert h
    rcases RState.getPSFi s with ⟨x | a, s'⟩
    · intro h; cases h
    · simp only
      rcases RState.derefR a s' with ⟨x | b, s''⟩
      · intro h; cases h
      · simp only [PyM.lift_apply]
        rcases otfiOf b with x | t
        · intro h; cases h
        · intro h; cases h; rfl
  · simp only [RState.getOTFi, PyM.bind_apply, PyM.get_apply, e] at h ⊢
    cases h; exact e

theorem onObj_holds {w : World} {k p : ℕ} {m : PyM RState ℕ} {H : RObj → Prop} (hm : ∀ s : RState, (m s).1 = .ok p → H (m s).2.self)
    (h : (World.onObj k m w).1 = .ok p) : ∃ o ∈ (World.onObj k m w).2.objs, H o := by
  rcases e : w.objs[k]? with _ | o
  · simp only [World.onObj, e] at h; cases h
  · simp only [World.onObj, e] at h ⊢
    refine ⟨_, List.mem_iff_getElem?.mpr ⟨k, ?_⟩, hm _ h⟩
    rw [List.getElem?_set_self (List.getElem?_eq_some_iff.mp e).1]

/-- Variable `x` holds the complex array `p`, nobody else does. -/
structure Own (s : RProg) (x p : ℕ) : Prop where
  var : s.c[x]? = some p
  exists_ : p < s.world.mem.cplx.length
  models : ∀ o ∈ s.world.objs, ¬ o.HoldsC p
  only : ∀ y, s.c[y]? = some p → y = x

theorem own_push {s : RProg} {x p q : ℕ} (h : Own s x p) (hq : q ≠ p) {w : World} (hw : ∀ o ∈ w.objs, ¬ o.HoldsC p)
    (hl : s.world.mem.cplx.length ≤ w.mem.cplx.length) : Own { s with world := w, c := s.c ++ [q] } x p := by
  have hx := (List.getElem?_eq_some_iff.mp h.var).1
  refine ⟨by simp only; rw [List.getElem?_append_left hx]; exact h.var, h.exists_.trans_le hl, hw, fun y hy => ?_⟩
  simp only at hy
  by_cases hyl : y < s.c.length
  · rw [List.getElem?_append_left hyl] at hy
    exact h.only y hy
  · rw [List.getElem?_append_right (by omega)] at hy
    rcases hz : y - s.c.length with _ | n
    · rw [hz] at hy; simp at hy; exact (hq hy).elim
    · rw [hz] at hy; simp at hy

open Classical in
theorem Own.step {s : RProg} {x p : ℕ} (h : Own s x p) (hg : Good s) (st : Stmt) : Own (s.step st).2 x p := by
  by_cases hw : st.IsWrite
  · rcases step_write (s := s) hw with e | ⟨q, a, e⟩ | ⟨q, a, e⟩ | ⟨q, a, e⟩ <;> rw [e]
    · exact h
    · exact ⟨h.var, by simpa using h.exists_, h.models, h.only⟩
    · exact ⟨h.var, h.exists_, h.models, h.only⟩
    · exact ⟨h.var, h.exists_, h.models, h.only⟩
  · obtain ⟨t, ht⟩ := hg
    obtain ⟨he, hk⟩ := (step_sim ht st (private_of_not_write hw)).frame hw
    have hmod : ∀ o ∈ (s.step st).2.world.objs, ¬ o.HoldsC p := fun o ho hh =>
      (hk.1 p ⟨o, ho, hh⟩).elim (fun ⟨o', ho', hh'⟩ => h.models o' ho' hh') fun hl => absurd h.exists_ (by omega)
    have hlen := he.lengths.1
    have same : (s.step st).2.c = s.c → Own (s.step st).2 x p := fun hc =>
      ⟨by rw [hc]; exact h.var, h.exists_.trans_le hlen, hmod, by rw [hc]; exact h.only⟩
    have see : ∀ (k : ℕ) (m : PyM RState ℕ), (∀ (q : ℕ) (u : RState), (m u).1 = .ok q → (m u).2.self.HoldsC q) →
        s.step st = s.seeC (World.onObj k m s.world) → Own (s.step st).2 x p := by
      intro k m hm e
      rw [e] at hmod hlen ⊢
      have hh := fun q => onObj_holds (w := s.world) (k := k) (p := q) (m := m) (H := fun o => o.HoldsC q) (hm q)
      rcases e' : World.onObj k m s.world with ⟨r, w⟩
      rw [e'] at hmod hlen hh
      rcases r with er | q
      · exact ⟨h.var, h.exists_.trans_le hlen, hmod, h.only⟩
      · obtain ⟨o, ho, hq⟩ := hh q rfl
        exact own_push h (fun e => hmod o ho (e ▸ hq)) hmod hlen
    cases st with
    | pupil P => exact own_push h h.exists_.ne' hmod hlen
    | PSFa k => exact see k _ (fun q u hu => .inl (getPSFa_holds hu)) rfl
    | OTFa k => exact see k _ (fun q u hu => .inr (.inl (getOTFa_holds hu))) rfl
    | OTFi k => exact see k _ (fun q u hu => .inr (.inr (getOTFi_holds hu))) rfl
    | PSFi k => exact same (by simp only [RProg.step]; rcases World.onObj k RState.getPSFi s.world with ⟨r | r, w⟩ <;> rfl)
    | planes z => exact same rfl
    | zrange k => exact same (by simp only [RProg.step]; rcases World.onObj k (fun t => (.ok t.self.zref, t)) s.world with ⟨r | r, w⟩ <;> rfl)
    | newWith a y => exact same (by simp only [RProg.step]; rcases s.z[y]? with _ | q <;> rfl)
    | setZrangeVar k y => exact same (by simp only [RProg.step]; rcases s.z[y]? with _ | q <;> rfl)
    | applyPupil k y => exact same (by simp only [RProg.step]; rcases s.c[y]? with _ | q <;> rfl)
    | writeC => exact (hw trivial).elim
    | writeR => exact (hw trivial).elim
    | writeZ => exact (hw trivial).elim
    | _ => exact same rfl

end PyOTF
