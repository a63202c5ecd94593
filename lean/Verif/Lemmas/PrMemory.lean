import Verif.Spec.PrAliasing
import Verif.Lemmas.MemoryStep
import Verif.Lemmas.MicroNew
import Verif.Lemmas.PrSetup

/-!
# Results by reference and with values: the simulation of the methods
-/

namespace PyOTF

/-! ## Contents of results and decompositions -/

theorem pload_iff {m : Mem} {x : PSlot ℕ} {y : PSlot (Arr ℝ)} : x.load m = .ok y ↔ m.real[x.mag]? = some y.mag ∧ m.real[x.phase]? = some y.phase ∧
    m.real[x.r]? = some y.r ∧ m.real[x.theta]? = some y.theta ∧ y.na = x.na ∧ y.wl = x.wl ∧ y.model = x.model ∧ y.zd = x.zd := by
  unfold PSlot.load
  rcases m.real[x.mag]? with _ | a <;> rcases m.real[x.phase]? with _ | b <;> rcases m.real[x.r]? with _ | c <;> rcases m.real[x.theta]? with _ | d <;> simp
  constructor
  · rintro rfl; simp
  · rintro ⟨rfl, rfl, rfl, rfl, h1, h2, h3, h4⟩
    rw [← h1, ← h2, ← h3, ← h4]

theorem zload_iff {m : Mem} {x : ZSlot ℕ} {y : ZSlot (Arr ℝ)} : x.load m = .ok y ↔ m.real[x.mcoefs]? = some y.mcoefs ∧ m.real[x.pcoefs]? = some y.pcoefs ∧
    m.real[x.zerns]? = some y.zerns := by
  unfold ZSlot.load
  rcases m.real[x.mcoefs]? with _ | a <;> rcases m.real[x.pcoefs]? with _ | b <;> rcases m.real[x.zerns]? with _ | c <;> simp
  constructor
  · rintro rfl; simp
  · rintro ⟨rfl, rfl, rfl⟩; rfl

theorem pload_ext {m m' : Mem} (he : m.Ext m') {x : PSlot ℕ} {y : PSlot (Arr ℝ)} (h : x.load m = .ok y) : x.load m' = .ok y := by
  rw [pload_iff] at h ⊢
  exact ⟨he.real _ _ h.1, he.real _ _ h.2.1, he.real _ _ h.2.2.1, he.real _ _ h.2.2.2.1, h.2.2.2.2⟩

theorem zload_ext {m m' : Mem} (he : m.Ext m') {x : ZSlot ℕ} {y : ZSlot (Arr ℝ)} (h : x.load m = .ok y) : x.load m' = .ok y := by
  rw [zload_iff] at h ⊢
  exact ⟨he.real _ _ h.1, he.real _ _ h.2.1, he.real _ _ h.2.2⟩

theorem pload_write {m : Mem} {p : ℕ} {a : Arr ℝ} {x : PSlot ℕ} (hp : ¬ x.Holds p) : x.load { m with real := m.real.set p a } = x.load m := by
  simp only [PSlot.Holds, not_or] at hp
  simp only [PSlot.load, set_other _ _ _ _ hp.1, set_other _ _ _ _ hp.2.1, set_other _ _ _ _ hp.2.2.1, set_other _ _ _ _ hp.2.2.2]

theorem zload_write {m : Mem} {p : ℕ} {a : Arr ℝ} {x : ZSlot ℕ} (hp : ¬ x.Holds p) : x.load { m with real := m.real.set p a } = x.load m := by
  simp only [ZSlot.Holds, not_or] at hp
  simp only [ZSlot.load, set_other _ _ _ _ hp.1, set_other _ _ _ _ hp.2.1, set_other _ _ _ _ hp.2.2]

theorem coefList_coefArr (l : List ℝ) : coefList (coefArr l) = l := by
  apply List.ext_getElem
  · simp [coefList, coefArr]
  · intro i h1 h2
    simp [coefList, coefArr, h2]

/-! ## Building blocks -/

theorem SimW.lift {α β : Type} {w : World} {h : Heap} (hw : RelW w h) {c : World → α → β → Prop} {x : Py α} {y : Py β} (hxy : Match (c w) x y) :
    SimW w h c (PyM.lift x) (PyM.lift y) := ⟨hw, Mem.Ext.refl _, KeptW.refl _, hxy⟩

theorem match_eq {α : Type} (x : Py α) : Match (fun a b => a = b) x x := by rcases x with e | a <;> exact rfl

theorem SimW.allocR {w : World} {h : Heap} (hw : RelW w h) (a : Arr ℝ) : SimW w h (fun w p b => w.mem.real[p]? = some b) (World.allocR a) (PyM.lift (.ok a)) :=
  ⟨hw.alloc (ext_allocR _ _), ext_allocR _ _, ⟨fun _ x => .inl x, fun _ x => .inl x⟩, by simp [World.allocR, Match]⟩

theorem SimW.allocC {w : World} {h : Heap} (hw : RelW w h) (a : Arr ℂ) : SimW w h (fun w p b => w.mem.cplx[p]? = some b) (World.allocC a) (PyM.lift (.ok a)) :=
  ⟨hw.alloc (ext_allocC _ _), ext_allocC _ _, ⟨fun _ x => .inl x, fun _ x => .inl x⟩, by simp [World.allocC, Match]⟩

theorem SimW.congr {α β : Type} {w : World} {h : Heap} {c : World → α → β → Prop} {m n : PyM World α} {m' n' : PyM Heap β} (hm : SimW w h c m m') (e : n w = m w) (e' : n' h = m' h) :
    SimW w h c n n' := ⟨by rw [e, e']; exact hm.rel, by rw [e]; exact hm.ext, by rw [e]; exact hm.held, by rw [e, e']; exact hm.out⟩

/-- A value computed from the contents goes into a new real array. -/
theorem SimW.newR {w : World} {h : Heap} (hw : RelW w h) (x : Py (Arr ℝ)) :
    SimW w h (fun w p b => w.mem.real[p]? = some b) (do World.allocR (← PyM.lift x)) (PyM.lift x) := by
  rcases x with e | a
  · exact ⟨hw, Mem.Ext.refl _, KeptW.refl _, rfl⟩
  · exact (SimW.allocR hw a).congr rfl rfl

@[inherit_doc SimW.newR]
theorem SimW.newC {w : World} {h : Heap} (hw : RelW w h) (x : Py (Arr ℂ)) :
    SimW w h (fun w p b => w.mem.cplx[p]? = some b) (do World.allocC (← PyM.lift x)) (PyM.lift x) := by
  rcases x with e | a
  · exact ⟨hw, Mem.Ext.refl _, KeptW.refl _, rfl⟩
  · exact (SimW.allocC hw a).congr rfl rfl

theorem SimW.temporary {α β : Type} {w : World} {h : Heap} (hw : RelW w h) {c : Mem → α → β → Prop} {m : PyM World α} {m' : PyM Heap β} (hm : SimW w h (fun v => c v.mem) m m') :
    SimW w h (fun v => c v.mem) (World.temporary m) (QVProg.dropped m') := by
  have hl : h.length = w.objs.length := by rw [hw.objs, List.length_map]
  refine ⟨⟨?_, fun o ho => hm.rel.valid o (List.mem_of_mem_take ho)⟩, hm.ext, ⟨?_, ?_⟩, hm.out⟩
  · simp only [World.temporary, QVProg.dropped, hl, hm.rel.objs, List.map_take]
  · rintro p ⟨o, ho, hp⟩
    exact hm.held.1 p ⟨o, List.mem_of_mem_take ho, hp⟩
  · rintro p ⟨o, ho, hp⟩
    exact hm.held.2 p ⟨o, List.mem_of_mem_take ho, hp⟩

/-! ## `generate_psf` -/

/-- The argument `zrange` by reference and as a value. -/
def ZMatch (m : Mem) : ZGiven → Option ZArg → Prop
  | .omitted, none => True
  | .value z, some z' => z = z'
  | .array p, some (.seq l) => m.axis[p]? = some l
  | _, _ => False

theorem ZMatch.ext {m m' : Mem} (he : m.Ext m') {z : ZGiven} {v : Option ZArg} (h : ZMatch m z v) : ZMatch m' z v := by
  rcases z with _ | z | p <;> rcases v with _ | (v | v) <;> first | exact h | exact he.axis _ _ h

theorem resizePsf_same {size : Option ℤ} {psf b : Arr ℝ} (h : resizePsf size psf = .ok b) (hs : size = none ∨ size = some ((psf.shape.getD 2 0 : ℕ) : ℤ)) : b = psf := by
  unfold resizePsf at h
  rcases e : psf.shape with _ | ⟨nz, _ | ⟨ny, _ | ⟨nx, _ | ⟨q, l⟩⟩⟩⟩ <;> rw [e] at h hs <;> try (cases h)
  simp only at h
  split at h
  · cases h
  · rcases hs with rfl | rfl
    · exact (Except.ok.inj h).symm
    · simp at h
      exact h.symm

theorem SimW.resized {w : World} {h : Heap} (hw : RelW w h) (size : Option ℤ) {r : ℕ} {a : Arr ℝ} (hr : w.mem.real[r]? = some a) :
    SimW w h (fun w p b => w.mem.real[p]? = some b) (World.resized size r) (PyM.lift (resizePsf size a)) := by
  rcases e : resizePsf size a with x | b
  · refine SimW.congr (SimW.lift hw (x := .error x) (y := .error x) rfl) ?_ rfl
    simp only [World.resized, PyM.bind_apply, PyM.get_apply, hr, PyM.lift_apply, e]
  · by_cases hs : size = none ∨ size = some ((a.shape.getD 2 0 : ℕ) : ℤ)
    · obtain rfl := resizePsf_same e hs
      refine SimW.congr (SimW.lift hw (x := .ok r) (y := .ok b) hr) ?_ rfl
      simp only [World.resized, PyM.bind_apply, PyM.get_apply, hr, PyM.lift_apply, e, if_pos hs, PyM.pure_apply]
    · refine SimW.congr (SimW.allocR hw b) ?_ rfl
      simp only [World.resized, PyM.bind_apply, PyM.get_apply, hr, PyM.lift_apply, e, if_neg hs]

theorem SimW.skip {w : World} {h : Heap} (hw : RelW w h) : SimW w h (fun _ _ _ => True) (pure () : PyM World Unit) (pure () : PyM Heap Unit) :=
  ⟨hw, Mem.Ext.refl _, KeptW.refl _, trivial⟩

theorem SimW.assignPlanes {w : World} {h : Heap} (hw : RelW w h) (j : ℕ) {z : ZGiven} {v : Option ZArg} (hz : ZMatch w.mem z v) :
    SimW w h (fun _ _ _ => True) (World.assignPlanes j z) (match v with | some z => onRef j (setZrange z) | none => pure ()) := by
  rcases z with _ | z | p <;> rcases v with _ | (v | v)
  · exact SimW.skip hw
  · exact hz.elim
  · exact hz.elim
  · exact hz.elim
  · obtain rfl := hz
    exact SimW.onObj (c := fun _ _ _ => True) hw j fun o ho => sim_setZrange (hw.valid o (List.mem_of_getElem? ho)) _
  · obtain rfl := hz
    exact SimW.onObj (c := fun _ _ _ => True) hw j fun o ho => sim_setZrange (hw.valid o (List.mem_of_getElem? ho)) _
  · exact hz.elim
  · exact hz.elim
  · exact SimW.onObj (c := fun _ _ _ => True) hw j fun o ho => sim_assignZrange p v hz

theorem SimW.generated {w : World} {h : Heap} (hw : RelW w h) (j : ℕ) (P : Arr ℂ) (size : Option ℤ) {z : ZGiven} {v : Option ZArg} (hz : ZMatch w.mem z v)
    {m : PyM World ℕ} {m' : PyM Heap (Arr ℝ)}
    (hm : m = (World.assignPlanes j z >>= fun _ => World.onObj j (RState.applyPupil (ifftshift none P)) >>= fun _ => World.onObj j RState.getPSFi >>= fun r => World.resized size r))
    (hm' : m' = ((match v with | some z => onRef j (setZrange z) | none => pure ()) >>= fun _ => onRef j (HObj.applyPupil (ifftshift none P)) >>= fun _ =>
      onRef j HObj.getPSFi >>= fun a => PyM.lift (resizePsf size a))) : SimW w h (fun w p b => w.mem.real[p]? = some b) m m' := by
  subst hm hm'
  refine SimW.bind (SimW.assignPlanes hw j hz) fun _ _ _ _ _ hw3 => ?_
  refine SimW.bind (c := fun _ _ _ => True) (SimW.onObj (c := fun _ _ _ => True) hw3 j fun o ho => sim_applyPupil (hw3.valid o (List.mem_of_getElem? ho)) _)
    fun _ _ _ _ _ hw4 => ?_
  refine SimW.bind (SimW.onObj hw4 j fun o ho => sim_getPSFi (hw4.valid o (List.mem_of_getElem? ho))) fun r a _ _ hra hw5 => ?_
  exact SimW.resized hw5 size hra

theorem SimW.generatePsf {w : World} {h : Heap} (hw : RelW w h) (k : ℕ) (P : Arr ℂ) (size : Option ℤ) (zsize : Option PyVal) {z : ZGiven} {v : Option ZArg}
    (hz : ZMatch w.mem z v) : SimW w h (fun w p b => w.mem.real[p]? = some b) (World.generatePsf k P size zsize z) (QVProg.dropped (PyOTF.generatePsf k P size zsize v)) := by
  refine SimW.temporary hw (c := fun m p b => m.real[p]? = some b) ?_
  have hc := SimW.copy hw k
  refine SimW.bind hc fun j j' _ _ (hj : j = j') hw1 => ?_
  subst hj
  have hz1 := hz.ext hc.ext
  rcases zsize with _ | s
  · refine SimW.generated hw1 j P size hz1 rfl ?_
    rcases v with _ | v <;> rfl
  · have hs : SimW (World.copy k w).2 (copyRef k h).2 (fun _ _ _ => True) (World.onObj j (RState.set .zsize s)) (onRef j (setAttr .hanser .zsize s)) :=
      SimW.onObj (c := fun _ _ _ => True) hw1 j fun o ho => sim_set (hw1.valid o (List.mem_of_getElem? ho)) _ _
    refine SimW.bind hs fun _ _ _ _ _ hw2 => ?_
    refine SimW.generated hw2 j P size (hz1.ext hs.ext) rfl ?_
    rcases v with _ | v <;> rfl

/-! ## The model of a result -/

theorem getPSFa_params (o : HObj) : (HObj.getPSFa o).2.params = o.params := by
  obtain ⟨params, psfa, otfa, psfi, otfi⟩ := o
  rcases psfa with _ | a
  · simp only [HObj.getPSFa, HObj.genPsf, PyM.bind_apply, PyM.get_apply, attributeChanged, PyM.modify_apply, PyM.lift_apply]
    rcases hanserGenPsf params none with e | b <;> rfl
  · rfl

theorem getPSFi_params (o : HObj) : (HObj.getPSFi o).2.params = o.params := by
  have hp := getPSFa_params o
  obtain ⟨params, psfa, otfa, psfi, otfi⟩ := o
  rcases psfi with _ | a
  · simp only [HObj.getPSFi, PyM.bind_apply, PyM.get_apply]
    rcases e : HObj.getPSFa ⟨params, psfa, otfa, none, otfi⟩ with ⟨x | a, o'⟩ <;> rw [e] at hp <;> exact hp
  · rfl

theorem applyPupil_params (P : Arr ℂ) (o : HObj) : (HObj.applyPupil P o).2.params = o.params := by
  rw [applyPupil_run]
  rcases hanserGenPsf o.params (some P) with e | b <;> rfl

theorem prBody_params {c : PrConf} {s s' : PrState} {b : Bool} (h : prBody c s = .ok (s', b)) : s'.model.params = s.model.params := by
  unfold prBody at h
  obtain ⟨_, -, h⟩ := py_bind_ok h
  obtain ⟨psfi, -, h⟩ := py_bind_ok h
  obtain ⟨mse, -, h⟩ := py_bind_ok h
  obtain ⟨⟨d1, d2⟩, -, h⟩ := py_bind_ok h
  simp only at h
  split at h
  · obtain ⟨rfl, -⟩ := Prod.mk.inj (Except.ok.inj h)
    simp only [getPSFi_params, applyPupil_params]
  · obtain ⟨psfa, -, h⟩ := py_bind_ok h
    obtain ⟨new, -, h⟩ := py_bind_ok h
    obtain ⟨rfl, -⟩ := Prod.mk.inj (Except.ok.inj h)
    simp only [getPSFa_params, getPSFi_params, applyPupil_params]

theorem prLoop_params {c : PrConf} {n : ℕ} {s s' : PrState} (h : prLoop c n s = .ok s') : s'.model.params = s.model.params := by
  induction n generalizing s with
  | zero => obtain rfl := Except.ok.inj h; rfl
  | succ n ih =>
    unfold prLoop at h
    rcases e : prBody c s with x | ⟨s1, _ | _⟩ <;> rw [e] at h
    · cases h
    · exact (ih h).trans (prBody_params e)
    · obtain rfl := Except.ok.inj h
      exact prBody_params e

theorem hanserOfDict_zrange {d : PyDict} {o : HObj} (h : hanserOfDict d = .ok o) : ∃ l, o.params.zrange = some l ∧ ∀ y, d.find "zrange" = some (.seq y) → l = y := by
  unfold hanserOfDict at h
  simp only at h
  split at h
  · cases h
  obtain ⟨_, -, h⟩ := py_bind_ok h
  obtain ⟨_, -, h⟩ := py_bind_ok h
  obtain ⟨_, -, h⟩ := py_bind_ok h
  obtain ⟨_, -, h⟩ := py_bind_ok h
  obtain ⟨_, -, h⟩ := py_bind_ok h
  have hz : ∃ z, (match d.find "zrange" with | some v => v.zrange | none => Except.ok none) = Except.ok z ∧ ∃ a, HObj.new a z = .ok o := by
    rcases e : d.find "zrange" with _ | v <;> rw [e] at h
    · exact ⟨_, rfl, _, h⟩
    · obtain ⟨z, hz, h⟩ := py_bind_ok h
      exact ⟨z, hz, _, h⟩
  obtain ⟨z, hz, _, h⟩ := hz
  obtain ⟨l, hl, hl'⟩ := new_zrange h
  refine ⟨l, hl, fun y hy => ?_⟩
  rw [hy] at hz
  have hz : some (ZArg.seq y) = z := Except.ok.inj hz
  exact hl' _ hz.symm

/-- The model of a result has planes, and those listed in the dictionary if there are. -/
theorem retrieved_zrange {unwrap : Arr ℝ → Arr ℝ} {data : Arr ℝ} {n : ℤ} {pt mt : ℝ} {po : Bool} {d : PyDict} {x : PRResult}
    (h : (retrievePhase unwrap data n pt mt po d).1 = .ok x) : ∃ l, x.model.params.zrange = some l ∧ ∀ y, d.find "zrange" = some (.seq y) → l = y := by
  unfold retrievePhase at h
  rw [PyM.bind_apply, PyM.lift_apply] at h
  rcases e : prChecks data n with er | ⟨nz, nx⟩ <;> rw [e] at h
  · cases h
  · simp only [PyM.bind_apply, PyM.modify_apply, PyM.get_apply, PyM.lift_apply] at h
    unfold prRun at h
    obtain ⟨model, hm, h⟩ := py_bind_ok h
    obtain ⟨hn, -, h⟩ := py_bind_ok h
    obtain ⟨s, hs, h⟩ := py_bind_ok h
    obtain ⟨ph, -, h⟩ := py_bind_ok h
    obtain ⟨mg, -, h⟩ := py_bind_ok h
    unfold PRResult.new at h
    obtain ⟨_, -, h⟩ := py_bind_ok h
    obtain ⟨_, -, h⟩ := py_bind_ok h
    obtain ⟨_, -, h⟩ := py_bind_ok h
    obtain rfl := Except.ok.inj h
    obtain ⟨l, hl, hl'⟩ := hanserOfDict_zrange hm
    refine ⟨l, by simp only [prLoop_params hs, hl], fun y hy => hl' y ?_⟩
    rw [find_override]
    simpa using hy

/-! ## A new model -/

theorem allocArr_spec {α : Type} (l : List α) (x : Option α) : (∀ (r : ℕ) a, l[r]? = some a → (World.allocArr l x).2[r]? = some a) ∧
    (World.allocArr l x).1.bind ((World.allocArr l x).2[·]?) = x ∧ ∀ r, (World.allocArr l x).1 = some r → l.length ≤ r ∧ r < (World.allocArr l x).2.length := by
  rcases x with _ | a
  · exact ⟨fun _ _ h => h, rfl, fun _ h => by cases h⟩
  · refine ⟨fun r b h => append_ext _ _ _ _ h, by simp [World.allocArr], fun r h => ?_⟩
    have h : some l.length = some r := h
    obtain rfl := Option.some.inj h
    simp [World.allocArr]

/-- `adopt`: new arrays for the caches. -/
theorem adopt_spec {w : World} {h : Heap} (hw : RelW w h) {o : HObj} {z : Option ℕ} {l : List PyFloat} (hl : o.params.zrange = some l) (hz : ∀ p, z = some p → w.mem.axis[p]? = some l) :
    ∃ w' o', World.adopt o z w = (.ok w.objs.length, w') ∧ w'.objs = w.objs ++ [o'] ∧ RelW w' (h ++ [o]) ∧ w.mem.Ext w'.mem ∧
      (∀ r, o'.HoldsC r → w.mem.cplx.length ≤ r) ∧ (∀ r, o'.obj.psfi = some r → w.mem.real.length ≤ r) ∧ (∀ p, z = some p → o'.zref = p) ∧
      (z = none → w.mem.axis.length ≤ o'.zref) := by
  obtain ⟨a1, a2, a3⟩ := allocArr_spec w.mem.cplx o.psfa
  obtain ⟨b1, b2, b3⟩ := allocArr_spec (World.allocArr w.mem.cplx o.psfa).2 o.otfa
  obtain ⟨c1, c2, c3⟩ := allocArr_spec (World.allocArr (World.allocArr w.mem.cplx o.psfa).2 o.otfa).2 o.otfi
  obtain ⟨d1, d2, d3⟩ := allocArr_spec w.mem.real o.psfi
  set psfa := World.allocArr w.mem.cplx o.psfa with hpsfa
  set otfa := World.allocArr psfa.2 o.otfa with hotfa
  set otfi := World.allocArr otfa.2 o.otfi with hotfi
  set psfi := World.allocArr w.mem.real o.psfi with hpsfi
  set ax := World.planesFor w.mem.axis (o.params.zrange.getD []) z with hax
  have hax1 : ax.2[ax.1]? = some l := by
    rcases z with _ | p
    · simp [hax, World.planesFor, hl]
    · exact hz p rfl
  have hax2 : ∀ (r : ℕ) a, w.mem.axis[r]? = some a → ax.2[r]? = some a := by
    intro r a hr
    rcases z with _ | p
    · exact append_ext _ _ _ _ hr
    · exact hr
  have hext : w.mem.Ext ⟨otfi.2, psfi.2, ax.2⟩ := ⟨fun r a hr => c1 r a (b1 r a (a1 r a hr)), d1, hax2⟩
  have len : ∀ {α : Type} (l l' : List α) (_ : ∀ (r : ℕ) (a : α), l[r]? = some a → l'[r]? = some a), l.length ≤ l'.length := by
    intro α l l' hl
    by_contra hc
    have hlt : l'.length < l.length := by omega
    have := hl l'.length _ (List.getElem?_eq_getElem hlt)
    simp at this
  have keep : ∀ {α : Type} (l l' : List α) (x : Option ℕ) (y : Option α) (_ : ∀ (r : ℕ) (a : α), l[r]? = some a → l'[r]? = some a) (_ : x.bind (l[·]?) = y) (_ : ∀ r, x = some r → r < l.length),
      x.bind (l'[·]?) = y := by
    intro α l l' x y hl hx hlt
    rcases x with _ | r
    · exact hx
    · have hr := hlt r rfl
      simp only [Option.bind_some] at hx ⊢
      rw [← hx, List.getElem?_eq_getElem hr]
      exact hl r _ (List.getElem?_eq_getElem hr)
  have ea : psfa.1.bind (otfi.2[·]?) = o.psfa := keep otfa.2 _ _ _ c1 (keep psfa.2 _ _ _ b1 a2 fun r hr => (a3 r hr).2) fun r hr => (a3 r hr).2.trans_le (len _ _ b1)
  have eb : otfa.1.bind (otfi.2[·]?) = o.otfa := keep otfa.2 _ _ _ c1 b2 fun r hr => (b3 r hr).2
  have hview : RObj.view ⟨otfi.2, psfi.2, ax.2⟩ ⟨{ params := o.params, psfa := psfa.1, otfa := otfa.1, psfi := psfi.1, otfi := otfi.1 }, ax.1⟩ = o := by
    simp only [RObj.view, ea, eb, c2, d2, hax1, ← hl]
  have some_of : ∀ {α : Type} (l : List α) (r : ℕ), r < l.length → ∃ a, l[r]? = some a := fun l r hr => ⟨_, List.getElem?_eq_getElem hr⟩
  have hv : RObj.Valid ⟨otfi.2, psfi.2, ax.2⟩ ⟨{ params := o.params, psfa := psfa.1, otfa := otfa.1, psfi := psfi.1, otfi := otfi.1 }, ax.1⟩ :=
    ⟨⟨l, hax1⟩, fun r hr => some_of _ _ ((a3 r hr).2.trans_le ((len _ _ b1).trans (len _ _ c1))), fun r hr => some_of _ _ ((b3 r hr).2.trans_le (len _ _ c1)),
      fun r hr => some_of _ _ (d3 r hr).2, fun r hr => some_of _ _ (c3 r hr).2⟩
  refine ⟨_, _, rfl, rfl, ?_, hext, ?_, fun r hr => (d3 r hr).1, ?_, ?_⟩
  · have := (hw.alloc hext).push hv
    rw [hview] at this
    exact this
  · rintro r (hr | hr | hr)
    · exact (a3 r hr).1
    · exact (len _ _ a1).trans (b3 r hr).1
    · exact ((len _ _ a1).trans (len _ _ b1)).trans (c3 r hr).1
  · rintro p rfl; rfl
  · rintro rfl; exact le_refl _

end PyOTF
