import Verif.Spec.Aliasing
import Verif.Props.C31_Hanser

/-!
# The references of a `HanserPSF`, and the values behind them
-/

namespace PyOTF

/-- `m'` holds what `m` holds, and possibly more. -/
structure Mem.Ext (m m' : Mem) : Prop where
  cplx : ∀ (r : ℕ) (a : Arr ℂ), m.cplx[r]? = some a → m'.cplx[r]? = some a
  real : ∀ (r : ℕ) (a : Arr ℝ), m.real[r]? = some a → m'.real[r]? = some a
  axis : ∀ (r : ℕ) (a : List PyFloat), m.axis[r]? = some a → m'.axis[r]? = some a

theorem Mem.Ext.refl (m : Mem) : m.Ext m := ⟨fun _ _ h => h, fun _ _ h => h, fun _ _ h => h⟩

theorem Mem.Ext.trans {a b c : Mem} (h : a.Ext b) (h' : b.Ext c) : a.Ext c :=
  ⟨fun _ _ x => h'.cplx _ _ (h.cplx _ _ x), fun _ _ x => h'.real _ _ (h.real _ _ x), fun _ _ x => h'.axis _ _ (h.axis _ _ x)⟩

/-- The object as the value model sees it. -/
def RObj.view (m : Mem) (o : RObj) : HObj :=
  { params := { o.obj.params with zrange := m.axis[o.zref]? }
    psfa := o.obj.psfa.bind (m.cplx[·]?)
    otfa := o.obj.otfa.bind (m.cplx[·]?)
    psfi := o.obj.psfi.bind (m.real[·]?)
    otfi := o.obj.otfi.bind (m.cplx[·]?) }

/-- All references of the object are to existing arrays. -/
structure RObj.Valid (m : Mem) (o : RObj) : Prop where
  zref : ∃ z, m.axis[o.zref]? = some z
  psfa : ∀ r, o.obj.psfa = some r → ∃ a, m.cplx[r]? = some a
  otfa : ∀ r, o.obj.otfa = some r → ∃ a, m.cplx[r]? = some a
  psfi : ∀ r, o.obj.psfi = some r → ∃ a, m.real[r]? = some a
  otfi : ∀ r, o.obj.otfi = some r → ∃ a, m.cplx[r]? = some a

theorem RObj.Valid.ext {m m' : Mem} {o : RObj} (h : o.Valid m) (he : m.Ext m') : o.Valid m' :=
  ⟨h.zref.imp fun _ x => he.axis _ _ x, fun r hr => (h.psfa r hr).imp fun _ x => he.cplx _ _ x, fun r hr => (h.otfa r hr).imp fun _ x => he.cplx _ _ x,
    fun r hr => (h.psfi r hr).imp fun _ x => he.real _ _ x, fun r hr => (h.otfi r hr).imp fun _ x => he.cplx _ _ x⟩

theorem view_ext {m m' : Mem} {o : RObj} (h : o.Valid m) (he : m.Ext m') : o.view m' = o.view m := by
  have key : ∀ {α : Type} (l l' : List α) (_ : ∀ (r : ℕ) (a : α), l[r]? = some a → l'[r]? = some a) (x : Option ℕ) (_ : ∀ r : ℕ, x = some r → ∃ a, l[r]? = some a),
      x.bind (l'[·]?) = x.bind (l[·]?) := by
    intro α l l' hl x hx
    rcases x with _ | r
    · rfl
    · obtain ⟨a, ha⟩ := hx r rfl
      simp [ha, hl r a ha]
  obtain ⟨z, hz⟩ := h.zref
  simp only [RObj.view, key _ _ he.cplx _ h.psfa, key _ _ he.cplx _ h.otfa, key _ _ he.real _ h.psfi, key _ _ he.cplx _ h.otfi, hz, he.axis _ _ hz]

theorem Mem.Ext.lengths {m m' : Mem} (h : m.Ext m') : m.cplx.length ≤ m'.cplx.length ∧ m.real.length ≤ m'.real.length ∧ m.axis.length ≤ m'.axis.length := by
  have key : ∀ {α : Type} (l l' : List α) (_ : ∀ (r : ℕ) (a : α), l[r]? = some a → l'[r]? = some a), l.length ≤ l'.length := by
    intro α l l' hl
    by_contra hc
    push Not at hc
    have := hl l'.length _ (List.getElem?_eq_getElem hc)
    simp at this
  exact ⟨key _ _ h.cplx, key _ _ h.real, key _ _ h.axis⟩

/-- The arrays the object keeps in `s'` are those it kept in `s`, and new ones. -/
def Kept (s s' : RState) : Prop := (∀ r, s'.self.HoldsC r → s.self.HoldsC r ∨ s.mem.cplx.length ≤ r) ∧
  (∀ r, s'.self.obj.psfi = some r → s.self.obj.psfi = some r ∨ s.mem.real.length ≤ r)

theorem Kept.refl (s : RState) : Kept s s := ⟨fun _ h => .inl h, fun _ h => .inl h⟩

theorem Kept.trans {s s' s'' : RState} (h : Kept s s') (h' : Kept s' s'') (he : s.mem.Ext s'.mem) : Kept s s'' :=
  ⟨fun r hr => (h'.1 r hr).elim (h.1 r) fun x => .inr (he.lengths.1.trans x), fun r hr => (h'.2 r hr).elim (h.2 r) fun x => .inr (he.lengths.2.1.trans x)⟩

theorem Kept.cleared {s : RState} {m : Mem} {p : Params} {z : ℕ} : Kept s ⟨m, ⟨{ params := p }, z⟩⟩ :=
  ⟨fun r h => by simp [RObj.HoldsC] at h, fun r h => by simp at h⟩

/-- Outcomes correspond: the same exception, or results related by `c`. -/
def Match {α β : Type} (c : α → β → Prop) : Py α → Py β → Prop
  | .ok a, .ok b => c a b
  | .error e, .error e' => e = e'
  | _, _ => False

/-- From state `s`, the method `m` does with references what `m'` does with values, and changes no existing array. -/
structure SimAt {α β : Type} (s : RState) (c : Mem → α → β → Prop) (m : PyM RState α) (m' : PyM HObj β) : Prop where
  valid : (m s).2.self.Valid (m s).2.mem
  ext : s.mem.Ext (m s).2.mem
  state : (m' (s.self.view s.mem)).2 = (m s).2.self.view (m s).2.mem
  held : Kept s (m s).2
  out : Match (c (m s).2.mem) (m s).1 (m' (s.self.view s.mem)).1

theorem SimAt.bind {α β α' β' : Type} {s : RState} {c : Mem → α → β → Prop} {d : Mem → α' → β' → Prop} {m : PyM RState α} {m' : PyM HObj β}
    {f : α → PyM RState α'} {f' : β → PyM HObj β'} (h : SimAt s c m m')
    (hf : ∀ a b, (m s).1 = .ok a → (m' (s.self.view s.mem)).1 = .ok b → c (m s).2.mem a b → (m s).2.self.Valid (m s).2.mem → SimAt (m s).2 d (f a) (f' b)) :
    SimAt s d (m >>= f) (m' >>= f') := by
  obtain ⟨h1, h2, h3, h5, h4⟩ := h
  rcases e : m s with ⟨r, s'⟩
  rcases e' : m' (s.self.view s.mem) with ⟨r', o'⟩
  rw [e] at h1 h2 h3 h4 h5 hf
  rw [e'] at h3 h4 hf
  simp only at h1 h2 h3 h4 h5 hf
  match r, r', h4 with
  | .error x, .error y, h4 =>
    have hxy : x = y := h4
    subst hxy
    have q : (m >>= f) s = (.error x, s') := by rw [PyM.bind_apply, e]
    have q' : (m' >>= f') (s.self.view s.mem) = (.error x, o') := by rw [PyM.bind_apply, e']
    exact ⟨by rw [q]; exact h1, by rw [q]; exact h2, by rw [q, q']; exact h3, by rw [q]; exact h5, by rw [q, q']; exact rfl⟩
  | .ok a, .ok b, h4 =>
    have q : (m >>= f) s = f a s' := by rw [PyM.bind_apply, e]
    have q' : (m' >>= f') (s.self.view s.mem) = f' b (s'.self.view s'.mem) := by rw [PyM.bind_apply, e', h3]
    obtain ⟨g1, g2, g3, g5, g4⟩ := hf a b rfl rfl h4 h1
    exact ⟨by rw [q]; exact g1, by rw [q]; exact h2.trans g2, by rw [q, q']; exact g3, by rw [q]; exact h5.trans g5 h2, by rw [q, q']; exact g4⟩

theorem SimAt.pure {α β : Type} {s : RState} {c : Mem → α → β → Prop} (hs : s.self.Valid s.mem) {a : α} {b : β} (h : c s.mem a b) :
    SimAt s c (pure a) (pure b) := ⟨hs, Mem.Ext.refl _, rfl, Kept.refl _, h⟩

theorem SimAt.lift {α : Type} {s : RState} {c : Mem → α → α → Prop} (hs : s.self.Valid s.mem) (x : Py α) (hc : ∀ a, c s.mem a a) :
    SimAt s c (PyM.lift x) (PyM.lift x) := by
  refine ⟨hs, Mem.Ext.refl _, rfl, Kept.refl _, ?_⟩
  rcases x with e | a
  · exact rfl
  · exact hc a

theorem SimAt.get {s : RState} (hs : s.self.Valid s.mem) : SimAt s (fun _ a b => b = a.self.view a.mem ∧ a = s) PyM.get PyM.get :=
  ⟨hs, Mem.Ext.refl _, rfl, Kept.refl _, rfl, rfl⟩

/-! ## Setters -/

/-- Equal up to the planes. -/
def Params.Agree (p q : Params) : Prop := { p with zrange := none } = { q with zrange := none }

/-- The same statement on attributes, whatever the caches are made of. -/
def Uni {α : Type} (m : PyM (Obj ℕ ℕ) α) (m' : PyM HObj α) : Prop := ∀ o o', Params.Agree o.params o'.params →
  (m o).1 = (m' o').1 ∧ (((m o).2 = o ∧ (m' o').2 = o') ∨
    ∃ p p', (m o).2 = { params := p } ∧ (m' o').2 = { params := p' } ∧ Params.Agree p p' ∧ p'.zrange = o'.params.zrange)

theorem agree_view (m : Mem) (o : RObj) : Params.Agree o.obj.params (o.view m).params := rfl

theorem RObj.Valid.cleared {m : Mem} {o : RObj} (h : o.Valid m) (p : Params) : RObj.Valid m ⟨{ params := p }, o.zref⟩ :=
  ⟨h.zref, by simp, by simp, by simp, by simp⟩

theorem view_cleared {m : Mem} {p p' : Params} {z : ℕ} (h : Params.Agree p p') (hz : p'.zrange = m.axis[z]?) :
    ({ params := p' } : HObj) = RObj.view m ⟨{ params := p }, z⟩ := by
  unfold Params.Agree at h
  have : p' = { p with zrange := m.axis[z]? } := by
    rcases p with ⟨⟩
    rcases p' with ⟨⟩
    simp only [Params.mk.injEq] at h ⊢
    simp only at hz
    simp [h, hz]
  rw [this]
  rfl

theorem Uni.sim {α : Type} {m : PyM (Obj ℕ ℕ) α} {m' : PyM HObj α} (h : Uni m m') {s : RState} (hs : s.self.Valid s.mem) :
    SimAt s (fun _ a b => a = b) (RState.onObj m) m' := by
  obtain ⟨h1, h2⟩ := h s.self.obj (s.self.view s.mem) (agree_view _ _)
  have out : Match (fun a b => a = b) (m s.self.obj).1 (m' (s.self.view s.mem)).1 := by
    rw [h1]
    rcases (m' (s.self.view s.mem)).1 with e | a <;> exact rfl
  rcases h2 with ⟨g1, g2⟩ | ⟨p, p', g1, g2, g3, g4⟩
  · refine ⟨?_, Mem.Ext.refl _, ?_, ?_, out⟩
    · show RObj.Valid s.mem ⟨(m s.self.obj).2, s.self.zref⟩
      rw [g1]; exact hs
    · rw [g2]
      show _ = RObj.view s.mem ⟨(m s.self.obj).2, s.self.zref⟩
      rw [g1]
    · show Kept s ⟨s.mem, ⟨(m s.self.obj).2, s.self.zref⟩⟩
      rw [g1]; exact Kept.refl _
  · refine ⟨?_, Mem.Ext.refl _, ?_, ?_, out⟩
    · show RObj.Valid s.mem ⟨(m s.self.obj).2, s.self.zref⟩
      rw [g1]; exact hs.cleared p
    · rw [g2]
      show _ = RObj.view s.mem ⟨(m s.self.obj).2, s.self.zref⟩
      rw [g1]
      exact view_cleared g3 g4
    · show Kept s ⟨s.mem, ⟨(m s.self.obj).2, s.self.zref⟩⟩
      rw [g1]; exact Kept.cleared

theorem agree_field {p q : Params} (h : Params.Agree p q) : p.wl = q.wl ∧ p.na = q.na ∧ p.ni = q.ni ∧ p.size = q.size ∧ p.zsize = q.zsize ∧ p.res = q.res ∧
    p.zres = q.zres ∧ p.vecCorr = q.vecCorr ∧ p.condition = q.condition ∧ p.dual = q.dual := by
  unfold Params.Agree at h
  simp only [Params.mk.injEq] at h
  tauto

theorem uni_numeric (isV : PyVal → Bool) (rd : Params → Option PyVal) (wr : PyVal → Params → Params) (v : PyVal)
    (hr : ∀ p q, Params.Agree p q → rd p = rd q) (hw : ∀ p q, Params.Agree p q → Params.Agree (wr v p) (wr v q)) (hz : ∀ p, (wr v p).zrange = p.zrange) :
    Uni (setNumeric isV rd wr v) (setNumeric isV rd wr v) := by
  intro o o' h
  rw [setNumeric_run, setNumeric_run, hr _ _ h]
  rcases hn : numericSet isV (rd o'.params) v with e | _ | w
  · exact ⟨rfl, .inl ⟨rfl, rfl⟩⟩
  · exact ⟨rfl, .inl ⟨rfl, rfl⟩⟩
  · obtain ⟨rfl, -⟩ := numericSet_some hn
    exact ⟨rfl, .inr ⟨_, _, rfl, rfl, hw _ _ h, hz _⟩⟩

theorem Uni.bind {α β : Type} {m : PyM (Obj ℕ ℕ) α} {m' : PyM HObj α} {f : α → PyM (Obj ℕ ℕ) β} {f' : α → PyM HObj β} (h : Uni m m')
    (hf : ∀ a, Uni (f a) (f' a)) : Uni (m >>= f) (m' >>= f') := by
  intro o o' hp
  obtain ⟨h1, h2⟩ := h o o' hp
  rw [PyM.bind_apply, PyM.bind_apply]
  rcases e : m o with ⟨r, s⟩
  rcases e' : m' o' with ⟨r', s'⟩
  rw [e] at h1 h2
  rw [e'] at h1 h2
  simp only at h1 h2
  subst h1
  rcases r with x | a
  · exact ⟨rfl, h2⟩
  · rcases h2 with ⟨rfl, rfl⟩ | ⟨p, p', rfl, rfl, g3, g4⟩
    · exact hf a _ _ hp
    · obtain ⟨k1, k2⟩ := hf a { params := p } { params := p' } g3
      refine ⟨k1, .inr ?_⟩
      rcases k2 with ⟨k2, k3⟩ | ⟨q, q', k2, k3, k4, k5⟩
      · exact ⟨p, p', k2, k3, g3, g4⟩
      · exact ⟨q, q', k2, k3, k4, k5.trans g4⟩

theorem uni_pure {α : Type} (a : α) : Uni (pure a) (pure a) := fun _ _ _ => ⟨rfl, .inl ⟨rfl, rfl⟩⟩
theorem uni_raise {α : Type} (e : Err) : Uni (PyM.raise e : PyM (Obj ℕ ℕ) α) (PyM.raise e) := fun _ _ _ => ⟨rfl, .inl ⟨rfl, rfl⟩⟩
theorem uni_lift {α : Type} (x : Py α) : Uni (PyM.lift x) (PyM.lift x) := fun _ _ _ => ⟨rfl, .inl ⟨rfl, rfl⟩⟩

theorem uni_self {α : Type} (f : Params → Option α) (hf : ∀ p q, Params.Agree p q → f p = f q) : Uni (PyOTF.self f) (PyOTF.self f) :=
  fun _ _ h => ⟨by simp only [PyOTF.self, hf _ _ h], .inl ⟨rfl, rfl⟩⟩

theorem uni_change (w : Params → Params) (hw : ∀ p q, Params.Agree p q → Params.Agree (w p) (w q)) (hz : ∀ p, (w p).zrange = p.zrange) :
    Uni (do store w; attributeChanged) (do store w; attributeChanged) :=
  fun o o' h => ⟨rfl, .inr ⟨w o.params, w o'.params, rfl, rfl, hw _ _ h, hz _⟩⟩

theorem uni_changed : Uni attributeChanged attributeChanged := fun _ _ h => ⟨rfl, .inr ⟨_, _, rfl, rfl, h, rfl⟩⟩

theorem Params.Agree.map (w : Params → Params) (hw : ∀ p : Params, { w p with zrange := none } = w { p with zrange := none }) (p q : Params)
    (h : Params.Agree p q) : Params.Agree (w p) (w q) := by
  unfold Params.Agree at *
  rw [hw, hw, h]

theorem uni_zsizeBase (v : PyVal) : Uni (setZsizeBase v) (setZsizeBase v) :=
  uni_numeric _ _ _ v (fun _ _ h => (agree_field h).2.2.2.2.1) (Params.Agree.map (fun p => { p with zsize := some v }) fun _ => rfl) (fun _ => rfl)

theorem uni_zresBase (v : PyVal) : Uni (setZresBase v) (setZresBase v) := by
  refine Uni.bind (uni_lift _) fun x => ?_
  by_cases hx : (!PyFloat.lt (.fin 0) x) = true
  · simp only [hx, if_true]; exact uni_raise _
  · simp only [hx]; exact uni_change _ (Params.Agree.map (fun p => { p with zres := some v }) fun _ => rfl) fun _ => rfl

theorem uni_res (v : PyVal) : Uni (setRes v) (setRes v) := by
  refine Uni.bind (uni_self _ fun _ _ h => (agree_field h).2.1) fun na => ?_
  refine Uni.bind (uni_lift _) fun na' => ?_
  refine Uni.bind (uni_self _ fun _ _ h => (agree_field h).1) fun wl => ?_
  refine Uni.bind (uni_lift _) fun wl' => ?_
  refine Uni.bind (uni_lift _) fun q => ?_
  refine Uni.bind (uni_lift _) fun ab => ?_
  refine Uni.bind (uni_lift _) fun x => ?_
  by_cases hx : PyFloat.ge x ab = true
  · simp only [hx, if_true]; exact uni_raise _
  · simp only [hx]; exact uni_change _ (Params.Agree.map (fun p => { p with res := some v }) fun _ => rfl) fun _ => rfl

theorem uni_setAttr (a : Attr) (v : PyVal) (h1 : a ≠ .zsize) (h2 : a ≠ .zres) : Uni (setAttr .hanser a v) (setAttr .hanser a v) := by
  cases a
  · exact uni_numeric _ _ _ v (fun _ _ h => (agree_field h).1) (Params.Agree.map (fun p => { p with wl := some v }) fun _ => rfl) (fun _ => rfl)
  · exact uni_numeric _ _ _ v (fun _ _ h => (agree_field h).2.1) (Params.Agree.map (fun p => { p with na := some v }) fun _ => rfl) (fun _ => rfl)
  · exact uni_numeric _ _ _ v (fun _ _ h => (agree_field h).2.2.1) (Params.Agree.map (fun p => { p with ni := some v }) fun _ => rfl) (fun _ => rfl)
  · exact uni_numeric _ _ _ v (fun _ _ h => (agree_field h).2.2.2.1) (Params.Agree.map (fun p => { p with size := some v }) fun _ => rfl) (fun _ => rfl)
  · exact absurd rfl h1
  · exact uni_res v
  · exact absurd rfl h2
  · exact Uni.bind (uni_lift _) fun w => uni_change _ (Params.Agree.map (fun p => { p with vecCorr := some w }) fun _ => rfl) fun _ => rfl
  · exact Uni.bind (uni_lift _) fun w => uni_change _ (Params.Agree.map (fun p => { p with condition := some w }) fun _ => rfl) fun _ => rfl
  · exact uni_pure _

/-! ## Allocation -/

theorem append_ext {α : Type} (l : List α) (x : α) (r : ℕ) (a : α) (h : l[r]? = some a) : (l ++ [x])[r]? = some a := by
  rw [List.getElem?_append_left (List.getElem?_eq_some_iff.mp h).1, h]

theorem ext_allocC (m : Mem) (a : Arr ℂ) : m.Ext { m with cplx := m.cplx ++ [a] } := ⟨fun _ _ => append_ext _ _ _ _, fun _ _ h => h, fun _ _ h => h⟩
theorem ext_allocR (m : Mem) (a : Arr ℝ) : m.Ext { m with real := m.real ++ [a] } := ⟨fun _ _ h => h, fun _ _ => append_ext _ _ _ _, fun _ _ h => h⟩
theorem ext_allocZ (m : Mem) (a : List PyFloat) : m.Ext { m with axis := m.axis ++ [a] } := ⟨fun _ _ h => h, fun _ _ h => h, fun _ _ => append_ext _ _ _ _⟩

theorem SimAt.allocC {s : RState} (hs : s.self.Valid s.mem) (a : Arr ℂ) : SimAt s (fun m r b => m.cplx[r]? = some b ∧ b = a) (RState.allocC a) (PyM.lift (.ok a)) :=
  ⟨hs.ext (ext_allocC _ _), ext_allocC _ _, (view_ext hs (ext_allocC _ _)).symm, ⟨fun _ h => .inl h, fun _ h => .inl h⟩, by simp [RState.allocC, Match]⟩
theorem SimAt.allocR {s : RState} (hs : s.self.Valid s.mem) (a : Arr ℝ) : SimAt s (fun m r b => m.real[r]? = some b ∧ b = a) (RState.allocR a) (PyM.lift (.ok a)) :=
  ⟨hs.ext (ext_allocR _ _), ext_allocR _ _, (view_ext hs (ext_allocR _ _)).symm, ⟨fun _ h => .inl h, fun _ h => .inl h⟩, by simp [RState.allocR, Match]⟩

/-! ## The planes -/

theorem sim_assignZrange {s : RState} (r : ℕ) (z : List PyFloat) (hr : s.mem.axis[r]? = some z) :
    SimAt s (fun _ _ _ => True) (RState.assignZrange r) (PyOTF.setZrange (.seq z)) := by
  refine ⟨⟨⟨z, hr⟩, ?_, ?_, ?_, ?_⟩, Mem.Ext.refl _, ?_, Kept.cleared, trivial⟩
  all_goals first
    | (intro r' h; simp [RState.assignZrange, PyM.bind_apply, RState.onObj, attributeChanged] at h)
    | skip
  simp [RState.assignZrange, PyM.bind_apply, RState.onObj, attributeChanged, RObj.view, PyOTF.setZrange, store, hr, ZArg.toList]

theorem sim_setZrange {s : RState} (hs : s.self.Valid s.mem) (v : ZArg) : SimAt s (fun _ _ _ => True) (RState.setZrange v) (PyOTF.setZrange v) := by
  have h := sim_assignZrange (s := ⟨{ s.mem with axis := s.mem.axis ++ [v.toList] }, s.self⟩) s.mem.axis.length v.toList (by simp)
  obtain ⟨h1, h2, h3, h5, h4⟩ := h
  refine ⟨h1, (ext_allocZ _ _).trans h2, ?_, Kept.cleared, h4⟩
  rw [show (⟨{ s.mem with axis := s.mem.axis ++ [v.toList] }, s.self⟩ : RState).self.view { s.mem with axis := s.mem.axis ++ [v.toList] } = s.self.view s.mem from
    view_ext hs (ext_allocZ _ _)] at h3
  exact h3

theorem sim_genZrange {s : RState} (hs : s.self.Valid s.mem) : SimAt s (fun _ _ _ => True) RState.genZrange PyOTF.genZrange := by
  refine SimAt.bind ((uni_self _ fun _ _ h => (agree_field h).2.2.2.2.1).sim hs) fun a b _ _ hab hv => ?_
  subst hab
  refine SimAt.bind ((uni_self _ fun _ _ h => (agree_field h).2.2.2.2.2.2.1).sim hv) fun c d _ _ hcd hv' => ?_
  subst hcd
  refine SimAt.bind (SimAt.lift (c := fun _ a b => a = b) hv' _ fun _ => rfl) fun e f _ _ hef hv'' => ?_
  subst hef
  exact sim_setZrange hv'' _

theorem SimAt.ignore {s : RState} {e : Err} {m : PyM RState Unit} {m' : PyM HObj Unit} (h : SimAt s (fun _ _ _ => True) m m') :
    SimAt s (fun _ _ _ => True) (PyM.ignore e m) (PyM.ignore e m') := by
  obtain ⟨h1, h2, h3, h5, h4⟩ := h
  rcases q : m s with ⟨r, s'⟩
  rcases q' : m' (s.self.view s.mem) with ⟨r', o'⟩
  rw [q] at h1 h2 h3 h4 h5
  rw [q'] at h3 h4
  have k : (PyM.ignore e m s).2 = s' := by
    simp only [PyM.ignore, q]
    rcases r with x | x
    · by_cases hx : x = e <;> simp [hx]
    · rfl
  have k' : (PyM.ignore e m' (s.self.view s.mem)).2 = o' := by
    simp only [PyM.ignore, q']
    rcases r' with x | x
    · by_cases hx : x = e <;> simp [hx]
    · rfl
  refine ⟨by rw [k]; exact h1, by rw [k]; exact h2, by rw [k, k']; exact h3, by rw [k]; exact h5, ?_⟩
  simp only [PyM.ignore, q, q']
  match r, r', h4 with
  | .error x, .error y, h4 =>
    have hxy : x = y := h4
    subst hxy
    by_cases hx : x = e
    · simp [hx, Match]
    · simp [hx, Match]
  | .ok a, .ok b, h4 => trivial

theorem SimAt.weaken {α β : Type} {s : RState} {c d : Mem → α → β → Prop} {m : PyM RState α} {m' : PyM HObj β} (h : SimAt s c m m')
    (hcd : ∀ a b, c (m s).2.mem a b → d (m s).2.mem a b) : SimAt s d m m' := by
  refine ⟨h.valid, h.ext, h.state, h.held, ?_⟩
  have := h.out
  rcases q : (m s).1 with x | a <;> rcases q' : (m' (s.self.view s.mem)).1 with y | b <;> rw [q, q'] at this
  · exact this
  · exact this
  · exact this
  · exact hcd a b this

theorem sim_set {s : RState} (hs : s.self.Valid s.mem) (a : Attr) (v : PyVal) : SimAt s (fun _ _ _ => True) (RState.set a v) (setAttr .hanser a v) := by
  by_cases h1 : a = .zsize
  · subst h1
    exact SimAt.bind ((uni_zsizeBase v).sim hs) fun _ _ _ _ _ hv => (sim_genZrange hv).ignore
  · by_cases h2 : a = .zres
    · subst h2
      exact SimAt.bind ((uni_zresBase v).sim hs) fun _ _ _ _ _ hv => (sim_genZrange hv).ignore
    · have : RState.set a v = RState.onObj (setAttr .hanser a v) := by cases a <;> first | rfl | exact absurd rfl h1 | exact absurd rfl h2
      rw [this]
      exact ((uni_setAttr a v h1 h2).sim hs).weaken fun _ _ _ => trivial

/-! ## The outputs -/

theorem params_view (s : RState) : (s.self.view s.mem).params = s.params := rfl

theorem sim_genPsf {s : RState} (hs : s.self.Valid s.mem) (P : Option (Arr ℂ)) :
    SimAt s (fun _ a b => a = b) (RState.genPsf P) (HObj.genPsf P) := by
  refine SimAt.bind (uni_changed.sim hs) fun _ _ _ _ _ hv => ?_
  refine SimAt.bind (SimAt.get hv) fun a b _ _ hab hv' => ?_
  obtain ⟨rfl, rfl⟩ := hab
  rw [params_view]
  exact SimAt.lift hv' _ fun _ => rfl

theorem SimAt.congr {α β : Type} {s : RState} {c : Mem → α → β → Prop} {m n : PyM RState α} {m' n' : PyM HObj β} (h : SimAt s c m m') (e : n s = m s)
    (e' : n' (s.self.view s.mem) = m' (s.self.view s.mem)) : SimAt s c n n' :=
  ⟨by rw [e]; exact h.valid, by rw [e]; exact h.ext, by rw [e, e']; exact h.state, by rw [e]; exact h.held, by rw [e, e']; exact h.out⟩

theorem SimAt.derefC {α β : Type} {s : RState} {c : Mem → α → β → Prop} {r : ℕ} {a : Arr ℂ} (hr : s.mem.cplx[r]? = some a) {k : Arr ℂ → PyM RState α} {m' : PyM HObj β}
    (h : SimAt s c (k a) m') : SimAt s c (RState.derefC r >>= k) m' := by
  refine h.congr ?_ rfl
  rw [PyM.bind_apply]
  simp only [RState.derefC, hr]

theorem SimAt.derefR {α β : Type} {s : RState} {c : Mem → α → β → Prop} {r : ℕ} {a : Arr ℝ} (hr : s.mem.real[r]? = some a) {k : Arr ℝ → PyM RState α} {m' : PyM HObj β}
    (h : SimAt s c (k a) m') : SimAt s c (RState.derefR r >>= k) m' := by
  refine h.congr ?_ rfl
  rw [PyM.bind_apply]
  simp only [RState.derefR, hr]

theorem sim_store_psfa {s : RState} (hs : s.self.Valid s.mem) (a : Arr ℂ) :
    SimAt s (fun m r b => m.cplx[r]? = some b) (do let r ← RState.allocC a; RState.onObj (PyM.modify fun o => { o with psfa := some r }); pure r)
      (do PyM.modify fun o => { o with psfa := some a }; pure a) := by
  have he := ext_allocC s.mem a
  have hv := hs.ext he
  have hw := view_ext hs he
  refine SimAt.congr (m := fun _ => (.ok s.mem.cplx.length, ⟨{ s.mem with cplx := s.mem.cplx ++ [a] }, ⟨{ s.self.obj with psfa := some s.mem.cplx.length }, s.self.zref⟩⟩))
    (m' := fun o => (.ok a, { o with psfa := some a })) ⟨⟨hv.zref, fun r h => by
    obtain rfl : s.mem.cplx.length = r := by simpa using h
    exact ⟨a, by simp⟩, fun r h => hv.otfa r h, fun r h => hv.psfi r h, fun r h => hv.otfi r h⟩, he, ?_, ⟨?_, ?_⟩, by simp [Match]⟩ rfl rfl
  · simp only [← hw]
    simp [RObj.view]
  · intro r h
    simp only [RObj.HoldsC, Option.some.injEq] at h ⊢
    first
      | (exact .inl h)
      | (rcases h with h | h | h <;> first | (exact .inr h.le) | (exact .inl (by tauto)))
  · intro r h
    simp only [Option.some.injEq] at h
    first
      | (exact .inl h)
      | (exact .inr h.le)

theorem sim_store_otfa {s : RState} (hs : s.self.Valid s.mem) (a : Arr ℂ) :
    SimAt s (fun m r b => m.cplx[r]? = some b) (do let r ← RState.allocC a; RState.onObj (PyM.modify fun o => { o with otfa := some r }); pure r)
      (do PyM.modify fun o => { o with otfa := some a }; pure a) := by
  have he := ext_allocC s.mem a
  have hv := hs.ext he
  have hw := view_ext hs he
  refine SimAt.congr (m := fun _ => (.ok s.mem.cplx.length, ⟨{ s.mem with cplx := s.mem.cplx ++ [a] }, ⟨{ s.self.obj with otfa := some s.mem.cplx.length }, s.self.zref⟩⟩))
    (m' := fun o => (.ok a, { o with otfa := some a })) ⟨⟨hv.zref, fun r h => hv.psfa r h, fun r h => by
    obtain rfl : s.mem.cplx.length = r := by simpa using h
    exact ⟨a, by simp⟩, fun r h => hv.psfi r h, fun r h => hv.otfi r h⟩, he, ?_, ⟨?_, ?_⟩, by simp [Match]⟩ rfl rfl
  · simp only [← hw]
    simp [RObj.view]
  · intro r h
    simp only [RObj.HoldsC, Option.some.injEq] at h ⊢
    first
      | (exact .inl h)
      | (rcases h with h | h | h <;> first | (exact .inr h.le) | (exact .inl (by tauto)))
  · intro r h
    simp only [Option.some.injEq] at h
    first
      | (exact .inl h)
      | (exact .inr h.le)

theorem sim_store_psfi {s : RState} (hs : s.self.Valid s.mem) (a : Arr ℝ) :
    SimAt s (fun m r b => m.real[r]? = some b) (do let r ← RState.allocR a; RState.onObj (PyM.modify fun o => { o with psfi := some r }); pure r)
      (do PyM.modify fun o => { o with psfi := some a }; pure a) := by
  have he := ext_allocR s.mem a
  have hv := hs.ext he
  have hw := view_ext hs he
  refine SimAt.congr (m := fun _ => (.ok s.mem.real.length, ⟨{ s.mem with real := s.mem.real ++ [a] }, ⟨{ s.self.obj with psfi := some s.mem.real.length }, s.self.zref⟩⟩))
    (m' := fun o => (.ok a, { o with psfi := some a })) ⟨⟨hv.zref, fun r h => hv.psfa r h, fun r h => hv.otfa r h, fun r h => by
    obtain rfl : s.mem.real.length = r := by simpa using h
    exact ⟨a, by simp⟩, fun r h => hv.otfi r h⟩, he, ?_, ⟨?_, ?_⟩, by simp [Match]⟩ rfl rfl
  · simp only [← hw]
    simp [RObj.view]
  · intro r h
    simp only [RObj.HoldsC, Option.some.injEq] at h ⊢
    first
      | (exact .inl h)
      | (rcases h with h | h | h <;> first | (exact .inr h.le) | (exact .inl (by tauto)))
  · intro r h
    simp only [Option.some.injEq] at h
    first
      | (exact .inl h)
      | (exact .inr h.le)

theorem sim_store_otfi {s : RState} (hs : s.self.Valid s.mem) (a : Arr ℂ) :
    SimAt s (fun m r b => m.cplx[r]? = some b) (do let r ← RState.allocC a; RState.onObj (PyM.modify fun o => { o with otfi := some r }); pure r)
      (do PyM.modify fun o => { o with otfi := some a }; pure a) := by
  have he := ext_allocC s.mem a
  have hv := hs.ext he
  have hw := view_ext hs he
  refine SimAt.congr (m := fun _ => (.ok s.mem.cplx.length, ⟨{ s.mem with cplx := s.mem.cplx ++ [a] }, ⟨{ s.self.obj with otfi := some s.mem.cplx.length }, s.self.zref⟩⟩))
    (m' := fun o => (.ok a, { o with otfi := some a })) ⟨⟨hv.zref, fun r h => hv.psfa r h, fun r h => hv.otfa r h, fun r h => hv.psfi r h, fun r h => by
    obtain rfl : s.mem.cplx.length = r := by simpa using h
    exact ⟨a, by simp⟩⟩, he, ?_, ⟨?_, ?_⟩, by simp [Match]⟩ rfl rfl
  · simp only [← hw]
    simp [RObj.view]
  · intro r h
    simp only [RObj.HoldsC, Option.some.injEq] at h ⊢
    first
      | (exact .inl h)
      | (rcases h with h | h | h <;> first | (exact .inr h.le) | (exact .inl (by tauto)))
  · intro r h
    simp only [Option.some.injEq] at h
    first
      | (exact .inl h)
      | (exact .inr h.le)

theorem sim_getPSFa {s : RState} (hs : s.self.Valid s.mem) : SimAt s (fun m r b => m.cplx[r]? = some b) RState.getPSFa HObj.getPSFa := by
  rcases h : s.self.obj.psfa with _ | r
  · refine SimAt.congr (m := RState.genPsf none >>= fun a => do let r ← RState.allocC a; RState.onObj (PyM.modify fun o => { o with psfa := some r }); pure r)
      (m' := HObj.genPsf none >>= fun a => do PyM.modify fun o => { o with psfa := some a }; pure a)
      (SimAt.bind (sim_genPsf hs none) fun a b _ _ hab hv => by subst hab; exact sim_store_psfa hv a) ?_ ?_
    · simp only [RState.getPSFa, PyM.bind_apply, PyM.get_apply, h]
    · simp only [HObj.getPSFa, PyM.bind_apply, PyM.get_apply, RObj.view, h, Option.bind_none]
  · obtain ⟨a, ha⟩ := hs.psfa r h
    refine SimAt.congr (SimAt.pure hs (a := r) (b := a) ha) ?_ ?_
    · simp only [RState.getPSFa, PyM.bind_apply, PyM.get_apply, h]
    · simp only [HObj.getPSFa, PyM.bind_apply, PyM.get_apply, RObj.view, h, Option.bind_some, ha]

theorem sim_getOTFa {s : RState} (hs : s.self.Valid s.mem) : SimAt s (fun m r b => m.cplx[r]? = some b) RState.getOTFa HObj.getOTFa := by
  rcases h : s.self.obj.otfa with _ | r
  · refine SimAt.congr (m := RState.getPSFa >>= fun q => RState.derefC q >>= fun a => PyM.lift (hanserOTFa a) >>= fun b => do
        let r ← RState.allocC b; RState.onObj (PyM.modify fun o => { o with otfa := some r }); pure r)
      (m' := HObj.getPSFa >>= fun a => PyM.lift (hanserOTFa a) >>= fun b => do PyM.modify fun o => { o with otfa := some b }; pure b)
      (SimAt.bind (sim_getPSFa hs) fun q a _ _ hq hv => SimAt.derefC hq (SimAt.bind (SimAt.lift (c := fun _ x y => x = y) hv _ fun _ => rfl) fun x y _ _ (hxy : x = y) hv' => by
        subst hxy; exact sim_store_otfa hv' x)) ?_ ?_
    · simp only [RState.getOTFa, PyM.bind_apply, PyM.get_apply, h]
    · simp only [HObj.getOTFa, PyM.bind_apply, PyM.get_apply, RObj.view, h, Option.bind_none]
  · obtain ⟨a, ha⟩ := hs.otfa r h
    refine SimAt.congr (SimAt.pure hs (a := r) (b := a) ha) ?_ ?_
    · simp only [RState.getOTFa, PyM.bind_apply, PyM.get_apply, h]
    · simp only [HObj.getOTFa, PyM.bind_apply, PyM.get_apply, RObj.view, h, Option.bind_some, ha]

theorem sim_getPSFi {s : RState} (hs : s.self.Valid s.mem) : SimAt s (fun m r b => m.real[r]? = some b) RState.getPSFi HObj.getPSFi := by
  rcases h : s.self.obj.psfi with _ | r
  · refine SimAt.congr (m := RState.getPSFa >>= fun q => RState.derefC q >>= fun a => do
        let r ← RState.allocR (psfiOf a); RState.onObj (PyM.modify fun o => { o with psfi := some r }); pure r)
      (m' := HObj.getPSFa >>= fun a => do PyM.modify fun o => { o with psfi := some (psfiOf a) }; pure (psfiOf a))
      (SimAt.bind (sim_getPSFa hs) fun q a _ _ hq hv => SimAt.derefC hq (sim_store_psfi hv _)) ?_ ?_
    · simp only [RState.getPSFi, PyM.bind_apply, PyM.get_apply, h]
    · simp only [HObj.getPSFi, PyM.bind_apply, PyM.get_apply, RObj.view, h, Option.bind_none]
  · obtain ⟨a, ha⟩ := hs.psfi r h
    refine SimAt.congr (SimAt.pure hs (a := r) (b := a) ha) ?_ ?_
    · simp only [RState.getPSFi, PyM.bind_apply, PyM.get_apply, h]
    · simp only [HObj.getPSFi, PyM.bind_apply, PyM.get_apply, RObj.view, h, Option.bind_some, ha]

theorem sim_getOTFi {s : RState} (hs : s.self.Valid s.mem) : SimAt s (fun m r b => m.cplx[r]? = some b) RState.getOTFi HObj.getOTFi := by
  rcases h : s.self.obj.otfi with _ | r
  · refine SimAt.congr (m := RState.getPSFi >>= fun q => RState.derefR q >>= fun a => PyM.lift (otfiOf a) >>= fun b => do
        let r ← RState.allocC b; RState.onObj (PyM.modify fun o => { o with otfi := some r }); pure r)
      (m' := HObj.getPSFi >>= fun a => PyM.lift (otfiOf a) >>= fun b => do PyM.modify fun o => { o with otfi := some b }; pure b)
      (SimAt.bind (sim_getPSFi hs) fun q a _ _ hq hv => SimAt.derefR hq (SimAt.bind (SimAt.lift (c := fun _ x y => x = y) hv _ fun _ => rfl) fun x y _ _ (hxy : x = y) hv' => by
        subst hxy; exact sim_store_otfi hv' x)) ?_ ?_
    · simp only [RState.getOTFi, PyM.bind_apply, PyM.get_apply, h]
    · simp only [HObj.getOTFi, PyM.bind_apply, PyM.get_apply, RObj.view, h, Option.bind_none]
  · obtain ⟨a, ha⟩ := hs.otfi r h
    refine SimAt.congr (SimAt.pure hs (a := r) (b := a) ha) ?_ ?_
    · simp only [RState.getOTFi, PyM.bind_apply, PyM.get_apply, h]
    · simp only [HObj.getOTFi, PyM.bind_apply, PyM.get_apply, RObj.view, h, Option.bind_some, ha]

theorem sim_applyPupil {s : RState} (hs : s.self.Valid s.mem) (P : Arr ℂ) : SimAt s (fun _ _ _ => True) (RState.applyPupil P) (HObj.applyPupil P) := by
  refine SimAt.bind (uni_changed.sim hs) fun _ _ _ _ _ hv => ?_
  refine SimAt.bind (sim_genPsf hv _) fun a b _ _ hab hv' => ?_
  subst hab
  have h := sim_store_psfa hv' a
  exact ⟨h.valid, h.ext, h.state, h.held, trivial⟩

end PyOTF
