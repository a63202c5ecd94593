import Verif.Model.Interrupt
import Verif.Props.C133_Races

/-!
# Reasoning about crash points
-/

namespace PyOTF

namespace Prog

variable {σ L α β : Type}

theorem cut_ret (n : ℕ) (a : α) (s : σ) : (ret a : Prog σ L α).cut n s = s := by cases n <;> rfl

/-- Abandoning a sequence: in the first part, or in the second. -/
theorem cut_bind (n : ℕ) (p : Prog σ L α) (f : α → Prog σ L β) (s : σ) :
    (∃ m, (p.bind f).cut n s = p.cut m s) ∨ ∃ m, (p.bind f).cut n s = (f (p.alone s).1).cut m (p.alone s).2 := by
  induction p generalizing n s with
  | ret a => exact .inr ⟨n, rfl⟩
  | act st k ih =>
    cases n with
    | zero => exact .inl ⟨0, rfl⟩
    | succ n =>
      rcases ih s n (st s) with ⟨m, h⟩ | ⟨m, h⟩
      · exact .inl ⟨m + 1, h⟩
      · exact .inr ⟨m, h⟩
  | lock l k ih =>
    cases n with
    | zero => exact .inl ⟨0, rfl⟩
    | succ n =>
      rcases ih n s with ⟨m, h⟩ | ⟨m, h⟩
      · exact .inl ⟨m + 1, h⟩
      · exact .inr ⟨m, h⟩
  | unlock l k ih =>
    cases n with
    | zero => exact .inl ⟨0, rfl⟩
    | succ n =>
      rcases ih n s with ⟨m, h⟩ | ⟨m, h⟩
      · exact .inl ⟨m + 1, h⟩
      · exact .inr ⟨m, h⟩

/-- Late enough the program is finished. -/
theorem cut_final (p : Prog σ L α) (s : σ) : ∃ n, p.cut n s = (p.alone s).2 := by
  induction p generalizing s with
  | ret a => exact ⟨0, rfl⟩
  | act st k ih => obtain ⟨n, h⟩ := ih s (st s); exact ⟨n + 1, h⟩
  | lock l k ih => obtain ⟨n, h⟩ := ih s; exact ⟨n + 1, h⟩
  | unlock l k ih => obtain ⟨n, h⟩ := ih s; exact ⟨n + 1, h⟩

/-- Wherever the program is abandoned, `P` holds. -/
def Always (P : σ → Prop) (p : Prog σ L α) (s : σ) : Prop := ∀ n, P (p.cut n s)

theorem Always.final {P : σ → Prop} {p : Prog σ L α} {s : σ} (h : Always P p s) : P (p.alone s).2 := by
  obtain ⟨n, e⟩ := cut_final p s
  rw [← e]; exact h n

theorem Always.first {P : σ → Prop} {p : Prog σ L α} {s : σ} (h : Always P p s) : P s := h 0

theorem always_ret {P : σ → Prop} {a : α} {s : σ} (h : P s) : Always P (ret a : Prog σ L α) s := fun n => by
  rw [cut_ret]; exact h

theorem Always.bind {P : σ → Prop} {p : Prog σ L α} {f : α → Prog σ L β} {s : σ} (hp : Always P p s)
    (hf : Always P (f (p.alone s).1) (p.alone s).2) : Always P (p.bind f) s := by
  intro n
  rcases cut_bind n p f s with ⟨m, h⟩ | ⟨m, h⟩
  · rw [h]; exact hp m
  · rw [h]; exact hf m

theorem Always.imp {P Q : σ → Prop} {p : Prog σ L α} {s : σ} (h : Always P p s) (hPQ : ∀ t, P t → Q t) : Always Q p s :=
  fun n => hPQ _ (h n)

/-- Every step keeps the invariant, from whatever state. -/
def Maintains (Inv : σ → Prop) : Prog σ L α → Prop
  | ret _ => True
  | act st k => ∀ s, Inv s → Inv (st s) ∧ (k s).Maintains Inv
  | lock _ k => k.Maintains Inv
  | unlock _ k => k.Maintains Inv

theorem Maintains.bind {Inv : σ → Prop} {p : Prog σ L α} {f : α → Prog σ L β} (hp : p.Maintains Inv)
    (hf : ∀ a, (f a).Maintains Inv) : (p.bind f).Maintains Inv := by
  induction p with
  | ret a => exact hf a
  | act st k ih => exact fun s hs => ⟨(hp s hs).1, ih s (hp s hs).2⟩
  | lock l k ih => exact ih hp
  | unlock l k ih => exact ih hp

theorem Maintains.always {Inv : σ → Prop} {p : Prog σ L α} (hp : p.Maintains Inv) {s : σ} (hs : Inv s) : Always Inv p s := by
  intro n
  induction n generalizing p s with
  | zero => exact hs
  | succ n ih =>
    cases p with
    | ret a => exact hs
    | act st k => exact ih (hp s hs).2 (hp s hs).1
    | lock l k => exact ih (p := k) hp hs
    | unlock l k => exact ih (p := k) hp hs

/-- A thread that is safe among others is safe when it is abandoned. -/
theorem Safe.cut {Inv : σ → Prop} {le : σ → σ → Prop} (hrefl : ∀ a, le a a) {Q : σ → α → Prop} {p : Prog σ L α} {s : σ}
    (h : p.Safe Inv le Q s) (hI : Inv s) : Always Inv p s := by
  intro n
  induction n generalizing p s with
  | zero => exact hI
  | succ n ih =>
    cases p with
    | ret a => exact hI
    | act st k => obtain ⟨h1, -, h3⟩ := h s (hrefl s) hI; exact ih h3 h1
    | lock l k => exact ih (p := k) h hI
    | unlock l k => exact ih (p := k) h hI

end Prog

open TM Prog

theorem always_tbind {α β : Type} {P : Dicts → Prop} {p : TM α} {f : α → TM β} {s : Dicts} (hp : Always P p s)
    (hf : ∀ a s', Prog.alone p s = (.ok a, s') → Always P (f a) s') : Always P (TM.bind p f) s := by
  refine Always.bind hp ?_
  have hfin := hp.final
  rcases h : Prog.alone p s with ⟨e | a, s'⟩
  · rw [h] at hfin; exact always_ret hfin
  · exact hf a s' h

theorem always_rd {α : Type} {P : Dicts → Prop} {i : ℕ} {f : HCell → Py α} {s : Dicts} (h : P s) : Always P (rd i f) s := by
  intro n
  rcases n with _ | n
  · exact h
  · exact (cut_ret n _ s).symm ▸ h

theorem always_loc {α : Type} {P : Dicts → Prop} {x : Py α} {s : Dicts} (h : P s) : Always P (loc x) s := always_ret h

theorem always_wr {P : Dicts → Prop} {i : ℕ} {f : HCell → HCell} {s : Dicts} (h0 : P s) (h1 : P (Function.update s i (f (s i)))) :
    Always P (wr i f) s := by
  intro n
  rcases n with _ | n
  · exact h0
  · exact (cut_ret n _ _).symm ▸ h1

theorem always_keep {α : Type} {P : Dicts → Prop} {f : α → Out (Arr ℂ) (Arr ℝ)} {p : TM α} {s : Dicts} (h : Always P p s) :
    Always P (keep f p) s := h.bind (always_ret h.final)

/-! ## The state of one object at a crash point -/

/-- The same parameters, and no caches but those of `o₀`. -/
structure Sub (o o₀ : HObj) : Prop where
  params : o.params = o₀.params
  psfa : o.psfa = none ∨ o.psfa = o₀.psfa
  otfa : o.otfa = none ∨ o.otfa = o₀.otfa
  psfi : o.psfi = none ∨ o.psfi = o₀.psfi
  otfi : o.otfi = none ∨ o.otfi = o₀.otfi

theorem Sub.refl (o : HObj) : Sub o o := ⟨rfl, .inr rfl, .inr rfl, .inr rfl, .inr rfl⟩

theorem Sub.cleared {o o₀ : HObj} {p : Params} (h : Sub o { params := p }) (hp : o₀.params = p) : Sub o o₀ :=
  ⟨h.params.trans hp.symm, .inl (by simpa using h.psfa), .inl (by simpa using h.otfa), .inl (by simpa using h.psfi),
    .inl (by simpa using h.otfi)⟩

theorem always_attributeChanged (i : ℕ) (s : Dicts) :
    Always (fun t => Sub (t i).obj (s i).obj) (attributeChangedT i) s := by
  unfold attributeChangedT
  refine always_tbind (always_wr (Sub.refl _) ?_) ?_
  · simp only [Function.update_self]; exact ⟨rfl, .inl rfl, .inr rfl, .inr rfl, .inr rfl⟩
  intro _ s1 h1
  rw [alone_wr] at h1
  obtain ⟨-, rfl⟩ := Prod.mk.inj h1
  refine always_tbind (always_wr ?_ ?_) ?_
  · simp only [Function.update_self]; exact ⟨rfl, .inl rfl, .inr rfl, .inr rfl, .inr rfl⟩
  · simp only [Function.update_self]; exact ⟨rfl, .inl rfl, .inl rfl, .inr rfl, .inr rfl⟩
  intro _ s2 h2
  rw [alone_wr] at h2
  obtain ⟨-, rfl⟩ := Prod.mk.inj h2
  refine always_tbind (always_wr ?_ ?_) ?_
  · simp only [Function.update_self]; exact ⟨rfl, .inl rfl, .inl rfl, .inr rfl, .inr rfl⟩
  · simp only [Function.update_self]; exact ⟨rfl, .inl rfl, .inl rfl, .inl rfl, .inr rfl⟩
  intro _ s3 h3
  rw [alone_wr] at h3
  obtain ⟨-, rfl⟩ := Prod.mk.inj h3
  refine always_wr ?_ ?_
  · simp only [Function.update_self]; exact ⟨rfl, .inl rfl, .inl rfl, .inl rfl, .inr rfl⟩
  · simp only [Function.update_self]; exact ⟨rfl, .inl rfl, .inl rfl, .inl rfl, .inl rfl⟩

/-- Store a parameter, then drop the caches. -/
def assignT (i : ℕ) (f : Params → Params) : TM Unit :=
  (wr i fun c => { c with obj := { c.obj with params := f c.obj.params } }).bind fun _ => attributeChangedT i

theorem always_assign (i : ℕ) (f : Params → Params) (s : Dicts) :
    Always (fun t => (t i).obj = (s i).obj ∨ Sub (t i).obj { (s i).obj with params := f (s i).obj.params }) (assignT i f) s := by
  unfold assignT
  refine always_tbind (always_wr (.inl rfl) (.inr ?_)) ?_
  · simp only [Function.update_self]; exact Sub.refl _
  intro _ s1 h1
  rw [alone_wr] at h1
  obtain ⟨-, rfl⟩ := Prod.mk.inj h1
  refine (always_attributeChanged i _).imp fun t ht => .inr ?_
  simpa only [Function.update_self] using ht

theorem alone_assign (i : ℕ) (f : Params → Params) (s : Dicts) : Prog.alone (assignT i f) s =
    (.ok (), Function.update s i ⟨{ params := f (s i).obj.params }, (s i).scr⟩) := by
  simp only [assignT, alone_tbind, alone_wr, alone_attributeChanged, Function.update_self, Function.update_idem]

theorem attr_eq_ok {α : Type} {x : Option α} {a : α} (h : attr x = .ok a) : x = some a := by
  rcases x with _ | b
  · cases h
  · exact congrArg some (Except.ok.inj h)

/-- After `_gen_zrange`. -/
theorem always_genZrange (i : ℕ) (s : Dicts) : Always (fun t => (t i).obj = (s i).obj ∨
    ∃ n z x, (s i).obj.params.zsize = some n ∧ (s i).obj.params.zres = some z ∧ pyNum z = .ok x ∧
      Sub (t i).obj { (s i).obj with params := { (s i).obj.params with zrange := some (defaultZrange (pyNat n) x) } }) (ignoreT (genZrangeT i)) s := by
  have main : Always (fun t => (t i).obj = (s i).obj ∨
    ∃ n z x, (s i).obj.params.zsize = some n ∧ (s i).obj.params.zres = some z ∧ pyNum z = .ok x ∧
      Sub (t i).obj { (s i).obj with params := { (s i).obj.params with zrange := some (defaultZrange (pyNat n) x) } }) (genZrangeT i) s := by
    unfold genZrangeT
    refine always_tbind (always_rd (.inl rfl)) ?_
    intro n s1 h1
    rw [alone_rd] at h1
    obtain ⟨g1, rfl⟩ := Prod.mk.inj h1
    refine always_tbind (always_rd (.inl rfl)) ?_
    intro m s2 h2
    rw [alone_rd] at h2
    obtain ⟨g2, rfl⟩ := Prod.mk.inj h2
    refine always_tbind (always_rd (.inl rfl)) ?_
    intro x s3 h3
    rw [alone_rd] at h3
    obtain ⟨g3, rfl⟩ := Prod.mk.inj h3
    have hn := attr_eq_ok g1
    have hm := attr_eq_ok g2
    have hmn : m = n := by rw [hn] at hm; exact (Option.some.inj hm).symm
    subst hmn
    rcases hz : (s i).obj.params.zres with _ | z
    · rw [hz] at g3; cases g3
    rw [hz] at g3
    refine (always_assign i (fun p => { p with zrange := some (defaultZrange (pyNat m) x) }) s).imp fun t ht => ?_
    exact ht.imp id fun ht => ⟨m, z, x, hn, rfl, g3, ht⟩
  refine Always.bind main ?_
  have hfin := main.final
  generalize Prog.alone (genZrangeT i) s = r at hfin
  rcases r with ⟨e | a, s'⟩
  · cases e <;> exact always_ret hfin
  · exact always_ret hfin

/-! ## Alone, the setters are those of the sequential model -/

theorem update_same (s : Dicts) (i : ℕ) : Function.update s i ⟨(s i).obj, (s i).scr⟩ = s := Function.update_eq_self i s

theorem sameAs_numeric (i : ℕ) (isV : PyVal → Bool) (get : Params → Option PyVal) (put : PyVal → Params → Params) (v : PyVal) (s : Dicts) :
    SameAs i s (setNumericT i isV get put v) (setNumeric isV get put v) := by
  refine ⟨(s i).scr, ?_⟩
  unfold setNumericT
  simp only [alone_tbind, alone_rd, setNumeric_run]
  rcases numericSet isV (get (s i).obj.params) v with e | _ | w
  · simp
  · simp [alone_loc]
  · simp [alone_tbind, alone_wr, alone_attributeChanged]

theorem sameAs_genZrange (i : ℕ) (s : Dicts) : SameAs i s (genZrangeT i) genZrange := by
  refine ⟨(s i).scr, ?_⟩
  unfold genZrangeT setZrangeT
  simp only [alone_tbind, alone_rd, genZrange_run]
  rcases h1 : (s i).obj.params.zsize with _ | n
  · simp [attr]
  rcases h2 : (s i).obj.params.zres with _ | z
  · simp [attr, Bind.bind, Except.bind, h1, h2]
  rcases h3 : pyNum z with e | x
  · simp [attr, Bind.bind, Except.bind, h1, h2, h3]
  · simp [attr, Bind.bind, Except.bind, h3, alone_wr, alone_attributeChanged, defaultZrange, ZArg.toList, h1, h2]

theorem sameAs_ignore {i : ℕ} {s : Dicts} {p : TM Unit} {m : PyM HObj Unit} (h : SameAs i s p m) :
    SameAs i s (ignoreT p) (PyM.ignore .attributeError m) := by
  obtain ⟨scr, h⟩ := h
  refine ⟨scr, ?_⟩
  unfold ignoreT PyM.ignore
  rw [Prog.alone_bind, h]
  rcases m (s i).obj with ⟨e | a, o⟩
  · cases e <;> rfl
  · rfl

theorem sameAs_bind {α β : Type} {i : ℕ} {s : Dicts} {p : TM α} {m : PyM HObj α} {f : α → TM β} {g : α → PyM HObj β} (h : SameAs i s p m)
    (hf : ∀ a s', SameAs i s' (f a) (g a)) : SameAs i s (p.bind f) (m >>= g) := by
  obtain ⟨scr, h⟩ := h
  simp only [SameAs, alone_tbind, h, PyM.bind_apply]
  rcases m (s i).obj with ⟨e | a, o⟩
  · exact ⟨scr, rfl⟩
  · obtain ⟨scr', h'⟩ := hf a (Function.update s i ⟨o, scr⟩)
    refine ⟨scr', ?_⟩
    simp only [h', Function.update_self, Function.update_idem]

theorem sameAs_lift {α : Type} (i : ℕ) (s : Dicts) (x : Py α) : SameAs i s (loc x) (PyM.lift x) :=
  ⟨(s i).scr, by rw [alone_loc, PyM.lift_apply, update_same]⟩

theorem sameAs_assign (i : ℕ) (s : Dicts) (f : Params → Params) :
    SameAs i s (assignT i f) (do store f; attributeChanged) := by
  refine ⟨(s i).scr, ?_⟩
  rw [alone_assign]
  simp [PyM.bind_apply, store, attributeChanged, PyM.modify_apply]

theorem sameAs_setAttr (i : ℕ) (s : Dicts) (a : Attr) (v : PyVal) : SameAs i s (setAttrT i a v) (setAttr .hanser a v) := by
  have hz : ∀ s', SameAs i s' (ignoreT (genZrangeT i)) (PyM.ignore .attributeError genZrange) := fun s' => sameAs_ignore (sameAs_genZrange i s')
  cases a with
  | wl => exact sameAs_numeric i PyVal.isFloatOrInt Params.wl (fun v p => { p with wl := some v }) v s
  | na => exact sameAs_numeric i PyVal.isFloatOrInt Params.na (fun v p => { p with na := some v }) v s
  | ni => exact sameAs_numeric i PyVal.isFloatOrInt Params.ni (fun v p => { p with ni := some v }) v s
  | size => exact sameAs_numeric i PyVal.isInt Params.size (fun v p => { p with size := some v }) v s
  | zsize => exact sameAs_bind (sameAs_numeric i PyVal.isInt Params.zsize (fun v p => { p with zsize := some v }) v s) fun _ s' => hz s'
  | res =>
    have rdn : ∀ (f : Params → Option PyVal) s', SameAs i s' (rd i fun c => attr (f c.obj.params) >>= pyNum)
        (do PyM.lift (pyNum (← self f))) := by
      intro f s'
      refine ⟨(s' i).scr, ?_⟩
      rw [alone_rd]
      simp only [PyM.bind_apply, self, PyM.lift_apply]
      rcases attr (f (s' i).obj.params) with e | w
      · simp [Bind.bind, Except.bind]
      · simp [Bind.bind, Except.bind]
    have key : SameAs i s (setResT i v) (do
        let na ← (do PyM.lift (pyNum (← self Params.na)) : PyM HObj PyFloat)
        let wl ← (do PyM.lift (pyNum (← self Params.wl)) : PyM HObj PyFloat)
        let q ← PyM.lift (PyFloat.div (PyFloat.mul (.fin 2) na) wl)
        let abbeLimit ← PyM.lift (PyFloat.div (.fin 1) q)
        let x ← PyM.lift (pyNum v)
        if PyFloat.ge x abbeLimit then PyM.raise .valueError
        else do
          store fun p => { p with res := some v }
          attributeChanged) := by
      unfold setResT
      refine sameAs_bind (rdn _ _) fun na s1 => sameAs_bind (rdn _ _) fun wl s2 => sameAs_bind (sameAs_lift _ _ _) fun q s3 =>
        sameAs_bind (sameAs_lift _ _ _) fun l s4 => sameAs_bind (sameAs_lift _ _ _) fun x s5 => ?_
      by_cases h : PyFloat.ge x l = true
      · rw [if_pos h, if_pos h]; exact sameAs_lift i s5 (.error .valueError)
      · rw [if_neg h, if_neg h]; exact sameAs_assign i s5 fun p => { p with res := some v }
    obtain ⟨scr, h⟩ := key
    refine ⟨scr, h.trans ?_⟩
    have : ∀ o : HObj, ((do
        let na ← (do PyM.lift (pyNum (← self Params.na)) : PyM HObj PyFloat)
        let wl ← (do PyM.lift (pyNum (← self Params.wl)) : PyM HObj PyFloat)
        let q ← PyM.lift (PyFloat.div (PyFloat.mul (.fin 2) na) wl)
        let abbeLimit ← PyM.lift (PyFloat.div (.fin 1) q)
        let x ← PyM.lift (pyNum v)
        if PyFloat.ge x abbeLimit then PyM.raise .valueError
        else do
          store fun p => { p with res := some v }
          attributeChanged) : PyM HObj Unit) o = setRes v o := by
      intro o
      simp only [setRes, PyM.bind_apply]
      rcases self Params.na o with ⟨e | na, o1⟩
      · rfl
      simp only [PyM.lift_apply]
      rcases pyNum na with e | na
      · rfl
      simp only []
      rcases self Params.wl o1 with ⟨e | wl, o2⟩ <;> rfl
    rw [this]
    rfl
  | zres =>
    refine sameAs_bind ?_ fun _ s' => hz s'
    unfold setZresBaseT setZresBase
    refine sameAs_bind (sameAs_lift _ _ _) fun x s1 => ?_
    by_cases h : (!(PyFloat.lt (.fin 0) x)) = true
    · rw [if_pos h, if_pos h]; exact sameAs_lift i s1 (.error .valueError)
    · rw [if_neg h, if_neg h]; exact sameAs_assign i s1 fun p => { p with zres := some v }
  | vecCorr => exact sameAs_bind (sameAs_lift _ _ _) fun w s1 => sameAs_assign i s1 fun p => { p with vecCorr := some w }
  | condition => exact sameAs_bind (sameAs_lift _ _ _) fun x s1 => sameAs_assign i s1 fun p => { p with condition := some x }
  | dual => exact sameAs_lift i s (.ok ())

/-! ## What the calls leave alone -/

theorem maint_tbind {α β : Type} {Inv : Dicts → Prop} {p : TM α} {f : α → TM β} (hp : Maintains Inv p) (hf : ∀ a, Maintains Inv (f a)) :
    Maintains Inv (TM.bind p f) := Maintains.bind hp fun r => by
  rcases r with e | a
  · exact trivial
  · exact hf a

theorem maint_rd {α : Type} {Inv : Dicts → Prop} {i : ℕ} {f : HCell → Py α} : Maintains Inv (rd i f) := fun _ hs => ⟨hs, trivial⟩
theorem maint_loc {α : Type} {Inv : Dicts → Prop} {x : Py α} : Maintains Inv (loc x) := trivial
theorem maint_wr {Inv : Dicts → Prop} {i : ℕ} {f : HCell → HCell} (h : ∀ s, Inv s → Inv (Function.update s i (f (s i)))) :
    Maintains Inv (wr i f) := fun s hs => ⟨h s hs, trivial⟩
theorem maint_yield {α : Type} {Inv : Dicts → Prop} {f : α → Out (Arr ℂ) (Arr ℝ)} {p : TM α} (hp : Maintains Inv p) : Maintains Inv (yieldT f p) :=
  Maintains.bind hp fun _ => trivial

/-- Object `i` may change in every respect but its parameters. -/
def ClosedP (i : ℕ) (Inv : Dicts → Prop) : Prop :=
  ∀ s c, Inv s → c.obj.params = (s i).obj.params → Inv (Function.update s i c)

/-- Object `i` may lose cached outputs. -/
def ClosedS (i : ℕ) (Inv : Dicts → Prop) : Prop :=
  ∀ s c, Inv s → Sub c.obj (s i).obj → Inv (Function.update s i c)

theorem ClosedP.sub {i : ℕ} {Inv : Dicts → Prop} (h : ClosedP i Inv) : ClosedS i Inv := fun s c hs hc => h s c hs hc.params

theorem Sub.trans {a b c : HObj} (h : Sub a b) (h' : Sub b c) : Sub a c := by
  refine ⟨h.params.trans h'.params, ?_, ?_, ?_, ?_⟩
  · rcases h.psfa with e | e
    · exact .inl e
    · exact e ▸ h'.psfa
  · rcases h.otfa with e | e
    · exact .inl e
    · exact e ▸ h'.otfa
  · rcases h.psfi with e | e
    · exact .inl e
    · exact e ▸ h'.psfi
  · rcases h.otfi with e | e
    · exact .inl e
    · exact e ▸ h'.otfi

theorem maint_attributeChanged {i : ℕ} {Inv : Dicts → Prop} (h : ClosedS i Inv) : Maintains Inv (attributeChangedT i) := by
  unfold attributeChangedT
  exact maint_tbind (maint_wr fun s hs => h s _ hs ⟨rfl, .inl rfl, .inr rfl, .inr rfl, .inr rfl⟩) fun _ =>
    maint_tbind (maint_wr fun s hs => h s _ hs ⟨rfl, .inr rfl, .inl rfl, .inr rfl, .inr rfl⟩) fun _ =>
    maint_tbind (maint_wr fun s hs => h s _ hs ⟨rfl, .inr rfl, .inr rfl, .inl rfl, .inr rfl⟩) fun _ =>
    maint_wr fun s hs => h s _ hs ⟨rfl, .inr rfl, .inr rfl, .inr rfl, .inl rfl⟩

theorem maint_genPsf (I : Impl) {i : ℕ} {Inv : Dicts → Prop} (h : ClosedS i Inv) (base : Option (Arr ℂ)) : Maintains Inv (genPsfT I i base) := by
  unfold genPsfT
  refine maint_tbind (maint_attributeChanged h) fun _ => maint_tbind ?_ fun _ => maint_tbind ?_ fun _ => maint_loc
  · unfold genKrT
    exact maint_tbind maint_rd fun _ => maint_tbind maint_rd fun _ => maint_tbind maint_loc fun _ =>
      maint_tbind (maint_wr fun s hs => h s _ hs (Sub.refl _)) fun _ => maint_tbind (maint_wr fun s hs => h s _ hs (Sub.refl _)) fun _ =>
      maint_tbind (maint_wr fun s hs => h s _ hs (Sub.refl _)) fun _ => maint_tbind maint_rd fun _ => maint_tbind maint_rd fun _ => maint_tbind maint_loc fun _ =>
      maint_tbind (maint_wr fun s hs => h s _ hs (Sub.refl _)) fun _ => maint_tbind maint_rd fun _ => maint_tbind maint_rd fun _ =>
      maint_wr fun s hs => h s _ hs (Sub.refl _)
  · unfold readsT
    refine maint_tbind ?_ fun _ => maint_tbind maint_rd fun _ => maint_tbind maint_rd fun _ => maint_tbind maint_rd fun _ =>
      maint_tbind maint_rd fun _ => maint_tbind maint_rd fun _ => maint_tbind ?_ fun _ => maint_tbind ?_ fun _ => maint_loc
    · unfold pupilT
      rcases base with _ | b
      · exact maint_tbind maint_rd fun _ => maint_tbind maint_rd fun _ => maint_tbind maint_rd fun _ => maint_tbind maint_loc fun _ => maint_loc
      · dsimp only; split <;> exact maint_loc
    · unfold condsT
      refine maint_tbind maint_rd fun _ => ?_
      split
      · exact maint_loc
      refine maint_tbind maint_rd fun _ => ?_
      split
      · exact maint_loc
      refine maint_tbind maint_rd fun _ => ?_
      split <;> exact maint_loc
    · have ht : ∀ a, Maintains Inv (vecTestT i a) := by
        intro a
        unfold vecTestT
        refine maint_tbind maint_rd fun _ => ?_
        split
        · exact maint_loc
        · exact maint_tbind maint_rd fun _ => maint_loc
      unfold vecsT
      refine maint_tbind maint_rd fun _ => ?_
      split
      · exact maint_loc
      · exact maint_tbind (ht _) fun _ => maint_tbind (ht _) fun _ => maint_tbind (ht _) fun _ => maint_loc

theorem maint_cached {α : Type} (I : Impl) (l : Slot) {i : ℕ} {Inv : Dicts → Prop} (h : ClosedP i Inv) (get : HObj → Option α)
    (put : α → HObj → HObj) (hput : ∀ a o, (put a o).params = o.params) {func : TM α} (hf : Maintains Inv func) :
    Maintains Inv (cachedT I l i get put func) := by
  have fill : Maintains Inv (func.bind fun a => (wr i fun c => { c with obj := put a c.obj }).bind fun _ => loc (.ok a)) :=
    maint_tbind hf fun a => maint_tbind (maint_wr fun s hs => h s _ hs (hput _ _)) fun _ => maint_loc
  have look : ∀ k : TM α, Maintains Inv k → Maintains Inv (.act id fun s => match get (s i).obj with
      | some a => .ret (.ok a)
      | none => k : TM α) := by
    intro k hk s hs
    refine ⟨hs, ?_⟩
    dsimp only
    rcases get (s i).obj with _ | a
    · exact hk
    · exact trivial
  unfold cachedT
  refine look _ (look _ ?_)
  split
  · exact Maintains.bind (p := (.act id fun s => match get (s i).obj with
      | some a => .ret (.ok a)
      | none => _ : TM α)) (look _ fill) fun r => trivial
  · exact fill

theorem maint_psfa (I : Impl) {i : ℕ} {Inv : Dicts → Prop} (h : ClosedP i Inv) : Maintains Inv (psfaT I i) :=
  maint_cached I .psfa h (·.psfa) (fun a o => { o with psfa := some a }) (fun _ _ => rfl) (maint_genPsf I h.sub none)

theorem maint_psfi (I : Impl) {i : ℕ} {Inv : Dicts → Prop} (h : ClosedP i Inv) : Maintains Inv (psfiT I i) :=
  maint_cached I .psfi h (·.psfi) (fun a o => { o with psfi := some a }) (fun _ _ => rfl) (maint_tbind (maint_psfa I h) fun _ => maint_loc)

/-- Calls that only read, and `apply_pupil`, never touch the parameters. -/
theorem maint_call (I : Impl) {i : ℕ} {Inv : Dicts → Prop} (h : ClosedP i Inv) (op : HOp) (h1 : ∀ a v, op ≠ .set a v) (h2 : ∀ z, op ≠ .setZrange z) :
    Maintains Inv (callT I i op) := by
  cases op with
  | set a v => exact absurd rfl (h1 a v)
  | setZrange z => exact absurd rfl (h2 z)
  | applyPupil P =>
    exact maint_yield (maint_tbind (maint_attributeChanged h.sub) fun _ => maint_tbind (maint_genPsf I h.sub _) fun _ => maint_wr fun s hs => h s _ hs rfl)
  | readPSFa => exact maint_yield (maint_psfa I h)
  | readOTFa => exact maint_yield (maint_cached I .otfa h (·.otfa) (fun a o => { o with otfa := some a }) (fun _ _ => rfl) (maint_tbind (maint_psfa I h) fun _ => maint_loc))
  | readPSFi => exact maint_yield (maint_psfi I h)
  | readOTFi => exact maint_yield (maint_cached I .otfi h (·.otfi) (fun a o => { o with otfi := some a }) (fun _ _ => rfl) (maint_tbind (maint_psfi I h) fun _ => maint_loc))

/-- Object `i` may change in every respect. -/
def ClosedA (i : ℕ) (Inv : Dicts → Prop) : Prop := ∀ s c, Inv s → Inv (Function.update s i c)

theorem maint_setAttr {i : ℕ} {Inv : Dicts → Prop} (h : ClosedA i Inv) (a : Attr) (v : PyVal) : Maintains Inv (setAttrT i a v) := by
  have hc : Maintains Inv (attributeChangedT i) := maint_attributeChanged fun s c hs _ => h s c hs
  have hw : ∀ f, Maintains Inv (wr i f) := fun f => maint_wr fun s hs => h s _ hs
  have num : ∀ isV get put, Maintains Inv (setNumericT i isV get put v) := by
    intro isV get put
    unfold setNumericT
    refine maint_tbind maint_rd fun w => ?_
    rcases w with _ | w
    · exact maint_loc
    · exact maint_tbind (hw _) fun _ => hc
  have gen : Maintains Inv (ignoreT (genZrangeT i)) := by
    refine Maintains.bind ?_ fun r => ?_
    · exact maint_tbind maint_rd fun _ => maint_tbind maint_rd fun _ => maint_tbind maint_rd fun _ => maint_tbind (hw _) fun _ => hc
    · split <;> exact trivial
  cases a with
  | wl => exact num PyVal.isFloatOrInt Params.wl fun v p => { p with wl := some v }
  | na => exact num PyVal.isFloatOrInt Params.na fun v p => { p with na := some v }
  | ni => exact num PyVal.isFloatOrInt Params.ni fun v p => { p with ni := some v }
  | size => exact num PyVal.isInt Params.size fun v p => { p with size := some v }
  | zsize => exact maint_tbind (num PyVal.isInt Params.zsize fun v p => { p with zsize := some v }) fun _ => gen
  | res =>
    refine maint_tbind maint_rd fun _ => maint_tbind maint_rd fun _ => maint_tbind maint_loc fun _ => maint_tbind maint_loc fun _ =>
      maint_tbind maint_loc fun _ => ?_
    split
    · exact maint_loc
    · exact maint_tbind (hw _) fun _ => hc
  | zres =>
    refine maint_tbind (maint_tbind maint_loc fun _ => ?_) fun _ => gen
    split
    · exact maint_loc
    · exact maint_tbind (hw _) fun _ => hc
  | vecCorr => exact maint_tbind maint_loc fun _ => maint_tbind (hw _) fun _ => hc
  | condition => exact maint_tbind maint_loc fun _ => maint_tbind (hw _) fun _ => hc
  | dual => exact maint_loc

/-- A call on object `i` touches no other object, wherever it is abandoned. -/
theorem call_others (I : Impl) (i : ℕ) (op : HOp) (s : Dicts) : Always (fun t => ∀ j, j ≠ i → t j = s j) (callT I i op) s := by
  have h : ClosedA i fun t : Dicts => ∀ j, j ≠ i → t j = s j := by
    intro t c ht j hj
    rw [Function.update_of_ne hj]; exact ht j hj
  refine Maintains.always ?_ fun _ _ => rfl
  have h' : ClosedP i fun t : Dicts => ∀ j, j ≠ i → t j = s j := fun t c ht _ => h t c ht
  cases op with
  | set a v => exact maint_yield (maint_setAttr h a v)
  | setZrange z => exact maint_yield (maint_tbind (maint_wr fun s hs => h s _ hs) fun _ => maint_attributeChanged h'.sub)
  | applyPupil P => exact maint_call I h' _ (by simp) (by simp)
  | readPSFa => exact maint_call I h' _ (by simp) (by simp)
  | readOTFa => exact maint_call I h' _ (by simp) (by simp)
  | readPSFi => exact maint_call I h' _ (by simp) (by simp)
  | readOTFi => exact maint_call I h' _ (by simp) (by simp)

/-- The parameters at the crash points of a call that does not assign. -/
theorem call_params (I : Impl) (i : ℕ) (op : HOp) (s : Dicts) (h1 : ∀ a v, op ≠ .set a v) (h2 : ∀ z, op ≠ .setZrange z) :
    Always (fun t => (t i).obj.params = (s i).obj.params) (callT I i op) s := by
  refine Maintains.always (maint_call I ?_ op h1 h2) rfl
  intro t c ht hc
  rw [Function.update_self, hc]; exact ht

end PyOTF
