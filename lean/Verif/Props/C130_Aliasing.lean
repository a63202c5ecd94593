import Verif.Lemmas.MemoryStep
import Verif.Props.C39_C43_Hanser

/-!
# C130: shared arrays

The outputs a model hands out are the arrays it keeps, an array assigned to `zrange` is kept without a copy, and a copied model shares all of them.  As long as the
client writes into no shared array, the arrays behave like values.
-/

namespace PyOTF

/-- The state after a program. -/
noncomputable def after (prog : List Stmt) : RProg := (runHistory RProg.step RProg.empty prog).2

theorem good_after (prog : List Stmt) : Good (after prog) := good_empty.run prog

theorem runHistory_append {σ Op R : Type} (step : σ → Op → R × σ) (s : σ) (l l' : List Op) :
    (runHistory step s (l ++ l')).2 = (runHistory step (runHistory step s l).2 l').2 := by
  induction l generalizing s with
  | nil => rfl
  | cons a l ih => exact ih _

/-! ## Arrays behave like values -/

theorem refines_from {s : RProg} {t : VProg} (h : RelP s t) (prog : List Stmt) (hu : Unshared s prog) :
    (runHistory RProg.step s prog).1 = (runHistory VProg.step t prog).1 ∧ RelP (runHistory RProg.step s prog).2 (runHistory VProg.step t prog).2 := by
  induction prog generalizing s t with
  | nil => exact ⟨rfl, h⟩
  | cons st rest ih =>
    obtain ⟨h1, h2⟩ := hu
    have hs := step_sim h st h1
    obtain ⟨i1, i2⟩ := ih hs.rel h2
    exact ⟨by simp only [runHistory, hs.out, i1], i2⟩

/-- C130: a program that writes into no shared array sees the same whether arrays are references or values: every statement returns or raises the same, and in the end
every variable has the same contents. -/
theorem C130_refines (prog : List Stmt) (hu : Unshared RProg.empty prog) :
    (runHistory RProg.step RProg.empty prog).1 = (runHistory VProg.step VProg.empty prog).1 ∧
    List.Forall₂ (fun p a => (after prog).world.mem.cplx[p]? = some a) (after prog).c (runHistory VProg.step VProg.empty prog).2.c ∧
    List.Forall₂ (fun p a => (after prog).world.mem.real[p]? = some a) (after prog).r (runHistory VProg.step VProg.empty prog).2.r ∧
    List.Forall₂ (fun p a => (after prog).world.mem.axis[p]? = some a) (after prog).z (runHistory VProg.step VProg.empty prog).2.z := by
  obtain ⟨h1, h2⟩ := refines_from (s := RProg.empty) (t := VProg.empty) ⟨⟨rfl, by simp [RProg.empty]⟩, .nil, .nil, .nil⟩ prog hu
  exact ⟨h1, h2.c, h2.r, h2.z⟩

theorem unshared_of_no_writes (prog : List Stmt) (h : ∀ st ∈ prog, ¬ st.IsWrite) (s : RProg) : Unshared s prog := by
  induction prog generalizing s with
  | nil => trivial
  | cons st rest ih => exact ⟨private_of_not_write (h st (by simp)), ih (fun x hx => h x (by simp [hx])) _⟩

/-- C130: in particular a program that only creates, assigns and reads. -/
theorem C130_no_writes (prog : List Stmt) (h : ∀ st ∈ prog, ¬ st.IsWrite) :
    (runHistory RProg.step RProg.empty prog).1 = (runHistory VProg.step VProg.empty prog).1 := (C130_refines prog (unshared_of_no_writes prog h _)).1

/-- C130: no statement other than a write - no constructor, setter, read, `apply_pupil` or `apply_aberration` - changes the contents of an array that exists,
whatever was done before. -/
theorem C130_frame (prog : List Stmt) (st : Stmt) (hw : ¬ st.IsWrite) (p : ℕ) :
    (∀ a, (after prog).world.mem.cplx[p]? = some a → ((after prog).step st).2.world.mem.cplx[p]? = some a) ∧
    (∀ a, (after prog).world.mem.real[p]? = some a → ((after prog).step st).2.world.mem.real[p]? = some a) ∧
    (∀ a, (after prog).world.mem.axis[p]? = some a → ((after prog).step st).2.world.mem.axis[p]? = some a) := by
  obtain ⟨t, ht⟩ := good_after prog
  obtain ⟨he, -⟩ := (step_sim ht st (private_of_not_write hw)).frame hw
  exact ⟨he.cplx p, he.real p, he.axis p⟩

/-- C130: a pupil array of the client stays the client's own: `apply_pupil` does not keep it, so writing into it later is harmless, whatever happens in between. -/
theorem C130_own_pupil (prog : List Stmt) (P : Arr ℂ) (rest : List Stmt) (idx : List ℕ) (v : ℂ) :
    (Stmt.writeC (after prog).c.length idx v).Private (after (prog ++ .pupil P :: rest)) := by
  have hg := good_after prog
  have h0 : Own ((after prog).step (.pupil P)).2 (after prog).c.length (after prog).world.mem.cplx.length := by
    rw [good_iff] at hg
    refine ⟨by simp [RProg.step, RProg.seeC], by simp [RProg.step, RProg.seeC], fun o ho hh => ?_, fun y hy => ?_⟩
    · have hv := hg.1 o ho
      have : ∃ a, (after prog).world.mem.cplx[(after prog).world.mem.cplx.length]? = some a := by
        rcases hh with hh | hh | hh
        · exact hv.psfa _ hh
        · exact hv.otfa _ hh
        · exact hv.otfi _ hh
      simp at this
    · simp only [RProg.step, RProg.seeC] at hy
      by_cases hyl : y < (after prog).c.length
      · rw [List.getElem?_append_left hyl] at hy
        obtain ⟨a, ha⟩ := hg.2.1 _ (List.mem_of_getElem? hy)
        simp at ha
      · have := (List.getElem?_eq_some_iff.mp hy).1
        simp at this
        omega
  have hrun : ∀ (l : List Stmt) (s : RProg), Good s → Own s (after prog).c.length (after prog).world.mem.cplx.length →
      Own (runHistory RProg.step s l).2 (after prog).c.length (after prog).world.mem.cplx.length := by
    intro l
    induction l with
    | nil => exact fun s _ h => h
    | cons st l ih => exact fun s hs h => ih _ (hs.step st) (h.step hs st)
  have hf := hrun rest _ (hg.step _) h0
  have e : after (prog ++ .pupil P :: rest) = (runHistory RProg.step ((after prog).step (.pupil P)).2 rest).2 := by
    unfold after
    rw [runHistory_append]
    rfl
  rw [e]
  intro p hp
  obtain rfl : (after prog).world.mem.cplx.length = p := by rw [hf.var] at hp; exact Option.some.inj hp
  exact ⟨hf.models, hf.only⟩

/-! ## Arrays are shared -/

theorem set_same {α : Type} {l : List α} {k : ℕ} {o : α} (h : l[k]? = some o) : l.set k o = l := by
  apply List.ext_getElem?
  intro i
  by_cases hi : i = k
  · subst hi; rw [List.getElem?_set_self (List.getElem?_eq_some_iff.mp h).1, h]
  · rw [set_other _ _ _ _ hi]

/-- Reading an output that is cached. -/
theorem read_psfi {s : RProg} {k : ℕ} {o : RObj} {r : ℕ} {a : Arr ℝ} (ho : s.world.objs[k]? = some o) (hr : o.obj.psfi = some r) (ha : s.world.mem.real[r]? = some a) :
    s.step (.PSFi k) = (.ok (.real a), { s with r := s.r ++ [r] }) := by
  have : World.onObj k RState.getPSFi s.world = (.ok r, s.world) := by
    simp only [World.onObj, ho, RState.getPSFi, PyM.bind_apply, PyM.get_apply, hr, PyM.pure_apply, set_same ho]
  simp only [RProg.step, this, RProg.seeR, ha]

theorem read_psfa {s : RProg} {k : ℕ} {o : RObj} {r : ℕ} {a : Arr ℂ} (ho : s.world.objs[k]? = some o) (hr : o.obj.psfa = some r) (ha : s.world.mem.cplx[r]? = some a) :
    s.step (.PSFa k) = (.ok (.cplx a), { s with c := s.c ++ [r] }) := by
  have : World.onObj k RState.getPSFa s.world = (.ok r, s.world) := by
    simp only [World.onObj, ho, RState.getPSFa, PyM.bind_apply, PyM.get_apply, hr, PyM.pure_apply, set_same ho]
  simp only [RProg.step, this, RProg.seeC, ha]

theorem read_otfa {s : RProg} {k : ℕ} {o : RObj} {r : ℕ} {a : Arr ℂ} (ho : s.world.objs[k]? = some o) (hr : o.obj.otfa = some r) (ha : s.world.mem.cplx[r]? = some a) :
    s.step (.OTFa k) = (.ok (.cplx a), { s with c := s.c ++ [r] }) := by
  have : World.onObj k RState.getOTFa s.world = (.ok r, s.world) := by
    simp only [World.onObj, ho, RState.getOTFa, PyM.bind_apply, PyM.get_apply, hr, PyM.pure_apply, set_same ho]
  simp only [RProg.step, this, RProg.seeC, ha]

theorem read_otfi {s : RProg} {k : ℕ} {o : RObj} {r : ℕ} {a : Arr ℂ} (ho : s.world.objs[k]? = some o) (hr : o.obj.otfi = some r) (ha : s.world.mem.cplx[r]? = some a) :
    s.step (.OTFi k) = (.ok (.cplx a), { s with c := s.c ++ [r] }) := by
  have : World.onObj k RState.getOTFi s.world = (.ok r, s.world) := by
    simp only [World.onObj, ho, RState.getOTFi, PyM.bind_apply, PyM.get_apply, hr, PyM.pure_apply, set_same ho]
  simp only [RProg.step, this, RProg.seeC, ha]

theorem read_zrange {s : RProg} {k : ℕ} {o : RObj} {z : List PyFloat} (ho : s.world.objs[k]? = some o) (hz : s.world.mem.axis[o.zref]? = some z) :
    s.step (.zrange k) = (.ok (.planes z), { s with z := s.z ++ [o.zref] }) := by
  have : World.onObj k (fun t => (.ok t.self.zref, t)) s.world = (.ok o.zref, s.world) := by
    simp only [World.onObj, ho, set_same ho]
  simp only [RProg.step, this, RProg.seeZ, hz]

/-- After a successful read the model keeps the array that was returned. -/
theorem seen_real {s : RProg} {k : ℕ} {m : PyM RState ℕ} {H : RObj → ℕ → Prop} (hm : ∀ (q : ℕ) (u : RState), (m u).1 = .ok q → H (m u).2.self q) {a : Arr ℝ}
    (h : (s.seeR (World.onObj k m s.world)).1 = .ok (.real a)) : ∃ o r, (s.seeR (World.onObj k m s.world)).2.world.objs[k]? = some o ∧ H o r ∧
      (s.seeR (World.onObj k m s.world)).2.world.mem.real[r]? = some a ∧ (s.seeR (World.onObj k m s.world)).2.r = s.r ++ [r] := by
  rcases e : s.world.objs[k]? with _ | o
  · simp only [World.onObj, e, RProg.seeR] at h; cases h
  · have e2 : World.onObj k m s.world = ((m ⟨s.world.mem, o⟩).1, ⟨(m ⟨s.world.mem, o⟩).2.mem, s.world.objs.set k (m ⟨s.world.mem, o⟩).2.self⟩) := by
      simp only [World.onObj, e]
    rw [e2] at h ⊢
    have hH := fun q => hm q ⟨s.world.mem, o⟩
    rcases e3 : m ⟨s.world.mem, o⟩ with ⟨x | r, s'⟩
    · rw [e3] at h; simp only [RProg.seeR] at h; cases h
    · rw [e3] at h hH
      simp only [RProg.seeR] at h ⊢
      rcases e4 : s'.mem.real[r]? with _ | b
      · rw [e4] at h; cases h
      · rw [e4] at h; cases h
        exact ⟨s'.self, r, by rw [List.getElem?_set_self (List.getElem?_eq_some_iff.mp e).1], hH r rfl, e4, rfl⟩

@[inherit_doc seen_real]
theorem seen_cplx {s : RProg} {k : ℕ} {m : PyM RState ℕ} {H : RObj → ℕ → Prop} (hm : ∀ (q : ℕ) (u : RState), (m u).1 = .ok q → H (m u).2.self q) {a : Arr ℂ}
    (h : (s.seeC (World.onObj k m s.world)).1 = .ok (.cplx a)) : ∃ o r, (s.seeC (World.onObj k m s.world)).2.world.objs[k]? = some o ∧ H o r ∧
      (s.seeC (World.onObj k m s.world)).2.world.mem.cplx[r]? = some a ∧ (s.seeC (World.onObj k m s.world)).2.c = s.c ++ [r] := by
  rcases e : s.world.objs[k]? with _ | o
  · simp only [World.onObj, e, RProg.seeC] at h; cases h
  · have e2 : World.onObj k m s.world = ((m ⟨s.world.mem, o⟩).1, ⟨(m ⟨s.world.mem, o⟩).2.mem, s.world.objs.set k (m ⟨s.world.mem, o⟩).2.self⟩) := by
      simp only [World.onObj, e]
    rw [e2] at h ⊢
    have hH := fun q => hm q ⟨s.world.mem, o⟩
    rcases e3 : m ⟨s.world.mem, o⟩ with ⟨x | r, s'⟩
    · rw [e3] at h; simp only [RProg.seeC] at h; cases h
    · rw [e3] at h hH
      simp only [RProg.seeC] at h ⊢
      rcases e4 : s'.mem.cplx[r]? with _ | b
      · rw [e4] at h; cases h
      · rw [e4] at h; cases h
        exact ⟨s'.self, r, by rw [List.getElem?_set_self (List.getElem?_eq_some_iff.mp e).1], hH r rfl, e4, rfl⟩

theorem seen_psfi {s : RProg} {k : ℕ} {a : Arr ℝ} (h : (s.step (.PSFi k)).1 = .ok (.real a)) : ∃ o r, (s.step (.PSFi k)).2.world.objs[k]? = some o ∧
    o.obj.psfi = some r ∧ (s.step (.PSFi k)).2.world.mem.real[r]? = some a ∧ (s.step (.PSFi k)).2.r = s.r ++ [r] :=
  seen_real (m := RState.getPSFi) (H := fun o q => o.obj.psfi = some q) (fun _ _ hu => getPSFi_holds hu) h

theorem seen_psfa {s : RProg} {k : ℕ} {a : Arr ℂ} (h : (s.step (.PSFa k)).1 = .ok (.cplx a)) : ∃ o r, (s.step (.PSFa k)).2.world.objs[k]? = some o ∧
    o.obj.psfa = some r ∧ (s.step (.PSFa k)).2.world.mem.cplx[r]? = some a ∧ (s.step (.PSFa k)).2.c = s.c ++ [r] :=
  seen_cplx (m := RState.getPSFa) (H := fun o q => o.obj.psfa = some q) (fun _ _ hu => getPSFa_holds hu) h

theorem seen_otfa {s : RProg} {k : ℕ} {a : Arr ℂ} (h : (s.step (.OTFa k)).1 = .ok (.cplx a)) : ∃ o r, (s.step (.OTFa k)).2.world.objs[k]? = some o ∧
    o.obj.otfa = some r ∧ (s.step (.OTFa k)).2.world.mem.cplx[r]? = some a ∧ (s.step (.OTFa k)).2.c = s.c ++ [r] :=
  seen_cplx (m := RState.getOTFa) (H := fun o q => o.obj.otfa = some q) (fun _ _ hu => getOTFa_holds hu) h

theorem seen_otfi {s : RProg} {k : ℕ} {a : Arr ℂ} (h : (s.step (.OTFi k)).1 = .ok (.cplx a)) : ∃ o r, (s.step (.OTFi k)).2.world.objs[k]? = some o ∧
    o.obj.otfi = some r ∧ (s.step (.OTFi k)).2.world.mem.cplx[r]? = some a ∧ (s.step (.OTFi k)).2.c = s.c ++ [r] :=
  seen_cplx (m := RState.getOTFi) (H := fun o q => o.obj.otfi = some q) (fun _ _ hu => getOTFi_holds hu) h

/-- C130: reading an output twice gives the same array (`m.PSFi is m.PSFi`), and the second read changes nothing. -/
theorem C130_same_array (s : RProg) (k : ℕ) :
    (∀ a, (s.step (.PSFi k)).1 = .ok (.real a) → ∃ r, (s.step (.PSFi k)).2.r = s.r ++ [r] ∧
      (s.step (.PSFi k)).2.step (.PSFi k) = (.ok (.real a), { (s.step (.PSFi k)).2 with r := s.r ++ [r, r] })) ∧
    (∀ a, (s.step (.PSFa k)).1 = .ok (.cplx a) → ∃ r, (s.step (.PSFa k)).2.c = s.c ++ [r] ∧
      (s.step (.PSFa k)).2.step (.PSFa k) = (.ok (.cplx a), { (s.step (.PSFa k)).2 with c := s.c ++ [r, r] })) ∧
    (∀ a, (s.step (.OTFa k)).1 = .ok (.cplx a) → ∃ r, (s.step (.OTFa k)).2.c = s.c ++ [r] ∧
      (s.step (.OTFa k)).2.step (.OTFa k) = (.ok (.cplx a), { (s.step (.OTFa k)).2 with c := s.c ++ [r, r] })) ∧
    (∀ a, (s.step (.OTFi k)).1 = .ok (.cplx a) → ∃ r, (s.step (.OTFi k)).2.c = s.c ++ [r] ∧
      (s.step (.OTFi k)).2.step (.OTFi k) = (.ok (.cplx a), { (s.step (.OTFi k)).2 with c := s.c ++ [r, r] })) := by
  refine ⟨fun a h => ?_, fun a h => ?_, fun a h => ?_, fun a h => ?_⟩
  · obtain ⟨o, r, h1, h2, h3, h4⟩ := seen_psfi h
    exact ⟨r, h4, by rw [read_psfi h1 h2 h3, h4]; simp⟩
  · obtain ⟨o, r, h1, h2, h3, h4⟩ := seen_psfa h
    exact ⟨r, h4, by rw [read_psfa h1 h2 h3, h4]; simp⟩
  · obtain ⟨o, r, h1, h2, h3, h4⟩ := seen_otfa h
    exact ⟨r, h4, by rw [read_otfa h1 h2 h3, h4]; simp⟩
  · obtain ⟨o, r, h1, h2, h3, h4⟩ := seen_otfi h
    exact ⟨r, h4, by rw [read_otfi h1 h2 h3, h4]; simp⟩

/-- The state with other contents behind a reference. -/
def RProg.putR (s : RProg) (r : ℕ) (a : Arr ℝ) : RProg := { s with world := { s.world with mem := { s.world.mem with real := s.world.mem.real.set r a } } }
@[inherit_doc RProg.putR] def RProg.putZ (s : RProg) (r : ℕ) (a : List PyFloat) : RProg :=
  { s with world := { s.world with mem := { s.world.mem with axis := s.world.mem.axis.set r a } } }

open Classical in
theorem step_writeR {s : RProg} {x r : ℕ} {a : Arr ℝ} (hx : s.r[x]? = some r) (ha : s.world.mem.real[r]? = some a) {idx : List ℕ} (hi : InShape idx a.shape) (v : ℝ) :
    s.step (.writeR x idx v) = (.ok .done, s.putR r ⟨a.shape, Function.update a.get idx v⟩) := by
  simp only [RProg.step, hx, RProg.ran, World.writeR, ha, if_pos hi]
  rfl

theorem step_writeZ {s : RProg} {x r : ℕ} {a : List PyFloat} (hx : s.z[x]? = some r) (ha : s.world.mem.axis[r]? = some a) {i : ℕ} (hi : i < a.length) (v : PyFloat) :
    s.step (.writeZ x i v) = (.ok .done, s.putZ r (a.set i v)) := by
  simp only [RProg.step, hx, RProg.ran, World.writeZ, ha, if_pos hi]
  rfl

theorem putR_self {s : RProg} {r : ℕ} {a b : Arr ℝ} (ha : s.world.mem.real[r]? = some a) : (s.putR r b).world.mem.real[r]? = some b := by
  simp only [RProg.putR]
  rw [List.getElem?_set_self (List.getElem?_eq_some_iff.mp ha).1]

theorem putZ_self {s : RProg} {r : ℕ} {a b : List PyFloat} (ha : s.world.mem.axis[r]? = some a) : (s.putZ r b).world.mem.axis[r]? = some b := by
  simp only [RProg.putZ]
  rw [List.getElem?_set_self (List.getElem?_eq_some_iff.mp ha).1]

open Classical in
/-- C130: the array returned by `m.PSFi` is the cache: what the client writes into it is what `m.PSFi` gives from then on, and what `m.OTFi` is computed from
if it has not been read before. -/
theorem C130_poisoned (s : RProg) (k : ℕ) (a : Arr ℝ) (h : (s.step (.PSFi k)).1 = .ok (.real a)) (idx : List ℕ) (hi : InShape idx a.shape) (v : ℝ) :
    ∃ s' : RProg, (s.step (.PSFi k)).2.step (.writeR s.r.length idx v) = (.ok .done, s') ∧
    (s'.step (.PSFi k)).1 = .ok (.real ⟨a.shape, Function.update a.get idx v⟩) ∧
    ((∀ o, s'.world.objs[k]? = some o → o.obj.otfi = none) →
      (s'.step (.OTFi k)).1 = (otfiOf ⟨a.shape, Function.update a.get idx v⟩).map .cplx) := by
  obtain ⟨o, r, h1, h2, h3, h4⟩ := seen_psfi h
  have hx : (s.step (.PSFi k)).2.r[s.r.length]? = some r := by
    rw [h4]; simp
  refine ⟨(s.step (.PSFi k)).2.putR r ⟨a.shape, Function.update a.get idx v⟩, step_writeR hx h3 hi v, ?_, fun hn => ?_⟩
  · rw [read_psfi (s := (s.step (.PSFi k)).2.putR r ⟨a.shape, Function.update a.get idx v⟩) h1 h2 (putR_self h3)]
  · have hn' : o.obj.otfi = none := hn o h1
    have h5 := putR_self (b := ⟨a.shape, Function.update a.get idx v⟩) h3
    have h6 : ((s.step (.PSFi k)).2.putR r ⟨a.shape, Function.update a.get idx v⟩).world.objs[k]? = some o := h1
    generalize (s.step (.PSFi k)).2.putR r ⟨a.shape, Function.update a.get idx v⟩ = t at h5 h6
    generalize (⟨a.shape, Function.update a.get idx v⟩ : Arr ℝ) = a' at h5
    simp only [RProg.step, World.onObj, h6, RState.getOTFi, RState.getPSFi, PyM.bind_apply, PyM.get_apply, hn', h2, PyM.pure_apply, RState.derefR, h5, PyM.lift_apply]
    rcases otfiOf a' with e | b
    · rfl
    · simp [RState.allocC, RState.onObj, RProg.seeC, Except.map]

/-- The outputs of an object without cached arrays. -/
theorem getPSFi_cleared (q : Params) : (HObj.getPSFi { params := q }).1 = (⟨q, none⟩ : HSpec).PSFi := by
  simp only [HObj.getPSFi, HObj.getPSFa, HObj.genPsf, PyM.bind_apply, PyM.get_apply, attributeChanged, PyM.modify_apply, PyM.lift_apply, HSpec.PSFi, HSpec.PSFa]
  rcases hanserGenPsf q none with e | a <;> rfl

theorem read_fresh {s : RProg} (hg : Good s) {k : ℕ} {p : Params} {z : ℕ} {l : List PyFloat} (ho : s.world.objs[k]? = some ⟨{ params := p }, z⟩)
    (hz : s.world.mem.axis[z]? = some l) : (s.step (.PSFi k)).1 = ((⟨{ p with zrange := some l }, none⟩ : HSpec).PSFi).map .real := by
  obtain ⟨t, ht⟩ := hg
  rw [(step_sim ht (.PSFi k) trivial).out]
  have hk : t.objs[k]? = some { params := { p with zrange := some l } } := by
    rw [ht.world.get k, ho]
    simp [RObj.view, hz]
  have h1 := getPSFi_cleared { p with zrange := some l }
  rw [← h1]
  simp only [VProg.step, onRef, hk]
  rcases HObj.getPSFi { params := { p with zrange := some l } } with ⟨e | a, o⟩ <;> rfl

/-- C130: the array behind `m.zrange` is the model's own: writing a plane changes what `m.zrange` gives, but the outputs read before stay cached and belong to the old
planes.  Assigning the array again (`m.zrange = m.zrange`) makes them be computed for the new ones. -/
theorem C130_zrange_stale (prog : List Stmt) (k : ℕ) (o : RObj) (z : List PyFloat) (ho : (after prog).world.objs[k]? = some o)
    (hz : (after prog).world.mem.axis[o.zref]? = some z) (r : ℕ) (hr : o.obj.psfi = some r) (a : Arr ℝ) (ha : (after prog).world.mem.real[r]? = some a)
    (i : ℕ) (hi : i < z.length) (v : PyFloat) :
    ((after prog).step (.PSFi k)).1 = .ok (.real a) ∧ ((after prog).step (.zrange k)).1 = .ok (.planes z) ∧
    ∃ s', ((after prog).step (.zrange k)).2.step (.writeZ (after prog).z.length i v) = (.ok .done, s') ∧
      (s'.step (.zrange k)).1 = .ok (.planes (z.set i v)) ∧
      (s'.step (.PSFi k)).1 = .ok (.real a) ∧
      ∃ s'', s'.step (.setZrangeVar k (after prog).z.length) = (.ok .done, s'') ∧
        (s''.step (.PSFi k)).1 = ((⟨{ o.obj.params with zrange := some (z.set i v) }, none⟩ : HSpec).PSFi).map .real := by
  have hg := good_after prog
  generalize after prog = s at *
  have e1 := read_zrange ho hz
  have hx : (s.step (.zrange k)).2.z[s.z.length]? = some o.zref := by rw [e1]; simp
  have hz' : (s.step (.zrange k)).2.world.mem.axis[o.zref]? = some z := by rw [e1]; exact hz
  have ho' : (s.step (.zrange k)).2.world.objs[k]? = some o := by rw [e1]; exact ho
  have ha' : (s.step (.zrange k)).2.world.mem.real[r]? = some a := by rw [e1]; exact ha
  have hg' := hg.step (.zrange k)
  have hw := step_writeZ hx hz' hi v
  have hg2 := hg'.step (.writeZ s.z.length i v)
  rw [hw] at hg2
  refine ⟨by rw [read_psfi ho hr ha], by rw [e1], _, hw, ?_, ?_, ?_⟩
  · rw [read_zrange (s := (s.step (.zrange k)).2.putZ o.zref (z.set i v)) ho' (putZ_self hz')]
  · rw [read_psfi (s := (s.step (.zrange k)).2.putZ o.zref (z.set i v)) ho' hr ha']
  · have h5 := putZ_self (b := z.set i v) hz'
    have h6 : ((s.step (.zrange k)).2.putZ o.zref (z.set i v)).world.objs[k]? = some o := ho'
    have h7 : ((s.step (.zrange k)).2.putZ o.zref (z.set i v)).z[s.z.length]? = some o.zref := hx
    simp only at hg2
    generalize (s.step (.zrange k)).2.putZ o.zref (z.set i v) = t at *
    have hst : t.step (.setZrangeVar k s.z.length) = (.ok .done, { t with world := { t.world with objs := t.world.objs.set k ⟨{ params := o.obj.params }, o.zref⟩ } }) := by
      simp only [RProg.step, h7, RProg.ran, World.onObj, h6, RState.assignZrange, RState.onObj, attributeChanged, PyM.bind_apply, PyM.modify_apply]
      rfl
    have hg3 := hg2.step (.setZrangeVar k s.z.length)
    rw [hst] at hg3
    refine ⟨_, hst, read_fresh hg3 (p := o.obj.params) (z := o.zref) ?_ h5⟩
    simp only
    rw [List.getElem?_set_self (List.getElem?_eq_some_iff.mp h6).1]

/-- C130: a model constructed with an array as `zrange` keeps that array: what the client writes into it later moves the planes of the model. -/
theorem C130_given_array (prog : List Stmt) (args : InitArgs) (x k : ℕ) (h : ((after prog).step (.newWith args x)).1 = .ok (.model k)) :
    ∃ z, (((after prog).step (.newWith args x)).2.step (.zrange k)).1 = .ok (.planes z) ∧ ∀ i < z.length, ∀ v,
      ∃ s', ((after prog).step (.newWith args x)).2.step (.writeZ x i v) = (.ok .done, s') ∧ (s'.step (.zrange k)).1 = .ok (.planes (z.set i v)) := by
  have hg := good_after prog
  generalize after prog = s at *
  rcases e : s.z[x]? with _ | p
  · simp only [RProg.step, e, RProg.noVar] at h; cases h
  · obtain ⟨z, hz⟩ := ((good_iff s).mp hg).2.2.2 p (List.mem_of_getElem? e)
    have hstep : ∃ o : Obj ℕ ℕ, s.step (.newWith args x) = (.ok (.model s.world.objs.length), { s with world := { s.world with objs := s.world.objs ++ [⟨o, p⟩] } }) := by
      simp only [RProg.step, e, RProg.ran, World.new] at h ⊢
      revert h
      rcases construct (A := ℕ) (I := ℕ) (hanserInit args (ZGiven.content s.world.mem (.array p))) with er | o
      · intro h; simp only [Except.map] at h; cases h
      · intro h; exact ⟨o, rfl⟩
    obtain ⟨o, ho⟩ := hstep
    obtain rfl : s.world.objs.length = k := by rw [ho] at h; cases h; rfl
    have h1 : (s.step (.newWith args x)).2.world.objs[s.world.objs.length]? = some ⟨o, p⟩ := by rw [ho]; simp
    have h2 : (s.step (.newWith args x)).2.world.mem.axis[p]? = some z := by rw [ho]; exact hz
    have h3 : (s.step (.newWith args x)).2.z[x]? = some p := by rw [ho]; exact e
    refine ⟨z, by rw [read_zrange h1 h2], fun i hi v => ⟨_, step_writeZ h3 h2 hi v, ?_⟩⟩
    rw [read_zrange (s := (s.step (.newWith args x)).2.putZ p (z.set i v)) h1 (putZ_self h2)]

theorem applyPupil_zref (P : Arr ℂ) (s : RState) : (RState.applyPupil P s).2.self.zref = s.self.zref ∧ (RState.applyPupil P s).2.mem.axis = s.mem.axis := by
  simp only [RState.applyPupil, RState.genPsf, RState.onObj, PyM.bind_apply, PyM.get_apply, PyM.lift_apply, attributeChanged, PyM.modify_apply, RState.allocC]
  rcases hanserGenPsf _ (some P) with e | a <;> exact ⟨rfl, rfl⟩

/-- What `apply_aberration` does to the models: a new one with the same array of planes; the others stay. -/
theorem applyAberration_zref {w : World} {k : ℕ} {o : RObj} (ho : w.objs[k]? = some o) (m p : Option (List ℝ)) :
    ∃ o' : RObj, (World.applyAberration k m p w).2.objs = w.objs ++ [o'] ∧ o'.zref = o.zref ∧ (World.applyAberration k m p w).2.mem.axis = w.mem.axis ∧
      (∀ j, (World.applyAberration k m p w).1 = .ok j → j = w.objs.length) ∧ (m = none → p = none → o' = o ∧ (World.applyAberration k m p w).2.mem = w.mem) := by
  have hnew : ∀ x : RObj, (w.objs ++ [x])[w.objs.length]? = some x := by intro x; simp
  have hset : ∀ x y : RObj, (w.objs ++ [x]).set w.objs.length y = w.objs ++ [y] := by intro x y; simp
  have hcopy : World.copy k w = (.ok w.objs.length, { w with objs := w.objs ++ [o] }) := by simp only [World.copy, ho]
  have hnn : m = none → p = none → fillCoefs m p = none := by rintro rfl rfl; rfl
  simp only [World.applyAberration, PyM.bind_apply, hcopy]
  rcases hf : fillCoefs m p with _ | ⟨m', ph⟩
  · exact ⟨o, rfl, rfl, rfl, fun j h => by cases h; rfl, fun _ _ => ⟨rfl, rfl⟩⟩
  · have hnn' : m = none → p = none → False := fun h1 h2 => by rw [hnn h1 h2] at hf; cases hf
    simp only [PyM.bind_apply, World.onObj, hnew, PyM.get_apply, PyM.lift_apply, hset]
    rcases aberratedPupil _ m' ph with e | P
    · exact ⟨o, rfl, rfl, rfl, fun j h => (by simp at h), fun h1 h2 => (hnn' h1 h2).elim⟩
    · simp only [hnew]
      obtain ⟨h1, h2⟩ := applyPupil_zref P ⟨w.mem, o⟩
      revert h1 h2
      rcases RState.applyPupil P ⟨w.mem, o⟩ with ⟨e | u, s'⟩ <;> intro h1 h2
      · exact ⟨s'.self, hset _ _, h1, h2, fun j h => (by simp at h), fun h1 h2 => (hnn' h1 h2).elim⟩
      · exact ⟨s'.self, hset _ _, h1, h2, fun j h => (by simp at h; exact h.symm), fun h1 h2 => (hnn' h1 h2).elim⟩

/-- C130: an aberrated copy shares the planes with the model it was made from: a plane the client writes into the array behind the copy's `zrange`
moves the plane of the original too (with or without coefficients). -/
theorem C130_copy_shares_planes (prog : List Stmt) (k j : ℕ) (m p : Option (List ℝ)) (h : ((after prog).step (.aberrate k m p)).1 = .ok (.model j)) :
    j ≠ k ∧ ∃ z, ((((after prog).step (.aberrate k m p)).2).step (.zrange j)).1 = .ok (.planes z) ∧ ∀ i < z.length, ∀ v,
      ∃ s', (((after prog).step (.aberrate k m p)).2.step (.zrange j)).2.step (.writeZ (after prog).z.length i v) = (.ok .done, s') ∧
        (s'.step (.zrange k)).1 = .ok (.planes (z.set i v)) ∧ (s'.step (.zrange j)).1 = .ok (.planes (z.set i v)) := by
  have hg := good_after prog
  generalize after prog = s at *
  rcases e : s.world.objs[k]? with _ | o
  · simp only [RProg.step, RProg.ran, World.applyAberration, PyM.bind_apply, World.copy, e, Except.map] at h
    cases h
  · obtain ⟨z, hz⟩ := (((good_iff s).mp hg).1 o (List.mem_of_getElem? e)).zref
    obtain ⟨o', h1, h2, h3, h4, -⟩ := applyAberration_zref e m p
    have hk := (List.getElem?_eq_some_iff.mp e).1
    have hj : j = s.world.objs.length := by
      simp only [RProg.step, RProg.ran] at h
      rcases q : (World.applyAberration k m p s.world).1 with er | j'
      · rw [q] at h; cases h
      · rw [q] at h; cases h; exact h4 _ q
    subst hj
    have hs1 : (s.step (.aberrate k m p)).2.world.objs = s.world.objs ++ [o'] := h1
    have hs2 : (s.step (.aberrate k m p)).2.world.mem.axis = s.world.mem.axis := h3
    have hs3 : (s.step (.aberrate k m p)).2.z = s.z := rfl
    generalize (s.step (.aberrate k m p)).2 = t at *
    have g1 : t.world.objs[s.world.objs.length]? = some o' := by rw [hs1]; simp
    have g2 : t.world.objs[k]? = some o := by rw [hs1, List.getElem?_append_left hk]; exact e
    have g3 : t.world.mem.axis[o'.zref]? = some z := by rw [hs2, h2]; exact hz
    have g4 := read_zrange g1 g3
    have g5 : (t.step (.zrange s.world.objs.length)).2.z[s.z.length]? = some o'.zref := by rw [g4]; simp [hs3]
    refine ⟨by omega, z, by rw [g4], fun i hi v => ?_⟩
    rw [g4] at g5 ⊢
    refine ⟨_, step_writeZ (s := { t with z := t.z ++ [o'.zref] }) g5 g3 hi v, ?_, ?_⟩
    · rw [read_zrange (s := RProg.putZ { t with z := t.z ++ [o'.zref] } o'.zref (z.set i v)) (o := o) g2 (by rw [← h2]; exact putZ_self (s := { t with z := t.z ++ [o'.zref] }) g3)]
    · rw [read_zrange (s := RProg.putZ { t with z := t.z ++ [o'.zref] } o'.zref (z.set i v)) g1 (putZ_self (s := { t with z := t.z ++ [o'.zref] }) g3)]

open Classical in
/-- C130: `apply_aberration(m, None, None)` shares the cached outputs too: what the client writes into `m.PSFi` afterwards shows in the copy's `PSFi`. -/
theorem C130_copy_shares_cache (s : RProg) (k : ℕ) (a : Arr ℝ) (h : (s.step (.PSFi k)).1 = .ok (.real a)) (idx : List ℕ) (hi : InShape idx a.shape) (v : ℝ) :
    ∃ s1 s2 j, (s.step (.PSFi k)).2.step (.aberrate k none none) = (.ok (.model j), s1) ∧ j ≠ k ∧ s1.step (.writeR s.r.length idx v) = (.ok .done, s2) ∧
      (s2.step (.PSFi k)).1 = .ok (.real ⟨a.shape, Function.update a.get idx v⟩) ∧ (s2.step (.PSFi j)).1 = .ok (.real ⟨a.shape, Function.update a.get idx v⟩) := by
  obtain ⟨o, r, h1, h2, h3, h4⟩ := seen_psfi h
  have hx : (s.step (.PSFi k)).2.r[s.r.length]? = some r := by rw [h4]; simp
  generalize (s.step (.PSFi k)).2 = t at *
  have hk := (List.getElem?_eq_some_iff.mp h1).1
  have hab : t.step (.aberrate k none none) = (.ok (.model t.world.objs.length), { t with world := { t.world with objs := t.world.objs ++ [o] } }) := by
    simp only [RProg.step, RProg.ran, World.applyAberration, PyM.bind_apply, World.copy, h1, fillCoefs]
    rfl
  refine ⟨_, _, _, hab, by omega, step_writeR (s := { t with world := { t.world with objs := t.world.objs ++ [o] } }) hx h3 hi v, ?_, ?_⟩
  · rw [read_psfi (s := RProg.putR { t with world := { t.world with objs := t.world.objs ++ [o] } } r ⟨a.shape, Function.update a.get idx v⟩) (o := o)
      (by simp only [RProg.putR]; rw [List.getElem?_append_left hk]; exact h1) h2 (putR_self (s := { t with world := { t.world with objs := t.world.objs ++ [o] } }) h3)]
  · rw [read_psfi (s := RProg.putR { t with world := { t.world with objs := t.world.objs ++ [o] } } r ⟨a.shape, Function.update a.get idx v⟩) (o := o)
      (by simp [RProg.putR]) h2 (putR_self (s := { t with world := { t.world with objs := t.world.objs ++ [o] } }) h3)]

/-! ## The demonstration model -/

theorem demo_world : ∃ q l, HObj.new demoArgs none = .ok { params := q } ∧ q.zrange = some l ∧
    (after [.new demoArgs none]).world.objs[0]? = some ⟨{ params := q }, 0⟩ ∧ (after [.new demoArgs none]).world.mem.axis[0]? = some l := by
  obtain ⟨o, ho⟩ := demoObj
  rcases construct_par demoArgs none with ⟨q, h1, h2⟩ | ⟨e, h1, h2⟩
  · obtain ⟨l, hl, -⟩ := new_zrange h2
    have hl : q.zrange = some l := hl
    have e : after [.new demoArgs none] = ⟨⟨⟨[], [], [l]⟩, [⟨{ params := q }, 0⟩]⟩, [], [], []⟩ := by
      simp only [after, runHistory, RProg.step, RProg.ran, World.new, ZGiven.ofOption, ZGiven.content, h1, RProg.empty, hl, Option.getD_some]
      rfl
    exact ⟨q, l, h2, hl, by rw [e]; rfl, by rw [e]; rfl⟩
  · rw [h2] at ho; cases ho

theorem demo_read : ∃ a, ((after [.new demoArgs none]).step (.PSFi 0)).1 = .ok (.real a) := by
  obtain ⟨q, l, h1, h2, h3, h4⟩ := demo_world
  obtain ⟨o, a, g1, -, -, g2⟩ := demo_optics
  obtain rfl : o = { params := q } := by rw [h1] at g1; cases g1; rfl
  have hq : ({ q with zrange := some l } : Params) = q := by rw [← h2]
  rw [read_fresh (good_after _) h3 h4, hq]
  have g2 : (⟨q, none⟩ : HSpec).PSFa = .ok a := g2
  exact ⟨psfiOf a, by simp only [HSpec.PSFi, g2]; rfl⟩

/-- C130 is not vacuous, and the cached output really is stale: `m = HanserPSF(...)`; `m.PSFi`; `m.zrange[0] = nan`; `m.PSFi` still succeeds with the old array, while
after `m.zrange = m.zrange` it cannot be computed. -/
theorem C130_stale_nan : ∃ a s', ((after [.new demoArgs none, .PSFi 0]).step (.zrange 0)).2.step (.writeZ 0 0 .nan) = (.ok .done, s') ∧
    (s'.step (.PSFi 0)).1 = .ok (.real a) ∧ ∃ s'', s'.step (.setZrangeVar 0 0) = (.ok .done, s'') ∧ ∀ b, (s''.step (.PSFi 0)).1 ≠ .ok (.real b) := by
  obtain ⟨a, ha⟩ := demo_read
  obtain ⟨q, l, h1, h2, h3, h4⟩ := demo_world
  obtain ⟨o, r, k1, k2, k3, k4⟩ := seen_psfi ha
  have e : after [.new demoArgs none, .PSFi 0] = ((after [.new demoArgs none]).step (.PSFi 0)).2 := rfl
  have hz0 : (after [.new demoArgs none, .PSFi 0]).z.length = 0 := by
    rw [e]
    have : (after [.new demoArgs none]).z = [] := rfl
    simp only [RProg.step]
    rcases World.onObj 0 RState.getPSFi (after [.new demoArgs none]).world with ⟨x | x, w⟩ <;> simp [RProg.seeR, this]
  have hg := good_after [.new demoArgs none, .PSFi 0]
  have k1' : (after [.new demoArgs none, .PSFi 0]).world.objs[0]? = some o := k1
  obtain ⟨z, hz⟩ := (((good_iff _).mp hg).1 o (List.mem_of_getElem? k1')).zref
  have hlen : 0 < z.length := by
    have hv := hg
    obtain ⟨t, ht⟩ := hg
    obtain ⟨t0, ht0⟩ := good_after [.new demoArgs none]
    have hs := step_sim ht0 (.PSFi 0) trivial
    have hobj := hs.rel.world.get 0
    rw [k1] at hobj
    have hk : t0.objs[0]? = some { params := { q with zrange := some l } } := by rw [ht0.world.get 0, h3]; simp [RObj.view, h4]
    have hp : (HObj.getPSFi { params := { q with zrange := some l } }).2.params = { q with zrange := some l } := by
      simp only [HObj.getPSFi, HObj.getPSFa, HObj.genPsf, PyM.bind_apply, PyM.get_apply, attributeChanged, PyM.modify_apply, PyM.lift_apply]
      rcases hanserGenPsf { q with zrange := some l } none with er | b <;> rfl
    have hobj' : (t0.step (.PSFi 0)).2.objs[0]? = some (HObj.getPSFi { params := { q with zrange := some l } }).2 := by
      simp only [VProg.step, onRef, hk]
      have h0 := (List.getElem?_eq_some_iff.mp hk).1
      rcases HObj.getPSFi { params := { q with zrange := some l } } with ⟨er | b, o1⟩ <;>
      · simp only [VProg.seeR]; rw [List.getElem?_set_self h0]
    rw [hobj'] at hobj
    have := congrArg (fun x => x.params.zrange) (Option.some.inj hobj)
    simp only [hp, RObj.view] at this
    have hz' : ((after [.new demoArgs none]).step (.PSFi 0)).2.world.mem.axis[o.zref]? = some z := hz
    rw [hz'] at this
    have hlz : l = z := Option.some.inj this
    obtain ⟨oo, aa, g1, -, g3, -⟩ := demo_optics
    have : oo = { params := q } := by rw [h1] at g1; cases g1; rfl
    rw [this] at g3
    have := g3.zrange
    simp only at this
    rw [h2] at this
    rw [← hlz, Option.some.inj this]
    simp
  obtain ⟨c1, c2, s', c3, c4, c5, s'', c6, c7⟩ := C130_zrange_stale [.new demoArgs none, .PSFi 0] 0 o z k1 hz r k2 a k3 0 hlen .nan
  rw [hz0] at c3 c6
  refine ⟨a, s', c3, c5, s'', c6, fun b hb => ?_⟩
  rw [c7] at hb
  rcases hp : (⟨{ o.obj.params with zrange := some (z.set 0 .nan) }, none⟩ : HSpec).PSFi with er | b'
  · rw [hp] at hb; cases hb
  · have hP : ∃ c, (⟨{ o.obj.params with zrange := some (z.set 0 .nan) }, none⟩ : HSpec).PSFa = .ok c := by
      unfold HSpec.PSFi at hp
      obtain ⟨c, hc, -⟩ := py_bind_ok hp
      exact ⟨c, hc⟩
    obtain ⟨c, hc⟩ := hP
    obtain ⟨hn, hN, -, -⟩ := genPsf_closed hc fun P v h => by cases h
    obtain ⟨zs, hzs, -⟩ := hN.z
    have hzs : z.set 0 .nan = zs.map PyFloat.fin := Option.some.inj hzs
    have : PyFloat.nan ∈ zs.map PyFloat.fin := by
      rw [← hzs]
      exact List.mem_iff_getElem?.mpr ⟨0, by rw [List.getElem?_set_self hlen]⟩
    simp at this

/-- Non-vacuity of `C130_refines` with a write: `P` is applied to a model and then overwritten by the client. -/
example (P : Arr ℂ) (idx : List ℕ) (v : ℂ) :
    Unshared RProg.empty [.pupil P, .new demoArgs none, .applyPupil 0 0, .writeC 0 idx v, .PSFi 0] :=
  ⟨trivial, trivial, trivial, C130_own_pupil [] P [.new demoArgs none, .applyPupil 0 0] idx v, trivial, trivial⟩

/-- Non-vacuity of `C130_poisoned`, `C130_same_array` and `C130_copy_shares_cache`: a read that succeeds. -/
example : ∃ a, ((after [.new demoArgs none]).step (.PSFi 0)).1 = .ok (.real a) := demo_read

/-- Non-vacuity of `C130_given_array`: the planes `[0]` as an array. -/
example : ((after [.planes [.fin 0]]).step (.newWith demoArgs 0)).1 = .ok (.model 0) := by
  obtain ⟨o, ho⟩ := (C34_hanser_accepts demoArgs demoArgs_good.1 (some (.seq [.fin 0]))).mpr ⟨_, _, _, _, _, _, _, demoArgs_good.2⟩
  rcases construct_par demoArgs (some (.seq [.fin 0])) with ⟨q, h1, -⟩ | ⟨e, -, h2⟩
  · have e : after [.planes [.fin 0]] = ⟨⟨⟨[], [], [[.fin 0]]⟩, []⟩, [], [], [0]⟩ := rfl
    rw [e]
    simp only [RProg.step, List.getElem?_cons_zero, RProg.ran, World.new, ZGiven.content, List.getD_cons_zero, h1]
    rfl
  · rw [h2] at ho; cases ho

/-- Non-vacuity of `C130_copy_shares_planes`: a copy without coefficients. -/
example : ((after [.new demoArgs none]).step (.aberrate 0 none none)).1 = .ok (.model 1) := by
  obtain ⟨q, l, h1, h2, h3, h4⟩ := demo_world
  have hl : (after [.new demoArgs none]).world.objs.length = 1 := by
    rcases construct_par demoArgs none with ⟨q', g1, -⟩ | ⟨e, -, g2⟩
    · simp only [after, runHistory, RProg.step, RProg.ran, World.new, ZGiven.ofOption, ZGiven.content, g1, RProg.empty]
      rfl
    · rw [g2] at h1; cases h1
  simp only [RProg.step, RProg.ran, World.applyAberration, PyM.bind_apply, World.copy, h3, fillCoefs, hl]
  rfl

end PyOTF
