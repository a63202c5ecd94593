import Verif.Props.C133_Threads
import Verif.Props.C39_C43_Hanser

/-!
# C133: the threads of the model run alone are the methods of the sequential model; what a writer can do to readers
-/

namespace PyOTF

open TM

/-! ## A thread alone -/

theorem alone_tbind {α β : Type} (p : TM α) (f : α → TM β) (s : Dicts) : Prog.alone (TM.bind p f) s =
    match Prog.alone p s with
    | (.ok a, s') => Prog.alone (f a) s'
    | (.error e, s') => (.error e, s') := by
  rw [TM.bind, Prog.alone_bind]
  rcases Prog.alone p s with ⟨e | a, s'⟩ <;> rfl

theorem alone_rd {α : Type} (i : ℕ) (f : HCell → Py α) (s : Dicts) : Prog.alone (rd i f) s = (f (s i), s) := rfl
theorem alone_wr (i : ℕ) (f : HCell → HCell) (s : Dicts) :
    Prog.alone (wr i f) s = (.ok (), Function.update s i (f (s i))) := rfl
theorem alone_loc {α : Type} (x : Py α) (s : Dicts) : Prog.alone (loc x) s = (x, s) := rfl

theorem attr_some' {α : Type} (a : α) : attr (some a) = .ok a := rfl

theorem alone_attributeChanged (i : ℕ) (s : Dicts) : Prog.alone (attributeChangedT i) s =
    (.ok (), Function.update s i ⟨{ params := (s i).obj.params }, (s i).scr⟩) := by
  simp only [attributeChangedT, alone_tbind, alone_wr, Function.update_self, Function.update_idem]

theorem alone_genKr (i : ℕ) (s : Dicts) : ∃ scr,
    Prog.alone (genKrT i) s =
      ((do let _ ← gridAt (s i).obj.params; let _ ← kmagAt (s i).obj.params; return ()),
        Function.update s i ⟨(s i).obj, scr⟩) ∧
    ∀ g m, gridAt (s i).obj.params = .ok g → kmagAt (s i).obj.params = .ok m → Fresh g m ⟨(s i).obj, scr⟩ := by
  unfold genKrT
  rcases h1 : attr (s i).obj.params.size with e | size
  · refine ⟨(s i).scr, ?_, ?_⟩
    · simp only [alone_tbind, alone_rd, h1, gridAt]
      simp [Bind.bind, Except.bind]
    · intro g m hg; rw [gridAt, h1] at hg; cases hg
  rcases h2 : attr (s i).obj.params.res >>= pyNum with e | res
  · refine ⟨(s i).scr, ?_, ?_⟩
    · simp only [alone_tbind, alone_rd, h1, h2, gridAt]
      simp [Bind.bind, Except.bind]
    · intro g m hg; rw [gridAt, h1, h2] at hg; cases hg
  have hgr : gridAt (s i).obj.params = gridOf size res := by rw [gridAt, h1, h2]; rfl
  rw [hgr]
  rcases h3 : gridOf size res with e | g
  · refine ⟨(s i).scr, ?_, ?_⟩
    · simp only [alone_tbind, alone_rd, alone_loc, h1, h2, h3]
      simp [Bind.bind, Except.bind]
    · intro g m hg; cases hg
  rcases h4 : attr (s i).obj.params.ni >>= pyNum with e | ni
  · refine ⟨{ (s i).scr with k := some g, kr := some g, phi := some g }, ?_, ?_⟩
    · simp only [alone_tbind, alone_rd, alone_loc, alone_wr, h1, h2, h3, h4, Function.update_self, Function.update_idem, kmagAt]
      simp [Bind.bind, Except.bind]
    · intro g m _ hm; rw [kmagAt, h4] at hm; cases hm
  rcases h5 : attr (s i).obj.params.wl >>= pyNum with e | wl
  · refine ⟨{ (s i).scr with k := some g, kr := some g, phi := some g }, ?_, ?_⟩
    · simp only [alone_tbind, alone_rd, alone_loc, alone_wr, h1, h2, h3, h4, h5, Function.update_self, Function.update_idem, kmagAt]
      simp [Bind.bind, Except.bind]
    · intro g m _ hm; rw [kmagAt, h4, h5] at hm; cases hm
  have hkm : kmagAt (s i).obj.params = PyFloat.div ni wl := by rw [kmagAt, h4, h5]; rfl
  rw [hkm]
  rcases h6 : PyFloat.div ni wl with e | m
  · refine ⟨{ (s i).scr with k := some g, kr := some g, phi := some g }, ?_, ?_⟩
    · simp only [alone_tbind, alone_rd, alone_loc, alone_wr, h1, h2, h3, h4, h5, h6, Function.update_self, Function.update_idem]
      simp [Bind.bind, Except.bind]
    · intro g m _ hm; cases hm
  · refine ⟨⟨some g, some g, some g, some m, some (m, g)⟩, ?_, ?_⟩
    · simp only [alone_tbind, alone_rd, alone_loc, alone_wr, h1, h2, h3, h4, h5, h6, Function.update_self, Function.update_idem, attr_some']
      simp [Bind.bind, Except.bind, Pure.pure, Except.pure]
    · intro g' m' hg' hm'; cases hg'; cases hm'; exact ⟨rfl, rfl, rfl, rfl⟩

theorem alone_conds (i : ℕ) (s : Dicts) {c : Condition} (hc : (s i).obj.params.condition = some c) :
    Prog.alone (condsT i) s = (.ok (condsOf c), s) := by
  have h : attr (s i).obj.params.condition = .ok c := by rw [hc]; rfl
  unfold condsT
  simp only [alone_tbind, alone_rd, h]
  cases c <;> simp [alone_loc, alone_tbind, alone_rd, h, condsOf]

theorem alone_vecs (i : ℕ) (s : Dicts) {v : VecCorr} (hv : (s i).obj.params.vecCorr = some v) :
    Prog.alone (vecsT i) s = (.ok (vecsOf v), s) := by
  have h : attr (s i).obj.params.vecCorr = .ok v := by rw [hv]; rfl
  unfold vecsT vecTestT
  simp only [alone_tbind, alone_rd, h]
  cases v <;> simp [alone_loc, alone_tbind, alone_rd, h, vecsOf, List.replicate]

/-- Dividing by the same number fails for all numerators or for none. -/
theorem div_ok_of {x y w m : PyFloat} (h : PyFloat.div x w = .ok m) : ∃ l, PyFloat.div y w = .ok l := by
  rcases w with w | _ | w
  · rcases x with x | _ | x <;> rcases y with y | _ | y <;> simp only [PyFloat.div] at h ⊢ <;> split_ifs at h ⊢ <;> exact ⟨_, rfl⟩
  · rcases y with y | _ | y <;> exact ⟨_, rfl⟩
  · rcases y with y | _ | y <;> exact ⟨_, rfl⟩

theorem limitAt_ok {p : Params} (h : Ready .hanser p) {m : PyFloat} (hm : kmagAt p = .ok m) : ∃ l, limitAt p = .ok l := by
  obtain ⟨na, x, hna, hx⟩ := h.na
  obtain ⟨wl, w, hwl, hw⟩ := h.wl
  obtain ⟨ni, y, hni, hy⟩ := h.ni
  have e1 : kmagAt p = PyFloat.div y w := by
    rw [kmagAt, hni, hwl]
    simp only [attr, Bind.bind, Except.bind, pyNum_of_num hy, pyNum_of_num hw]
  have e2 : limitAt p = PyFloat.div x w := by
    rw [limitAt, hna, hwl]
    simp only [attr, Bind.bind, Except.bind, pyNum_of_num hx, pyNum_of_num hw]
  rw [e1] at hm
  rw [e2]
  exact div_ok_of hm

/-- With a given pupil the diffraction limit is not used. -/
theorem hanserTail_limit (p : Params) (b : Arr ℂ) (size : ℕ) (res kmag l l' : PyFloat) :
    hanserTail p (some b) size res kmag l = hanserTail p (some b) size res kmag l' := by
  unfold hanserTail
  dsimp only
  split
  · rename_i a c hs
    rcases bdim a size with e | A
    · rfl
    rcases bdim c size with e | B
    · rfl
    rcases h : fftCheck [2, 3] [1, 1, A, B] with e | _
    · simp [Bind.bind, Except.bind, h]
    simp only [Bind.bind, Except.bind, h]
    unfold hanserNum
    rcases attr p.vecCorr with e | vc
    · rfl
    rcases attr p.condition with e | cd
    · rfl
    rcases attr p.zrange with e | z
    · rfl
    simp only [Bind.bind, Except.bind]
    rcases finReals z with e | z
    · rfl
    rcases finReals [res, kmag] with e | f
    · rfl
    simp only []
    have hu : ∀ x : PyFloat, HanserNum.usesTheta ⟨size, f.getD 0 0, f.getD 1 0, x, z, vc, cd⟩ =
        HanserNum.usesTheta ⟨size, f.getD 0 0, f.getD 1 0, .nan, z, vc, cd⟩ := fun _ => rfl
    rw [hu l, hu l']
    split_ifs
    · rfl
    · rfl
  · rfl

/-- `_gen_psf` by a single thread is the `_gen_psf` of the sequential model. -/
theorem alone_genPsf (I : Impl) (i : ℕ) (base : Option (Arr ℂ)) (s : Dicts) (hr : Ready .hanser (s i).obj.params) :
    ∃ scr, Prog.alone (genPsfT I i base) s = (hanserGenPsf (s i).obj.params base,
      Function.update s i ⟨{ params := (s i).obj.params }, scr⟩) := by
  obtain ⟨z, hz⟩ := Option.isSome_iff_exists.mp (hr.zrange rfl)
  obtain ⟨c, hc⟩ := Option.isSome_iff_exists.mp hr.condition
  obtain ⟨v, hv⟩ := Option.isSome_iff_exists.mp hr.vecCorr
  set p := (s i).obj.params with hp
  obtain ⟨scr, h1, h2⟩ := alone_genKr i (Function.update s i ⟨{ params := p }, (s i).scr⟩)
  simp only [Function.update_self, Function.update_idem] at h1 h2
  refine ⟨scr, ?_⟩
  unfold genPsfT
  simp only [alone_tbind, alone_attributeChanged]
  rw [← hp, h1, hanserGenPsf_eq, hanserGenKr_eq]
  rcases hg : gridAt p with e | g
  · rfl
  rcases hm : kmagAt p with e | m
  · rfl
  obtain ⟨l, hl⟩ := limitAt_ok hr hm
  have hf := h2 g m hg hm
  rw [hl]
  simp only [Bind.bind, Except.bind, Pure.pure, Except.pure]
  set s' := Function.update s i (⟨{ params := p }, scr⟩ : HCell) with hs'
  have hobj : (s' i) = ⟨{ params := p }, scr⟩ := Function.update_self _ _ _
  have ekr : attr (s' i).scr.kr = .ok g := by rw [hobj, hf.kr]; rfl
  have ephi : attr (s' i).scr.phi = .ok g := by rw [hobj, hf.phi]; rfl
  have ekm : attr (s' i).scr.kmag = .ok m := by rw [hobj, hf.kmag]; rfl
  have ekz : attr (s' i).scr.kz = .ok (m, g) := by rw [hobj, hf.kz]; rfl
  have ez : attr (s' i).obj.params.zrange = .ok z := by rw [hobj]; exact (by rw [hz]; rfl : attr p.zrange = .ok z)
  have ec := alone_conds i s' (c := c) (by rw [hobj]; exact hc)
  have ev := alone_vecs i s' (v := v) (by rw [hobj]; exact hv)
  have eparams : (s' i).obj.params = p := by rw [hobj]
  cases base with
  | none =>
    have epup : Prog.alone (pupilT i none) s' = (.ok (some (g, l)), s') := by
      unfold pupilT
      rcases e1 : attr p.na >>= pyNum with e | na
      · rw [limitAt, e1] at hl; cases hl
      rcases e2 : attr p.wl >>= pyNum with e | wl
      · rw [limitAt, e1, e2] at hl; cases hl
      have e3 : PyFloat.div na wl = .ok l := by rw [limitAt, e1, e2] at hl; exact hl
      simp only [alone_tbind, alone_rd, alone_loc, ekr, eparams, e1, e2, e3]
    unfold readsT
    simp only [alone_tbind, alone_rd, alone_loc, epup, ekr, ephi, ekm, ekz, ez, ec, ev]
    have hcons : Reads.Consistent ⟨some (g, l), g, g, m, (m, g), z, condsOf c, vecsOf v⟩ :=
      ⟨by rintro q hq; cases hq; rfl, rfl, rfl, (head_condsOf c).2, (head_vecsOf v).2⟩
    rw [finishPsf, if_pos hcons]
    refine congrArg (fun r => (r, s')) (hanserTail_congr (q := p) ?_ ?_ ?_ _ _ _ _ _)
    · exact hz.symm
    · rw [hv]; exact (head_vecsOf v).1
    · rw [hc]; exact (head_condsOf c).1
  | some b =>
    by_cases hb : b.shape.length = 2
    · have epup : Prog.alone (pupilT i (some b)) s' = (.ok none, s') := by
        unfold pupilT; simp only [if_pos hb, alone_loc]
      unfold readsT
      simp only [alone_tbind, alone_rd, alone_loc, epup, ekr, ephi, ekm, ekz, ez, ec, ev]
      have hcons : Reads.Consistent ⟨none, g, g, m, (m, g), z, condsOf c, vecsOf v⟩ :=
        ⟨(by rintro q hq; cases hq), rfl, rfl, (head_condsOf c).2, (head_vecsOf v).2⟩
      rw [finishPsf, if_pos hcons]
      refine congrArg (fun r => (r, s')) ((hanserTail_congr (q := p) ?_ ?_ ?_ _ _ _ _ _).trans (hanserTail_limit _ _ _ _ _ _ _))
      · exact hz.symm
      · rw [hv]; exact (head_vecsOf v).1
      · rw [hc]; exact (head_condsOf c).1
    · have epup : Prog.alone (pupilT i (some b)) s' = (.error .assertionError, s') := by
        unfold pupilT; simp only [if_neg hb, alone_loc]
      unfold readsT
      simp only [alone_tbind, epup]
      refine Prod.ext ?_ rfl
      unfold hanserTail
      dsimp only
      split
      · rename_i h; rw [h] at hb; exact absurd rfl hb
      · rfl

/-- The state of a thread's world after it ran alone: only object `i` changed, and in the way the sequential model
says. -/
def SameAs {α : Type} (i : ℕ) (s : Dicts) (p : TM α) (m : PyM HObj α) : Prop :=
  ∃ scr, Prog.alone p s = ((m (s i).obj).1, Function.update s i ⟨(m (s i).obj).2, scr⟩)

theorem sameAs_cached {α : Type} (I : Impl) (l : Slot) (i : ℕ) (get : HObj → Option α) (put : α → HObj → HObj)
    (func : TM α) (m : PyM HObj α) (s : Dicts) (h : SameAs i s func m) :
    SameAs i s (cachedT I l i get put func) (do
      match get (← PyM.get) with
      | some a => pure a
      | none =>
        let a ← m
        PyM.modify (put a)
        pure a) := by
  obtain ⟨scr, h⟩ := h
  rcases hg : get (s i).obj with _ | a
  · have e : ∀ lk : Bool, Prog.alone (cachedT ⟨lk, I.mix⟩ l i get put func) s = Prog.alone
        (func.bind fun a => (wr i fun c => { c with obj := put a c.obj }).bind fun _ => loc (.ok a)) s := by
      intro lk
      cases lk
      · simp only [cachedT, Prog.alone, hg, id]; rfl
      · simp only [cachedT, Prog.alone, hg, id, Prog.alone_bind, if_true]
    have e' := e I.locked
    simp only [alone_tbind, alone_wr, alone_loc] at e'
    rw [h] at e'
    simp only [SameAs, PyM.bind_apply, PyM.get_apply, hg]
    rcases hm : m (s i).obj with ⟨er | a, o'⟩
    · rw [hm] at e'
      exact ⟨scr, e'⟩
    · rw [hm] at e'
      refine ⟨scr, e'.trans ?_⟩
      simp [PyM.modify]
  · refine ⟨(s i).scr, ?_⟩
    have e : ∀ lk : Bool, Prog.alone (cachedT ⟨lk, I.mix⟩ l i get put func) s = (.ok a, s) := by
      intro lk; simp only [cachedT, Prog.alone, hg, id]
    simp only [PyM.bind_apply, PyM.get_apply, hg]
    rw [e I.locked]
    simp

theorem sameAs_bind_lift {α β : Type} {i : ℕ} {s : Dicts} {p : TM α} {m : PyM HObj α} (h : SameAs i s p m) (f : α → Py β) :
    SameAs i s (p.bind fun a => loc (f a)) (do PyM.lift (f (← m))) := by
  obtain ⟨scr, h⟩ := h
  refine ⟨scr, ?_⟩
  simp only [alone_tbind, h, alone_loc, PyM.bind_apply, PyM.lift_apply]
  rcases m (s i).obj with ⟨e | a, o⟩ <;> rfl

theorem alone_ready (I : Impl) (i : ℕ) (s : Dicts) (hready : Ready .hanser (s i).obj.params) :
    SameAs i s (psfaT I i) HObj.getPSFa ∧ SameAs i s (otfaT I i) HObj.getOTFa ∧
    SameAs i s (psfiT I i) HObj.getPSFi ∧ SameAs i s (otfiT I i) HObj.getOTFi ∧
    (∀ P, SameAs i s (applyPupilT I i P) (HObj.applyPupil P)) ∧
    (∀ v, SameAs i s (setSizeT i v) (setAttr .hanser .size v)) := by
  have hgen : SameAs i s (genPsfT I i none) (HObj.genPsf none) := by
    obtain ⟨scr, h⟩ := alone_genPsf I i none s hready
    exact ⟨scr, h⟩
  have ha : SameAs i s (psfaT I i) HObj.getPSFa := by
    obtain ⟨scr, h⟩ := sameAs_cached I .psfa i (·.psfa) (fun a o => { o with psfa := some a }) _ _ s hgen
    refine ⟨scr, h.trans ?_⟩
    simp only [HObj.getPSFa, PyM.bind_apply, PyM.get_apply]
    rcases (s i).obj.psfa with _ | a <;> rfl
  have hi : SameAs i s (psfiT I i) HObj.getPSFi := by
    obtain ⟨scr, h⟩ := sameAs_cached I .psfi i (·.psfi) (fun a o => { o with psfi := some a }) _ _ s (sameAs_bind_lift ha fun a => .ok (psfiOf a))
    refine ⟨scr, h.trans ?_⟩
    simp only [HObj.getPSFi, PyM.bind_apply, PyM.get_apply]
    rcases (s i).obj.psfi with _ | a
    · simp only [PyM.bind_apply, PyM.lift_apply]
      rcases HObj.getPSFa (s i).obj with ⟨e | a, o⟩ <;> rfl
    · rfl
  refine ⟨ha, ?_, hi, ?_, ?_, ?_⟩
  · obtain ⟨scr, h⟩ := sameAs_cached I .otfa i (·.otfa) (fun a o => { o with otfa := some a }) _ _ s (sameAs_bind_lift ha hanserOTFa)
    refine ⟨scr, h.trans ?_⟩
    simp only [HObj.getOTFa, PyM.bind_apply, PyM.get_apply]
    rcases (s i).obj.otfa with _ | a
    · simp only [PyM.bind_apply]
      rcases HObj.getPSFa (s i).obj with ⟨e | a, o⟩ <;> rfl
    · rfl
  · obtain ⟨scr, h⟩ := sameAs_cached I .otfi i (·.otfi) (fun a o => { o with otfi := some a }) _ _ s (sameAs_bind_lift hi otfiOf)
    refine ⟨scr, h.trans ?_⟩
    simp only [HObj.getOTFi, PyM.bind_apply, PyM.get_apply]
    rcases (s i).obj.otfi with _ | a
    · simp only [PyM.bind_apply]
      rcases HObj.getPSFi (s i).obj with ⟨e | a, o⟩ <;> rfl
    · rfl
  · intro P
    have h1 := alone_attributeChanged i s
    set s1 := Function.update s i (⟨{ params := (s i).obj.params }, (s i).scr⟩ : HCell) with hs1
    have e1 : (s1 i).obj = { params := (s i).obj.params } := by rw [hs1, Function.update_self]
    obtain ⟨scr, h2⟩ := alone_genPsf I i (some P) s1 (by rw [e1]; exact hready)
    rw [e1] at h2
    refine ⟨scr, ?_⟩
    unfold applyPupilT
    simp only [alone_tbind, h1, h2]
    simp only [HObj.applyPupil, HObj.genPsf, attributeChanged, PyM.bind_apply, PyM.modify_apply, PyM.get_apply, PyM.lift_apply]
    rcases hanserGenPsf (s i).obj.params (some P) with e | a
    · simp [hs1]
    · simp [alone_wr, hs1]
  · intro v
    refine ⟨(s i).scr, ?_⟩
    unfold setSizeT
    simp only [alone_tbind, alone_rd, setAttr, setSize, setNumeric_run]
    rcases numericSet PyVal.isInt (s i).obj.params.size v with e | _ | w
    · simp
    · simp [alone_loc]
    · simp [alone_tbind, alone_wr, alone_attributeChanged]

/-- C133: a single thread, running through the accesses of the concurrent model, returns what the sequential model
returns and leaves the object in the state the sequential model says - with either version of `cached_property`. -/
theorem C133_alone (I : Impl) (i : ℕ) (s : Dicts) (hs : Lived (s i).obj) :
    SameAs i s (psfaT I i) HObj.getPSFa ∧ SameAs i s (otfaT I i) HObj.getOTFa ∧
    SameAs i s (psfiT I i) HObj.getPSFi ∧ SameAs i s (otfiT I i) HObj.getOTFi ∧
    (∀ P, SameAs i s (applyPupilT I i P) (HObj.applyPupil P)) ∧
    (∀ v, SameAs i s (setSizeT i v) (setAttr .hanser .size v)) := by
  obtain ⟨sp, hrel⟩ := hs.rel
  exact alone_ready I i s (by rw [hrel.params]; exact hrel.ready)

/-! ## Running one thread for a while -/

namespace Prog

variable {σ L α β : Type}

/-- The program takes and releases no locks. -/
def NoLock : Prog σ L α → Prop
  | ret _ => True
  | act _ k => ∀ s, (k s).NoLock
  | lock _ _ => False
  | unlock _ _ => False

theorem NoLock.bind {p : Prog σ L α} {f : α → Prog σ L β} (hp : p.NoLock) (hf : ∀ a, (f a).NoLock) : (p.bind f).NoLock := by
  induction p with
  | ret a => exact hf a
  | act st k ih => exact fun s => ih s (hp s)
  | lock l k ih => exact hp.elim
  | unlock l k ih => exact hp.elim

theorem bind_assoc {γ : Type} (p : Prog σ L α) (f : α → Prog σ L β) (g : β → Prog σ L γ) :
    (p.bind f).bind g = p.bind fun a => (f a).bind g := by
  induction p with
  | ret a => rfl
  | act st k ih => simp only [bind, ih]
  | lock l k ih => simp only [bind, ih]
  | unlock l k ih => simp only [bind, ih]

end Prog

theorem NoLock.tbind {α β : Type} {p : TM α} {f : α → TM β} (hp : Prog.NoLock p)
    (hf : ∀ a, Prog.NoLock (f a)) : Prog.NoLock (TM.bind p f) :=
  Prog.NoLock.bind hp fun x => by rcases x with e | a; exacts [trivial, hf a]

theorem noLock_rd {α : Type} (i : ℕ) (f : HCell → Py α) : Prog.NoLock (rd i f) := fun _ => trivial
theorem noLock_wr (i : ℕ) (f : HCell → HCell) : Prog.NoLock (wr i f) := fun _ => trivial
theorem noLock_loc {α : Type} (x : Py α) : Prog.NoLock (loc x) := trivial

theorem noLock_genPsf (I : Impl) (i : ℕ) (base : Option (Arr ℂ)) : Prog.NoLock (genPsfT I i base) := by
  unfold genPsfT attributeChangedT genKrT readsT pupilT condsT vecsT vecTestT
  repeat' (first
    | exact noLock_rd _ _ | exact noLock_wr _ _ | exact noLock_loc _
    | refine NoLock.tbind ?_ (fun _ => ?_) | split)

theorem noLock_setSize (i : ℕ) (v : PyVal) : Prog.NoLock (setSizeT i v) := by
  unfold setSizeT attributeChangedT
  repeat' (first
    | exact noLock_rd _ _ | exact noLock_wr _ _ | exact noLock_loc _
    | refine NoLock.tbind ?_ (fun _ => ?_) | split)

theorem noLock_applyPupil (I : Impl) (i : ℕ) (P : Arr ℂ) : Prog.NoLock (applyPupilT I i P) := by
  unfold applyPupilT attributeChangedT
  repeat' (first
    | exact noLock_rd _ _ | exact noLock_wr _ _ | exact noLock_loc _ | exact noLock_genPsf _ _ _
    | refine NoLock.tbind ?_ (fun _ => ?_))

/-- Scheduling one thread for as long as the first part of its program takes. -/
theorem Conf.solo {σ L α β : Type} [DecidableEq L] (p : Prog σ L β) (hp : p.NoLock) (f : β → Prog σ L α) (c : Conf σ L α)
    (j : ℕ) (hj : c.thread[j]? = some (p.bind f)) : ∃ n, c.run (List.replicate n j) =
      { c with heap := (p.alone c.heap).2, thread := c.thread.set j (f (p.alone c.heap).1) } := by
  have hlt : j < c.thread.length := by
    rcases List.getElem?_eq_some_iff.mp hj with ⟨h, _⟩; exact h
  induction p generalizing c with
  | ret a =>
    refine ⟨0, ?_⟩
    rw [List.getElem?_eq_some_iff] at hj
    obtain ⟨h, e⟩ := hj
    have : c.thread.set j (f a) = c.thread := by
      apply List.ext_getElem?
      intro k
      by_cases hk : k = j
      · subst hk
        rw [List.getElem?_set_self h, List.getElem?_eq_getElem h, e]; rfl
      · rw [List.getElem?_set_ne (Ne.symm hk)]
    simp only [Prog.alone, this]; rfl
  | act st k ih =>
    have e : c.step j = { c with heap := st c.heap, thread := c.thread.set j ((k c.heap).bind f) } := by
      unfold Conf.step; rw [hj]; rfl
    obtain ⟨n, hn⟩ := ih c.heap (hp c.heap) (c.step j) (by rw [e]; exact List.getElem?_set_self hlt) (by rw [e]; simpa using hlt)
    refine ⟨n + 1, ?_⟩
    rw [List.replicate_succ]
    show (c.step j).run (List.replicate n j) = _
    rw [hn, e]
    simp only [List.set_set, Prog.alone]
  | lock l k ih => exact hp.elim
  | unlock l k ih => exact hp.elim

theorem Conf.run_append {σ L α : Type} [DecidableEq L] (c : Conf σ L α) (a b : List ℕ) :
    c.run (a ++ b) = (c.run a).run b := List.foldl_append

/-! ## Races -/

/-- What a reader of `PSFa` that found the cache empty does after computing the array. -/
noncomputable def storeT (I : Impl) (i : ℕ) (r : Py (Arr ℂ)) : TM (Arr ℂ) :=
  let fin : TM (Arr ℂ) := match r with
    | .ok a => (wr i fun c => { c with obj := { c.obj with psfa := some a } }).bind fun _ => loc (.ok a)
    | .error e => .ret (.error e)
  if I.locked then Prog.bind fin fun r => .unlock .psfa (.ret r) else fin

@[inherit_doc storeT]
noncomputable def restT (I : Impl) (i : ℕ) (r : Py (Arr ℂ)) : TM (Out (Arr ℂ) (Arr ℝ)) := keep .cplx (storeT I i r)

/-- A reader that finds no cached `PSFa` is, a few steps later, about to compute it. -/
theorem reader_begins (I : Impl) (i : ℕ) (heap : Dicts) (hn : (heap i).obj.psfa = none)
    (other : TM (Out (Arr ℂ) (Arr ℝ))) : ∃ sched owner, (∀ l, l ≠ .psfa → owner l = none) ∧
      (Conf.start heap [readT I i .PSFa, other]).run sched = ⟨heap, owner,
        [Prog.bind (genPsfT I i none) (restT I i), other]⟩ := by
  obtain ⟨lk, mix⟩ := I
  cases lk
  · refine ⟨[0, 0], fun _ => none, fun _ _ => rfl, ?_⟩
    simp only [readT, keep, psfaT, cachedT, Conf.start, Conf.run, List.foldl, Conf.step, Prog.bind, List.getElem?_cons_zero,
      List.set_cons_zero, id, hn, TM.bind]
    simp only [Bool.false_eq_true, if_false, Prog.bind_assoc]
    congr 2
    congr 1
    funext r
    rcases r with e | a <;> rfl
  · refine ⟨[0, 0, 0, 0], Function.update (fun _ => none) .psfa (some 0), fun l hl => Function.update_of_ne hl _ _, ?_⟩
    simp only [readT, keep, psfaT, cachedT, Conf.start, Conf.run, List.foldl, Conf.step, Prog.bind, List.getElem?_cons_zero,
      List.set_cons_zero, id, hn, TM.bind, Prog.bind_assoc, if_true]
    congr 2
    congr 1
    funext r
    rcases r with e | a <;> rfl

/-- ... and having computed it, stores it over whatever is there. -/
theorem reader_ends (I : Impl) (i : ℕ) (heap : Dicts) (owner : Slot → Option ℕ) (a : Arr ℂ)
    (other : TM (Out (Arr ℂ) (Arr ℝ))) : ∃ sched owner',
      Conf.run ⟨heap, owner, [restT I i (.ok a), other]⟩ sched =
        ⟨Function.update heap i { heap i with obj := { (heap i).obj with psfa := some a } }, owner',
          [.ret (.ok (.cplx a)), other]⟩ := by
  obtain ⟨lk, mix⟩ := I
  cases lk
  · exact ⟨[0], owner, rfl⟩
  · exact ⟨[0, 0], Function.update owner .psfa none, rfl⟩

/-- The race, for any writer that takes no locks: the reader computes, the writer does all its work, the reader
stores. -/
theorem writer_overtakes (I : Impl) (i : ℕ) (heap : Dicts) (hl : Lived (heap i).obj) (hn : (heap i).obj.psfa = none)
    (a : Arr ℂ) (ha : hanserGenPsf (heap i).obj.params none = .ok a) (w : TM Unit) (hw : Prog.NoLock w) :
    ∃ sched scr owner, let after := Prog.alone w (Function.update heap i ⟨{ params := (heap i).obj.params }, scr⟩)
      (Conf.start heap [readT I i .PSFa, keep (fun _ => .done) w]).run sched =
        ⟨Function.update after.2 i { after.2 i with obj := { (after.2 i).obj with psfa := some a } },
          owner,
          [.ret (.ok (.cplx a)), .ret (after.1.map fun _ => .done)]⟩ := by
  obtain ⟨sp, hrel⟩ := hl.rel
  have hready : Ready .hanser (heap i).obj.params := by rw [hrel.params]; exact hrel.ready
  obtain ⟨scr, hgen⟩ := alone_genPsf I i none heap hready
  obtain ⟨sched1, owner1, -, h1⟩ := reader_begins I i heap hn (keep (fun _ => .done) w)
  obtain ⟨n2, h2⟩ := Conf.solo (genPsfT I i none) (noLock_genPsf I i none) _ ⟨heap, owner1, _⟩ 0
    (show [Prog.bind (genPsfT I i none) (restT I i), keep (fun _ => .done) w][0]? = some _ from rfl)
  rw [hgen, ha] at h2
  simp only [List.set_cons_zero] at h2
  obtain ⟨n3, h3⟩ := Conf.solo w hw (fun r => .ret (r.map fun _ => .done))
    ⟨Function.update heap i ⟨{ params := (heap i).obj.params }, scr⟩, owner1,
      [restT I i (.ok a), keep (fun _ => .done) w]⟩ 1 rfl
  simp only [List.set_cons_succ, List.set_cons_zero] at h3
  obtain ⟨sched4, owner4, h4⟩ := reader_ends I i (Prog.alone w (Function.update heap i ⟨{ params := (heap i).obj.params }, scr⟩)).2 owner1 a
    (.ret ((Prog.alone w (Function.update heap i ⟨{ params := (heap i).obj.params }, scr⟩)).1.map fun _ => .done))
  refine ⟨sched1 ++ (List.replicate n2 0 ++ (List.replicate n3 1 ++ sched4)), scr, owner4, ?_⟩
  intro after
  rw [Conf.run_append, h1, Conf.run_append, h2, Conf.run_append, h3, h4]

/-- C133: what is not safe is to assign an attribute while another thread reads.  Whatever the object (with an empty
cache and computable PSF) and whatever the accepted new size, there is a schedule - with either version of
`cached_property` - after which both threads are finished without an exception, the object has the new size, and
reading `PSFa` returns the array of the *old* size, now and until the next invalidation. -/
theorem C133_size_race (I : Impl) (i : ℕ) (heap : Dicts) (hl : Lived (heap i).obj) (hn : (heap i).obj.psfa = none)
    (a : Arr ℂ) (ha : (HObj.getPSFa (heap i).obj).1 = .ok a) (old new : PyVal) (hold : (heap i).obj.params.size = some old)
    (hnew : (setAttr .hanser .size new (heap i).obj).1 = .ok ()) (hne : ¬ SameNumber old new) :
    ∃ sched, let c := (Conf.start heap [readT I i .PSFa, keep (fun _ => .done) (setSizeT i new)]).run sched
      c.thread = [.ret (.ok (.cplx a)), .ret (.ok .done)] ∧
      (c.heap i).obj.params.size = some new ∧
      (HObj.getPSFa (c.heap i).obj).1 = .ok a ∧
      ∃ C Z, a.shape = [C, Z, pyNat old, pyNat old] := by
  obtain ⟨sp, hrel⟩ := hl.rel
  have hpup := hrel.pupil hn
  have hgen : hanserGenPsf (heap i).obj.params none = .ok a := by
    have := (getPSFa_rel hrel).1
    rw [ha, HSpec.PSFa, hpup, ← hrel.params] at this
    exact this.symm
  have hset : numericSet PyVal.isInt (heap i).obj.params.size new = .ok (some new) := by
    simp only [setAttr, setSize, setNumeric_run] at hnew
    rcases hq : numericSet PyVal.isInt (heap i).obj.params.size new with e | _ | w
    · rw [hq] at hnew; cases hnew
    · exfalso
      have h1 := numericSet_none hq
      rw [hold] at h1
      have := (ne_false_iff (numericType_int _ h1.1)).mp h1.2
      exact hne this
    · rw [(numericSet_some hq).1]
  obtain ⟨sched, scr, owner, h⟩ := writer_overtakes I i heap hl hn a hgen (setSizeT i new) (noLock_setSize i new)
  have halone : Prog.alone (setSizeT i new) (Function.update heap i ⟨{ params := (heap i).obj.params }, scr⟩) =
      (.ok (), Function.update heap i ⟨{ params := { (heap i).obj.params with size := some new } }, scr⟩) := by
    unfold setSizeT
    simp only [alone_tbind, alone_rd, Function.update_self, hset, alone_wr, alone_attributeChanged, Function.update_idem]
  rw [halone] at h
  refine ⟨sched, ?_⟩
  intro c
  have hc : c = _ := h
  refine ⟨by rw [hc]; rfl, by rw [hc]; simp, ?_, ?_⟩
  · rw [hc]; simp [HObj.getPSFa, PyM.bind_apply]
  · obtain ⟨hN, h1, h2, -⟩ := genPsf_closed hgen (by intro P v hP; cases hP)
    obtain ⟨v, e1, e2⟩ := h1.size
    rw [hold] at e1
    have e3 := Option.some.inj e1
    subst e3
    exact ⟨_, _, by rw [h2, ← e2]⟩

/-- C133: a pupil can be lost.  While another thread reads `PSFa` for the first time, `apply_pupil` returns without
an exception, and afterwards the object shows the ideal PSF. -/
theorem C133_pupil_race (I : Impl) (i : ℕ) (heap : Dicts) (hl : Lived (heap i).obj) (hn : (heap i).obj.psfa = none)
    (a b : Arr ℂ) (ha : (HObj.getPSFa (heap i).obj).1 = .ok a) (P : Arr ℂ)
    (hb : hanserGenPsf (heap i).obj.params (some P) = .ok b) :
    ∃ sched, let c := (Conf.start heap [readT I i .PSFa, keep (fun _ => .done) (applyPupilT I i P)]).run sched
      c.thread = [.ret (.ok (.cplx a)), .ret (.ok .done)] ∧
      (HObj.getPSFa (c.heap i).obj).1 = .ok a := by
  obtain ⟨sp, hrel⟩ := hl.rel
  have hpup := hrel.pupil hn
  have hready : Ready .hanser (heap i).obj.params := by rw [hrel.params]; exact hrel.ready
  have hgen : hanserGenPsf (heap i).obj.params none = .ok a := by
    have := (getPSFa_rel hrel).1
    rw [ha, HSpec.PSFa, hpup, ← hrel.params] at this
    exact this.symm
  obtain ⟨sched, scr, owner, h⟩ := writer_overtakes I i heap hl hn a hgen (applyPupilT I i P) (noLock_applyPupil I i P)
  obtain ⟨scr', hg⟩ := alone_genPsf I i (some P) (Function.update heap i ⟨{ params := (heap i).obj.params }, scr⟩)
    (by simpa using hready)
  have halone : Prog.alone (applyPupilT I i P) (Function.update heap i ⟨{ params := (heap i).obj.params }, scr⟩) =
      (.ok (), Function.update heap i ⟨{ params := (heap i).obj.params, psfa := some b }, scr'⟩) := by
    unfold applyPupilT
    simp only [Function.update_self, Function.update_idem, hb] at hg
    simp only [alone_tbind, alone_attributeChanged, Function.update_self, Function.update_idem, hg, alone_wr]
  rw [halone] at h
  refine ⟨sched, ?_⟩
  intro c
  have hc : c = _ := h
  refine ⟨by rw [hc]; rfl, ?_⟩
  rw [hc]; simp [HObj.getPSFa, PyM.bind_apply]

/-- Non-vacuity: `HanserPSF(wl=520, na=0.85, ni=1.0, res=130, size=64)` and the assignment `size = 32` race. -/
example (I : Impl) : ∃ (heap : Dicts) (a : Arr ℂ) (sched : List ℕ),
    let c := (Conf.start heap [readT I 0 .PSFa, keep (fun _ => .done) (setSizeT 0 (.int 32))]).run sched
    c.thread = [.ret (.ok (.cplx a)), .ret (.ok .done)] ∧ (c.heap 0).obj.params.size = some (.int 32) ∧
    (HObj.getPSFa (c.heap 0).obj).1 = .ok a ∧ ∃ C Z, a.shape = [C, Z, 64, 64] := by
  obtain ⟨o, a, ho, -, -, ha⟩ := demo_optics
  obtain ⟨hr, he⟩ := hanser_ready ho
  have hrel : HRel o ⟨o.params, none⟩ := by rw [he]; exact HRel.cleared hr
  obtain ⟨-, -, -, -, hs, -⟩ := C34_hanser_attributes _ _ _ ho
  have ha' : (HObj.getPSFa o).1 = .ok a := by rw [(getPSFa_rel hrel).1]; exact ha
  obtain ⟨sched, h⟩ := C133_size_race I 0 (fun _ => ⟨o, {}⟩) ⟨_, _, o, [], ho, rfl⟩ (by rw [he]) a ha' (.int 64) (.int 32)
    hs (by simp [setAttr, setSize, setNumeric_run, numericSet, PyVal.isInt, PyVal.ltZero, PyVal.num?, PyFloat.lt, hs, demoArgs, PyVal.ne, PyFloat.eq]; rfl)
    (by simp [SameNumber, PyVal.num?])
  exact ⟨_, a, sched, h⟩

/-- Non-vacuity of `C133_concurrent_reads`: two threads, two objects. -/
example (I : Impl) (sched : List ℕ) : ∃ heap : Dicts, (∀ i, Lived (heap i).obj) ∧
    ∀ rs, ((Conf.start heap (([[(0, .PSFi), (1, .OTFa)], [(1, .OTFi), (0, .PSFa)]] : List (List (ℕ × ROp))).map (threadT I))).run sched).thread[1]? =
      some (.ret rs) → rs = [(HObj.step (heap 1).obj .readOTFi).1, (HObj.step (heap 0).obj .readPSFa).1] := by
  obtain ⟨o, -, ho, -⟩ := demo_optics
  refine ⟨fun _ => ⟨o, {}⟩, fun _ => ⟨_, _, o, [], ho, rfl⟩, fun rs h => ?_⟩
  exact (C133_concurrent_reads I _ (fun _ => ⟨_, _, o, [], ho, rfl⟩) _ sched).1 1 _ rs rfl h

end PyOTF
