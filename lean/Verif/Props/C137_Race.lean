import Verif.Props.C137_Saved

/-!
# C137: assigning while another thread reads, and examples
-/

namespace PyOTF

open STM Physics

/-! ## The race -/

theorem sNoLock_bind {α β : Type} {p : STM α} {f : α → STM β} (hp : Prog.NoLock p)
    (hf : ∀ a, Prog.NoLock (f a)) : Prog.NoLock (STM.bind p f) :=
  Prog.NoLock.bind hp fun x => by rcases x with e | a; exacts [trivial, hf a]

theorem sNoLock_rd {α : Type} (i : ℕ) (f : SCell → Py α) : Prog.NoLock (rd i f) := fun _ => trivial
theorem sNoLock_wr (i : ℕ) (f : SCell → SCell) : Prog.NoLock (wr i f) := fun _ => trivial
theorem sNoLock_loc {α : Type} (x : Py α) : Prog.NoLock (loc x) := trivial

theorem sNoLock_masks (i n : ℕ) : Prog.NoLock (sMasksT i n) := by
  induction n with
  | zero => exact sNoLock_loc _
  | succ n ih => exact sNoLock_bind (sNoLock_rd _ _) fun _ => sNoLock_bind ih fun _ => sNoLock_loc _

theorem sNoLock_genOtf (I : SImpl) (i : ℕ) : Prog.NoLock (sGenOtfT I i) := by
  unfold sGenOtfT sAttributeChangedT sGenKrT selectT sCondsT sVecTestT sSizesT
  repeat' (first
    | exact sNoLock_rd _ _ | exact sNoLock_wr _ _ | exact sNoLock_loc _ | exact sNoLock_masks _ _
    | refine sNoLock_bind ?_ (fun _ => ?_) | split)

theorem sNoLock_setSize (i : ℕ) (v : PyVal) : Prog.NoLock (sSetSizeT i v) := by
  unfold sSetSizeT sAttributeChangedT
  repeat' (first
    | exact sNoLock_rd _ _ | exact sNoLock_wr _ _ | exact sNoLock_loc _
    | refine sNoLock_bind ?_ (fun _ => ?_) | split)

/-- What a reader of `OTFa` that found the cache empty does after computing the array. -/
noncomputable def sRestT (I : SImpl) (i : ℕ) (r : Py (Arr (Option ℂ))) : STM (Out (Arr (Option ℂ)) (Arr (Option ℝ))) :=
  let fin : STM (Arr (Option ℂ)) := match r with
    | .ok a => (wr i fun c => { c with obj := { c.obj with otfa := some a } }).bind fun _ => loc (.ok a)
    | .error e => .ret (.error e)
  sKeep .cplx (if I.locked then Prog.bind fin fun r => .unlock .otfa (.ret r) else fin)

theorem sReader_begins (I : SImpl) (i : ℕ) (heap : SDicts) (hn : (heap i).obj.otfa = none)
    (other : STM (Out (Arr (Option ℂ)) (Arr (Option ℝ)))) : ∃ sched owner,
      (Conf.start heap [sReadT I i .OTFa, other]).run sched = ⟨heap, owner,
        [Prog.bind (sGenOtfT I i) (sRestT I i), other]⟩ := by
  obtain ⟨lk, m1, m2⟩ := I
  cases lk
  · refine ⟨[0, 0], fun _ => none, ?_⟩
    simp only [sReadT, sKeep, sOtfaT, sCachedT, Conf.start, Conf.run, List.foldl, Conf.step, Prog.bind, List.getElem?_cons_zero,
      List.set_cons_zero, id, hn, STM.bind]
    simp only [Bool.false_eq_true, if_false, Prog.bind_assoc]
    congr 2
    congr 1
    funext r
    rcases r with e | a <;> rfl
  · refine ⟨[0, 0, 0, 0], Function.update (fun _ => none) .otfa (some 0), ?_⟩
    simp only [sReadT, sKeep, sOtfaT, sCachedT, Conf.start, Conf.run, List.foldl, Conf.step, Prog.bind, List.getElem?_cons_zero,
      List.set_cons_zero, id, hn, STM.bind, Prog.bind_assoc, if_true]
    congr 2
    congr 1
    funext r
    rcases r with e | a <;> rfl

theorem sReader_ends (I : SImpl) (i : ℕ) (heap : SDicts) (owner : Slot → Option ℕ) (a : Arr (Option ℂ))
    (other : STM (Out (Arr (Option ℂ)) (Arr (Option ℝ)))) : ∃ sched owner',
      Conf.run ⟨heap, owner, [sRestT I i (.ok a), other]⟩ sched =
        ⟨Function.update heap i { heap i with obj := { (heap i).obj with otfa := some a } }, owner',
          [.ret (.ok (.cplx a)), other]⟩ := by
  obtain ⟨lk, m1, m2⟩ := I
  cases lk
  · exact ⟨[0], owner, rfl⟩
  · exact ⟨[0, 0], Function.update owner .otfa none, rfl⟩

theorem sAlone_bind {α β : Type} (p : STM α) (f : α → STM β) (s : SDicts) :
    Prog.alone (STM.bind p f) s = match Prog.alone p s with
      | (.ok a, t) => Prog.alone (f a) t
      | (.error e, t) => (.error e, t) := by
  unfold STM.bind
  rw [Prog.alone_bind]
  rcases Prog.alone p s with ⟨e | a, t⟩ <;> rfl

theorem sAlone_rd {α : Type} (i : ℕ) (f : SCell → Py α) (s : SDicts) : Prog.alone (rd i f) s = (f (s i), s) := rfl
theorem sAlone_wr (i : ℕ) (f : SCell → SCell) (s : SDicts) :
    Prog.alone (wr i f) s = (.ok (), Function.update s i (f (s i))) := rfl

/-- The size of the computed array is that of the parameters. -/
theorem sOTFa_shape {p : Params} (hp : Ready .sheppard p) {a : Arr (Option ℂ)} (ha : SSpec.OTFa p = .ok a) {v : PyVal}
    (hv : p.size = some v) : ∃ C Z, a.shape = [C, Z, pyNat v, pyNat v] := by
  obtain ⟨c, hc⟩ := Option.isSome_iff_exists.mp hp.condition
  obtain ⟨vc, hvc⟩ := Option.isSome_iff_exists.mp hp.vecCorr
  rw [SSpec.OTFa, sheppardGenOtf_eq hp hvc hc] at ha
  obtain ⟨q, hq, ha⟩ := peel ha
  obtain ⟨h, hh, ha⟩ := peel ha
  have ha := Except.ok.inj ha
  obtain ⟨p1, -⟩ := srcAt_parts hq
  have hs : q.xy.size = pyNat v := by
    rw [gridAt, hv] at p1
    obtain ⟨v', hv', p1⟩ := peel p1
    cases hv'
    obtain ⟨res, -, p1⟩ := peel p1
    exact (gridOf_size p1).symm
  obtain ⟨f, hf, hh⟩ := peel hh
  have hh := Except.ok.inj hh
  subst ha hh
  refine ⟨?_, ?_, ?_⟩
  rotate_left 2
  · rw [← hs]; rfl

/-- The computation alone: the answer of the parameters, which stay. -/
theorem sAlone_genOtf (I : SImpl) (i : ℕ) (heap : SDicts) (hl : ∀ j, SLived (heap j).obj) :
    (Prog.alone (sGenOtfT I i) heap).1 = SSpec.OTFa (heap i).obj.params ∧
    ((Prog.alone (sGenOtfT I i) heap).2 i).obj.params = (heap i).obj.params := by
  have hI : SInv (fun i => (heap i).obj.params) (fun _ => False) heap := fun i => ⟨(hl i).rel, False.elim⟩
  obtain ⟨h1, h2⟩ := (ssafe_genOtf I (i := i) hI).alone (sLe_refl _) hI
  exact ⟨h1.1, (h2 i).1.params⟩

/-- C137: what is not safe is to assign an attribute while another thread reads.  Whatever the object (with an empty cache and
computable OTF) and whatever the accepted new size, there is a schedule - with either version of `cached_property` -
after which both threads are finished without an exception, the object has the new size, and reading `OTFa` returns the
array of the *old* size, now and until the next invalidation. -/
theorem C137_size_race (I : SImpl) (i : ℕ) (heap : SDicts) (hl : ∀ j, SLived (heap j).obj) (hn : (heap i).obj.otfa = none)
    (a : Arr (Option ℂ)) (ha : (SObj.getOTFa (heap i).obj).1 = .ok a) (old new : PyVal) (hold : (heap i).obj.params.size = some old)
    (hnew : (setAttr .sheppard .size new (heap i).obj).1 = .ok ()) (hne : ¬ SameNumber old new) :
    ∃ sched, let c := (Conf.start heap [sReadT I i .OTFa, sKeep (fun _ => .done) (sSetSizeT i new)]).run sched
      c.thread = [.ret (.ok (.cplx a)), .ret (.ok .done)] ∧
      (c.heap i).obj.params.size = some new ∧
      (SObj.getOTFa (c.heap i).obj).1 = .ok a ∧
      ∃ C Z, a.shape = [C, Z, pyNat old, pyNat old] := by
  have hrel := (hl i).rel
  have hOTFa : SSpec.OTFa (heap i).obj.params = .ok a := by
    rw [← ha, (SObj.getOTFa_rel hrel).1]
  have hset : numericSet PyVal.isInt (heap i).obj.params.size new = .ok (some new) := by
    simp only [setAttr, setSize, setNumeric_run] at hnew
    rcases hq : numericSet PyVal.isInt (heap i).obj.params.size new with e | _ | w
    · rw [hq] at hnew; cases hnew
    · exfalso
      have h1 := numericSet_none hq
      rw [hold] at h1
      have := (ne_false_iff (numericType_int _ h1.1)).mp h1.2
      exact hne this
    · rw [(numericSet_some hq).1]
  set spec : ℕ → Params := fun j => (heap j).obj.params with hspec
  obtain ⟨sched1, owner1, h1⟩ := sReader_begins I i heap hn (sKeep (fun _ => .done) (sSetSizeT i new))
  obtain ⟨n2, h2⟩ := Conf.solo (sGenOtfT I i) (sNoLock_genOtf I i) (sRestT I i) ⟨heap, owner1, _⟩ 0
    (show [Prog.bind (sGenOtfT I i) (sRestT I i), sKeep (fun _ => .done) (sSetSizeT i new)][0]? = some _ from rfl)
  obtain ⟨e1, e2⟩ := sAlone_genOtf I i heap hl
  rw [hOTFa] at e1
  rw [e1] at h2
  simp only [List.set_cons_zero] at h2
  set mid := (Prog.alone (sGenOtfT I i) heap).2 with hmid
  obtain ⟨n3, h3⟩ := Conf.solo (sSetSizeT i new) (sNoLock_setSize i new) (fun r => .ret (r.map fun _ => .done))
    ⟨mid, owner1, [sRestT I i (.ok a), sKeep (fun _ => .done) (sSetSizeT i new)]⟩ 1 rfl
  simp only [List.set_cons_succ, List.set_cons_zero] at h3
  have halone : ∃ t : SDicts, Prog.alone (sSetSizeT i new) mid = (.ok (), t) ∧ (t i).obj.params.size = some new := by
    unfold sSetSizeT
    rw [← e2] at hset
    simp only [sAlone_bind, sAlone_rd, hset, sAlone_wr, sAttributeChangedT]
    exact ⟨_, rfl, by simp⟩
  obtain ⟨t, ht, hts⟩ := halone
  rw [ht] at h3
  obtain ⟨sched4, owner4, h4⟩ := sReader_ends I i t owner1 a (.ret (.ok .done))
  refine ⟨sched1 ++ (List.replicate n2 0 ++ (List.replicate n3 1 ++ sched4)), ?_⟩
  intro c
  have hc : c = ⟨Function.update t i { t i with obj := { (t i).obj with otfa := some a } }, owner4,
      [.ret (.ok (.cplx a)), .ret (.ok .done)]⟩ := by
    show Conf.run _ _ = _
    rw [Conf.run_append, h1, Conf.run_append, h2, Conf.run_append, h3]
    exact h4
  refine ⟨by rw [hc], by rw [hc]; simpa using hts, by rw [hc]; simp [SObj.getOTFa, PyM.bind_apply],
    sOTFa_shape hrel.ready hOTFa hold⟩

/-! ## Examples -/

theorem demo_ssize {o : SObj} (ho : SObj.new (demoArgsV "total" "sine") (.bool false) = .ok o) :
    o.params.size = some (.int 64) ∧ ∀ o' : SObj, o'.params.size = some (.int 64) →
      (setAttr .sheppard .size (.int 32) o').1 = .ok () ∧ (setAttr .sheppard .size (.int 32) o').2.params.size = some (.int 32) := by
  have hs : o.params.size = some (.int 64) := by
    obtain ⟨l, x, w, n, h, zl, z, vc, cd, b, -, -, -, -, -, -, -, -, -, -, -, -, -, -, -, -, -, -, rfl⟩ := (sheppard_new_iff _ _ o).mp ho
    rfl
  refine ⟨hs, fun o' h => ?_⟩
  constructor <;>
  · simp [setAttr, setSize, setNumeric_run, numericSet, PyVal.isInt, PyVal.ltZero, PyVal.num?, PyFloat.lt, h, PyVal.ne, PyFloat.eq]
    rfl

/-- Non-vacuity of `C137_size_race`: `SheppardPSF(wl=520, na=0.85, ni=1.0, res=130, size=64)` and the assignment `size = 32`. -/
example (I : SImpl) : ∃ (heap : SDicts) (a : Arr (Option ℂ)) (sched : List ℕ),
    let c := (Conf.start heap [sReadT I 0 .OTFa, sKeep (fun _ => .done) (sSetSizeT 0 (.int 32))]).run sched
    c.thread = [.ret (.ok (.cplx a)), .ret (.ok .done)] ∧ (c.heap 0).obj.params.size = some (.int 32) ∧
    (SObj.getOTFa (c.heap 0).obj).1 = .ok a ∧ ∃ C Z, a.shape = [C, Z, 64, 64] := by
  obtain ⟨o, a, ho, -, ha⟩ := demo_soptics .total .sine false "total" "sine" rfl rfl
  have hrel := (cell_new ho).1
  obtain ⟨hs, -⟩ := demo_ssize ho
  have ha' : (SObj.getOTFa o).1 = .ok a := by rw [(SObj.getOTFa_rel hrel).1]; exact ha
  obtain ⟨sched, h⟩ := C137_size_race I 0 (fun _ => ⟨o, {}⟩) (fun _ => ⟨_, _, o, [], ho, rfl⟩) (by rw [(sheppard_ready ho).2]) a ha' (.int 64) (.int 32)
    hs ((demo_ssize ho).2 o hs).1 (by simp [SameNumber, PyVal.num?])
  exact ⟨_, a, sched, h⟩

/-- Non-vacuity of `C137_concurrent_reads` and `C137_saved_threads`: two threads, two objects. -/
example (I : SImpl) (sched : List ℕ) : ∃ heap : SDicts, (∀ i, SLived (heap i).obj) ∧
    ∀ rs, ((Conf.start heap (([[(0, .PSFi), (1, .OTFa)], [(1, .OTFi), (0, .PSFa)]] : List (List (ℕ × ROp))).map (sThreadT I))).run sched).thread[1]? =
      some (.ret rs) → rs = [(SObj.step (heap 1).obj .readOTFi).1, (SObj.step (heap 0).obj .readPSFa).1] ∧
      SavedAs (((Conf.start heap (([[(0, .PSFi), (1, .OTFa)], [(1, .OTFi), (0, .PSFa)]] : List (List (ℕ × ROp))).map (sThreadT I))).run sched).heap 0).scr
        520 (17 / 20) 1 130 130 64 64 false := by
  obtain ⟨o, a, ho, h, ha⟩ := demo_soptics .total .sine false "total" "sine" rfl rfl
  refine ⟨fun _ => ⟨o, {}⟩, fun _ => ⟨_, _, o, [], ho, rfl⟩, fun rs hr => ⟨?_, ?_⟩⟩
  · exact (C137_concurrent_reads I _ (fun _ => ⟨_, _, o, [], ho, rfl⟩) _ sched).1 1 _ rs rfl hr
  · refine C137_saved_threads I (fun _ => ⟨o, {}⟩) (fun _ => ⟨_, _, o, [], ho, rfl⟩) _ sched 1 _ rs rfl hr 0 .PSFa (by simp) ?_
      h (by norm_num) (by norm_num) (by norm_num)
    refine ⟨.cplx (sheppardPSFa a), ?_⟩
    show ((SObj.getPSFa o).1.map _) = _
    rw [(SObj.getPSFa_rel (cell_new ho).1).1, SSpec.PSFa, ha]; rfl

/-- C137: the saved attributes do go stale.  An object is constructed, `OTFa` is read, and `size` is changed from 64 to 32: `dk`
is still the spacing for 64 points, which is half of that for 32 points. -/
theorem C137_stale (I : SImpl) : ∃ (o : SObj) (c : SCell), SObj.new (demoArgsV "total" "sine") (.bool false) = .ok o ∧
    c = (runHistory (SCell.step I) ⟨o, {}⟩ [.readOTFa, .set .size (.int 32)]).2 ∧ c.obj.params.size = some (.int 32) ∧
    ∃ g, c.scr.dk = some g ∧ g.spacing = some (1 / (64 * 130) : ℝ) := by
  obtain ⟨o, a, ho, h, ha⟩ := demo_soptics .total .sine false "total" "sine" rfl rfl
  obtain ⟨hs, hset⟩ := demo_ssize ho
  obtain ⟨h1, h2, h3⟩ := cell_read I (cell_new ho) .OTFa
  have ok : ∃ out, (SCell.step I ⟨o, {}⟩ .readOTFa).1 = .ok out := ⟨.cplx a, by
    rw [show SOp.readOTFa = ROp.toSOp .OTFa from rfl, h1]
    show ((SSpec.OTFa o.params).map _) = _
    rw [ha]; rfl⟩
  refine ⟨o, _, ho, rfl, ?_, ?_⟩
  · exact (hset _ ((congrArg Params.size h2.1.params).trans hs)).2
  · obtain ⟨g, e1, e2⟩ := ((h3 ok).saved h (by norm_num) (by norm_num) (by norm_num)).dk
    exact ⟨g, e1, by rw [e2]; norm_num⟩

end PyOTF
