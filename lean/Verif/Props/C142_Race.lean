import Verif.Props.C142_Threads
import Verif.Props.C142_Locks
import Verif.Props.C133_Races
import Verif.Props.C137_Race
import Verif.Props.C54_C56_Demo

/-!
# C142: assigning an attribute of a microscope while another thread reads it
-/

namespace PyOTF

open LTM

/-! ## One thread for a while -/

/-- Scheduling one thread for as long as the first part of its program takes: it may take locks, since the other threads hold
none. -/
theorem Conf.solo_disc {σ L α β : Type} [DecidableEq L] {rank : L → ℕ} (p : Prog σ L β) {fin held : List L} (hd : p.DiscTo rank fin held)
    (hnd : held.Nodup) (f : β → Prog σ L α) (c : Conf σ L α) (j : ℕ) (hj : c.thread[j]? = some (p.bind f))
    (ho : ∀ l, c.owner l = if l ∈ held then some j else none) : ∃ n, c.run (List.replicate n j) =
      ⟨(p.alone c.heap).2, fun l => if l ∈ fin then some j else none, c.thread.set j (f (p.alone c.heap).1)⟩ := by
  have hlt : j < c.thread.length := by
    rcases List.getElem?_eq_some_iff.mp hj with ⟨h, _⟩; exact h
  induction p generalizing c held with
  | ret a =>
    refine ⟨0, ?_⟩
    obtain rfl : held = fin := hd
    rw [List.getElem?_eq_some_iff] at hj
    obtain ⟨h, e⟩ := hj
    have : c.thread.set j (f a) = c.thread := by
      apply List.ext_getElem?
      intro k
      by_cases hk : k = j
      · subst hk
        rw [List.getElem?_set_self h, List.getElem?_eq_getElem h, e]; rfl
      · rw [List.getElem?_set_ne (Ne.symm hk)]
    obtain ⟨heap, owner, thread⟩ := c
    obtain rfl : owner = fun l => if l ∈ held then some j else none := funext ho
    simp only [Prog.alone] at this ⊢
    rw [this]; rfl
  | act st k ih =>
    have e : c.step j = { c with heap := st c.heap, thread := c.thread.set j ((k c.heap).bind f) } := by
      unfold Conf.step; rw [hj]; rfl
    obtain ⟨n, hn⟩ := ih c.heap (hd c.heap) hnd (c.step j) (by rw [e]; exact List.getElem?_set_self hlt) (by rw [e]; exact ho) (by rw [e]; simpa using hlt)
    refine ⟨n + 1, ?_⟩
    rw [List.replicate_succ]
    show (c.step j).run (List.replicate n j) = _
    rw [hn, e]
    simp only [List.set_set, Prog.alone]
  | lock l k ih =>
    obtain ⟨h1, h2⟩ := hd
    have hl : l ∉ held := fun h => lt_irrefl _ (h1 l h)
    have e : c.step j = { c with owner := Function.update c.owner l (some j), thread := c.thread.set j (k.bind f) } := by
      unfold Conf.step; rw [hj]
      show (if c.owner l = none then _ else _) = _
      rw [if_pos (by rw [ho, if_neg hl])]
    obtain ⟨n, hn⟩ := ih h2 (List.nodup_cons.mpr ⟨hl, hnd⟩) (c.step j) (by rw [e]; exact List.getElem?_set_self hlt) (by
      rw [e]; intro m
      by_cases hm : m = l
      · subst hm; simp
      · simp [ho, hm]) (by rw [e]; simpa using hlt)
    refine ⟨n + 1, ?_⟩
    rw [List.replicate_succ]
    show (c.step j).run (List.replicate n j) = _
    rw [hn, e]
    simp only [List.set_set, Prog.alone]
  | unlock l k ih =>
    obtain ⟨rest, rfl, h2⟩ := hd
    obtain ⟨hl, hnd'⟩ := List.nodup_cons.mp hnd
    have e : c.step j = { c with owner := Function.update c.owner l none, thread := c.thread.set j (k.bind f) } := by
      unfold Conf.step; rw [hj]; rfl
    obtain ⟨n, hn⟩ := ih h2 hnd' (c.step j) (by rw [e]; exact List.getElem?_set_self hlt) (by
      rw [e]; intro m
      by_cases hm : m = l
      · subst hm; simp [hl]
      · simp [ho, hm]) (by rw [e]; simpa using hlt)
    refine ⟨n + 1, ?_⟩
    rw [List.replicate_succ]
    show (c.step j).run (List.replicate n j) = _
    rw [hn, e]
    simp only [List.set_set, Prog.alone]

/-! ## The race -/

/-- The computation of `PSF`. -/
noncomputable def microPsfFunc (I : LabImpl) (i : ℕ) : LTM (Arr ℝ) :=
  (microModelPsfT I i).bind fun a =>
      (rd i fun c => .ok c.oversample).bind fun o =>
      (rd i fun c => .ok c.psfParams).bind fun p =>
      loc (microPsf (pyInt o) (pyInt p.size).toNat a)

/-- What a reader of `PSF` that found the cache empty does after computing the array. -/
noncomputable def microStoreT (I : LabImpl) (i : ℕ) (r : Py (Arr ℝ)) : Prog Lab LabLock LSeen :=
  let fin : LTM (Arr ℝ) := match r with
    | .ok a => (wr i fun c => { c with psf := some a }).bind fun _ => loc (.ok a)
    | .error e => .ret (.error e)
  Prog.bind (if I.locked then Prog.bind fin fun r => .unlock .microPSF (.ret r) else fin) fun r => .ret (.exact (r.map .real))

/-- A reader that finds no cached `PSF` is, a few steps later, about to compute it. -/
theorem micro_begins (I : LabImpl) (i : ℕ) (w : Lab) (hn : (w.mics i).psf = none) (other : Prog Lab LabLock LSeen) :
    ∃ sched, (Conf.start w [labReadT I (.PSF i), other]).run sched = ⟨w,
      fun l => if l ∈ (if I.locked then [LabLock.microPSF] else []) then some 0 else none,
      [Prog.bind (microPsfFunc I i) (microStoreT I i), other]⟩ := by
  have e : labReadT I (.PSF i) = Prog.bind (microCachedT I .microPSF i (·.psf) (fun a c => { c with psf := some a })
    (microPsfFunc I i)) fun r => .ret (.exact (r.map .real)) := rfl
  rw [e]
  generalize microPsfFunc I i = func
  unfold microStoreT
  rcases hl : I.locked
  · refine ⟨[0, 0], ?_⟩
    simp only [microCachedT, Conf.start, Conf.run, List.foldl, Conf.step, Prog.bind, List.getElem?_cons_zero,
      List.set_cons_zero, id, hn, LTM.bind, hl]
    simp only [Bool.false_eq_true, if_false, Prog.bind_assoc]
    congr 2
    exact congrArg (Prog.bind func) (funext fun r => by rcases r with e | a <;> rfl)
  · refine ⟨[0, 0, 0, 0], ?_⟩
    simp only [microCachedT, Conf.start, Conf.run, List.foldl, Conf.step, Prog.bind, List.getElem?_cons_zero,
      List.set_cons_zero, id, hn, LTM.bind, Prog.bind_assoc, if_true, hl]
    congr 2
    · funext l
      by_cases h : l = .microPSF
      · subst h; simp
      · simp [h]
    congr 1
    funext r
    rcases r with e | a <;> rfl

/-- ... and having computed it, stores it over whatever is there. -/
theorem micro_ends (I : LabImpl) (i : ℕ) (w : Lab) (owner : LabLock → Option ℕ) (a : Arr ℝ) (other : Prog Lab LabLock LSeen) :
    ∃ sched owner', Conf.run ⟨w, owner, [microStoreT I i (.ok a), other]⟩ sched =
      ⟨{ w with mics := Function.update w.mics i { w.mics i with psf := some a } }, owner', [.ret (.exact (.ok (.real a))), other]⟩ := by
  obtain ⟨lk, mix, m1, m2⟩ := I
  cases lk
  · exact ⟨[0], owner, rfl⟩
  · exact ⟨[0, 0], Function.update owner .microPSF none, rfl⟩

theorem readAttr_swap (f : MRef → Inner) (a : Micro.MAttr) (o : PyVal) (k : Kind MRef) :
    Micro.readAttr a o (k.swap f) = Micro.readAttr a o k := by
  cases a <;> cases k <;> rfl

theorem writeAttr_swap (f : MRef → Inner) (a : Micro.MAttr) (v o : PyVal) (k : Kind MRef) :
    Micro.writeAttr a v o (k.swap f) = ((Micro.writeAttr a v o k).1, (Micro.writeAttr a v o k).2.swap f) := by
  cases a <;> cases k <;> rfl

/-- The thread that assigns. -/
noncomputable def microSetter (i : ℕ) (b : Micro.MAttr) (v : PyVal) : Prog Lab LabLock LSeen :=
  Prog.bind (microSetT i b v) fun r => .ret (.exact (r.map fun _ => .done))

theorem lNoLock_set (i : ℕ) (b : Micro.MAttr) (v : PyVal) : Prog.NoLock (microSetT i b v) := by
  intro w
  simp only [Prog.bind, LTM.bind]
  rcases Micro.readAttr b (w.mics i).cfg.oversample (w.mics i).cfg.kind with _ | old
  · trivial
  · rcases hn : numericSet (Micro.vartype b) old v with e | _ | x
    · simp only [hn]; trivial
    · simp only [hn]; trivial
    · simp only [hn]; exact fun _ _ _ => trivial

/-- C142: by itself an assignment does what a sequential one does: accepted or refused, it leaves the same microscope,
caches included, and nothing else is touched. -/
theorem C142_set_alone (w : Lab) (i : ℕ) (b : Micro.MAttr) (v : PyVal) :
    let r := Prog.alone (microSetT i b v) w
    r.1 = (Micro.set b v (w.micro i)).1 ∧ r.2.micro i = (Micro.set b v (w.micro i)).2 ∧
    (∀ j, j ≠ i → r.2.micro j = w.micro j) ∧ r.2.hans = w.hans ∧ r.2.shep = w.shep ∧
    (r.2.mics i).cfg.model = (w.mics i).cfg.model := by
  intro r
  have hr : (w.micro i).read b = Micro.readAttr b (w.mics i).cfg.oversample (w.mics i).cfg.kind := readAttr_swap _ _ _ _
  have er : r = Prog.alone (microSetT i b v) w := rfl
  clear_value r
  simp only [microSetT, LTM.bind, rd, Prog.bind, Prog.alone, id] at er
  rw [set_run, hr]
  rcases hro : Micro.readAttr b (w.mics i).cfg.oversample (w.mics i).cfg.kind with _ | old
  · rw [hro] at er
    simp only [loc, Prog.alone] at er
    subst er
    exact ⟨rfl, rfl, fun _ _ => rfl, rfl, rfl, rfl⟩
  · rw [hro] at er
    simp only at er ⊢
    rcases hn : numericSet (Micro.vartype b) old v with e | _ | x
    · rw [hn] at er
      simp only [Prog.alone] at er
      subst er
      exact ⟨rfl, rfl, fun _ _ => rfl, rfl, rfl, rfl⟩
    · rw [hn] at er
      simp only [loc, Prog.alone] at er
      subst er
      exact ⟨rfl, rfl, fun _ _ => rfl, rfl, rfl, rfl⟩
    · rw [hn] at er
      simp only [wr, Prog.bind, Prog.alone, Function.update_self] at er
      subst er
      refine ⟨rfl, ?_, fun j hj => ?_, rfl, rfl, ?_⟩
      · simp only [Micro.write, Lab.micro, writeAttr_swap, Function.update_self]
        rfl
      · simp only [Lab.micro, Function.update_of_ne hj]
        rfl
      · simp only [Function.update_self]

/-- An accepted assignment alone: the attributes are those the sequential assignment leaves. -/
theorem alone_microSet {w u : Lab} {i : ℕ} (hc : (u.mics i).cfg = (w.mics i).cfg) (b : Micro.MAttr) (v : PyVal)
    (hset : (Micro.set b v (w.micro i)).1 = .ok ()) :
    (Prog.alone (microSetT i b v) u).1 = .ok () ∧ ∀ d, Micro.readAttr d ((Prog.alone (microSetT i b v) u).2.mics i).cfg.oversample
      ((Prog.alone (microSetT i b v) u).2.mics i).cfg.kind = Micro.read d (Micro.set b v (w.micro i)).2 := by
  have hr : (w.micro i).read b = Micro.readAttr b (w.mics i).cfg.oversample (w.mics i).cfg.kind := readAttr_swap _ _ _ _
  have hw : ∀ d, (w.micro i).read d = Micro.readAttr d (w.mics i).cfg.oversample (w.mics i).cfg.kind := fun d => readAttr_swap _ _ _ _
  rw [set_run, hr] at hset ⊢
  simp only [microSetT, LTM.bind, rd, Prog.bind, Prog.alone, hc, id]
  rcases hro : Micro.readAttr b (w.mics i).cfg.oversample (w.mics i).cfg.kind with _ | old
  · simp only [loc, Prog.alone]
    refine ⟨trivial, fun d => ?_⟩
    rw [hc, hw]
  · rw [hro] at hset
    simp only at hset ⊢
    rcases hn : numericSet (Micro.vartype b) old v with e | _ | x
    · rw [hn] at hset; cases hset
    · simp only [loc, Prog.alone]
      refine ⟨trivial, fun d => ?_⟩
      rw [hc, hw]
    · simp only [wr, Prog.bind, Prog.alone, Function.update_self]
      refine ⟨trivial, fun d => ?_⟩
      simp only [Micro.read, Micro.write, hc, Lab.micro, writeAttr_swap, readAttr_swap]

theorem stored_read (t : Lab) (i : ℕ) (a : Arr ℝ) (d : Micro.MAttr) :
    Micro.read d (Lab.micro { t with mics := Function.update t.mics i { t.mics i with psf := some a } } i) =
      Micro.readAttr d (t.mics i).cfg.oversample (t.mics i).cfg.kind := by
  simp only [Micro.read, Lab.micro, Function.update_self, readAttr_swap]

theorem stored_psf (t : Lab) (i : ℕ) (a : Arr ℝ) :
    (Micro.getPSF (Lab.micro { t with mics := Function.update t.mics i { t.mics i with psf := some a } } i)).1 = .ok a := by
  rw [getPSF_run]
  simp only [Lab.micro, Function.update_self]

/-- C142: what is not safe is to assign an attribute of a microscope while another thread reads it.  Whatever the
microscope (of any class, `PSF` computable and not cached) and whatever the accepted assignment, there is a schedule -
with either version of `cached_property` - after which both threads are finished without an exception, the microscope
has the attributes that the assignment leaves, and `PSF` is the array of the attributes *before* the assignment, now and
until the next invalidation. -/
theorem C142_set_race (I : LabImpl) (w : Lab) (hh : ∀ i, Lived (w.hans i).obj) (hs : ∀ i, SLived (w.shep i).obj) (i : ℕ)
    (hn : (w.mics i).psf = none) (a : Arr ℝ) (ha : (Micro.getPSF (w.micro i)).1 = .ok a) (b : Micro.MAttr) (v : PyVal)
    (hset : (Micro.set b v (w.micro i)).1 = .ok ()) :
    ∃ sched, let c := (Conf.start w [labReadT I (.PSF i), microSetter i b v]).run sched
      c.thread = [.ret (.exact (.ok (.real a))), .ret (.exact (.ok .done))] ∧
      (∀ d, Micro.read d (c.heap.micro i) = Micro.read d (Micro.set b v (w.micro i)).2) ∧
      (Micro.getPSF (c.heap.micro i)).1 = .ok a := by
  choose spec hspec using fun i => (hh i).rel
  have hI : LabInv (frameOf w spec [[.PSF i]]) w := ⟨hspec, fun i => ⟨(hs i).rel, False.elim⟩, cellOK_start w spec _⟩
  set F := frameOf w spec [[.PSF i]] with hF
  have hval : F.PSF i = .ok a := by rw [← ha, (seq_PSF (hI.live i)).1]; rfl
  have hfunc : LSafe F (F.PSF i) (microPsfFunc I i) w := by
    rw [Frame.PSF_none (show (F.mics i).psf = none from hn)]
    refine lsafe_bind hI (lsafe_modelPsf I i hI) fun a v _ hv => ?_
    refine lsafe_step hv (lsafe_rd' rfl) fun v hv => ?_
    exact lsafe_step hv (lsafe_rd' rfl) fun v hv => lsafe_loc
  obtain ⟨e1, e2⟩ := hfunc.alone (labLe_refl F) hI
  rw [hval] at e1
  obtain ⟨sched1, h1⟩ := micro_begins I i w hn (microSetter i b v)
  have hdisc : (microPsfFunc I i).DiscTo labRank (if I.locked then [LabLock.microPSF] else []) (if I.locked then [LabLock.microPSF] else []) := by
    refine (show LLockBelow 4 (microPsfFunc I i) from (lLockBelow_modelPsf I i).tbind fun _ => by llock_steps) _ ?_
    split_ifs <;> simp [labRank]
  obtain ⟨n2, h2⟩ := Conf.solo_disc (microPsfFunc I i) hdisc (by split_ifs <;> simp) (microStoreT I i)
    ⟨w, fun l => if l ∈ (if I.locked then [LabLock.microPSF] else []) then some 0 else none, [Prog.bind (microPsfFunc I i) (microStoreT I i), microSetter i b v]⟩
    0 rfl (fun l => rfl)
  rw [e1] at h2
  simp only [List.set_cons_zero] at h2
  set mid := (Prog.alone (microPsfFunc I i) w).2 with hmid
  obtain ⟨n3, h3⟩ := Conf.solo (microSetT i b v) (lNoLock_set i b v) (fun r => .ret (.exact (r.map fun _ => .done)))
    ⟨mid, _, [microStoreT I i (.ok a), microSetter i b v]⟩ 1 rfl
  simp only [List.set_cons_succ, List.set_cons_zero] at h3
  obtain ⟨g1, g2⟩ := alone_microSet (e2.mics i).cfg b v hset
  rw [g1] at h3
  set t := (Prog.alone (microSetT i b v) mid).2 with ht
  obtain ⟨sched4, owner4, h4⟩ := micro_ends I i t _ a (.ret (.exact (.ok .done)))
  refine ⟨sched1 ++ (List.replicate n2 0 ++ (List.replicate n3 1 ++ sched4)), ?_⟩
  intro c
  have hc : c = ⟨{ t with mics := Function.update t.mics i { t.mics i with psf := some a } }, owner4,
      [.ret (.exact (.ok (.real a))), .ret (.exact (.ok .done))]⟩ := by
    show Conf.run _ _ = _
    rw [Conf.run_append, h1, Conf.run_append, h2, Conf.run_append, h3]
    exact h4
  refine ⟨by rw [hc], fun d => ?_, ?_⟩
  · rw [hc, ← g2 d, stored_read]
  · rw [hc, stored_psf]

/-! ## Examples -/

/-- A laboratory in which all microscopes are the one of `demoMicroArgs`, sharing one model. -/
theorem demo_lab : ∃ w : Lab, (∀ i, Lived (w.hans i).obj) ∧ (∀ i, SLived (w.shep i).obj) ∧ (∀ i, (w.mics i).cfg.model = .hanser 0) ∧
    (∀ i, (w.mics i).psf = none ∧ (w.mics i).otf = none) ∧ (∀ i, Micro.newWidefield demoMicroArgs = .ok (w.micro i)) ∧
    (∃ p, p.shape = [64, 64, 64] ∧ ∀ i, (Micro.getPSF (w.micro i)).1 = .ok p) ∧ ∀ i,
    (Micro.set .oversample (.int 1) (w.micro i)).1 = .ok () ∧
    Micro.read .oversample (Micro.set .oversample (.int 1) (w.micro i)).2 = some (some (.int 1)) ∧
    ∃ p, (Micro.getPSF (Micro.set .oversample (.int 1) (w.micro i)).2).1 = .ok p ∧ p.shape = [64, 192, 192] := by
  obtain ⟨m, h, b, p, h1, h2, h3, h4, h5, h6⟩ := demoMicro
  obtain ⟨h', v, cd, hnew, hh, hvz, hO⟩ := widefield_setup demoMicroArgs 3 64 64 rfl
    130 520 (17/20) 1 130 rfl rfl rfl rfl rfl rfl (by norm_num [demoMicroArgs, Denotes, PyVal.num?])
    (by norm_num) (by norm_num [demoMicroArgs, Denotes, PyVal.num?]) (by norm_num)
    (by norm_num [demoMicroArgs, Denotes, PyVal.num?]) (by norm_num) (by norm_num)
    (by norm_num [demoMicroArgs, Denotes, PyVal.num?]) (by norm_num) (Or.inl rfl)
    (by constructor <;> simp [demoMicroArgs, NotSpecial, PsfParams.initArgs]) (by simp [demoMicroArgs]) (by simp [demoMicroArgs])
  rw [h1] at hnew
  cases hnew
  cases h2
  obtain ⟨b', hb', hbs, hpos⟩ := hanser_total_pos ⟨h.params, none⟩ rfl hO (by norm_num) (by norm_num) (by norm_num)
    (by norm_num) (by norm_num) (by simp) hvz
  have hrel : HRel h ⟨h.params, none⟩ := by
    obtain ⟨r1, r2⟩ := hanser_ready hh
    rw [r2]; exact HRel.cleared r1
  have hbb : b = b' := by
    rw [(getPSFi_rel hrel).1, hb'] at h3
    exact (Except.ok.inj h3).symm
  rw [← hbb] at hpos
  obtain ⟨o, a, ho, -, -⟩ := demo_soptics .total .sine false "total" "sine" rfl rfl
  refine ⟨⟨fun _ => ⟨h, {}⟩, fun _ => ⟨o, {}⟩, fun _ => ⟨⟨.int 3, ordinaryParams demoMicroArgs 64 3 130, demoMicroArgs.pixelSize, .hanser 0,
    .widefield⟩, none, none⟩⟩, fun _ => ⟨_, _, h, [], hh, rfl⟩, fun _ => ⟨_, _, o, [], ho, rfl⟩, fun _ => rfl, fun _ => ⟨rfl, rfl⟩,
    fun i => h1, ⟨p, h6, fun i => h5⟩, fun i => ?_⟩
  have e : Micro.set .oversample (.int 1) (Lab.micro ⟨fun _ => ⟨h, {}⟩, fun _ => ⟨o, {}⟩, fun _ => ⟨⟨.int 3, ordinaryParams demoMicroArgs 64 3 130,
      demoMicroArgs.pixelSize, .hanser 0, .widefield⟩, none, none⟩⟩ i) =
      (.ok (), ⟨.int 1, ordinaryParams demoMicroArgs 64 3 130, demoMicroArgs.pixelSize, .hanser h, .widefield, none, none⟩) := by
    rw [set_run]
    simp [Lab.micro, Lab.inner, Kind.swap, Micro.read, Micro.readAttr, Micro.write, Micro.writeAttr, Micro.vartype, numericSet, PyVal.isInt, PyVal.ltZero, PyVal.num?, PyFloat.lt,
      PyVal.ne, PyFloat.eq]
    rfl
  rw [e]
  refine ⟨rfl, rfl, ?_⟩
  obtain ⟨p', e1, e2, -⟩ := C54_super_pixel 1 192 64 rfl b h4 hpos.ne'
  refine ⟨p', ?_, e2⟩
  rw [getPSF_run]
  have hmp : Micro.modelPsf (Micro.mk (.int 1) (ordinaryParams demoMicroArgs 64 3 130) demoMicroArgs.pixelSize (.hanser h) .widefield none none) =
      ((HObj.getPSFi h).1, Micro.mk (.int 1) (ordinaryParams demoMicroArgs 64 3 130) demoMicroArgs.pixelSize (.hanser (HObj.getPSFi h).2) .widefield none none) := rfl
  simp only [hmp, h3]
  have e4 : (pyInt (ordinaryParams demoMicroArgs 64 3 130).size).toNat = 192 * 1 := by
    simp only [ordinaryParams, pyInt]
    rfl
  rw [e4, show pyInt (.int 1) = ((1 : ℕ) : ℤ) from rfl, e1]

/-- Non-vacuity of `C142_set_race`: `oversample_factor` is set from 3 to 1 during a read of `PSF`: afterwards it is 1 and
`PSF` has 64 x 64 pixels, where a microscope with this factor has 192 x 192. -/
example (I : LabImpl) : ∃ (w : Lab) (sched : List ℕ) (p p' : Arr ℝ),
    let c := (Conf.start w [labReadT I (.PSF 0), microSetter 0 .oversample (.int 1)]).run sched
    c.thread = [.ret (.exact (.ok (.real p))), .ret (.exact (.ok .done))] ∧
    Micro.read .oversample (c.heap.micro 0) = some (some (.int 1)) ∧ (Micro.getPSF (c.heap.micro 0)).1 = .ok p ∧ p.shape = [64, 64, 64] ∧
    (Micro.getPSF (Micro.set .oversample (.int 1) (w.micro 0)).2).1 = .ok p' ∧ p'.shape = [64, 192, 192] := by
  obtain ⟨w, hh, hs, -, hn, -, ⟨p, hps, hp⟩, h⟩ := demo_lab
  obtain ⟨hset, hget, p', hp', hps'⟩ := h 0
  obtain ⟨sched, h1, h2, h3⟩ := C142_set_race I w hh hs 0 (hn 0).1 p (hp 0) .oversample (.int 1) hset
  exact ⟨w, sched, p, p', h1, by rw [h2, hget], h3, hps, hp', hps'⟩

/-- Non-vacuity of `C142_concurrent_reads`: two threads read two microscopes that share a model. -/
example (I : LabImpl) : ∃ w : Lab, (∀ i, Lived (w.hans i).obj) ∧ (∀ i, SLived (w.shep i).obj) ∧ (∀ i, (w.mics i).cfg.model = .hanser 0) ∧
    ∃ p, p.shape = [64, 64, 64] ∧ ∀ (sched : List ℕ) rs,
    ((Conf.start w (([[.PSF 0, .OTF 1], [.OTF 0, .PSF 1]] : List (List LOp)).map (labThreadT I))).run sched).thread[1]? =
      some (.ret rs) → rs = [.exact (.ok (.cplx (spectrum p))), .exact (.ok (.real p))] := by
  obtain ⟨w, hh, hs, hm, hn, -, ⟨p, hps, hp⟩, -⟩ := demo_lab
  refine ⟨w, hh, hs, hm, p, hps, fun sched rs hr => ?_⟩
  rw [(C142_concurrent_reads I w hh hs _ sched).1 1 _ rs rfl hr]
  have h1 : ((w.micro 0).pstep .readOTF).1 = .ok (.cplx (spectrum p)) := by
    show ((Micro.getOTF (w.micro 0)).1.map _) = _
    have e : (w.micro 0).otf = none := (hn 0).2
    have := hp 0
    rw [getOTF_run, e]
    rcases hg : Micro.getPSF (w.micro 0) with ⟨r, m'⟩
    rw [hg] at this
    cases this
    rfl
  have h2 : ((w.micro 1).pstep .readPSF).1 = .ok (.real p) := by
    show ((Micro.getPSF (w.micro 1)).1.map _) = _
    rw [hp 1]; rfl
  simp only [List.map_cons, List.map_nil, LOp.single, h1, h2]

end PyOTF
