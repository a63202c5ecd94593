import Verif.Props.C142_Reads
import Verif.Props.C133_Threads

/-!
# C142: any interleaving of reads of microscopes and their models
-/

namespace PyOTF

open LTM

/-! ## Sequences of reads -/

/-- A read. -/
def POp.IsRead : POp → Prop
  | .set _ _ => False
  | _ => True

open Classical in
/-- What a sequence of reads leaves in the two caches. -/
theorem seq_reads {m : Micro} {s : MSpec} (h : MLive m s) (ops : List POp) (hr : ∀ op ∈ ops, op.IsRead) :
    (runHistory Micro.pstep m ops).1 = ops.map (fun op => (m.pstep op).1) ∧
    MLive (runHistory Micro.pstep m ops).2 s ∧
    ((runHistory Micro.pstep m ops).2.psf =
      if .readPSF ∈ ops ∨ (.readOTF ∈ ops ∧ m.otf = none) then (psfValue m.psf s).toOption else m.psf) ∧
    ((runHistory Micro.pstep m ops).2.otf = if .readOTF ∈ ops then (otfValue m.psf m.otf s).toOption else m.otf) := by
  induction ops generalizing m with
  | nil => exact ⟨rfl, h, by simp [runHistory], by simp [runHistory]⟩
  | cons op ops ih =>
    have same : ∀ {m' : Micro}, MLive m' s → psfValue m'.psf s = psfValue m.psf s →
        otfValue m'.psf m'.otf s = otfValue m.psf m.otf s → (ops.map fun op => (m'.pstep op).1) = ops.map fun op => (m.pstep op).1 :=
      fun h' hp ho => List.map_congr_left fun op _ => ((SameValues.mk h' h hp ho).step op).1
    have hr' : ∀ op ∈ ops, op.IsRead := fun o ho => hr o (by simp [ho])
    simp only [runHistory, List.map_cons]
    cases op with
    | set a v => exact absurd (hr (.set a v) (by simp)) id
    | readPSF =>
      obtain ⟨-, a2, a3, a4⟩ := seq_PSF h
      have e1 : psfValue (Micro.getPSF m).2.psf s = psfValue m.psf s := by rw [a3, psfValue_toOption]
      have e2 : otfValue (Micro.getPSF m).2.psf (Micro.getPSF m).2.otf s = otfValue m.psf m.otf s := by
        rw [a4]; exact otfValue_congr _ e1
      obtain ⟨b1, b2, b3, b4⟩ := ih a2 hr'
      refine ⟨?_, b2, ?_, ?_⟩
      · exact congrArg _ (b1.trans (same a2 e1 e2))
      · refine b3.trans ?_
        rw [e1, a3, ite_self, if_pos (.inl (by simp))]
      · refine b4.trans ?_
        rw [e2, a4]
        refine if_congr ?_ rfl rfl; simp
    | readOTF =>
      obtain ⟨-, a2, a3, a4⟩ := seq_OTF h
      have e1 : psfValue (Micro.getOTF m).2.psf s = psfValue m.psf s := by
        rw [a3]; split_ifs
        · exact psfValue_toOption _ _
        · rfl
      have e2 : otfValue (Micro.getOTF m).2.psf (Micro.getOTF m).2.otf s = otfValue m.psf m.otf s := by
        rw [a4, otfValue_congr _ e1, otfValue_toOption]
      obtain ⟨b1, b2, b3, b4⟩ := ih a2 hr'
      refine ⟨?_, b2, ?_, ?_⟩
      · exact congrArg _ (b1.trans (same a2 e1 e2))
      · refine b3.trans ?_
        rw [e1, a3]
        by_cases hm : m.otf = none
        · rw [if_pos hm, ite_self, if_pos (.inr ⟨by simp, hm⟩)]
        · rw [if_neg hm]
          refine if_congr ?_ rfl rfl
          obtain ⟨t, ht⟩ := Option.ne_none_iff_exists'.mp hm
          rw [a4, ht]
          simp [otfValue, Except.toOption]
      · refine b4.trans ?_
        rw [e2, a4, ite_self, if_pos (by simp)]
    | readModelPsf =>
      obtain ⟨-, a2⟩ := computes_modelPsf s m h
      have k := keeps_modelPsf m
      have e1 : psfValue (Micro.modelPsf m).2.psf s = psfValue m.psf s := by rw [k.1]
      have e2 : otfValue (Micro.modelPsf m).2.psf (Micro.modelPsf m).2.otf s = otfValue m.psf m.otf s := by rw [k.1, k.2.1]
      obtain ⟨b1, b2, b3, b4⟩ := ih a2 hr'
      refine ⟨?_, b2, ?_, ?_⟩
      · exact congrArg _ (b1.trans (same a2 e1 e2))
      · refine b3.trans ?_
        rw [e1, k.1, k.2.1]
        refine if_congr ?_ rfl rfl; simp
      · refine b4.trans ?_
        rw [e2, k.2.1]
        refine if_congr ?_ rfl rfl; simp

/-! ## The frame of the threads -/

/-- The threads start in `w`. -/
def frameOf (w : Lab) (hs : ℕ → HSpec) (threads : List (List LOp)) : Frame where
  mics := w.mics
  hans := hs
  shep := fun i => (w.shep i).obj.params
  mayPSF := fun i => ∃ t ∈ threads, .PSF i ∈ t ∨ (.OTF i ∈ t ∧ (w.mics i).otf = none)
  mayOTF := fun i => ∃ t ∈ threads, .OTF i ∈ t

theorem cellOK_start (w : Lab) (hs : ℕ → HSpec) (threads : List (List LOp)) (i : ℕ) :
    CellOK (frameOf w hs threads) i (w.mics i) where
  cfg := rfl
  psf := fun a ha => by simp only [Frame.PSF, frameOf, ha, psfValue]
  otf := fun a ha => by simp only [Frame.OTF, frameOf, ha, otfValue]
  psf0 := id
  otf0 := id
  mayPSF := .inl
  mayOTF := .inl
  both := .inl

theorem allows_start {w : Lab} {hs : ℕ → HSpec} {threads : List (List LOp)} {t : List LOp} (ht : t ∈ threads) {q : LOp} (hq : q ∈ t) :
    (frameOf w hs threads).Allows q := by
  cases q with
  | PSF i => exact ⟨t, ht, .inl hq⟩
  | OTF i => exact ⟨⟨t, ht, hq⟩, fun h => ⟨t, ht, .inr ⟨hq, h⟩⟩⟩
  | modelPsf => trivial
  | hanser => trivial
  | sheppard => trivial

theorem krel_map {f : MRef → Inner} {g : MRef → ISpec} (h : ∀ r, IRel (f r) (g r)) (k : Kind MRef) : KRel (k.swap f) (k.swap g) := by
  cases k with
  | widefield => trivial
  | apotome => trivial
  | confocal e ph w => exact ⟨h e, rfl, rfl⟩
  | sim => exact ⟨rfl, rfl, rfl, rfl, rfl, rfl, rfl⟩

theorem LabInv.live {F : Frame} {w : Lab} (h : LabInv F w) (i : ℕ) : MLive (w.micro i) (F.spec i) := by
  have hc := (h.mics i).cfg
  constructor
  · exact congrArg MConfig.oversample hc
  · exact congrArg MConfig.psfParams hc
  · exact congrArg MConfig.pixelSize hc
  · show IRel (w.inner (w.mics i).cfg.model) (F.inner (F.mics i).cfg.model)
    rw [hc]; exact h.inner _
  · show KRel ((w.mics i).cfg.kind.swap w.inner) ((F.mics i).cfg.kind.swap F.inner)
    rw [hc]; exact krel_map h.inner _

theorem lab_value_single {w : Lab} {hs : ℕ → HSpec} {threads : List (List LOp)} (hI : LabInv (frameOf w hs threads) w) (q : LOp) :
    (frameOf w hs threads).value q = q.single w := by
  cases q with
  | PSF i => exact congrArg (fun x => LSeen.exact (Except.map _ x)) (seq_PSF (hI.live i)).1.symm
  | OTF i => exact congrArg (fun x => LSeen.exact (Except.map _ x)) (seq_OTF (hI.live i)).1.symm
  | modelPsf i => exact congrArg (fun x => LSeen.exact (Except.map _ x)) (computes_modelPsf _ _ (hI.live i)).1.symm
  | hanser i r => exact congrArg LSeen.exact (step_rel (hI.hans i) r.toHOp).1.symm
  | sheppard i r => exact congrArg LSeen.partly (SObj.step_rel (hI.shep i).1 r.toSOp).1.symm

/-- The caches of a microscope between the reads. -/
theorem LabInv.same {w v : Lab} {hs : ℕ → HSpec} {threads : List (List LOp)} (hI : LabInv (frameOf w hs threads) w)
    (hv : LabInv (frameOf w hs threads) v) (i : ℕ) : SameValues (v.micro i) (w.micro i) ((frameOf w hs threads).spec i) := by
  have hc := hv.mics i
  have e1 : psfValue (v.mics i).psf ((frameOf w hs threads).spec i) = psfValue (w.mics i).psf ((frameOf w hs threads).spec i) := by
    rcases h : (v.mics i).psf with _ | a
    · rw [show (w.mics i).psf = none from isNone_of hc.psf0 h]
    · exact (hc.psf a h).symm
  refine ⟨hv.live i, hI.live i, e1, ?_⟩
  show otfValue (v.mics i).psf (v.mics i).otf _ = otfValue (w.mics i).psf (w.mics i).otf _
  rcases h : (v.mics i).otf with _ | a
  · rw [show (w.mics i).otf = none from isNone_of hc.otf0 h]
    exact otfValue_congr _ e1
  · exact (hc.otf a h).symm

/-- What holds at every moment. -/
theorem lab_run (I : LabImpl) (w : Lab) (hh : ∀ i, Lived (w.hans i).obj) (hs : ∀ i, SLived (w.shep i).obj)
    (threads : List (List LOp)) (sched : List ℕ) : ∃ F : Frame, ∃ spec, F = frameOf w spec threads ∧ LabInv F w ∧
    LabInv F ((Conf.start w (threads.map (labThreadT I))).run sched).heap ∧
    ∀ (j : ℕ) qs rs, threads[j]? = some qs → ((Conf.start w (threads.map (labThreadT I))).run sched).thread[j]? = some (.ret rs) →
      rs = qs.map (LOp.single w) ∧ ∀ q ∈ qs, F.Done ((Conf.start w (threads.map (labThreadT I))).run sched).heap q := by
  choose spec hspec using fun i => (hh i).rel
  have hI : LabInv (frameOf w spec threads) w := ⟨hspec, fun i => ⟨(hs i).rel, False.elim⟩, cellOK_start w spec threads⟩
  have hsafe : (Conf.start w (threads.map (labThreadT I))).AllSafeAt (LabInv (frameOf w spec threads)) (LabLe (frameOf w spec threads))
      (fun j v rs => ∀ qs, threads[j]? = some qs → rs = qs.map (frameOf w spec threads).value ∧
        ∀ q ∈ qs, (frameOf w spec threads).Done v q) := by
    refine ⟨hI, fun j p hj => ?_⟩
    simp only [Conf.start, List.getElem?_map] at hj
    rcases hq : threads[j]? with _ | qs
    · rw [hq] at hj; cases hj
    · rw [hq] at hj
      cases hj
      refine (lsafe_thread I qs hI fun q h => allows_start (List.mem_of_getElem? hq) h).imp ?_
      rintro s rs ⟨rfl, h⟩ qs' h'
      rw [hq] at h'; cases h'; exact ⟨rfl, h⟩
  obtain ⟨h1, h2⟩ := hsafe.run (labLe_trans _) (labLe_refl _) sched
  refine ⟨_, spec, rfl, hI, h1, fun j qs rs hq hr => ?_⟩
  obtain ⟨h3, h4⟩ := h2 j _ hr _ (labLe_refl _ _) h1 qs hq
  refine ⟨h3.trans (List.map_congr_left fun q _ => lab_value_single hI q), h4⟩

/-! ## C142 -/

/-- C142: any number of threads read `PSF`, `OTF` and `model_psf` of any microscopes - of any of the four classes, with
models of either class, which several microscopes may share - and the outputs of the models themselves, in any
interleaving of their accesses and with either version of `cached_property`.  The models have any histories behind
them, and the caches of the microscopes may hold anything.  Every read returns or raises what the same read would have
in the untouched memory by a single thread.  And at every moment the attributes of every microscope and every model are
the old ones, and every later history of operations on one of them has the answers it would have had. -/
theorem C142_concurrent_reads (I : LabImpl) (w : Lab) (hh : ∀ i, Lived (w.hans i).obj) (hs : ∀ i, SLived (w.shep i).obj)
    (threads : List (List LOp)) (sched : List ℕ) :
    let c := (Conf.start w (threads.map (labThreadT I))).run sched
    (∀ (j : ℕ) qs rs, threads[j]? = some qs → c.thread[j]? = some (.ret rs) → rs = qs.map (LOp.single w)) ∧
    (∀ i, (c.heap.mics i).cfg = (w.mics i).cfg ∧ (c.heap.hans i).obj.params = (w.hans i).obj.params ∧
      (c.heap.shep i).obj.params = (w.shep i).obj.params) ∧
    (∀ i ops, (runHistory Micro.pstep (c.heap.micro i) ops).1 = (runHistory Micro.pstep (w.micro i) ops).1) ∧
    (∀ i ops, (runHistory HObj.step (c.heap.hans i).obj ops).1 = (runHistory HObj.step (w.hans i).obj ops).1) ∧
    (∀ i ops, (runHistory SObj.step (c.heap.shep i).obj ops).1 = (runHistory SObj.step (w.shep i).obj ops).1) := by
  intro c
  obtain ⟨F, spec, rfl, hI, hv, h⟩ := lab_run I w hh hs threads sched
  refine ⟨fun j qs rs hq hr => (h j qs rs hq hr).1, fun i => ⟨(hv.mics i).cfg, ?_, ?_⟩, fun i ops => (hI.same hv i).run ops,
    fun i ops => ?_, fun i ops => ?_⟩
  · exact (hv.hans i).params.trans (hI.hans i).params.symm
  · exact (hv.shep i).1.params.trans (hI.shep i).1.params.symm
  · rw [(run_rel (hv.hans i) ops).1, (run_rel (hI.hans i) ops).1]
  · rw [(SObj.run_rel (hv.shep i).1 ops).1, (SObj.run_rel (hI.shep i).1 ops).1]

/-- C142: once all threads are finished, every microscope is as if a single thread had made the same reads in any order
whatever (in which each gets the answer that it would get first): the caches hold the same arrays, and every later history of operations - also on the models - has the same
answers. -/
theorem C142_linear (I : LabImpl) (w : Lab) (hh : ∀ i, Lived (w.hans i).obj) (hs : ∀ i, SLived (w.shep i).obj)
    (threads : List (List LOp)) (sched : List ℕ)
    (hd : ∀ p ∈ ((Conf.start w (threads.map (labThreadT I))).run sched).thread, ∃ rs, p = .ret rs)
    (order : List LOp) (ho : ∀ q, q ∈ order ↔ ∃ t ∈ threads, q ∈ t) (i : ℕ) :
    let v := ((Conf.start w (threads.map (labThreadT I))).run sched).heap
    let m := (runHistory Micro.pstep (w.micro i) (order.filterMap (LOp.on i))).2
    (runHistory Micro.pstep (w.micro i) (order.filterMap (LOp.on i))).1 =
      (order.filterMap (LOp.on i)).map (fun op => ((w.micro i).pstep op).1) ∧
    (v.mics i).psf = m.psf ∧ (v.mics i).otf = m.otf ∧
    ∀ ops, (runHistory Micro.ustep (v.micro i) ops).1 = (runHistory Micro.ustep m ops).1 := by
  intro v m
  obtain ⟨F, spec, hF, hI, hv, h⟩ := lab_run I w hh hs threads sched
  have hdone : ∀ t ∈ threads, ∀ q ∈ t, F.Done v q := by
    intro t ht q hq
    obtain ⟨j, hj⟩ := List.mem_iff_getElem?.mp ht
    have hlen : j < ((Conf.start w (threads.map (labThreadT I))).run sched).thread.length := by
      rw [Conf.run_length]
      simp only [Conf.start, List.length_map]
      exact (List.getElem?_eq_some_iff.mp hj).1
    obtain ⟨rs, hrs⟩ := hd _ (List.getElem_mem hlen)
    exact (h j t rs hj (by rw [List.getElem?_eq_getElem hlen, hrs])).2 q hq
  have hmem : ∀ op : POp, op ∈ order.filterMap (LOp.on i) ↔ ∃ t ∈ threads, ∃ q ∈ t, q.on i = some op := by
    intro op
    simp only [List.mem_filterMap, ho]
    constructor
    · rintro ⟨q, ⟨t, ht, hq⟩, h⟩; exact ⟨t, ht, q, hq, h⟩
    · rintro ⟨t, ht, q, hq, h⟩; exact ⟨q, ⟨t, ht, hq⟩, h⟩
  have hpsf : POp.readPSF ∈ order.filterMap (LOp.on i) ↔ ∃ t ∈ threads, LOp.PSF i ∈ t := by
    rw [hmem]
    constructor
    · rintro ⟨t, ht, q, hq, h⟩
      cases q <;> simp [LOp.on] at h
      subst h; exact ⟨t, ht, hq⟩
    · rintro ⟨t, ht, hq⟩; exact ⟨t, ht, _, hq, by simp [LOp.on]⟩
  have hotf : POp.readOTF ∈ order.filterMap (LOp.on i) ↔ ∃ t ∈ threads, LOp.OTF i ∈ t := by
    rw [hmem]
    constructor
    · rintro ⟨t, ht, q, hq, h⟩
      cases q <;> simp [LOp.on] at h
      subst h; exact ⟨t, ht, hq⟩
    · rintro ⟨t, ht, hq⟩; exact ⟨t, ht, _, hq, by simp [LOp.on]⟩
  have hread : ∀ op ∈ order.filterMap (LOp.on i), op.IsRead := by
    intro op hop
    obtain ⟨t, ht, q, hq, h⟩ := (hmem op).mp hop
    cases q <;> simp [LOp.on] at h <;> rw [← h.2] <;> trivial
  obtain ⟨s1, s2, s3, s4⟩ := seq_reads (hI.live i) _ hread
  have hc := hv.mics i
  have hmics : F.mics = w.mics := by rw [hF]; rfl
  have hmayP : F.mayPSF i ↔ ∃ t ∈ threads, LOp.PSF i ∈ t ∨ (LOp.OTF i ∈ t ∧ (w.mics i).otf = none) := by rw [hF]; rfl
  have hmayO : F.mayOTF i ↔ ∃ t ∈ threads, LOp.OTF i ∈ t := by rw [hF]; rfl
  have hFP : F.PSF i = psfValue (w.mics i).psf (F.spec i) := by rw [Frame.PSF, hmics]
  have hFO : F.OTF i = otfValue (w.mics i).psf (w.mics i).otf (F.spec i) := by rw [Frame.OTF, hmics]
  -- the `OTF`
  have e2 : (v.mics i).otf = m.otf := by
    by_cases hm : POp.readOTF ∈ order.filterMap (LOp.on i)
    · rw [if_pos hm] at s4
      rw [show m.otf = (F.OTF i).toOption by rw [hFO]; exact s4]
      obtain ⟨t, ht, hq⟩ := hotf.mp hm
      rcases hv' : (v.mics i).otf with _ | a
      · rcases hx : F.OTF i with e | a
        · rfl
        · have := hdone t ht _ hq ⟨a, hx⟩
          rw [hv'] at this; cases this
      · rw [hc.otf a hv']; rfl
    · rw [if_neg hm] at s4
      rw [show m.otf = (w.mics i).otf from s4]
      rcases hw : (w.mics i).otf with _ | a
      · rcases hv' : (v.mics i).otf with _ | b
        · rfl
        · rcases hc.mayOTF (by rw [hv']; rfl) with h | h
          · rw [hmics, hw] at h; cases h
          · exact absurd (hotf.mpr (hmayO.mp h)) hm
      · have h0 := hc.otf0 (by rw [hmics, hw]; rfl)
        obtain ⟨b, hb⟩ := Option.isSome_iff_exists.mp h0
        have := hc.otf b hb
        rw [hFO, hw] at this
        cases this; exact hb
  -- the `PSF`
  have key : (∃ t ∈ threads, LOp.PSF i ∈ t ∨ (LOp.OTF i ∈ t ∧ (w.mics i).otf = none)) → (∃ a, F.PSF i = .ok a) → (v.mics i).psf.isSome := by
    rintro ⟨t, ht, hq | ⟨hq, hn⟩⟩ ⟨a, ha⟩
    · exact hdone t ht _ hq ⟨a, ha⟩
    · have h1 : F.OTF i = .ok (spectrum a) := by
        rw [hFO, hn]
        rw [hFP] at ha
        simp only [otfValue, ha]; rfl
      rcases hc.both (hdone t ht _ hq ⟨_, h1⟩) with h | h
      · rw [hmics, hn] at h; cases h
      · exact h
  have e1 : (v.mics i).psf = m.psf := by
    have hiff : (POp.readPSF ∈ order.filterMap (LOp.on i) ∨ POp.readOTF ∈ order.filterMap (LOp.on i) ∧ (w.mics i).otf = none) ↔
        ∃ t ∈ threads, LOp.PSF i ∈ t ∨ (LOp.OTF i ∈ t ∧ (w.mics i).otf = none) := by
      rw [hpsf, hotf]
      constructor
      · rintro (⟨t, ht, hq⟩ | ⟨⟨t, ht, hq⟩, hn⟩)
        · exact ⟨t, ht, .inl hq⟩
        · exact ⟨t, ht, .inr ⟨hq, hn⟩⟩
      · rintro ⟨t, ht, hq | ⟨hq, hn⟩⟩
        · exact .inl ⟨t, ht, hq⟩
        · exact .inr ⟨⟨t, ht, hq⟩, hn⟩
    by_cases hm : POp.readPSF ∈ order.filterMap (LOp.on i) ∨ POp.readOTF ∈ order.filterMap (LOp.on i) ∧ (w.micro i).otf = none
    · rw [if_pos hm] at s3
      rw [show m.psf = (F.PSF i).toOption by rw [hFP]; exact s3]
      rcases hv' : (v.mics i).psf with _ | a
      · rcases hx : F.PSF i with e | a
        · rfl
        · have := key (hiff.mp hm) ⟨a, hx⟩
          rw [hv'] at this; cases this
      · rw [hc.psf a hv']; rfl
    · rw [if_neg hm] at s3
      rw [show m.psf = (w.mics i).psf from s3]
      rcases hw : (w.mics i).psf with _ | a
      · rcases hv' : (v.mics i).psf with _ | b
        · rfl
        · rcases hc.mayPSF (by rw [hv']; rfl) with h | h
          · rw [hmics, hw] at h; cases h
          · exact absurd (hiff.mpr (hmayP.mp h)) hm
      · have h0 := hc.psf0 (by rw [hmics, hw]; rfl)
        obtain ⟨b, hb⟩ := Option.isSome_iff_exists.mp h0
        have := hc.psf b hb
        rw [hFP, hw] at this
        cases this; exact hb
  exact ⟨s1, e1, e2, fun ops => urun_same (hv.live i) s2 e1 e2 ops⟩

end PyOTF
