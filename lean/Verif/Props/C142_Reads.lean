import Verif.Lemmas.Lab

/-!
# C142: reading microscopes from several threads
-/

namespace PyOTF

open LTM

/-! ## Clients -/

/-- What a thread can read: outputs of microscopes, and outputs of PSF models directly. -/
inductive LOp
  | PSF (i : ℕ)
  | OTF (i : ℕ)
  | modelPsf (i : ℕ)
  | hanser (i : ℕ) (r : ROp)
  | sheppard (i : ℕ) (r : ROp)

/-- What a read returned or raised; arrays of a `SheppardPSF` may contain NaN. -/
inductive LSeen
  | exact (r : Py (Out (Arr ℂ) (Arr ℝ)))
  | partly (r : Py (Out (Arr (Option ℂ)) (Arr (Option ℝ))))

/-- The read as an operation on microscope `i`, if it is one. -/
def LOp.on (i : ℕ) : LOp → Option POp
  | .PSF j => if j = i then some .readPSF else none
  | .OTF j => if j = i then some .readOTF else none
  | .modelPsf j => if j = i then some .readModelPsf else none
  | _ => none

/-- What a single thread sees that makes this one read in the memory `w`: see `Micro.pstep`, `HObj.step` and
`SObj.step` of the sequential model. -/
noncomputable def LOp.single (w : Lab) : LOp → LSeen
  | .PSF i => .exact ((w.micro i).pstep .readPSF).1
  | .OTF i => .exact ((w.micro i).pstep .readOTF).1
  | .modelPsf i => .exact ((w.micro i).pstep .readModelPsf).1
  | .hanser i r => .exact (HObj.step (w.hans i).obj r.toHOp).1
  | .sheppard i r => .partly (SObj.step (w.shep i).obj r.toSOp).1

/-- One read, access by access. -/
noncomputable def labReadT (I : LabImpl) : LOp → Prog Lab LabLock LSeen
  | .PSF i => Prog.bind (microPSFT I i) fun r => .ret (.exact (r.map .real))
  | .OTF i => Prog.bind (microOTFT I i) fun r => .ret (.exact (r.map .cplx))
  | .modelPsf i => Prog.bind (microModelPsfT I i) fun r => .ret (.exact (r.map .real))
  | .hanser i r => Prog.bind (hanser (readT I.h i r)) fun r => .ret (.exact r)
  | .sheppard i r => Prog.bind (sheppard (sReadT I.s i r)) fun r => .ret (.partly r)

/-- A thread that makes a list of reads and records what each returned or raised. -/
noncomputable def labThreadT (I : LabImpl) : List LOp → Prog Lab LabLock (List LSeen)
  | [] => .ret []
  | q :: qs => Prog.bind (labReadT I q) fun r => Prog.bind (labThreadT I qs) fun rs => .ret (r :: rs)

/-! ## Values and effects of reads in a frame -/

/-- The value of a read. -/
noncomputable def Frame.value (F : Frame) : LOp → LSeen
  | .PSF i => .exact ((F.PSF i).map .real)
  | .OTF i => .exact ((F.OTF i).map .cplx)
  | .modelPsf i => .exact ((F.spec i).modelPsf.map .real)
  | .hanser i r => .exact ((F.hans i).step r.toHOp).1
  | .sheppard i r => .partly (SSpec.step (F.shep i) r.toSOp).1

/-- The read is allowed to store what it stores. -/
def Frame.Allows (F : Frame) : LOp → Prop
  | .PSF i => F.mayPSF i
  | .OTF i => F.mayOTF i ∧ ((F.mics i).otf = none → F.mayPSF i)
  | _ => True

/-- What the read has stored. -/
def Frame.Done (F : Frame) (v : Lab) : LOp → Prop
  | .PSF i => (∃ a, F.PSF i = .ok a) → (v.mics i).psf.isSome
  | .OTF i => (∃ t, F.OTF i = .ok t) → (v.mics i).otf.isSome
  | _ => True

theorem Frame.Done.later {F : Frame} {v u : Lab} {op : LOp} (h : F.Done v op) (hle : LabLe F v u) : F.Done u op := by
  cases op with
  | PSF i => exact fun ha => (hle.mics i).1 (h ha)
  | OTF i => exact fun ha => (hle.mics i).2 (h ha)
  | modelPsf => trivial
  | hanser => trivial
  | sheppard => trivial

theorem lsafe_read (I : LabImpl) {F : Frame} {op : LOp} {w : Lab} (hI : LabInv F w) (ha : F.Allows op) :
    Prog.Safe (LabInv F) (LabLe F) (fun v r => r = F.value op ∧ F.Done v op) (labReadT I op) w := by
  cases op with
  | PSF i =>
    refine Prog.Safe.bind (labLe_trans F) (labLe_refl F) (lsafe_psf I i ha) ?_ hI
    rintro r v ⟨rfl, h⟩ _ -
    exact fun u hu _ => ⟨rfl, fun h' => (hu.mics i).1 (h h')⟩
  | OTF i =>
    refine Prog.Safe.bind (labLe_trans F) (labLe_refl F) (lsafe_otf I i ha.1 ha.2) ?_ hI
    rintro r v ⟨rfl, h⟩ _ -
    exact fun u hu _ => ⟨rfl, fun h' => (hu.mics i).2 (h h')⟩
  | modelPsf i =>
    refine Prog.Safe.bind (labLe_trans F) (labLe_refl F) (lsafe_modelPsf I i hI) ?_ hI
    rintro r v rfl _ -
    exact fun u hu _ => ⟨rfl, trivial⟩
  | hanser i r =>
    refine Prog.Safe.bind (labLe_trans F) (labLe_refl F)
      (lsafe_hanser (Q := fun x => x = ((F.hans i).step r.toHOp).1) (tsafe_read I.h i r hI.hans)) ?_ hI
    rintro r v rfl _ -
    exact fun u hu _ => ⟨rfl, trivial⟩
  | sheppard i r =>
    refine Prog.Safe.bind (labLe_trans F) (labLe_refl F)
      (lsafe_sheppard (Q := fun x => x = (SSpec.step (F.shep i) r.toSOp).1) ((ssafe_read I.s i r hI.shep).imp fun _ _ h => h.1)) ?_ hI
    rintro r v rfl _ -
    exact fun u hu _ => ⟨rfl, trivial⟩

theorem lsafe_thread (I : LabImpl) {F : Frame} (qs : List LOp) {w : Lab} (hI : LabInv F w) (ha : ∀ q ∈ qs, F.Allows q) :
    Prog.Safe (LabInv F) (LabLe F) (fun v rs => rs = qs.map F.value ∧ ∀ q ∈ qs, F.Done v q) (labThreadT I qs) w := by
  induction qs generalizing w with
  | nil => exact fun _ _ _ => ⟨rfl, by simp⟩
  | cons q qs ih =>
    unfold labThreadT
    refine Prog.Safe.bind (labLe_trans F) (labLe_refl F) (lsafe_read I hI (ha q (by simp))) ?_ hI
    rintro r v1 ⟨rfl, h1⟩ hI1 _
    refine Prog.Safe.bind (labLe_trans F) (labLe_refl F) (ih hI1 fun q' hq' => ha q' (by simp [hq'])) ?_ hI1
    rintro rs v2 ⟨rfl, h2⟩ _ l2
    refine fun u hu _ => ⟨rfl, fun q' hq' => ?_⟩
    rcases List.mem_cons.mp hq' with rfl | hq'
    · exact h1.later (labLe_trans F _ _ _ l2 hu)
    · exact (h2 q' hq').later hu

/-! ## The sequential microscope -/

theorem psfValue_toOption (x : Option (Arr ℝ)) (s : MSpec) : psfValue (psfValue x s).toOption s = psfValue x s := by
  rcases x with _ | a
  · simp only [psfValue]
    rcases s.PSF with e | b <;> rfl
  · rfl

theorem otfValue_congr {x x' : Option (Arr ℝ)} (y : Option (Arr ℂ)) {s : MSpec} (h : psfValue x s = psfValue x' s) :
    otfValue x y s = otfValue x' y s := by
  rcases y with _ | t
  · simp only [otfValue, h]
  · rfl

theorem otfValue_toOption (x : Option (Arr ℝ)) (y : Option (Arr ℂ)) (s : MSpec) :
    otfValue x (otfValue x y s).toOption s = otfValue x y s := by
  rcases y with _ | t
  · simp only [otfValue]
    rcases psfValue x s with e | b <;> rfl
  · rfl

theorem seq_PSF {m : Micro} {s : MSpec} (h : MLive m s) : (Micro.getPSF m).1 = psfValue m.psf s ∧ MLive (Micro.getPSF m).2 s ∧
    (Micro.getPSF m).2.psf = (psfValue m.psf s).toOption ∧ (Micro.getPSF m).2.otf = m.otf := by
  refine ⟨?_, (live_of_read h).1, ?_⟩
  all_goals
    rw [getPSF_run]
    rcases hp : m.psf with _ | a
  rotate_left
  · rfl
  rotate_left
  · exact ⟨hp, rfl⟩
  all_goals
    obtain ⟨h1, h2⟩ := computes_modelPsf s m h
    have hk := keeps_modelPsf m
    have es : psfValue none s = s.modelPsf.bind fun a => microPsf (pyInt m.oversample) (pyInt m.psfParams.size).toNat a := by
      rw [h.oversample, h.psfParams]; rfl
    rcases hm : Micro.modelPsf m with ⟨e | a, m'⟩
    all_goals
      rw [hm] at h1 h2 hk
      have k1 : m'.psf = m.psf := hk.1
      have k2 : m'.otf = m.otf := hk.2.1
      rw [es, ← h1]
  · rfl
  · simp only [Except.bind]
    rcases microPsf (pyInt m.oversample) (pyInt m.psfParams.size).toNat a with e | b <;> rfl
  · exact ⟨k1.trans hp, k2⟩
  · simp only [Except.bind]
    rcases microPsf (pyInt m.oversample) (pyInt m.psfParams.size).toNat a with e | b
    · exact ⟨k1.trans hp, k2⟩
    · exact ⟨rfl, k2⟩

theorem seq_OTF {m : Micro} {s : MSpec} (h : MLive m s) : (Micro.getOTF m).1 = otfValue m.psf m.otf s ∧ MLive (Micro.getOTF m).2 s ∧
    (Micro.getOTF m).2.psf = (if m.otf = none then (psfValue m.psf s).toOption else m.psf) ∧
    (Micro.getOTF m).2.otf = (otfValue m.psf m.otf s).toOption := by
  obtain ⟨h1, h2, h3, h4⟩ := seq_PSF h
  refine ⟨?_, (live_of_read h).2, ?_⟩
  all_goals
    rw [getOTF_run]
    rcases hp : m.otf with _ | t
  rotate_left
  · rfl
  rotate_left
  · exact ⟨rfl, hp⟩
  all_goals
    rcases hm : Micro.getPSF m with ⟨e | a, m'⟩
    all_goals
      rw [hm] at h1 h3 h4
      simp only [otfValue, ← h1, if_true]
  · rfl
  · rfl
  · exact ⟨by rw [show m'.psf = _ from h3, ← h1], h4.trans hp⟩
  · exact ⟨by rw [show m'.psf = _ from h3, ← h1], rfl⟩

/-- Two microscopes of the same configuration whose outputs have the same values. -/
structure SameValues (m m' : Micro) (s : MSpec) : Prop where
  live : MLive m s
  live' : MLive m' s
  psf : psfValue m.psf s = psfValue m'.psf s
  otf : otfValue m.psf m.otf s = otfValue m'.psf m'.otf s

theorem read_eq {m m' : Micro} {s : MSpec} (h : MLive m s) (h' : MLive m' s) (a : Micro.MAttr) : m.read a = m'.read a := by
  rw [Micro.read, Micro.read, h.oversample, h'.oversample, krel_read h.kind, krel_read h'.kind]

theorem set_same_caches {m m' : Micro} {s : MSpec} (h : MLive m s) (h' : MLive m' s) (a : Micro.MAttr) (v : PyVal) :
    (Micro.set a v m).1 = (Micro.set a v m').1 ∧
    (((Micro.set a v m).2.psf = none ∧ (Micro.set a v m).2.otf = none ∧ (Micro.set a v m').2.psf = none ∧ (Micro.set a v m').2.otf = none) ∨
      ((Micro.set a v m).2 = m ∧ (Micro.set a v m').2 = m' ∧ (s.set a v).2 = s)) := by
  refine ⟨by rw [(pset h a v).1, (pset h' a v).1], ?_⟩
  have hr : m.read a = Micro.readAttr a s.oversample s.kind := by
    rw [Micro.read, h.oversample]; exact krel_read h.kind a _
  have hr' : m'.read a = Micro.readAttr a s.oversample s.kind := by
    rw [Micro.read, h'.oversample]; exact krel_read h'.kind a _
  rw [set_run, set_run, hr, hr', MSpec.set]
  rcases Micro.readAttr a s.oversample s.kind with _ | old
  · exact .inr ⟨rfl, rfl, rfl⟩
  · simp only []
    rcases numericSet (Micro.vartype a) old v with e | _ | w
    · exact .inr ⟨rfl, rfl, rfl⟩
    · exact .inr ⟨rfl, rfl, rfl⟩
    · exact .inl ⟨rfl, rfl, rfl, rfl⟩

theorem SameValues.step {m m' : Micro} {s : MSpec} (h : SameValues m m' s) (op : POp) :
    (m.pstep op).1 = (m'.pstep op).1 ∧ ∃ s', SameValues (m.pstep op).2 (m'.pstep op).2 s' := by
  cases op with
  | set a v =>
    obtain ⟨h1, h2⟩ := set_same_caches h.live h.live' a v
    refine ⟨by simp only [Micro.pstep, outAs, h1], (s.set a v).2, (pset h.live a v).2.1, (pset h.live' a v).2.1, ?_, ?_⟩
    · simp only [Micro.pstep, outAs]
      rcases h2 with ⟨e1, -, e3, -⟩ | ⟨e1, e2, e3⟩
      · rw [e1, e3]
      · rw [e1, e2, e3]; exact h.psf
    · simp only [Micro.pstep, outAs]
      rcases h2 with ⟨e1, e2, e3, e4⟩ | ⟨e1, e2, e3⟩
      · rw [e1, e2, e3, e4]
      · rw [e1, e2, e3]; exact h.otf
  | readPSF =>
    obtain ⟨a1, a2, a3, a4⟩ := seq_PSF h.live
    obtain ⟨b1, b2, b3, b4⟩ := seq_PSF h.live'
    refine ⟨by simp only [Micro.pstep, outAs, a1, b1, h.psf], s, a2, b2, ?_, ?_⟩
    · simp only [Micro.pstep, outAs, a3, b3, psfValue_toOption, h.psf]
    · simp only [Micro.pstep, outAs, a3, b3, a4, b4]
      rw [otfValue_congr _ (psfValue_toOption m.psf s), otfValue_congr _ (psfValue_toOption m'.psf s), h.otf]
  | readOTF =>
    obtain ⟨a1, a2, a3, a4⟩ := seq_OTF h.live
    obtain ⟨b1, b2, b3, b4⟩ := seq_OTF h.live'
    have key : ∀ (x : Option (Arr ℝ)) (y : Option (Arr ℂ)), psfValue (if y = none then (psfValue x s).toOption else x) s = psfValue x s := by
      intro x y
      split_ifs
      · exact psfValue_toOption x s
      · rfl
    refine ⟨by simp only [Micro.pstep, outAs, a1, b1, h.otf], s, a2, b2, ?_, ?_⟩
    · simp only [Micro.pstep, outAs]; rw [a3, b3, key, key, h.psf]
    · simp only [Micro.pstep, outAs, a3, b3, a4, b4]
      rw [otfValue_congr _ (key m.psf m.otf), otfValue_congr _ (key m'.psf m'.otf), otfValue_toOption, otfValue_toOption, h.otf]
  | readModelPsf =>
    obtain ⟨a1, a2⟩ := computes_modelPsf s m h.live
    obtain ⟨b1, b2⟩ := computes_modelPsf s m' h.live'
    have ka := keeps_modelPsf m
    have kb := keeps_modelPsf m'
    refine ⟨by simp only [Micro.pstep, outAs, a1, b1], s, a2, b2, ?_, ?_⟩
    · simp only [Micro.pstep, outAs]; rw [ka.1, kb.1]; exact h.psf
    · simp only [Micro.pstep, outAs]; rw [ka.1, kb.1, ka.2.1, kb.2.1]; exact h.otf

theorem SameValues.run {m m' : Micro} {s : MSpec} (h : SameValues m m' s) (ops : List POp) :
    (runHistory Micro.pstep m ops).1 = (runHistory Micro.pstep m' ops).1 := by
  induction ops generalizing m m' s with
  | nil => rfl
  | cons op ops ih =>
    obtain ⟨h1, s', h2⟩ := h.step op
    simp only [runHistory]
    rw [h1, ih h2]

/-- Two microscopes of the same configuration with the same caches answer everything alike. -/
theorem ustep_same {m m' : Micro} {s : MSpec} (h : MLive m s) (h' : MLive m' s) (hp : m.psf = m'.psf) (ho : m.otf = m'.otf) (op : UOp) :
    (m.ustep op).1 = (m'.ustep op).1 ∧ (m.ustep op).2.psf = (m'.ustep op).2.psf ∧ (m.ustep op).2.otf = (m'.ustep op).2.otf := by
  cases op with
  | p op =>
    refine ⟨((SameValues.mk h h' (by rw [hp]) (by rw [hp, ho])).step op).1, ?_⟩
    cases op with
    | set a v =>
      simp only [Micro.ustep, Micro.pstep, outAs]
      rcases (set_same_caches h h' a v).2 with ⟨e1, e2, e3, e4⟩ | ⟨e1, e2, -⟩
      · rw [e1, e2, e3, e4]; exact ⟨rfl, rfl⟩
      · rw [e1, e2]; exact ⟨hp, ho⟩
    | readPSF =>
      obtain ⟨-, -, a3, a4⟩ := seq_PSF h
      obtain ⟨-, -, b3, b4⟩ := seq_PSF h'
      simp only [Micro.ustep, Micro.pstep, outAs]
      rw [a3, a4, b3, b4, hp, ho]; exact ⟨rfl, rfl⟩
    | readOTF =>
      obtain ⟨-, -, a3, a4⟩ := seq_OTF h
      obtain ⟨-, -, b3, b4⟩ := seq_OTF h'
      simp only [Micro.ustep, Micro.pstep, outAs]
      rw [a3, a4, b3, b4, hp, ho]; exact ⟨rfl, rfl⟩
    | readModelPsf =>
      have ka := keeps_modelPsf m
      have kb := keeps_modelPsf m'
      simp only [Micro.ustep, Micro.pstep, outAs]
      rw [ka.1, kb.1, ka.2.1, kb.2.1]; exact ⟨hp, ho⟩
  | wiener w => exact ⟨rfl, hp, ho⟩
  | orientations o => exact ⟨rfl, hp, ho⟩
  | model op => exact ⟨rfl, hp, ho⟩
  | excModel op => exact ⟨rfl, hp, ho⟩

theorem urun_same {m m' : Micro} {s : MSpec} (h : MLive m s) (h' : MLive m' s) (hp : m.psf = m'.psf) (ho : m.otf = m'.otf) (ops : List UOp) :
    (runHistory Micro.ustep m ops).1 = (runHistory Micro.ustep m' ops).1 := by
  induction ops generalizing m m' s with
  | nil => rfl
  | cons op ops ih =>
    obtain ⟨h1, h2, h3⟩ := ustep_same h h' hp ho op
    simp only [runHistory]
    rw [h1, ih (ustep_live h op) (ustep_live h' op) h2 h3]

end PyOTF
