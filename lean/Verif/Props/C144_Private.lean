import Verif.Model.PrivateMicro
import Verif.Lemmas.RelyGuarantee
import Verif.Props.C142_Locks

/-!
# C144: microscopes of one's own
-/

namespace PyOTF

open LTM

/-! ## Frames -/

/-- Everything that is fixed, with the microscopes `M`; everything may be stored. -/
def openFrame (hs : ℕ → HSpec) (sp : ℕ → Params) (M : ℕ → MCell) : Frame := ⟨M, hs, sp, fun _ => True, fun _ => True⟩

section

variable {hs : ℕ → HSpec} {sp : ℕ → Params} {M M' : ℕ → MCell}

theorem open_values {i : ℕ} (e : M i = M' i) : (openFrame hs sp M').spec i = (openFrame hs sp M).spec i ∧
    (openFrame hs sp M').PSF i = (openFrame hs sp M).PSF i ∧ (openFrame hs sp M').OTF i = (openFrame hs sp M).OTF i := by
  have e1 : (openFrame hs sp M').spec i = (openFrame hs sp M).spec i := by simp only [Frame.spec, openFrame, ← e]; rfl
  have e2 : (openFrame hs sp M').PSF i = (openFrame hs sp M).PSF i := by
    simp only [Frame.PSF, e1]; simp only [openFrame, e]
  have e3 : (openFrame hs sp M').OTF i = (openFrame hs sp M).OTF i := by
    simp only [Frame.OTF, e1]; simp only [openFrame, e]
  exact ⟨e1, e2, e3⟩

theorem open_value {q : LOp} (e : ∀ i, q.on i ≠ none → M i = M' i) : (openFrame hs sp M').value q = (openFrame hs sp M).value q := by
  cases q with
  | PSF i => simp only [Frame.value, (open_values (hs := hs) (sp := sp) (e i (by simp [LOp.on]))).2.1]
  | OTF i => simp only [Frame.value, (open_values (hs := hs) (sp := sp) (e i (by simp [LOp.on]))).2.2]
  | modelPsf i => simp only [Frame.value, (open_values (hs := hs) (sp := sp) (e i (by simp [LOp.on]))).1]
  | hanser => rfl
  | sheppard => rfl

theorem cellOK_congr {i : ℕ} {c : MCell} (h : CellOK (openFrame hs sp M) i c) (e : M i = M' i) : CellOK (openFrame hs sp M') i c := by
  obtain ⟨e1, e2, e3⟩ := open_values (hs := hs) (sp := sp) e
  have em : (openFrame hs sp M').mics i = (openFrame hs sp M).mics i := e.symm
  constructor
  · rw [em]; exact h.cfg
  · rw [e2]; exact h.psf
  · rw [e3]; exact h.otf
  · rw [em]; exact h.psf0
  · rw [em]; exact h.otf0
  · exact fun _ => .inr trivial
  · exact fun _ => .inr trivial
  · rw [em]; exact h.both

theorem cellOK_self (i : ℕ) : CellOK (openFrame hs sp M) i (M i) where
  cfg := rfl
  psf := fun a ha => by simp only [Frame.PSF, openFrame, ha, psfValue]
  otf := fun a ha => by simp only [Frame.OTF, openFrame, ha, otfValue]
  psf0 := id
  otf0 := id
  mayPSF := .inl
  mayOTF := .inl
  both := .inl

end

/-! ## Rely and guarantee -/

/-- Models and microscopes without an owner are as in `M`. -/
structure PInv (hs : ℕ → HSpec) (sp : ℕ → Params) (owner : ℕ → Option ℕ) (M : ℕ → MCell) (w : Lab) : Prop where
  hans : TInv hs w.hans
  shep : SInv sp (fun _ => False) w.shep
  mics : ∀ i, owner i = none → CellOK (openFrame hs sp M) i (w.mics i)

/-- Nobody else changes the microscopes of thread `j`. -/
structure PRely (hs : ℕ → HSpec) (sp : ℕ → Params) (owner : ℕ → Option ℕ) (j : ℕ) (w v : Lab) : Prop where
  hans : heapLe hs w.hans v.hans
  shep : sLe sp w.shep v.shep
  mics : ∀ i, owner i = none → CellLe (w.mics i) (v.mics i)
  own : ∀ i, owner i = some j → v.mics i = w.mics i

/-- Thread `j` does not change the microscopes of others. -/
structure PGuar (hs : ℕ → HSpec) (sp : ℕ → Params) (owner : ℕ → Option ℕ) (j : ℕ) (w v : Lab) : Prop where
  hans : heapLe hs w.hans v.hans
  shep : sLe sp w.shep v.shep
  mics : ∀ i, owner i = none → CellLe (w.mics i) (v.mics i)
  others : ∀ i, ¬(owner i = none ∨ owner i = some j) → v.mics i = w.mics i

section

variable {hs : ℕ → HSpec} {sp : ℕ → Params} {owner : ℕ → Option ℕ} {M M0 : ℕ → MCell} {j : ℕ} {α β : Type}

theorem prely_refl (w : Lab) : PRely hs sp owner j w w := ⟨heapLe_refl _ _, sLe_refl _ _, fun _ _ => ⟨id, id⟩, fun _ _ => rfl⟩

theorem prely_trans (a b c : Lab) (h : PRely hs sp owner j a b) (h' : PRely hs sp owner j b c) : PRely hs sp owner j a c :=
  ⟨heapLe_trans _ _ _ _ h.hans h'.hans, sLe_trans _ _ _ _ h.shep h'.shep,
    fun i hi => ⟨fun hp => (h'.mics i hi).1 ((h.mics i hi).1 hp), fun hp => (h'.mics i hi).2 ((h.mics i hi).2 hp)⟩,
    fun i hi => (h'.own i hi).trans (h.own i hi)⟩

theorem rely_of_guar {i : ℕ} (hij : j ≠ i) (w v : Lab) (h : PGuar hs sp owner i w v) : PRely hs sp owner j w v :=
  ⟨h.hans, h.shep, h.mics, fun k hk => h.others k (by rw [hk]; simp [hij])⟩

/-- The memory as thread `j` sees it: the microscopes of others are as in `M`. -/
def seenBy (owner : ℕ → Option ℕ) (j : ℕ) (M : ℕ → MCell) (w : Lab) : Lab :=
  { w with mics := fun i => if owner i = none ∨ owner i = some j then w.mics i else M i }

theorem seenBy_agree (w : Lab) : Agree (fun i => owner i = none ∨ owner i = some j) (seenBy owner j M w) w :=
  ⟨rfl, rfl, fun i hi => by simp only [seenBy, if_pos hi]⟩

theorem seenBy_inv {w : Lab} (h : PInv hs sp owner M0 w) (hM : ∀ i, owner i = none → M i = M0 i)
    (ho : ∀ i, owner i = some j → CellOK (openFrame hs sp M) i (w.mics i)) : LabInv (openFrame hs sp M) (seenBy owner j M w) := by
  refine ⟨h.hans, h.shep, fun i => ?_⟩
  simp only [seenBy]
  split_ifs with hi
  · rcases hi with hi | hi
    · exact cellOK_congr (h.mics i hi) (hM i hi).symm
    · exact ho i hi
  · exact cellOK_self i

/-- A thread that is safe when nobody touches its microscopes. -/
theorem rg_of_safe (hM : ∀ i, owner i = none → M i = M0 i) {Q : α → Prop} {p : Prog Lab LabLock α}
    (hs' : p.Stays (fun i => owner i = none ∨ owner i = some j)) {s0 : Lab}
    (ho : ∀ i, owner i = some j → CellOK (openFrame hs sp M) i (s0.mics i))
    (h : p.Safe (LabInv (openFrame hs sp M)) (LabLe (openFrame hs sp M)) (fun _ => Q) (seenBy owner j M s0)) :
    p.SafeRG (PInv hs sp owner M0) (PRely hs sp owner j) (PGuar hs sp owner j)
      (fun s a => Q a ∧ ∀ i, owner i = some j → CellOK (openFrame hs sp M) i (s.mics i)) s0 := by
  have inv : ∀ {s0 s : Lab}, (∀ i, owner i = some j → CellOK (openFrame hs sp M) i (s0.mics i)) → PRely hs sp owner j s0 s →
      PInv hs sp owner M0 s → LabInv (openFrame hs sp M) (seenBy owner j M s) := by
    intro s0 s ho hr hI
    exact seenBy_inv hI hM fun i hi => by rw [hr.own i hi]; exact ho i hi
  have le : ∀ {s0 s : Lab}, PRely hs sp owner j s0 s → LabLe (openFrame hs sp M) (seenBy owner j M s0) (seenBy owner j M s) := by
    intro s0 s hr
    refine ⟨hr.hans, hr.shep, fun i => ?_⟩
    simp only [seenBy]
    split_ifs with hi
    · rcases hi with hi | hi
      · exact hr.mics i hi
      · rw [hr.own i hi]; exact ⟨id, id⟩
    · exact ⟨id, id⟩
  induction p generalizing s0 with
  | ret a =>
    intro s hr hI
    exact ⟨h _ (le hr) (inv ho hr hI), fun i hi => by rw [hr.own i hi]; exact ho i hi⟩
  | act st k ih =>
    intro s hr hI
    obtain ⟨h1, h2, h3⟩ := h _ (le hr) (inv ho hr hI)
    obtain ⟨a1, a2⟩ := hs'.1 _ _ (seenBy_agree (owner := owner) (j := j) (M := M) s)
    have e : st (seenBy owner j M s) = seenBy owner j M (st s) := by
      have hm : (st (seenBy owner j M s)).mics = (seenBy owner j M (st s)).mics := by
        funext i
        by_cases hi : owner i = none ∨ owner i = some j
        · rw [a1.2.2 i hi]; simp only [seenBy, if_pos hi]
        · rw [hs'.2.1 _ i hi]; simp only [seenBy, if_neg hi]
      rcases hst : st (seenBy owner j M s) with ⟨x, y, z⟩
      rw [hst] at a1 hm
      obtain ⟨rfl, rfl, -⟩ := a1
      cases hm
      rfl
    rw [e, a2] at h3
    rw [e] at h1 h2
    have vis : ∀ i, (owner i = none ∨ owner i = some j) → (seenBy owner j M (st s)).mics i = (st s).mics i :=
      fun i hi => by simp only [seenBy, if_pos hi]
    have vis' : ∀ i, (owner i = none ∨ owner i = some j) → (seenBy owner j M s).mics i = s.mics i :=
      fun i hi => by simp only [seenBy, if_pos hi]
    refine ⟨⟨h1.hans, h1.shep, fun i hi => ?_⟩, ⟨h2.hans, h2.shep, fun i hi => ?_, fun i hi => hs'.2.1 _ i hi⟩, ?_⟩
    · rw [← vis i (.inl hi)]; exact cellOK_congr (h1.mics i) (hM i hi)
    · rw [← vis i (.inl hi), ← vis' i (.inl hi)]; exact h2.mics i
    · exact ih s (hs'.2.2 s) (fun i hi => by rw [← vis i (.inr hi)]; exact h1.mics i) h3
  | lock l k ih => exact ih hs' ho h
  | unlock l k ih => exact ih hs' ho h

/-! ## Assignments -/

/-- What an assignment makes of the `__dict__` of a microscope. -/
def setCell (b : Micro.MAttr) (v : PyVal) (c : MCell) : Py Unit × MCell :=
  match Micro.readAttr b c.cfg.oversample c.cfg.kind with
  | none => (.ok (), c)
  | some old =>
    match numericSet (Micro.vartype b) old v with
    | .error e => (.error e, c)
    | .ok none => (.ok (), c)
    | .ok (some x) => (.ok (), ⟨{ c.cfg with
        oversample := (Micro.writeAttr b x c.cfg.oversample c.cfg.kind).1
        kind := (Micro.writeAttr b x c.cfg.oversample c.cfg.kind).2 }, none, none⟩)

/-- Access to one's own microscope. -/
theorem rg_own {i : ℕ} (hi : owner i = some j) {f : MCell → MCell} {s0 : Lab} :
    (wr i f).SafeRG (PInv hs sp owner M0) (PRely hs sp owner j) (PGuar hs sp owner j)
      (fun s r => r = .ok () ∧ s.mics i = f (s0.mics i) ∧ ∀ k, owner k = some j → k ≠ i → s.mics k = s0.mics k) s0 := by
  intro s hr hI
  have ne : ∀ k, owner k = none → k ≠ i := by rintro k hk rfl; rw [hi] at hk; cases hk
  refine ⟨⟨hI.hans, hI.shep, fun k hk => ?_⟩, ⟨heapLe_refl _ _, sLe_refl _ _, fun k hk => ?_, fun k hk => ?_⟩, fun u hu _ => ⟨rfl, ?_, fun k hk hne => ?_⟩⟩
  · simpa only [Function.update_of_ne (ne k hk)] using hI.mics k hk
  · simp only [Function.update_of_ne (ne k hk)]; exact ⟨id, id⟩
  · exact Function.update_of_ne (by rintro rfl; exact hk (.inr hi)) _ _
  · rw [hu.own i hi]; simp only [Function.update_self]; rw [hr.own i hi]
  · rw [hu.own k hk]; simp only [Function.update_of_ne hne]; rw [hr.own k hk]

theorem rg_set {i : ℕ} (hi : owner i = some j) (b : Micro.MAttr) (v : PyVal) {s0 : Lab} :
    (microSetT i b v).SafeRG (PInv hs sp owner M0) (PRely hs sp owner j) (PGuar hs sp owner j)
      (fun s r => r = (setCell b v (s0.mics i)).1 ∧ s.mics i = (setCell b v (s0.mics i)).2 ∧
        ∀ k, owner k = some j → k ≠ i → s.mics k = s0.mics k) s0 := by
  intro s hr hI
  refine ⟨hI, ⟨heapLe_refl _ _, sLe_refl _ _, fun _ _ => ⟨id, id⟩, fun _ _ => rfl⟩, ?_⟩
  have e := hr.own i hi
  have eo : ∀ k, owner k = some j → k ≠ i → s.mics k = s0.mics k := fun k hk _ => hr.own k hk
  simp only [Prog.bind, id, setCell, e]
  rcases hro : Micro.readAttr b (s0.mics i).cfg.oversample (s0.mics i).cfg.kind with _ | old
  · exact fun u hu _ => ⟨rfl, (hu.own i hi).trans e, fun k hk hne => (hu.own k hk).trans (eo k hk hne)⟩
  simp only
  rcases hn : numericSet (Micro.vartype b) old v with x | _ | x
  · exact fun u hu _ => ⟨rfl, (hu.own i hi).trans e, fun k hk hne => (hu.own k hk).trans (eo k hk hne)⟩
  · exact fun u hu _ => ⟨rfl, (hu.own i hi).trans e, fun k hk hne => (hu.own k hk).trans (eo k hk hne)⟩
  simp only
  refine Prog.SafeRG.bind prely_refl (rg_own hi) ?_ hI
  rintro r s1 ⟨rfl, a1, a2⟩ hI1
  refine Prog.SafeRG.bind prely_refl (rg_own hi) ?_ hI1
  rintro r s2 ⟨rfl, b1, b2⟩ hI2
  refine (rg_own hi).imp ?_
  rintro s3 r ⟨rfl, c1, c2⟩
  refine ⟨rfl, ?_, fun k hk hne => ?_⟩
  · rw [c1, b1, a1, e]
  · rw [c2 k hk hne, b2 k hk hne, a2 k hk hne, eo k hk hne]

theorem setCell_ok {i : ℕ} {c : MCell} (h : CellOK (openFrame hs sp M) i c) (b : Micro.MAttr) (v : PyVal) :
    (setCell b v c).1 = (setCell b v (M i)).1 ∧
    CellOK (openFrame hs sp (Function.update M i (setCell b v (M i)).2)) i (setCell b v c).2 := by
  have hc : c.cfg = (M i).cfg := h.cfg
  have same : ∀ d, d = M i → CellOK (openFrame hs sp (Function.update M i d)) i c := by
    rintro d rfl; exact cellOK_congr h (by simp)
  simp only [setCell, hc]
  rcases Micro.readAttr b (M i).cfg.oversample (M i).cfg.kind with _ | old
  · exact ⟨rfl, same _ rfl⟩
  simp only
  rcases numericSet (Micro.vartype b) old v with x | _ | x
  · exact ⟨rfl, same _ rfl⟩
  · exact ⟨rfl, same _ rfl⟩
  · refine ⟨rfl, ?_⟩
    have := cellOK_self (hs := hs) (sp := sp) (M := Function.update M i ⟨{ (M i).cfg with
        oversample := (Micro.writeAttr b x (M i).cfg.oversample (M i).cfg.kind).1
        kind := (Micro.writeAttr b x (M i).cfg.oversample (M i).cfg.kind).2 }, none, none⟩) i
    simpa only [Function.update_self] using this

/-! ## Calls -/

/-- The effect of a call on the microscopes, apart from what reads store. -/
noncomputable def LCall.effect (hs : ℕ → HSpec) (sp : ℕ → Params) (M : ℕ → MCell) : LCall → LSeen × (ℕ → MCell)
  | .read q => ((openFrame hs sp M).value q, M)
  | .set i b v => (.exact ((setCell b v (M i)).1.map fun _ => .done), Function.update M i (setCell b v (M i)).2)

theorem effect_shared {c : LCall} (ha : c.Allowed owner j) (hM : ∀ i, owner i = none → M i = M0 i) :
    ∀ i, owner i = none → (c.effect hs sp M).2 i = M0 i := by
  intro i hi
  cases c with
  | read q => exact hM i hi
  | set k b v =>
    have : i ≠ k := by rintro rfl; rw [show owner i = some j from ha] at hi; cases hi
    simp only [LCall.effect, Function.update_of_ne this, hM i hi]

theorem rg_call (I : LabImpl) {c : LCall} (ha : c.Allowed owner j) (hM : ∀ i, owner i = none → M i = M0 i) {s0 : Lab}
    (hI : PInv hs sp owner M0 s0) (ho : ∀ i, owner i = some j → CellOK (openFrame hs sp M) i (s0.mics i)) :
    (labCallT I c).SafeRG (PInv hs sp owner M0) (PRely hs sp owner j) (PGuar hs sp owner j)
      (fun s r => r = (c.effect hs sp M).1 ∧ ∀ i, owner i = some j → CellOK (openFrame hs sp (c.effect hs sp M).2) i (s.mics i)) s0 := by
  cases c with
  | read q =>
    refine rg_of_safe (Q := fun r => r = (openFrame hs sp M).value q) hM (stays_read I ha) ho ?_
    refine (lsafe_read I (seenBy_inv hI hM ho) ?_).imp fun _ _ h => h.1
    cases q with
    | PSF => trivial
    | OTF => exact ⟨trivial, fun _ => trivial⟩
    | modelPsf => trivial
    | hanser => trivial
    | sheppard => trivial
  | set i b v =>
    refine Prog.SafeRG.bind prely_refl (rg_set ha b v) ?_ hI
    rintro r s1 ⟨rfl, h1, h2⟩ hI1
    intro s hr _
    obtain ⟨e1, e2⟩ := setCell_ok (ho i ha) b v
    refine ⟨by simp only [LCall.effect, e1], fun k hk => ?_⟩
    rw [hr.own k hk]
    by_cases hne : k = i
    · subst hne; rw [h1]; exact e2
    · rw [h2 k hk hne]
      exact cellOK_congr (ho k hk) (by simp only [LCall.effect, Function.update_of_ne hne])

theorem rg_calls (I : LabImpl) {cs : List LCall} (ha : ∀ c ∈ cs, c.Allowed owner j) (hM : ∀ i, owner i = none → M i = M0 i) {s0 : Lab}
    (hI : PInv hs sp owner M0 s0) (ho : ∀ i, owner i = some j → CellOK (openFrame hs sp M) i (s0.mics i)) :
    (labCallsT I cs).SafeRG (PInv hs sp owner M0) (PRely hs sp owner j) (PGuar hs sp owner j)
      (fun s rs => rs = (runHistory (LCall.effect hs sp) M cs).1 ∧
        ∀ i, owner i = some j → CellOK (openFrame hs sp (runHistory (LCall.effect hs sp) M cs).2) i (s.mics i)) s0 := by
  induction cs generalizing M s0 with
  | nil => exact fun s hr _ => ⟨rfl, fun i hi => by rw [hr.own i hi]; exact ho i hi⟩
  | cons c cs ih =>
    unfold labCallsT
    refine Prog.SafeRG.bind prely_refl (rg_call I (ha c (by simp)) hM hI ho) ?_ hI
    rintro r s1 ⟨rfl, h1⟩ hI1
    refine Prog.SafeRG.bind prely_refl (ih (fun c' hc' => ha c' (by simp [hc'])) (effect_shared (ha c (by simp)) hM) hI1 h1) ?_ hI1
    rintro rs s2 ⟨rfl, h2⟩ hI2
    exact fun s hr _ => ⟨rfl, fun i hi => by rw [hr.own i hi]; exact h2 i hi⟩

end

/-! ## The sequential microscope -/

theorem SameValues.trans {m m' m'' : Micro} {s : MSpec} (h : SameValues m m' s) (h' : SameValues m' m'' s) : SameValues m m'' s :=
  ⟨h.live, h'.live', h.psf.trans h'.psf, h.otf.trans h'.otf⟩

theorem same_read {m : Micro} {s : MSpec} (h : MLive m s) {op : POp} (hr : op.IsRead) : SameValues m (m.pstep op).2 s := by
  cases op with
  | set a v => exact hr.elim
  | readPSF =>
    obtain ⟨-, a2, a3, a4⟩ := seq_PSF h
    refine ⟨h, a2, ?_, ?_⟩
    · simp only [Micro.pstep, outAs, a3, psfValue_toOption]
    · simp only [Micro.pstep, outAs, a3, a4]
      rw [otfValue_congr _ (psfValue_toOption m.psf s)]
  | readOTF =>
    obtain ⟨-, a2, a3, a4⟩ := seq_OTF h
    have key : psfValue (if m.otf = none then (psfValue m.psf s).toOption else m.psf) s = psfValue m.psf s := by
      split_ifs
      · exact psfValue_toOption _ s
      · rfl
    refine ⟨h, a2, ?_, ?_⟩
    · simp only [Micro.pstep, outAs]; rw [a3, key]
    · simp only [Micro.pstep, outAs, a3, a4]
      rw [otfValue_congr _ key, otfValue_toOption]
  | readModelPsf =>
    obtain ⟨-, a2⟩ := computes_modelPsf s m h
    have ka := keeps_modelPsf m
    refine ⟨h, a2, ?_, ?_⟩
    · simp only [Micro.pstep, outAs]; rw [ka.1]
    · simp only [Micro.pstep, outAs]; rw [ka.1, ka.2.1]

theorem setCell_micro (w : Lab) (M : ℕ → MCell) (i : ℕ) (b : Micro.MAttr) (v : PyVal) :
    (setCell b v (M i)).1 = (Micro.set b v (Lab.micro { w with mics := M } i)).1 ∧
    Lab.micro { w with mics := Function.update M i (setCell b v (M i)).2 } i = (Micro.set b v (Lab.micro { w with mics := M } i)).2 := by
  have hr : (Lab.micro { w with mics := M } i).read b = Micro.readAttr b (M i).cfg.oversample (M i).cfg.kind := readAttr_swap _ _ _ _
  rw [set_run, hr, setCell]
  rcases Micro.readAttr b (M i).cfg.oversample (M i).cfg.kind with _ | old
  · exact ⟨rfl, by simp only [Function.update_eq_self]⟩
  simp only
  rcases numericSet (Micro.vartype b) old v with x | _ | x
  · exact ⟨rfl, by simp only [Function.update_eq_self]⟩
  · exact ⟨rfl, by simp only [Function.update_eq_self]⟩
  · refine ⟨rfl, ?_⟩
    simp only [Micro.write, Lab.micro, writeAttr_swap, Function.update_self]
    rfl

section

variable {w : Lab} {spec : ℕ → HSpec} (hI : ∀ M : ℕ → MCell, LabInv (openFrame spec (fun i => (w.shep i).obj.params) M) { w with mics := M })

include hI in
theorem open_single (M : ℕ → MCell) (q : LOp) :
    (openFrame spec (fun i => (w.shep i).obj.params) M).value q = q.single { w with mics := M } := by
  cases q with
  | PSF i => exact congrArg (fun x => LSeen.exact (Except.map _ x)) (seq_PSF ((hI M).live i)).1.symm
  | OTF i => exact congrArg (fun x => LSeen.exact (Except.map _ x)) (seq_OTF ((hI M).live i)).1.symm
  | modelPsf i => exact congrArg (fun x => LSeen.exact (Except.map _ x)) (computes_modelPsf _ _ ((hI M).live i)).1.symm
  | hanser i r => exact congrArg LSeen.exact (step_rel ((hI M).hans i) r.toHOp).1.symm
  | sheppard i r => exact congrArg LSeen.partly (SObj.step_rel ((hI M).shep i).1 r.toSOp).1.symm

theorem on_single {q : LOp} {i : ℕ} {op : POp} (h : q.on i = some op) (w : Lab) : op.IsRead ∧ q.single w = .exact ((w.micro i).pstep op).1 := by
  cases q <;> simp only [LOp.on, reduceCtorEq] at h
  all_goals
    split_ifs at h with e
    cases h; subst e
    exact ⟨trivial, rfl⟩

/-- One call, as an operation on microscope `i`. -/
theorem effect_step {M : ℕ → MCell} {m : Micro} {i : ℕ} (h : ∃ s, SameValues (Lab.micro { w with mics := M } i) m s) (c : LCall)
    (hI : ∀ M : ℕ → MCell, LabInv (openFrame spec (fun i => (w.shep i).obj.params) M) { w with mics := M }) :
    match c.on i with
    | none => Lab.micro { w with mics := (c.effect spec (fun i => (w.shep i).obj.params) M).2 } i = Lab.micro { w with mics := M } i
    | some op => (c.effect spec (fun i => (w.shep i).obj.params) M).1 = .exact (m.pstep op).1 ∧
        ∃ s, SameValues (Lab.micro { w with mics := (c.effect spec (fun i => (w.shep i).obj.params) M).2 } i) (m.pstep op).2 s := by
  obtain ⟨s, h⟩ := h
  cases c with
  | read q =>
    simp only [LCall.on, LCall.effect]
    rcases hq : q.on i with _ | op
    · trivial
    · obtain ⟨h1, h2⟩ := on_single hq { w with mics := M }
      simp only
      rw [open_single hI, h2, (h.step op).1]
      exact ⟨rfl, s, h.trans (same_read h.live' h1)⟩
  | set k b v =>
    simp only [LCall.on, LCall.effect]
    by_cases e : k = i
    · subst e
      simp only [if_true]
      obtain ⟨e1, e2⟩ := setCell_micro w M k b v
      obtain ⟨h1, h2⟩ := h.step (.set b v)
      rw [e1, e2, ← h1]
      exact ⟨rfl, h2⟩
    · simp only [if_neg e, Lab.micro, Function.update_of_ne (Ne.symm e)]
      rfl

theorem effect_run {M : ℕ → MCell} {m : Micro} {i : ℕ} (h : ∃ s, SameValues (Lab.micro { w with mics := M } i) m s) (cs : List LCall)
    (hI : ∀ M : ℕ → MCell, LabInv (openFrame spec (fun i => (w.shep i).obj.params) M) { w with mics := M }) :
    let r := runHistory (LCall.effect spec (fun i => (w.shep i).obj.params)) M cs
    ((cs.zip r.1).filter (fun p => (p.1.on i).isSome)).map Prod.snd = (runHistory Micro.pstep m (cs.filterMap (LCall.on i))).1.map .exact ∧
    ∃ s, SameValues (Lab.micro { w with mics := r.2 } i) (runHistory Micro.pstep m (cs.filterMap (LCall.on i))).2 s := by
  induction cs generalizing M m with
  | nil => exact ⟨rfl, h⟩
  | cons c cs ih =>
    have st := effect_step h c hI
    simp only [runHistory]
    rcases hc : c.on i with _ | op
    · rw [hc] at st
      simp only at st
      obtain ⟨a1, a2⟩ := ih (M := (c.effect spec (fun i => (w.shep i).obj.params) M).2) (m := m) (by rw [st]; exact h)
      simp only [List.zip_cons_cons, List.filter_cons, hc, Option.isSome_none, List.filterMap_cons]
      exact ⟨a1, a2⟩
    · rw [hc] at st
      obtain ⟨s1, s2⟩ := st
      obtain ⟨a1, a2⟩ := ih s2
      simp only [List.zip_cons_cons, List.filter_cons, hc, Option.isSome_some, if_true, List.map_cons, List.filterMap_cons, runHistory, s1]
      exact ⟨by rw [a1], a2⟩

end

/-! ## C144 -/

theorem effect_get {hs : ℕ → HSpec} {sp : ℕ → Params} {owner : ℕ → Option ℕ} {j : ℕ} {M0 : ℕ → MCell} {cs : List LCall}
    (ha : ∀ c ∈ cs, c.Allowed owner j) {M : ℕ → MCell} (hM : ∀ i, owner i = none → M i = M0 i) {k : ℕ} {q : LOp} (hq : cs[k]? = some (.read q))
    (hn : ∀ i, owner i = some j → q.on i = none) : (runHistory (LCall.effect hs sp) M cs).1[k]? = some ((openFrame hs sp M0).value q) := by
  induction cs generalizing M k with
  | nil => simp at hq
  | cons c cs ih =>
    simp only [runHistory]
    rcases k with _ | k
    · simp only [List.getElem?_cons_zero, Option.some.injEq] at hq ⊢
      subst hq
      refine open_value fun i hi => ?_
      rcases ha _ List.mem_cons_self i hi with h | h
      · exact (hM i h).symm
      · exact absurd (hn i h) hi
    · simp only [List.getElem?_cons_succ] at hq ⊢
      exact ih (fun c' hc' => ha c' (by simp [hc'])) (effect_shared (ha c (by simp)) hM) hq

theorem private_run (w : Lab) (hh : ∀ i, Lived (w.hans i).obj) (hs : ∀ i, SLived (w.shep i).obj) (owner : ℕ → Option ℕ) :
    ∃ spec : ℕ → HSpec, (∀ M : ℕ → MCell, LabInv (openFrame spec (fun i => (w.shep i).obj.params) M) { w with mics := M }) ∧
    (∀ (I : LabImpl) (j : ℕ) (cs : List LCall), (∀ c ∈ cs, c.Allowed owner j) →
      (Prog.alone (labCallsT I cs) w).1 = (runHistory (LCall.effect spec (fun i => (w.shep i).obj.params)) w.mics cs).1) ∧
    ∀ (I : LabImpl) (threads : List (List LCall)) (_ : ∀ (j : ℕ) (cs : List LCall), threads[j]? = some cs → ∀ c ∈ cs, c.Allowed owner j)
      (sched : List ℕ), let c := (Conf.start w (threads.map (labCallsT I))).run sched
    PInv spec (fun i => (w.shep i).obj.params) owner w.mics c.heap ∧
    ∀ (j : ℕ) (cs : List LCall) (rs : List LSeen), threads[j]? = some cs → c.thread[j]? = some (.ret rs) →
      rs = (runHistory (LCall.effect spec (fun i => (w.shep i).obj.params)) w.mics cs).1 ∧
      ∀ i, owner i = some j → CellOK (openFrame spec (fun i => (w.shep i).obj.params)
        (runHistory (LCall.effect spec (fun i => (w.shep i).obj.params)) w.mics cs).2) i (c.heap.mics i) := by
  choose spec hspec using fun i => (hh i).rel
  have hS : SInv (fun i => (w.shep i).obj.params) (fun _ => False) w.shep := fun i => ⟨(hs i).rel, False.elim⟩
  have hI : PInv spec (fun i => (w.shep i).obj.params) owner w.mics w := ⟨hspec, hS, fun i _ => cellOK_self i⟩
  refine ⟨spec, fun M => ⟨hspec, hS, fun i => cellOK_self i⟩, fun I j cs ha => ?_, fun I threads ha sched => ?_⟩
  · exact ((rg_calls I ha (fun _ _ => rfl) hI fun i _ => cellOK_self i).alone prely_refl hI).1
  have start : (Conf.start w (threads.map (labCallsT I))).AllRG (PInv spec (fun i => (w.shep i).obj.params) owner w.mics)
      (fun j => PRely spec (fun i => (w.shep i).obj.params) owner j) (fun j => PGuar spec (fun i => (w.shep i).obj.params) owner j)
      (fun j s rs => ∀ cs, threads[j]? = some cs → rs = (runHistory (LCall.effect spec (fun i => (w.shep i).obj.params)) w.mics cs).1 ∧
      ∀ i, owner i = some j → CellOK (openFrame spec (fun i => (w.shep i).obj.params)
        (runHistory (LCall.effect spec (fun i => (w.shep i).obj.params)) w.mics cs).2) i (s.mics i)) := by
    refine ⟨hI, fun j p hj => ?_⟩
    simp only [Conf.start, List.getElem?_map] at hj
    rcases hq : threads[j]? with _ | cs
    · rw [hq] at hj; cases hj
    · rw [hq] at hj
      cases hj
      refine (rg_calls I (ha j cs hq) (fun _ _ => rfl) hI fun i _ => cellOK_self i).imp ?_
      intro s rs h cs' h'
      rw [hq] at h'; cases h'; exact h
  obtain ⟨h1, h2⟩ := start.run (fun _ => prely_trans) (fun _ => prely_refl) (fun i j => rely_of_guar) sched
  exact ⟨h1, fun j cs rs hq hr => h2 j _ hr _ (prely_refl _) h1 cs hq⟩

theorem run_length' {σ Op R : Type} (step : σ → Op → R × σ) (s : σ) (ops : List Op) : (runHistory step s ops).1.length = ops.length := by
  induction ops generalizing s with
  | nil => rfl
  | cons op ops ih => simp only [runHistory, List.length_cons, ih]

/-- A microscope among models that have not changed. -/
theorem cell_same {w u : Lab} {spec : ℕ → HSpec} {M : ℕ → MCell} {i : ℕ} (h1 : TInv spec u.hans)
    (h2 : SInv (fun i => (w.shep i).obj.params) (fun _ => False) u.shep)
    (hI : ∀ M : ℕ → MCell, LabInv (openFrame spec (fun i => (w.shep i).obj.params) M) { w with mics := M })
    (hc : CellOK (openFrame spec (fun i => (w.shep i).obj.params) M) i (u.mics i)) :
    SameValues (u.micro i) (Lab.micro { w with mics := M } i) ((openFrame spec (fun i => (w.shep i).obj.params) M).spec i) := by
  have hu : LabInv (openFrame spec (fun i => (w.shep i).obj.params) M) { u with mics := Function.update M i (u.mics i) } := by
    refine ⟨h1, h2, fun k => ?_⟩
    by_cases e : k = i
    · subst e; simpa only [Function.update_self] using hc
    · simpa only [Function.update_of_ne e] using cellOK_self k
  have hl := hu.live i
  have em : Lab.micro { u with mics := Function.update M i (u.mics i) } i = u.micro i := by
    simp only [Lab.micro, Function.update_self]; rfl
  rw [em] at hl
  have e1 : psfValue (u.mics i).psf ((openFrame spec (fun i => (w.shep i).obj.params) M).spec i) =
      psfValue (M i).psf ((openFrame spec (fun i => (w.shep i).obj.params) M).spec i) := by
    rcases h : (u.mics i).psf with _ | a
    · rw [show (M i).psf = none from isNone_of hc.psf0 h]
    · exact (hc.psf a h).symm
  refine ⟨hl, (hI M).live i, e1, ?_⟩
  show otfValue (u.mics i).psf (u.mics i).otf _ = otfValue (M i).psf (M i).otf _
  rcases h : (u.mics i).otf with _ | a
  · rw [show (M i).otf = none from isNone_of hc.otf0 h]
    exact otfValue_congr _ e1
  · exact (hc.otf a h).symm

/-- The answers to the calls that concern microscope `i`. -/
def answersOn (i : ℕ) (cs : List LCall) (rs : List LSeen) : List LSeen :=
  ((cs.zip rs).filter (fun p => (p.1.on i).isSome)).map Prod.snd

/-- The history of microscope `i` as the calls `cs` make it. -/
noncomputable def historyOn (w : Lab) (i : ℕ) (cs : List LCall) : List (Py (Out (Arr ℂ) (Arr ℝ))) × Micro :=
  runHistory Micro.pstep (w.micro i) (cs.filterMap (LCall.on i))

/-- C144: threads that agree on who uses which microscope need no locks.  Any number of threads read and assign: a microscope
that belongs to a thread is read and assigned to by this thread only, one that belongs to nobody is only read, by anyone; all
microscopes may share models, whose outputs may be read by anyone too.  The calls are interleaved access by access, with
either version of `cached_property`.  Then a thread that is finished has seen, of each microscope of its own, exactly the
answers of the sequential history of its own calls on it, and of everything else what a single read in the untouched memory
would have shown; and its own microscopes answer every later history as after the sequential one. -/
theorem C144_private (I : LabImpl) (w : Lab) (hh : ∀ i, Lived (w.hans i).obj) (hs : ∀ i, SLived (w.shep i).obj) (owner : ℕ → Option ℕ)
    (threads : List (List LCall)) (ha : ∀ (j : ℕ) (cs : List LCall), threads[j]? = some cs → ∀ c ∈ cs, c.Allowed owner j) (sched : List ℕ) :
    let c := (Conf.start w (threads.map (labCallsT I))).run sched
    ∀ (j : ℕ) (cs : List LCall) (rs : List LSeen), threads[j]? = some cs → c.thread[j]? = some (.ret rs) →
      rs.length = cs.length ∧
      (∀ i, owner i = some j → answersOn i cs rs = (historyOn w i cs).1.map .exact) ∧
      (∀ (k : ℕ) (q : LOp), cs[k]? = some (.read q) → (∀ i, owner i = some j → q.on i = none) → rs[k]? = some (q.single w)) ∧
      ∀ i, owner i = some j → ∀ ops,
        (runHistory Micro.pstep (c.heap.micro i) ops).1 = (runHistory Micro.pstep (historyOn w i cs).2 ops).1 := by
  intro c j cs rs hj hr
  obtain ⟨spec, hI, -, h⟩ := private_run w hh hs owner
  obtain ⟨hP, h⟩ := h I threads ha sched
  obtain ⟨rfl, h2⟩ := h j cs rs hj hr
  have h0 : ∀ i, ∃ s, SameValues (Lab.micro { w with mics := w.mics } i) (w.micro i) s :=
    fun i => ⟨_, (hI w.mics).live i, (hI w.mics).live i, rfl, rfl⟩
  refine ⟨run_length' _ _ _, fun i hi => (effect_run (h0 i) cs hI).1, fun k q hq hn => ?_, fun i hi ops => ?_⟩
  · rw [effect_get (ha j cs hj) (fun _ _ => rfl) hq hn, open_single hI]
  · obtain ⟨s, hs'⟩ := (effect_run (h0 i) cs hI).2
    rw [(cell_same hP.hans hP.shep hI (h2 i hi)).run ops]
    exact hs'.run ops

/-- C144: and at every moment, whatever the threads do with microscopes of their own, the attributes of the models and of the
microscopes that belong to nobody are the old ones, and every later history of operations on one of them has the answers it
would have had. -/
theorem C144_shared (I : LabImpl) (w : Lab) (hh : ∀ i, Lived (w.hans i).obj) (hs : ∀ i, SLived (w.shep i).obj) (owner : ℕ → Option ℕ)
    (threads : List (List LCall)) (ha : ∀ (j : ℕ) (cs : List LCall), threads[j]? = some cs → ∀ c ∈ cs, c.Allowed owner j) (sched : List ℕ) :
    let c := (Conf.start w (threads.map (labCallsT I))).run sched
    (∀ i, (c.heap.hans i).obj.params = (w.hans i).obj.params ∧ (c.heap.shep i).obj.params = (w.shep i).obj.params) ∧
    (∀ i, owner i = none → (c.heap.mics i).cfg = (w.mics i).cfg ∧
      ∀ ops, (runHistory Micro.pstep (c.heap.micro i) ops).1 = (runHistory Micro.pstep (w.micro i) ops).1) ∧
    (∀ i ops, (runHistory HObj.step (c.heap.hans i).obj ops).1 = (runHistory HObj.step (w.hans i).obj ops).1) ∧
    (∀ i ops, (runHistory SObj.step (c.heap.shep i).obj ops).1 = (runHistory SObj.step (w.shep i).obj ops).1) := by
  intro c
  obtain ⟨spec, hI, -, h⟩ := private_run w hh hs owner
  obtain ⟨hP, -⟩ := h I threads ha sched
  have h0 := hI w.mics
  refine ⟨fun i => ⟨?_, ?_⟩, fun i hi => ⟨(hP.mics i hi).cfg, fun ops => ?_⟩, fun i ops => ?_, fun i ops => ?_⟩
  · exact (hP.hans i).params.trans (h0.hans i).params.symm
  · exact (hP.shep i).1.params.trans (h0.shep i).1.params.symm
  · exact (cell_same hP.hans hP.shep hI (hP.mics i hi)).run ops
  · rw [(run_rel (hP.hans i) ops).1, (run_rel (h0.hans i) ops).1]; rfl
  · rw [(SObj.run_rel (hP.shep i).1 ops).1, (SObj.run_rel (h0.shep i).1 ops).1]; rfl

/-- C144: what a thread sees does not depend on what the others do, on the schedule or on the version of `cached_property`: two
runs from the same memory in which thread `j` makes the same calls, in any company that respects the agreement, show it the
same. -/
theorem C144_noninterference (I I' : LabImpl) (w : Lab) (hh : ∀ i, Lived (w.hans i).obj) (hs : ∀ i, SLived (w.shep i).obj) (owner : ℕ → Option ℕ)
    (threads threads' : List (List LCall))
    (ha : ∀ (j : ℕ) (cs : List LCall), threads[j]? = some cs → ∀ c ∈ cs, c.Allowed owner j)
    (ha' : ∀ (j : ℕ) (cs : List LCall), threads'[j]? = some cs → ∀ c ∈ cs, c.Allowed owner j) (sched sched' : List ℕ)
    (j : ℕ) (cs : List LCall) (rs rs' : List LSeen) (hj : threads[j]? = some cs) (hj' : threads'[j]? = some cs)
    (hr : ((Conf.start w (threads.map (labCallsT I))).run sched).thread[j]? = some (.ret rs))
    (hr' : ((Conf.start w (threads'.map (labCallsT I'))).run sched').thread[j]? = some (.ret rs')) : rs = rs' := by
  obtain ⟨spec, -, -, h⟩ := private_run w hh hs owner
  exact ((h I threads ha sched).2 j cs rs hj hr).1.trans ((h I' threads' ha' sched').2 j cs rs' hj' hr').1.symm

/-- C144: a thread sees in company what it sees when it runs alone, from start to end, in the same memory. -/
theorem C144_alone (I I' : LabImpl) (w : Lab) (hh : ∀ i, Lived (w.hans i).obj) (hs : ∀ i, SLived (w.shep i).obj) (owner : ℕ → Option ℕ)
    (threads : List (List LCall)) (ha : ∀ (j : ℕ) (cs : List LCall), threads[j]? = some cs → ∀ c ∈ cs, c.Allowed owner j) (sched : List ℕ)
    (j : ℕ) (cs : List LCall) (rs : List LSeen) (hj : threads[j]? = some cs)
    (hr : ((Conf.start w (threads.map (labCallsT I))).run sched).thread[j]? = some (.ret rs)) :
    rs = (Prog.alone (labCallsT I' cs) w).1 := by
  obtain ⟨spec, -, h0, h⟩ := private_run w hh hs owner
  exact ((h I threads ha sched).2 j cs rs hj hr).1.trans (h0 I' j cs (ha j cs hj)).symm

/-! ## Locks -/

theorem lLockBelow_call (I : LabImpl) (c : LCall) : LLockBelow 6 (labCallT I c) := by
  cases c with
  | read q => exact lLockBelow_read I q
  | set i b v =>
    refine LLockBelow.bind ?_ fun _ => lLockBelow_ret _ _
    refine (lLockBelow_rd _ _ _).tbind fun x => ?_
    rcases x with _ | x
    · exact lLockBelow_loc _ _
    · exact (lLockBelow_wr _ _ _).tbind fun _ => (lLockBelow_wr _ _ _).tbind fun _ => lLockBelow_wr _ _ _

theorem lLockBelow_calls (I : LabImpl) (cs : List LCall) : LLockBelow 6 (labCallsT I cs) := by
  induction cs with
  | nil => exact lLockBelow_ret _ _
  | cons c cs ih => exact LLockBelow.bind (lLockBelow_call I c) fun r => ih.bind fun rs => lLockBelow_ret _ _

theorem lWithin_call (I : LabImpl) (c : LCall) : Prog.Within (labCallT I c) 150 := by
  cases c with
  | read q => exact lWithin_read I q
  | set i b v =>
    have wr1 : ∀ f, Prog.Within (wr i f) 1 := fun f => ⟨0, rfl, fun _ => trivial⟩
    refine Prog.Within.mono (n := 4 + 0) (Prog.Within.bind ?_ fun _ => trivial) (by omega)
    refine lWithin_rd (m := 3) fun x => ?_
    rcases x with _ | x
    · exact lWithin_end _ _
    · exact lWithin_bind (n := 1) (m := 2) (wr1 _) fun _ => lWithin_bind (n := 1) (m := 1) (wr1 _) fun _ => wr1 _

theorem lWithin_calls (I : LabImpl) (cs : List LCall) : Prog.Within (labCallsT I cs) (150 * cs.length) := by
  induction cs with
  | nil => trivial
  | cons c cs ih =>
    unfold labCallsT
    refine ((lWithin_call I c).bind (m := 150 * cs.length) fun r => ?_).mono (by simp; omega)
    exact ih.bind (m := 0) fun _ => trivial

/-- C144: with or without an agreement, threads that read and assign never wait for each other in a circle and never loop: there
is no schedule with more than 150 steps per call in it, and when no thread can make a step all of them are finished. -/
theorem C144_terminates (I : LabImpl) (w : Lab) (threads : List (List LCall)) :
    (∀ sched, (Conf.start w (threads.map (labCallsT I))).Live sched → sched.length ≤ 150 * (threads.map List.length).sum) ∧
    (∀ sched, (∀ i, ¬ ((Conf.start w (threads.map (labCallsT I))).run sched).Enabled i) →
      ∀ (j : ℕ) p, ((Conf.start w (threads.map (labCallsT I))).run sched).thread[j]? = some p → ∃ rs, p = Prog.ret rs) := by
  constructor
  · intro sched hl
    have := Conf.live_bounded (b := threads.map fun qs => 150 * qs.length) (by simp [Conf.start]) ?_ hl
    · refine this.trans (le_of_eq ?_)
      clear this hl
      induction threads with
      | nil => rfl
      | cons t ts ih => simp only [List.map_cons, List.sum_cons, ih, Nat.mul_add]
    · intro j p hj
      simp only [Conf.start, List.getElem?_map] at hj
      rcases hq : threads[j]? with _ | qs
      · rw [hq] at hj; cases hj
      · rw [hq] at hj
        cases hj
        simpa [List.getD_eq_getElem?_getD, hq] using lWithin_calls I qs
  · intro sched hs j p hj
    have h0 : (Conf.start w (threads.map (labCallsT I))).AllDisc labRank (fun _ => []) := by
      refine Conf.start_disc fun p hp => ?_
      obtain ⟨qs, -, rfl⟩ := List.mem_map.mp hp
      exact Prog.disc_iff.mpr (lLockBelow_calls I qs [] (by simp))
    obtain ⟨held, h1⟩ := h0.run sched
    exact h1.no_deadlock hs j p hj

/-- Threads that can make a bounded number of steps only can be run until none can make one. -/
theorem Conf.exists_stuck {σ L α : Type} [DecidableEq L] (N : ℕ) (c : Conf σ L α) (hN : ∀ sched, c.Live sched → sched.length ≤ N) :
    ∃ sched, c.Live sched ∧ ∀ i, ¬ (c.run sched).Enabled i := by
  induction N generalizing c with
  | zero =>
    refine ⟨[], trivial, fun i hi => ?_⟩
    have := hN [i] ⟨hi, trivial⟩
    simp at this
  | succ N ih =>
    by_cases h : ∃ i, c.Enabled i
    · obtain ⟨i, hi⟩ := h
      obtain ⟨sched, h1, h2⟩ := ih (c.step i) fun sched hl => by
        have := hN (i :: sched) ⟨hi, hl⟩
        simp only [List.length_cons] at this
        omega
      exact ⟨i :: sched, ⟨hi, h1⟩, h2⟩
    · exact ⟨[], trivial, fun i hi => h ⟨i, hi⟩⟩

/-- C144: whatever the threads have done so far, there is a way to go on in which all of them finish. -/
theorem C144_finishes (I : LabImpl) (w : Lab) (threads : List (List LCall)) (sched : List ℕ) :
    ∃ more, ∀ (j : ℕ) (cs : List LCall), threads[j]? = some cs →
      ∃ rs, ((Conf.start w (threads.map (labCallsT I))).run (sched ++ more)).thread[j]? = some (.ret rs) := by
  have hW : ∀ sched : List ℕ, ∃ N, ∀ more, ((Conf.start w (threads.map (labCallsT I))).run sched).Live more → more.length ≤ N := by
    intro sched
    have h0 : ∃ b : List ℕ, b.length = (Conf.start w (threads.map (labCallsT I))).thread.length ∧
        ∀ j (p : Prog Lab LabLock (List LSeen)), (Conf.start w (threads.map (labCallsT I))).thread[j]? = some p → p.Within (b.getD j 0) := by
      refine ⟨threads.map fun qs => 150 * qs.length, by simp [Conf.start], fun j p hj => ?_⟩
      simp only [Conf.start, List.getElem?_map] at hj
      rcases hq : threads[j]? with _ | qs
      · rw [hq] at hj; cases hj
      · rw [hq] at hj
        cases hj
        simpa [List.getD_eq_getElem?_getD, hq] using lWithin_calls I qs
    have key : ∀ (sched : List ℕ) (c : Conf Lab LabLock (List LSeen)), (∃ b : List ℕ, b.length = c.thread.length ∧
        ∀ j (p : Prog Lab LabLock (List LSeen)), c.thread[j]? = some p → p.Within (b.getD j 0)) →
        ∃ N, ∀ more, (c.run sched).Live more → more.length ≤ N := by
      intro sched
      induction sched with
      | nil =>
        rintro c ⟨b, h1, h2⟩
        exact ⟨b.sum, fun more hm => Conf.live_bounded h1 h2 hm⟩
      | cons i sched ih =>
        rintro c ⟨b, h1, h2⟩
        refine ih (c.step i) ?_
        by_cases he : c.Enabled i
        · exact ⟨b.set i (b.getD i 0 - 1), by simp [h1, Conf.step_length], (Conf.within_step h1 h2 he).2⟩
        · refine ⟨b, by rw [Conf.step_length, h1], fun j p hj => h2 j p ?_⟩
          rwa [show c.step i = c from ?_] at hj
          rcases hp : c.thread[i]? with _ | (_ | _ | _ | _) <;> simp only [Conf.Enabled, hp, not_true_eq_false] at he <;>
            simp only [Conf.step, hp]
          exact if_neg he
    exact key sched _ h0
  obtain ⟨N, hN⟩ := hW sched
  obtain ⟨more, -, h⟩ := Conf.exists_stuck N _ hN
  have e : (Conf.start w (threads.map (labCallsT I))).run (sched ++ more) =
      ((Conf.start w (threads.map (labCallsT I))).run sched).run more := List.foldl_append
  refine ⟨more, fun j cs hj => ?_⟩
  have hlen : j < ((Conf.start w (threads.map (labCallsT I))).run (sched ++ more)).thread.length := by
    rw [Conf.run_length]
    simp only [Conf.start, List.length_map]
    exact (List.getElem?_eq_some_iff.mp hj).1
  obtain ⟨rs, hrs⟩ := (C144_terminates I w threads).2 (sched ++ more) (by rw [e]; exact h) j _ (List.getElem?_eq_getElem hlen)
  exact ⟨rs, by rw [List.getElem?_eq_getElem hlen, hrs]⟩

/-- Non-vacuity: two threads, each with a microscope of its own, and a third microscope that both read; all share one model.
The first sets its `oversample_factor` from 3 to 1 and sees its pixels get smaller; the other microscopes stay as they are. -/
example (I : LabImpl) : ∃ (w : Lab) (owner : ℕ → Option ℕ) (p p' : Arr ℝ), (∀ i, Lived (w.hans i).obj) ∧ (∀ i, SLived (w.shep i).obj) ∧
    (∀ i, (w.mics i).cfg.model = .hanser 0) ∧ p.shape = [64, 64, 64] ∧ p'.shape = [64, 192, 192] ∧
    let t : List (List LCall) := [[.set 0 .oversample (.int 1), .read (.PSF 0), .read (.PSF 2)], [.read (.PSF 1), .read (.PSF 2)]]
    (∀ (j : ℕ) (cs : List LCall), t[j]? = some cs → ∀ c ∈ cs, c.Allowed owner j) ∧
    (∃ (sched : List ℕ) (rs : List LSeen), ((Conf.start w (t.map (labCallsT I))).run sched).thread[0]? = some (.ret rs)) ∧
    ∀ (sched : List ℕ) (rs : List LSeen), ((Conf.start w (t.map (labCallsT I))).run sched).thread[0]? = some (.ret rs) →
      answersOn 0 t[0] rs = [.exact (.ok .done), .exact (.ok (.real p'))] ∧ rs[2]? = some (.exact (.ok (.real p))) := by
  obtain ⟨w, hh, hs, hm, hn, -, ⟨p, hps, hp⟩, h⟩ := demo_lab
  obtain ⟨hset, hget, p', hp', hps'⟩ := h 0
  refine ⟨w, fun i => if i = 0 then some 0 else if i = 1 then some 1 else none, p, p', hh, hs, hm, hps, hps', ?_⟩
  intro t
  have ha : ∀ (j : ℕ) (cs : List LCall), t[j]? = some cs → ∀ c ∈ cs,
      c.Allowed (fun i => if i = 0 then some 0 else if i = 1 then some 1 else none) j := by
    intro j cs hj c hc
    rcases j with _ | _ | j
    · cases hj
      simp only [List.mem_cons, List.not_mem_nil, or_false] at hc
      rcases hc with rfl | rfl | rfl <;> simp [LCall.Allowed, LOp.on]
    · cases hj
      simp only [List.mem_cons, List.not_mem_nil, or_false] at hc
      rcases hc with rfl | rfl <;> simp [LCall.Allowed, LOp.on]
    · simp [t] at hj
  obtain ⟨more, hfin⟩ := C144_finishes I w t []
  refine ⟨ha, ⟨more, hfin 0 _ rfl⟩, fun sched rs hr => ?_⟩
  obtain ⟨-, h1, h2, -⟩ := C144_private I w hh hs _ t ha sched 0 _ rs rfl hr
  have h1' := h1 0 rfl
  refine ⟨h1'.trans ?_, (h2 2 (.PSF 2) rfl ?_).trans ?_⟩
  · have e : (historyOn w 0 [.set 0 .oversample (.int 1), .read (.PSF 0), .read (.PSF 2)]).1 =
        [(Micro.set .oversample (.int 1) (w.micro 0)).1.map fun _ => .done,
          (Micro.getPSF (Micro.set .oversample (.int 1) (w.micro 0)).2).1.map .real] := rfl
    rw [e, hset, hp']; rfl
  · intro i hi
    by_cases e : i = 0
    · subst e; rfl
    · by_cases e1 : i = 1
      · subst e1; simp at hi
      · simp [e, e1] at hi
  · show some (LSeen.exact ((Micro.getPSF (w.micro 2)).1.map _)) = _
    rw [hp 2]; rfl

end PyOTF
