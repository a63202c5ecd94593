import Verif.Model.MicroInterrupt
import Verif.Props.C142_Race
import Verif.Props.C135_Retry

/-!
# C143: interrupted calls on microscopes
-/

namespace PyOTF

open LTM

/-! ## Reads -/

/-- C143: a read - of `PSF`, `OTF` or `model_psf` of a microscope or of an output of a model - that is abandoned after any
number of accesses changes no attribute of anything and no answer to any later history of operations. -/
theorem C143_read (I : LabImpl) (w : Lab) (hh : ∀ i, Lived (w.hans i).obj) (hs : ∀ i, SLived (w.shep i).obj) (q : LOp) (n : ℕ) :
    let u := (labReadT I q).cut n w
    (∀ i, (u.mics i).cfg = (w.mics i).cfg ∧ (u.hans i).obj.params = (w.hans i).obj.params ∧
      (u.shep i).obj.params = (w.shep i).obj.params) ∧
    (∀ i ops, (runHistory Micro.pstep (u.micro i) ops).1 = (runHistory Micro.pstep (w.micro i) ops).1) ∧
    (∀ i ops, (runHistory HObj.step (u.hans i).obj ops).1 = (runHistory HObj.step (w.hans i).obj ops).1) ∧
    (∀ i ops, (runHistory SObj.step (u.shep i).obj ops).1 = (runHistory SObj.step (w.shep i).obj ops).1) := by
  intro u
  choose spec hspec using fun i => (hh i).rel
  have hI : LabInv (frameOf w spec [[q]]) w := ⟨hspec, fun i => ⟨(hs i).rel, False.elim⟩, cellOK_start w spec _⟩
  have hv : LabInv (frameOf w spec [[q]]) u :=
    (lsafe_read I hI (allows_start (t := [q]) (by simp) (by simp))).cut (labLe_refl _) hI n
  refine ⟨fun i => ⟨(hv.mics i).cfg, ?_, ?_⟩, fun i ops => (hI.same hv i).run ops, fun i ops => ?_, fun i ops => ?_⟩
  · exact (hv.hans i).params.trans (hI.hans i).params.symm
  · exact (hv.shep i).1.params.trans (hI.shep i).1.params.symm
  · rw [(run_rel (hv.hans i) ops).1, (run_rel (hI.hans i) ops).1]
  · rw [(SObj.run_rel (hv.shep i).1 ops).1, (SObj.run_rel (hI.shep i).1 ops).1]

/-! ## Assignments -/

/-- The microscope `m`, with the caches of another. -/
def Micro.withCaches (m : Micro) (psf : Option (Arr ℝ)) (otf : Option (Arr ℂ)) : Micro := { m with psf := psf, otf := otf }

/-- Where an assignment can be abandoned. -/
theorem set_cut (w : Lab) (i : ℕ) (b : Micro.MAttr) (v : PyVal) (n : ℕ) :
    let u := (microSetT i b v).cut n w
    let old := w.micro i
    let new := Micro.set b v old
    ((u.micro i = old ∧ (n ≤ 1 ∨ new.2 = old)) ∨ new.1 = .ok () ∧ new.2.psf = none ∧ new.2.otf = none ∧ ((n = 2 ∧ u.micro i = new.2.withCaches old.psf old.otf) ∨
      (n = 3 ∧ u.micro i = new.2.withCaches none old.otf) ∨ (4 ≤ n ∧ u.micro i = new.2))) ∧
    (∀ j, j ≠ i → u.micro j = w.micro j) ∧ u.hans = w.hans ∧ u.shep = w.shep := by
  intro u old new
  have eu : u = (microSetT i b v).cut n w := rfl
  clear_value u
  have hr : old.read b = Micro.readAttr b (w.mics i).cfg.oversample (w.mics i).cfg.kind := readAttr_swap _ _ _ _
  have en : new = Micro.set b v old := rfl
  rw [set_run, hr] at en
  have same : u = w → (n ≤ 1 ∨ new.2 = old) → ((u.micro i = old ∧ (n ≤ 1 ∨ new.2 = old)) ∨ new.1 = .ok () ∧ new.2.psf = none ∧ new.2.otf = none ∧ ((n = 2 ∧ u.micro i = new.2.withCaches old.psf old.otf) ∨
      (n = 3 ∧ u.micro i = new.2.withCaches none old.otf) ∨ (4 ≤ n ∧ u.micro i = new.2))) ∧
    (∀ j, j ≠ i → u.micro j = w.micro j) ∧ u.hans = w.hans ∧ u.shep = w.shep := by
    rintro rfl h; exact ⟨.inl ⟨rfl, h⟩, fun _ _ => rfl, rfl, rfl⟩
  rcases n with _ | n
  · exact same eu (.inl (by omega))
  simp only [microSetT, LTM.bind, rd, Prog.bind, Prog.cut, id] at eu
  rcases hro : Micro.readAttr b (w.mics i).cfg.oversample (w.mics i).cfg.kind with _ | x
  · rw [hro] at eu
    simp only [loc, Prog.cut_ret] at eu
    rw [hro] at en
    exact same eu (.inr (by rw [en]))
  rw [hro] at eu en
  simp only at eu en
  rcases hn : numericSet (Micro.vartype b) x v with e | _ | y
  · rw [hn] at eu
    simp only [Prog.cut_ret] at eu
    rw [hn] at en
    exact same eu (.inr (by rw [en]))
  · rw [hn] at eu
    simp only [loc, Prog.cut_ret] at eu
    rw [hn] at en
    exact same eu (.inr (by rw [en]))
  rw [hn] at eu en
  simp only [wr, Prog.bind] at eu en
  rcases n with _ | _ | _ | n
  · exact same eu (.inl (by omega))
  · simp only [Prog.cut] at eu
    subst eu
    rw [en]
    refine ⟨.inr ⟨rfl, rfl, rfl, .inl ⟨rfl, ?_⟩⟩, fun j hj => ?_, rfl, rfl⟩
    · simp only [old, Micro.withCaches, Micro.write, Lab.micro, writeAttr_swap, Function.update_self]; rfl
    · simp only [Lab.micro, Function.update_of_ne hj]; rfl
  · simp only [Prog.cut] at eu
    subst eu
    rw [en]
    refine ⟨.inr ⟨rfl, rfl, rfl, .inr (.inl ⟨rfl, ?_⟩)⟩, fun j hj => ?_, rfl, rfl⟩
    · simp only [old, Micro.withCaches, Micro.write, Lab.micro, writeAttr_swap, Function.update_self]; rfl
    · simp only [Lab.micro, Function.update_of_ne hj]; rfl
  · simp only [Prog.cut, Prog.cut_ret] at eu
    subst eu
    rw [en]
    refine ⟨.inr ⟨rfl, rfl, rfl, .inr (.inr ⟨by omega, ?_⟩)⟩, fun j hj => ?_, rfl, rfl⟩
    · simp only [old, Micro.write, Lab.micro, writeAttr_swap, Function.update_self]; rfl
    · simp only [Lab.micro, Function.update_of_ne hj]; rfl

theorem lab_inner {w : Lab} {spec : ℕ → HSpec} (hh : ∀ i, HRel (w.hans i).obj (spec i)) (hs : ∀ i, SRel (w.shep i).obj (w.shep i).obj.params)
    (r : MRef) : IRel (w.inner r) ((frameOf w spec []).inner r) := by
  cases r with
  | hanser i => exact hh i
  | sheppard i => exact hs i

theorem lab_live {w : Lab} (hh : ∀ i, Lived (w.hans i).obj) (hs : ∀ i, SLived (w.shep i).obj) (i : ℕ) : ∃ s, MLive (w.micro i) s := by
  choose spec hspec using fun i => (hh i).rel
  have hI : LabInv (frameOf w spec []) w := ⟨hspec, fun i => ⟨(hs i).rel, False.elim⟩, cellOK_start w spec _⟩
  exact ⟨_, hI.live i⟩

theorem MLive.caches {m : Micro} {s : MSpec} (h : MLive m s) (p : Option (Arr ℝ)) (o : Option (Arr ℂ)) : MLive (m.withCaches p o) s :=
  ⟨h.oversample, h.psfParams, h.pixelSize, h.model, h.kind⟩

theorem pstep_PSF (m : Micro) : (m.pstep .readPSF).1 = (Micro.getPSF m).1.map .real := rfl
theorem pstep_OTF (m : Micro) : (m.pstep .readOTF).1 = (Micro.getOTF m).1.map .cplx := rfl

/-- What a microscope with mixed caches shows. -/
theorem mixed_caches {old new : Micro} {s s' : MSpec} (h : MLive old s) (h' : MLive new s') (hp : new.psf = none) (ho : new.otf = none)
    {p : Option (Arr ℝ)} (hpp : p = old.psf ∨ p = none) {op : POp} (hop : op.IsRead) :
    ((new.withCaches p old.otf).pstep op).1 = (old.pstep op).1 ∨ ((new.withCaches p old.otf).pstep op).1 = (new.pstep op).1 := by
  have hm := h'.caches p old.otf
  cases op with
  | set => exact hop.elim
  | readModelPsf =>
    right
    exact congrArg (Except.map _) ((computes_modelPsf _ _ hm).1.trans (computes_modelPsf _ _ h').1.symm)
  | readPSF =>
    have e := (seq_PSF hm).1
    have e' := (seq_PSF h').1
    have eo := (seq_PSF h).1
    rcases hpp with rfl | rfl
    · rcases hc : old.psf with _ | a
      · right
        refine congrArg (Except.map _) ?_
        rw [hc] at e
        show (Micro.getPSF _).1 = _
        rw [e, e', hp]; rfl
      · left
        rw [hc] at e eo
        rw [pstep_PSF, pstep_PSF, e, eo]; rfl
    · right
      refine congrArg (Except.map _) ?_
      show (Micro.getPSF _).1 = _
      rw [e, e', hp]; rfl
  | readOTF =>
    have e := (seq_OTF hm).1
    have e' := (seq_OTF h').1
    have eo := (seq_OTF h).1
    rcases hc : old.otf with _ | a
    · rcases hpp with rfl | rfl
      · rcases hc' : old.psf with _ | a
        · right
          refine congrArg (Except.map _) ?_
          rw [hc, hc'] at e
          show (Micro.getOTF _).1 = _
          rw [e, e', hp, ho]; rfl
        · left
          rw [hc, hc'] at e eo
          rw [pstep_OTF, pstep_OTF, e, eo]; rfl
      · right
        refine congrArg (Except.map _) ?_
        rw [hc] at e
        show (Micro.getOTF _).1 = _
        rw [e, e', hp, ho]; rfl
    · left
      rw [hc] at e eo
      rw [pstep_OTF, pstep_OTF, e, eo]; rfl

/-- C143: an assignment to a numeric attribute of a microscope that is abandoned after any number of accesses leaves the
microscope untouched; or it is one that would have been accepted, all attributes are those after the assignment, and each
output is the one before it or the one after it.  No other microscope and no model is touched. -/
theorem C143_assignment (w : Lab) (hh : ∀ i, Lived (w.hans i).obj) (hs : ∀ i, SLived (w.shep i).obj) (i : ℕ) (b : Micro.MAttr) (v : PyVal) (n : ℕ) :
    let u := (microSetT i b v).cut n w
    let old := w.micro i
    let new := Micro.set b v old
    (u.micro i = old ∨ new.1 = .ok () ∧ (∀ d, (u.micro i).read d = new.2.read d) ∧
      ∀ op : POp, op.IsRead → ((u.micro i).pstep op).1 = (old.pstep op).1 ∨ ((u.micro i).pstep op).1 = (new.2.pstep op).1) ∧
    (∀ j, j ≠ i → u.micro j = w.micro j) ∧ u.hans = w.hans ∧ u.shep = w.shep := by
  intro u old new
  obtain ⟨h1, h2⟩ := set_cut w i b v n
  refine ⟨?_, h2⟩
  obtain ⟨s, hl⟩ := lab_live hh hs i
  have hl' := (pset hl b v).2.1
  rcases h1 with ⟨h1, -⟩ | ⟨h1, hp, ho, ⟨-, h⟩ | ⟨-, h⟩ | ⟨-, h⟩⟩
  · exact .inl h1
  · refine .inr ⟨h1, fun d => ?_, fun op hop => ?_⟩
    · rw [h]; rfl
    · rw [h]; exact mixed_caches hl hl' hp ho (.inl rfl) hop
  · refine .inr ⟨h1, fun d => ?_, fun op hop => ?_⟩
    · rw [h]; rfl
    · rw [h]; exact mixed_caches hl hl' hp ho (.inr rfl) hop
  · refine .inr ⟨h1, fun d => ?_, fun op hop => ?_⟩
    · rw [h]
    · rw [h]; exact .inr rfl

/-! ## Repeating an assignment -/

theorem readAttr_writeAttr {I : Type} (a : Micro.MAttr) (v o : PyVal) (k : Kind I) {x : Option PyVal} (h : Micro.readAttr a o k = some x) :
    Micro.readAttr a (Micro.writeAttr a v o k).1 (Micro.writeAttr a v o k).2 = some (some v) := by
  cases a <;> cases k <;> first | rfl | cases h

/-- An accepted assignment that changes something, repeated. -/
theorem set_twice {m : Micro} {b : Micro.MAttr} {v : PyVal} {q : ℚ} (hq : v.num? = some (.fin q)) (hset : (Micro.set b v m).1 = .ok ())
    (hch : (Micro.set b v m).2.read b ≠ m.read b) (p : Option (Arr ℝ)) (t : Option (Arr ℂ)) :
    Micro.set b v ((Micro.set b v m).2.withCaches p t) = (.ok (), (Micro.set b v m).2.withCaches p t) := by
  obtain ⟨r, hrun⟩ : ∃ r, Micro.set b v m = r := ⟨_, rfl⟩
  rw [hrun] at hset hch ⊢
  rw [set_run] at hrun
  rcases hr : m.read b with _ | old
  · rw [hr] at hrun; subst hrun; exact absurd rfl hch
  rw [hr] at hrun
  simp only at hrun
  rcases hn : numericSet (Micro.vartype b) old v with e | _ | y
  · rw [hn] at hrun; subst hrun; cases hset
  · rw [hn] at hrun; subst hrun; exact absurd rfl hch
  rw [hn] at hrun
  have hy : y = v := by
    simp only [numericSet, Bind.bind, Except.bind, pure, Except.pure] at hn
    split at hn
    · cases hn
    · split at hn
      · cases hn
      · split at hn
        · cases hn
        · split at hn
          · cases hn; rfl
          · cases hn
  subst hy
  subst hrun
  have hrd : Micro.read b (Micro.withCaches { m.write b y with psf := none, otf := none } p t) = some (some y) :=
    readAttr_writeAttr b y m.oversample m.kind hr
  have hne : y.ne y = false := by simp [PyVal.ne, hq, PyFloat.eq]
  show Micro.set b y (Micro.withCaches { m.write b y with psf := none, otf := none } p t) = _
  rw [set_run, hrd]
  simp only [numericSet_self hn hne]

/-- C143: a microscope has `OTF` (hence `PSF`) cached; an assignment that changes an attribute to a finite number is
abandoned when the value is stored (two accesses), or when `PSF` is deleted (three).  The attribute has the new value.
`OTF` is the one of the old value - in the second case next to the `PSF` of the new one.  Repeating the assignment
changes nothing of this, without an error. -/
theorem C143_retry_stale (w : Lab) (hh : ∀ i, Lived (w.hans i).obj) (hs : ∀ i, SLived (w.shep i).obj) (i : ℕ) (b : Micro.MAttr) (v : PyVal) (q : ℚ) (hq : v.num? = some (.fin q))
    (hset : (Micro.set b v (w.micro i)).1 = .ok ()) (hch : (Micro.set b v (w.micro i)).2.read b ≠ (w.micro i).read b)
    (p : Arr ℝ) (hp : (w.micro i).psf = some p) (t : Arr ℂ) (ht : (w.micro i).otf = some t) :
    let new := (Micro.set b v (w.micro i)).2
    let r := Prog.alone (microSetT i b v) ((microSetT i b v).cut 2 w)
    let r' := Prog.alone (microSetT i b v) ((microSetT i b v).cut 3 w)
    (r.1 = .ok () ∧ (∀ d, (r.2.micro i).read d = new.read d) ∧
      (Micro.getPSF (r.2.micro i)).1 = .ok p ∧ (Micro.getOTF (r.2.micro i)).1 = .ok t) ∧
    (r'.1 = .ok () ∧ (∀ d, (r'.2.micro i).read d = new.read d) ∧
      (Micro.getPSF (r'.2.micro i)).1 = (Micro.getPSF new).1 ∧ (Micro.getOTF (r'.2.micro i)).1 = .ok t) := by
  intro new r r'
  have hne : new ≠ w.micro i := fun h => hch (congrArg (Micro.read b) h)
  obtain ⟨a1, a2, -⟩ := C142_set_alone ((microSetT i b v).cut 2 w) i b v
  obtain ⟨b1, b2, -⟩ := C142_set_alone ((microSetT i b v).cut 3 w) i b v
  have e2 : ((microSetT i b v).cut 2 w).micro i = new.withCaches (some p) (some t) := by
    rcases (set_cut w i b v 2).1 with ⟨-, h | h⟩ | ⟨-, -, -, ⟨-, h⟩ | ⟨h, -⟩ | ⟨h, -⟩⟩
    · omega
    · exact absurd h hne
    · rw [h, hp, ht]
    · omega
    · omega
  have e3 : ((microSetT i b v).cut 3 w).micro i = new.withCaches none (some t) := by
    rcases (set_cut w i b v 3).1 with ⟨-, h | h⟩ | ⟨-, -, -, ⟨h, -⟩ | ⟨-, h⟩ | ⟨h, -⟩⟩
    · omega
    · exact absurd h hne
    · omega
    · rw [h, ht]
    · omega
  have hnp : new.psf = none := by
    rcases (set_cut w i b v 2).1 with ⟨-, h | h⟩ | ⟨-, h, -⟩
    · omega
    · exact absurd h hne
    · exact h
  rw [e2, set_twice hq hset hch] at a1 a2
  rw [e3, set_twice hq hset hch] at b1 b2
  refine ⟨⟨a1, fun d => ?_, ?_, ?_⟩, b1, fun d => ?_, ?_, ?_⟩
  · rw [show r.2.micro i = _ from a2]; rfl
  · rw [show r.2.micro i = _ from a2, getPSF_run]; rfl
  · rw [show r.2.micro i = _ from a2, getOTF_run]; rfl
  · rw [show r'.2.micro i = _ from b2]; rfl
  · obtain ⟨s, hl⟩ := lab_live hh hs i
    have hl' : MLive new _ := (pset hl b v).2.1
    rw [show r'.2.micro i = _ from b2, (seq_PSF (hl'.caches none (some t))).1, (seq_PSF hl').1, hnp]; rfl
  · rw [show r'.2.micro i = _ from b2, getOTF_run]; rfl

/-! ## Sessions -/

/-- What every session keeps. -/
structure SessInv (spec : ℕ → HSpec) (w0 w : Lab) : Prop where
  hans : ∀ i, HRel (w.hans i).obj (spec i)
  shep : ∀ i, SRel (w.shep i).obj (w0.shep i).obj.params
  model : ∀ i, (w.mics i).cfg.model = (w0.mics i).cfg.model
  psfParams : ∀ i, (w.mics i).cfg.psfParams = (w0.mics i).cfg.psfParams
  pixelSize : ∀ i, (w.mics i).cfg.pixelSize = (w0.mics i).cfg.pixelSize

theorem SessInv.read {spec : ℕ → HSpec} {w0 w : Lab} (h : SessInv spec w0 w) (I : LabImpl) (q : LOp) (n : ℕ) :
    SessInv spec w0 ((labReadT I q).cut n w) := by
  have hp : ∀ i, (w.shep i).obj.params = (w0.shep i).obj.params := fun i => (h.shep i).params
  have hI : LabInv (frameOf w spec [[q]]) w := ⟨h.hans, fun i => ⟨by
    show SRel (w.shep i).obj (w.shep i).obj.params
    rw [hp]; exact h.shep i, False.elim⟩, cellOK_start w spec _⟩
  have hv : LabInv (frameOf w spec [[q]]) ((labReadT I q).cut n w) :=
    (lsafe_read I hI (allows_start (t := [q]) (by simp) (by simp))).cut (labLe_refl _) hI n
  have hc : ∀ i, (((labReadT I q).cut n w).mics i).cfg = (w.mics i).cfg := fun i => (hv.mics i).cfg
  refine ⟨hv.hans, fun i => ?_, fun i => ?_, fun i => ?_, fun i => ?_⟩
  · rw [← hp]; exact (hv.shep i).1
  · rw [hc, h.model]
  · rw [hc, h.psfParams]
  · rw [hc, h.pixelSize]

theorem keeps_set (i : ℕ) (b : Micro.MAttr) (v : PyVal) (w : Lab) (n : ℕ) :
    let u := (microSetT i b v).cut n w
    u.hans = w.hans ∧ u.shep = w.shep ∧ ∀ j, (u.mics j).cfg.model = (w.mics j).cfg.model ∧ (u.mics j).cfg.psfParams = (w.mics j).cfg.psfParams ∧
      (u.mics j).cfg.pixelSize = (w.mics j).cfg.pixelSize := by
  intro u
  have eu : u = (microSetT i b v).cut n w := rfl
  clear_value u
  have same : u = w → (u.hans = w.hans ∧ u.shep = w.shep ∧ ∀ j, (u.mics j).cfg.model = (w.mics j).cfg.model ∧
      (u.mics j).cfg.psfParams = (w.mics j).cfg.psfParams ∧ (u.mics j).cfg.pixelSize = (w.mics j).cfg.pixelSize) := by
    rintro rfl; exact ⟨rfl, rfl, fun _ => ⟨rfl, rfl, rfl⟩⟩
  rcases n with _ | n
  · exact same eu
  simp only [microSetT, LTM.bind, rd, Prog.bind, Prog.cut, id] at eu
  rcases hro : Micro.readAttr b (w.mics i).cfg.oversample (w.mics i).cfg.kind with _ | x
  · rw [hro] at eu
    simp only [loc, Prog.cut_ret] at eu
    exact same eu
  rw [hro] at eu
  simp only at eu
  rcases hn : numericSet (Micro.vartype b) x v with e | _ | y
  · rw [hn] at eu
    simp only [Prog.cut_ret] at eu
    exact same eu
  · rw [hn] at eu
    simp only [loc, Prog.cut_ret] at eu
    exact same eu
  rw [hn] at eu
  simp only [wr, Prog.bind] at eu
  rcases n with _ | _ | _ | n
  · exact same eu
  all_goals
    simp only [Prog.cut, Prog.cut_ret] at eu
    subst eu
    refine ⟨rfl, rfl, fun j => ?_⟩
    by_cases hj : j = i
    · subst hj; simp only [Function.update_self, and_self]
    · simp only [Function.update_of_ne hj, and_self]

theorem SessInv.set {spec : ℕ → HSpec} {w0 w : Lab} (h : SessInv spec w0 w) (i : ℕ) (b : Micro.MAttr) (v : PyVal) (n : ℕ) :
    SessInv spec w0 ((microSetT i b v).cut n w) := by
  obtain ⟨h1, h2, h3⟩ := keeps_set i b v w n
  refine ⟨fun j => ?_, fun j => ?_, fun j => ?_, fun j => ?_, fun j => ?_⟩
  · rw [h1]; exact h.hans j
  · rw [h2]; exact h.shep j
  · rw [(h3 j).1, h.model]
  · rw [(h3 j).2.1, h.psfParams]
  · rw [(h3 j).2.2, h.pixelSize]

theorem SessInv.session {spec : ℕ → HSpec} {w0 w : Lab} (h : SessInv spec w0 w) (I : LabImpl) (cs : List (LCall × Option ℕ)) :
    SessInv spec w0 (labSessionT I cs w) := by
  induction cs generalizing w with
  | nil => exact h
  | cons c cs ih =>
    obtain ⟨c, n⟩ := c
    refine ih ?_
    cases c with
    | read q =>
      cases n with
      | none => obtain ⟨n, hn⟩ := Prog.cut_final (labReadT I q) w; rw [LCall.leaves, ← hn]; exact h.read I q n
      | some n => exact h.read I q n
    | set i b v =>
      cases n with
      | none => obtain ⟨n, hn⟩ := Prog.cut_final (microSetT i b v) w; rw [LCall.leaves, ← hn]; exact h.set i b v n
      | some n => exact h.set i b v n

theorem SessInv.start {w : Lab} {spec : ℕ → HSpec} (hh : ∀ i, HRel (w.hans i).obj (spec i)) (hs : ∀ i, SLived (w.shep i).obj) :
    SessInv spec w w := ⟨hh, fun i => (hs i).rel, fun _ => rfl, fun _ => rfl, fun _ => rfl⟩

/-- C143: however many reads and assignments were abandoned, and wherever, nothing but the assigned attributes and the caches
of microscopes has changed: the models have their attributes and answer every later history as before. -/
theorem C143_session (I : LabImpl) (w : Lab) (hh : ∀ i, Lived (w.hans i).obj) (hs : ∀ i, SLived (w.shep i).obj) (cs : List (LCall × Option ℕ)) :
    let u := labSessionT I cs w
    (∀ i, (u.mics i).cfg.model = (w.mics i).cfg.model ∧ (u.mics i).cfg.psfParams = (w.mics i).cfg.psfParams ∧
      (u.mics i).cfg.pixelSize = (w.mics i).cfg.pixelSize ∧ (u.hans i).obj.params = (w.hans i).obj.params ∧
      (u.shep i).obj.params = (w.shep i).obj.params) ∧
    (∀ i ops, (runHistory HObj.step (u.hans i).obj ops).1 = (runHistory HObj.step (w.hans i).obj ops).1) ∧
    (∀ i ops, (runHistory SObj.step (u.shep i).obj ops).1 = (runHistory SObj.step (w.shep i).obj ops).1) := by
  intro u
  choose spec hspec using fun i => (hh i).rel
  have h := (SessInv.start hspec hs).session I cs
  refine ⟨fun i => ⟨h.model i, h.psfParams i, h.pixelSize i, ?_, ?_⟩, fun i ops => ?_, fun i ops => ?_⟩
  · exact (h.hans i).params.trans (hspec i).params.symm
  · exact (h.shep i).params
  · rw [(run_rel (h.hans i) ops).1, (run_rel (hspec i) ops).1]
  · rw [(SObj.run_rel (h.shep i) ops).1, (SObj.run_rel (hs i).rel ops).1]

/-- C143: and a microscope is repaired by the next assignment that changes something: from then on it answers every history
of reads and assignments as the microscope without any caches that has its attributes and the models as they were
before the session. -/
theorem C143_repair (I : LabImpl) (w : Lab) (hh : ∀ i, Lived (w.hans i).obj) (hs : ∀ i, SLived (w.shep i).obj) :
    ∃ model : MRef → ISpec, (∀ r, IRel (w.inner r) (model r)) ∧
    ∀ (cs : List (LCall × Option ℕ)) (i : ℕ) (b : Micro.MAttr) (v : PyVal),
    let u := labSessionT I cs w
    let r := Prog.alone (microSetT i b v) u
    r.1 = .ok () → (r.2.micro i).read b ≠ (u.micro i).read b →
    ∀ ops, (runHistory Micro.pstep (r.2.micro i) ops).1 = (runHistory MSpec.pstep ((r.2.mics i).cfg.spec model) ops).1 := by
  choose spec hspec using fun i => (hh i).rel
  refine ⟨(frameOf w spec []).inner, lab_inner hspec fun i => (hs i).rel, fun cs i b v => ?_⟩
  intro u r hr hch ops
  have h := (SessInv.start hspec hs).session I cs
  have h' : SessInv spec w r.2 := by
    obtain ⟨n, hn⟩ := Prog.cut_final (microSetT i b v) u
    show SessInv spec w (Prog.alone (microSetT i b v) u).2
    rw [← hn]; exact h.set i b v n
  have hin : ∀ q, IRel (r.2.inner q) ((frameOf w spec []).inner q) := by
    intro q
    cases q with
    | hanser j => exact h'.hans j
    | sheppard j => exact h'.shep j
  have hl : MLive (r.2.micro i) ((r.2.mics i).cfg.spec (frameOf w spec []).inner) :=
    ⟨rfl, rfl, rfl, hin _, krel_map hin _⟩
  refine prun_rel hl ?_ ops
  obtain ⟨a1, a2, -⟩ := C142_set_alone u i b v
  rw [show r.2.micro i = _ from a2] at hch ⊢
  rcases (set_cut u i b v 4).1 with ⟨-, h | h⟩ | ⟨-, h1, h2, -⟩
  · omega
  · rw [h] at hch; exact absurd rfl hch
  · exact ⟨by rw [h1]; simp, by rw [h2]; simp⟩

/-! ## Examples -/

theorem set_factor {m : Micro} {x : ℤ} (hx : m.oversample = .int x) {y : ℤ} (hy : 0 ≤ y) (hne : x ≠ y) :
    Micro.set .oversample (.int y) m = (.ok (), { m with oversample := .int y, psf := none, otf := none }) := by
  have hr : m.read .oversample = some (some (.int x)) := by rw [← hx]; rfl
  have hn : numericSet (Micro.vartype .oversample) (some (.int x)) (.int y) = .ok (some (.int y)) := by
    simp [numericSet, Micro.vartype, PyVal.isInt, PyVal.ltZero, PyVal.num?, PyFloat.lt, PyVal.ne, PyFloat.eq, hne, Bind.bind, Except.bind,
      pure, Except.pure, not_lt.mpr hy]
  rw [set_run, hr]
  simp only [hn, Micro.write, Micro.writeAttr]

/-- Non-vacuity of `C143_retry_stale`: `oversample_factor` is set from 3 to 1, abandoned when `PSF` is deleted, and set to 1 again:
`PSF` has 192 x 192 pixels, `OTF` is that of the PSF with 64 x 64 pixels. -/
theorem C143_stale_example : ∃ (w : Lab) (p p' : Arr ℝ), (∀ i, Lived (w.hans i).obj) ∧ (∀ i, SLived (w.shep i).obj) ∧
    p.shape = [64, 64, 64] ∧ p'.shape = [64, 192, 192] ∧
    (w.micro 0).oversample = .int 3 ∧ (w.micro 0).psf = some p ∧ (w.micro 0).otf = some (spectrum p) ∧
    let r := Prog.alone (microSetT 0 .oversample (.int 1)) ((microSetT 0 .oversample (.int 1)).cut 3 w)
    r.1 = .ok () ∧ (r.2.micro 0).oversample = .int 1 ∧ (Micro.getPSF (r.2.micro 0)).1 = .ok p' ∧ (Micro.getOTF (r.2.micro 0)).1 = .ok (spectrum p) := by
  obtain ⟨w, hh, hs, -, -, hnew, ⟨p, hps, -⟩, h⟩ := demo_lab
  obtain ⟨-, -, p', hp', hps'⟩ := h 0
  obtain ⟨m, _, _, _, h1, -⟩ := demoMicro
  have hov : (w.micro 0).oversample = .int 3 := by
    have h0 := hnew 0
    obtain ⟨h', v, cd, hn', -⟩ := widefield_setup demoMicroArgs 3 64 64 rfl
      130 520 (17/20) 1 130 rfl rfl rfl rfl rfl rfl (by norm_num [demoMicroArgs, Denotes, PyVal.num?])
      (by norm_num) (by norm_num [demoMicroArgs, Denotes, PyVal.num?]) (by norm_num)
      (by norm_num [demoMicroArgs, Denotes, PyVal.num?]) (by norm_num) (by norm_num)
      (by norm_num [demoMicroArgs, Denotes, PyVal.num?]) (by norm_num) (Or.inl rfl)
      (by constructor <;> simp [demoMicroArgs, NotSpecial, PsfParams.initArgs]) (by simp [demoMicroArgs]) (by simp [demoMicroArgs])
    rw [h0] at hn'
    rw [Except.ok.inj hn']; rfl
  set w' : Lab := { w with mics := fun i => { w.mics i with psf := some p, otf := some (spectrum p) } } with hw'
  have hov' : (w'.micro 0).oversample = .int 3 := hov
  have e := set_factor hov (y := 1) (by norm_num) (by norm_num)
  have e' := set_factor hov' (y := 1) (by norm_num) (by norm_num)
  have hsame : (Micro.set .oversample (.int 1) (w'.micro 0)).2 = (Micro.set .oversample (.int 1) (w.micro 0)).2 := by
    rw [e, e']; rfl
  have hrd : (w'.micro 0).read .oversample = some (some (.int 3)) := by rw [← hov']; rfl
  obtain ⟨-, r1, r2, r3, r4⟩ := C143_retry_stale w' hh hs 0 .oversample (.int 1) 1 (by norm_num [PyVal.num?]) (by rw [e'])
    (by rw [e', hrd]; simp [Micro.read, Micro.readAttr]) p rfl (spectrum p) rfl
  refine ⟨w', p, p', hh, hs, hps, hps', hov', rfl, rfl, r1, ?_, ?_, r4⟩
  · have := r2 .oversample
    rw [e'] at this
    simpa [Micro.read, Micro.readAttr] using this
  · rw [r3, hsame]; exact hp'

/-- Non-vacuity of `C143_repair`: after that, `oversample_factor` is set to 3 again. -/
example (I : LabImpl) : ∃ (w : Lab), (∀ i, Lived (w.hans i).obj) ∧ (∀ i, SLived (w.shep i).obj) ∧
    let u := labSessionT I [(.set 0 .oversample (.int 1), some 3), (.set 0 .oversample (.int 1), none)] w
    let r := Prog.alone (microSetT 0 .oversample (.int 3)) u
    r.1 = .ok () ∧ (r.2.micro 0).read .oversample ≠ (u.micro 0).read .oversample := by
  obtain ⟨w, p, p', hh, hs, -, -, -, -, -, -, h2, -⟩ := C143_stale_example
  refine ⟨w, hh, hs, ?_⟩
  intro u r
  have hu : (u.micro 0).oversample = .int 1 := h2
  obtain ⟨a1, a2, -⟩ := C142_set_alone u 0 .oversample (.int 3)
  rw [set_factor hu (y := 3) (by norm_num) (by norm_num)] at a1 a2
  refine ⟨a1, ?_⟩
  rw [show r.2.micro 0 = _ from a2]
  simp [Micro.read, Micro.readAttr, hu]

end PyOTF
