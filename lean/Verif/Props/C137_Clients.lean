import Verif.Props.C137_Threads
import Verif.Lemmas.Interrupt

/-!
# C137: client threads of `SheppardPSF` objects
-/

namespace PyOTF

open STM

variable {spec : ℕ → Params} {coh : ℕ → Prop}

/-- A read as an operation of a sequential history. -/
def ROp.toSOp : ROp → SOp
  | .PSFa => .readPSFa
  | .OTFa => .readOTFa
  | .PSFi => .readPSFi
  | .OTFi => .readOTFi

/-- Keep the result, whatever it is. -/
def sKeep {α : Type} (f : α → Out (Arr (Option ℂ)) (Arr (Option ℝ))) (p : STM α) : STM (Out (Arr (Option ℂ)) (Arr (Option ℝ))) :=
  Prog.bind p fun r => .ret (r.map f)

/-- One read of object `i`. -/
noncomputable def sReadT (I : SImpl) (i : ℕ) : ROp → STM (Out (Arr (Option ℂ)) (Arr (Option ℝ)))
  | .PSFa => sKeep .cplx (sPsfaT I i)
  | .OTFa => sKeep .cplx (sOtfaT I i)
  | .PSFi => sKeep .real (sPsfiT I i)
  | .OTFi => sKeep .cplx (sOtfiT I i)

/-- A thread that makes a list of reads and records what each returned or raised. -/
noncomputable def sThreadT (I : SImpl) : List (ℕ × ROp) → Prog SDicts Slot (List (Py (Out (Arr (Option ℂ)) (Arr (Option ℝ)))))
  | [] => .ret []
  | q :: qs => Prog.bind (sReadT I q.1 q.2) fun r => Prog.bind (sThreadT I qs) fun rs => .ret (r :: rs)

theorem ssafe_read (I : SImpl) (i : ℕ) (op : ROp) {s0 : SDicts} (hI : SInv spec coh s0) :
    SSafe spec coh (Post (SSpec.step (spec i) op.toSOp).1 (fun s => coh i → AllGood (spec i) (s i))) (sReadT I i op) s0 := by
  have hG : Stable spec (fun s => coh i → AllGood (spec i) (s i)) := fun s t h hg hc => stable_good i s t h (hg hc)
  have key : ∀ {α : Type} (f : α → Out (Arr (Option ℂ)) (Arr (Option ℝ))) (p : STM α) (x : Py α),
      SSafe spec coh (Post x (fun s => coh i → AllGood (spec i) (s i))) p s0 →
      SSafe spec coh (Post (x.map f) (fun s => coh i → AllGood (spec i) (s i))) (sKeep f p) s0 := by
    intro α f p x hp
    refine Prog.Safe.bind (sLe_trans spec) (sLe_refl spec) hp ?_ hI
    rintro r s1 ⟨rfl, h⟩ _ _
    refine fun t ht _ => ⟨rfl, fun ⟨a, ha⟩ => hG _ _ ht (h ?_)⟩
    rcases r with e | a
    · cases ha
    · exact ⟨a, rfl⟩
  cases op
  · exact key _ _ _ (ssafe_psfa I)
  · exact key _ _ _ (ssafe_otfa I)
  · exact key _ _ _ (ssafe_psfi I)
  · exact key _ _ _ (ssafe_otfi I)

theorem ssafe_thread (I : SImpl) (qs : List (ℕ × ROp)) {s0 : SDicts} (hI : SInv spec coh s0) :
    Prog.Safe (SInv spec coh) (sLe spec) (fun s rs => rs = qs.map (fun q => (SSpec.step (spec q.1) q.2.toSOp).1) ∧
      ∀ q ∈ qs, (∃ a, (SSpec.step (spec q.1) q.2.toSOp).1 = .ok a) → coh q.1 → AllGood (spec q.1) (s q.1))
      (sThreadT I qs) s0 := by
  induction qs generalizing s0 with
  | nil => exact fun _ _ _ => ⟨rfl, by simp⟩
  | cons q qs ih =>
    unfold sThreadT
    refine Prog.Safe.bind (sLe_trans spec) (sLe_refl spec) (ssafe_read I q.1 q.2 hI) ?_ hI
    rintro r s1 ⟨rfl, h1⟩ hI1 _
    refine Prog.Safe.bind (sLe_trans spec) (sLe_refl spec) (ih hI1) ?_ hI1
    rintro rs s2 ⟨rfl, h2⟩ _ l2
    refine fun t ht _ => ⟨rfl, fun q' hq' ha hc => ?_⟩
    rcases List.mem_cons.mp hq' with rfl | hq'
    · exact stable_good _ _ _ (sLe_trans spec _ _ _ l2 ht) (h1 ha hc)
    · exact stable_good _ _ _ ht (h2 q' hq' ha hc)

/-! ## Locks -/

/-- The order in which the locks are taken: `OTFi`, `PSFi`, `PSFa`, `OTFa`. -/
def sRank : Slot → ℕ
  | .otfa => 0
  | .psfa => 1
  | .psfi => 2
  | .otfi => 3

/-- A program that takes only locks of rank below `r`, and gives them back. -/
def SLockBelow {α : Type} (r : ℕ) (p : Prog SDicts Slot α) : Prop :=
  ∀ held : List Slot, (∀ l ∈ held, r ≤ sRank l) → p.DiscTo sRank held held

theorem SLockBelow.mono {α : Type} {r r' : ℕ} {p : Prog SDicts Slot α} (h : SLockBelow r p) (hr : r ≤ r') :
    SLockBelow r' p := fun held hh => h held fun l hl => hr.trans (hh l hl)

theorem SLockBelow.bind {α β : Type} {r : ℕ} {p : Prog SDicts Slot α} {f : α → Prog SDicts Slot β} (hp : SLockBelow r p)
    (hf : ∀ a, SLockBelow r (f a)) : SLockBelow r (Prog.bind p f) :=
  fun held hh => (hp held hh).bind fun a => hf a held hh

theorem sLockBelow_ret {α : Type} (r : ℕ) (a : α) : SLockBelow r (.ret a : Prog SDicts Slot α) := fun _ _ => rfl

theorem SLockBelow.tbind {α β : Type} {r : ℕ} {p : STM α} {f : α → STM β} (hp : SLockBelow r p)
    (hf : ∀ a, SLockBelow r (f a)) : SLockBelow r (STM.bind p f) :=
  SLockBelow.bind hp fun x => by rcases x with e | a; exacts [sLockBelow_ret _ _, hf a]

theorem sLockBelow_rd {α : Type} (r i : ℕ) (f : SCell → Py α) : SLockBelow r (rd i f) := fun _ _ _ => rfl
theorem sLockBelow_wr (r i : ℕ) (f : SCell → SCell) : SLockBelow r (wr i f) := fun _ _ _ => rfl
theorem sLockBelow_loc {α : Type} (r : ℕ) (x : Py α) : SLockBelow r (loc x) := fun _ _ => rfl

/-- Split a program into its steps. -/
macro "slock_steps" : tactic => `(tactic| repeat' (first
  | exact sLockBelow_rd _ _ _ | exact sLockBelow_wr _ _ _ | exact sLockBelow_loc _ _ | exact sLockBelow_ret _ _
  | assumption | refine SLockBelow.tbind ?_ (fun _ => ?_) | split))

theorem sLockBelow_masks (i n : ℕ) : SLockBelow 0 (sMasksT i n) := by
  induction n with
  | zero => exact sLockBelow_loc _ _
  | succ n ih => unfold sMasksT; slock_steps

theorem sLockBelow_genOtf (I : SImpl) (i : ℕ) : SLockBelow 0 (sGenOtfT I i) := by
  have h := sLockBelow_masks i
  unfold sGenOtfT sAttributeChangedT sGenKrT selectT sCondsT sVecTestT sSizesT
  repeat' (first
    | exact h _ | exact sLockBelow_rd _ _ _ | exact sLockBelow_wr _ _ _ | exact sLockBelow_loc _ _ | exact sLockBelow_ret _ _
    | refine SLockBelow.tbind ?_ (fun _ => ?_) | split)

theorem sLockBelow_cached {α : Type} (I : SImpl) {l : Slot} {i : ℕ} {get : SObj → Option α} {put : α → SObj → SObj}
    {func : STM α} (h : SLockBelow (sRank l) func) : SLockBelow (sRank l + 1) (sCachedT I l i get put func) := by
  have fill : SLockBelow (sRank l) (func.bind fun a => (wr i fun c => { c with obj := put a c.obj }).bind fun _ => loc (.ok a)) :=
    h.tbind fun a => by slock_steps
  have look : ∀ (r : ℕ) (k : STM α), SLockBelow r k → SLockBelow r (.act id fun s =>
        match get (s i).obj with
        | some a => .ret (.ok a)
        | none => k : STM α) := by
    intro r k hk held hh s
    rcases hg : get (s i).obj with _ | a
    · simp only [hg]; exact hk held hh
    · simp only [hg]; rfl
  unfold sCachedT
  refine look _ _ (look _ _ ?_)
  split_ifs
  · intro held hh
    refine ⟨fun l' hl' => hh l' hl', ?_⟩
    refine (look _ _ fill (l :: held) ?_).bind fun r => ⟨held, rfl, rfl⟩
    intro l' hl'
    rcases List.mem_cons.mp hl' with rfl | hl'
    · exact le_refl _
    · exact (Nat.le_succ _).trans (hh l' hl')
  · exact fill.mono (Nat.le_succ _)

theorem sLockBelow_otfa (I : SImpl) (i : ℕ) : SLockBelow 1 (sOtfaT I i) :=
  sLockBelow_cached I (l := .otfa) (sLockBelow_genOtf I i)

theorem sLockBelow_psfa (I : SImpl) (i : ℕ) : SLockBelow 2 (sPsfaT I i) :=
  sLockBelow_cached I (l := .psfa) (SLockBelow.tbind (sLockBelow_otfa I i) fun _ => sLockBelow_loc _ _)

theorem sLockBelow_psfi (I : SImpl) (i : ℕ) : SLockBelow 3 (sPsfiT I i) :=
  sLockBelow_cached I (l := .psfi) (SLockBelow.tbind (sLockBelow_psfa I i) fun _ => sLockBelow_loc _ _)

theorem sLockBelow_otfi (I : SImpl) (i : ℕ) : SLockBelow 4 (sOtfiT I i) :=
  sLockBelow_cached I (l := .otfi) (SLockBelow.tbind (sLockBelow_psfi I i) fun _ => sLockBelow_loc _ _)

theorem sLockBelow_thread (I : SImpl) (qs : List (ℕ × ROp)) : SLockBelow 4 (sThreadT I qs) := by
  induction qs with
  | nil => exact sLockBelow_ret _ _
  | cons q qs ih =>
    unfold sThreadT
    refine SLockBelow.bind ?_ fun r => ih.bind fun rs => sLockBelow_ret _ _
    obtain ⟨i, op⟩ := q
    cases op
    · exact ((sLockBelow_psfa I i).mono (by omega)).bind fun _ => sLockBelow_ret _ _
    · exact ((sLockBelow_otfa I i).mono (by omega)).bind fun _ => sLockBelow_ret _ _
    · exact ((sLockBelow_psfi I i).mono (by omega)).bind fun _ => sLockBelow_ret _ _
    · exact ((sLockBelow_otfi I i).mono (by omega)).bind fun _ => sLockBelow_ret _ _

/-! ## Number of steps -/

theorem sWithin_bind {α β : Type} {p : STM α} {f : α → STM β} {n m : ℕ} (hp : Prog.Within p n)
    (hf : ∀ a, Prog.Within (f a) m) : Prog.Within (STM.bind p f) (n + m) :=
  hp.bind fun x => by rcases x with e | a; exacts [trivial, hf a]

/-- One access, then the rest. -/
theorem sWithin_rd {α β : Type} {i : ℕ} {g : SCell → Py α} {f : α → STM β} {m : ℕ} (hf : ∀ a, Prog.Within (f a) m) :
    Prog.Within (STM.bind (rd i g) f) (m + 1) :=
  (sWithin_bind (p := rd i g) (n := 1) ⟨0, rfl, fun _ => trivial⟩ hf).mono (by omega)

@[inherit_doc sWithin_rd]
theorem sWithin_wr {β : Type} {i : ℕ} {g : SCell → SCell} {f : Unit → STM β} {m : ℕ} (hf : ∀ a, Prog.Within (f a) m) :
    Prog.Within (STM.bind (wr i g) f) (m + 1) :=
  (sWithin_bind (p := wr i g) (n := 1) ⟨0, rfl, fun _ => trivial⟩ hf).mono (by omega)

theorem sWithin_loc {α β : Type} {x : Py α} {f : α → STM β} {m : ℕ} (hf : ∀ a, Prog.Within (f a) m) :
    Prog.Within (STM.bind (loc x) f) m :=
  (sWithin_bind (p := loc x) (n := 0) trivial hf).mono (by omega)

theorem sWithin_end {α : Type} (x : Py α) : Prog.Within (loc x) 0 := trivial

theorem sWithin_last (i : ℕ) (g : SCell → SCell) : Prog.Within (wr i g) 1 := ⟨0, rfl, fun _ => trivial⟩

theorem sWithin_attributeChanged (i : ℕ) : Prog.Within (sAttributeChangedT i) 4 :=
  sWithin_wr (m := 3) fun _ => sWithin_wr (m := 2) fun _ => sWithin_wr (m := 1) fun _ => sWithin_last _ _

theorem sWithin_select (I : SImpl) (i : ℕ) (xy z : Grid) : Prog.Within (selectT I i xy z) 1 := by
  refine sWithin_rd (m := 0) fun _ => ?_
  split
  · trivial
  · exact sWithin_loc fun _ => sWithin_end _

theorem sWithin_genKr (I : SImpl) (i : ℕ) : Prog.Within (sGenKrT I i) 19 :=
  sWithin_rd (m := 18) fun _ => sWithin_rd (m := 17) fun _ => sWithin_loc fun _ => sWithin_rd (m := 16) fun _ =>
  sWithin_rd (m := 15) fun _ => sWithin_loc fun _ => sWithin_rd (m := 14) fun _ => sWithin_rd (m := 13) fun _ =>
  sWithin_loc fun _ => sWithin_wr (m := 12) fun _ => sWithin_loc fun _ => sWithin_loc fun _ => sWithin_wr (m := 11) fun _ =>
  sWithin_wr (m := 10) fun _ => sWithin_rd (m := 9) fun _ => sWithin_rd (m := 8) fun _ => sWithin_loc fun _ =>
  sWithin_loc fun _ => sWithin_rd (m := 7) fun _ => sWithin_wr (m := 6) fun _ =>
  sWithin_bind (n := 1) (m := 5) (sWithin_select _ _ _ _) fun _ => sWithin_bind (n := 1) (m := 4) (sWithin_select _ _ _ _) fun _ =>
  sWithin_bind (n := 1) (m := 3) (sWithin_select _ _ _ _) fun _ => sWithin_wr (m := 2) fun _ => sWithin_wr (m := 1) fun _ =>
  sWithin_last _ _

theorem sWithin_conds (i : ℕ) : Prog.Within (sCondsT i) 3 := by
  refine sWithin_rd (m := 2) fun _ => ?_
  split
  · trivial
  refine sWithin_rd (m := 1) fun _ => ?_
  split
  · trivial
  refine sWithin_rd (m := 0) fun _ => ?_
  split <;> trivial

theorem sWithin_masks (i n : ℕ) : Prog.Within (sMasksT i n) n := by
  induction n with
  | zero => trivial
  | succ n ih => exact sWithin_rd fun _ => (sWithin_bind (m := 0) ih fun _ => sWithin_end _)

theorem sWithin_sizes (i : ℕ) : Prog.Within (sSizesT i) 3 :=
  sWithin_rd (m := 2) fun _ => sWithin_rd (m := 1) fun _ => sWithin_rd (m := 0) fun _ => sWithin_end _

/-- A test of `self.vec_corr`, and what follows: at most two components are added. -/
theorem sWithin_vecTest {β : Type} {i : ℕ} {a : VecCorr} {f : List VecCorr × ℕ → STM β} {m : ℕ}
    (hf : ∀ r : List VecCorr × ℕ, r.2 ≤ 2 → Prog.Within (f r) m) : Prog.Within (STM.bind (sVecTestT i a) f) (m + 2) := by
  have e : STM.bind (sVecTestT i a) f = STM.bind (rd i fun c => attr c.obj.params.vecCorr) fun v1 =>
      STM.bind (if v1 = a then loc (.ok ([v1], 2)) else STM.bind (rd i fun c => attr c.obj.params.vecCorr) fun v2 =>
        loc (.ok ([v1, v2], if v2 = .total then 2 else 0))) f := by
    unfold sVecTestT STM.bind rd
    simp only [Prog.bind]
    congr 1
    funext s
    rcases attr (s i).obj.params.vecCorr with er | v <;> simp [Prog.bind]
  rw [e]
  refine (sWithin_rd (m := m + 1) fun v1 => ?_).mono (by omega)
  split
  · exact (hf _ (le_refl _)).mono (by omega)
  · refine ⟨m, rfl, fun s => ?_⟩
    show Prog.Within (Prog.bind (Prog.bind (.ret _) _) _) m
    rcases hv : attr (s i).obj.params.vecCorr with er | v
    · simp only [Prog.bind, hv]; trivial
    · simp only [Prog.bind, hv, loc]
      refine hf _ ?_
      dsimp only; split <;> omega

theorem sWithin_genOtf (I : SImpl) (i : ℕ) : Prog.Within (sGenOtfT I i) 45 := by
  refine sWithin_bind (n := 4) (m := 41) (sWithin_attributeChanged i) fun _ => ?_
  refine sWithin_bind (n := 19) (m := 22) (sWithin_genKr I i) fun _ => ?_
  refine sWithin_rd (m := 21) fun _ => sWithin_rd (m := 20) fun _ => sWithin_rd (m := 19) fun _ => ?_
  refine sWithin_bind (n := 3) (m := 16) (sWithin_conds i) fun _ => sWithin_rd (m := 15) fun _ => ?_
  split
  · exact (sWithin_bind (n := 3) (m := 1) (sWithin_sizes i) fun _ => sWithin_bind (m := 0) (sWithin_masks i 1) fun _ => sWithin_end _).mono
      (by omega)
  · refine sWithin_vecTest (m := 13) fun z hz => sWithin_vecTest (m := 11) fun y hy => sWithin_vecTest (m := 9) fun x hx => ?_
    exact sWithin_bind (n := 3) (m := 6) (sWithin_sizes i) fun _ =>
      sWithin_bind (n := 6) (m := 0) ((sWithin_masks i _).mono (by omega)) fun _ => sWithin_end _

theorem sWithin_cached {α : Type} (I : SImpl) {l : Slot} {i : ℕ} {get : SObj → Option α} {put : α → SObj → SObj}
    {func : STM α} {n : ℕ} (h : Prog.Within func n) : Prog.Within (sCachedT I l i get put func) (n + 6) := by
  have fill : Prog.Within (func.bind fun a => (wr i fun c => { c with obj := put a c.obj }).bind fun _ => loc (.ok a)) (n + 1) :=
    sWithin_bind h fun a => sWithin_wr (m := 0) fun _ => sWithin_end _
  have look : ∀ (m : ℕ) (k : STM α), Prog.Within k m → Prog.Within (.act id fun s =>
        match get (s i).obj with
        | some a => .ret (.ok a)
        | none => k : STM α) (m + 1) := by
    intro m k hk
    refine ⟨m, rfl, fun s => ?_⟩
    rcases hg : get (s i).obj with _ | a
    · simp only [hg]; exact hk
    · simp only [hg]; trivial
  unfold sCachedT
  refine look (n + 5) _ (look (n + 4) _ ?_)
  split_ifs
  · exact ⟨n + 3, rfl, (look _ _ fill).bind (m := 1) fun r => ⟨0, rfl, trivial⟩⟩
  · exact fill.mono (by omega)

theorem sWithin_keep {α : Type} (f : α → Out (Arr (Option ℂ)) (Arr (Option ℝ))) {p : STM α} {n : ℕ} (h : Prog.Within p n) :
    Prog.Within (sKeep f p) n := Prog.Within.bind (m := 0) h fun _ => trivial

/-- A read is at most 69 accesses. -/
theorem sWithin_read (I : SImpl) (i : ℕ) (op : ROp) : Prog.Within (sReadT I i op) 69 := by
  have h1 : Prog.Within (sOtfaT I i) 51 := sWithin_cached I (sWithin_genOtf I i)
  have h2 : Prog.Within (sPsfaT I i) 57 := sWithin_cached I (n := 51) (sWithin_bind (m := 0) h1 fun _ => sWithin_end _)
  have h3 : Prog.Within (sPsfiT I i) 63 := sWithin_cached I (n := 57) (sWithin_bind (m := 0) h2 fun _ => sWithin_end _)
  have h4 : Prog.Within (sOtfiT I i) 69 := sWithin_cached I (n := 63) (sWithin_bind (m := 0) h3 fun _ => sWithin_end _)
  cases op
  · exact (sWithin_keep _ h2).mono (by omega)
  · exact (sWithin_keep _ h1).mono (by omega)
  · exact (sWithin_keep _ h3).mono (by omega)
  · exact (sWithin_keep _ h4).mono (by omega)

theorem sWithin_thread (I : SImpl) (qs : List (ℕ × ROp)) : Prog.Within (sThreadT I qs) (69 * qs.length) := by
  induction qs with
  | nil => trivial
  | cons q qs ih =>
    unfold sThreadT
    refine ((sWithin_read I q.1 q.2).bind (m := 69 * qs.length) fun r => ?_).mono (by simp; omega)
    exact ih.bind (m := 0) fun _ => trivial

/-! ## C137 -/

/-- A `SheppardPSF` with any history behind it. -/
def SLived (o : SObj) : Prop := ∃ a dual o0 ops, SObj.new a dual = .ok o0 ∧ o = (runHistory SObj.step o0 ops).2

theorem SLived.rel {o : SObj} (h : SLived o) : SRel o o.params := by
  obtain ⟨a, dual, o0, ops, h1, rfl⟩ := h
  obtain ⟨h2, h3⟩ := sheppard_ready h1
  have hrel : SRel o0 o0.params := by rw [h3]; exact SObj.rel_cleared h2
  have := (SObj.run_rel hrel ops).2
  rw [this.params]; exact this

/-- C137: any number of threads read any outputs of any `SheppardPSF` objects (each with any history behind it, and any
leftovers of earlier computations among its attributes), in any interleaving of their accesses, with either version of
`cached_property`.  Every read returns or raises what the same read would have on the untouched object by a single
thread.  And at every moment - in the middle of everything - each object has its old parameters and will answer
every later history of operations as the untouched object would. -/
theorem C137_concurrent_reads (I : SImpl) (heap : SDicts) (hh : ∀ i, SLived (heap i).obj)
    (threads : List (List (ℕ × ROp))) (sched : List ℕ) :
    let c := (Conf.start heap (threads.map (sThreadT I))).run sched
    (∀ (j : ℕ) (qs : List (ℕ × ROp)) rs, threads[j]? = some qs → c.thread[j]? = some (.ret rs) →
      rs = qs.map fun q => (SObj.step (heap q.1).obj q.2.toSOp).1) ∧
    (∀ i, (c.heap i).obj.params = (heap i).obj.params) ∧
    (∀ i ops, (runHistory SObj.step (c.heap i).obj ops).1 = (runHistory SObj.step (heap i).obj ops).1) := by
  intro c
  set spec : ℕ → Params := fun i => (heap i).obj.params with hspec
  have hrel : ∀ i, SRel (heap i).obj (spec i) := fun i => (hh i).rel
  have hI : SInv spec (fun _ => False) heap := fun i => ⟨hrel i, False.elim⟩
  have hsafe : (Conf.start heap (threads.map (sThreadT I))).AllSafe (SInv spec fun _ => False) (sLe spec)
      (fun j rs => ∀ qs, threads[j]? = some qs → rs = qs.map fun q => (SSpec.step (spec q.1) q.2.toSOp).1) := by
    refine ⟨hI, fun j p hj => ?_⟩
    simp only [Conf.start, List.getElem?_map] at hj
    rcases hq : threads[j]? with _ | qs
    · rw [hq] at hj; cases hj
    · rw [hq] at hj
      cases hj
      refine (ssafe_thread I qs hI).imp ?_
      rintro s rs ⟨rfl, -⟩ qs' h'
      rw [hq] at h'; cases h'; rfl
  obtain ⟨h1, h2⟩ := hsafe.run (sLe_trans spec) (sLe_refl spec) sched
  refine ⟨fun j qs rs hq hr => ?_, fun i => (h1 i).1.params, fun i ops => ?_⟩
  · have := h2 j _ hr _ (sLe_refl spec _) h1 qs hq
    rw [this]
    exact List.map_congr_left fun q _ => (SObj.step_rel (hrel q.1) q.2.toSOp).1.symm
  · rw [(SObj.run_rel (h1 i).1 ops).1, (SObj.run_rel (hrel i) ops).1]

/-- C137: the threads never wait for each other in a circle and never loop: there is no schedule with more than 69
steps per read in it, and when no thread can make a step all of them are finished. -/
theorem C137_terminates (I : SImpl) (heap : SDicts) (threads : List (List (ℕ × ROp))) :
    (∀ sched, (Conf.start heap (threads.map (sThreadT I))).Live sched → sched.length ≤ 69 * (threads.map List.length).sum) ∧
    (∀ sched, (∀ i, ¬ ((Conf.start heap (threads.map (sThreadT I))).run sched).Enabled i) →
      ∀ (j : ℕ) p, ((Conf.start heap (threads.map (sThreadT I))).run sched).thread[j]? = some p → ∃ rs, p = Prog.ret rs) := by
  constructor
  · intro sched hl
    have := Conf.live_bounded (b := threads.map fun qs => 69 * qs.length) (by simp [Conf.start]) ?_ hl
    · refine this.trans (le_of_eq ?_)
      clear this hl
      induction threads with
      | nil => rfl
      | cons t ts ih => simp only [List.map_cons, List.sum_cons, ih, Nat.mul_add]
    · intro j p hj
      simp only [Conf.start, List.getElem?_map] at hj
      rcases hq : threads[j]? with _ | qs
      · rw [hq] at hj; cases hj
      · rw [hq] at hj
        cases hj
        simpa [List.getD_eq_getElem?_getD, hq] using sWithin_thread I qs
  · intro sched hs j p hj
    have h0 : (Conf.start heap (threads.map (sThreadT I))).AllDisc sRank (fun _ => []) := by
      refine Conf.start_disc fun p hp => ?_
      obtain ⟨qs, -, rfl⟩ := List.mem_map.mp hp
      exact Prog.disc_iff.mpr (sLockBelow_thread I qs [] (by simp))
    obtain ⟨held, h1⟩ := h0.run sched
    exact h1.no_deadlock hs j p hj

/-- C137: a read that is abandoned after any number of accesses (`KeyboardInterrupt`, `MemoryError`) leaves every object
with its parameters and with the answers to all later histories it would have given without the read. -/
theorem C137_interrupted_read (I : SImpl) (i : ℕ) (r : ROp) (n : ℕ) (heap : SDicts) (hh : ∀ j, SLived (heap j).obj) (j : ℕ) :
    (((sReadT I i r).cut n heap) j).obj.params = (heap j).obj.params ∧
    ∀ ops, (runHistory SObj.step (((sReadT I i r).cut n heap) j).obj ops).1 = (runHistory SObj.step (heap j).obj ops).1 := by
  have hI : SInv (fun i => (heap i).obj.params) (fun _ => False) heap := fun i => ⟨(hh i).rel, False.elim⟩
  have hI' := (ssafe_read I i r hI).cut (sLe_refl _) hI n
  refine ⟨(hI' j).1.params, fun ops => ?_⟩
  rw [(SObj.run_rel (hI' j).1 ops).1, (SObj.run_rel (hI j).1 ops).1]

end PyOTF
