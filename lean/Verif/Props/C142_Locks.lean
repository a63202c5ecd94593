import Verif.Props.C142_Reads
import Verif.Props.C133_Threads
import Verif.Props.C137_Clients

/-!
# C142: threads that read microscopes do not wait for each other in a circle
-/

namespace PyOTF

open LTM

/-! ## Locks -/

/-- The order in which the locks are taken: the microscopes' `OTF`, `PSF`, then the models' `OTFi`, `PSFi`, then
`OTFa`, `PSFa` of a `HanserPSF` and `PSFa`, `OTFa` of a `SheppardPSF`. -/
def labRank : LabLock → ℕ
  | .hanserPSFa => 0
  | .hanserOTFa => 1
  | .sheppardOTFa => 0
  | .sheppardPSFa => 1
  | .PSFi => 2
  | .OTFi => 3
  | .microPSF => 4
  | .microOTF => 5

/-- A program that takes only locks of rank below `r`, and gives them back. -/
def LLockBelow {α : Type} (r : ℕ) (p : Prog Lab LabLock α) : Prop :=
  ∀ held : List LabLock, (∀ l ∈ held, r ≤ labRank l) → p.DiscTo labRank held held

theorem LLockBelow.mono {α : Type} {r r' : ℕ} {p : Prog Lab LabLock α} (h : LLockBelow r p) (hr : r ≤ r') :
    LLockBelow r' p := fun held hh => h held fun l hl => hr.trans (hh l hl)

theorem LLockBelow.bind {α β : Type} {r : ℕ} {p : Prog Lab LabLock α} {f : α → Prog Lab LabLock β} (hp : LLockBelow r p)
    (hf : ∀ a, LLockBelow r (f a)) : LLockBelow r (Prog.bind p f) :=
  fun held hh => (hp held hh).bind fun a => hf a held hh

theorem lLockBelow_ret {α : Type} (r : ℕ) (a : α) : LLockBelow r (.ret a : Prog Lab LabLock α) := fun _ _ => rfl

theorem LLockBelow.tbind {α β : Type} {r : ℕ} {p : LTM α} {f : α → LTM β} (hp : LLockBelow r p)
    (hf : ∀ a, LLockBelow r (f a)) : LLockBelow r (LTM.bind p f) :=
  LLockBelow.bind hp fun x => by rcases x with e | a; exacts [lLockBelow_ret _ _, hf a]

theorem lLockBelow_rd {α : Type} (r i : ℕ) (f : MConfig → Py α) : LLockBelow r (rd i f) := fun _ _ _ => rfl
theorem lLockBelow_wr (r i : ℕ) (f : MCell → MCell) : LLockBelow r (wr i f) := fun _ _ _ => rfl
theorem lLockBelow_loc {α : Type} (r : ℕ) (x : Py α) : LLockBelow r (loc x) := fun _ _ => rfl
theorem lLockBelow_rdModel {α : Type} (r : ℕ) (m : MRef) (f : Params → Py α) : LLockBelow r (rdModel m f) := fun _ _ _ => rfl

theorem hanserLock_rank (l : Slot) : labRank (hanserLock l) < 4 := by cases l <;> decide
theorem sheppardLock_rank (l : Slot) : labRank (sheppardLock l) < 4 := by cases l <;> decide

theorem lLockBelow_hanser {α : Type} {p : Prog Dicts Slot α} (h : LockBelow 3 p) :
    LLockBelow 4 (p.lift Lab.hans (fun h w => { w with hans := h }) hanserLock) := by
  intro held hh
  have := (h [] (by simp)).lift (rank' := labRank) (name := hanserLock) (get := Lab.hans) (put := fun h w => { w with hans := h })
    (by intro l l' h; cases l <;> cases l' <;> revert h <;> decide) held fun l m hm => (hanserLock_rank l).trans_le (hh m hm)
  simpa using this

theorem lLockBelow_sheppard {α : Type} {p : Prog SDicts Slot α} (h : SLockBelow 4 p) :
    LLockBelow 4 (p.lift Lab.shep (fun s w => { w with shep := s }) sheppardLock) := by
  intro held hh
  have := (h [] (by simp)).lift (rank' := labRank) (name := sheppardLock) (get := Lab.shep) (put := fun s w => { w with shep := s })
    (by intro l l' h; cases l <;> cases l' <;> revert h <;> decide) held fun l m hm => (sheppardLock_rank l).trans_le (hh m hm)
  simpa using this

theorem lLockBelow_modelPSFi (I : LabImpl) (r : MRef) : LLockBelow 4 (modelPSFiT I r) := by
  cases r with
  | hanser j => exact lLockBelow_hanser ((lockBelow_psfi I.h j).mono (by omega))
  | sheppard j => exact (lLockBelow_sheppard ((sLockBelow_psfi I.s j).mono (by omega))).tbind fun _ => lLockBelow_loc _ _

theorem lLockBelow_modelOTFi (I : LabImpl) (r : MRef) : LLockBelow 4 (modelOTFiT I r) := by
  cases r with
  | hanser j => exact lLockBelow_hanser (lockBelow_otfi I.h j)
  | sheppard j => exact (lLockBelow_sheppard (sLockBelow_otfi I.s j)).tbind fun _ => lLockBelow_loc _ _

/-- Split a program into its steps. -/
macro "llock_steps" : tactic => `(tactic| repeat' (first
  | exact lLockBelow_rd _ _ _ | exact lLockBelow_wr _ _ _ | exact lLockBelow_loc _ _ | exact lLockBelow_ret _ _
  | exact lLockBelow_rdModel _ _ _ | exact lLockBelow_modelPSFi _ _ | exact lLockBelow_modelOTFi _ _
  | refine LLockBelow.tbind ?_ (fun _ => ?_) | split))

theorem lLockBelow_modelPsf (I : LabImpl) (i : ℕ) : LLockBelow 4 (microModelPsfT I i) := by
  unfold microModelPsfT withModel pinholeT simFilteredT withModel rdSim
  llock_steps

theorem lLockBelow_cached {α : Type} (I : LabImpl) {l : LabLock} {i : ℕ} {get : MCell → Option α} {put : α → MCell → MCell}
    {func : LTM α} (h : LLockBelow (labRank l) func) : LLockBelow (labRank l + 1) (microCachedT I l i get put func) := by
  have fill : LLockBelow (labRank l) (func.bind fun a => (wr i (put a)).bind fun _ => loc (.ok a)) :=
    h.tbind fun a => by llock_steps
  have look : ∀ (r : ℕ) (k : LTM α), LLockBelow r k → LLockBelow r (.act id fun w =>
        match get (w.mics i) with
        | some a => .ret (.ok a)
        | none => k : LTM α) := by
    intro r k hk held hh w
    rcases hg : get (w.mics i) with _ | a
    · simp only [hg]; exact hk held hh
    · simp only [hg]; rfl
  unfold microCachedT
  refine look _ _ (look _ _ ?_)
  split_ifs
  · intro held hh
    refine ⟨fun l' hl' => hh l' hl', ?_⟩
    refine (look _ _ fill (l :: held) ?_).bind fun r => ⟨held, rfl, rfl⟩
    intro l' hl'
    rcases List.mem_cons.mp hl' with rfl | hl'
    · exact le_refl _
    · exact (Nat.le_succ _).trans (hh l' hl')
  · exact fill.mono (Nat.le_succ _)

theorem lLockBelow_PSF (I : LabImpl) (i : ℕ) : LLockBelow 5 (microPSFT I i) :=
  lLockBelow_cached I (l := .microPSF) ((lLockBelow_modelPsf I i).tbind fun _ => by
    show LLockBelow 4 _
    llock_steps)

theorem lLockBelow_OTF (I : LabImpl) (i : ℕ) : LLockBelow 6 (microOTFT I i) :=
  lLockBelow_cached I (l := .microOTF) (LLockBelow.tbind (r := 5) (lLockBelow_PSF I i) fun _ => lLockBelow_loc _ _)

theorem lLockBelow_read (I : LabImpl) (q : LOp) : LLockBelow 6 (labReadT I q) := by
  cases q with
  | PSF i => exact ((lLockBelow_PSF I i).mono (by omega)).bind fun _ => lLockBelow_ret _ _
  | OTF i => exact (lLockBelow_OTF I i).bind fun _ => lLockBelow_ret _ _
  | modelPsf i => exact ((lLockBelow_modelPsf I i).mono (by omega)).bind fun _ => lLockBelow_ret _ _
  | hanser i r =>
    refine LLockBelow.bind ((lLockBelow_hanser ?_).mono (by omega)) fun _ => lLockBelow_ret _ _
    cases r
    · exact ((lockBelow_psfa I.h i).mono (by omega)).bind fun _ => lockBelow_ret _ _
    · exact ((lockBelow_otfa I.h i).mono (by omega)).bind fun _ => lockBelow_ret _ _
    · exact ((lockBelow_psfi I.h i).mono (by omega)).bind fun _ => lockBelow_ret _ _
    · exact ((lockBelow_otfi I.h i).mono (by omega)).bind fun _ => lockBelow_ret _ _
  | sheppard i r =>
    refine LLockBelow.bind ((lLockBelow_sheppard ?_).mono (by omega)) fun _ => lLockBelow_ret _ _
    cases r
    · exact ((sLockBelow_psfa I.s i).mono (by omega)).bind fun _ => sLockBelow_ret _ _
    · exact ((sLockBelow_otfa I.s i).mono (by omega)).bind fun _ => sLockBelow_ret _ _
    · exact ((sLockBelow_psfi I.s i).mono (by omega)).bind fun _ => sLockBelow_ret _ _
    · exact ((sLockBelow_otfi I.s i).mono (by omega)).bind fun _ => sLockBelow_ret _ _

theorem lLockBelow_thread (I : LabImpl) (qs : List LOp) : LLockBelow 6 (labThreadT I qs) := by
  induction qs with
  | nil => exact lLockBelow_ret _ _
  | cons q qs ih => exact LLockBelow.bind (lLockBelow_read I q) fun r => ih.bind fun rs => lLockBelow_ret _ _

/-! ## Number of steps -/

theorem lWithin_bind {α β : Type} {p : LTM α} {f : α → LTM β} {n m : ℕ} (hp : Prog.Within p n)
    (hf : ∀ a, Prog.Within (f a) m) : Prog.Within (LTM.bind p f) (n + m) :=
  hp.bind fun x => by rcases x with e | a; exacts [trivial, hf a]

theorem lWithin_rd {α β : Type} {i : ℕ} {g : MConfig → Py α} {f : α → LTM β} {m : ℕ} (hf : ∀ a, Prog.Within (f a) m) :
    Prog.Within (LTM.bind (rd i g) f) (m + 1) :=
  (lWithin_bind (p := rd i g) (n := 1) ⟨0, rfl, fun _ => trivial⟩ hf).mono (by omega)

theorem lWithin_loc {α β : Type} {x : Py α} {f : α → LTM β} {m : ℕ} (hf : ∀ a, Prog.Within (f a) m) :
    Prog.Within (LTM.bind (loc x) f) m :=
  (lWithin_bind (p := loc x) (n := 0) trivial hf).mono (by omega)

theorem lWithin_end {α : Type} (x : Py α) (m : ℕ) : Prog.Within (loc x) m := Prog.Within.mono (n := 0) trivial (by omega)

theorem lWithin_modelPSFi (I : LabImpl) (r : MRef) : Prog.Within (modelPSFiT I r) 63 := by
  cases r with
  | hanser j =>
    have h1 : Prog.Within (psfaT I.h j) 39 := within_cached I.h (within_genPsf I.h j none)
    have h3 : Prog.Within (psfiT I.h j) 45 := within_cached I.h (n := 39) (within_tbind (m := 0) h1 fun _ => within_loc _)
    exact h3.lift.mono (by omega)
  | sheppard j =>
    have h1 : Prog.Within (sOtfaT I.s j) 51 := sWithin_cached I.s (sWithin_genOtf I.s j)
    have h2 : Prog.Within (sPsfaT I.s j) 57 := sWithin_cached I.s (n := 51) (sWithin_bind (m := 0) h1 fun _ => sWithin_end _)
    have h3 : Prog.Within (sPsfiT I.s j) 63 := sWithin_cached I.s (n := 57) (sWithin_bind (m := 0) h2 fun _ => sWithin_end _)
    exact lWithin_bind (n := 63) (m := 0) h3.lift fun _ => lWithin_end _ _

theorem lWithin_modelOTFi (I : LabImpl) (r : MRef) : Prog.Within (modelOTFiT I r) 69 := by
  cases r with
  | hanser j =>
    have h1 : Prog.Within (psfaT I.h j) 39 := within_cached I.h (within_genPsf I.h j none)
    have h3 : Prog.Within (psfiT I.h j) 45 := within_cached I.h (n := 39) (within_tbind (m := 0) h1 fun _ => within_loc _)
    have h4 : Prog.Within (otfiT I.h j) 51 := within_cached I.h (n := 45) (within_tbind (m := 0) h3 fun _ => within_loc _)
    exact h4.lift.mono (by omega)
  | sheppard j =>
    have h1 : Prog.Within (sOtfaT I.s j) 51 := sWithin_cached I.s (sWithin_genOtf I.s j)
    have h2 : Prog.Within (sPsfaT I.s j) 57 := sWithin_cached I.s (n := 51) (sWithin_bind (m := 0) h1 fun _ => sWithin_end _)
    have h3 : Prog.Within (sPsfiT I.s j) 63 := sWithin_cached I.s (n := 57) (sWithin_bind (m := 0) h2 fun _ => sWithin_end _)
    have h4 : Prog.Within (sOtfiT I.s j) 69 := sWithin_cached I.s (n := 63) (sWithin_bind (m := 0) h3 fun _ => sWithin_end _)
    exact lWithin_bind (n := 69) (m := 0) h4.lift fun _ => lWithin_end _ _

theorem lWithin_withModel {α : Type} {i : ℕ} {f : MRef → LTM α} {m : ℕ} (hf : ∀ r, Prog.Within (f r) m) :
    Prog.Within (withModel i f) (m + 1) := lWithin_rd hf

theorem lWithin_pinhole (i : ℕ) : Prog.Within (pinholeT i) 7 := by
  have one : ∀ {α : Type} (g : Params → Py α), Prog.Within (withModel i fun r => rdModel r g) 2 :=
    fun g => lWithin_withModel (m := 1) fun r => ⟨0, rfl, fun _ => trivial⟩
  unfold pinholeT
  refine lWithin_bind (n := 2) (m := 5) (one _) fun _ => lWithin_bind (n := 2) (m := 3) (one _) fun _ =>
    lWithin_bind (n := 2) (m := 1) (one _) fun _ => lWithin_loc fun _ => lWithin_rd (m := 0) fun _ => lWithin_end _ _

theorem lWithin_filtered (I : LabImpl) (i : ℕ) : Prog.Within (simFilteredT I i) 71 := by
  unfold simFilteredT
  refine lWithin_rd (m := 70) fun wiener => ?_
  split
  · exact (lWithin_withModel (m := 63) (lWithin_modelPSFi I)).mono (by omega)
  · refine lWithin_loc fun x => ?_
    split
    · refine lWithin_bind (n := 70) (m := 0) (lWithin_withModel (m := 69) (lWithin_modelOTFi I)) fun _ => ?_
      split <;> exact lWithin_end _ _
    · exact lWithin_end _ _

theorem lWithin_modelPsf (I : LabImpl) (i : ℕ) : Prog.Within (microModelPsfT I i) 136 := by
  unfold microModelPsfT
  refine lWithin_rd (m := 135) fun k => ?_
  split
  · exact (lWithin_withModel (m := 63) (lWithin_modelPSFi I)).mono (by omega)
  · exact (lWithin_bind (n := 64) (m := 1) (lWithin_withModel (m := 63) (lWithin_modelPSFi I)) fun _ =>
      lWithin_rd (m := 0) fun _ => lWithin_end _ _).mono (by omega)
  · exact lWithin_bind (n := 7) (m := 128) (lWithin_pinhole i) fun _ =>
      lWithin_bind (n := 64) (m := 64) (lWithin_withModel (m := 63) (lWithin_modelPSFi I)) fun _ => lWithin_loc fun _ =>
      lWithin_rd (m := 63) fun _ => lWithin_bind (n := 63) (m := 0) (lWithin_modelPSFi I _) fun _ => lWithin_end _ _
  · refine Prog.Within.mono (n := 78) ?_ (by omega)
    exact lWithin_rd (m := 77) fun _ => lWithin_rd (m := 76) fun _ => lWithin_rd (m := 75) fun _ => lWithin_loc fun _ =>
      lWithin_bind (n := 71) (m := 4) (lWithin_filtered I i) fun _ => lWithin_rd (m := 3) fun _ => lWithin_rd (m := 2) fun _ =>
      lWithin_rd (m := 1) fun _ => lWithin_rd (m := 0) fun _ => lWithin_end _ _

theorem lWithin_cached {α : Type} (I : LabImpl) {l : LabLock} {i : ℕ} {get : MCell → Option α} {put : α → MCell → MCell}
    {func : LTM α} {n : ℕ} (h : Prog.Within func n) : Prog.Within (microCachedT I l i get put func) (n + 6) := by
  have fill : Prog.Within (func.bind fun a => (wr i (put a)).bind fun _ => loc (.ok a)) (n + 1) :=
    lWithin_bind h fun a => lWithin_bind (p := wr i (put a)) (n := 1) (m := 0) ⟨0, rfl, fun _ => trivial⟩ fun _ => lWithin_end _ _
  have look : ∀ (m : ℕ) (k : LTM α), Prog.Within k m → Prog.Within (.act id fun w =>
        match get (w.mics i) with
        | some a => .ret (.ok a)
        | none => k : LTM α) (m + 1) := by
    intro m k hk
    refine ⟨m, rfl, fun w => ?_⟩
    rcases hg : get (w.mics i) with _ | a
    · simp only [hg]; exact hk
    · simp only [hg]; trivial
  unfold microCachedT
  refine look (n + 5) _ (look (n + 4) _ ?_)
  split_ifs
  · exact ⟨n + 3, rfl, (look _ _ fill).bind (m := 1) fun r => ⟨0, rfl, trivial⟩⟩
  · exact fill.mono (by omega)

/-- A read is at most 150 accesses. -/
theorem lWithin_read (I : LabImpl) (q : LOp) : Prog.Within (labReadT I q) 150 := by
  have h1 : ∀ i, Prog.Within (microPSFT I i) 144 := fun i => lWithin_cached I (n := 138)
    (lWithin_bind (n := 136) (m := 2) (lWithin_modelPsf I i) fun _ => lWithin_rd (m := 1) fun _ => lWithin_rd (m := 0) fun _ => lWithin_end _ _)
  have h2 : ∀ i, Prog.Within (microOTFT I i) 150 := fun i => lWithin_cached I (n := 144)
    (lWithin_bind (n := 144) (m := 0) (h1 i) fun _ => lWithin_end _ _)
  have ret : ∀ {α : Type} {p : Prog Lab LabLock α} {f : α → LSeen} {n : ℕ}, Prog.Within p n → n ≤ 150 →
      Prog.Within (Prog.bind p fun r => .ret (f r)) 150 := 
    fun {α p f n} h hn => (Prog.Within.bind (f := fun r => .ret (f r)) (m := 0) h fun _ => trivial).mono (by omega)
  cases q with
  | PSF i => exact ret (h1 i) (by omega)
  | OTF i => exact ret (h2 i) (by omega)
  | modelPsf i => exact ret (lWithin_modelPsf I i) (by omega)
  | hanser i r => exact ret (within_read I.h i r).lift (by omega)
  | sheppard i r => exact ret (sWithin_read I.s i r).lift (by omega)

theorem lWithin_thread (I : LabImpl) (qs : List LOp) : Prog.Within (labThreadT I qs) (150 * qs.length) := by
  induction qs with
  | nil => trivial
  | cons q qs ih =>
    unfold labThreadT
    refine ((lWithin_read I q).bind (m := 150 * qs.length) fun r => ?_).mono (by simp; omega)
    exact ih.bind (m := 0) fun _ => trivial

/-- C142: threads that read microscopes and models never wait for each other in a circle and never loop: there is no
schedule with more than 150 steps per read in it, and when no thread can make a step all of them are finished. -/
theorem C142_terminates (I : LabImpl) (w : Lab) (threads : List (List LOp)) :
    (∀ sched, (Conf.start w (threads.map (labThreadT I))).Live sched → sched.length ≤ 150 * (threads.map List.length).sum) ∧
    (∀ sched, (∀ i, ¬ ((Conf.start w (threads.map (labThreadT I))).run sched).Enabled i) →
      ∀ (j : ℕ) p, ((Conf.start w (threads.map (labThreadT I))).run sched).thread[j]? = some p → ∃ rs, p = Prog.ret rs) := by
  constructor
  · intro sched hl
    have := Conf.live_bounded (b := threads.map fun qs => 150 * qs.length) (by simp [Conf.start]) ?_ hl
    · refine this.trans (le_of_eq ?_)
      clear this hl
      induction threads with
      | nil => rfl
      | cons t ts ih => simp only [List.map_cons, List.sum_cons, ih, Nat.mul_add]
    · intro j p hj
      simp only [Conf.start, List.getElem?_map] at hj
      rcases hq : threads[j]? with _ | qs
      · rw [hq] at hj; cases hj
      · rw [hq] at hj
        cases hj
        simpa [List.getD_eq_getElem?_getD, hq] using lWithin_thread I qs
  · intro sched hs j p hj
    have h0 : (Conf.start w (threads.map (labThreadT I))).AllDisc labRank (fun _ => []) := by
      refine Conf.start_disc fun p hp => ?_
      obtain ⟨qs, -, rfl⟩ := List.mem_map.mp hp
      exact Prog.disc_iff.mpr (lLockBelow_thread I qs [] (by simp))
    obtain ⟨held, h1⟩ := h0.run sched
    exact h1.no_deadlock hs j p hj

end PyOTF
