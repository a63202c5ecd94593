import Verif.Lemmas.PrProg

/-!
# What `generate_psf` returns, and what it leaves alone
-/

namespace PyOTF

variable {α β : Type}

/-- No real array is created or changed. -/
def SameReal (f : PyM RState α) : Prop := ∀ s, (f s).2.mem.real = s.mem.real

theorem SameReal.bind {f : PyM RState α} {g : α → PyM RState β} (hf : SameReal f) (hg : ∀ a, SameReal (g a)) : SameReal (f >>= g) := by
  intro s
  have h1 := hf s
  rw [PyM.bind_apply]
  rcases q : f s with ⟨e | a, s'⟩ <;> rw [q] at h1
  · exact h1
  · exact (hg a s').trans h1

theorem SameReal.onObj (m : PyM (Obj ℕ ℕ) α) : SameReal (RState.onObj m) := fun _ => rfl
theorem SameReal.lift (x : Py α) : SameReal (PyM.lift x : PyM RState α) := by rcases x with e | a <;> exact fun _ => rfl
theorem SameReal.pure (x : α) : SameReal (pure x : PyM RState α) := fun _ => rfl
theorem SameReal.get : SameReal (PyM.get : PyM RState RState) := fun _ => rfl
theorem SameReal.allocC (a : Arr ℂ) : SameReal (RState.allocC a) := fun _ => rfl
theorem SameReal.allocZ (a : List PyFloat) : SameReal (RState.allocZ a) := fun _ => rfl
theorem SameReal.derefC (r : ℕ) : SameReal (RState.derefC r) := by
  intro s
  simp only [RState.derefC]
  rcases s.mem.cplx[r]? with _ | a <;> rfl

theorem same_assignZrange (r : ℕ) : SameReal (RState.assignZrange r) := SameReal.bind (fun _ => rfl) fun _ => SameReal.onObj _
theorem same_setZrange (v : ZArg) : SameReal (RState.setZrange v) := SameReal.bind (SameReal.allocZ _) fun _ => same_assignZrange _
theorem same_genZrange : SameReal RState.genZrange :=
  SameReal.bind (SameReal.onObj _) fun _ => SameReal.bind (SameReal.onObj _) fun _ => SameReal.bind (SameReal.lift _) fun _ => same_setZrange _

theorem SameReal.ignore {f : PyM RState Unit} (hf : SameReal f) (e : Err) : SameReal (PyM.ignore e f) := by
  intro s
  have h := hf s
  unfold PyM.ignore
  rcases q : f s with ⟨x | a, s'⟩ <;> rw [q] at h
  · simp only
    split <;> exact h
  · exact h

theorem same_set (a : Attr) (v : PyVal) : SameReal (RState.set a v) := by
  cases a <;> first
    | exact SameReal.onObj _
    | exact SameReal.bind (SameReal.onObj _) fun _ => same_genZrange.ignore _

theorem same_genPsf (P : Option (Arr ℂ)) : SameReal (RState.genPsf P) :=
  SameReal.bind (SameReal.onObj _) fun _ => SameReal.bind SameReal.get fun _ => SameReal.lift _

theorem same_applyPupil (P : Arr ℂ) : SameReal (RState.applyPupil P) :=
  SameReal.bind (SameReal.onObj _) fun _ => SameReal.bind (same_genPsf _) fun _ => SameReal.bind (SameReal.allocC _) fun _ => SameReal.onObj _

theorem same_getPSFa : SameReal RState.getPSFa := by
  refine SameReal.bind SameReal.get fun s => ?_
  rcases s.self.obj.psfa with _ | a
  · exact SameReal.bind (same_genPsf _) fun _ => SameReal.bind (SameReal.allocC _) fun _ => SameReal.bind (SameReal.onObj _) fun _ => SameReal.pure _
  · exact SameReal.pure _

/-- A new real array if `PSFi` is not kept. -/
theorem getPSFi_new {s : RState} (h : s.self.obj.psfi = none) {r : ℕ} (hr : (RState.getPSFi s).1 = .ok r) : r = s.mem.real.length := by
  have h1 := same_getPSFa s
  simp only [RState.getPSFi, PyM.bind_apply, PyM.get_apply, h] at hr
  rcases e : RState.getPSFa s with ⟨x | a, s1⟩ <;> rw [e] at hr h1
  · cases hr
  · simp only at hr h1
    have h2 := SameReal.derefC a s1
    rcases e2 : RState.derefC a s1 with ⟨x | b, s2⟩ <;> rw [e2] at hr h2
    · cases hr
    · have hr : (Except.ok s2.mem.real.length : Py ℕ) = .ok r := hr
      cases hr
      simp only at h2
      rw [h2, h1]

theorem attributeChanged_psfi (o : Obj ℕ ℕ) : (attributeChanged o).2.psfi = none := rfl

theorem applyPupil_psfi (P : Arr ℂ) (s : RState) : (RState.applyPupil P s).2.self.obj.psfi = none := by
  simp only [RState.applyPupil, RState.genPsf, PyM.bind_apply, PyM.get_apply, PyM.lift_apply, RState.onObj, attributeChanged, PyM.modify_apply]
  rcases hanserGenPsf (RState.params _) (some P) with e | b
  · rfl
  · rfl

namespace World

/-- Models with number `n` or more are changed, created, and others left alone; no real array is created or changed. -/
structure Beyond (n : ℕ) (f : PyM World α) : Prop where
  objs : ∀ w, n ≤ w.objs.length → (f w).2.objs.take n = w.objs.take n ∧ n ≤ (f w).2.objs.length
  real : ∀ w, w.mem.real.length ≤ (f w).2.mem.real.length

theorem Beyond.bind {n : ℕ} {f : PyM World α} {g : α → PyM World β} (hf : Beyond n f) (hg : ∀ a, Beyond n (g a)) : Beyond n (f >>= g) := by
  constructor
  · intro w hw
    obtain ⟨h1, h2⟩ := hf.objs w hw
    rw [PyM.bind_apply]
    rcases q : f w with ⟨e | a, w'⟩ <;> rw [q] at h1 h2
    · exact ⟨h1, h2⟩
    · obtain ⟨h3, h4⟩ := (hg a).objs w' h2
      exact ⟨h3.trans h1, h4⟩
  · intro w
    have h1 := hf.real w
    rw [PyM.bind_apply]
    rcases q : f w with ⟨e | a, w'⟩ <;> rw [q] at h1
    · exact h1
    · exact h1.trans ((hg a).real w')

theorem Beyond.pure {n : ℕ} (x : α) : Beyond n (pure x : PyM World α) := ⟨fun _ h => ⟨rfl, h⟩, fun _ => le_rfl⟩

theorem Beyond.onObj {n j : ℕ} (hj : n ≤ j) {f : PyM RState α} (hf : ∀ s, s.mem.real.length ≤ (f s).2.mem.real.length) : Beyond n (World.onObj j f) := by
  constructor
  · intro w hw
    unfold World.onObj
    rcases w.objs[j]? with _ | o
    · exact ⟨rfl, hw⟩
    · exact ⟨by simp only [List.take_set_of_le hj], by simpa using hw⟩
  · intro w
    unfold World.onObj
    rcases w.objs[j]? with _ | o
    · exact le_rfl
    · exact hf ⟨w.mem, o⟩

theorem Beyond.assignPlanes {n j : ℕ} (hj : n ≤ j) (z : ZGiven) : Beyond n (World.assignPlanes j z) := by
  rcases z with _ | z | p
  · exact Beyond.pure _
  · exact Beyond.onObj hj fun s => (congrArg List.length (same_setZrange z s)).ge
  · exact Beyond.onObj hj fun s => (congrArg List.length (same_assignZrange p s)).ge

theorem real_getPSFi (s : RState) : s.mem.real.length ≤ (RState.getPSFi s).2.mem.real.length := by
  have h1 := congrArg List.length (same_getPSFa s)
  rcases e0 : s.self.obj.psfi with _ | q
  · simp only [RState.getPSFi, PyM.bind_apply, PyM.get_apply, e0]
    rcases e : RState.getPSFa s with ⟨x | a, s1⟩ <;> rw [e] at h1
    · exact h1.ge
    · simp only at h1 ⊢
      have h2 := congrArg List.length (SameReal.derefC a s1)
      rcases e2 : RState.derefC a s1 with ⟨x | b, s2⟩ <;> rw [e2] at h2
      · exact h1.ge.trans h2.ge
      · refine h1.ge.trans (h2.ge.trans ?_)
        change _ ≤ (s2.mem.real ++ [psfiOf b]).length
        simp
  · simp only [RState.getPSFi, PyM.bind_apply, PyM.get_apply, e0]
    exact le_rfl

theorem Beyond.resized {n : ℕ} (size : Option ℤ) (r : ℕ) : Beyond n (World.resized size r) := by
  have key : ∀ w, (World.resized size r w).2.objs = w.objs ∧ w.mem.real.length ≤ (World.resized size r w).2.mem.real.length := by
    intro w
    simp only [World.resized, PyM.bind_apply, PyM.get_apply]
    rcases w.mem.real[r]? with _ | a
    · exact ⟨rfl, le_rfl⟩
    · simp only [PyM.bind_apply, PyM.lift_apply]
      rcases resizePsf size a with e | b
      · exact ⟨rfl, le_rfl⟩
      · simp only
        split
        · exact ⟨rfl, le_rfl⟩
        · exact ⟨rfl, by simp [World.allocR]⟩
  exact ⟨fun w hw => by rw [(key w).1]; exact ⟨rfl, hw⟩, fun w => (key w).2⟩

theorem resized_new {n : ℕ} {size : Option ℤ} {r q : ℕ} {w : World} (hn : n ≤ w.mem.real.length) (hr : n ≤ r) (h : (World.resized size r w).1 = .ok q) : n ≤ q := by
  simp only [World.resized, PyM.bind_apply, PyM.get_apply] at h
  rcases e : w.mem.real[r]? with _ | a <;> rw [e] at h
  · cases h
  · simp only [PyM.bind_apply, PyM.lift_apply] at h
    rcases e2 : resizePsf size a with e | b <;> rw [e2] at h
    · cases h
    · simp only at h
      split at h
      · cases h; exact hr
      · cases h; exact hn

/-- The part of `_generate_psf` after the planes have been set. -/
theorem tail_new {n m j : ℕ} (hj : n ≤ j) (P : Arr ℂ) (size : Option ℤ) {w : World} (hn : n ≤ w.objs.length) (hm : m ≤ w.mem.real.length) {f : PyM World ℕ}
    (hf : f = (World.onObj j (RState.applyPupil P) >>= fun _ => World.onObj j RState.getPSFi >>= fun r => World.resized size r)) :
    ((f w).2.objs.take n = w.objs.take n ∧ n ≤ (f w).2.objs.length) ∧ ∀ r, (f w).1 = .ok r → m ≤ r := by
  subst hf
  have hb : Beyond n (World.onObj j (RState.applyPupil P)) := Beyond.onObj hj fun s => (congrArg List.length (same_applyPupil P s)).ge
  refine ⟨(hb.bind fun _ => (Beyond.onObj hj real_getPSFi).bind fun r => Beyond.resized size r).objs w hn, fun r hr => ?_⟩
  rw [PyM.bind_apply] at hr
  have h1 := hb.real w
  rcases e : w.objs[j]? with _ | o
  · simp only [World.onObj, e] at hr; cases hr
  · rcases e1 : RState.applyPupil P ⟨w.mem, o⟩ with ⟨x | u, s1⟩
    · simp only [World.onObj, e, e1] at hr; cases hr
    · have hp := applyPupil_psfi P ⟨w.mem, o⟩
      rw [e1] at hp
      have q1 : World.onObj j (RState.applyPupil P) w = (.ok u, ⟨s1.mem, w.objs.set j s1.self⟩) := by simp only [World.onObj, e, e1]
      rw [q1] at hr h1
      simp only at hr h1
      have hlt := (List.getElem?_eq_some_iff.mp e).1
      have q2 : (w.objs.set j s1.self)[j]? = some s1.self := List.getElem?_set_self hlt
      rw [PyM.bind_apply] at hr
      rcases e2 : RState.getPSFi s1 with ⟨x | a, s2⟩
      · simp only [World.onObj, q2, e2] at hr; cases hr
      · have ha := getPSFi_new hp (r := a) (by rw [e2])
        have h2 := real_getPSFi s1
        rw [e2] at h2
        have q3 : World.onObj j RState.getPSFi ⟨s1.mem, w.objs.set j s1.self⟩ = (.ok a, ⟨s2.mem, (w.objs.set j s1.self).set j s2.self⟩) := by simp only [World.onObj, q2, e2]
        rw [q3] at hr
        exact resized_new (hm.trans (h1.trans h2)) (by rw [ha]; exact hm.trans h1) hr

/-- `_generate_psf` leaves all models as they are and returns a new array. -/
theorem generatePsf_new (k : ℕ) (P : Arr ℂ) (size : Option ℤ) (zsize : Option PyVal) (z : ZGiven) (w : World) :
    (World.generatePsf k P size zsize z w).2.objs = w.objs ∧ ∀ r, (World.generatePsf k P size zsize z w).1 = .ok r → w.mem.real.length ≤ r := by
  have main : ∀ f : PyM World ℕ, (f w).2.objs.take w.objs.length = w.objs.take w.objs.length → (∀ r, (f w).1 = .ok r → w.mem.real.length ≤ r) →
      (World.temporary f w).2.objs = w.objs ∧ ∀ r, (World.temporary f w).1 = .ok r → w.mem.real.length ≤ r := by
    intro f h1 h2
    exact ⟨by simp only [World.temporary, h1, List.take_length], h2⟩
  have hplanes : ∀ (w1 : World) (f : PyM World ℕ), w.objs.length ≤ w1.objs.length → w.mem.real.length ≤ w1.mem.real.length → w1.objs.take w.objs.length = w.objs.take w.objs.length →
      f = (World.assignPlanes w.objs.length z >>= fun _ => World.onObj w.objs.length (RState.applyPupil (ifftshift none P)) >>= fun _ => World.onObj w.objs.length RState.getPSFi >>=
        fun r => World.resized size r) →
      (f w1).2.objs.take w.objs.length = w.objs.take w.objs.length ∧ ∀ r, (f w1).1 = .ok r → w.mem.real.length ≤ r := by
    rintro w1 f hl hm ht rfl
    have hb := Beyond.assignPlanes (le_refl w.objs.length) z
    rw [PyM.bind_apply]
    obtain ⟨h1, h2⟩ := hb.objs w1 hl
    have h3 := hb.real w1
    rcases q : World.assignPlanes w.objs.length z w1 with ⟨e | a, w2⟩ <;> rw [q] at h1 h2 h3
    · exact ⟨h1.trans ht, fun r hr => by cases hr⟩
    · obtain ⟨⟨h4, -⟩, h5⟩ := tail_new (le_refl w.objs.length) (ifftshift none P) size h2 (hm.trans h3) rfl
      exact ⟨h4.trans (h1.trans ht), h5⟩
  unfold World.generatePsf
  rcases e : w.objs[k]? with _ | o
  · have hc : World.copy k w = (.error .runtimeError, w) := by simp only [World.copy, e]
    exact main _ (by rw [PyM.bind_apply, hc]) fun r hr => by rw [PyM.bind_apply, hc] at hr; cases hr
  · have hc : World.copy k w = (.ok w.objs.length, { w with objs := w.objs ++ [o] }) := by simp only [World.copy, e]
    have ht : (w.objs ++ [o]).take w.objs.length = w.objs.take w.objs.length := by simp
    rcases zsize with _ | v
    · have := hplanes { w with objs := w.objs ++ [o] } _ (by simp) le_rfl ht rfl
      exact main _ (by rw [PyM.bind_apply, hc]; exact this.1) fun r hr => this.2 r (by rw [PyM.bind_apply, hc] at hr; exact hr)
    · have hb : Beyond w.objs.length (World.onObj w.objs.length (RState.set .zsize v)) := Beyond.onObj le_rfl fun s => (congrArg List.length (same_set .zsize v s)).ge
      obtain ⟨h1, h2⟩ := hb.objs { w with objs := w.objs ++ [o] } (by simp)
      have h3 := hb.real { w with objs := w.objs ++ [o] }
      rcases es : World.onObj w.objs.length (RState.set .zsize v) { w with objs := w.objs ++ [o] } with ⟨x | u, w1⟩
      · rw [es] at h1
        refine main _ ?_ fun r hr => ?_
        · rw [PyM.bind_apply, hc]
          simp only
          rw [PyM.bind_apply, es]
          exact h1.trans ht
        · rw [PyM.bind_apply, hc] at hr
          simp only at hr
          rw [PyM.bind_apply, es] at hr
          cases hr
      · rw [es] at h1 h2 h3
        have := hplanes w1 _ h2 h3 (h1.trans ht) rfl
        refine main _ ?_ fun r hr => this.2 r ?_
        · rw [PyM.bind_apply, hc]
          simp only
          rw [PyM.bind_apply, es]
          exact this.1
        · rw [PyM.bind_apply, hc] at hr
          simp only at hr
          rw [PyM.bind_apply, es] at hr
          exact hr

end World

end PyOTF
