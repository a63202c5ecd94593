import Verif.Props.C142_Race

/-!
# Threads with parts of the memory of their own

As `Lemmas/Threads.lean`, with a separate rely and guarantee for every thread.
-/

namespace PyOTF

namespace Prog

variable {σ L α β : Type}

/-- If the other threads change the memory as in `R` only, this one changes it as in `G` only, and its result satisfies `Q`. -/
def SafeRG (Inv : σ → Prop) (R G : σ → σ → Prop) (Q : σ → α → Prop) : Prog σ L α → σ → Prop
  | ret a, s0 => ∀ s, R s0 s → Inv s → Q s a
  | act st k, s0 => ∀ s, R s0 s → Inv s → Inv (st s) ∧ G s (st s) ∧ (k s).SafeRG Inv R G Q (st s)
  | lock _ k, s0 => k.SafeRG Inv R G Q s0
  | unlock _ k, s0 => k.SafeRG Inv R G Q s0

variable {Inv : σ → Prop} {R G : σ → σ → Prop}

theorem SafeRG.mono (htrans : ∀ a b c, R a b → R b c → R a c) {Q : σ → α → Prop} {p : Prog σ L α} {s0 s1 : σ}
    (h : p.SafeRG Inv R G Q s0) (hle : R s0 s1) : p.SafeRG Inv R G Q s1 := by
  induction p generalizing s0 s1 with
  | ret a => exact fun s hs hI => h s (htrans _ _ _ hle hs) hI
  | act st k ih => exact fun s hs hI => h s (htrans _ _ _ hle hs) hI
  | lock l k ih => exact ih h hle
  | unlock l k ih => exact ih h hle

theorem SafeRG.imp {Q Q' : σ → α → Prop} {p : Prog σ L α} {s0 : σ} (h : p.SafeRG Inv R G Q s0)
    (hQ : ∀ s a, Q s a → Q' s a) : p.SafeRG Inv R G Q' s0 := by
  induction p generalizing s0 with
  | ret a => exact fun s hs hI => hQ _ _ (h s hs hI)
  | act st k ih => exact fun s hs hI => ⟨(h s hs hI).1, (h s hs hI).2.1, ih s (h s hs hI).2.2⟩
  | lock l k ih => exact ih h
  | unlock l k ih => exact ih h

theorem SafeRG.bind (hrefl : ∀ a, R a a) {Q : σ → α → Prop} {T : σ → β → Prop} {p : Prog σ L α} {f : α → Prog σ L β}
    {s0 : σ} (hp : p.SafeRG Inv R G Q s0) (hf : ∀ a s1, Q s1 a → Inv s1 → (f a).SafeRG Inv R G T s1) (hI : Inv s0) :
    (p.bind f).SafeRG Inv R G T s0 := by
  induction p generalizing s0 with
  | ret a => exact hf a s0 (hp s0 (hrefl _) hI) hI
  | act st k ih =>
    intro s hs hIs
    obtain ⟨h1, h2, h3⟩ := hp s hs hIs
    exact ⟨h1, h2, ih s h3 h1⟩
  | lock l k ih => exact ih hp hI
  | unlock l k ih => exact ih hp hI

/-- A program that runs by itself. -/
theorem SafeRG.alone (hrefl : ∀ a, R a a) {Q : σ → α → Prop} {p : Prog σ L α} {s0 : σ} (h : p.SafeRG Inv R G Q s0) (hI : Inv s0) :
    Q (p.alone s0).2 (p.alone s0).1 := by
  induction p generalizing s0 with
  | ret a => exact h s0 (hrefl _) hI
  | act st k ih =>
    obtain ⟨h1, -, h3⟩ := h s0 (hrefl _) hI
    exact ih s0 h3 h1
  | lock l k ih => exact ih h hI
  | unlock l k ih => exact ih h hI

end Prog

namespace Conf

variable {σ L α : Type} [DecidableEq L]

/-- Every thread keeps its side. -/
def AllRG (Inv : σ → Prop) (R G : ℕ → σ → σ → Prop) (Q : ℕ → σ → α → Prop) (c : Conf σ L α) : Prop :=
  Inv c.heap ∧ ∀ j (p : Prog σ L α), c.thread[j]? = some p → p.SafeRG Inv (R j) (G j) (Q j) c.heap

theorem AllRG.step {Inv : σ → Prop} {R G : ℕ → σ → σ → Prop} {Q : ℕ → σ → α → Prop} {c : Conf σ L α}
    (htrans : ∀ j a b c, R j a b → R j b c → R j a c) (hrefl : ∀ j a, R j a a) (hRG : ∀ i j, j ≠ i → ∀ a b, G i a b → R j a b)
    (h : c.AllRG Inv R G Q) (i : ℕ) : (c.step i).AllRG Inv R G Q := by
  obtain ⟨hI, hT⟩ := h
  rcases hp : c.thread[i]? with _ | p
  · have : c.step i = c := by unfold Conf.step; rw [hp]
    rw [this]; exact ⟨hI, hT⟩
  have hi : i < c.thread.length := by
    rcases List.getElem?_eq_some_iff.mp hp with ⟨h, _⟩; exact h
  have hs := hT i p hp
  cases p with
  | ret a =>
    have : c.step i = c := by unfold Conf.step; rw [hp]
    rw [this]; exact ⟨hI, hT⟩
  | act st k =>
    have e : c.step i = { c with heap := st c.heap, thread := c.thread.set i (k c.heap) } := by
      unfold Conf.step; rw [hp]
    obtain ⟨h1, h2, h3⟩ := hs c.heap (hrefl _ _) hI
    rw [e]
    refine ⟨h1, fun j q hq => ?_⟩
    by_cases hj : j = i
    · subst hj
      simp only [List.getElem?_set_self hi] at hq
      cases hq; exact h3
    · simp only [List.getElem?_set, if_neg (Ne.symm hj)] at hq
      exact (hT j q hq).mono (htrans j) (hRG i j hj _ _ h2)
  | lock l k =>
    unfold Conf.step
    rw [hp]
    dsimp only
    split_ifs
    · refine ⟨hI, fun j q hq => ?_⟩
      by_cases hj : j = i
      · subst hj
        simp only [List.getElem?_set_self hi] at hq
        cases hq; exact hs
      · simp only [List.getElem?_set, if_neg (Ne.symm hj)] at hq
        exact hT j q hq
    · exact ⟨hI, hT⟩
  | unlock l k =>
    unfold Conf.step
    rw [hp]
    refine ⟨hI, fun j q hq => ?_⟩
    by_cases hj : j = i
    · subst hj
      simp only [List.getElem?_set_self hi] at hq
      cases hq; exact hs
    · simp only [List.getElem?_set, if_neg (Ne.symm hj)] at hq
      exact hT j q hq

theorem AllRG.run {Inv : σ → Prop} {R G : ℕ → σ → σ → Prop} {Q : ℕ → σ → α → Prop} {c : Conf σ L α}
    (htrans : ∀ j a b c, R j a b → R j b c → R j a c) (hrefl : ∀ j a, R j a a) (hRG : ∀ i j, j ≠ i → ∀ a b, G i a b → R j a b)
    (h : c.AllRG Inv R G Q) (sched : List ℕ) : (c.run sched).AllRG Inv R G Q := by
  induction sched generalizing c with
  | nil => exact h
  | cons i sched ih => exact ih (h.step htrans hrefl hRG i)

end Conf

/-! ## Programs that stay with some of the microscopes -/

/-- The same models, and the same microscopes of those in `V`. -/
def Agree (V : ℕ → Prop) (w u : Lab) : Prop := w.hans = u.hans ∧ w.shep = u.shep ∧ ∀ i, V i → w.mics i = u.mics i

/-- The program neither looks at other microscopes nor changes them. -/
def Prog.Stays {L α : Type} (V : ℕ → Prop) : Prog Lab L α → Prop
  | .ret _ => True
  | .act st k => (∀ w u, Agree V w u → Agree V (st w) (st u) ∧ k w = k u) ∧ (∀ w i, ¬V i → (st w).mics i = w.mics i) ∧
      ∀ w, (k w).Stays V
  | .lock _ k => k.Stays V
  | .unlock _ k => k.Stays V

section

variable {V : ℕ → Prop} {α β : Type}

theorem Prog.Stays.bind {L : Type} {p : Prog Lab L α} {f : α → Prog Lab L β} (hp : p.Stays V) (hf : ∀ a, (f a).Stays V) :
    (p.bind f).Stays V := by
  induction p with
  | ret a => exact hf a
  | act st k ih => exact ⟨fun w u h => ⟨(hp.1 w u h).1, congrArg (fun q => Prog.bind q f) (hp.1 w u h).2⟩, hp.2.1, fun w => ih w (hp.2.2 w)⟩
  | lock l k ih => exact ih hp
  | unlock l k ih => exact ih hp

open LTM

theorem stays_bind {p : LTM α} {f : α → LTM β} (hp : p.Stays V) (hf : ∀ a, (f a).Stays V) : (LTM.bind p f).Stays V := by
  refine Prog.Stays.bind hp fun r => ?_
  rcases r with e | a
  · trivial
  · exact hf a

theorem stays_loc {x : Py α} : (loc x).Stays V := trivial

theorem stays_rd {i : ℕ} (hi : V i) {f : MConfig → Py α} : (rd i f).Stays V :=
  ⟨fun w u h => ⟨h, by dsimp only; rw [h.2.2 i hi]⟩, fun _ _ _ => rfl, fun _ => trivial⟩

theorem stays_wr {i : ℕ} (hi : V i) {f : MCell → MCell} : (wr i f).Stays V := by
  refine ⟨fun w u h => ⟨⟨h.1, h.2.1, fun j hj => ?_⟩, rfl⟩, fun w j hj => ?_, fun _ => trivial⟩
  · by_cases e : j = i
    · subst e; simp only [Function.update_self, h.2.2 j hj]
    · simp only [Function.update_of_ne e, h.2.2 j hj]
  · exact Function.update_of_ne (by rintro rfl; exact hj hi) _ _

theorem agree_inner {w u : Lab} (h : Agree V w u) (r : MRef) : w.inner r = u.inner r := by
  cases r with
  | hanser i => simp only [Lab.inner, h.1]
  | sheppard i => simp only [Lab.inner, h.2.1]

theorem stays_rdModel {r : MRef} {f : Params → Py α} : (rdModel r f).Stays V :=
  ⟨fun w u h => ⟨h, by dsimp only; rw [agree_inner h]⟩, fun _ _ _ => rfl, fun _ => trivial⟩

theorem stays_hanser (p : Prog Dicts Slot (Py α)) : (hanser p).Stays V := by
  show Prog.Stays V (Prog.lift _ _ _ p)
  induction p with
  | ret a => trivial
  | act st k ih =>
    exact ⟨fun w u h => ⟨⟨by simp only [h.1], h.2.1, h.2.2⟩, by simp only [h.1]⟩, fun _ _ _ => rfl, fun w => ih _⟩
  | lock l k ih => exact ih
  | unlock l k ih => exact ih

theorem stays_sheppard (p : STM α) : (sheppard p).Stays V := by
  show Prog.Stays V (Prog.lift _ _ _ p)
  induction p with
  | ret a => trivial
  | act st k ih =>
    exact ⟨fun w u h => ⟨⟨h.1, by simp only [h.2.1], h.2.2⟩, by simp only [h.2.1]⟩, fun _ _ _ => rfl, fun w => ih _⟩
  | lock l k ih => exact ih
  | unlock l k ih => exact ih

theorem stays_withModel {i : ℕ} (hi : V i) {f : MRef → LTM α} (hf : ∀ r, (f r).Stays V) : (withModel i f).Stays V :=
  stays_bind (stays_rd hi) hf

theorem stays_modelPSFi (I : LabImpl) (r : MRef) : (modelPSFiT I r).Stays V := by
  cases r with
  | hanser j => exact stays_hanser _
  | sheppard j => exact stays_bind (stays_sheppard _) fun _ => stays_loc

theorem stays_modelOTFi (I : LabImpl) (r : MRef) : (modelOTFiT I r).Stays V := by
  cases r with
  | hanser j => exact stays_hanser _
  | sheppard j => exact stays_bind (stays_sheppard _) fun _ => stays_loc

theorem stays_rdSim {i : ℕ} (hi : V i) (f : PyVal → PyVal → PyVal → PyVal → PyVal → List ℝ → PyVal → α) : (rdSim i f).Stays V :=
  stays_rd hi

theorem stays_simFiltered (I : LabImpl) {i : ℕ} (hi : V i) : (simFilteredT I i).Stays V := by
  unfold simFilteredT
  refine stays_bind (stays_rdSim hi _) fun wi => ?_
  split_ifs
  · exact stays_withModel hi fun _ => stays_modelPSFi I _
  · refine stays_bind stays_loc fun x => ?_
    split_ifs
    · refine stays_bind (stays_withModel hi fun _ => stays_modelOTFi I _) fun t => ?_
      cases x <;> exact stays_loc
    · exact stays_loc

theorem stays_modelPsf (I : LabImpl) {i : ℕ} (hi : V i) : (microModelPsfT I i).Stays V := by
  unfold microModelPsfT
  refine stays_bind (stays_rd hi) fun k => ?_
  rcases k with _ | _ | ⟨e, ph, wl⟩ | ⟨n, l, c, d, ds, o, wi⟩
  · exact stays_withModel hi fun _ => stays_modelPSFi I _
  · exact stays_bind (stays_withModel hi fun _ => stays_modelPSFi I _) fun p => stays_bind (stays_rd hi) fun _ => stays_loc
  · refine stays_bind ?_ fun r => ?_
    · unfold pinholeT
      refine stays_bind (stays_withModel hi fun _ => stays_rdModel) fun _ => ?_
      refine stays_bind (stays_withModel hi fun _ => stays_rdModel) fun _ => ?_
      refine stays_bind (stays_withModel hi fun _ => stays_rdModel) fun _ => ?_
      exact stays_bind stays_loc fun _ => stays_bind (stays_rd hi) fun _ => stays_loc
    · refine stays_bind (stays_withModel hi fun _ => stays_modelPSFi I _) fun p => ?_
      refine stays_bind stays_loc fun _ => stays_bind (stays_rd hi) fun e => ?_
      exact stays_bind (stays_modelPSFi I _) fun _ => stays_loc
  · refine stays_bind (stays_rd hi) fun _ => stays_bind (stays_rdSim hi _) fun _ => stays_bind (stays_rdSim hi _) fun _ => ?_
    refine stays_bind stays_loc fun _ => stays_bind (stays_simFiltered I hi) fun _ => ?_
    refine stays_bind (stays_rdSim hi _) fun _ => stays_bind (stays_rdSim hi _) fun _ => ?_
    exact stays_bind (stays_rdSim hi _) fun _ => stays_bind (stays_rdSim hi _) fun _ => stays_loc

theorem stays_cached (I : LabImpl) {l : LabLock} {i : ℕ} (hi : V i) {get : MCell → Option α} {put : α → MCell → MCell} {func : LTM α}
    (hf : func.Stays V) : (microCachedT I l i get put func).Stays V := by
  have look : ∀ k : LTM α, k.Stays V → Prog.Stays V (.act id fun w =>
        match get (w.mics i) with
        | some a => .ret (.ok a)
        | none => k : LTM α) := by
    intro k hk
    refine ⟨fun w u h => ⟨h, by dsimp only; rw [h.2.2 i hi]⟩, fun _ _ _ => rfl, fun w => ?_⟩
    dsimp only
    split
    · trivial
    · exact hk
  have fill : Prog.Stays V (func.bind fun a => (wr i (put a)).bind fun _ => loc (.ok a)) :=
    stays_bind hf fun _ => stays_bind (stays_wr hi) fun _ => stays_loc
  unfold microCachedT
  refine look _ (look _ ?_)
  split_ifs
  · exact Prog.Stays.bind (look _ fill) fun _ => trivial
  · exact fill

theorem stays_psf (I : LabImpl) {i : ℕ} (hi : V i) : (microPSFT I i).Stays V :=
  stays_cached I hi (stays_bind (stays_modelPsf I hi) fun _ => stays_bind (stays_rd hi) fun _ => stays_bind (stays_rd hi) fun _ => stays_loc)

theorem stays_otf (I : LabImpl) {i : ℕ} (hi : V i) : (microOTFT I i).Stays V :=
  stays_cached I hi (stays_bind (stays_psf I hi) fun _ => stays_loc)

theorem stays_read (I : LabImpl) {q : LOp} (h : ∀ i, q.on i ≠ none → V i) : (labReadT I q).Stays V := by
  cases q with
  | PSF i => exact Prog.Stays.bind (stays_psf I (h i (by simp [LOp.on]))) fun _ => trivial
  | OTF i => exact Prog.Stays.bind (stays_otf I (h i (by simp [LOp.on]))) fun _ => trivial
  | modelPsf i => exact Prog.Stays.bind (stays_modelPsf I (h i (by simp [LOp.on]))) fun _ => trivial
  | hanser i r => exact Prog.Stays.bind (stays_hanser _) fun _ => trivial
  | sheppard i r => exact Prog.Stays.bind (stays_sheppard _) fun _ => trivial

end

end PyOTF
