import Verif.Model.Threads

/-!
# Reasoning about threads

`Safe` is a rely-guarantee judgement: whatever the other threads do, as long as they keep the invariant and the
order `le`, this thread keeps them too and ends with a result that satisfies `Q`.
-/

namespace PyOTF

namespace Prog

variable {σ L α β : Type}

/-- From any state above `s0` satisfying the invariant, every step keeps the invariant, goes up in the order, and
the result satisfies `Q`. -/
def Safe (Inv : σ → Prop) (le : σ → σ → Prop) (Q : σ → α → Prop) : Prog σ L α → σ → Prop
  | ret a, s0 => ∀ s, le s0 s → Inv s → Q s a
  | act st k, s0 => ∀ s, le s0 s → Inv s → Inv (st s) ∧ le s (st s) ∧ (k s).Safe Inv le Q (st s)
  | lock _ k, s0 => k.Safe Inv le Q s0
  | unlock _ k, s0 => k.Safe Inv le Q s0

section

variable {Inv : σ → Prop} {le : σ → σ → Prop} (htrans : ∀ a b c, le a b → le b c → le a c)

include htrans in
theorem Safe.mono {Q : σ → α → Prop} {p : Prog σ L α} {s0 s1 : σ} (h : p.Safe Inv le Q s0) (hle : le s0 s1) :
    p.Safe Inv le Q s1 := by
  induction p generalizing s0 s1 with
  | ret a => exact fun s hs hI => h s (htrans _ _ _ hle hs) hI
  | act st k ih => exact fun s hs hI => h s (htrans _ _ _ hle hs) hI
  | lock l k ih => exact ih h hle
  | unlock l k ih => exact ih h hle

theorem Safe.imp {Q Q' : σ → α → Prop} {p : Prog σ L α} {s0 : σ} (h : p.Safe Inv le Q s0)
    (hQ : ∀ s a, Q s a → Q' s a) : p.Safe Inv le Q' s0 := by
  induction p generalizing s0 with
  | ret a => exact fun s hs hI => hQ _ _ (h s hs hI)
  | act st k ih => exact fun s hs hI => ⟨(h s hs hI).1, (h s hs hI).2.1, ih s (h s hs hI).2.2⟩
  | lock l k ih => exact ih h
  | unlock l k ih => exact ih h

include htrans in
/-- Sequential composition; what holds at the end of the first part is used at the start of the second, where the
other threads may already have moved on. -/
theorem Safe.bind {Q : σ → α → Prop} {R : σ → β → Prop} {p : Prog σ L α} {f : α → Prog σ L β} {s0 : σ}
    (hrefl : ∀ a, le a a) (hp : p.Safe Inv le Q s0)
    (hf : ∀ a s1, Q s1 a → Inv s1 → le s0 s1 → (f a).Safe Inv le R s1)
    (hI : Inv s0) : (p.bind f).Safe Inv le R s0 := by
  induction p generalizing s0 with
  | ret a => exact hf a s0 (hp s0 (hrefl _) hI) hI (hrefl _)
  | act st k ih =>
    intro s hs hIs
    obtain ⟨h1, h2, h3⟩ := hp s hs hIs
    exact ⟨h1, h2, ih s h3 (fun a s1 hQ hI1 hle => hf a s1 hQ hI1 (htrans _ _ _ hs (htrans _ _ _ h2 hle))) h1⟩
  | lock l k ih => exact ih hp hf hI
  | unlock l k ih => exact ih hp hf hI

end

/-- The thread acquires locks in decreasing rank only and has released all of them when it is finished.  `held` is
what it holds now. -/
def Disc (rank : L → ℕ) : Prog σ L α → List L → Prop
  | ret _, held => held = []
  | act _ k, held => ∀ s, (k s).Disc rank held
  | lock l k, held => (∀ l' ∈ held, rank l < rank l') ∧ k.Disc rank (l :: held)
  | unlock l k, held => ∃ rest, held = l :: rest ∧ k.Disc rank rest

/-- The same without the requirement at the end: locks held before are held afterwards. -/
def DiscTo (rank : L → ℕ) (final : List L) : Prog σ L α → List L → Prop
  | ret _, held => held = final
  | act _ k, held => ∀ s, (k s).DiscTo rank final held
  | lock l k, held => (∀ l' ∈ held, rank l < rank l') ∧ k.DiscTo rank final (l :: held)
  | unlock l k, held => ∃ rest, held = l :: rest ∧ k.DiscTo rank final rest

theorem disc_iff {rank : L → ℕ} {p : Prog σ L α} {held : List L} : p.Disc rank held ↔ p.DiscTo rank [] held := by
  induction p generalizing held with
  | ret a => rfl
  | act st k ih => simp only [Disc, DiscTo, ih]
  | lock l k ih => simp only [Disc, DiscTo, ih]
  | unlock l k ih => simp only [Disc, DiscTo, ih]

theorem DiscTo.bind {rank : L → ℕ} {fin mid held : List L} {p : Prog σ L α} {f : α → Prog σ L β}
    (hp : p.DiscTo rank mid held) (hf : ∀ a, (f a).DiscTo rank fin mid) : (p.bind f).DiscTo rank fin held := by
  induction p generalizing held with
  | ret a => rw [show held = mid from hp]; exact hf a
  | act st k ih => exact fun s => ih s (hp s)
  | lock l k ih => exact ⟨hp.1, ih hp.2⟩
  | unlock l k ih =>
    obtain ⟨rest, h1, h2⟩ := hp
    exact ⟨rest, h1, ih h2⟩

/-- The thread makes at most `n` steps. -/
def Within : Prog σ L α → ℕ → Prop
  | ret _, _ => True
  | act _ k, n => ∃ m, n = m + 1 ∧ ∀ s, (k s).Within m
  | lock _ k, n => ∃ m, n = m + 1 ∧ k.Within m
  | unlock _ k, n => ∃ m, n = m + 1 ∧ k.Within m

theorem Within.mono {p : Prog σ L α} {n m : ℕ} (h : p.Within n) (hnm : n ≤ m) : p.Within m := by
  induction p generalizing n m with
  | ret a => trivial
  | act st k ih =>
    obtain ⟨j, rfl, h⟩ := h
    exact ⟨m - 1, by omega, fun s => ih s (h s) (by omega)⟩
  | lock l k ih =>
    obtain ⟨j, rfl, h⟩ := h
    exact ⟨m - 1, by omega, ih h (by omega)⟩
  | unlock l k ih =>
    obtain ⟨j, rfl, h⟩ := h
    exact ⟨m - 1, by omega, ih h (by omega)⟩

theorem Within.bind {p : Prog σ L α} {f : α → Prog σ L β} {n m : ℕ} (hp : p.Within n) (hf : ∀ a, (f a).Within m) :
    (p.bind f).Within (n + m) := by
  induction p generalizing n with
  | ret a => exact (hf a).mono (by omega)
  | act st k ih =>
    obtain ⟨j, rfl, h⟩ := hp
    exact ⟨j + m, by omega, fun s => ih s (h s)⟩
  | lock l k ih =>
    obtain ⟨j, rfl, h⟩ := hp
    exact ⟨j + m, by omega, ih h⟩
  | unlock l k ih =>
    obtain ⟨j, rfl, h⟩ := hp
    exact ⟨j + m, by omega, ih h⟩

theorem alone_bind (p : Prog σ L α) (f : α → Prog σ L β) (s : σ) :
    (p.bind f).alone s = (f (p.alone s).1).alone (p.alone s).2 := by
  induction p generalizing s with
  | ret a => rfl
  | act st k ih => exact ih _ _
  | lock l k ih => exact ih _
  | unlock l k ih => exact ih _

end Prog

namespace Conf

variable {σ L α : Type} [DecidableEq L]

theorem step_length (c : Conf σ L α) (i : ℕ) : (c.step i).thread.length = c.thread.length := by
  unfold step
  split <;> try split_ifs
  all_goals simp

theorem run_length (c : Conf σ L α) (sched : List ℕ) : (c.run sched).thread.length = c.thread.length := by
  induction sched generalizing c with
  | nil => rfl
  | cons i sched ih => rw [show c.run (i :: sched) = (c.step i).run sched from rfl, ih, step_length]

theorem step_thread_ne (c : Conf σ L α) {i j : ℕ} (h : j ≠ i) : (c.step i).thread[j]? = c.thread[j]? := by
  unfold step
  split <;> try split_ifs
  all_goals simp [Ne.symm h]

/-! ## Safety -/

/-- Every thread is safe, with its own postcondition about its result and the memory. -/
def AllSafeAt (Inv : σ → Prop) (le : σ → σ → Prop) (Q : ℕ → σ → α → Prop) (c : Conf σ L α) : Prop :=
  Inv c.heap ∧ ∀ j (p : Prog σ L α), c.thread[j]? = some p → p.Safe Inv le (Q j) c.heap

theorem AllSafeAt.step {Inv : σ → Prop} {le : σ → σ → Prop} {Q : ℕ → σ → α → Prop} {c : Conf σ L α}
    (htrans : ∀ a b c, le a b → le b c → le a c) (hrefl : ∀ a, le a a) (h : c.AllSafeAt Inv le Q) (i : ℕ) :
    (c.step i).AllSafeAt Inv le Q := by
  obtain ⟨hI, hT⟩ := h
  rcases hp : c.thread[i]? with _ | p
  · have : c.step i = c := by unfold Conf.step; rw [hp]
    rw [this]; exact ⟨hI, hT⟩
  have hi : i < c.thread.length := by
    rcases List.getElem?_eq_some_iff.mp hp with ⟨h, _⟩; exact h
  have hs := hT i p hp
  cases p with
  | ret a =>
    have : c.step i = c := by unfold Conf.step; rw [hp]
    rw [this]; exact ⟨hI, hT⟩
  | act st k =>
    have e : c.step i = { c with heap := st c.heap, thread := c.thread.set i (k c.heap) } := by
      unfold Conf.step; rw [hp]
    obtain ⟨h1, h2, h3⟩ := hs c.heap (hrefl _) hI
    rw [e]
    refine ⟨h1, fun j q hq => ?_⟩
    by_cases hj : j = i
    · subst hj
      simp only [List.getElem?_set_self hi] at hq
      cases hq; exact h3
    · simp only [List.getElem?_set, if_neg (Ne.symm hj)] at hq
      exact (hT j q hq).mono htrans h2
  | lock l k =>
    unfold Conf.step
    rw [hp]
    dsimp only
    split_ifs
    · refine ⟨hI, fun j q hq => ?_⟩
      by_cases hj : j = i
      · subst hj
        simp only [List.getElem?_set_self hi] at hq
        cases hq; exact hs
      · simp only [List.getElem?_set, if_neg (Ne.symm hj)] at hq
        exact hT j q hq
    · exact ⟨hI, hT⟩
  | unlock l k =>
    unfold Conf.step
    rw [hp]
    refine ⟨hI, fun j q hq => ?_⟩
    by_cases hj : j = i
    · subst hj
      simp only [List.getElem?_set_self hi] at hq
      cases hq; exact hs
    · simp only [List.getElem?_set, if_neg (Ne.symm hj)] at hq
      exact hT j q hq

theorem AllSafeAt.run {Inv : σ → Prop} {le : σ → σ → Prop} {Q : ℕ → σ → α → Prop} {c : Conf σ L α}
    (htrans : ∀ a b c, le a b → le b c → le a c) (hrefl : ∀ a, le a a) (h : c.AllSafeAt Inv le Q) (sched : List ℕ) :
    (c.run sched).AllSafeAt Inv le Q := by
  induction sched generalizing c with
  | nil => exact h
  | cons i sched ih => exact ih (h.step htrans hrefl i)

/-- The same with postconditions that do not depend on the memory. -/
def AllSafe (Inv : σ → Prop) (le : σ → σ → Prop) (Q : ℕ → α → Prop) (c : Conf σ L α) : Prop :=
  Inv c.heap ∧ ∀ j (p : Prog σ L α), c.thread[j]? = some p → p.Safe Inv le (fun _ => Q j) c.heap

theorem AllSafe.run {Inv : σ → Prop} {le : σ → σ → Prop} {Q : ℕ → α → Prop} {c : Conf σ L α}
    (htrans : ∀ a b c, le a b → le b c → le a c) (hrefl : ∀ a, le a a) (h : c.AllSafe Inv le Q) (sched : List ℕ) :
    (c.run sched).AllSafe Inv le Q :=
  AllSafeAt.run (Q := fun j _ => Q j) htrans hrefl h sched

/-! ## Termination -/

/-- Every entry of the schedule is a step that can be made. -/
def Live (c : Conf σ L α) : List ℕ → Prop
  | [] => True
  | i :: sched => c.Enabled i ∧ (c.step i).Live sched

theorem within_step {c : Conf σ L α} {b : List ℕ} (hlen : b.length = c.thread.length)
    (hb : ∀ j (p : Prog σ L α), c.thread[j]? = some p → p.Within (b.getD j 0)) {i : ℕ} (he : c.Enabled i) :
    0 < b.getD i 0 ∧ ∀ j (p : Prog σ L α), (c.step i).thread[j]? = some p → p.Within ((b.set i (b.getD i 0 - 1)).getD j 0) := by
  unfold Enabled at he
  rcases hp : c.thread[i]? with _ | p
  · rw [hp] at he; exact he.elim
  have hi : i < c.thread.length := by
    rcases List.getElem?_eq_some_iff.mp hp with ⟨h, _⟩; exact h
  have hw := hb i p hp
  have main : ∀ q, 0 < b.getD i 0 → Prog.Within q (b.getD i 0 - 1) → (c.step i).thread = c.thread.set i q →
      ∀ j (p : Prog σ L α), (c.step i).thread[j]? = some p → p.Within ((b.set i (b.getD i 0 - 1)).getD j 0) := by
    intro q _ hq e j p hj
    by_cases hji : j = i
    · subst hji
      rw [e, List.getElem?_set_self hi] at hj
      cases hj
      simpa [List.getD_eq_getElem?_getD, List.getElem?_set_self (hlen ▸ hi)] using hq
    · rw [step_thread_ne c hji] at hj
      have := hb j p hj
      simpa [List.getD_eq_getElem?_getD, List.getElem?_set, Ne.symm hji] using this
  rw [hp] at he
  cases p with
  | ret a => exact he.elim
  | act st k =>
    obtain ⟨m, hm, h⟩ := hw
    refine ⟨by omega, main (k c.heap) (by omega) ?_ ?_⟩
    · rw [hm]; exact h _
    · unfold Conf.step; rw [hp]
  | lock l k =>
    obtain ⟨m, hm, h⟩ := hw
    refine ⟨by omega, main k (by omega) ?_ ?_⟩
    · rw [hm]; exact h
    · unfold Conf.step; rw [hp]; exact congrArg Conf.thread (if_pos he)
  | unlock l k =>
    obtain ⟨m, hm, h⟩ := hw
    refine ⟨by omega, main k (by omega) ?_ ?_⟩
    · rw [hm]; exact h
    · unfold Conf.step; rw [hp]

theorem sum_set_pred {b : List ℕ} {i : ℕ} (h : 0 < b.getD i 0) : (b.set i (b.getD i 0 - 1)).sum + 1 = b.sum := by
  induction b generalizing i with
  | nil => simp at h
  | cons x b ih =>
    cases i with
    | zero => simp at h ⊢; omega
    | succ i => simp at h ⊢; have := ih (i := i) (by simpa using h); simp at this; omega

theorem live_bounded {c : Conf σ L α} {b : List ℕ} (hlen : b.length = c.thread.length)
    (hb : ∀ j (p : Prog σ L α), c.thread[j]? = some p → p.Within (b.getD j 0)) {sched : List ℕ} (hl : c.Live sched) :
    sched.length ≤ b.sum := by
  induction sched generalizing c b with
  | nil => simp
  | cons i sched ih =>
    obtain ⟨he, hl⟩ := hl
    obtain ⟨h1, h2⟩ := within_step hlen hb he
    have h3 := ih (c := c.step i) (b := b.set i (b.getD i 0 - 1)) (by simp [hlen, step_length]) h2 hl
    have h4 := sum_set_pred h1
    simp only [List.length_cons]
    omega

/-! ## Deadlock -/

/-- Every thread follows the locking discipline; `held j` are the locks of thread `j`, and a lock is owned exactly
by the thread that holds it. -/
def AllDisc (rank : L → ℕ) (held : ℕ → List L) (c : Conf σ L α) : Prop :=
  (∀ j (p : Prog σ L α), c.thread[j]? = some p → p.Disc rank (held j)) ∧
  (∀ j, c.thread[j]? = none → held j = []) ∧
  (∀ l j, c.owner l = some j ↔ l ∈ held j) ∧
  (∀ j, (held j).Nodup)

theorem AllDisc.step {rank : L → ℕ} {held : ℕ → List L} {c : Conf σ L α} (h : c.AllDisc rank held) (i : ℕ) :
    ∃ held', (c.step i).AllDisc rank held' := by
  obtain ⟨hT, hN, hO, hD⟩ := h
  rcases hp : c.thread[i]? with _ | p
  · have : c.step i = c := by unfold Conf.step; rw [hp]
    rw [this]; exact ⟨held, hT, hN, hO, hD⟩
  have hi : i < c.thread.length := by
    rcases List.getElem?_eq_some_iff.mp hp with ⟨h, _⟩; exact h
  have hd := hT i p hp
  have threads : ∀ (q : Prog σ L α) (hs : List L), q.Disc rank hs → (c.step i).thread = c.thread.set i q →
      (∀ j (p : Prog σ L α), (c.step i).thread[j]? = some p → p.Disc rank (Function.update held i hs j)) ∧
      (∀ j, (c.step i).thread[j]? = none → Function.update held i hs j = []) := by
    intro q hs hq e
    refine ⟨fun j p hj => ?_, fun j hj => ?_⟩
    · by_cases hji : j = i
      · subst hji
        rw [e, List.getElem?_set_self hi] at hj
        cases hj
        simpa using hq
      · rw [step_thread_ne c hji] at hj
        rw [Function.update_of_ne hji]
        exact hT j p hj
    · by_cases hji : j = i
      · subst hji
        rw [e, List.getElem?_set_self hi] at hj
        cases hj
      · rw [step_thread_ne c hji] at hj
        rw [Function.update_of_ne hji]
        exact hN j hj
  cases p with
  | ret a =>
    have : c.step i = c := by unfold Conf.step; rw [hp]
    rw [this]; exact ⟨held, hT, hN, hO, hD⟩
  | act st k =>
    have e : c.step i = { c with heap := st c.heap, thread := c.thread.set i (k c.heap) } := by
      unfold Conf.step; rw [hp]
    obtain ⟨t1, t2⟩ := threads (k c.heap) (held i) (hd c.heap) (by rw [e])
    have hu : Function.update held i (held i) = held := Function.update_eq_self i held
    rw [hu] at t1 t2
    exact ⟨held, t1, t2, by rw [e]; exact hO, hD⟩
  | lock l k =>
    by_cases hfree : c.owner l = none
    · have e : c.step i = { c with owner := Function.update c.owner l (some i), thread := c.thread.set i k } := by
        unfold Conf.step; rw [hp]; exact if_pos hfree
      obtain ⟨t1, t2⟩ := threads k (l :: held i) hd.2 (by rw [e])
      refine ⟨_, t1, t2, ?_, ?_⟩
      · rw [e]
        intro l' j
        by_cases hl : l' = l
        · subst hl
          simp only [Function.update_self]
          by_cases hji : j = i
          · subst hji; simp
          · rw [Function.update_of_ne hji, ← hO l' j, hfree]
            simp [Ne.symm hji]
        · simp only [Function.update_of_ne hl]
          by_cases hji : j = i
          · subst hji; simp [hl, hO]
          · rw [Function.update_of_ne hji]; exact hO l' j
      · intro j
        by_cases hji : j = i
        · subst hji
          simp only [Function.update_self, List.nodup_cons]
          refine ⟨fun hm => ?_, hD j⟩
          rw [← hO, hfree] at hm; cases hm
        · rw [Function.update_of_ne hji]; exact hD j
    · have : c.step i = c := by unfold Conf.step; rw [hp]; exact if_neg hfree
      rw [this]; exact ⟨held, hT, hN, hO, hD⟩
  | unlock l k =>
    obtain ⟨rest, hr, hk⟩ := hd
    have e : c.step i = { c with owner := Function.update c.owner l none, thread := c.thread.set i k } := by
      unfold Conf.step; rw [hp]
    obtain ⟨t1, t2⟩ := threads k rest hk (by rw [e])
    have hnd := hD i
    rw [hr, List.nodup_cons] at hnd
    refine ⟨_, t1, t2, ?_, ?_⟩
    · rw [e]
      intro l' j
      by_cases hl : l' = l
      · subst hl
        simp only [Function.update_self]
        by_cases hji : j = i
        · subst hji; simp [hnd.1]
        · rw [Function.update_of_ne hji]
          have h1 : c.owner l' = some i := (hO l' i).mpr (by rw [hr]; simp)
          have h2 : l' ∉ held j := by
            rw [← hO, h1]; simpa using Ne.symm hji
          simp [h2]
      · simp only [Function.update_of_ne hl]
        by_cases hji : j = i
        · subst hji; simp [hO, hr, hl]
        · rw [Function.update_of_ne hji]; exact hO l' j
    · intro j
      by_cases hji : j = i
      · subst hji; simpa using hnd.2
      · rw [Function.update_of_ne hji]; exact hD j

theorem AllDisc.run {rank : L → ℕ} {held : ℕ → List L} {c : Conf σ L α} (h : c.AllDisc rank held) (sched : List ℕ) :
    ∃ held', (c.run sched).AllDisc rank held' := by
  induction sched generalizing c held with
  | nil => exact ⟨held, h⟩
  | cons i sched ih =>
    obtain ⟨held', h'⟩ := h.step i
    exact ih h'

/-- No deadlock: if nobody can make a step, everybody is finished. -/
theorem AllDisc.no_deadlock {rank : L → ℕ} {held : ℕ → List L} {c : Conf σ L α} (h : c.AllDisc rank held)
    (hstuck : ∀ i, ¬ c.Enabled i) : ∀ (j : ℕ) (p : Prog σ L α), c.thread[j]? = some p → ∃ a, p = .ret a := by
  obtain ⟨hT, hN, hO, hD⟩ := h
  -- a waiting thread waits for a lock whose owner waits for a lock of smaller rank
  have key : ∀ (n : ℕ) (j : ℕ) (l : L) (k : Prog σ L α), c.thread[j]? = some (.lock l k) → rank l < n → False := by
    intro n
    induction n with
    | zero => intro j l k _ h; exact absurd h (Nat.not_lt_zero _)
    | succ n ih =>
      intro j l k hj hn
      rcases ho : c.owner l with _ | i
      · refine hstuck j ?_
        unfold Enabled; rw [hj]; exact ho
      · have hmem := (hO l i).mp ho
        rcases hp : c.thread[i]? with _ | p
        · rw [hN i hp] at hmem; cases hmem
        · have hd := hT i p hp
          cases p with
          | ret a => rw [show held i = [] from hd] at hmem; cases hmem
          | act st k' => exact hstuck i (by unfold Enabled; rw [hp]; trivial)
          | unlock l' k' => exact hstuck i (by unfold Enabled; rw [hp]; trivial)
          | lock l' k' =>
            have := hd.1 l hmem
            exact ih i l' k' hp (by omega)
  intro j p hj
  cases p with
  | ret a => exact ⟨a, rfl⟩
  | act st k => exact absurd (by unfold Enabled; rw [hj]; trivial) (hstuck j)
  | unlock l k => exact absurd (by unfold Enabled; rw [hj]; trivial) (hstuck j)
  | lock l k => exact (key (rank l + 1) j l k hj (by omega)).elim

omit [DecidableEq L] in
theorem start_disc {rank : L → ℕ} {heap : σ} {threads : List (Prog σ L α)} (h : ∀ p ∈ threads, p.Disc rank []) :
    (start heap threads).AllDisc rank (fun _ => []) :=
  ⟨fun j p hj => h p (List.mem_of_getElem? hj), fun _ _ => rfl, by simp [start], by simp⟩

end Conf

end PyOTF
