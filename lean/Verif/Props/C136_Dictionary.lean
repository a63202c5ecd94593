import Verif.Model.PrThreads
import Verif.Props.C64_C67_Phase

/-!
# C136: one parameter dictionary for several calls of `retrieve_phase`
-/

namespace PyOTF

/-- The entries `retrieve_phase` writes. -/
def ownKeys : List String := ["vec_corr", "condition", "zsize", "size"]

/-- Two dictionaries that differ only in entries that `retrieve_phase` overwrites. -/
def SameInputs (d d' : PyDict) : Prop := ∀ k, k ∉ ownKeys → d.find k = d'.find k

theorem SameInputs.refl (d : PyDict) : SameInputs d d := fun _ _ => rfl

theorem SameInputs.symm {d d' : PyDict} (h : SameInputs d d') : SameInputs d' d := fun k hk => (h k hk).symm

theorem SameInputs.trans {d d' d'' : PyDict} (h : SameInputs d d') (h' : SameInputs d' d'') : SameInputs d d'' :=
  fun k hk => (h k hk).trans (h' k hk)

theorem sameInputs_update (d : PyDict) (Z N : ℕ) : SameInputs (d.update (prOverride Z N)) d := by
  intro k hk
  simp only [ownKeys, List.mem_cons, List.not_mem_nil, or_false, not_or] at hk
  rw [find_override, if_neg hk.2.2.2, if_neg hk.2.2.1, if_neg hk.2.1, if_neg hk.1]

theorem find_none_iff {d : PyDict} {k : String} : d.find k = none ↔ ∀ p ∈ d, p.1 ≠ k := by
  simp [PyDict.find, List.find?_eq_none]

/-- Whether `HanserPSF(**params)` succeeds, and which object it makes, depends on what the entries are, not on their order. -/
theorem hanserOfDict_congr {d d' : PyDict} (h : ∀ k, d.find k = d'.find k) : hanserOfDict d = hanserOfDict d' := by
  have hall : ∀ e : PyDict, e.all (fun p => decide (p.1 ∈ hanserKeywords)) = true ↔ ∀ k, k ∉ hanserKeywords → e.find k = none := by
    intro e
    simp only [find_none_iff, List.all_eq_true, decide_eq_true_eq]
    exact ⟨fun g k hk p hp e => hk (e ▸ g p hp), fun g p hp => by_contra fun hn => g p.1 hn p hp rfl⟩
  have e1 : d.all (fun p => decide (p.1 ∈ hanserKeywords)) = d'.all (fun p => decide (p.1 ∈ hanserKeywords)) := by
    rw [Bool.eq_iff_iff, hall, hall]
    simp only [h]
  unfold hanserOfDict
  simp only [e1, required, h]

theorem prRun_congr {d d' : PyDict} (h : ∀ k, d.find k = d'.find k) (unwrap : Arr ℝ → Arr ℝ) (data : Arr ℝ) (M : ℕ) (pt mt : ℝ) (b : Bool) :
    prRun unwrap data d M pt mt b = prRun unwrap data d' M pt mt b := by
  unfold prRun
  rw [hanserOfDict_congr h]

theorem call_eq (unwrap : Arr ℝ → Arr ℝ) (j : PrJob) (d : PyDict) : j.call unwrap d =
    match prChecks j.data j.maxIters with
    | .error e => (.error e, d)
    | .ok (nz, nx) => (prRun unwrap j.data (d.update (prOverride nz nx)) j.maxIters.toNat j.pupilTol j.mseTol j.phaseOnly,
        d.update (prOverride nz nx)) := by
  unfold PrJob.call retrievePhase
  simp only [PyM.bind_apply, PyM.lift_apply, PyM.modify_apply, PyM.get_apply]
  rcases prChecks j.data j.maxIters with e | ⟨nz, nx⟩ <;> rfl

/-- C136: undisturbed, the program is the call. -/
theorem C136_alone (unwrap : Arr ℝ → Arr ℝ) (j : PrJob) (d : PyDict) : (j.prog unwrap).alone d = j.call unwrap d := by
  rw [call_eq]
  unfold PrJob.prog
  rcases prChecks j.data j.maxIters with e | ⟨nz, nx⟩ <;> rfl

/-- C136: the outcome of a call, result or exception, depends on the entries it does not overwrite only. -/
theorem C136_inputs (unwrap : Arr ℝ → Arr ℝ) (j : PrJob) (d d' : PyDict) (h : SameInputs d d') :
    (j.call unwrap d).1 = (j.call unwrap d').1 := by
  rw [call_eq, call_eq]
  rcases prChecks j.data j.maxIters with e | ⟨nz, nx⟩
  · rfl
  · refine prRun_congr (fun k => ?_) _ _ _ _ _ _
    simp only [find_override]
    split_ifs with h1 h2 h3 h4
    · rfl
    · rfl
    · rfl
    · rfl
    · exact h k (by simp [ownKeys, h1, h2, h3, h4])

theorem cut_same (unwrap : Arr ℝ → Arr ℝ) (j : PrJob) (n : ℕ) (d : PyDict) : SameInputs ((j.prog unwrap).cut n d) d := by
  unfold PrJob.prog
  rcases prChecks j.data j.maxIters with e | ⟨nz, nx⟩
  · cases n <;> exact SameInputs.refl d
  · rcases n with _ | _ | _ | n
    · exact SameInputs.refl d
    · exact sameInputs_update d nz nx
    · exact sameInputs_update d nz nx
    · exact sameInputs_update d nz nx

theorem call_same (unwrap : Arr ℝ → Arr ℝ) (j : PrJob) (d : PyDict) : SameInputs (j.call unwrap d).2 d := by
  rw [call_eq]
  rcases prChecks j.data j.maxIters with e | ⟨nz, nx⟩
  · exact SameInputs.refl d
  · exact sameInputs_update d nz nx

/-- C136: after any number of earlier calls with the same dictionary - for data of any shapes, that returned, raised, or were interrupted at any
point - the entries that are the caller's are what they were, and a call has the outcome it would have had with the original dictionary. -/
theorem C136_history (unwrap : Arr ℝ → Arr ℝ) (js : List (PrJob × Option ℕ)) (d : PyDict) (j : PrJob) :
    SameInputs (prSession unwrap js d) d ∧ (j.call unwrap (prSession unwrap js d)).1 = (j.call unwrap d).1 := by
  have key : SameInputs (prSession unwrap js d) d := by
    induction js generalizing d with
    | nil => exact SameInputs.refl d
    | cons a js ih =>
      obtain ⟨j, _ | n⟩ := a
      · refine (ih _).trans ?_
        rw [C136_alone]
        exact call_same unwrap j d
      · exact (ih _).trans (cut_same unwrap j n d)
  exact ⟨key, C136_inputs unwrap j _ _ key⟩

/-! ## Threads -/

/-- The data of a job pass the checks and have `Z` planes of `N` by `N` pixels. -/
def PrJob.Shaped (j : PrJob) (Z N : ℕ) : Prop := 0 < j.maxIters ∧ j.data.shape = [Z, N, N]

theorem PrJob.Shaped.checks {j : PrJob} {Z N : ℕ} (h : j.Shaped Z N) : prChecks j.data j.maxIters = .ok (Z, N) := by
  simp [prChecks, h.1, h.2]

/-- C136: an interrupted call leaves the dictionary as it was, or with the four entries of the data and nothing else changed. -/
theorem C136_interrupted (unwrap : Arr ℝ → Arr ℝ) (j : PrJob) (Z N : ℕ) (h : j.Shaped Z N) (d : PyDict) (m : ℕ) :
    prSession unwrap [(j, some m)] d = if m = 0 then d else
      d.update [("vec_corr", .val (.str "none")), ("condition", .val (.str "none")), ("zsize", .val (.int Z)), ("size", .val (.int N))] := by
  simp only [prSession, PrJob.prog, h.checks]
  rcases m with _ | _ | _ | m
  · rfl
  · rfl
  · rfl
  · rfl

/-- What may be left of a thread, and what the dictionary is like then. -/
def Left (unwrap : Arr ℝ → Arr ℝ) (d0 : PyDict) (Z N : ℕ) (j : PrJob) (p : Prog PyDict Unit (Py PRResult)) (d : PyDict) : Prop :=
  let body : PyDict → Prog PyDict Unit (Py PRResult) := fun d => .ret (prRun unwrap j.data d j.maxIters.toNat j.pupilTol j.mseTol j.phaseOnly)
  p = .act (fun d => d.update (prOverride Z N)) (fun _ => .act id body) ∨
    (p = .act id body ∧ ∀ k ∈ ownKeys, d.find k = (d0.update (prOverride Z N)).find k) ∨
    p = .ret (j.call unwrap d0).1

theorem left_update {unwrap : Arr ℝ → Arr ℝ} {d0 : PyDict} {Z N : ℕ} {j : PrJob} {p : Prog PyDict Unit (Py PRResult)} {d : PyDict}
    (h : Left unwrap d0 Z N j p d) : Left unwrap d0 Z N j p (d.update (prOverride Z N)) := by
  rcases h with h | ⟨h, -⟩ | h
  · exact .inl h
  · refine .inr (.inl ⟨h, fun k hk => ?_⟩)
    simp only [ownKeys, List.mem_cons, List.not_mem_nil, or_false] at hk
    rw [find_override, find_override]
    rcases hk with rfl | rfl | rfl | rfl <;> rfl
  · exact .inr (.inr h)

/-- The invariant of a run. -/
structure RunInv (unwrap : Arr ℝ → Arr ℝ) (d0 : PyDict) (Z N : ℕ) (js : List PrJob) (c : Conf PyDict Unit (Py PRResult)) : Prop where
  same : SameInputs c.heap d0
  length : c.thread.length = js.length
  left : ∀ (i : ℕ) (j : PrJob) (p : Prog PyDict Unit (Py PRResult)), js[i]? = some j → c.thread[i]? = some p → Left unwrap d0 Z N j p c.heap

theorem runInv_step {unwrap : Arr ℝ → Arr ℝ} {d0 : PyDict} {Z N : ℕ} {js : List PrJob} (hjs : ∀ j ∈ js, j.Shaped Z N)
    {c : Conf PyDict Unit (Py PRResult)} (h : RunInv unwrap d0 Z N js c) (i : ℕ) : RunInv unwrap d0 Z N js (c.step i) := by
  unfold Conf.step
  rcases hp : c.thread[i]? with _ | p
  · exact h
  have hi : i < c.thread.length := (List.getElem?_eq_some_iff.mp hp).1
  obtain ⟨j, hj⟩ : ∃ j, js[i]? = some j := ⟨js[i]'(h.length ▸ hi), List.getElem?_eq_getElem _⟩
  have hmem : j ∈ js := List.mem_of_getElem? hj
  rcases h.left i j p hj hp with rfl | ⟨rfl, hk⟩ | rfl
  · refine ⟨(sameInputs_update _ Z N).trans h.same, by simp [h.length], fun i' j' p' hj' hp' => ?_⟩
    simp only at hp' ⊢
    by_cases e : i' = i
    · subst e
      rw [List.getElem?_set_self hi] at hp'
      cases hp'
      rw [hj] at hj'; cases hj'
      refine .inr (.inl ⟨rfl, fun k hk => ?_⟩)
      simp only [ownKeys, List.mem_cons, List.not_mem_nil, or_false] at hk
      rw [find_override, find_override]
      rcases hk with rfl | rfl | rfl | rfl <;> rfl
    · rw [List.getElem?_set_ne (Ne.symm e)] at hp'
      exact left_update (h.left i' j' p' hj' hp')
  · refine ⟨h.same, by simp [h.length], fun i' j' p' hj' hp' => ?_⟩
    simp only at hp' ⊢
    by_cases e : i' = i
    · subst e
      rw [List.getElem?_set_self hi] at hp'
      cases hp'
      rw [hj] at hj'; cases hj'
      refine .inr (.inr ?_)
      rw [call_eq, (hjs j hmem).checks]
      simp only
      congr 1
      refine prRun_congr (fun k => ?_) _ _ _ _ _ _
      by_cases hk' : k ∈ ownKeys
      · exact hk k hk'
      · rw [h.same k hk', sameInputs_update d0 Z N k hk']
    · rw [List.getElem?_set_ne (Ne.symm e)] at hp'
      exact h.left i' j' p' hj' hp'
  · exact h

/-- C136: threads that retrieve from stacks of the same shape may share a dictionary: whatever the schedule, a call that has ended has the outcome it
would have had alone, and the entries that are the caller's are what they were. -/
theorem C136_threads (unwrap : Arr ℝ → Arr ℝ) (d : PyDict) (Z N : ℕ) (js : List PrJob) (hjs : ∀ j ∈ js, j.Shaped Z N) (sched : List ℕ) (i : ℕ)
    (j : PrJob) (hj : js[i]? = some j) (r : Py PRResult)
    (hr : ((Conf.start d (js.map fun j => j.prog unwrap)).run sched).thread[i]? = some (.ret r)) :
    r = (j.call unwrap d).1 ∧ SameInputs ((Conf.start d (js.map fun j => j.prog unwrap)).run sched).heap d := by
  have h0 : RunInv unwrap d Z N js (Conf.start d (js.map fun j => j.prog unwrap)) := by
    refine ⟨SameInputs.refl d, by simp [Conf.start], fun i j p hj hp => ?_⟩
    simp only [Conf.start, List.getElem?_map, hj, Option.map_some, Option.some.injEq] at hp
    subst hp
    left
    unfold PrJob.prog
    rw [(hjs j (List.mem_of_getElem? hj)).checks]
  have hrun : ∀ (sched : List ℕ) (c : Conf PyDict Unit (Py PRResult)), RunInv unwrap d Z N js c → RunInv unwrap d Z N js (c.run sched) := by
    intro sched
    induction sched with
    | nil => exact fun c h => h
    | cons i sched ih => exact fun c h => ih _ (runInv_step hjs h i)
  have hfin := hrun sched _ h0
  refine ⟨?_, hfin.same⟩
  rcases hfin.left i j _ hj hr with h | ⟨h, -⟩ | h
  · cases h
  · cases h
  · cases h; rfl

end PyOTF
