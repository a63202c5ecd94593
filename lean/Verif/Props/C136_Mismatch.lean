import Verif.Props.C136_Planes

/-!
# C136: what a call does with too many or too few heights, and what threads with stacks of different shapes do to each other
-/

namespace PyOTF

open Physics

/-- The heights are listed in the dictionary, so that they do not depend on the data. -/
def Listed (d : PyDict) : Prop := d.find "zrange" ≠ none ∧ d.find "zrange" ≠ some (.val .none)

theorem Setup.entries_of_listed {d : PyDict} {w n i r : ℚ} {Z : ℕ} {zs : List ℚ} (h : Setup d w n i r Z zs) (hl : Listed d) (Z' : ℕ) :
    Entries d w n i r Z' zs := by
  obtain ⟨-, dz, h1, h2, h3⟩ := h.planes
  refine ⟨h.keys, h.wl, h.na, h.ni, h.res, dz, h1, h2, ?_⟩
  rcases h3 with ⟨h3 | h3, -⟩ | h3
  · exact absurd h3 hl.1
  · exact absurd h3 hl.2
  · exact .inr h3

theorem retrieve_run (unwrap : Arr ℝ → Arr ℝ) (data : Arr ℝ) (M : ℤ) (pt mt : ℝ) (b : Bool) (d : PyDict) {Z N : ℕ} (hM : 0 < M)
    (hdata : data.shape = [Z, N, N]) : retrievePhase unwrap data M pt mt b d =
      (prRun unwrap data (d.update (prOverride Z N)) M.toNat pt mt b, d.update (prOverride Z N)) := by
  have hck : prChecks data M = .ok (Z, N) := by simp [prChecks, hM, hdata]
  simp only [retrievePhase, PyM.bind_apply, PyM.lift_apply, hck, PyM.modify_apply, PyM.get_apply]

/-- C136: several images and another number of heights, neither of them one: `ValueError` (after the dictionary has been changed). -/
theorem C136_clash (unwrap : Arr ℝ → Arr ℝ) (data : Arr ℝ) (M : ℤ) (pt mt : ℝ) (b : Bool) (d : PyDict) (w n i r : ℚ) (Z Z' N : ℕ) (zs : List ℚ)
    (hset : Setup d w n i r Z' zs) (hl : Listed d) (hdata : data.shape = [Z, N, N]) (hN : 2 ≤ N) (hZ : Z ≠ Z' ∧ Z ≠ 1 ∧ Z' ≠ 1) (hM : 0 < M) :
    retrievePhase unwrap data M pt mt b d = (.error .valueError, d.update (prOverride Z N)) := by
  obtain ⟨o, ho, -, hopt, -⟩ := entries_model (N := N) (hset.entries_of_listed hl Z)
  rw [retrieve_run unwrap data M pt mt b d hM hdata,
    prRun_clash unwrap data _ ho hopt hset.wl.2.ne' hset.res.2.2 hset.planes.1 hdata hN hN (.inl hZ) M.toNat (by omega)]

/-- C136: one image and several heights: no exception; the outcome is that for a stack of copies of the image, one at every height. -/
theorem C136_one_image (unwrap : Arr ℝ → Arr ℝ) (hun : Unwraps unwrap) (data : Arr ℝ) (M : ℤ) (pt mt : ℝ) (b : Bool) (d : PyDict) (w n i r : ℚ)
    (Z N : ℕ) (zs : List ℚ) (hset : Setup d w n i r Z zs) (hl : Listed d) (hdata : data.shape = [1, N, N]) (hN : 2 ≤ N) (hZ : 2 ≤ Z) (hM : 0 < M) :
    ∃ res res' d₁ d₂, retrievePhase unwrap data M pt mt b d = (.ok res, d₁) ∧
      retrievePhase unwrap (repeatImage Z data) M pt mt b d = (.ok res', d₂) ∧ SameReport N res res' := by
  obtain ⟨o, ho, -, hopt, -⟩ := entries_model (N := N) (hset.entries_of_listed hl 1)
  have hrs : (repeatImage Z data).shape = [Z, N, N] := by simp [repeatImage, hdata]
  obtain ⟨res, m, F, e1, e2⟩ := run_form unwrap hun.shape (repeatImage Z data) _ ho hopt hset.wl.2.ne' hset.res.2.2 hset.planes.1 hrs hN (by omega)
    M.toNat (by omega) pt mt b
  obtain ⟨res', m', F', p', f1, f2, -⟩ := retrieve_form unwrap hun.shape (repeatImage Z data) d hset hrs hN (by omega) M hM pt mt b
  refine ⟨res, res', d.update (prOverride 1 N), _, ?_, f1, report_unique e2.toReport f2.toReport hun⟩
  rw [retrieve_run unwrap data M pt mt b d hM hdata,
    prRun_repeat unwrap data _ ho hopt hset.wl.2.ne' hset.res.2.2 hset.planes.1 hdata hN hZ M.toNat, e1]

/-- C136: several images and one height: no exception; the outcome is that for a `zrange` with this height once for every image. -/
theorem C136_one_height (unwrap : Arr ℝ → Arr ℝ) (hun : Unwraps unwrap) (data : Arr ℝ) (M : ℤ) (pt mt : ℝ) (b : Bool) (d : PyDict) (w n i r q : ℚ)
    (Z N : ℕ) (hset : Setup d w n i r 1 [q]) (hl : Listed d) (hdata : data.shape = [Z, N, N]) (hN : 2 ≤ N) (hZ : 0 < Z) (hM : 0 < M) :
    ∃ res res' d₁ d₂, retrievePhase unwrap data M pt mt b d = (.ok res, d₁) ∧
      retrievePhase unwrap data M pt mt b (d.insert "zrange" (.seq (List.replicate Z (.fin q)))) = (.ok res', d₂) ∧ SameReport N res res' := by
  obtain ⟨o, ho, -, hopt, -⟩ := entries_model (N := N) (hset.entries_of_listed hl Z)
  obtain ⟨res, m, F, e1, e2⟩ := prRun_same_height unwrap hun.shape data _ ho hopt hset.wl.2.ne' hset.res.2.2 hdata hN hZ M.toNat (by omega) pt mt b
  have hset' : Setup (d.insert "zrange" (.seq (List.replicate Z (.fin q)))) w n i r Z (List.replicate Z q) := by
    have f : ∀ k, k ≠ "zrange" → (d.insert "zrange" (.seq (List.replicate Z (.fin q)))).find k = d.find k := fun k hk => by
      rw [find_insert, if_neg hk]
    obtain ⟨-, dz, h1, h2, -⟩ := hset.planes
    refine ⟨fun p hp => ?_, ?_, ?_, ?_, ?_, by simp, dz, h1, ?_, .inr (.inl ?_)⟩
    · rcases mem_insert_keys hp with h | ⟨q, hq, e⟩
      · rw [h]; simp
      · rw [← e]; exact hset.keys q hq
    · rw [f "wl" (by decide)]; exact hset.wl
    · rw [f "na" (by decide)]; exact hset.na
    · rw [f "ni" (by decide)]; exact hset.ni
    · rw [f "res" (by decide)]; exact hset.res
    · rw [f "zres" (by decide)]; exact h2
    · rw [find_insert, if_pos rfl, List.map_replicate]
  obtain ⟨res', m', F', p', f1, f2, -⟩ := retrieve_form unwrap hun.shape data _ hset' hdata hN hZ M hM pt mt b
  refine ⟨res, res', d.update (prOverride Z N), _, ?_, f1, report_unique e2 f2.toReport hun⟩
  rw [retrieve_run unwrap data M pt mt b d hM hdata, e1]

/-! ## Threads with stacks of different shapes -/

theorem setup_congr {d d' : PyDict} (h : ∀ k, k ∉ ownKeys → d'.find k = d.find k) (hk : ∀ p ∈ d', p.1 ∈ ownKeys ∨ ∃ q ∈ d, q.1 = p.1)
    {w n i r : ℚ} {Z : ℕ} {zs : List ℚ} (hs : Setup d w n i r Z zs) : Setup d' w n i r Z zs := by
  refine ⟨fun p hp => ?_, ?_, ?_, ?_, ?_, ?_⟩
  · rcases hk p hp with h | ⟨q, hq, e⟩
    · simp only [ownKeys, List.mem_cons, List.not_mem_nil, or_false] at h
      rcases h with h | h | h | h <;> rw [h] <;> simp
    · rw [← e]; exact hs.keys q hq
  · rw [h "wl" (by decide)]; exact hs.wl
  · rw [h "na" (by decide)]; exact hs.na
  · rw [h "ni" (by decide)]; exact hs.ni
  · rw [h "res" (by decide)]; exact hs.res
  · rw [h "zres" (by decide), h "zrange" (by decide)]; exact hs.planes

theorem setup_update {d : PyDict} {w n i r : ℚ} {Z : ℕ} {zs : List ℚ} (hs : Setup d w n i r Z zs) (Z' N' : ℕ) :
    Setup (d.update (prOverride Z' N')) w n i r Z zs :=
  setup_congr (sameInputs_update d Z' N') (fun _ hp => keys_override hp) hs

/-- The schedule of the race: the first thread writes the dictionary, then the second; then both go on. -/
theorem race_run (unwrap : Arr ℝ → Arr ℝ) (d : PyDict) {A B : PrJob} {Z N Z' N' : ℕ} (hA : A.Shaped Z N) (hB : B.Shaped Z' N') :
    ((Conf.start d [A.prog unwrap, B.prog unwrap]).run [0, 1, 0, 1]).thread =
      [.ret (prRun unwrap A.data ((d.update (prOverride Z N)).update (prOverride Z' N')) A.maxIters.toNat A.pupilTol A.mseTol A.phaseOnly),
        .ret (prRun unwrap B.data ((d.update (prOverride Z N)).update (prOverride Z' N')) B.maxIters.toNat B.pupilTol B.mseTol B.phaseOnly)] := by
  simp only [PrJob.prog, hA.checks, hB.checks]
  rfl

/-- C136: threads that share a dictionary and have stacks of different shapes can fail where each alone would return: there is a schedule after which
the first has raised `ValueError`. -/
theorem C136_race (unwrap : Arr ℝ → Arr ℝ) (hun : ∀ a, (unwrap a).shape = a.shape) (d : PyDict) (A B : PrJob) (w n i r : ℚ) (Z N Z' N' : ℕ)
    (zs zs' : List ℚ) (hsA : Setup d w n i r Z zs) (hsB : Setup d w n i r Z' zs') (hA : A.Shaped Z N) (hB : B.Shaped Z' N') (hN : 2 ≤ N) (hN' : 2 ≤ N')
    (hZ : 0 < Z) (hdiff : (Z ≠ Z' ∧ Z ≠ 1 ∧ Z' ≠ 1) ∨ N ≠ N') :
    (∃ res, (A.call unwrap d).1 = .ok res) ∧
      ∃ sched, ((Conf.start d [A.prog unwrap, B.prog unwrap]).run sched).thread[0]? = some (.ret (.error .valueError)) := by
  refine ⟨?_, [0, 1, 0, 1], ?_⟩
  · obtain ⟨res, m, F, p, h, -⟩ := retrieve_form unwrap hun A.data d hsA hA.2 hN hZ A.maxIters hA.1 A.pupilTol A.mseTol A.phaseOnly
    exact ⟨res, by unfold PrJob.call; rw [h]⟩
  · rw [race_run unwrap d hA hB]
    obtain ⟨o, ho, -, hopt, -⟩ := entries_model (N := N') (setup_update hsB Z N).entries
    have hM : 0 < A.maxIters.toNat := by
      have := hA.1
      omega
    rw [prRun_clash unwrap A.data _ ho hopt hsB.wl.2.ne' hsB.res.2.2 hsB.planes.1 hA.2 hN hN' hdiff _ hM]
    rfl

/-- C136: a thread with a single image is not even told: there is a schedule after which it returns the result for a stack of copies of its image, at the
heights of the other stack. -/
theorem C136_silent_race (unwrap : Arr ℝ → Arr ℝ) (d : PyDict) (A B : PrJob) (w n i r : ℚ) (N Z' : ℕ) (zs' : List ℚ)
    (hsB : Setup d w n i r Z' zs') (hA : A.Shaped 1 N) (hB : B.Shaped Z' N) (hN : 2 ≤ N) (hZ : 2 ≤ Z') :
    ∃ sched, ((Conf.start d [A.prog unwrap, B.prog unwrap]).run sched).thread[0]? =
      some (.ret (({ A with data := repeatImage Z' A.data } : PrJob).call unwrap d).1) := by
  refine ⟨[0, 1, 0, 1], ?_⟩
  rw [race_run unwrap d hA hB]
  obtain ⟨o, ho, -, hopt, -⟩ := entries_model (N := N) (setup_update hsB 1 N).entries
  rw [prRun_repeat unwrap A.data _ ho hopt hsB.wl.2.ne' hsB.res.2.2 hsB.planes.1 hA.2 hN hZ]
  have hrs : (repeatImage Z' A.data).shape = [Z', N, N] := by
    have := hA.2
    simp [repeatImage, this]
  unfold PrJob.call
  rw [retrieve_run unwrap (repeatImage Z' A.data) A.maxIters _ _ _ d hA.1 hrs]
  simp only [List.getElem?_cons_zero]
  congr 2
  refine prRun_congr (fun k => ?_) _ _ _ _ _ _
  simp only [find_override]
  split_ifs <;> rfl

/-! ## Examples -/

/-- `dict(..., zrange=[-200, 0, 200])` with five images, with one image; `zrange=0` with five images. -/
def listedDict : PyDict := ("zrange", .seq [.fin (-200), .fin 0, .fin 200]) :: demoDict

theorem listedDict_setup : Setup listedDict 500 1 (3/2) 100 3 [-200, 0, 200] where
  keys := by decide
  wl := ⟨⟨_, rfl, rfl⟩, by norm_num⟩
  na := ⟨⟨.int 1, rfl, by simp [Denotes, PyVal.num?]⟩, by norm_num⟩
  ni := ⟨⟨_, rfl, rfl⟩, by norm_num⟩
  res := ⟨⟨_, rfl, rfl⟩, by norm_num, by norm_num⟩
  planes := ⟨rfl, 200, by norm_num, Or.inr ⟨_, rfl, rfl⟩, Or.inr (Or.inl rfl)⟩

theorem listedDict_listed : Listed listedDict :=
  ⟨fun h => (by cases h), fun h => (by cases h)⟩

theorem unwraps_id : Unwraps id := ⟨fun _ => rfl, fun _ _ => ⟨0, by simp⟩⟩

example : (retrievePhase id ⟨[5, 8, 8], fun _ => 1⟩ 10 0 0 false listedDict).1 = .error .valueError := by
  rw [C136_clash id _ 10 0 0 false _ _ _ _ _ 5 3 8 _ listedDict_setup listedDict_listed rfl (by norm_num) (by norm_num) (by norm_num)]

example : ∃ res res' d₁ d₂, retrievePhase id ⟨[1, 8, 8], fun _ => 1⟩ 10 0 0 false listedDict = (.ok res, d₁) ∧
    retrievePhase id (repeatImage 3 ⟨[1, 8, 8], fun _ => 1⟩) 10 0 0 false listedDict = (.ok res', d₂) ∧ SameReport 8 res res' :=
  C136_one_image id unwraps_id _ 10 0 0 false _ _ _ _ _ 3 8 _ listedDict_setup listedDict_listed rfl (by norm_num) (by norm_num) (by norm_num)

def focusDict : PyDict := ("zrange", .val (.int 0)) :: demoDict

theorem focusDict_setup : Setup focusDict 500 1 (3/2) 100 1 [0] where
  keys := by decide
  wl := ⟨⟨_, rfl, rfl⟩, by norm_num⟩
  na := ⟨⟨.int 1, rfl, by simp [Denotes, PyVal.num?]⟩, by norm_num⟩
  ni := ⟨⟨_, rfl, rfl⟩, by norm_num⟩
  res := ⟨⟨_, rfl, rfl⟩, by norm_num, by norm_num⟩
  planes := ⟨rfl, 200, by norm_num, Or.inr ⟨_, rfl, rfl⟩, Or.inr (Or.inr ⟨_, 0, rfl, by simp [Denotes, PyVal.num?], rfl⟩)⟩

example : ∃ res res' d₁ d₂, retrievePhase id ⟨[5, 8, 8], fun _ => 1⟩ 10 0 0 false focusDict = (.ok res, d₁) ∧
    retrievePhase id ⟨[5, 8, 8], fun _ => 1⟩ 10 0 0 false (focusDict.insert "zrange" (.seq (List.replicate 5 (.fin 0)))) = (.ok res', d₂) ∧
    SameReport 8 res res' :=
  C136_one_height id unwraps_id _ 10 0 0 false _ _ _ _ _ 0 5 8 focusDict_setup ⟨fun h => (by cases h), fun h => (by cases h)⟩ rfl (by norm_num)
    (by norm_num) (by norm_num)

/-- Two threads, three images and five. -/
example : ∃ sched, ((Conf.start demoDict [PrJob.prog id ⟨⟨[3, 8, 8], fun _ => 1⟩, 10, 0, 0, false⟩,
    PrJob.prog id ⟨⟨[5, 8, 8], fun _ => 1⟩, 10, 0, 0, false⟩]).run sched).thread[0]? = some (.ret (.error .valueError)) :=
  (C136_race id (fun _ => rfl) demoDict _ _ _ _ _ _ 3 8 5 8 _ _ (demoDict_setup 3) (demoDict_setup 5) ⟨by norm_num, rfl⟩ ⟨by norm_num, rfl⟩ (by norm_num)
    (by norm_num) (by norm_num) (.inl (by norm_num))).2

/-- Two threads, one image and five. -/
example : ∃ sched, ((Conf.start demoDict [PrJob.prog id ⟨⟨[1, 8, 8], fun _ => 1⟩, 10, 0, 0, false⟩,
    PrJob.prog id ⟨⟨[5, 8, 8], fun _ => 1⟩, 10, 0, 0, false⟩]).run sched).thread[0]? =
      some (.ret (PrJob.call id ⟨repeatImage 5 ⟨[1, 8, 8], fun _ => 1⟩, 10, 0, 0, false⟩ demoDict).1) :=
  C136_silent_race id demoDict _ _ _ _ _ _ 8 5 _ (demoDict_setup 5) ⟨by norm_num, rfl⟩ ⟨by norm_num, rfl⟩ (by norm_num) (by norm_num)

/-- A history: an interrupted call for three images, then one for five that runs to its end, then the one for three images again. -/
example (A B : PrJob) : (A.call id (prSession id [(A, some 1), (B, none)] demoDict)).1 = (A.call id demoDict).1 :=
  (C136_history id _ demoDict A).2

/-- Two threads with stacks of one shape, any schedule. -/
example (sched : List ℕ) (r : Py PRResult)
    (hr : ((Conf.start demoDict ([⟨⟨[3, 8, 8], fun _ => 1⟩, 10, 0, 0, false⟩, ⟨⟨[3, 8, 8], fun _ => 2⟩, 5, 0, 0, true⟩].map
      fun j => PrJob.prog id j)).run sched).thread[1]? = some (.ret r)) :
    r = (PrJob.call id ⟨⟨[3, 8, 8], fun _ => 2⟩, 5, 0, 0, true⟩ demoDict).1 :=
  (C136_threads id demoDict 3 8 _ (by
    intro j hj
    simp only [List.mem_cons, List.not_mem_nil, or_false] at hj
    rcases hj with rfl | rfl
    · exact ⟨by norm_num, rfl⟩
    · exact ⟨by norm_num, rfl⟩) sched 1 _ rfl r hr).1

end PyOTF
