import Verif.Props.C64_C67_Phase
import Verif.Lemmas.Converge

/-!
# C111: phase retrieval converges
-/

namespace PyOTF

open Physics

/-- Every pass adds one entry to `mse`. -/
theorem prBody_length {c : PrConf} {s s' : PrState} {b : Bool} (h : prBody c s = .ok (s', b)) :
    s'.mse.length = s.mse.length + 1 := by
  unfold prBody at h
  simp only [bind, Except.bind, pure, Except.pure] at h
  repeat' split at h
  all_goals first
    | (simp only [Except.ok.injEq, Prod.mk.injEq] at h
       obtain ⟨rfl, -⟩ := h
       simp)
    | simp at h

/-- A loop that broke off does the same if it is allowed more passes. -/
theorem prLoop_more {c : PrConf} (n n' : ℕ) (hn : n ≤ n') (s s' : PrState) (h : prLoop c n s = .ok s')
    (hl : s'.mse.length < s.mse.length + n) : prLoop c n' s = .ok s' := by
  induction n generalizing n' s with
  | zero =>
    simp only [prLoop, Except.ok.injEq] at h
    subst h; omega
  | succ n ih =>
    obtain ⟨m, rfl⟩ : ∃ m, n' = m + 1 := ⟨n' - 1, by omega⟩
    simp only [prLoop] at h ⊢
    rcases hb : prBody c s with e | ⟨t, b⟩
    · rw [hb] at h; simp at h
    · rw [hb] at h
      cases b with
      | true => exact h
      | false =>
        have := prBody_length hb
        exact ih m (by omega) t h (by omega)

theorem prRun_more {unwrap : Arr ℝ → Arr ℝ} {data : Arr ℝ} {d : PyDict} {n n' : ℕ} {pt mt : ℝ} {b : Bool} {res : PRResult}
    (h : prRun unwrap data d n pt mt b = .ok res) (hl : res.mse.length < n) (hn : n ≤ n') :
    prRun unwrap data d n' pt mt b = .ok res := by
  unfold prRun at h ⊢
  simp only [bind, Except.bind] at h ⊢
  rcases h1 : hanserOfDict d with e | model
  · rw [h1] at h; simp at h
  rw [h1] at h
  simp only at h ⊢
  rcases h2 : genCoords model.params with e | g
  · rw [h2] at h; simp at h
  rw [h2] at h
  simp only at h ⊢
  rcases h3 : prLoop ⟨data, data.map psqrt, g.idealPupil.map Complex.re, g, pt, mt, b⟩ n ⟨model, g.idealPupil, none, [], [], []⟩ with e | s
  · rw [h3] at h; simp at h
  rw [h3] at h
  have hs : s.mse = res.mse := by
    simp only [PRResult.new, bind, Except.bind, pure, Except.pure] at h
    repeat' split at h
    all_goals first
      | (simp only [Except.ok.injEq] at h; subst h; rfl)
      | simp at h
  rw [prLoop_more n n' hn _ s h3 (by rw [hs]; simp only [List.length_nil]; omega)]
  exact h

/-- If a run ended before the limit, every larger limit gives the same result. -/
theorem retrieve_more {unwrap : Arr ℝ → Arr ℝ} {data : Arr ℝ} {d d' : PyDict} {K M : ℤ} {pt mt : ℝ} {b : Bool} {res : PRResult}
    (h : retrievePhase unwrap data K pt mt b d = (.ok res, d')) (hl : (res.mse.length : ℤ) < K) (hM : K ≤ M) :
    retrievePhase unwrap data M pt mt b d = (.ok res, d') := by
  have hK : 0 < K := by omega
  have e : prChecks data M = prChecks data K := by simp [prChecks, hK, show 0 < M by omega]
  simp only [retrievePhase, PyM.bind_apply, PyM.lift_apply, PyM.modify_apply, PyM.get_apply] at h ⊢
  rw [e]
  rcases hc : prChecks data K with e | ⟨nz, nx⟩
  · rw [hc] at h; simp at h
  · rw [hc] at h
    simp only [Prod.mk.injEq] at h ⊢
    refine ⟨?_, h.2⟩
    exact prRun_more h.1 (by omega) (by omega)

/-- The result says that the stopping rule ended the run: its last entries are below the tolerances. -/
def StoppedByRule (pt mt : ℝ) (res : PRResult) : Prop :=
  ∃ e pd md, res.mse.getLast? = some e ∧ res.pupilDiff.getLast? = some pd ∧ res.mseDiff.getLast? = some md ∧
    (pd.lt pt ∨ md.lt mt ∨ e < mt)

theorem stops_result (unwrap : Arr ℝ → Arr ℝ) (hun : ∀ a, (unwrap a).shape = a.shape) (data : Arr ℝ) (d : PyDict)
    {w n i r : ℚ} {Z N : ℕ} {zs : List ℚ} (hset : Setup d w n i r Z zs) (hdata : data.shape = [Z, N, N]) (hN : 2 ≤ N)
    (hZ : 0 < Z) (pt mt : ℝ) (b : Bool) (k : ℕ) (hk : (prProblem data w n i r Z N zs).Stops b pt mt k) :
    ∃ res d', StoppedByRule pt mt res ∧ res.mse.length ≤ k + 1 ∧
      ∀ M : ℤ, k + 2 ≤ M → retrievePhase unwrap data M pt mt b d = (.ok res, d') := by
  obtain ⟨res, m, F, p, e, run, -⟩ := retrieve_form unwrap hun data d hset hdata hN hZ (k + 2 : ℕ) (by omega) pt mt b
  have hpos := run.pos
  have hm : m ≤ k + 1 := by
    by_contra hcon
    exact run.before k (by omega) hk
  have hst := run.early (by omega)
  have hlen : res.mse.length = m := by rw [run.mse]; simp
  have last : ∀ {β : Type} (f : ℕ → β), ((List.range m).map f).getLast? = some (f (m - 1)) := by
    intro β f
    obtain ⟨q, rfl⟩ : ∃ q, m = q + 1 := ⟨m - 1, by omega⟩
    simp [List.range_succ]
  refine ⟨res, _, ⟨_, _, _, by rw [run.mse, last], by rw [run.pupilDiff, last], by rw [run.mseDiff, last],
    (Problem.stops_iff _ _ _ _ _).mpr hst⟩, by omega, fun M hM => retrieve_more e (by omega) (by exact_mod_cast hM)⟩

/-- C111: with a positive `mse_tol`, whatever the data and `pupil_tol`, phase retrieval (`phase_only=False`) is ended by
its stopping rule: there is a `K` such that all calls with `max_iters ≥ K` give one and the same result, after fewer
than `K` passes, whose last entries satisfy the rule. -/
theorem C111_stops (unwrap : Arr ℝ → Arr ℝ) (hun : Unwraps unwrap) (data : Arr ℝ) (d : PyDict)
    (w n i r : ℚ) (Z N : ℕ) (zs : List ℚ) (hset : Setup d w n i r Z zs) (hdata : data.shape = [Z, N, N]) (hN : 2 ≤ N)
    (hZ : 0 < Z) (pt mt : ℝ) (hm : 0 < mt) :
    ∃ (K : ℕ) (res : PRResult) (d' : PyDict), StoppedByRule pt mt res ∧ res.mse.length < K ∧
      ∀ M : ℤ, K ≤ M → retrievePhase unwrap data M pt mt false d = (.ok res, d') := by
  obtain ⟨k, hk⟩ := (prProblem data w n i r Z N zs).stops_mse (show 0 < N by omega) hZ pt mt hm
  obtain ⟨res, d', h1, h2, h3⟩ := stops_result unwrap hun.shape data d hset hdata hN hZ pt mt false k hk
  exact ⟨k + 2, res, d', h1, by omega, fun M hM => h3 M (by exact_mod_cast hM)⟩

/-- C111: with a positive `pupil_tol`, whatever `mse_tol`, the same holds if some voxel is bright in the data and in
the image of the ideal pupil. -/
theorem C111_stops_pupil (unwrap : Arr ℝ → Arr ℝ) (hun : Unwraps unwrap) (data : Arr ℝ) (d : PyDict)
    (w n i r : ℚ) (Z N : ℕ) (zs : List ℚ) (hset : Setup d w n i r Z zs) (hdata : data.shape = [Z, N, N]) (hN : 2 ≤ N)
    (hZ : 0 < Z) (pt mt : ℝ) (hp : 0 < pt) (z y x : ℕ) (hz : z < Z) (hy : y < N) (hx : x < N) (hpos : 0 < data.get [z, y, x])
    (hb : (prProblem data w n i r Z N zs).amplitude (aperture N r ((n / w : ℚ) : ℝ)) z y x ≠ 0) :
    ∃ (K : ℕ) (res : PRResult) (d' : PyDict), StoppedByRule pt mt res ∧ res.mse.length < K ∧
      ∀ M : ℤ, K ≤ M → retrievePhase unwrap data M pt mt false d = (.ok res, d') := by
  set S := prProblem data w n i r Z N zs with hS
  have hN' : 0 < S.N := show 0 < N by omega
  have he : 0 < S.energy (S.iterate false 1) := S.energy_update_pos hN' hZ _ (S.iterate_supported false 0) hz hy hx hpos hb
  have hZ' : (0 : ℝ) < S.Z := by exact_mod_cast hZ
  obtain ⟨m, hm⟩ := exists_nat_gt (S.amplitudeError (S.iterate false 1) / (S.Z * S.energy (S.iterate false 1) * pt))
  rw [div_lt_iff₀ (by positivity)] at hm
  obtain ⟨k, -, hk⟩ := S.stops_pupil hN' hZ pt mt hp he m hm
  obtain ⟨res, d', h1, h2, h3⟩ := stops_result unwrap hun.shape data d hset hdata hN hZ pt mt false k hk
  exact ⟨k + 2, res, d', h1, by omega, fun M hM => h3 M (by exact_mod_cast hM)⟩

/-- C111: how many passes that takes: `n + 2` if `n` times `Z e t` exceeds the amplitude error `E` of the first
update, `e` being its energy. -/
theorem C111_passes (unwrap : Arr ℝ → Arr ℝ) (hun : Unwraps unwrap) (data : Arr ℝ) (d : PyDict)
    (w n i r : ℚ) (Z N : ℕ) (zs : List ℚ) (hset : Setup d w n i r Z zs) (hdata : data.shape = [Z, N, N]) (hN : 2 ≤ N)
    (hZ : 0 < Z) (pt mt : ℝ) (hp : 0 < pt)
    (he : 0 < (prProblem data w n i r Z N zs).energy ((prProblem data w n i r Z N zs).iterate false 1)) (m : ℕ)
    (hm : (prProblem data w n i r Z N zs).amplitudeError ((prProblem data w n i r Z N zs).iterate false 1) <
      m * (Z * (prProblem data w n i r Z N zs).energy ((prProblem data w n i r Z N zs).iterate false 1) * pt))
    (M : ℤ) (hM : 0 < M) (res : PRResult) (d' : PyDict) (h : retrievePhase unwrap data M pt mt false d = (.ok res, d')) :
    res.mse.length ≤ m + 2 := by
  set S := prProblem data w n i r Z N zs with hS
  obtain ⟨k, hk, hst⟩ := S.stops_pupil (show 0 < N by omega) hZ pt mt hp he m hm
  obtain ⟨r1, m1, F1, p1, e1, run1, -⟩ := retrieve_form unwrap hun.shape data d hset hdata hN hZ M hM pt mt false
  rw [h] at e1
  simp only [Prod.mk.injEq, Except.ok.injEq] at e1
  obtain ⟨rfl, -⟩ := e1
  rw [run1.mse, List.length_map, List.length_range]
  by_contra hcon
  exact run1.before k (by omega) hst

theorem energy_congr (S : Problem) {P Q : ℕ → ℕ → ℂ} (h : S.SamePupil P Q) : S.energy P = S.energy Q := by
  unfold Problem.energy
  congr 1
  exact Finset.sum_congr rfl fun i hi => Finset.sum_congr rfl fun j hj => by
    rw [h i (Finset.mem_range.mp hi) j (Finset.mem_range.mp hj)]

/-- C111: the energy of the retrieved pupil never decreases with the number of iterations, and is at most the energy
of the data per plane (a run that accepts the ideal pupil at once excepted). -/
theorem C111_energy (unwrap : Arr ℝ → Arr ℝ) (hun : Unwraps unwrap) (data : Arr ℝ) (d : PyDict)
    (w n i r : ℚ) (Z N : ℕ) (zs : List ℚ) (hset : Setup d w n i r Z zs) (hdata : data.shape = [Z, N, N]) (hN : 2 ≤ N)
    (hZ : 0 < Z) (M₁ M₂ : ℤ) (hM : 0 < M₁) (hle : M₁ ≤ M₂) (pt mt : ℝ) (res₁ res₂ : PRResult) (d₁ d₂ : PyDict)
    (h₁ : retrievePhase unwrap data M₁ pt mt false d = (.ok res₁, d₁))
    (h₂ : retrievePhase unwrap data M₂ pt mt false d = (.ok res₂, d₂)) :
    (prProblem data w n i r Z N zs).energy (retrieved N res₁) ≤ (prProblem data w n i r Z N zs).energy (retrieved N res₂) ∧
      ((∀ e, res₁.mse.head? = some e → mt ≤ e) → (prProblem data w n i r Z N zs).energy (retrieved N res₁) ≤
        (∑ z ∈ Finset.range Z, ∑ y ∈ Finset.range N, ∑ x ∈ Finset.range N, max 0 (data.get [z, y, x])) / Z) := by
  set S := prProblem data w n i r Z N zs with hS
  have hN' : 0 < S.N := show 0 < N by omega
  obtain ⟨r1, m1, F1, p1, e1, run1, -⟩ := retrieve_form unwrap hun.shape data d hset hdata hN hZ M₁ hM pt mt false
  obtain ⟨r2, m2, F2, p2, e2, run2, -⟩ := retrieve_form unwrap hun.shape data d hset hdata hN hZ M₂ (by omega) pt mt false
  rw [h₁] at e1
  rw [h₂] at e2
  simp only [Prod.mk.injEq, Except.ok.injEq] at e1 e2
  obtain ⟨rfl, -⟩ := e1
  obtain ⟨rfl, -⟩ := e2
  have c1 : S.energy (retrieved N res₁) = S.energy F1 := energy_congr S (run_retrieved run1 hun)
  have c2 : S.energy (retrieved N res₂) = S.energy F2 := energy_congr S (run_retrieved run2 hun)
  rw [c1, c2]
  obtain ⟨a1, f1, g1, k1, l1⟩ := run_index run1
  obtain ⟨a2, f2, g2, k2, l2⟩ := run_index run2
  rw [f1, f2]
  have hle12 : a1 ≤ a2 := by
    by_contra hlt
    exact k1 a2 (by omega) (l2 (by omega))
  constructor
  · rcases Nat.eq_zero_or_pos a1 with h0 | h0
    · have hs : S.Stops false pt mt 0 := by
        have := l1 (by omega); rwa [h0] at this
      have : a2 = 0 := by
        by_contra hne
        exact k2 0 (by omega) hs
      rw [h0, this]
    · exact S.iterate_energy_mono hN' hZ h0 hle12
  · intro hfirst
    have hmse : res₁.mse.head? = some (S.errorAt false 0) := by
      rw [run1.mse]
      obtain ⟨q, hq⟩ : ∃ q, m1 = q + 1 := ⟨m1 - 1, by have := run1.pos; omega⟩
      rw [hq, List.range_succ_eq_map]; rfl
    have h0 : a1 ≠ 0 := by
      intro h0
      have := l1 (by omega)
      rw [h0] at this
      rcases this with h | ⟨j, h, -⟩
      · exact absurd (hfirst _ hmse) (not_le.mpr h)
      · omega
    obtain ⟨q, rfl⟩ : ∃ q, a1 = q + 1 := ⟨a1 - 1, by omega⟩
    have hZ' : (0 : ℝ) < Z := by exact_mod_cast hZ
    rw [le_div_iff₀ hZ', mul_comm]
    exact S.energy_update_le hN' hZ (S.iterate false q)

/-- C111: one iteration from any pupil supported in the aperture lowers the amplitude error at least by `Z` times the
mean squared change of the pupil. -/
theorem C111_descent (S : Problem) (hN : 0 < S.N) (hZ : 0 < S.Z) (P : ℕ → ℕ → ℂ) (hP : S.Supported P) :
    S.amplitudeError (S.update P) + S.Z * S.distance P (S.update P) ≤ S.amplitudeError P := S.descent hN hZ P hP

namespace Physics.Problem

variable (S : Problem)

theorem iterate_phase_error_antitone (hN : 0 < S.N) (hZ : 0 < S.Z) (j k : ℕ) (h : j ≤ k) :
    S.amplitudeError (S.iterate true k) ≤ S.amplitudeError (S.iterate true j) := by
  induction k, h using Nat.le_induction with
  | base => exact le_refl _
  | succ k _ ih => exact (S.error_reduction_phase hN hZ _ (S.iterate_supported true k)
      fun i _ j _ h => S.iterate_unimodular k i j h).trans ih

end Physics.Problem

/-- C63: more iterations never increase the amplitude error with `phase_only=True` either. -/
theorem C63_error_reduction_phase_only (unwrap : Arr ℝ → Arr ℝ) (hun : Unwraps unwrap) (data : Arr ℝ) (d : PyDict)
    (w n i r : ℚ) (Z N : ℕ) (zs : List ℚ) (hset : Setup d w n i r Z zs) (hdata : data.shape = [Z, N, N]) (hN : 2 ≤ N)
    (hZ : 0 < Z) (M₁ M₂ : ℤ) (hM : 0 < M₁) (hle : M₁ ≤ M₂) (pt mt : ℝ) (res₁ res₂ : PRResult) (d₁ d₂ : PyDict)
    (h₁ : retrievePhase unwrap data M₁ pt mt true d = (.ok res₁, d₁))
    (h₂ : retrievePhase unwrap data M₂ pt mt true d = (.ok res₂, d₂)) :
    (prProblem data w n i r Z N zs).amplitudeError (retrieved N res₂) ≤
      (prProblem data w n i r Z N zs).amplitudeError (retrieved N res₁) := by
  set S := prProblem data w n i r Z N zs with hS
  obtain ⟨r1, m1, F1, p1, e1, run1, -⟩ := retrieve_form unwrap hun.shape data d hset hdata hN hZ M₁ hM pt mt true
  obtain ⟨r2, m2, F2, p2, e2, run2, -⟩ := retrieve_form unwrap hun.shape data d hset hdata hN hZ M₂ (by omega) pt mt true
  rw [h₁] at e1
  rw [h₂] at e2
  simp only [Prod.mk.injEq, Except.ok.injEq] at e1 e2
  obtain ⟨rfl, -⟩ := e1
  obtain ⟨rfl, -⟩ := e2
  have c1 : S.amplitudeError (retrieved N res₁) = S.amplitudeError F1 := S.amplitudeError_congr (run_retrieved run1 hun)
  have c2 : S.amplitudeError (retrieved N res₂) = S.amplitudeError F2 := S.amplitudeError_congr (run_retrieved run2 hun)
  rw [c1, c2]
  obtain ⟨a1, f1, g1, k1, l1⟩ := run_index run1
  obtain ⟨a2, f2, g2, k2, l2⟩ := run_index run2
  rw [f1, f2]
  refine S.iterate_phase_error_antitone (show 0 < N by omega) hZ a1 a2 ?_
  by_contra hlt
  exact k1 a2 (by omega) (l2 (by omega))

/-! ## Non-vacuity -/

/-- The default tolerances of `retrieve_phase` and 3 x 8 x 8 constant data. -/
example : ∃ (K : ℕ) (res : PRResult) (d' : PyDict), StoppedByRule (1 / 10 ^ 8) (1 / 10 ^ 8) res ∧ res.mse.length < K ∧
    ∀ M : ℤ, K ≤ M → retrievePhase id ⟨[3, 8, 8], fun _ => 1⟩ M (1 / 10 ^ 8) (1 / 10 ^ 8) false demoDict = (.ok res, d') :=
  C111_stops id ⟨fun _ => rfl, fun a idx => ⟨0, by simp⟩⟩ _ _ _ _ _ _ 3 8 _ (demoDict_setup 3) rfl (by norm_num) (by norm_num)
    _ _ (by norm_num)

/-- In focus the centre of the image of the ideal pupil is bright. -/
theorem ideal_focus_bright (S : Problem) (hN : 0 < S.N) (hl : 0 < S.limit) (z : ℕ) (hz : S.height z = 0) :
    S.amplitude (aperture S.N S.pixel S.limit) z (S.N / 2) (S.N / 2) ≠ 0 := by
  have h0 : S.Inside 0 0 := by
    show radial S.N S.pixel 0 0 < S.limit
    simp [radial, freq, hN, hl]
  have e : S.amplitude (aperture S.N S.pixel S.limit) z (S.N / 2) (S.N / 2) =
      ((∑ i ∈ Finset.range S.N, ∑ j ∈ Finset.range S.N, ‖aperture S.N S.pixel S.limit i j‖ : ℝ) : ℂ) / (S.N * S.N) := by
    unfold Problem.amplitude field
    congr 1
    push_cast
    refine Finset.sum_congr rfl fun i _ => Finset.sum_congr rfl fun j _ => ?_
    simp only [Problem.defocus, hz]
    unfold aperture
    split_ifs <;> simp
  have hpos : 0 < ∑ i ∈ Finset.range S.N, ∑ j ∈ Finset.range S.N, ‖aperture S.N S.pixel S.limit i j‖ := by
    refine Finset.sum_pos' (fun i _ => Finset.sum_nonneg fun j _ => norm_nonneg _) ⟨0, Finset.mem_range.mpr hN, ?_⟩
    refine Finset.sum_pos' (fun j _ => norm_nonneg _) ⟨0, Finset.mem_range.mpr hN, ?_⟩
    have : radial S.N S.pixel 0 0 < S.limit := h0
    simp [aperture, this]
  rw [e]
  have hN' : (S.N : ℂ) ≠ 0 := by exact_mod_cast hN.ne'
  exact div_ne_zero (by exact_mod_cast hpos.ne') (mul_ne_zero hN' hN')

example : ∃ (K : ℕ) (res : PRResult) (d' : PyDict), StoppedByRule (1 / 10 ^ 8) 0 res ∧ res.mse.length < K ∧
    ∀ M : ℤ, K ≤ M → retrievePhase id ⟨[3, 8, 8], fun _ => 1⟩ M (1 / 10 ^ 8) 0 false demoDict = (.ok res, d') :=
  C111_stops_pupil id ⟨fun _ => rfl, fun a idx => ⟨0, by simp⟩⟩ _ _ _ _ _ _ 3 8 _ (demoDict_setup 3) rfl (by norm_num) (by norm_num)
    _ _ (by norm_num) 2 4 4 (by norm_num) (by norm_num) (by norm_num) (by norm_num) (by
      refine ideal_focus_bright (prProblem ⟨[3, 8, 8], fun _ => 1⟩ 500 1 (3/2) 100 3 8
        ((List.range 3).map fun (k : ℕ) => ((k : ℚ) - ((3 + 1) / 2 : ℕ)) * 200)) (by simp [prProblem]) (by simp [prProblem]) 2 ?_
      simp [prProblem, List.range_succ])

end PyOTF
