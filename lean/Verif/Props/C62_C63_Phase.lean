import Verif.Lemmas.PrSetup

/-!
# C62, C63: `retrieve_phase` terminates; error reduction
-/

namespace PyOTF

open Physics

/-! ## C62 -/

/-- The stopping rule, read off the three arrays of a result at position `k`. -/
def RuleAt (pupilDiff mseDiff : List NpReal) (mse : List ℝ) (pt mt : ℝ) (k : ℕ) : Prop :=
  (∃ x, pupilDiff[k]? = some (.fin x) ∧ x < pt) ∨ (∃ x, mseDiff[k]? = some (.fin x) ∧ x < mt) ∨ (∃ x, mse[k]? = some x ∧ x < mt)

/-- The arrays after `k` passes none of which satisfied the rule. -/
structure Hist (pt mt : ℝ) (k : ℕ) (s : PrState) : Prop where
  mse : s.mse.length = k
  mseDiff : s.mseDiff.length = k
  pupilDiff : s.pupilDiff.length = k
  nan1 : 0 < k → s.mseDiff.head? = some .nan
  nan2 : 0 < k → s.pupilDiff.head? = some .nan
  old : s.old = none ↔ k = 0

theorem lt_iff_fin (x : NpReal) (t : ℝ) : x.lt t ↔ ∃ y, x = .fin y ∧ y < t := by
  cases x <;> simp [NpReal.lt]

theorem ruleAt_append_lt {pd md pd' md' : List NpReal} {m m' : List ℝ} {pt mt : ℝ} {k j : ℕ} (h1 : pd.length = k)
    (h2 : md.length = k) (h3 : m.length = k) (hj : j < k) :
    RuleAt (pd ++ pd') (md ++ md') (m ++ m') pt mt j ↔ RuleAt pd md m pt mt j := by
  unfold RuleAt
  rw [List.getElem?_append_left (by omega), List.getElem?_append_left (by omega), List.getElem?_append_left (by omega)]

theorem ruleAt_append_eq {pd md : List NpReal} {x y : NpReal} {m : List ℝ} {z : ℝ} {pt mt : ℝ} {k : ℕ} (h1 : pd.length = k)
    (h2 : md.length = k) (h3 : m.length = k) :
    RuleAt (pd ++ [x]) (md ++ [y]) (m ++ [z]) pt mt k ↔ (x.lt pt ∨ y.lt mt ∨ z < mt) := by
  subst h1
  unfold RuleAt
  rw [List.getElem?_concat_length, ← h2, List.getElem?_concat_length, h2, ← h3, List.getElem?_concat_length]
  simp [lt_iff_fin]

theorem prBody_hist {c : PrConf} {k : ℕ} {s s' : PrState} {f : Bool} (hs : Hist c.pupilTol c.mseTol k s)
    (h : prBody c s = .ok (s', f)) :
    ∃ x y z, s'.mse = s.mse ++ [z] ∧ s'.mseDiff = s.mseDiff ++ [y] ∧ s'.pupilDiff = s.pupilDiff ++ [x] ∧
      (k = 0 → x = .nan ∧ y = .nan) ∧ (f = true ↔ (x.lt c.pupilTol ∨ y.lt c.mseTol ∨ z < c.mseTol)) ∧
      (f = false → s'.old ≠ none) := by
  unfold prBody at h
  obtain ⟨_, -, h⟩ := py_bind_ok h
  obtain ⟨psfi, -, h⟩ := py_bind_ok h
  obtain ⟨z, -, h⟩ := py_bind_ok h
  obtain ⟨⟨y, x⟩, hd, h⟩ := py_bind_ok h
  have hk : k = 0 → x = .nan ∧ y = .nan := by
    intro h0
    rw [hs.old.mpr h0] at hd
    cases hd
    exact ⟨rfl, rfl⟩
  simp only at h
  by_cases hst : x.lt c.pupilTol ∨ y.lt c.mseTol ∨ z < c.mseTol
  · rw [if_pos hst] at h
    have := py_pure_ok h
    simp only [Prod.mk.injEq] at this
    obtain ⟨rfl, rfl⟩ := this
    exact ⟨x, y, z, rfl, rfl, rfl, hk, by simp [hst], by simp⟩
  · rw [if_neg hst] at h
    obtain ⟨_, -, h⟩ := py_bind_ok h
    obtain ⟨_, -, h⟩ := py_bind_ok h
    have := py_pure_ok h
    simp only [Prod.mk.injEq] at this
    obtain ⟨rfl, rfl⟩ := this
    exact ⟨x, y, z, rfl, rfl, rfl, hk, by simp [hst], by simp⟩

theorem prLoop_hist {c : PrConf} (n k : ℕ) (s s' : PrState) (hn : 0 < n) (hs : Hist c.pupilTol c.mseTol k s)
    (hno : ∀ j < k, ¬ RuleAt s.pupilDiff s.mseDiff s.mse c.pupilTol c.mseTol j) (h : prLoop c n s = .ok s') :
    ∃ m, k < m ∧ m ≤ k + n ∧ s'.mse.length = m ∧ s'.mseDiff.length = m ∧ s'.pupilDiff.length = m ∧
      s'.mseDiff.head? = some .nan ∧ s'.pupilDiff.head? = some .nan ∧
      (∀ j, j + 1 < m → ¬ RuleAt s'.pupilDiff s'.mseDiff s'.mse c.pupilTol c.mseTol j) ∧
      (m < k + n → RuleAt s'.pupilDiff s'.mseDiff s'.mse c.pupilTol c.mseTol (m - 1)) := by
  induction n generalizing k s with
  | zero => omega
  | succ n ih =>
    unfold prLoop at h
    rcases hb : prBody c s with e | ⟨s1, f⟩
    · rw [hb] at h; cases h
    rw [hb] at h
    obtain ⟨x, y, z, e1, e2, e3, e4, e5, e6⟩ := prBody_hist hs hb
    have l1 : s1.mse.length = k + 1 := by rw [e1]; simp [hs.mse]
    have l2 : s1.mseDiff.length = k + 1 := by rw [e2]; simp [hs.mseDiff]
    have l3 : s1.pupilDiff.length = k + 1 := by rw [e3]; simp [hs.pupilDiff]
    have n1 : s1.mseDiff.head? = some .nan := by
      rw [e2]
      rcases Nat.eq_zero_or_pos k with h0 | h0
      · rw [List.length_eq_zero_iff.mp (hs.mseDiff.trans h0), (e4 h0).2]; rfl
      · rw [List.head?_append, hs.nan1 h0]; rfl
    have n2 : s1.pupilDiff.head? = some .nan := by
      rw [e3]
      rcases Nat.eq_zero_or_pos k with h0 | h0
      · rw [List.length_eq_zero_iff.mp (hs.pupilDiff.trans h0), (e4 h0).1]; rfl
      · rw [List.head?_append, hs.nan2 h0]; rfl
    have hb1 : ∀ j < k, ¬ RuleAt s1.pupilDiff s1.mseDiff s1.mse c.pupilTol c.mseTol j := by
      intro j hj
      rw [e1, e2, e3, ruleAt_append_lt hs.pupilDiff hs.mseDiff hs.mse hj]
      exact hno j hj
    have hb2 : RuleAt s1.pupilDiff s1.mseDiff s1.mse c.pupilTol c.mseTol k ↔ f = true := by
      rw [e1, e2, e3, ruleAt_append_eq hs.pupilDiff hs.mseDiff hs.mse, e5]
    cases f with
    | true =>
      simp only at h
      cases h
      exact ⟨k + 1, by omega, by omega, l1, l2, l3, n1, n2, fun j hj => hb1 j (by omega), fun _ => hb2.mpr rfl⟩
    | false =>
      simp only at h
      have hno' : ∀ j < k + 1, ¬ RuleAt s1.pupilDiff s1.mseDiff s1.mse c.pupilTol c.mseTol j := by
        intro j hj
        rcases Nat.lt_succ_iff_lt_or_eq.mp hj with hj | rfl
        · exact hb1 j hj
        · rw [hb2]; simp
      rcases Nat.eq_zero_or_pos n with rfl | hn'
      · cases h
        exact ⟨k + 1, by omega, by omega, l1, l2, l3, n1, n2, fun j hj => hb1 j (by omega), by omega⟩
      · have hs1 : Hist c.pupilTol c.mseTol (k + 1) s1 :=
          ⟨l1, l2, l3, fun _ => n1, fun _ => n2, by simpa using e6 rfl⟩
        obtain ⟨m, a1, a2, a3, a4, a5, a6, a7, a8, a9⟩ := ih (k + 1) s1 hn' hs1 hno' h
        exact ⟨m, by omega, by omega, a3, a4, a5, a6, a7, a8, fun hm => a9 (by omega)⟩

/-- C62: whatever the data, the parameters and the tolerances: if `retrieve_phase` returns, it made between 1 and
`max_iters` passes; the three arrays have one entry per pass; the first differences are NaN; no pass before the last
satisfied the stopping rule, and the last one did unless `max_iters` was reached. -/
theorem C62_arrays (unwrap : Arr ℝ → Arr ℝ) (data : Arr ℝ) (M : ℤ) (pt mt : ℝ) (b : Bool) (d d' : PyDict) (res : PRResult)
    (h : retrievePhase unwrap data M pt mt b d = (.ok res, d')) :
    1 ≤ res.mse.length ∧ (res.mse.length : ℤ) ≤ M ∧ res.mseDiff.length = res.mse.length ∧
      res.pupilDiff.length = res.mse.length ∧ res.mseDiff.head? = some .nan ∧ res.pupilDiff.head? = some .nan ∧
      (∀ k, k + 1 < res.mse.length → ¬ RuleAt res.pupilDiff res.mseDiff res.mse pt mt k) ∧
      ((res.mse.length : ℤ) < M → RuleAt res.pupilDiff res.mseDiff res.mse pt mt (res.mse.length - 1)) := by
  unfold retrievePhase at h
  simp only [PyM.bind_apply, PyM.lift_apply, PyM.modify_apply, PyM.get_apply] at h
  rcases hck : prChecks data M with e | ⟨nz, nx⟩
  · rw [hck] at h; simp at h
  rw [hck] at h
  simp only [Prod.mk.injEq] at h
  have hM : 0 < M := by
    unfold prChecks at hck
    by_contra hM
    rw [if_pos hM] at hck
    cases hck
  have hr := h.1
  unfold prRun at hr
  obtain ⟨model, -, hr⟩ := py_bind_ok hr
  obtain ⟨hn, -, hr⟩ := py_bind_ok hr
  obtain ⟨s, hl, hr⟩ := py_bind_ok hr
  obtain ⟨ph, -, hr⟩ := py_bind_ok hr
  obtain ⟨mg, -, hr⟩ := py_bind_ok hr
  unfold PRResult.new at hr
  obtain ⟨_, -, hr⟩ := py_bind_ok hr
  obtain ⟨_, -, hr⟩ := py_bind_ok hr
  obtain ⟨_, -, hr⟩ := py_bind_ok hr
  have := py_pure_ok hr
  subst this
  obtain ⟨m, a1, a2, a3, a4, a5, a6, a7, a8, a9⟩ := prLoop_hist M.toNat 0 _ s (by omega)
    ⟨rfl, rfl, rfl, by omega, by omega, by simp⟩ (by omega) hl
  simp only
  rw [a3, a4, a5]
  exact ⟨by omega, by omega, rfl, rfl, a6, a7, a8, fun hm => a9 (by omega)⟩

/-- C62: with ordinary parameters and a stack of at least one square image of two or more pixels it does return. -/
theorem C62_returns (unwrap : Arr ℝ → Arr ℝ) (hun : ∀ a, (unwrap a).shape = a.shape) (data : Arr ℝ) (d : PyDict)
    (w n i r : ℚ) (Z N : ℕ) (zs : List ℚ) (hset : Setup d w n i r Z zs) (hdata : data.shape = [Z, N, N]) (hN : 2 ≤ N)
    (hZ : 0 < Z) (M : ℤ) (hM : 0 < M) (pt mt : ℝ) (b : Bool) :
    ∃ res d', retrievePhase unwrap data M pt mt b d = (.ok res, d') := by
  obtain ⟨res, m, F, p, h, -⟩ := retrieve_form unwrap hun data d hset hdata hN hZ M hM pt mt b
  exact ⟨res, _, h⟩

/-- C62: `max_iters` must be positive and the data a stack of square images; otherwise an exception is raised before
anything happens. -/
theorem C62_rejects (unwrap : Arr ℝ → Arr ℝ) (data : Arr ℝ) (M : ℤ) (pt mt : ℝ) (b : Bool) (d : PyDict)
    (h : M ≤ 0 ∨ data.shape.length ≠ 3 ∨ data.shape.getD 1 0 ≠ data.shape.getD 2 0) :
    ∃ e ∈ [Err.assertionError, Err.indexError], retrievePhase unwrap data M pt mt b d = (.error e, d) := by
  have hck : prChecks data M = .error .assertionError ∨ prChecks data M = .error .indexError := by
    unfold prChecks
    by_cases h1 : 0 < M
    · by_cases h2 : data.shape.length < 3
      · right; rw [if_neg (by omega), if_pos h2]
      · left
        rw [if_neg (by omega), if_neg h2]
        by_cases h3 : data.shape.getD 1 0 ≠ data.shape.getD 2 0
        · rw [if_pos h3]
        · rw [if_neg h3, if_pos]
          rcases h with h | h | h
          · omega
          · exact h
          · exact absurd h h3
    · left; rw [if_pos h1]
  rcases hck with hck | hck
  · refine ⟨.assertionError, by simp, ?_⟩
    simp only [retrievePhase, PyM.bind_apply, PyM.lift_apply, hck]
  · refine ⟨.indexError, by simp, ?_⟩
    simp only [retrievePhase, PyM.bind_apply, PyM.lift_apply, hck]

/-- Non-vacuity: `dict(wl=500, na=1, ni=1.5, res=100, zres=200)`. -/
def demoDict : PyDict := [("wl", .val (.int 500)), ("na", .val (.int 1)), ("ni", .val (.float (.fin (3/2)))),
  ("res", .val (.int 100)), ("zres", .val (.int 200))]

theorem demoDict_setup (Z : ℕ) : Setup demoDict 500 1 (3/2) 100 Z ((List.range Z).map fun (k : ℕ) => ((k : ℚ) - ((Z + 1) / 2 : ℕ)) * 200) where
  keys := by decide
  wl := ⟨⟨_, rfl, rfl⟩, by norm_num⟩
  na := ⟨⟨.int 1, rfl, by simp [Denotes, PyVal.num?]⟩, by norm_num⟩
  ni := ⟨⟨_, rfl, rfl⟩, by norm_num⟩
  res := ⟨⟨_, rfl, rfl⟩, by norm_num, by norm_num⟩
  planes := ⟨by simp, 200, by norm_num, Or.inr ⟨_, rfl, rfl⟩, Or.inl ⟨Or.inl rfl, rfl⟩⟩

/-- `zrange=None` and `zres=None` are the defaults; a single number is one plane. -/
example : Setup [("wl", .val (.int 500)), ("na", .val (.int 1)), ("ni", .val (.float (.fin (3/2)))), ("res", .val (.int 100)),
    ("zres", .val .none), ("zrange", .val .none)] 500 1 (3/2) 100 2 [-100, 0] where
  keys := by decide
  wl := ⟨⟨_, rfl, rfl⟩, by norm_num⟩
  na := ⟨⟨.int 1, rfl, by simp [Denotes, PyVal.num?]⟩, by norm_num⟩
  ni := ⟨⟨_, rfl, rfl⟩, by norm_num⟩
  res := ⟨⟨_, rfl, rfl⟩, by norm_num, by norm_num⟩
  planes := ⟨by simp, 100, by norm_num, Or.inl ⟨Or.inr rfl, rfl⟩, Or.inl ⟨Or.inr rfl, by norm_num [List.range_succ]⟩⟩

example : Setup [("wl", .val (.int 500)), ("na", .val (.int 1)), ("ni", .val (.float (.fin (3/2)))), ("res", .val (.int 100)),
    ("zrange", .val (.int 300))] 500 1 (3/2) 100 1 [300] where
  keys := by decide
  wl := ⟨⟨_, rfl, rfl⟩, by norm_num⟩
  na := ⟨⟨.int 1, rfl, by simp [Denotes, PyVal.num?]⟩, by norm_num⟩
  ni := ⟨⟨_, rfl, rfl⟩, by norm_num⟩
  res := ⟨⟨_, rfl, rfl⟩, by norm_num, by norm_num⟩
  planes := ⟨by simp, 100, by norm_num, Or.inl ⟨Or.inl rfl, rfl⟩, Or.inr (Or.inr ⟨_, 300, rfl, rfl, rfl⟩)⟩

example (M : ℤ) (hM : 0 < M) : ∃ res d', retrievePhase id ⟨[3, 8, 8], fun _ => 1⟩ M 0 0 false demoDict = (.ok res, d') :=
  C62_returns id (fun _ => rfl) _ _ _ _ _ _ 3 8 _ (demoDict_setup 3) rfl (by norm_num) (by norm_num) M hM 0 0 false


/-! ## C63 -/

/-- What is assumed of `unwrap_phase`: it adds multiples of 2 pi. -/
structure Unwraps (unwrap : Arr ℝ → Arr ℝ) : Prop where
  shape : ∀ a, (unwrap a).shape = a.shape
  value : ∀ a idx, ∃ k : ℤ, (unwrap a).get idx = a.get idx + 2 * Real.pi * k

/-- The pupil of a result, sample by sample (frequency zero at sample 0): magnitude and phase are shown centred. -/
noncomputable def retrieved (N : ℕ) (res : PRResult) (i j : ℕ) : ℂ :=
  (res.mag.get [pixelOf N i, pixelOf N j] : ℂ) * Complex.exp (Complex.I * (res.phase.get [pixelOf N i, pixelOf N j] : ℂ))

theorem sampleAt_pixelOf {N i : ℕ} (hi : i < N) : sampleAt N (pixelOf N i) = i := by
  unfold sampleAt pixelOf
  have h2 : N / 2 ≤ N := Nat.div_le_self N 2
  by_cases h : i + N / 2 < N
  · rw [Nat.mod_eq_of_lt h]
    have : i + N / 2 + (N - N / 2) = i + N := by omega
    rw [this, Nat.add_mod_right, Nat.mod_eq_of_lt hi]
  · have h1 : (i + N / 2) % N = i + N / 2 - N := by
      rw [Nat.mod_eq_sub_mod (by omega), Nat.mod_eq_of_lt (by omega)]
    rw [h1]
    have : i + N / 2 - N + (N - N / 2) = i := by omega
    rw [this, Nat.mod_eq_of_lt hi]

theorem polar_unwrap (v : ℂ) (k : ℤ) (p : ℝ) (hp : p = Complex.arg v + 2 * Real.pi * k) :
    ((‖v‖ : ℝ) : ℂ) * Complex.exp (Complex.I * (p : ℂ)) = v := by
  have : Complex.I * (p : ℂ) = Complex.arg v * Complex.I + k * (2 * Real.pi * Complex.I) := by
    rw [hp]; push_cast; ring
  rw [this, Complex.exp_add, Complex.exp_int_mul_two_pi_mul_I, mul_one, Complex.norm_mul_exp_arg_mul_I]

open Classical in
theorem report_index {S : Problem} {b : Bool} {pt mt : ℝ} {M : ℕ} {unwrap : Arr ℝ → Arr ℝ} {res : PRResult} {m : ℕ}
    {F : ℕ → ℕ → ℂ} (h : Report S b pt mt M unwrap res m F) :
    ∃ a, F = S.iterate b a ∧ a ≤ M ∧ (∀ j < a, ¬ S.Stops b pt mt j) ∧ (a < M → S.Stops b pt mt a) := by
  have h1 := h.pos
  have h2 := h.le
  by_cases hst : S.Stops b pt mt (m - 1)
  · refine ⟨m - 1, ?_, by omega, fun j hj => h.before j (by omega), fun _ => hst⟩
    have := h.last; rwa [if_pos hst] at this
  · refine ⟨m, ?_, h2, fun j hj => ?_, fun hm => absurd (h.early hm) hst⟩
    · have := h.last; rwa [if_neg hst] at this
    · rcases Nat.lt_or_ge (j + 1) m with h3 | h3
      · exact h.before j h3
      · have : j = m - 1 := by omega
        rw [this]; exact hst

theorem report_retrieved {S : Problem} {b : Bool} {pt mt : ℝ} {M : ℕ} {unwrap : Arr ℝ → Arr ℝ} {res : PRResult} {m : ℕ}
    {F : ℕ → ℕ → ℂ} (h : Report S b pt mt M unwrap res m F) (hun : Unwraps unwrap) : S.SamePupil (retrieved S.N res) F := by
  intro i hi j hj
  have hN : 0 < S.N := by omega
  have hy : pixelOf S.N i < S.N := Nat.mod_lt _ hN
  have hx : pixelOf S.N j < S.N := Nat.mod_lt _ hN
  obtain ⟨A, -, hA, hph⟩ := h.phase
  obtain ⟨a, hF, -⟩ := report_index h
  rw [retrieved, h.mag _ hy _ hx, hph _ hy _ hx]
  rw [sampleAt_pixelOf hi, sampleAt_pixelOf hj]
  by_cases hin : S.Inside i j
  · rw [if_pos hin, mul_one, mul_one]
    obtain ⟨k, hk⟩ := hun.value A [pixelOf S.N i, pixelOf S.N j]
    rw [hA _ hy _ hx, sampleAt_pixelOf hi, sampleAt_pixelOf hj] at hk
    exact polar_unwrap _ k _ hk
  · rw [if_neg hin, hF, S.iterate_supported b a i hi j hj hin]
    simp

theorem run_index {S : Problem} {p : Params} {b : Bool} {pt mt : ℝ} {M : ℕ} {unwrap : Arr ℝ → Arr ℝ} {res : PRResult} {m : ℕ}
    {F : ℕ → ℕ → ℂ} (h : Run S p b pt mt M unwrap res m F) :
    ∃ a, F = S.iterate b a ∧ a ≤ M ∧ (∀ j < a, ¬ S.Stops b pt mt j) ∧ (a < M → S.Stops b pt mt a) :=
  report_index h.toReport

theorem run_retrieved {S : Problem} {p : Params} {b : Bool} {pt mt : ℝ} {M : ℕ} {unwrap : Arr ℝ → Arr ℝ} {res : PRResult} {m : ℕ}
    {F : ℕ → ℕ → ℂ} (h : Run S p b pt mt M unwrap res m F) (hun : Unwraps unwrap) : S.SamePupil (retrieved S.N res) F :=
  report_retrieved h.toReport hun

namespace Physics.Problem

variable (S : Problem)

theorem amplitudeError_congr {P Q : ℕ → ℕ → ℂ} (h : S.SamePupil P Q) : S.amplitudeError P = S.amplitudeError Q := by
  simp only [amplitudeError, S.amplitude_congr h]

theorem iterate_error_antitone (hN : 0 < S.N) (hZ : 0 < S.Z) (j k : ℕ) (h : j ≤ k) :
    S.amplitudeError (S.iterate false k) ≤ S.amplitudeError (S.iterate false j) := by
  induction k, h using Nat.le_induction with
  | base => exact le_refl _
  | succ k _ ih => exact (S.error_reduction hN hZ _ (S.iterate_supported false k)).trans ih

end Physics.Problem

/-- C63: more iterations never increase the amplitude error of the retrieved pupil (`phase_only=False`), with any
tolerances. -/
theorem C63_error_reduction (unwrap : Arr ℝ → Arr ℝ) (hun : Unwraps unwrap) (data : Arr ℝ) (d : PyDict)
    (w n i r : ℚ) (Z N : ℕ) (zs : List ℚ) (hset : Setup d w n i r Z zs) (hdata : data.shape = [Z, N, N]) (hN : 2 ≤ N)
    (hZ : 0 < Z) (M₁ M₂ : ℤ) (hM : 0 < M₁) (hle : M₁ ≤ M₂) (pt mt : ℝ) (res₁ res₂ : PRResult) (d₁ d₂ : PyDict)
    (h₁ : retrievePhase unwrap data M₁ pt mt false d = (.ok res₁, d₁))
    (h₂ : retrievePhase unwrap data M₂ pt mt false d = (.ok res₂, d₂)) :
    (prProblem data w n i r Z N zs).amplitudeError (retrieved N res₂) ≤
      (prProblem data w n i r Z N zs).amplitudeError (retrieved N res₁) := by
  set S := prProblem data w n i r Z N zs with hS
  obtain ⟨r1, m1, F1, p1, e1, run1, -⟩ := retrieve_form unwrap hun.shape data d hset hdata hN hZ M₁ hM pt mt false
  obtain ⟨r2, m2, F2, p2, e2, run2, -⟩ := retrieve_form unwrap hun.shape data d hset hdata hN hZ M₂ (by omega) pt mt false
  rw [h₁] at e1
  rw [h₂] at e2
  simp only [Prod.mk.injEq, Except.ok.injEq] at e1 e2
  obtain ⟨rfl, -⟩ := e1
  obtain ⟨rfl, -⟩ := e2
  have c1 : S.amplitudeError (retrieved N res₁) = S.amplitudeError F1 := S.amplitudeError_congr (run_retrieved run1 hun)
  have c2 : S.amplitudeError (retrieved N res₂) = S.amplitudeError F2 := S.amplitudeError_congr (run_retrieved run2 hun)
  rw [c1, c2]
  obtain ⟨a1, f1, g1, k1, l1⟩ := run_index run1
  obtain ⟨a2, f2, g2, k2, l2⟩ := run_index run2
  rw [f1, f2]
  refine S.iterate_error_antitone (show 0 < N by omega) hZ a1 a2 ?_
  by_contra hlt
  exact k1 a2 (by omega) (l2 (by omega))

/-- C63: one iteration from any pupil supported in the aperture. -/
theorem C63_one_step (S : Problem) (hN : 0 < S.N) (hZ : 0 < S.Z) (P : ℕ → ℕ → ℂ) (hP : S.Supported P) :
    S.amplitudeError (S.update P) ≤ S.amplitudeError P := S.error_reduction hN hZ P hP

/-- C63: the pupils of the code are those of the specification: a run that never satisfies the stopping rule (zero
tolerances, say) returns after `M` passes the `M`-th iterate, and in general the first iterate that satisfies the
rule. -/
theorem C63_pupils (unwrap : Arr ℝ → Arr ℝ) (hun : Unwraps unwrap) (data : Arr ℝ) (d : PyDict)
    (w n i r : ℚ) (Z N : ℕ) (zs : List ℚ) (hset : Setup d w n i r Z zs) (hdata : data.shape = [Z, N, N]) (hN : 2 ≤ N)
    (hZ : 0 < Z) (M : ℤ) (hM : 0 < M) (pt mt : ℝ) (b : Bool) (res : PRResult) (d' : PyDict)
    (h : retrievePhase unwrap data M pt mt b d = (.ok res, d')) :
    ∃ k : ℕ, (k : ℤ) ≤ M ∧ (∀ j < k, ¬ (prProblem data w n i r Z N zs).Stops b pt mt j) ∧
      ((k : ℤ) < M → (prProblem data w n i r Z N zs).Stops b pt mt k) ∧
      ∀ a < N, ∀ c < N, retrieved N res a c = (prProblem data w n i r Z N zs).iterate b k a c := by
  obtain ⟨r1, m1, F1, p1, e1, run1, -⟩ := retrieve_form unwrap hun.shape data d hset hdata hN hZ M hM pt mt b
  rw [h] at e1
  simp only [Prod.mk.injEq, Except.ok.injEq] at e1
  obtain ⟨rfl, -⟩ := e1
  obtain ⟨a1, f1, g1, k1, l1⟩ := run_index run1
  refine ⟨a1, by omega, k1, fun h => l1 (by omega), ?_⟩
  rw [← f1]
  exact run_retrieved run1 hun

example : Unwraps id := ⟨fun _ => rfl, fun a idx => ⟨0, by simp⟩⟩

end PyOTF
