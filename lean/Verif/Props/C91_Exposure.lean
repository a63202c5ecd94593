import Verif.Props.C64_C67_Phase

/-!
# C91: phase retrieval and the exposure of the data

Multiplying the data by a positive constant (a longer exposure, another camera gain).
-/

namespace PyOTF

open Physics

namespace Physics.Problem

variable (S : Problem)

/-- The same problem with the data multiplied by `c`. -/
noncomputable def scaled (c : ℝ) : Problem := { S with data := fun z y x => c * S.data z y x }

theorem amplitude_smul (s : ℝ) (P : ℕ → ℕ → ℂ) (z y x : ℕ) :
    S.amplitude (fun i j => (s : ℂ) * P i j) z y x = (s : ℂ) * S.amplitude P z y x := by
  unfold amplitude field
  simp only [Finset.mul_sum, mul_div_assoc', mul_assoc]

theorem corrected_scaled {c s : ℝ} (hc : 0 < c) (hs : 0 < s) (P : ℕ → ℕ → ℂ) (z y x : ℕ) :
    (S.scaled c).corrected (fun i j => (s : ℂ) * P i j) z y x = (√c : ℝ) * S.corrected P z y x := by
  unfold corrected
  have h1 : (S.scaled c).amplitude (fun i j => (s : ℂ) * P i j) z y x = (s : ℂ) * S.amplitude P z y x := S.amplitude_smul s P z y x
  have h2 : √(max 0 ((S.scaled c).data z y x)) = √c * √(max 0 (S.data z y x)) := by
    rw [← Real.sqrt_mul hc.le]
    congr 1
    show max 0 (c * S.data z y x) = c * max 0 (S.data z y x)
    rw [mul_max_of_nonneg _ _ hc.le, mul_zero]
  rw [h1, h2, Complex.arg_real_mul _ hs]
  push_cast
  ring

theorem update_scaled {c s : ℝ} (hc : 0 < c) (hs : 0 < s) (P : ℕ → ℕ → ℂ) :
    (S.scaled c).update (fun i j => (s : ℂ) * P i j) = fun i j => ((√c : ℝ) : ℂ) * S.update P i j := by
  funext i j
  unfold update
  have hin : (S.scaled c).Inside i j ↔ S.Inside i j := Iff.rfl
  by_cases h : S.Inside i j
  · rw [if_pos h, if_pos (hin.mpr h)]
    have : ∀ z, (S.scaled c).corrected (fun i j => (s : ℂ) * P i j) z = fun y x => ((√c : ℝ) : ℂ) * S.corrected P z y x :=
      fun z => funext fun y => funext fun x => S.corrected_scaled hc hs P z y x
    simp only [this]
    show (∑ z ∈ Finset.range S.Z, analysis S.N (fun y x => ((√c : ℝ) : ℂ) * S.corrected P z y x) i j / S.defocus z i j) / (S.Z : ℂ) = _
    unfold analysis
    simp only [mul_assoc, ← Finset.mul_sum, mul_div_assoc]
  · rw [if_neg h, if_neg (fun h' => h (hin.mp h')), mul_zero]

theorem updatePhase_scaled {c : ℝ} (hc : 0 < c) (P : ℕ → ℕ → ℂ) : (S.scaled c).updatePhase P = S.updatePhase P := by
  funext i j
  unfold updatePhase
  have hin : (S.scaled c).Inside i j ↔ S.Inside i j := Iff.rfl
  have hu := S.update_scaled hc one_pos P
  simp only [Complex.ofReal_one, one_mul] at hu
  by_cases h : S.Inside i j
  · rw [if_pos h, if_pos (hin.mpr h), hu, Complex.arg_real_mul _ (Real.sqrt_pos.mpr hc)]
  · rw [if_neg h, if_neg (fun h' => h (hin.mp h'))]

/-- With `phase_only` the pupils do not depend on the exposure. -/
theorem iterate_scaled_phase {c : ℝ} (hc : 0 < c) (k : ℕ) : (S.scaled c).iterate true k = S.iterate true k := by
  induction k with
  | zero => rfl
  | succ k ih => simp only [iterate, if_true]; rw [ih, S.updatePhase_scaled hc]

/-- Otherwise they are multiplied by the root of the factor, the first one excepted. -/
theorem iterate_scaled {c : ℝ} (hc : 0 < c) (k : ℕ) :
    (S.scaled c).iterate false (k + 1) = fun i j => ((√c : ℝ) : ℂ) * S.iterate false (k + 1) i j := by
  induction k with
  | zero =>
    have hu := S.update_scaled hc one_pos (S.iterate false 0)
    simp only [Complex.ofReal_one, one_mul] at hu
    exact hu
  | succ k ih =>
    show (S.scaled c).update ((S.scaled c).iterate false (k + 1)) = _
    rw [ih]
    exact S.update_scaled hc (Real.sqrt_pos.mpr hc) _

theorem mse_scaled {c : ℝ} (hc : 0 < c) (P : ℕ → ℕ → ℂ) :
    (S.scaled c).mse (fun i j => ((√c : ℝ) : ℂ) * P i j) = c ^ 2 * S.mse P := by
  unfold mse mean
  show (∑ z ∈ Finset.range S.Z, ∑ y ∈ Finset.range S.N, ∑ x ∈ Finset.range S.N,
    (c * S.data z y x - ‖S.amplitude (fun i j => ((√c : ℝ) : ℂ) * P i j) z y x‖ ^ 2) ^ 2) / (S.Z * S.N * S.N) = _
  rw [mul_div_assoc']
  congr 1
  simp only [Finset.mul_sum]
  refine Finset.sum_congr rfl fun z _ => Finset.sum_congr rfl fun y _ => Finset.sum_congr rfl fun x _ => ?_
  rw [S.amplitude_smul, norm_mul, Complex.norm_real, Real.norm_of_nonneg (Real.sqrt_nonneg _), mul_pow, Real.sq_sqrt hc.le]
  ring

theorem errorAt_scaled {c : ℝ} (hc : 0 < c) (k : ℕ) : (S.scaled c).errorAt false (k + 1) = c ^ 2 * S.errorAt false (k + 1) := by
  unfold errorAt
  rw [S.iterate_scaled hc, S.mse_scaled hc]

theorem stops_scaled_phase {c : ℝ} (hc : 0 < c) (pt : ℝ) {mt : ℝ} (hm : mt ≤ 0) (k : ℕ) :
    (S.scaled c).Stops true pt mt k ↔ S.Stops true pt mt k := by
  have key : ∀ T : Problem, T.Stops true pt mt k ↔ ∃ j, k = j + 1 ∧ (T.energy (T.iterate true j) ≠ 0 ∧
      T.distance (T.iterate true j) (T.iterate true k) / T.energy (T.iterate true j) < pt) := by
    intro T
    constructor
    · rintro (h | ⟨j, rfl, ⟨-, h⟩ | h⟩)
      · exact absurd (T.mse_nonneg (T.iterate true k)) (not_le.mpr (lt_of_lt_of_le h hm))
      · exact absurd (div_nonneg (abs_nonneg _) (T.mse_nonneg (T.iterate true j))) (not_le.mpr (lt_of_lt_of_le h hm))
      · exact ⟨j, rfl, h⟩
    · rintro ⟨j, rfl, h⟩
      exact Or.inr ⟨j, rfl, Or.inr h⟩
  rw [key, key]
  simp only [S.iterate_scaled_phase hc]
  rfl

end Physics.Problem

/-- `data'` is `data` multiplied by `c`. -/
def Exposed (c : ℝ) (data data' : Arr ℝ) : Prop := data'.shape = data.shape ∧ ∀ idx, data'.get idx = c * data.get idx

theorem prProblem_exposed {c : ℝ} {data data' : Arr ℝ} (h : Exposed c data data') (w n i r : ℚ) (Z N : ℕ) (zs : List ℚ) :
    prProblem data' w n i r Z N zs = (prProblem data w n i r Z N zs).scaled c := by
  unfold prProblem Problem.scaled
  simp only [h.2]

/-- What is assumed of `unwrap_phase` besides `Unwraps`: the result depends on the elements of its argument only. -/
def Extensional (unwrap : Arr ℝ → Arr ℝ) : Prop := ∀ a b, Arr.Same a b → Arr.Same (unwrap a) (unwrap b)

theorem run_phase_same {S S' : Problem} {p p' : Params} {b b' : Bool} {pt mt pt' mt' : ℝ} {M M' : ℕ} {unwrap : Arr ℝ → Arr ℝ}
    (hext : Extensional unwrap) (hun : ∀ a, (unwrap a).shape = a.shape) {res res' : PRResult} {m m' : ℕ} {F F' : ℕ → ℕ → ℂ}
    (h : Run S p b pt mt M unwrap res m F) (h' : Run S' p' b' pt' mt' M' unwrap res' m' F') (hN : S'.N = S.N) (hN0 : 0 < S.N)
    (hI : ∀ i j, S'.Inside i j ↔ S.Inside i j)
    (hF : ∀ i < S.N, ∀ j < S.N, Complex.arg (F' i j) = Complex.arg (F i j)) (y x : ℕ) (hy : y < S.N) (hx : x < S.N) :
    res'.phase.get [y, x] = res.phase.get [y, x] := by
  obtain ⟨A, a1, a2, a3⟩ := h.phase
  obtain ⟨A', b1, b2, b3⟩ := h'.phase
  rw [hN] at b1 b2 b3
  have hsame : Arr.Same A' A := by
    refine ⟨by rw [a1, b1], ?_⟩
    intro idx hidx
    rw [b1] at hidx
    obtain ⟨y', x', rfl, hy', hx'⟩ : ∃ y' x', idx = [y', x'] ∧ y' < S.N ∧ x' < S.N := by
      match idx, hidx with
      | [y', x'], h => exact ⟨y', x', rfl, inShape2.mp h⟩
    rw [a2 y' hy' x' hx', b2 y' hy' x' hx']
    exact hF _ (sampleAt_lt hN0) _ (sampleAt_lt hN0)
  rw [a3 y hy x hx, b3 y hy x hx, (hext A' A hsame).2 [y, x] (by rw [hun, b1]; exact inShape2.mpr ⟨hy, hx⟩)]
  congr 1
  by_cases h : S.Inside (sampleAt S.N y) (sampleAt S.N x)
  · rw [if_pos h, if_pos ((hI _ _).mpr h)]
  · rw [if_neg h, if_neg fun h' => h ((hI _ _).mp h')]

/-- C91: without tolerances, data multiplied by `c` give the same phase, the magnitude multiplied by `√c`, the errors
multiplied by `c²` from the second pass on (the first one compares the data with the ideal pupil, whose scale is
fixed). -/
theorem C91_exposure (unwrap : Arr ℝ → Arr ℝ) (hun : Unwraps unwrap) (hext : Extensional unwrap) (data data' : Arr ℝ) (d : PyDict)
    (w n i r : ℚ) (Z N : ℕ) (zs : List ℚ) (hset : Setup d w n i r Z zs) (hdata : data.shape = [Z, N, N]) (hN : 2 ≤ N)
    (hZ : 0 < Z) (c : ℝ) (hc : 0 < c) (hexp : Exposed c data data') (M : ℤ) (hM : 0 < M) (pt mt : ℝ) (hpt : pt ≤ 0) (hmt : mt ≤ 0)
    (res res' : PRResult) (d₁ d₂ : PyDict) (h₁ : retrievePhase unwrap data M pt mt false d = (.ok res, d₁))
    (h₂ : retrievePhase unwrap data' M pt mt false d = (.ok res', d₂)) :
    (∀ y < N, ∀ x < N, res'.mag.get [y, x] = √c * res.mag.get [y, x] ∧ res'.phase.get [y, x] = res.phase.get [y, x]) ∧
      res'.mse.length = res.mse.length ∧ ∀ k e, 1 ≤ k → res.mse[k]? = some e → res'.mse[k]? = some (c ^ 2 * e) := by
  obtain ⟨r1, m1, F1, p1, e1, run1, -⟩ := retrieve_form unwrap hun.shape data d hset hdata hN hZ M hM pt mt false
  obtain ⟨r2, m2, F2, p2, e2, run2, -⟩ := retrieve_form unwrap hun.shape data' d hset (hexp.1.trans hdata) hN hZ M hM pt mt false
  rw [h₁] at e1
  rw [h₂] at e2
  simp only [Prod.mk.injEq, Except.ok.injEq] at e1 e2
  obtain ⟨rfl, -⟩ := e1
  obtain ⟨rfl, -⟩ := e2
  rw [prProblem_exposed hexp] at run2
  set S := prProblem data w n i r Z N zs with hS
  have hm1 : m1 = M.toNat := by
    have := run1.le
    by_contra hne
    exact S.not_stops false hpt hmt _ (run1.early (by omega))
  have hm2 : m2 = M.toNat := by
    have := run2.le
    by_contra hne
    exact (S.scaled c).not_stops false hpt hmt _ (run2.early (by omega))
  obtain ⟨K, hK⟩ : ∃ K, M.toNat = K + 1 := ⟨M.toNat - 1, by omega⟩
  have f1 : F1 = S.iterate false (K + 1) := by
    rw [run1.last, if_neg (S.not_stops false hpt hmt _), hm1, hK]
  have f2 : F2 = fun i j => ((√c : ℝ) : ℂ) * F1 i j := by
    rw [run2.last, if_neg ((S.scaled c).not_stops false hpt hmt _), hm2, hK, f1, S.iterate_scaled hc]
  have hsc : 0 < √c := Real.sqrt_pos.mpr hc
  refine ⟨fun y hy x hx => ⟨?_, ?_⟩, ?_, ?_⟩
  · rw [run1.mag y hy x hx, run2.mag y hy x hx, f2]
    show ‖((√c : ℝ) : ℂ) * F1 (sampleAt S.N y) (sampleAt S.N x)‖ * _ = _
    rw [norm_mul, Complex.norm_real, Real.norm_of_nonneg hsc.le, mul_assoc]
    rfl
  · refine run_phase_same hext hun.shape run1 run2 rfl (show 0 < N by omega) (fun _ _ => Iff.rfl) ?_ y x hy hx
    intro i _ j _
    rw [f2]
    exact Complex.arg_real_mul _ hsc
  · rw [run1.mse, run2.mse, hm1, hm2]
    simp
  · intro k e hk
    obtain ⟨k, rfl⟩ := Nat.exists_eq_add_of_le' hk
    rw [run1.mse, run2.mse, hm1, hm2]
    simp only [List.getElem?_map, Option.map_eq_some_iff]
    rintro ⟨a, ha, rfl⟩
    refine ⟨a, ha, ?_⟩
    have : a = k + 1 := by
      have := List.getElem?_eq_some_iff.mp ha
      obtain ⟨hlt, hv⟩ := this
      simpa using hv.symm
    subst this
    exact S.errorAt_scaled hc k

/-- C91: with `phase_only` and no tolerance for the error, the whole pupil and the number of passes do not depend on the
exposure, whatever the tolerance for the pupil. -/
theorem C91_exposure_phase_only (unwrap : Arr ℝ → Arr ℝ) (hun : Unwraps unwrap) (hext : Extensional unwrap) (data data' : Arr ℝ)
    (d : PyDict) (w n i r : ℚ) (Z N : ℕ) (zs : List ℚ) (hset : Setup d w n i r Z zs) (hdata : data.shape = [Z, N, N]) (hN : 2 ≤ N)
    (hZ : 0 < Z) (c : ℝ) (hc : 0 < c) (hexp : Exposed c data data') (M : ℤ) (hM : 0 < M) (pt mt : ℝ) (hmt : mt ≤ 0)
    (res res' : PRResult) (d₁ d₂ : PyDict) (h₁ : retrievePhase unwrap data M pt mt true d = (.ok res, d₁))
    (h₂ : retrievePhase unwrap data' M pt mt true d = (.ok res', d₂)) :
    (∀ y < N, ∀ x < N, res'.mag.get [y, x] = res.mag.get [y, x] ∧ res'.phase.get [y, x] = res.phase.get [y, x]) ∧
      res'.mse.length = res.mse.length ∧ res'.pupilDiff = res.pupilDiff := by
  obtain ⟨r1, m1, F1, p1, e1, run1, -⟩ := retrieve_form unwrap hun.shape data d hset hdata hN hZ M hM pt mt true
  obtain ⟨r2, m2, F2, p2, e2, run2, -⟩ := retrieve_form unwrap hun.shape data' d hset (hexp.1.trans hdata) hN hZ M hM pt mt true
  rw [h₁] at e1
  rw [h₂] at e2
  simp only [Prod.mk.injEq, Except.ok.injEq] at e1 e2
  obtain ⟨rfl, -⟩ := e1
  obtain ⟨rfl, -⟩ := e2
  rw [prProblem_exposed hexp] at run2
  set S := prProblem data w n i r Z N zs with hS
  have hst := S.stops_scaled_phase hc pt hmt
  have hm : m2 = m1 := by
    have a1 := run1.le
    have a2 := run2.le
    have b1 := run1.pos
    have b2 := run2.pos
    rcases lt_trichotomy m1 m2 with h | h | h
    · exact absurd ((hst _).mpr (run1.early (by omega))) (run2.before (m1 - 1) (by omega))
    · exact h.symm
    · exact absurd ((hst _).mp (run2.early (by omega))) (run1.before (m2 - 1) (by omega))
  subst hm
  have f : F2 = F1 := by
    rw [run1.last, run2.last]
    simp only [S.iterate_scaled_phase hc]
    by_cases h : S.Stops true pt mt (m2 - 1)
    · rw [if_pos h, if_pos ((hst _).mpr h)]
    · rw [if_neg h, if_neg fun h' => h ((hst _).mp h')]
  subst f
  refine ⟨fun y hy x hx => ⟨?_, ?_⟩, ?_, ?_⟩
  · rw [run1.mag y hy x hx, run2.mag y hy x hx]
    rfl
  · exact run_phase_same hext hun.shape run1 run2 rfl (show 0 < N by omega) (fun _ _ => Iff.rfl) (fun _ _ _ _ => rfl) y x hy hx
  · rw [run1.mse, run2.mse]
    simp
  · rw [run1.pupilDiff, run2.pupilDiff]
    refine List.map_congr_left fun k _ => ?_
    cases k with
    | zero => rfl
    | succ k =>
      simp only [Problem.pupilChange, S.iterate_scaled_phase hc]
      rfl

/-- C91: with a positive tolerance for the error this fails: `mse_tol` is compared with the error itself, so that data
which are dim enough make `retrieve_phase` stop after at most two passes, however bad the fit. -/
theorem C91_dim_data_stop (unwrap : Arr ℝ → Arr ℝ) (hun : Unwraps unwrap) (data : Arr ℝ) (d : PyDict)
    (w n i r : ℚ) (Z N : ℕ) (zs : List ℚ) (hset : Setup d w n i r Z zs) (hdata : data.shape = [Z, N, N]) (hN : 2 ≤ N)
    (hZ : 0 < Z) (M : ℤ) (hM : 0 < M) (pt mt : ℝ) (hmt : 0 < mt) :
    ∃ c₀ > 0, ∀ c, 0 < c → c < c₀ → ∀ data' res d', Exposed c data data' →
      retrievePhase unwrap data' M pt mt false d = (.ok res, d') → res.mse.length ≤ 2 := by
  set S := prProblem data w n i r Z N zs with hS
  have hE : 0 ≤ S.errorAt false 1 := S.mse_nonneg _
  refine ⟨√(mt / (S.errorAt false 1 + 1)), Real.sqrt_pos.mpr (by positivity), ?_⟩
  intro c hc hlt data' res d' hexp h
  obtain ⟨r1, m1, F1, p1, e1, run1, -⟩ := retrieve_form unwrap hun.shape data' d hset (hexp.1.trans hdata) hN hZ M hM pt mt false
  rw [h] at e1
  simp only [Prod.mk.injEq, Except.ok.injEq] at e1
  obtain ⟨rfl, -⟩ := e1
  rw [prProblem_exposed hexp] at run1
  rw [run1.mse]
  simp only [List.length_map, List.length_range]
  by_contra hgt
  refine run1.before 1 (by omega) (Or.inl ?_)
  rw [S.errorAt_scaled hc 0]
  have h2 : c ^ 2 < mt / (S.errorAt false 1 + 1) := by
    rw [← Real.lt_sqrt hc.le]; exact hlt
  rw [lt_div_iff₀ (by positivity)] at h2
  simp only [Nat.zero_add]
  nlinarith [sq_nonneg c, sq_pos_of_pos hc]

/-- Non-vacuity: the demo dictionary, a stack and the same stack `c` times as bright. -/
example (data : Arr ℝ) (hs : data.shape = [3, 8, 8]) (c : ℝ) (hc : 0 < c) : ∃ data' res res' d₁ d₂, Exposed c data data' ∧
    retrievePhase id data 5 0 0 false demoDict = (.ok res, d₁) ∧ retrievePhase id data' 5 0 0 false demoDict = (.ok res', d₂) ∧
    ∀ y < 8, ∀ x < 8, res'.mag.get [y, x] = √c * res.mag.get [y, x] ∧ res'.phase.get [y, x] = res.phase.get [y, x] := by
  have hun : Unwraps (id : Arr ℝ → Arr ℝ) := ⟨fun _ => rfl, fun a idx => ⟨0, by simp⟩⟩
  have hexp : Exposed c data (data.map (c * ·)) := ⟨rfl, fun _ => rfl⟩
  obtain ⟨res, d₁, h₁⟩ := C62_returns id (fun _ => rfl) data _ _ _ _ _ 3 8 _ (demoDict_setup 3) hs
    (by norm_num) (by norm_num) 5 (by norm_num) 0 0 false
  obtain ⟨res', d₂, h₂⟩ := C62_returns id (fun _ => rfl) (data.map (c * ·)) _ _ _ _ _ 3 8 _ (demoDict_setup 3) hs
    (by norm_num) (by norm_num) 5 (by norm_num) 0 0 false
  refine ⟨data.map (c * ·), res, res', d₁, d₂, hexp, h₁, h₂, ?_⟩
  exact (C91_exposure id hun (fun _ _ h => h) data _ demoDict 500 1 (3/2) 100 3 8 _ (demoDict_setup 3) hs (by norm_num)
    (by norm_num) c hc hexp 5 (by norm_num) 0 0 (le_refl _) (le_refl _) res res' d₁ d₂ h₁ h₂).1

end PyOTF
