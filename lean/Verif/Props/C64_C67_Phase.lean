import Verif.Props.C62_C63_Phase

/-!
# C64-C67: fixed points, support, consistency of the result, the caller's dictionary
-/

namespace PyOTF

open Physics

namespace Physics.Problem

variable (S : Problem)

theorem mse_zero {P : ℕ → ℕ → ℂ} (hd : ∀ z < S.Z, ∀ y < S.N, ∀ x < S.N, S.data z y x = ‖S.amplitude P z y x‖ ^ 2) : S.mse P = 0 := by
  unfold mse mean
  rw [Finset.sum_eq_zero, zero_div]
  intro z hz
  refine Finset.sum_eq_zero fun y hy => Finset.sum_eq_zero fun x hx => ?_
  show (S.data z y x - ‖S.amplitude P z y x‖ ^ 2) ^ 2 = 0
  rw [hd z (Finset.mem_range.mp hz) y (Finset.mem_range.mp hy) x (Finset.mem_range.mp hx)]
  ring

theorem updatePhase_fixed (hZ : 0 < S.Z) (P : ℕ → ℕ → ℂ) (hP : S.Supported P)
    (hu : ∀ i < S.N, ∀ j < S.N, S.Inside i j → ‖P i j‖ = 1)
    (hd : ∀ z < S.Z, ∀ y < S.N, ∀ x < S.N, S.data z y x = ‖S.amplitude P z y x‖ ^ 2) (i j : ℕ) (hi : i < S.N) (hj : j < S.N) :
    S.updatePhase P i j = P i j := by
  by_cases h : S.Inside i j
  · rw [updatePhase, if_pos h, S.update_fixed hZ P hP hd i j hi hj]
    have := Complex.norm_mul_exp_arg_mul_I (P i j)
    rw [hu i hi j hj h, Complex.ofReal_one, one_mul, mul_comm] at this
    exact this
  · rw [updatePhase, if_neg h, hP i hi j hj h]

theorem update_congr {P Q : ℕ → ℕ → ℂ} (h : S.SamePupil P Q) : S.update P = S.update Q := by
  funext i j
  unfold update
  have : S.corrected P = S.corrected Q := by
    funext z y x
    unfold corrected
    rw [S.amplitude_congr h]
  rw [this]

theorem updatePhase_congr {P Q : ℕ → ℕ → ℂ} (h : S.SamePupil P Q) : S.updatePhase P = S.updatePhase Q := by
  funext i j
  unfold updatePhase
  rw [S.update_congr h]

theorem iterate_unimodular (k : ℕ) (i j : ℕ) (hin : S.Inside i j) : ‖S.iterate true k i j‖ = 1 := by
  cases k with
  | zero =>
    have : radial S.N S.pixel i j < S.limit := hin
    simp [iterate, aperture, this]
  | succ k =>
    simp only [iterate, if_true, updatePhase, if_pos hin]
    rw [mul_comm, Complex.norm_exp_ofReal_mul_I]

/-- Once an iterate reproduces the data the iteration stands still. -/
theorem iterate_frozen (b : Bool) (hZ : 0 < S.Z) (k : ℕ)
    (hd : ∀ z < S.Z, ∀ y < S.N, ∀ x < S.N, S.data z y x = ‖S.amplitude (S.iterate b k) z y x‖ ^ 2) (m : ℕ) (hm : k ≤ m) :
    S.SamePupil (S.iterate b m) (S.iterate b k) := by
  induction m, hm using Nat.le_induction with
  | base => exact fun _ _ _ _ => rfl
  | succ m _ ih =>
    intro i hi j hj
    cases b with
    | false =>
      simp only [iterate, Bool.false_eq_true, if_false]
      rw [S.update_congr ih]
      exact S.update_fixed hZ _ (S.iterate_supported false k) hd i j hi hj
    | true =>
      simp only [iterate, if_true]
      rw [S.updatePhase_congr ih]
      exact S.updatePhase_fixed hZ _ (S.iterate_supported true k) (fun i _ j _ h => S.iterate_unimodular k i j h) hd i j hi hj

theorem mse_nonneg (P : ℕ → ℕ → ℂ) : 0 ≤ S.mse P := by
  unfold mse mean
  refine div_nonneg ?_ (by positivity)
  exact Finset.sum_nonneg fun z _ => Finset.sum_nonneg fun y _ => Finset.sum_nonneg fun x _ => sq_nonneg _

theorem energy_nonneg (P : ℕ → ℕ → ℂ) : 0 ≤ S.energy P := by
  unfold energy
  refine div_nonneg ?_ (by positivity)
  exact Finset.sum_nonneg fun y _ => Finset.sum_nonneg fun x _ => sq_nonneg _

theorem distance_nonneg (P Q : ℕ → ℕ → ℂ) : 0 ≤ S.distance P Q := by
  unfold distance
  refine div_nonneg ?_ (by positivity)
  exact Finset.sum_nonneg fun y _ => Finset.sum_nonneg fun x _ => sq_nonneg _

/-- Without tolerances the rule is never satisfied. -/
theorem not_stops (b : Bool) {pt mt : ℝ} (hp : pt ≤ 0) (hm : mt ≤ 0) (k : ℕ) : ¬ S.Stops b pt mt k := by
  rintro (h | ⟨j, rfl, ⟨-, h⟩ | ⟨-, h⟩⟩)
  · exact absurd (S.mse_nonneg (S.iterate b k)) (not_le.mpr (lt_of_lt_of_le h hm))
  · exact absurd (div_nonneg (abs_nonneg _) (S.mse_nonneg (S.iterate b j))) (not_le.mpr (lt_of_lt_of_le h hm))
  · exact absurd (div_nonneg (S.distance_nonneg _ _) (S.energy_nonneg (S.iterate b j))) (not_le.mpr (lt_of_lt_of_le h hp))

end Physics.Problem

/-! ## C64 -/

/-- C64: the data are the `PSFi` of `apply_pupil(P)` on a scalar model without apodisation, `P` vanishes outside the
aperture.  Then the error of `P` is 0 and the next pupil computed from the `PSFa` of that model is `P` again; with
`phase_only` likewise if `|P| = 1` in the aperture. -/
theorem C64_fixed_point (o o₁ o₂ o₃ : HObj) (w n i r : ℚ) (N : ℕ) (zs : List ℚ) (ho : Optics o.params w n i r N zs .none .none)
    (hw : w ≠ 0) (hr : r ≠ 0) (hN : 2 ≤ N) (hZ : 0 < zs.length) (P : Arr ℂ) (hP : P.shape = [N, N])
    (hsup : ∀ a < N, ∀ b < N, ¬ radial N r a b < ((n / w : ℚ) : ℝ) → P.get [a, b] = 0)
    (data : Arr ℝ) (psfa : Arr ℂ) (h1 : HObj.applyPupil P o = (.ok (), o₁)) (h2 : HObj.getPSFi o₁ = (.ok data, o₂))
    (h3 : HObj.getPSFa o₁ = (.ok psfa, o₃)) (phaseOnly : Bool)
    (hphase : phaseOnly = true → ∀ a < N, ∀ b < N, radial N r a b < ((n / w : ℚ) : ℝ) → ‖P.get [a, b]‖ = 1)
    (c : PrConf) (hc1 : c.data = data) (hc2 : c.mag = data.map psqrt) (hc3 : genCoords o.params = .ok c.h)
    (hc4 : c.mask = c.h.idealPupil.map Complex.re) (hc5 : c.phaseOnly = phaseOnly) :
    calcMse data data = .ok 0 ∧ ∃ Q, nextPupil c psfa = .ok Q ∧ Q.shape = [N, N] ∧
      ∀ a < N, ∀ b < N, Q.get [a, b] = P.get [a, b] := by
  have hnum := ho.numbersOf hw hr (show 0 < N by omega) (by simp)
  have hgc := optics_genCoords ho hw hr (show 0 < N by omega) (by simp)
  rw [hc3] at hgc
  injection hgc with hgc
  have hs : Scalar o.params c.h := by rw [hgc]; exact ⟨hnum, rfl, rfl⟩
  have hPs : P.shape = [c.h.size, c.h.size] := by rw [hP, hgc]
  obtain ⟨a, ha, hash, haget⟩ := psf_form hs ((n / w : ℚ) : ℝ) c.data P hPs
  rw [applyPupil_run, ha] at h1
  simp only [Prod.mk.injEq, true_and] at h1
  subst h1
  rw [getPSFi_held] at h2
  simp only [Prod.mk.injEq, Except.ok.injEq] at h2
  obtain ⟨h2, -⟩ := h2
  have h3' : HObj.getPSFa { params := o.params, psfa := some a } = (.ok a, { params := o.params, psfa := some a }) := rfl
  rw [h3'] at h3
  simp only [Prod.mk.injEq, Except.ok.injEq] at h3
  obtain ⟨rfl, -⟩ := h3
  have hds : c.data.shape = [c.h.z.length, c.h.size, c.h.size] := by rw [hc1, ← h2, psfiOf_shape a _ _ _ _ hash]
  have hzl : c.h.z.length = zs.length := by rw [hgc]; simp
  have hsz : c.h.size = N := by rw [hgc]
  have hc : ConfOk c (n / w) := ⟨by rw [hc2, hc1], hc4, hds, by rw [hgc], by omega, by omega⟩
  have hget : ∀ z y x, a.get [0, z, y, x] = (c.problem (n / w)).amplitude (pupilFn P) z y x := haget
  have hd : ∀ z < (c.problem (n / w)).Z, ∀ y < (c.problem (n / w)).N, ∀ x < (c.problem (n / w)).N,
      (c.problem (n / w)).data z y x = ‖(c.problem (n / w)).amplitude (pupilFn P) z y x‖ ^ 2 := by
    intro z _ y _ x _
    have : (c.problem (n / w)).data z y x = (psfiOf a).get [z, y, x] := by
      show c.data.get [z, y, x] = _
      rw [hc1, h2]
    rw [this, psfiOf_get a _ _ _ _ hash, Finset.sum_range_one, hget]
  have hsup' : (c.problem (n / w)).Supported (pupilFn P) := by
    intro a' ha' b' hb' hin
    refine hsup a' (hsz ▸ ha') b' (hsz ▸ hb') fun h => hin ?_
    show radial c.h.size c.h.res a' b' < _
    rw [hgc]; exact h
  refine ⟨?_, ?_⟩
  · have := calcMse_form hc (pupilFn P) a hash hget
    rw [(c.problem (n / w)).mse_zero hd, h2, hc1] at this
    exact this
  · obtain ⟨Q, q1, q2, q3⟩ := nextPupil_form hc (pupilFn P) a hash hget
    refine ⟨Q, q1, by rw [q2, hsz], fun a' ha' b' hb' => ?_⟩
    have := q3 a' (hsz ▸ ha') b' (hsz ▸ hb')
    rw [pupilFn] at this
    rw [this, Problem.step]
    have hZ' : 0 < (c.problem (n / w)).Z := show 0 < c.h.z.length by omega
    cases hb : c.phaseOnly with
    | false =>
      rw [if_neg (by simp)]
      exact (c.problem (n / w)).update_fixed hZ' _ hsup' hd a' b' (show a' < c.h.size by omega) (show b' < c.h.size by omega)
    | true =>
      rw [if_pos rfl]
      refine (c.problem (n / w)).updatePhase_fixed hZ' _ hsup' ?_ hd a' b' (show a' < c.h.size by omega) (show b' < c.h.size by omega)
      intro e he f hf hin
      refine hphase (by rw [← hc5, hb]) e (hsz ▸ he) f (hsz ▸ hf) ?_
      have : radial c.h.size c.h.res e f < ((n / w : ℚ) : ℝ) := hin
      rw [hgc] at this; exact this

/-- C64: data simulated with the ideal pupil are recognised at once: one pass, error 0, magnitude 1 inside the
aperture. -/
theorem C64_ideal_data (unwrap : Arr ℝ → Arr ℝ) (hun : Unwraps unwrap) (data : Arr ℝ) (d : PyDict)
    (w n i r : ℚ) (Z N : ℕ) (zs : List ℚ) (hset : Setup d w n i r Z zs) (hN : 2 ≤ N)
    (hZ : 0 < Z) (M : ℤ) (hM : 0 < M) (pt mt : ℝ) (hmt : 0 < mt) (b : Bool) (o o' : HObj)
    (ho : hanserOfDict (d.update (prOverride Z N)) = .ok o) (hpsf : HObj.getPSFi o = (.ok data, o')) :
    ∃ res d', retrievePhase unwrap data M pt mt b d = (.ok res, d') ∧ res.mse = [0] ∧
      ∀ a < N, ∀ c < N, retrieved N res a c = aperture N r ((n / w : ℚ) : ℝ) a c := by
  obtain ⟨o2, e1, e2, hopt, -⟩ := setup_model (N := N) hset
  rw [ho] at e1
  injection e1 with e1
  subst e1
  have hw : w ≠ 0 := hset.wl.2.ne'
  have hr : r ≠ 0 := hset.res.2.2
  have hlen : zs.length = Z := hset.planes.1
  have hnum := hopt.numbersOf hw hr (show 0 < N by omega) (by simp)
  set h : HanserNum := ⟨N, r, ((i / w : ℚ) : ℝ), .fin (n / w), zs.map fun (q : ℚ) => (q : ℝ), .none, .none⟩ with hh
  have hs : Scalar o.params h := ⟨hnum, rfl, rfl⟩
  obtain ⟨a, ha, hash, haget⟩ := psf_form hs ((n / w : ℚ) : ℝ) data h.idealPupil rfl
  have hnone : hanserGenPsf o.params none = .ok a := by
    rw [genPsf_none_of hnum, ← genPsf_some_of hnum (P := h.idealPupil) rfl]; exact ha
  have hd : data = psfiOf a := by
    rw [e2] at hpsf
    simp only [HObj.getPSFi, HObj.getPSFa, HObj.genPsf, attributeChanged, PyM.bind_apply, PyM.get_apply, PyM.modify_apply,
      PyM.lift_apply, hnone, PyM.pure_apply, Prod.mk.injEq, Except.ok.injEq] at hpsf
    exact hpsf.1.symm
  have hzl : h.z.length = Z := by simp [hh, hlen]
  have hdata : data.shape = [Z, N, N] := by rw [hd, psfiOf_shape a _ _ _ _ hash, hzl]
  obtain ⟨res, m, F, p, hret, run, -, -⟩ := retrieve_form unwrap hun.shape data d hset hdata hN hZ M hM pt mt b
  set S := prProblem data w n i r Z N zs with hS
  have hprob : problemOf h ((n / w : ℚ) : ℝ) data = S := by
    have hz : ∀ z, (zs.map fun (q : ℚ) => (q : ℝ)).getD z 0 = ((zs.getD z 0 : ℚ) : ℝ) := by
      intro z
      rw [List.getD_eq_getElem?_getD, List.getD_eq_getElem?_getD, List.getElem?_map]
      cases zs[z]? <;> simp
    simp only [problemOf, hS, prProblem, hzl]
    simp only [hh, hz]
  have hsame : S.SamePupil (pupilFn h.idealPupil) (S.iterate b 0) := fun a _ c _ => idealPupil_eq h rfl a c
  have hfit : ∀ z < S.Z, ∀ y < S.N, ∀ x < S.N, S.data z y x = ‖S.amplitude (S.iterate b 0) z y x‖ ^ 2 := by
    intro z _ y _ x _
    rw [← S.amplitude_congr hsame, ← hprob, ← haget]
    show data.get [z, y, x] = _
    rw [hd, psfiOf_get a _ _ _ _ hash, Finset.sum_range_one]
  have h0 : S.errorAt b 0 = 0 := S.mse_zero hfit
  have hst : S.Stops b pt mt 0 := Or.inl (by rw [h0]; exact hmt)
  have hm1 : m = 1 := by
    have := run.pos
    by_contra hne
    exact run.before 0 (by omega) hst
  refine ⟨res, _, hret, ?_, ?_⟩
  · rw [run.mse, hm1]; simp [h0]
  · have := run_retrieved run hun
    rw [run.last, hm1, if_pos hst] at this
    exact this

/-- C64: without tolerances, once the `k`-th pupil reproduces the data no further pass changes it. -/
theorem C64_frozen (unwrap : Arr ℝ → Arr ℝ) (hun : Unwraps unwrap) (data : Arr ℝ) (d : PyDict)
    (w n i r : ℚ) (Z N : ℕ) (zs : List ℚ) (hset : Setup d w n i r Z zs) (hdata : data.shape = [Z, N, N]) (hN : 2 ≤ N)
    (hZ : 0 < Z) (k : ℕ) (hk : 0 < k) (M : ℤ) (hM : (k : ℤ) ≤ M) (pt mt : ℝ) (hpt : pt ≤ 0) (hmt : mt ≤ 0) (b : Bool) (res₁ res₂ : PRResult)
    (d₁ d₂ : PyDict) (h₁ : retrievePhase unwrap data k pt mt b d = (.ok res₁, d₁))
    (h₂ : retrievePhase unwrap data M pt mt b d = (.ok res₂, d₂))
    (hfit : ∀ z < Z, ∀ y < N, ∀ x < N, data.get [z, y, x] = ‖(prProblem data w n i r Z N zs).amplitude (retrieved N res₁) z y x‖ ^ 2) :
    ∀ a < N, ∀ c < N, retrieved N res₂ a c = retrieved N res₁ a c := by
  set S := prProblem data w n i r Z N zs with hS
  obtain ⟨r1, m1, F1, p1, e1, run1, -⟩ := retrieve_form unwrap hun.shape data d hset hdata hN hZ k (by omega) pt mt b
  obtain ⟨r2, m2, F2, p2, e2, run2, -⟩ := retrieve_form unwrap hun.shape data d hset hdata hN hZ M (by omega) pt mt b
  rw [h₁] at e1
  rw [h₂] at e2
  simp only [Prod.mk.injEq, Except.ok.injEq] at e1 e2
  obtain ⟨rfl, -⟩ := e1
  obtain ⟨rfl, -⟩ := e2
  obtain ⟨a1, f1, g1, k1, l1⟩ := run_index run1
  obtain ⟨a2, f2, g2, k2, l2⟩ := run_index run2
  have ea1 : a1 = k := by
    by_contra hne
    exact S.not_stops b hpt hmt a1 (l1 (by omega))
  have ea2 : (a2 : ℤ) = M := by
    by_contra hne
    exact S.not_stops b hpt hmt a2 (l2 (by omega))
  have s1 := run_retrieved run1 hun
  have s2 := run_retrieved run2 hun
  rw [f1] at s1
  rw [f2] at s2
  have hfit' : ∀ z < S.Z, ∀ y < S.N, ∀ x < S.N, S.data z y x = ‖S.amplitude (S.iterate b a1) z y x‖ ^ 2 := by
    intro z hz y hy x hx
    rw [← S.amplitude_congr s1]
    exact hfit z hz y hy x hx
  have := S.iterate_frozen b hZ a1 hfit' a2 (by omega)
  intro a ha c hc
  exact (s2 a ha c hc).trans ((this a ha c hc).trans (s1 a ha c hc).symm)

/-! ## C65 -/

/-- C65: magnitude and phase vanish at every pixel whose frequency is not inside the aperture; with `phase_only` the
magnitude inside is exactly 1. -/
theorem C65_support (unwrap : Arr ℝ → Arr ℝ) (hun : ∀ a, (unwrap a).shape = a.shape) (data : Arr ℝ) (d : PyDict)
    (w n i r : ℚ) (Z N : ℕ) (zs : List ℚ) (hset : Setup d w n i r Z zs) (hdata : data.shape = [Z, N, N]) (hN : 2 ≤ N)
    (hZ : 0 < Z) (M : ℤ) (hM : 0 < M) (pt mt : ℝ) (b : Bool) (res : PRResult) (d' : PyDict)
    (h : retrievePhase unwrap data M pt mt b d = (.ok res, d')) :
    res.mag.shape = [N, N] ∧ res.phase.shape = [N, N] ∧ ∀ y < N, ∀ x < N,
      (((n / w : ℚ) : ℝ) ≤ radial N r (sampleAt N y) (sampleAt N x) → res.mag.get [y, x] = 0 ∧ res.phase.get [y, x] = 0) ∧
      (b = true → radial N r (sampleAt N y) (sampleAt N x) < ((n / w : ℚ) : ℝ) → res.mag.get [y, x] = 1) := by
  obtain ⟨r1, m1, F1, p1, e1, run, -⟩ := retrieve_form unwrap hun data d hset hdata hN hZ M hM pt mt b
  rw [h] at e1
  simp only [Prod.mk.injEq, Except.ok.injEq] at e1
  obtain ⟨rfl, -⟩ := e1
  set S := prProblem data w n i r Z N zs with hS
  refine ⟨run.magShape, run.phaseShape, fun y hy x hx => ⟨fun hout => ?_, fun hb hin => ?_⟩⟩
  · have hno : ¬ S.Inside (sampleAt N y) (sampleAt N x) := not_lt.mpr hout
    obtain ⟨A, -, -, hph⟩ := run.phase
    refine ⟨?_, ?_⟩
    · have := run.mag y hy x hx
      rw [this]
      exact mul_eq_zero_of_right _ (if_neg hno)
    · rw [hph y hy x hx]
      exact mul_eq_zero_of_right _ (if_neg hno)
  · have hin' : S.Inside (sampleAt N y) (sampleAt N x) := hin
    obtain ⟨a, hF, -⟩ := run_index run
    have := run.mag y hy x hx
    rw [this, hF, hb]
    have e1 : ‖S.iterate true a (sampleAt S.N y) (sampleAt S.N x)‖ = 1 := S.iterate_unimodular a _ _ hin'
    rw [e1, one_mul]
    exact if_pos hin'

/-! ## C66 -/

theorem run_rule {S : Problem} {p : Params} {b : Bool} {pt mt : ℝ} {M : ℕ} {unwrap : Arr ℝ → Arr ℝ} {res : PRResult} {m : ℕ}
    {F : ℕ → ℕ → ℂ} (h : Run S p b pt mt M unwrap res m F) (k : ℕ) (hk : k < m) :
    RuleAt res.pupilDiff res.mseDiff res.mse pt mt k ↔ S.Stops b pt mt k := by
  rw [← S.stops_iff]
  unfold RuleAt
  rw [h.pupilDiff, h.mseDiff, h.mse]
  simp only [List.getElem?_map, List.getElem?_range hk, Option.map_some, Option.some.injEq, lt_iff_fin]
  constructor <;> rintro (h | h | h)
  · exact Or.inl h
  · exact Or.inr (Or.inl h)
  · obtain ⟨x, rfl, hx⟩ := h; exact Or.inr (Or.inr hx)
  · exact Or.inl h
  · exact Or.inr (Or.inl h)
  · exact Or.inr (Or.inr ⟨_, rfl, h⟩)

/-- C66: the model in the result and the last entry of `mse` belong to one pupil `Q`.  If the stopping rule was
satisfied in the last pass, `Q` is the returned pupil; otherwise the returned pupil is one update of `Q` ahead. -/
theorem C66_consistency (unwrap : Arr ℝ → Arr ℝ) (hun : Unwraps unwrap) (data : Arr ℝ) (d : PyDict)
    (w n i r : ℚ) (Z N : ℕ) (zs : List ℚ) (hset : Setup d w n i r Z zs) (hdata : data.shape = [Z, N, N]) (hN : 2 ≤ N)
    (hZ : 0 < Z) (M : ℤ) (hM : 0 < M) (pt mt : ℝ) (b : Bool) (res : PRResult) (d' : PyDict)
    (h : retrievePhase unwrap data M pt mt b d = (.ok res, d')) :
    ∃ (Q : ℕ → ℕ → ℂ) (psfi : Arr ℝ) (o : HObj), HObj.getPSFi res.model = (.ok psfi, o) ∧ psfi.shape = [Z, N, N] ∧
      (∀ z y x, psfi.get [z, y, x] = ‖(prProblem data w n i r Z N zs).amplitude Q z y x‖ ^ 2) ∧
      res.mse.getLast? = some ((prProblem data w n i r Z N zs).mse Q) ∧
      (RuleAt res.pupilDiff res.mseDiff res.mse pt mt (res.mse.length - 1) →
        ∀ a < N, ∀ c < N, retrieved N res a c = Q a c) ∧
      (¬ RuleAt res.pupilDiff res.mseDiff res.mse pt mt (res.mse.length - 1) →
        ∀ a < N, ∀ c < N, retrieved N res a c =
          if b then (prProblem data w n i r Z N zs).updatePhase Q a c else (prProblem data w n i r Z N zs).update Q a c) := by
  obtain ⟨r1, m, F1, p1, e1, run, -⟩ := retrieve_form unwrap hun.shape data d hset hdata hN hZ M hM pt mt b
  rw [h] at e1
  simp only [Prod.mk.injEq, Except.ok.injEq] at e1
  obtain ⟨rfl, -⟩ := e1
  set S := prProblem data w n i r Z N zs with hS
  obtain ⟨a, ha, hash, hget, -⟩ := run.model
  have hpos := run.pos
  have hlen : res.mse.length = m := by rw [run.mse]; simp
  have hs := run_retrieved run hun
  refine ⟨S.iterate b (m - 1), psfiOf a, res.model, by rw [ha]; rfl, psfiOf_shape a _ _ _ _ hash, fun z y x => ?_, ?_, ?_, ?_⟩
  · rw [psfiOf_get a _ _ _ _ hash, Finset.sum_range_one, hget]
  · obtain ⟨k, rfl⟩ := Nat.exists_eq_add_of_le' hpos
    rw [run.mse, List.range_succ, List.map_append]
    simp [Problem.errorAt]
  · rw [hlen, run_rule run _ (by omega)]
    intro hst
    have := run.last
    rw [if_pos hst] at this
    rw [← this]; exact hs
  · rw [hlen, run_rule run _ (by omega)]
    intro hst
    have := run.last
    rw [if_neg hst] at this
    intro a ha c hc
    refine (hs a ha c hc).trans ?_
    rw [this]
    obtain ⟨k, rfl⟩ := Nat.exists_eq_add_of_le' hpos
    simp only [Problem.iterate, Nat.add_sub_cancel]
    split_ifs <;> rfl

/-- C66: the two really differ on exhaustion: for all-zero data and one pass without tolerances, the returned pupil is
zero but the model's `PSFi` is not. -/
theorem C66_exhausted_differs (unwrap : Arr ℝ → Arr ℝ) (hun : Unwraps unwrap) (data : Arr ℝ) (d : PyDict)
    (w n i r : ℚ) (Z N : ℕ) (zs : List ℚ) (hset : Setup d w n i r Z zs) (hdata : data.shape = [Z, N, N]) (hN : 2 ≤ N)
    (hZ : 0 < Z) (hzero : ∀ idx, data.get idx = 0) :
    ∃ res d' psfi o, retrievePhase unwrap data 1 0 0 false d = (.ok res, d') ∧ HObj.getPSFi res.model = (.ok psfi, o) ∧
      (∀ a < N, ∀ c < N, retrieved N res a c = 0) ∧ ∃ y < N, ∃ x < N, psfi.get [0, y, x] ≠ 0 := by
  obtain ⟨res, m, F1, p1, hret, run, -⟩ := retrieve_form unwrap hun.shape data d hset hdata hN hZ 1 (by norm_num) 0 0 false
  set S := prProblem data w n i r Z N zs with hS
  obtain ⟨a, ha, hash, hget, -⟩ := run.model
  have hm : m = 1 := by have := run.pos; have := run.le; omega
  subst hm
  have hst := S.not_stops false (le_refl 0) (le_refl 0) (1 - 1)
  have hlast := run.last
  rw [if_neg hst] at hlast
  have hs := run_retrieved run hun
  refine ⟨res, _, psfiOf a, res.model, hret, by rw [ha]; rfl, ?_, ?_⟩
  · intro e he f hf
    refine (hs e he f hf).trans ?_
    rw [hlast]
    simp only [Problem.iterate, Bool.false_eq_true, if_false, Problem.update]
    split_ifs with hin
    · have hc : ∀ z, S.corrected (aperture S.N S.pixel S.limit) z = fun _ _ => 0 := by
        intro z
        funext y x
        have : S.data z y x = 0 := hzero _
        simp [Problem.corrected, this]
      simp [hc, analysis]
    · rfl
  · by_contra hno
    push Not at hno
    have hz : ∀ y < N, ∀ x < N, ‖S.amplitude (S.iterate false 0) 0 y x‖ ^ 2 = 0 := by
      intro y hy x hx
      have := hno y hy x hx
      rw [psfiOf_get a _ _ _ _ hash, Finset.sum_range_one, hget] at this
      exact this
    have hN0 : 0 < N := by omega
    have hpar := field_parseval N N hN0 hN0 (fun i j => S.iterate false 0 i j * S.defocus 0 i j)
    have hsum : ∑ y ∈ Finset.range N, ∑ x ∈ Finset.range N, ‖field N N (fun i j => S.iterate false 0 i j * S.defocus 0 i j) y x‖ ^ 2 = 0 :=
      Finset.sum_eq_zero fun y hy => Finset.sum_eq_zero fun x hx => hz y (Finset.mem_range.mp hy) x (Finset.mem_range.mp hx)
    rw [hsum] at hpar
    have hNr : ((N : ℝ) * N) ≠ 0 := by positivity
    rw [eq_comm, div_eq_zero_iff, or_iff_left hNr] at hpar
    have h00 := (Finset.sum_eq_zero_iff_of_nonneg (fun y _ => Finset.sum_nonneg fun x _ => sq_nonneg _)).mp hpar 0 (Finset.mem_range.mpr hN0)
    have h00' := (Finset.sum_eq_zero_iff_of_nonneg (fun x _ => sq_nonneg _)).mp h00 0 (Finset.mem_range.mpr hN0)
    have hin : radial N r 0 0 < ((n / w : ℚ) : ℝ) := by
      have h1 : radial N r 0 0 = 0 := by simp [radial, freq, hN0]
      rw [h1]
      exact_mod_cast div_pos hset.na.2 hset.wl.2
    have hone : S.iterate false 0 0 0 = 1 := if_pos hin
    rw [hone, one_mul, S.norm_defocus] at h00'
    norm_num at h00'

/-! ## C67 -/

/-- C67: whatever happens later, once the checks have passed the caller's dictionary has the entries `vec_corr`,
`condition`, `zsize`, `size` set from the data, all other entries unchanged; no other key appears. -/
theorem C67_params (unwrap : Arr ℝ → Arr ℝ) (data : Arr ℝ) (M : ℤ) (pt mt : ℝ) (b : Bool) (d : PyDict) (Z N : ℕ)
    (hM : 0 < M) (hdata : data.shape = [Z, N, N]) :
    let d' := (retrievePhase unwrap data M pt mt b d).2
    d'.find "vec_corr" = some (.val (.str "none")) ∧ d'.find "condition" = some (.val (.str "none")) ∧
      d'.find "zsize" = some (.val (.int Z)) ∧ d'.find "size" = some (.val (.int N)) ∧
      (∀ k, k ∉ ["vec_corr", "condition", "zsize", "size"] → d'.find k = d.find k) ∧
      ∀ p ∈ d', p.1 ∈ ["vec_corr", "condition", "zsize", "size"] ∨ ∃ q ∈ d, q.1 = p.1 := by
  have hck : prChecks data M = .ok (Z, N) := by simp [prChecks, hM, hdata]
  have hd : (retrievePhase unwrap data M pt mt b d).2 = d.update (prOverride Z N) := by
    simp only [retrievePhase, PyM.bind_apply, PyM.lift_apply, hck, PyM.modify_apply, PyM.get_apply]
  simp only [hd]
  refine ⟨by rw [find_override]; rfl, by rw [find_override]; rfl, by rw [find_override]; rfl, by rw [find_override]; rfl, ?_,
    fun p hp => keys_override hp⟩
  intro k hk
  simp only [List.mem_cons, List.not_mem_nil, or_false, not_or] at hk
  rw [find_override, if_neg hk.2.2.2, if_neg hk.2.2.1, if_neg hk.2.1, if_neg hk.1]

theorem key_insert {d : PyDict} {p : String × DVal} (h : p ∈ d) (k : String) (v : DVal) : ∃ q ∈ d.insert k v, q.1 = p.1 := by
  unfold PyDict.insert
  split_ifs
  · refine ⟨_, List.mem_map.mpr ⟨p, h, rfl⟩, ?_⟩
    by_cases e : (p.1 == k) = true
    · rw [if_pos e]; exact (beq_iff_eq.mp e).symm
    · rw [if_neg e]
  · exact ⟨p, by simp [h], rfl⟩

theorem key_update (e : PyDict) {d : PyDict} {p : String × DVal} (h : p ∈ d) : ∃ q ∈ d.update e, q.1 = p.1 := by
  unfold PyDict.update
  induction e generalizing d p with
  | nil => exact ⟨p, h, rfl⟩
  | cons a e ih =>
    obtain ⟨q, hq, e1⟩ := key_insert h a.1 a.2
    obtain ⟨r, hr, e2⟩ := ih hq
    exact ⟨r, hr, e2.trans e1⟩

theorem required_cases (d : PyDict) (k : String) : required d k = .error .typeError ∨ ∃ v, required d k = .ok v := by
  unfold required
  rcases d.find k with _ | v
  · exact .inl rfl
  · exact .inr ⟨_, rfl⟩

/-- The keyword arguments `HanserPSF` accepts, and those it cannot do without that the data do not provide. -/
def acceptedNames : List String := ["wl", "na", "ni", "res", "size", "zres", "zsize", "vec_corr", "condition", "zrange"]
@[inherit_doc acceptedNames] def neededNames : List String := ["wl", "na", "ni", "res"]

/-- C67: a dictionary with an entry that is no keyword argument of `HanserPSF`, or without the wavelength, one of the apertures, the index or
the pixel size, is a `TypeError` - after the entries of the data have been written into it. -/
theorem C67_bad_keywords (unwrap : Arr ℝ → Arr ℝ) (data : Arr ℝ) (M : ℤ) (pt mt : ℝ) (b : Bool) (d : PyDict) (Z N : ℕ)
    (hM : 0 < M) (hdata : data.shape = [Z, N, N])
    (h : (∃ p ∈ d, p.1 ∉ acceptedNames) ∨ ∃ k ∈ neededNames, d.find k = none) :
    retrievePhase unwrap data M pt mt b d = (.error .typeError, d.update (prOverride Z N)) := by
  have hck : prChecks data M = .ok (Z, N) := by simp [prChecks, hM, hdata]
  have key : hanserOfDict (d.update (prOverride Z N)) = .error .typeError := by
    unfold hanserOfDict
    by_cases hall : (d.update (prOverride Z N)).all (fun p => decide (p.1 ∈ hanserKeywords)) = true
    · rcases h with ⟨p, hp, hpn⟩ | ⟨k, hk, hkn⟩
      · exfalso
        obtain ⟨q, hq, e⟩ := key_update (prOverride Z N) hp
        have := List.all_eq_true.mp hall q hq
        rw [decide_eq_true_eq, e] at this
        exact hpn this
      · have e : (d.update (prOverride Z N)).find k = none := by
          rw [find_override]
          simp only [neededNames, List.mem_cons, List.not_mem_nil, or_false] at hk
          rcases hk with rfl | rfl | rfl | rfl <;> simpa using hkn
        simp only [hall, not_true_eq_false, if_false]
        have hr : required (d.update (prOverride Z N)) k = .error .typeError := by simp [required, e]
        rcases required_cases (d.update (prOverride Z N)) "wl" with h1 | ⟨v1, h1⟩ <;> rw [h1]
        · rfl
        rcases required_cases (d.update (prOverride Z N)) "na" with h2 | ⟨v2, h2⟩ <;> rw [h2]
        · rfl
        rcases required_cases (d.update (prOverride Z N)) "ni" with h3 | ⟨v3, h3⟩ <;> rw [h3]
        · rfl
        rcases required_cases (d.update (prOverride Z N)) "res" with h4 | ⟨v4, h4⟩ <;> rw [h4]
        · rfl
        exfalso
        simp only [neededNames, List.mem_cons, List.not_mem_nil, or_false] at hk
        rcases hk with rfl | rfl | rfl | rfl
        · rw [h1] at hr; cases hr
        · rw [h2] at hr; cases hr
        · rw [h3] at hr; cases hr
        · rw [h4] at hr; cases hr
    · simp [hall]; rfl
  simp only [retrievePhase, PyM.bind_apply, PyM.lift_apply, hck, PyM.modify_apply, PyM.get_apply, prRun, key]
  rfl

/-- Non-vacuity: the demo dictionary with a misspelt keyword. -/
example : (retrievePhase id ⟨[3, 8, 8], fun _ => 0⟩ 1 0 0 false (("sice", .val (.int 8)) :: demoDict)).1 = .error .typeError := by
  rw [C67_bad_keywords id _ 1 0 0 false _ 3 8 (by norm_num) rfl (.inl ⟨_, List.mem_cons_self, by decide⟩)]

/-- Non-vacuity: the demo dictionary, three planes of zeros. -/
example : ∃ res d' psfi o, retrievePhase id ⟨[3, 8, 8], fun _ => 0⟩ 1 0 0 false demoDict = (.ok res, d') ∧
    HObj.getPSFi res.model = (.ok psfi, o) ∧ (∀ a < 8, ∀ c < 8, retrieved 8 res a c = 0) ∧ ∃ y < 8, ∃ x < 8, psfi.get [0, y, x] ≠ 0 :=
  C66_exhausted_differs id ⟨fun _ => rfl, fun a idx => ⟨0, by simp⟩⟩ _ _ _ _ _ _ 3 8 _ (demoDict_setup 3) rfl (by norm_num)
    (by norm_num) (fun _ => rfl)

/-- Non-vacuity of `C64_ideal_data`: the simulated stack exists. -/
example : ∃ o data o', hanserOfDict (demoDict.update (prOverride 3 8)) = .ok o ∧ HObj.getPSFi o = (.ok data, o') := by
  obtain ⟨o, e1, e2, hopt, -⟩ := setup_model (N := 8) (demoDict_setup 3)
  have hnum := hopt.numbersOf (by norm_num) (by norm_num) (by norm_num) (by simp)
  have key : ∃ data o', HObj.getPSFi o = (.ok data, o') := by
    rw [e2]
    simp only [HObj.getPSFi, HObj.getPSFa, HObj.genPsf, attributeChanged, PyM.bind_apply, PyM.get_apply, PyM.modify_apply,
      PyM.lift_apply, genPsf_none_of hnum, PyM.pure_apply]
    exact ⟨_, _, rfl⟩
  obtain ⟨data, o', h⟩ := key
  exact ⟨o, data, o', e1, h⟩

/-- Non-vacuity of `C64_frozen`: all-zero data are reproduced after one pass, so 1 and 5 passes return the same pupil. -/
example : ∃ res₁ res₂ d₁ d₂, retrievePhase id ⟨[3, 8, 8], fun _ => 0⟩ 1 0 0 false demoDict = (.ok res₁, d₁) ∧
    retrievePhase id ⟨[3, 8, 8], fun _ => 0⟩ 5 0 0 false demoDict = (.ok res₂, d₂) ∧
    ∀ a < 8, ∀ c < 8, retrieved 8 res₂ a c = retrieved 8 res₁ a c := by
  have hun : Unwraps (id : Arr ℝ → Arr ℝ) := ⟨fun _ => rfl, fun a idx => ⟨0, by simp⟩⟩
  obtain ⟨res₁, d₁, -, -, h1, -, hz, -⟩ := C66_exhausted_differs id hun ⟨[3, 8, 8], fun _ => 0⟩ _ _ _ _ _ 3 8 _ (demoDict_setup 3) rfl
    (by norm_num) (by norm_num) (fun _ => rfl)
  obtain ⟨res₂, m, F, p, h2, -⟩ := retrieve_form id hun.shape ⟨[3, 8, 8], fun _ => 0⟩ demoDict (demoDict_setup 3) rfl (by norm_num)
    (by norm_num) 5 (by norm_num) 0 0 false
  refine ⟨res₁, res₂, d₁, _, h1, h2, ?_⟩
  refine C64_frozen id hun _ _ _ _ _ _ 3 8 _ (demoDict_setup 3) rfl (by norm_num) (by norm_num) 1 (by norm_num) 5 (by norm_num) 0 0
    (le_refl _) (le_refl _) false res₁ res₂ _ _ h1 h2 fun z _ y _ x _ => ?_
  have h0 : ∀ (S : Problem), S.N = 8 → S.amplitude (retrieved 8 res₁) z y x = 0 := by
    intro S hS
    rw [S.amplitude_congr (Q := fun _ _ => 0) (by intro a ha c hc; rw [hS] at ha hc; exact hz a ha c hc)]
    simp [Problem.amplitude, field]
  rw [h0 _ rfl]
  simp

end PyOTF
