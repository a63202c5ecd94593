import Verif.Lemmas.AberrationForm
import Verif.Props.C46_C48_Symmetry

/-!
# C49: what aberrating a model does to its point spread function
-/

open Complex PyOTF.Physics

namespace PyOTF

/-- The pupil of an aberrated model: the aperture plus the magnitude modes, times the phase factor of the phase modes. -/
noncomputable def Physics.aberrated (D : List (ℤ × ℤ)) (m ph : List ℝ) (N : ℕ) (r l : ℝ) (a b : ℕ) : ℂ :=
  (aperture N r l a b + (zernikeSum D m N r l a b : ℝ)) * exp (I * (zernikeSum D ph N r l a b : ℝ))

/-- Requirements: an ordinary model with positive wavelength and aperture and at least 2 x 2 pixels, and between 1 and
120 coefficients. -/
structure Aberrable (o : HObj) (m ph : List ℝ) (w n i r : ℚ) (N : ℕ) (zs : List ℚ) (v : VecCorr) (cd : Condition) : Prop where
  optics : Optics o.params w n i r N zs v cd
  wl : 0 < w
  na : 0 < n
  res : r ≠ 0
  pixels : 2 ≤ N
  index : (v ≠ .none ∨ cd ≠ .none) → i ≠ 0
  same : m.length = ph.length
  one : 1 ≤ m.length
  most : m.length ≤ 120

/-- C49: on every heap and for every model, `apply_aberration` returns a model with the same parameters whose
amplitude PSF is the diffraction integral of the pupil `(aperture + Σ mcoefs_k Z_k) exp(i Σ pcoefs_k Z_k)`, `Z_k` the
Zernike modes in Noll's order on the disk of radius `na / wl`. -/
theorem C49_aberrated (heap : Heap) (k : ℕ) (o : HObj) (hk : heap[k]? = some o) (mc pc : Option (List ℝ))
    (m ph : List ℝ) (hc : fillCoefs mc pc = some (m, ph)) {w n i r : ℚ} {N : ℕ} {zs : List ℚ} {v : VecCorr} {cd : Condition}
    (hA : Aberrable o m ph w n i r N zs v cd) : ∃ ref o' a D,
    (applyAberration k mc pc heap).1 = .ok ref ∧ (applyAberration k mc pc heap).2[ref]? = some o' ∧ o'.params = o.params ∧
    (HObj.getPSFa o').1 = .ok a ∧ (HObj.getPSFi o').1 = .ok (psfiOf a) ∧ NollModes D m.length ∧
    a.shape = [components v, zs.length, N, N] ∧ ∀ c iz y x, a.get [c, iz, y, x] =
      amplitude N r ((i / w : ℚ) : ℝ) v cd (aberrated D m ph N r ((n / w : ℚ) : ℝ)) ((zs.getD iz 0 : ℚ) : ℝ) c y x := by
  obtain ⟨P, D, hP, hPs, hD, hPg⟩ := aberratedPupil_form hA.optics hA.wl hA.na hA.res hA.pixels m ph hA.same hA.one hA.most
  obtain ⟨u, hu, hu'⟩ := hA.optics.size
  have hf : (⟨o.params, some P⟩ : HSpec).Fits := by
    intro P' v' h1 h2
    cases h1
    simp only at h2
    rw [hu] at h2; cases h2
    rw [hPs, hu']
  obtain ⟨a, ha⟩ := (C76_computable ⟨o.params, some P⟩ hf hA.optics).mpr
    ⟨hA.wl.ne', hA.res, by have := hA.pixels; omega, hA.index⟩
  obtain ⟨has, hag⟩ := C76_diffraction_integral ⟨o.params, some P⟩ hf hA.optics a ha
  have hab : aberratedPSFa o.params m ph = .ok a := by
    rw [aberratedPSFa, hP]; exact ha
  have := C38_depends_on_params_only heap k o hk mc pc m ph hc
  rw [hab] at this
  obtain ⟨ref, o', h1, h2, h3, h4, h5⟩ := this
  refine ⟨ref, o', a, D, h1, h2, h3, by rw [h4], h5, hD, has, fun c iz y x => ?_⟩
  rw [hag]
  congr 1
  funext x y
  exact hPg x y

theorem amplitude_congr {N : ℕ} {r k : ℝ} {v : VecCorr} {cd : Condition} {P Q : ℕ → ℕ → ℂ}
    (h : ∀ a < N, ∀ b < N, P a b = Q a b) (z : ℝ) (c y x : ℕ) :
    amplitude N r k v cd P z c y x = amplitude N r k v cd Q z c y x := by
  rw [amplitude, amplitude]
  exact field_congr (fun a ha b hb => by rw [h a ha b hb]) y x

theorem zernikeSum_zero (D : List (ℤ × ℤ)) (c : List ℝ) (hc : ∀ k < c.length, c.getD k 0 = 0) (N : ℕ) (r l : ℝ) (a b : ℕ) :
    zernikeSum D c N r l a b = 0 :=
  Finset.sum_eq_zero fun k hk => by rw [hc k (Finset.mem_range.mp hk), zero_mul]

/-- C49: with coefficients that are all zero the amplitude PSF is the one of the ideal pupil. -/
theorem C49_zero (heap : Heap) (k : ℕ) (o : HObj) (hk : heap[k]? = some o) (mc pc : Option (List ℝ))
    (m ph : List ℝ) (hc : fillCoefs mc pc = some (m, ph)) {w n i r : ℚ} {N : ℕ} {zs : List ℚ} {v : VecCorr} {cd : Condition}
    (hA : Aberrable o m ph w n i r N zs v cd) (hm : ∀ j < m.length, m.getD j 0 = 0) (hph : ∀ j < ph.length, ph.getD j 0 = 0) :
    ∃ ref o' a a0, (applyAberration k mc pc heap).1 = .ok ref ∧ (applyAberration k mc pc heap).2[ref]? = some o' ∧
    (HObj.getPSFa o').1 = .ok a ∧ (⟨o.params, none⟩ : HSpec).PSFa = .ok a0 ∧ a.shape = a0.shape ∧
    ∀ c iz y x, a.get [c, iz, y, x] = a0.get [c, iz, y, x] := by
  obtain ⟨ref, o', a, D, h1, h2, h3, h4, h5, h6, h7, h8⟩ := C49_aberrated heap k o hk mc pc m ph hc hA
  have hf : (⟨o.params, none⟩ : HSpec).Fits := by intro P' v' h; cases h
  obtain ⟨a0, ha0⟩ := (C76_computable ⟨o.params, none⟩ hf hA.optics).mpr
    ⟨hA.wl.ne', hA.res, by have := hA.pixels; omega, hA.index⟩
  obtain ⟨hs0, hg0⟩ := C76_diffraction_integral ⟨o.params, none⟩ hf hA.optics a0 ha0
  refine ⟨ref, o', a, a0, h1, h2, h4, ha0, by rw [h7, hs0], fun c iz y x => ?_⟩
  rw [h8, hg0]
  refine amplitude_congr (fun x _ y _ => ?_) _ _ _ _
  simp [aberrated, zernikeSum_zero D m hm, zernikeSum_zero D ph hph, HSpec.pupilFn]

/-- With phase coefficients only, the pupil has the magnitude of the aperture. -/
theorem aberrated_norm (D : List (ℤ × ℤ)) (m ph : List ℝ) (hm : ∀ j < m.length, m.getD j 0 = 0) (N : ℕ) (r l : ℝ) (a b : ℕ) :
    ‖aberrated D m ph N r l a b‖ = ‖aperture N r l a b‖ := by
  rw [aberrated, zernikeSum_zero D m hm, ofReal_zero, add_zero, norm_mul, mul_comm I, norm_exp_ofReal_mul_I, mul_one]

/-- C49: phase coefficients only: every plane carries exactly the energy it has without aberration. -/
theorem C49_phase_conserves_energy (heap : Heap) (k : ℕ) (o : HObj) (hk : heap[k]? = some o) (mc pc : Option (List ℝ))
    (m ph : List ℝ) (hc : fillCoefs mc pc = some (m, ph)) {w n i r : ℚ} {N : ℕ} {zs : List ℚ} {v : VecCorr} {cd : Condition}
    (hA : Aberrable o m ph w n i r N zs v cd) (hm : ∀ j < m.length, m.getD j 0 = 0) :
    ∃ ref o' b b0, (applyAberration k mc pc heap).1 = .ok ref ∧ (applyAberration k mc pc heap).2[ref]? = some o' ∧
    (HObj.getPSFi o').1 = .ok b ∧ (⟨o.params, none⟩ : HSpec).PSFi = .ok b0 ∧ b.shape = b0.shape ∧
    ∀ iz, planeEnergy b N iz = planeEnergy b0 N iz := by
  obtain ⟨ref, o', a, D, h1, h2, h3, h4, h5, h6, h7, h8⟩ := C49_aberrated heap k o hk mc pc m ph hc hA
  have hf : (⟨o.params, none⟩ : HSpec).Fits := by intro P' v' h; cases h
  have hN : 0 < N := by have := hA.pixels; omega
  obtain ⟨a0, ha0⟩ := (C76_computable ⟨o.params, none⟩ hf hA.optics).mpr ⟨hA.wl.ne', hA.res, hN, hA.index⟩
  obtain ⟨hs0, hg0⟩ := C76_diffraction_integral ⟨o.params, none⟩ hf hA.optics a0 ha0
  refine ⟨ref, o', _, _, h1, h2, h5, PSFi_of ha0, ?_, fun iz => ?_⟩
  · rw [psfiOf_shape a _ _ _ _ h7, psfiOf_shape a0 _ _ _ _ hs0]
  have e : ∀ (a : Arr ℂ) (P : ℕ → ℕ → ℂ), a.shape = [components v, zs.length, N, N] →
      (∀ c iz y x, a.get [c, iz, y, x] = amplitude N r ((i / w : ℚ) : ℝ) v cd P ((zs.getD iz 0 : ℚ) : ℝ) c y x) →
      planeEnergy (psfiOf a) N iz = ∑ c ∈ Finset.range (components v), (∑ p ∈ Finset.range N, ∑ q ∈ Finset.range N,
        ‖P p q‖ ^ 2 * weight N r ((i / w : ℚ) : ℝ) v cd c p q ^ 2) / (N * N) := by
    intro a P hs hg
    simp only [planeEnergy, psfiOf_get a _ _ _ _ hs, hg]
    have : ∀ y, ∑ x ∈ Finset.range N, ∑ c ∈ Finset.range (components v),
        ‖amplitude N r ((i / w : ℚ) : ℝ) v cd P ((zs.getD iz 0 : ℚ) : ℝ) c y x‖ ^ 2 =
        ∑ c ∈ Finset.range (components v), ∑ x ∈ Finset.range N,
        ‖amplitude N r ((i / w : ℚ) : ℝ) v cd P ((zs.getD iz 0 : ℚ) : ℝ) c y x‖ ^ 2 := fun y => Finset.sum_comm
    simp only [this]
    rw [Finset.sum_comm]
    refine Finset.sum_congr rfl fun c _ => ?_
    simp only [amplitude]
    rw [field_parseval N N hN hN]
    congr 1
    refine Finset.sum_congr rfl fun p _ => Finset.sum_congr rfl fun q _ => ?_
    have h1 : (2 * Real.pi * axial N r ((i / w : ℚ) : ℝ) p q * ((zs.getD iz 0 : ℚ) : ℝ) * I : ℂ) =
      ((2 * Real.pi * axial N r ((i / w : ℚ) : ℝ) p q * ((zs.getD iz 0 : ℚ) : ℝ) : ℝ) : ℂ) * I := by push_cast; ring
    rw [norm_mul, norm_mul, h1, norm_exp_ofReal_mul_I, mul_one, norm_real, mul_pow, Real.norm_eq_abs, sq_abs]
  rw [e a _ h7 h8, e a0 _ hs0 hg0]
  simp only [aberrated_norm D m ph hm]
  rfl

/-- C49: a phase aberration never brightens the image: scalar theory, at every plane and pixel the intensity is at most
the intensity of the unaberrated model at the centre of the focal plane. -/
theorem C49_strehl (heap : Heap) (k : ℕ) (o : HObj) (hk : heap[k]? = some o) (mc pc : Option (List ℝ))
    (m ph : List ℝ) (hc : fillCoefs mc pc = some (m, ph)) {w n i r : ℚ} {N : ℕ} {zs : List ℚ} {cd : Condition}
    (hA : Aberrable o m ph w n i r N zs .none cd) (hm : ∀ j < m.length, m.getD j 0 = 0)
    (iz0 : ℕ) (hz : zs.getD iz0 0 = 0) :
    ∃ ref o' b b0, (applyAberration k mc pc heap).1 = .ok ref ∧ (applyAberration k mc pc heap).2[ref]? = some o' ∧
    (HObj.getPSFi o').1 = .ok b ∧ (⟨o.params, none⟩ : HSpec).PSFi = .ok b0 ∧
    ∀ iz y x, b.get [iz, y, x] ≤ b0.get [iz0, N / 2, N / 2] := by
  obtain ⟨ref, o', a, D, h1, h2, h3, h4, h5, h6, h7, h8⟩ := C49_aberrated heap k o hk mc pc m ph hc hA
  have hf : (⟨o.params, none⟩ : HSpec).Fits := by intro P' v' h; cases h
  have hN : 0 < N := by have := hA.pixels; omega
  obtain ⟨a0, ha0⟩ := (C76_computable ⟨o.params, none⟩ hf hA.optics).mpr ⟨hA.wl.ne', hA.res, hN, hA.index⟩
  obtain ⟨hs0, hg0⟩ := C76_diffraction_integral ⟨o.params, none⟩ hf hA.optics a0 ha0
  refine ⟨ref, o', _, _, h1, h2, h5, PSFi_of ha0, fun iz y x => ?_⟩
  rw [psfiOf_get a _ _ _ _ h7, psfiOf_get a0 _ _ _ _ hs0]
  simp only [components, Finset.sum_range_succ, Finset.sum_range_zero, zero_add, h8, hg0, hz]
  refine pow_le_pow_left₀ (norm_nonneg _) ((amplitude_le N r _ cd _ _ y x).trans (le_of_eq ?_)) 2
  congr 1
  rw [Rat.cast_zero]
  refine amplitude_congr (fun x _ y _ => ?_) _ _ _ _
  rw [aberrated_norm D m ph hm]
  simp only [HSpec.pupilFn, aperture]
  split_ifs <;> simp

theorem nollStd_one {n m : ℤ} (h : Admissible n m) (h1 : nollStd n m = 1) : n = 0 ∧ m = 0 := by
  have h0 := (abs_nonneg m).trans h.1
  have hm := abs_nonneg m
  unfold nollStd at h1
  have hn : n < 2 := by
    by_contra hc
    have : 6 ≤ n * (n + 1) := by nlinarith
    split_ifs at h1 <;> omega
  have : n = 0 ∨ n = 1 := by omega
  rcases this with rfl | rfl
  · exact ⟨rfl, abs_eq_zero.mp (le_antisymm h.1 hm)⟩
  · have h2 := h.2
    have h3 := h.1
    exfalso
    have hm0 : |m| ≤ 0 := by split_ifs at h1 <;> omega
    have : m = 0 := abs_nonpos_iff.mp hm0
    omega

theorem zernikeMode_piston (ρ φ : ℝ) (h : ρ ≤ 1) : zernikeMode (0, 0) ρ φ = 1 := by
  simp [zernikeMode, h, radialTextbook]

/-- C49: piston (a first phase coefficient only) multiplies the amplitude by a phase factor, so the intensity PSF is
that of the model without aberration. -/
theorem C49_piston (heap : Heap) (k : ℕ) (o : HObj) (hk : heap[k]? = some o) (mc pc : Option (List ℝ))
    (m ph : List ℝ) (hc : fillCoefs mc pc = some (m, ph)) {w n i r : ℚ} {N : ℕ} {zs : List ℚ} {v : VecCorr} {cd : Condition}
    (hA : Aberrable o m ph w n i r N zs v cd) (hm : ∀ j < m.length, m.getD j 0 = 0)
    (hph : ∀ j < ph.length, j ≠ 0 → ph.getD j 0 = 0) :
    ∃ ref o' a a0 b b0, (applyAberration k mc pc heap).1 = .ok ref ∧ (applyAberration k mc pc heap).2[ref]? = some o' ∧
    (HObj.getPSFa o').1 = .ok a ∧ (⟨o.params, none⟩ : HSpec).PSFa = .ok a0 ∧
    (HObj.getPSFi o').1 = .ok b ∧ (⟨o.params, none⟩ : HSpec).PSFi = .ok b0 ∧ b.shape = b0.shape ∧
    (∀ c iz y x, a.get [c, iz, y, x] = exp (I * (ph.getD 0 0 : ℝ)) * a0.get [c, iz, y, x]) ∧
    ∀ iz y x, b.get [iz, y, x] = b0.get [iz, y, x] := by
  obtain ⟨ref, o', a, D, h1, h2, h3, h4, h5, h6, h7, h8⟩ := C49_aberrated heap k o hk mc pc m ph hc hA
  have hf : (⟨o.params, none⟩ : HSpec).Fits := by intro P' v' h; cases h
  have hN : 0 < N := by have := hA.pixels; omega
  obtain ⟨a0, ha0⟩ := (C76_computable ⟨o.params, none⟩ hf hA.optics).mpr ⟨hA.wl.ne', hA.res, hN, hA.index⟩
  obtain ⟨hs0, hg0⟩ := C76_diffraction_integral ⟨o.params, none⟩ hf hA.optics a0 ha0
  have hL := hA.one
  have hL' := hA.same
  have hD0 : D.getD 0 (0, 0) = (0, 0) := by
    obtain ⟨e1, e2⟩ := nollStd_one (h6.admissible 0 (by omega)) (by have := h6.noll 0 (by omega); simpa using this)
    exact Prod.ext e1 e2
  have key : ∀ c iz y x, a.get [c, iz, y, x] = exp (I * (ph.getD 0 0 : ℝ)) * a0.get [c, iz, y, x] := by
    intro c iz y x
    rw [h8, hg0, amplitude, amplitude, ← field_mul]
    refine field_congr (fun p _ q _ => ?_) _ _
    rw [aberrated, zernikeSum_zero D m hm, ofReal_zero, add_zero]
    simp only [HSpec.pupilFn, aperture]
    split_ifs with hin
    · have hl : 0 < ((n / w : ℚ) : ℝ) := lt_of_le_of_lt (radial_nonneg N r p q) hin
      have : zernikeSum D ph N r ((n / w : ℚ) : ℝ) p q = ph.getD 0 0 := by
        rw [zernikeSum, Finset.sum_eq_single 0]
        · rw [hD0, zernikeMode_piston _ _ ((div_le_one hl).mpr hin.le), mul_one]
        · intro j hj hj0
          rw [hph j (Finset.mem_range.mp hj) hj0, zero_mul]
        · intro hh
          exact absurd (Finset.mem_range.mpr (by omega)) hh
      rw [this]; ring
    · ring
  refine ⟨ref, o', a, a0, _, _, h1, h2, h4, ha0, h5, PSFi_of ha0, ?_, key, fun iz y x => ?_⟩
  · rw [psfiOf_shape a _ _ _ _ h7, psfiOf_shape a0 _ _ _ _ hs0]
  · rw [psfiOf_get a _ _ _ _ h7, psfiOf_get a0 _ _ _ _ hs0]
    refine Finset.sum_congr rfl fun c _ => ?_
    rw [key, norm_mul, mul_comm I, norm_exp_ofReal_mul_I, one_mul]

/-- Non-vacuity of C49: defocus applied to the demo model. -/
theorem demo_aberrable : ∃ o : HObj, HObj.new demoArgs none = .ok o ∧
    fillCoefs none (some [0, 0, 0, 1]) = some ([0, 0, 0, 0], [0, 0, 0, 1]) ∧
    Aberrable o [0, 0, 0, 0] [0, 0, 0, 1] 520 (17/20) 1 130 64 ((List.range 64).map (plane 64 130)) .none .sine := by
  obtain ⟨o, a, ho, hf, h3, ha⟩ := demo_optics
  exact ⟨o, ho, by simp [fillCoefs], ⟨h3, by norm_num, by norm_num, by norm_num, by norm_num, by norm_num, by simp, by simp, by simp⟩⟩

/-- C49: more than 120 coefficients are rejected. -/
theorem C49_too_many_coefficients (heap : Heap) (k : ℕ) (o : HObj) (hk : heap[k]? = some o) (ph : List ℝ) {w n i r : ℚ} {N : ℕ} {zs : List ℚ}
    {v : VecCorr} {cd : Condition} (ho : Optics o.params w n i r N zs v cd) (hw : 0 < w) (hn : 0 < n) (hr : r ≠ 0)
    (hN : 0 < N) (hL : 120 < ph.length) :
    (applyAberration k none (some ph) heap).1 = .error .indexError := by
  obtain ⟨u1, a1, b1⟩ := ho.wl
  obtain ⟨u2, a2, b2⟩ := ho.na
  obtain ⟨u3, a3, b3⟩ := ho.ni
  obtain ⟨u4, a4, b4⟩ := ho.res
  obtain ⟨u5, a5, b5⟩ := ho.size
  have hgen : hanserGenKr o.params = .ok (N, .fin r, .fin (i / w), .fin (n / w)) := by
    have hNr : (N : ℚ) * r ≠ 0 := mul_ne_zero (by exact_mod_cast hN.ne') hr
    simp only [hanserGenKr, a1, a2, a3, a4, a5, b5, attr, pyNum, b1, b2, b3, b4, bind, Except.bind, PyFloat.mul,
      PyFloat.div, hNr, hw.ne', if_false, pure, Except.pure]
  have hfin : finReals [PyFloat.fin r, .fin (i / w), .fin w, .fin n] = .ok [(r : ℝ), ((i / w : ℚ) : ℝ), (w : ℝ), (n : ℝ)] :=
    finReals_fin [r, i / w, w, n]
  have hz : ∀ ra ta : Arr ℝ, zernike ra ta [⟨[ph.length], fun i => (i.getD 0 0 : ℤ) + 1⟩] = .error .indexError := by
    intro ra ta
    unfold zernike
    have : zernikeDegrees [⟨[ph.length], fun i => (i.getD 0 0 : ℤ) + 1⟩] = .error .indexError := by
      simp only [zernikeDegrees, ravel_range]
      refine C24_noll_above_120 _ ?_ ⟨121, ?_, by norm_num⟩
      · intro j hj
        simp only [List.mem_map] at hj
        obtain ⟨a, ⟨b, -, rfl⟩, rfl⟩ := hj
        push_cast; omega
      · simp only [List.mem_map, List.mem_range]
        exact ⟨121, ⟨120, hL, rfl⟩, rfl⟩
    rw [this]; rfl
  have : aberratedPupil o.params (ph.map fun _ => 0) ph = .error .indexError := by
    unfold aberratedPupil
    rw [if_neg (by simp)]
    simp only [hgen, bind, Except.bind, a1, a2, attr, pyNum, b1, b2, hfin, pure, Except.pure]
    rw [if_neg (by intro h; injection h with h; exact hn.ne' h)]
    simp only [List.length_map, hz]
  rw [applyAberration_run heap k o hk]
  simp only [fillCoefs, this]

end PyOTF
