import Verif.Spec.Wave
import Verif.Props.C44_C45_Otfi
import Verif.Props.C46_C48_Symmetry
import Mathlib.Analysis.SpecialFunctions.ExpDeriv

/-!
# C122: the computed PSF samples a solution of the wave equation
-/

namespace PyOTF

open Physics Complex

theorem exp_of_dvd {N : ℕ} (hN : 0 < N) {a b : ℤ} (m : ℤ) (h : (N : ℤ) ∣ a - b) :
    exp (2 * Real.pi * I * ((m * a / N : ℝ) : ℂ)) = exp (2 * Real.pi * I * ((m * b / N : ℝ) : ℂ)) := by
  obtain ⟨u, hu⟩ := h
  rw [Complex.exp_eq_exp_iff_exists_int]
  refine ⟨m * u, ?_⟩
  have hN' : (N : ℂ) ≠ 0 := by exact_mod_cast hN.ne'
  have ha : (a : ℂ) = b + N * u := by exact_mod_cast (by omega : a = b + N * u)
  push_cast
  rw [ha]
  field_simp

/-- The amplitude of a pixel is the field at its position. -/
theorem amplitude_eq_wave (N : ℕ) (r k : ℝ) (hr : r ≠ 0) (hN : 0 < N) (v : VecCorr) (cd : Condition) (P : ℕ → ℕ → ℂ) (z : ℝ) (c y x : ℕ) :
    amplitude N r k v cd P z c y x = waveField N r k v cd P c z (offset N r y) (offset N r x) := by
  have hN' : (N : ℝ) ≠ 0 := by exact_mod_cast hN.ne'
  unfold amplitude field waveField
  congr 1
  refine Finset.sum_congr rfl fun i _ => Finset.sum_congr rfl fun j _ => ?_
  have ph : ∀ (t : ℕ) (y : ℕ), exp (2 * Real.pi * I * (((y : ℂ) - (N / 2 : ℕ)) * t / N)) = exp (2 * Real.pi * I * ((freq N r t * offset N r y : ℝ) : ℂ)) := by
    intro t y
    have e1 : (((y : ℂ) - (N / 2 : ℕ)) * t / N) = (((((y : ℤ) - (N / 2 : ℕ) : ℤ) : ℝ) * ((t : ℤ) : ℝ) / N : ℝ) : ℂ) := by
      generalize N / 2 = h; push_cast; rfl
    have e2 : freq N r t * offset N r y = ((((y : ℤ) - (N / 2 : ℕ) : ℤ) : ℝ) * ((fnum N t : ℤ) : ℝ) / N : ℝ) := by
      rw [freq_fnum, offset]
      generalize N / 2 = h
      push_cast; field_simp
    rw [e1, e2]
    exact exp_of_dvd hN _ (fnum_dvd N t)
  have e3 : ((axial N r k i j * z + freq N r i * offset N r y + freq N r j * offset N r x : ℝ) : ℂ) =
      ((axial N r k i j * z : ℝ) : ℂ) + ((freq N r i * offset N r y : ℝ) : ℂ) + ((freq N r j * offset N r x : ℝ) : ℂ) := by push_cast; ring
  rw [e3, mul_add, mul_add, mul_add, Complex.exp_add, Complex.exp_add, Complex.exp_add, ph, ph]
  have e4 : 2 * (Real.pi : ℂ) * axial N r k i j * z * I = 2 * Real.pi * I * ((axial N r k i j * z : ℝ) : ℂ) := by push_cast; ring
  beta_reduce
  rw [e4]
  ring

theorem hasDerivAt_wave (A : ℂ) (a b : ℝ) (t : ℝ) : HasDerivAt (fun t : ℝ => A * exp (2 * Real.pi * I * ((a * t + b : ℝ) : ℂ)))
    (A * (2 * Real.pi * I * a) * exp (2 * Real.pi * I * ((a * t + b : ℝ) : ℂ))) t := by
  have h1 : HasDerivAt (fun t : ℝ => ((a * t + b : ℝ) : ℂ)) (a : ℂ) t := by
    have : HasDerivAt (fun t : ℝ => a * t + b) a t := by
      simpa using ((hasDerivAt_id t).const_mul a).add_const b
    exact this.ofReal_comp
  have h2 := ((h1.const_mul (2 * (Real.pi : ℂ) * I)).cexp).const_mul A
  have e : A * (2 * Real.pi * I * a) * exp (2 * Real.pi * I * ((a * t + b : ℝ) : ℂ)) =
      A * (exp (2 * Real.pi * I * ((a * t + b : ℝ) : ℂ)) * (2 * Real.pi * I * a)) := by ring
  rw [e]; exact h2

/-- Derivatives of a finite sum of waves. -/
theorem deriv_waves {ι : Type} (s : Finset ι) (A : ι → ℂ) (a b : ι → ℝ) (D : ℂ) :
    deriv (fun t : ℝ => (∑ u ∈ s, A u * exp (2 * Real.pi * I * ((a u * t + b u : ℝ) : ℂ))) / D) =
      fun t : ℝ => (∑ u ∈ s, A u * (2 * Real.pi * I * a u) * exp (2 * Real.pi * I * ((a u * t + b u : ℝ) : ℂ))) / D := by
  funext t
  refine HasDerivAt.deriv ?_
  refine HasDerivAt.div_const ?_ D
  exact HasDerivAt.fun_sum fun u _ => hasDerivAt_wave (A u) (a u) (b u) t

theorem waveField_eq (N : ℕ) (r k : ℝ) (v : VecCorr) (cd : Condition) (P : ℕ → ℕ → ℂ) (c : ℕ) (z Y X : ℝ) :
    waveField N r k v cd P c z Y X = (∑ u ∈ Finset.range N ×ˢ Finset.range N, P u.1 u.2 * (weight N r k v cd c u.1 u.2 : ℝ) *
    exp (2 * Real.pi * I * ((axial N r k u.1 u.2 * z + freq N r u.1 * Y + freq N r u.2 * X : ℝ) : ℂ))) / (N * N) := by
  rw [waveField, Finset.sum_product]

section
variable (N : ℕ) (r k : ℝ) (v : VecCorr) (cd : Condition) (P : ℕ → ℕ → ℂ) (c : ℕ)

/-- A wave. -/
private noncomputable def wv (u : ℕ × ℕ) (z Y X : ℝ) : ℂ :=
  exp (2 * Real.pi * I * ((axial N r k u.1 u.2 * z + freq N r u.1 * Y + freq N r u.2 * X : ℝ) : ℂ))

theorem deriv_z (Y X : ℝ) (B : ℕ × ℕ → ℂ) : deriv (fun t => (∑ u ∈ Finset.range N ×ˢ Finset.range N, B u * wv N r k u t Y X) / (N * N)) =
    fun t => (∑ u ∈ Finset.range N ×ˢ Finset.range N, B u * (2 * Real.pi * I * axial N r k u.1 u.2) * wv N r k u t Y X) / (N * N) := by
  have := deriv_waves (Finset.range N ×ˢ Finset.range N) B (fun u => axial N r k u.1 u.2) (fun u => freq N r u.1 * Y + freq N r u.2 * X) (N * N)
  simp only [← add_assoc] at this
  exact this

theorem deriv_y (z X : ℝ) (B : ℕ × ℕ → ℂ) : deriv (fun t => (∑ u ∈ Finset.range N ×ˢ Finset.range N, B u * wv N r k u z t X) / (N * N)) =
    fun t => (∑ u ∈ Finset.range N ×ˢ Finset.range N, B u * (2 * Real.pi * I * freq N r u.1) * wv N r k u z t X) / (N * N) := by
  have := deriv_waves (Finset.range N ×ˢ Finset.range N) B (fun u => freq N r u.1) (fun u => axial N r k u.1 u.2 * z + freq N r u.2 * X) (N * N)
  have e : ∀ (u : ℕ × ℕ) t, freq N r u.1 * t + (axial N r k u.1 u.2 * z + freq N r u.2 * X) = axial N r k u.1 u.2 * z + freq N r u.1 * t + freq N r u.2 * X :=
    fun u t => by ring
  simp only [e] at this
  exact this

theorem deriv_x (z Y : ℝ) (B : ℕ × ℕ → ℂ) : deriv (fun t => (∑ u ∈ Finset.range N ×ˢ Finset.range N, B u * wv N r k u z Y t) / (N * N)) =
    fun t => (∑ u ∈ Finset.range N ×ˢ Finset.range N, B u * (2 * Real.pi * I * freq N r u.2) * wv N r k u z Y t) / (N * N) := by
  have := deriv_waves (Finset.range N ×ˢ Finset.range N) B (fun u => freq N r u.2) (fun u => axial N r k u.1 u.2 * z + freq N r u.1 * Y) (N * N)
  have e : ∀ (u : ℕ × ℕ) t, freq N r u.2 * t + (axial N r k u.1 u.2 * z + freq N r u.1 * Y) = axial N r k u.1 u.2 * z + freq N r u.1 * Y + freq N r u.2 * t :=
    fun u t => by ring
  simp only [e] at this
  exact this

theorem waveField_fun (N : ℕ) (r k : ℝ) (v : VecCorr) (cd : Condition) (P : ℕ → ℕ → ℂ) (c : ℕ) : waveField N r k v cd P c = fun z Y X =>
    (∑ u ∈ Finset.range N ×ˢ Finset.range N, P u.1 u.2 * (weight N r k v cd c u.1 u.2 : ℝ) * wv N r k u z Y X) / (N * N) := by
  funext z Y X; rw [waveField_eq]; rfl

theorem waveField_helmholtz (hP : ∀ i < N, ∀ j < N, P i j ≠ 0 → radial N r i j ≤ k) : Helmholtz (waveField N r k v cd P c) k := by
  intro z Y X
  rw [waveField_fun]
  simp only [deriv_z, deriv_y, deriv_x]
  rw [← add_div, ← add_div, ← Finset.sum_add_distrib, ← Finset.sum_add_distrib, mul_div_assoc', Finset.mul_sum]
  congr 1
  refine Finset.sum_congr rfl fun u hu => ?_
  obtain ⟨h1, h2⟩ := Finset.mem_product.mp hu
  by_cases h0 : P u.1 u.2 = 0
  · simp [h0]
  have hr := hP _ (Finset.mem_range.mp h1) _ (Finset.mem_range.mp h2) h0
  have hrad : 0 ≤ radial N r u.1 u.2 := Real.sqrt_nonneg _
  have hk : axial N r k u.1 u.2 ^ 2 + freq N r u.1 ^ 2 + freq N r u.2 ^ 2 = k ^ 2 := by
    have e2 : radial N r u.1 u.2 ^ 2 = freq N r u.1 ^ 2 + freq N r u.2 ^ 2 := Real.sq_sqrt (by positivity)
    rw [axial, max_eq_right (by nlinarith), Real.sq_sqrt (by nlinarith)]
    linarith
  have hk' : (axial N r k u.1 u.2 : ℂ) ^ 2 + (freq N r u.1 : ℂ) ^ 2 + (freq N r u.2 : ℂ) ^ 2 = (k : ℂ) ^ 2 := by exact_mod_cast hk
  push_cast
  linear_combination (P u.1 u.2 * weight N r k v cd c u.1 u.2 * wv N r k u z Y X * (2 * Real.pi) ^ 2 * I ^ 2) * hk' +
    (P u.1 u.2 * weight N r k v cd c u.1 u.2 * wv N r k u z Y X * (2 * Real.pi * k) ^ 2) * Complex.I_sq

theorem waveField_gauss (hk : 0 < k) (hP : ∀ i < N, ∀ j < N, P i j ≠ 0 → radial N r i j < k) :
    DivergenceFree (fun z Y X => -waveField N r k .total cd P 0 z Y X) (waveField N r k .total cd P 2) (waveField N r k .total cd P 4) ∧
    DivergenceFree (fun z Y X => -waveField N r k .total cd P 1 z Y X) (waveField N r k .total cd P 3) (waveField N r k .total cd P 5) := by
  have key : ∀ c0 c2 c4 : ℕ, (∀ u ∈ Finset.range N ×ˢ Finset.range N, P u.1 u.2 ≠ 0 →
      -(axial N r k u.1 u.2 * weight N r k .total cd c0 u.1 u.2) + freq N r u.1 * weight N r k .total cd c2 u.1 u.2 +
        freq N r u.2 * weight N r k .total cd c4 u.1 u.2 = 0) →
      DivergenceFree (fun z Y X => -waveField N r k .total cd P c0 z Y X) (waveField N r k .total cd P c2) (waveField N r k .total cd P c4) := by
    intro c0 c2 c4 h z Y X
    rw [deriv.fun_neg, waveField_fun, waveField_fun, waveField_fun]
    simp only [deriv_z, deriv_y, deriv_x]
    rw [← neg_div, ← add_div, ← add_div, ← Finset.sum_neg_distrib, ← Finset.sum_add_distrib, ← Finset.sum_add_distrib]
    rw [Finset.sum_eq_zero, zero_div]
    intro u hu
    by_cases h0 : P u.1 u.2 = 0
    · simp [h0]
    have h1 := h u hu h0
    have h1' : -((axial N r k u.1 u.2 : ℂ) * weight N r k .total cd c0 u.1 u.2) + (freq N r u.1 : ℂ) * weight N r k .total cd c2 u.1 u.2 +
        (freq N r u.2 : ℂ) * weight N r k .total cd c4 u.1 u.2 = 0 := by exact_mod_cast h1
    linear_combination (P u.1 u.2 * (2 * Real.pi * I) * wv N r k u z Y X) * h1'
  have geo : ∀ u ∈ Finset.range N ×ˢ Finset.range N, P u.1 u.2 ≠ 0 →
      axial N r k u.1 u.2 = k * cosTheta N r k u.1 u.2 ∧ freq N r u.1 = k * sinTheta N r k u.1 u.2 * sinPhi N r u.1 u.2 ∧
      freq N r u.2 = k * sinTheta N r k u.1 u.2 * cosPhi N r u.1 u.2 ∧ sinPhi N r u.1 u.2 ^ 2 + cosPhi N r u.1 u.2 ^ 2 = 1 := by
    intro u hu h0
    obtain ⟨h1, h2⟩ := Finset.mem_product.mp hu
    have hr := hP _ (Finset.mem_range.mp h1) _ (Finset.mem_range.mp h2) h0
    have hrad : 0 ≤ radial N r u.1 u.2 := Real.sqrt_nonneg _
    have e2 : radial N r u.1 u.2 ^ 2 = freq N r u.1 ^ 2 + freq N r u.2 ^ 2 := Real.sq_sqrt (by positivity)
    have es : sinTheta N r k u.1 u.2 = radial N r u.1 u.2 / k := by rw [sinTheta, if_pos hr]
    have hk0 := hk.ne'
    refine ⟨?_, ?_⟩
    · rw [cosTheta, es, axial, max_eq_right (by nlinarith)]
      have : k ^ 2 - radial N r u.1 u.2 ^ 2 = k ^ 2 * (1 - (radial N r u.1 u.2 / k) ^ 2) := by field_simp
      rw [this, Real.sqrt_mul (sq_nonneg k), Real.sqrt_sq hk.le]
    · by_cases hz : radial N r u.1 u.2 = 0
      · rw [hz] at e2
        have f1 : freq N r u.1 = 0 := by nlinarith [sq_nonneg (freq N r u.1), sq_nonneg (freq N r u.2)]
        have f2 : freq N r u.2 = 0 := by nlinarith [sq_nonneg (freq N r u.1), sq_nonneg (freq N r u.2)]
        simp [es, hz, f1, f2, sinPhi, cosPhi]
      · rw [es, sinPhi, cosPhi, if_neg hz, if_neg hz]
        refine ⟨by field_simp, by field_simp, ?_⟩
        rw [div_pow, div_pow, ← add_div, ← e2, div_self (pow_ne_zero 2 hz)]
  constructor
  · refine key 0 2 4 fun u hu h0 => ?_
    obtain ⟨g1, g2, g3, g4⟩ := geo u hu h0
    simp only [weight, polarization, List.getD_cons_zero, List.getD_cons_succ]
    rw [g1, g2, g3]
    linear_combination (apodization cd (cosTheta N r k u.1 u.2) * k * sinTheta N r k u.1 u.2 * cosPhi N r u.1 u.2 * cosTheta N r k u.1 u.2) * g4
  · refine key 1 3 5 fun u hu h0 => ?_
    obtain ⟨g1, g2, g3, g4⟩ := geo u hu h0
    simp only [weight, polarization, List.getD_cons_zero, List.getD_cons_succ]
    rw [g1, g2, g3]
    linear_combination (apodization cd (cosTheta N r k u.1 u.2) * k * sinTheta N r k u.1 u.2 * sinPhi N r u.1 u.2 * cosTheta N r k u.1 u.2) * g4

end

/-- C122: `PSFa` holds the values at the pixels of the field `waveField`. -/
theorem C122_samples (s : HSpec) (hf : s.Fits) {w n i r : ℚ} {N : ℕ} {zs : List ℚ} {v : VecCorr} {cd : Condition}
    (ho : Optics s.params w n i r N zs v cd) (a : Arr ℂ) (ha : s.PSFa = .ok a) (c iz y x : ℕ) :
    a.get [c, iz, y, x] = waveField N r ((i / w : ℚ) : ℝ) v cd (s.pupilFn N r ((n / w : ℚ) : ℝ)) c ((zs.getD iz 0 : ℚ) : ℝ) (offset N r y) (offset N r x) := by
  obtain ⟨-, h2, h3, -⟩ := (C76_computable s hf ho).mp ⟨a, ha⟩
  rw [(C76_diffraction_integral s hf ho a ha).2, amplitude_eq_wave _ _ _ (by exact_mod_cast h2) h3]

/-- C122: every component of this field solves the wave equation of light of wavelength `wl` in a medium of index `ni`, if the pupil in force transmits
no evanescent waves. -/
theorem C122_helmholtz (s : HSpec) {w n i r : ℚ} {N : ℕ} (v : VecCorr) (cd : Condition)
    (hmask : ∀ a < N, ∀ c < N, s.pupilFn N r ((n / w : ℚ) : ℝ) a c ≠ 0 → radial N r a c < ((i / w : ℚ) : ℝ)) (c : ℕ) :
    Helmholtz (waveField N r ((i / w : ℚ) : ℝ) v cd (s.pupilFn N r ((n / w : ℚ) : ℝ)) c) ((i / w : ℚ) : ℝ) :=
  waveField_helmholtz _ _ _ _ _ _ _ fun a ha b hb h => (hmask a ha b hb h).le

/-- C122: the six components of `vec_corr = "total"` are two transverse vector fields (components z, y, x in this order, light polarised along x and along y),
the z axis pointing against the direction in which the heights are counted. -/
theorem C122_gauss (s : HSpec) {w n i r : ℚ} {N : ℕ} (cd : Condition) (hw : 0 < w) (hi : 0 < i)
    (hmask : ∀ a < N, ∀ c < N, s.pupilFn N r ((n / w : ℚ) : ℝ) a c ≠ 0 → radial N r a c < ((i / w : ℚ) : ℝ)) :
    let E := waveField N r ((i / w : ℚ) : ℝ) .total cd (s.pupilFn N r ((n / w : ℚ) : ℝ))
    DivergenceFree (fun z Y X => -E 0 z Y X) (E 2) (E 4) ∧ DivergenceFree (fun z Y X => -E 1 z Y X) (E 3) (E 5) :=
  waveField_gauss _ _ _ _ _ (by exact_mod_cast div_pos hi hw) hmask

/-- C122: the unaberrated PSF of an objective (`na <= ni`): its field components solve the wave equation, and `PSFi` holds the sums of their squared magnitudes. -/
theorem C122_ideal (s : HSpec) (hp : s.pupil = none) {w n i r : ℚ} {N : ℕ} {zs : List ℚ} {v : VecCorr} {cd : Condition}
    (ho : Optics s.params w n i r N zs v cd) (hw : 0 < w) (hn : n ≤ i) (b : Arr ℝ) (hb : s.PSFi = .ok b) :
    let E := waveField N r ((i / w : ℚ) : ℝ) v cd (aperture N r ((n / w : ℚ) : ℝ))
    (∀ c, Helmholtz (E c) ((i / w : ℚ) : ℝ)) ∧
    (0 < i → v = .total → DivergenceFree (fun z Y X => -E 0 z Y X) (E 2) (E 4) ∧ DivergenceFree (fun z Y X => -E 1 z Y X) (E 3) (E 5)) ∧
    ∀ iz y x, b.get [iz, y, x] = ∑ c ∈ Finset.range (components v), ‖E c ((zs.getD iz 0 : ℚ) : ℝ) (offset N r y) (offset N r x)‖ ^ 2 := by
  intro E
  have hf : s.Fits := fun P v h => by rw [hp] at h; cases h
  have hP : s.pupilFn N r ((n / w : ℚ) : ℝ) = aperture N r ((n / w : ℚ) : ℝ) := by funext a b; simp only [HSpec.pupilFn, hp]
  have hle : ((n / w : ℚ) : ℝ) ≤ ((i / w : ℚ) : ℝ) := by exact_mod_cast div_le_div_of_nonneg_right hn hw.le
  have hmask : ∀ a < N, ∀ c < N, s.pupilFn N r ((n / w : ℚ) : ℝ) a c ≠ 0 → radial N r a c < ((i / w : ℚ) : ℝ) := by
    intro a _ c _ h
    rw [hP] at h
    unfold aperture at h
    split_ifs at h with h1
    · exact h1.trans_le hle
    · exact absurd rfl h
  refine ⟨fun c => ?_, fun hi hv => ?_, ?_⟩
  · have := C122_helmholtz s v cd hmask c
    rwa [hP] at this
  · subst hv
    have := C122_gauss s cd hw hi hmask
    simp only [hP] at this
    exact this
  · intro iz y x
    obtain ⟨a, ha⟩ : ∃ a, s.PSFa = .ok a := by
      rw [HSpec.PSFi] at hb
      cases h : s.PSFa with
      | ok a => exact ⟨a, rfl⟩
      | error e => rw [h] at hb; cases hb
    obtain ⟨-, h2, h3, -⟩ := (C76_computable s hf ho).mp ⟨a, ha⟩
    obtain ⟨-, hN, hget⟩ := psfi_amplitude s hf ho b hb
    rw [hget, hP]
    refine Finset.sum_congr rfl fun c _ => ?_
    rw [amplitude_eq_wave _ _ _ (by exact_mod_cast h2) h3]

/-- Non-vacuity of C122: the demo PSF is such a field. -/
example : ∃ (s : HSpec) (a : Arr ℂ) (b : Arr ℝ), s.pupil = none ∧ s.Fits ∧
    Optics s.params 520 (17/20) 1 130 64 ((List.range 64).map (plane 64 130)) .none .sine ∧ s.PSFa = .ok a ∧ s.PSFi = .ok b ∧
    (∀ a < 64, ∀ c < 64, s.pupilFn 64 (130 : ℚ) ((17 / 20 / 520 : ℚ) : ℝ) a c ≠ 0 → radial 64 (130 : ℚ) a c < ((1 / 520 : ℚ) : ℝ)) := by
  obtain ⟨o, a, ho, hf, h3, ha⟩ := demo_optics
  refine ⟨⟨o.params, none⟩, a, _, rfl, hf, h3, ha, PSFi_of ha, ?_⟩
  intro a _ c _ h
  simp only [HSpec.pupilFn, aperture] at h
  split_ifs at h with h1
  · refine h1.trans_le ?_
    push_cast; norm_num
  · exact absurd rfl h

end PyOTF
