import Verif.Props.C44_C45_Otfi

/-!
# C46-C48: symmetry of the ideal PSF, peak, linearity in the pupil
-/

namespace PyOTF

open Physics Complex

/-! ## C46 -/

theorem freq_neg {N : ℕ} (r : ℝ) {i : ℕ} (hi : i < N) (h2 : 2 * i ≠ N) : freq N r (negIdx N i) = -freq N r i := by
  have h0 : 0 < N := by omega
  rw [negIdx_eq hi, freq, freq]
  by_cases h : i = 0
  · subst h; simp [h0]
  · rw [if_neg h, Nat.cast_sub hi.le]
    split_ifs with h3 h4
    · omega
    · ring
    · ring
    · omega

theorem negIdx_half {N i : ℕ} (h2 : 2 * i = N) : negIdx N i = i := by
  rcases Nat.eq_zero_or_pos i with h | h
  · have : N = 0 := by omega
    subst h this; simp [negIdx]
  · rw [negIdx_eq (by omega), if_neg (by omega)]; omega

theorem radial_neg_y {N : ℕ} (r : ℝ) {i : ℕ} (hi : i < N) (j : ℕ) : radial N r (negIdx N i) j = radial N r i j := by
  by_cases h2 : 2 * i = N
  · rw [negIdx_half h2]
  · simp only [radial, freq_neg r hi h2, neg_sq]

theorem radial_comm (N : ℕ) (r : ℝ) (i j : ℕ) : radial N r i j = radial N r j i := by
  simp only [radial, add_comm]

theorem radial_neg_x {N : ℕ} (r : ℝ) (i : ℕ) {j : ℕ} (hj : j < N) : radial N r i (negIdx N j) = radial N r i j := by
  rw [radial_comm, radial_neg_y r hj, radial_comm]

theorem pol_mirror_y (v : VecCorr) (c : ℕ) : ∃ ε : ℝ, |ε| = 1 ∧ ∀ s t f g,
    (polarization v s t (-f) g).getD c 0 = ε * (polarization v s t f g).getD c 0 := by
  have one : ∀ a : ℝ, a = 1 * a := fun a => (one_mul a).symm
  cases v with
  | none => exact ⟨1, by simp, fun s t f g => by simp [polarization]⟩
  | x =>
    match c with
    | 0 => exact ⟨1, by simp, fun s t f g => by simp [polarization]⟩
    | 1 => exact ⟨-1, by simp, fun s t f g => by simp [polarization]⟩
    | c + 2 => exact ⟨1, by simp, fun s t f g => by simp [polarization]⟩
  | y =>
    match c with
    | 0 => exact ⟨-1, by simp, fun s t f g => by simp [polarization]⟩
    | 1 => exact ⟨1, by simp, fun s t f g => by simp [polarization]⟩
    | c + 2 => exact ⟨1, by simp, fun s t f g => by simp [polarization]⟩
  | z =>
    match c with
    | 0 => exact ⟨1, by simp, fun s t f g => by simp [polarization]⟩
    | 1 => exact ⟨-1, by simp, fun s t f g => by simp [polarization]⟩
    | c + 2 => exact ⟨1, by simp, fun s t f g => by simp [polarization]⟩
  | total =>
    match c with
    | 0 => exact ⟨1, by simp, fun s t f g => by simp [polarization]⟩
    | 1 => exact ⟨-1, by simp, fun s t f g => by simp [polarization]⟩
    | 2 => exact ⟨-1, by simp, fun s t f g => by simp [polarization]⟩
    | 3 => exact ⟨1, by simp, fun s t f g => by simp [polarization]⟩
    | 4 => exact ⟨1, by simp, fun s t f g => by simp [polarization]⟩
    | 5 => exact ⟨-1, by simp, fun s t f g => by simp [polarization]⟩
    | c + 6 => exact ⟨1, by simp, fun s t f g => by simp [polarization]⟩

theorem pol_mirror_x (v : VecCorr) (c : ℕ) : ∃ ε : ℝ, |ε| = 1 ∧ ∀ s t f g,
    (polarization v s t f (-g)).getD c 0 = ε * (polarization v s t f g).getD c 0 := by
  cases v with
  | none => exact ⟨1, by simp, fun s t f g => by simp [polarization]⟩
  | x =>
    match c with
    | 0 => exact ⟨1, by simp, fun s t f g => by simp [polarization]⟩
    | 1 => exact ⟨-1, by simp, fun s t f g => by simp [polarization]⟩
    | c + 2 => exact ⟨1, by simp, fun s t f g => by simp [polarization]⟩
  | y =>
    match c with
    | 0 => exact ⟨-1, by simp, fun s t f g => by simp [polarization]⟩
    | 1 => exact ⟨1, by simp, fun s t f g => by simp [polarization]⟩
    | c + 2 => exact ⟨1, by simp, fun s t f g => by simp [polarization]⟩
  | z =>
    match c with
    | 0 => exact ⟨-1, by simp, fun s t f g => by simp [polarization]⟩
    | 1 => exact ⟨1, by simp, fun s t f g => by simp [polarization]⟩
    | c + 2 => exact ⟨1, by simp, fun s t f g => by simp [polarization]⟩
  | total =>
    match c with
    | 0 => exact ⟨-1, by simp, fun s t f g => by simp [polarization]⟩
    | 1 => exact ⟨1, by simp, fun s t f g => by simp [polarization]⟩
    | 2 => exact ⟨-1, by simp, fun s t f g => by simp [polarization]⟩
    | 3 => exact ⟨1, by simp, fun s t f g => by simp [polarization]⟩
    | 4 => exact ⟨1, by simp, fun s t f g => by simp [polarization]⟩
    | 5 => exact ⟨-1, by simp, fun s t f g => by simp [polarization]⟩
    | c + 6 => exact ⟨1, by simp, fun s t f g => by simp [polarization]⟩

theorem sinPhi_neg_y {N : ℕ} (r : ℝ) {i : ℕ} (hi : i < N) (h2 : 2 * i ≠ N) (j : ℕ) :
    sinPhi N r (negIdx N i) j = -sinPhi N r i j := by
  unfold sinPhi
  rw [radial_neg_y r hi, freq_neg r hi h2]
  split_ifs <;> ring

theorem cosPhi_neg_y {N : ℕ} (r : ℝ) {i : ℕ} (hi : i < N) (j : ℕ) : cosPhi N r (negIdx N i) j = cosPhi N r i j := by
  unfold cosPhi
  rw [radial_neg_y r hi]

theorem sinPhi_neg_x {N : ℕ} (r : ℝ) (i : ℕ) {j : ℕ} (hj : j < N) : sinPhi N r i (negIdx N j) = sinPhi N r i j := by
  unfold sinPhi
  rw [radial_neg_x r i hj]

/-- (At the origin the azimuth is 0, so there the cosine does not change sign.) -/
theorem cosPhi_neg_x {N : ℕ} (r : ℝ) (i : ℕ) {j : ℕ} (hj : j < N) (h2 : 2 * j ≠ N) (h0 : radial N r i j ≠ 0) :
    cosPhi N r i (negIdx N j) = -cosPhi N r i j := by
  unfold cosPhi
  rw [radial_neg_x r i hj, freq_neg r hj h2, if_neg h0, if_neg h0]
  ring

/-- At the origin only the components without azimuth survive: mirroring is immaterial. -/
theorem radial_zero_weight {N : ℕ} (r k : ℝ) (v : VecCorr) (cd : Condition) (c : ℕ) {i j i' j' : ℕ}
    (h : radial N r i j = 0) (h' : radial N r i' j' = 0) : weight N r k v cd c i' j' = weight N r k v cd c i j := by
  simp only [weight, cosTheta, sinTheta, sinPhi, cosPhi, h, h', if_true]

theorem weight_mirror_y {N : ℕ} (r k : ℝ) (v : VecCorr) (cd : Condition) (c : ℕ) : ∃ ε : ℝ, |ε| = 1 ∧
    ∀ i < N, 2 * i ≠ N → ∀ j, weight N r k v cd c (negIdx N i) j = ε * weight N r k v cd c i j := by
  obtain ⟨ε, h1, h2⟩ := pol_mirror_y v c
  refine ⟨ε, h1, fun i hi hne j => ?_⟩
  simp only [weight, cosTheta, sinTheta, radial_neg_y r hi, sinPhi_neg_y r hi hne, cosPhi_neg_y r hi, h2]
  ring

/-- At the origin a component that changes sign under the mirror is zero. -/
theorem pol_zero_x (v : VecCorr) (c : ℕ) (ε : ℝ) (h : ∀ s t f g,
    (polarization v s t f (-g)).getD c 0 = ε * (polarization v s t f g).getD c 0) :
    (polarization v 0 1 0 1).getD c 0 = ε * (polarization v 0 1 0 1).getD c 0 := by
  rw [← h]
  cases v <;> simp [polarization]

theorem weight_mirror_x {N : ℕ} (r k : ℝ) (v : VecCorr) (cd : Condition) (c : ℕ) : ∃ ε : ℝ, |ε| = 1 ∧
    ∀ i, ∀ j < N, 2 * j ≠ N → weight N r k v cd c i (negIdx N j) = ε * weight N r k v cd c i j := by
  obtain ⟨ε, h1, h2⟩ := pol_mirror_x v c
  refine ⟨ε, h1, fun i j hj hne => ?_⟩
  by_cases h0 : radial N r i j = 0
  · rw [radial_zero_weight r k v cd c h0 (by rw [radial_neg_x r i hj, h0])]
    have e : sinTheta N r k i j = 0 := by simp [sinTheta, h0]
    have := pol_zero_x v c ε h2
    simp only [weight, cosTheta, e, sinPhi, cosPhi, h0, if_true, Real.sqrt_one, zero_pow two_ne_zero, sub_zero] at this ⊢
    rw [mul_left_comm, ← this]
  · simp only [weight, cosTheta, sinTheta, radial_neg_x r i hj, sinPhi_neg_x r i hj, cosPhi_neg_x r i hj hne h0, h2]
    ring

/-- Waves at the edge of the band are outside the aperture when `res` is below the Abbe limit. -/
theorem aperture_edge {N : ℕ} {r l : ℝ} (hr : 0 < r) (hab : 2 * (l * r) < 1) {i : ℕ} (hN : 0 < N) (h2 : 2 * i = N) (j : ℕ) :
    aperture N r l i j = 0 ∧ aperture N r l j i = 0 := by
  have hN' : (0 : ℝ) < N := by exact_mod_cast hN
  have hf : freq N r i = -(1 / (2 * r)) := by
    unfold freq
    rw [if_neg (by omega)]
    have : (N : ℝ) = 2 * i := by exact_mod_cast h2.symm
    have hi : (0 : ℝ) < i := by linarith
    rw [this]; field_simp; ring
  have h1 : l < radial N r i j := by
    have h3 : |freq N r i| ≤ radial N r i j := by
      rw [radial]; exact Real.abs_le_sqrt (by nlinarith [sq_nonneg (freq N r j)])
    rw [hf, abs_neg, abs_of_pos (by positivity)] at h3
    have : l < 1 / (2 * r) := by rw [lt_div_iff₀ (by positivity)]; linarith
    linarith
  refine ⟨by simp [aperture, h1.le], by simp [aperture, radial_comm N r j i, h1.le]⟩

theorem amplitude_mirror_y {N : ℕ} {r l : ℝ} (k : ℝ) (v : VecCorr) (cd : Condition) (hr : 0 < r) (hab : 2 * (l * r) < 1) (hN : 0 < N)
    (z : ℝ) (c y y' x : ℕ) (h : (N : ℤ) ∣ (y : ℤ) + y' - 2 * (N / 2 : ℕ)) :
    ‖amplitude N r k v cd (aperture N r l) z c y' x‖ = ‖amplitude N r k v cd (aperture N r l) z c y x‖ := by
  obtain ⟨ε, h1, h2⟩ := weight_mirror_y (N := N) r k v cd c
  rw [amplitude, field_mirror_y N N _ y y' x h, amplitude]
  rw [field_congr (Q := fun i j => (ε : ℂ) * (aperture N r l i j *
    exp (2 * Real.pi * axial N r k i j * z * I) * (weight N r k v cd c i j : ℝ)))]
  · rw [field_mul, norm_mul, norm_real, Real.norm_eq_abs, h1, one_mul]
  · intro i hi j _
    by_cases hh : 2 * i = N
    · rw [negIdx_half hh, (aperture_edge hr hab hN hh j).1]; ring
    · rw [h2 i hi hh]
      simp only [aperture, axial, radial_neg_y r hi]
      push_cast; ring

theorem amplitude_mirror_x {N : ℕ} {r l : ℝ} (k : ℝ) (v : VecCorr) (cd : Condition) (hr : 0 < r) (hab : 2 * (l * r) < 1) (hN : 0 < N)
    (z : ℝ) (c y x x' : ℕ) (h : (N : ℤ) ∣ (x : ℤ) + x' - 2 * (N / 2 : ℕ)) :
    ‖amplitude N r k v cd (aperture N r l) z c y x'‖ = ‖amplitude N r k v cd (aperture N r l) z c y x‖ := by
  obtain ⟨ε, h1, h2⟩ := weight_mirror_x (N := N) r k v cd c
  rw [amplitude, field_mirror_x N N _ y x x' h, amplitude]
  rw [field_congr (Q := fun i j => (ε : ℂ) * (aperture N r l i j *
    exp (2 * Real.pi * axial N r k i j * z * I) * (weight N r k v cd c i j : ℝ)))]
  · rw [field_mul, norm_mul, norm_real, Real.norm_eq_abs, h1, one_mul]
  · intro i _ j hj
    by_cases hh : 2 * j = N
    · rw [negIdx_half hh, (aperture_edge hr hab hN hh i).2]; ring
    · rw [h2 i j hj hh]
      simp only [aperture, axial, radial_neg_x r i hj]
      push_cast; ring

theorem amplitude_neg_z {N : ℕ} {r l : ℝ} (k : ℝ) (v : VecCorr) (cd : Condition) (hr : 0 < r) (hab : 2 * (l * r) < 1) (hN : 0 < N)
    (z : ℝ) (c y x : ℕ) :
    ‖amplitude N r k v cd (aperture N r l) (-z) c y x‖ = ‖amplitude N r k v cd (aperture N r l) z c y x‖ := by
  have hd : ∀ y : ℕ, (N : ℤ) ∣ (y : ℤ) + (2 * (N / 2) + (N - 1) * y : ℕ) - 2 * (N / 2 : ℕ) := by
    intro y
    refine ⟨y, ?_⟩
    have : ((N - 1 : ℕ) : ℤ) = N - 1 := by omega
    push_cast [this]; ring
  rw [← amplitude_mirror_x k v cd hr hab hN z c y x _ (hd x), ← amplitude_mirror_y k v cd hr hab hN z c y _ _ (hd y)]
  rw [amplitude, amplitude, ← field_conj_norm N N _ y x _ _ hN hN (hd y) (hd x)]
  congr 1
  refine field_congr (fun i _ j _ => ?_) y x
  have ha : (starRingEnd ℂ) (aperture N r l i j) = aperture N r l i j := by
    unfold aperture; split_ifs <;> simp
  rw [map_mul, map_mul, ha, conj_ofReal, ← exp_conj]
  congr 3
  have h2 : (starRingEnd ℂ) 2 = 2 := Complex.conj_ofNat 2
  simp [h2, conj_ofReal]

/-- The parameters of an unaberrated PSF below the Abbe limit. -/
structure Ideal (s : HSpec) (w n i r : ℚ) (N : ℕ) (zs : List ℚ) (v : VecCorr) (cd : Condition) : Prop where
  pupil : s.pupil = none
  optics : Optics s.params w n i r N zs v cd
  wl : 0 < w
  na : 0 < n
  res : 0 < r
  abbe : r < w / (2 * n)

theorem Ideal.fits {s : HSpec} {w n i r : ℚ} {N : ℕ} {zs : List ℚ} {v : VecCorr} {cd : Condition}
    (h : Ideal s w n i r N zs v cd) : s.Fits := by
  intro P v hP; rw [h.pupil] at hP; cases hP

theorem Ideal.real {s : HSpec} {w n i r : ℚ} {N : ℕ} {zs : List ℚ} {v : VecCorr} {cd : Condition}
    (h : Ideal s w n i r N zs v cd) : (0 : ℝ) < r ∧ 2 * (((n / w : ℚ) : ℝ) * r) < 1 ∧
    s.pupilFn N r ((n / w : ℚ) : ℝ) = aperture N r ((n / w : ℚ) : ℝ) := by
  have hw := h.wl
  have hn := h.na
  refine ⟨by exact_mod_cast h.res, ?_, by funext a b; simp only [HSpec.pupilFn, h.pupil]⟩
  have : 2 * (n / w * r) < 1 := by
    have hb := h.abbe
    rw [lt_div_iff₀ (by positivity)] at hb
    have : n / w * r = (r * n) / w := by ring
    rw [this, ← mul_div_assoc, div_lt_one hw]
    linarith
  exact_mod_cast this

/-- C46: the intensity of every plane is symmetric under reflection of y and of x about pixel `N//2` (hence under
inversion), for every vectorial correction and condition. -/
theorem C46_mirror (s : HSpec) {w n i r : ℚ} {N : ℕ} {zs : List ℚ} {v : VecCorr} {cd : Condition}
    (hI : Ideal s w n i r N zs v cd) (b : Arr ℝ) (hb : s.PSFi = .ok b) (iz y y' x x' : ℕ)
    (hy : (N : ℤ) ∣ (y : ℤ) + y' - 2 * (N / 2 : ℕ)) (hx : (N : ℤ) ∣ (x : ℤ) + x' - 2 * (N / 2 : ℕ)) :
    b.get [iz, y', x] = b.get [iz, y, x] ∧ b.get [iz, y, x'] = b.get [iz, y, x] ∧ b.get [iz, y', x'] = b.get [iz, y, x] := by
  obtain ⟨-, hN, hget⟩ := psfi_amplitude s hI.fits hI.optics b hb
  obtain ⟨h1, h2, h3⟩ := hI.real
  have a1 : ∀ x, b.get [iz, y', x] = b.get [iz, y, x] := by
    intro x
    rw [hget, hget, h3]
    exact Finset.sum_congr rfl fun c _ => by rw [amplitude_mirror_y _ v cd h1 h2 hN _ c y y' x hy]
  have a2 : b.get [iz, y, x'] = b.get [iz, y, x] := by
    rw [hget, hget, h3]
    exact Finset.sum_congr rfl fun c _ => by rw [amplitude_mirror_x _ v cd h1 h2 hN _ c y x x' hx]
  exact ⟨a1 x, a2, (a1 x').trans a2⟩

/-- C46: planes at opposite heights are equal. -/
theorem C46_defocus (s : HSpec) {w n i r : ℚ} {N : ℕ} {zs : List ℚ} {v : VecCorr} {cd : Condition}
    (hI : Ideal s w n i r N zs v cd) (b : Arr ℝ) (hb : s.PSFi = .ok b) (iz iz' : ℕ)
    (hz : zs.getD iz' 0 = -zs.getD iz 0) (y x : ℕ) : b.get [iz', y, x] = b.get [iz, y, x] := by
  obtain ⟨-, hN, hget⟩ := psfi_amplitude s hI.fits hI.optics b hb
  obtain ⟨h1, h2, h3⟩ := hI.real
  rw [hget, hget, h3, hz]
  refine Finset.sum_congr rfl fun c _ => ?_
  rw [Rat.cast_neg, amplitude_neg_z _ v cd h1 h2 hN]

theorem weight_swap {N : ℕ} (r k : ℝ) (v v' : VecCorr) (cd : Condition) (c c' : ℕ)
    (h : ∀ s t f g, (polarization v s t g f).getD c 0 = (polarization v' s t f g).getD c' 0)
    (h' : (polarization v 0 1 0 1).getD c 0 = (polarization v' 0 1 0 1).getD c' 0) (i j : ℕ) :
    weight N r k v cd c j i = weight N r k v' cd c' i j := by
  by_cases h0 : radial N r i j = 0
  · have h0' : radial N r j i = 0 := by rw [radial_comm, h0]
    have e : ∀ k : ℝ, (if 0 < k then 0 / k else 0 : ℝ) = 0 := by intro k; simp
    simp only [weight, cosTheta, sinTheta, sinPhi, cosPhi, h0, h0', if_true, e, zero_pow two_ne_zero, sub_zero, Real.sqrt_one, h']
  · have h0' : radial N r j i ≠ 0 := by rw [radial_comm]; exact h0
    have e1 : sinPhi N r j i = cosPhi N r i j := by
      simp only [sinPhi, cosPhi, h0, if_false, radial_comm N r j i]
    have e2 : cosPhi N r j i = sinPhi N r i j := by
      simp only [sinPhi, cosPhi, h0, if_false, radial_comm N r j i]
    simp only [weight, cosTheta, sinTheta, radial_comm N r j i, e1, e2, h]

theorem amplitude_swap {N : ℕ} (r k l z : ℝ) (v v' : VecCorr) (cd : Condition) (c c' : ℕ)
    (h : ∀ s t f g, (polarization v s t g f).getD c 0 = (polarization v' s t f g).getD c' 0)
    (h' : (polarization v 0 1 0 1).getD c 0 = (polarization v' 0 1 0 1).getD c' 0) (y x : ℕ) :
    amplitude N r k v cd (aperture N r l) z c x y = amplitude N r k v' cd (aperture N r l) z c' y x := by
  rw [amplitude, field_swap, amplitude]
  refine field_congr (fun i _ j _ => ?_) y x
  rw [weight_swap r k v v' cd c c' h h' i j]
  simp only [aperture, axial, radial_comm N r j i]

/-- C46: with scalar theory exchanging x and y changes nothing, and neither does it with 'z' or 'total'. -/
theorem C46_exchange (s : HSpec) {w n i r : ℚ} {N : ℕ} {zs : List ℚ} {v : VecCorr} {cd : Condition}
    (hI : Ideal s w n i r N zs v cd) (hv : v = .none ∨ v = .z ∨ v = .total) (b : Arr ℝ) (hb : s.PSFi = .ok b) (iz y x : ℕ) :
    b.get [iz, x, y] = b.get [iz, y, x] := by
  obtain ⟨-, hN, hget⟩ := psfi_amplitude s hI.fits hI.optics b hb
  obtain ⟨-, -, h3⟩ := hI.real
  rw [hget, hget, h3]
  have key := fun c c' => amplitude_swap (N := N) r ((i / w : ℚ) : ℝ) ((n / w : ℚ) : ℝ) ((zs.getD iz 0 : ℚ) : ℝ) v v cd c c'
  rcases hv with rfl | rfl | rfl
  · simp only [components, Finset.sum_range_succ, Finset.sum_range_zero, zero_add]
    rw [key 0 0 (fun s t f g => by simp [polarization]) rfl y x]
  · simp only [components, Finset.sum_range_succ, Finset.sum_range_zero, zero_add]
    rw [key 0 1 (fun s t f g => by simp [polarization]) (by simp [polarization]) y x,
      key 1 0 (fun s t f g => by simp [polarization]) (by simp [polarization]) y x]
    ring
  · simp only [components, Finset.sum_range_succ, Finset.sum_range_zero, zero_add]
    rw [key 0 1 (fun s t f g => by simp [polarization]) (by simp [polarization]) y x,
      key 1 0 (fun s t f g => by simp [polarization]) (by simp [polarization]) y x,
      key 2 2 (fun s t f g => by simp [polarization]; ring) (by simp [polarization]) y x,
      key 3 4 (fun s t f g => by simp [polarization]) (by simp [polarization]) y x,
      key 4 3 (fun s t f g => by simp [polarization]) (by simp [polarization]) y x,
      key 5 5 (fun s t f g => by simp [polarization]; ring) (by simp [polarization]) y x]
    ring

/-- C46: 'x' and 'y' are exchanged. -/
theorem C46_exchange_xy (s s' : HSpec) {w n i r : ℚ} {N : ℕ} {zs : List ℚ} {cd : Condition}
    (hI : Ideal s w n i r N zs .x cd) (hI' : Ideal s' w n i r N zs .y cd) (b b' : Arr ℝ) (hb : s.PSFi = .ok b)
    (hb' : s'.PSFi = .ok b') (iz y x : ℕ) : b'.get [iz, x, y] = b.get [iz, y, x] := by
  obtain ⟨-, hN, hget⟩ := psfi_amplitude s hI.fits hI.optics b hb
  obtain ⟨-, -, h3⟩ := hI.real
  obtain ⟨-, -, hget'⟩ := psfi_amplitude s' hI'.fits hI'.optics b' hb'
  obtain ⟨-, -, h3'⟩ := hI'.real
  rw [hget, hget', h3, h3']
  have key := fun c c' => amplitude_swap (N := N) r ((i / w : ℚ) : ℝ) ((n / w : ℚ) : ℝ) ((zs.getD iz 0 : ℚ) : ℝ) .y .x cd c c'
  simp only [components, Finset.sum_range_succ, Finset.sum_range_zero, zero_add]
  rw [key 0 1 (fun s t f g => by simp [polarization]; ring) (by simp [polarization]) y x,
    key 1 0 (fun s t f g => by simp [polarization]) (by simp [polarization]) y x]
  ring

/-- Non-vacuity of C46. -/
theorem demo_ideal : ∃ (s : HSpec) (b : Arr ℝ),
    Ideal s 520 (17/20) 1 130 64 ((List.range 64).map (plane 64 130)) .none .sine ∧ s.PSFi = .ok b := by
  obtain ⟨o, a, ho, hf, h3, ha⟩ := demo_optics
  exact ⟨⟨o.params, none⟩, _, ⟨rfl, h3, by norm_num, by norm_num, by norm_num, by norm_num⟩, PSFi_of ha⟩

/-! ## C47 -/

theorem apodization_nonneg (cd : Condition) (N : ℕ) (r k : ℝ) (i j : ℕ) : 0 ≤ apodization cd (cosTheta N r k i j) := by
  have : 0 ≤ cosTheta N r k i j := Real.sqrt_nonneg _
  cases cd <;> simp only [apodization] <;> positivity

theorem amplitude_le (N : ℕ) (r k : ℝ) (cd : Condition) (P : ℕ → ℕ → ℂ) (z : ℝ) (y x : ℕ) :
    ‖amplitude N r k .none cd P z 0 y x‖ ≤ ‖amplitude N r k .none cd (fun i j => (‖P i j‖ : ℂ)) 0 0 (N / 2) (N / 2)‖ := by
  have e : amplitude N r k .none cd (fun i j => (‖P i j‖ : ℂ)) 0 0 (N / 2) (N / 2) =
      (((∑ i ∈ Finset.range N, ∑ j ∈ Finset.range N, ‖P i j‖ * weight N r k .none cd 0 i j) / (N * N) : ℝ) : ℂ) := by
    rw [amplitude, field_centre]
    push_cast
    simp
  have hnn : 0 ≤ (∑ i ∈ Finset.range N, ∑ j ∈ Finset.range N, ‖P i j‖ * weight N r k .none cd 0 i j) / (N * N) := by
    refine div_nonneg (Finset.sum_nonneg fun i _ => Finset.sum_nonneg fun j _ => mul_nonneg (norm_nonneg _) ?_) (by positivity)
    simp only [weight, polarization, List.getD_cons_zero, mul_one]
    exact apodization_nonneg cd N r k i j
  rw [e, norm_real, Real.norm_eq_abs, abs_of_nonneg hnn, amplitude]
  refine (field_le N N _ y x).trans (le_of_eq ?_)
  congr 1
  refine Finset.sum_congr rfl fun i _ => Finset.sum_congr rfl fun j _ => ?_
  have h1 : (2 * Real.pi * axial N r k i j * z * I : ℂ) = ((2 * Real.pi * axial N r k i j * z : ℝ) : ℂ) * I := by push_cast; ring
  rw [norm_mul, norm_mul, h1, norm_exp_ofReal_mul_I, mul_one, norm_real, Real.norm_eq_abs, abs_of_nonneg]
  simp only [weight, polarization, List.getD_cons_zero, mul_one]
  exact apodization_nonneg cd N r k i j

/-- C47 (Strehl): with scalar theory, the intensity of any model - any pupil, any plane, any pixel - is at most the
intensity at pixel `(N//2, N//2)` of the focal plane of the model whose pupil has the same magnitude and no phase. -/
theorem C47_strehl (s s0 : HSpec) (hf : s.Fits) (hf0 : s0.Fits) {w n i r : ℚ} {N : ℕ} {zs zs0 : List ℚ} {cd : Condition}
    (ho : Optics s.params w n i r N zs .none cd) (ho0 : Optics s0.params w n i r N zs0 .none cd)
    (hP : ∀ a < N, ∀ c < N, s0.pupilFn N r ((n / w : ℚ) : ℝ) a c = (‖s.pupilFn N r ((n / w : ℚ) : ℝ) a c‖ : ℂ))
    (b b0 : Arr ℝ) (hb : s.PSFi = .ok b) (hb0 : s0.PSFi = .ok b0) (iz0 : ℕ) (hz : zs0.getD iz0 0 = 0) (iz y x : ℕ) :
    b.get [iz, y, x] ≤ b0.get [iz0, N / 2, N / 2] := by
  obtain ⟨-, hN, hget⟩ := psfi_amplitude s hf ho b hb
  obtain ⟨-, -, hget0⟩ := psfi_amplitude s0 hf0 ho0 b0 hb0
  rw [hget, hget0, hz]
  simp only [components, Finset.sum_range_succ, Finset.sum_range_zero, zero_add]
  have e : amplitude N r ((i / w : ℚ) : ℝ) .none cd (s0.pupilFn N r ((n / w : ℚ) : ℝ)) ((0 : ℚ) : ℝ) 0 (N / 2) (N / 2) =
      amplitude N r ((i / w : ℚ) : ℝ) .none cd (fun a c => (‖s.pupilFn N r ((n / w : ℚ) : ℝ) a c‖ : ℂ)) 0 0 (N / 2) (N / 2) := by
    rw [amplitude, amplitude]
    refine field_congr (fun a ha c hc => ?_) _ _
    rw [hP a ha c hc]; simp
  rw [e]
  exact pow_le_pow_left₀ (norm_nonneg _) (amplitude_le N r _ cd _ _ y x) 2

/-- C47: in particular a pupil without phase (the ideal pupil, say) has its maximum over all planes and pixels at the
centre of the focal plane. -/
theorem C47_peak (s : HSpec) (hf : s.Fits) {w n i r : ℚ} {N : ℕ} {zs : List ℚ} {cd : Condition}
    (ho : Optics s.params w n i r N zs .none cd)
    (hP : ∀ a < N, ∀ c < N, ∃ m : ℝ, 0 ≤ m ∧ s.pupilFn N r ((n / w : ℚ) : ℝ) a c = m)
    (b : Arr ℝ) (hb : s.PSFi = .ok b) (iz0 : ℕ) (hz : zs.getD iz0 0 = 0) (iz y x : ℕ) :
    b.get [iz, y, x] ≤ b.get [iz0, N / 2, N / 2] := by
  refine C47_strehl s s hf hf ho ho (fun a ha c hc => ?_) b b hb hb iz0 hz iz y x
  obtain ⟨m, h0, h⟩ := hP a ha c hc
  rw [h, norm_real, Real.norm_eq_abs, abs_of_nonneg h0]

/-- C47: the ideal pupil is such a pupil. -/
theorem C47_ideal (s : HSpec) (h : s.pupil = none) (N : ℕ) (r l : ℝ) (a c : ℕ) :
    ∃ m : ℝ, 0 ≤ m ∧ s.pupilFn N r l a c = m := by
  simp only [HSpec.pupilFn, h, aperture]
  split_ifs
  · exact ⟨1, by norm_num, by simp⟩
  · exact ⟨0, le_rfl, by simp⟩

/-! ## C48 -/

theorem numbersOf_unique {p : Params} {h h' : HanserNum} (hN : NumbersOf p h) (hN' : NumbersOf p h') : h' = h := by
  have e := hN.agree hN' rfl rfl rfl rfl rfl
  have e1 : h'.vecCorr = h.vecCorr := by
    have h1 := hN.vecCorr; have h2 := hN'.vecCorr; rw [h1] at h2; exact (Option.some.inj h2).symm
  have e2 : h'.condition = h.condition := by
    have h1 := hN.condition; have h2 := hN'.condition; rw [h1] at h2; exact (Option.some.inj h2).symm
  have e3 : h'.z = h.z := by
    obtain ⟨zs, hz1, hz2⟩ := hN.z
    obtain ⟨zs', hz1', hz2'⟩ := hN'.z
    rw [hz1] at hz1'
    have := List.map_injective_iff.mpr (fun a b hab => by injection hab) (Option.some.inj hz1')
    rw [hz2, hz2', this]
  rw [e, e1, e2, e3]

/-- C48: the amplitude PSF is linear in the applied pupil: for any parameters, if `P` can be applied then so can `Q`
and `α P + β Q`, and the results combine in the same way. -/
theorem C48_linear (p : Params) (v : PyVal) (hv : p.size = some v) (P Q R : Arr ℂ) (α β : ℂ)
    (hP : P.shape = [pyNat v, pyNat v]) (hQ : Q.shape = [pyNat v, pyNat v]) (hR : R.shape = [pyNat v, pyNat v])
    (hlin : ∀ i < pyNat v, ∀ j < pyNat v, R.get [i, j] = α * P.get [i, j] + β * Q.get [i, j])
    (a : Arr ℂ) (ha : (⟨p, some P⟩ : HSpec).PSFa = .ok a) :
    ∃ b c, (⟨p, some Q⟩ : HSpec).PSFa = .ok b ∧ (⟨p, some R⟩ : HSpec).PSFa = .ok c ∧ b.shape = a.shape ∧ c.shape = a.shape ∧
      ∀ m iz y x, c.get [m, iz, y, x] = α * a.get [m, iz, y, x] + β * b.get [m, iz, y, x] := by
  have fits : ∀ T : Arr ℂ, T.shape = [pyNat v, pyNat v] → ∀ P' v', some T = some P' → p.size = some v' →
      P'.shape = [pyNat v', pyNat v'] := by
    intro T hT P' v' h1 h2
    cases h1; rw [hv] at h2; cases h2; exact hT
  obtain ⟨h, hN, hs, hget⟩ := genPsf_closed (pupil := some P) ha (fits P hP)
  obtain ⟨v', hv', hsz⟩ := hN.size
  rw [hv] at hv'; cases hv'
  have ok : ∀ T : Arr ℂ, T.shape = [pyNat v, pyNat v] → ∃ b, hanserGenPsf p (some T) = .ok b ∧
      b.shape = [h.ncomp, h.z.length, h.size, h.size] ∧
      ∀ c iz y x, b.get [c, iz, y, x] = field h.size h.size (h.pupilAt (h.baseOf (some T)) c iz) y x := by
    intro T hT
    have hok := genPsf_some_of hN (P := T) (by rw [hT, hsz])
    obtain ⟨h', hN', hs', hget'⟩ := genPsf_closed hok (fits T hT)
    cases numbersOf_unique hN hN'
    exact ⟨_, hok, hs', hget'⟩
  obtain ⟨b, hb, hbs, hbg⟩ := ok Q hQ
  obtain ⟨c, hc, hcs, hcg⟩ := ok R hR
  refine ⟨b, c, hb, hc, by rw [hbs, hs], by rw [hcs, hs], fun m iz y x => ?_⟩
  rw [hcg, hget, hbg, ← field_mul, ← field_mul, ← field_add]
  refine field_congr (fun i hi j hj => ?_) y x
  rw [hsz] at hi hj
  simp only [HanserNum.pupilAt, HanserNum.baseOf, hlin i hi j hj]
  ring

/-- C48: multiplying the applied pupil by a number of modulus 1 (a piston) does not change the intensity PSF. -/
theorem C48_piston (p : Params) (v : PyVal) (hv : p.size = some v) (P R : Arr ℂ) (α : ℂ) (hα : ‖α‖ = 1)
    (hP : P.shape = [pyNat v, pyNat v]) (hR : R.shape = [pyNat v, pyNat v])
    (hlin : ∀ i < pyNat v, ∀ j < pyNat v, R.get [i, j] = α * P.get [i, j])
    (b : Arr ℝ) (hb : (⟨p, some P⟩ : HSpec).PSFi = .ok b) :
    ∃ b', (⟨p, some R⟩ : HSpec).PSFi = .ok b' ∧ b'.shape = b.shape ∧ ∀ iz y x, b'.get [iz, y, x] = b.get [iz, y, x] := by
  obtain ⟨a, ha, rfl⟩ := PSFi_ok hb
  obtain ⟨b', c, hb', hc, hbs, hcs, hget⟩ := C48_linear p v hv P P R α 0 hP hP hR (fun i hi j hj => by rw [hlin i hi j hj]; ring) a ha
  obtain ⟨v', Z, A, B, -, hs⟩ := psfa_shape _ a ha
  rw [hs] at hcs
  refine ⟨_, PSFi_of hc, ?_, fun iz y x => ?_⟩
  · rw [psfiOf_shape c _ _ _ _ hcs, psfiOf_shape a _ _ _ _ hs]
  · rw [psfiOf_get c _ _ _ _ hcs, psfiOf_get a _ _ _ _ hs]
    refine Finset.sum_congr rfl fun m _ => ?_
    rw [hget, zero_mul, add_zero, norm_mul, hα, one_mul]

/-- Non-vacuity of C48: a constant pupil applied to the demo model. -/
theorem demo_pupil : ∃ (p : Params) (v : PyVal) (a : Arr ℂ), p.size = some v ∧
    (⟨p, some ⟨[pyNat v, pyNat v], fun _ => 1⟩⟩ : HSpec).PSFa = .ok a := by
  obtain ⟨o, a, ho, hf, h3, ha⟩ := demo_optics
  have h4 := h3
  obtain ⟨v, hv, -⟩ := h3.size
  obtain ⟨a', ha'⟩ := (C76_computable (⟨o.params, some ⟨[pyNat v, pyNat v], fun _ => 1⟩⟩ : HSpec)
    (by intro P v' h1 h2; cases h1; simp only at h2; rw [hv] at h2; cases h2; rfl) h4).mpr
    ⟨by norm_num, by norm_num, by norm_num, by norm_num⟩
  exact ⟨o.params, v, a', hv, ha'⟩

end PyOTF
