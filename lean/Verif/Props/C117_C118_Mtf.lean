import Verif.Props.C115_C116_ConfocalOtf

/-!
# C117, C118: the transfer function of a plane, the missing cone
-/

namespace PyOTF

open Physics Complex

/-! ## Specification -/

/-- Component `c` of the pupil function with the defocus of height `z`. -/
noncomputable def defocusedPupil (N : ℕ) (r k : ℝ) (v : VecCorr) (cd : Condition) (P : ℕ → ℕ → ℂ) (z : ℝ) (c i j : ℕ) : ℂ :=
  P i j * exp (2 * Real.pi * axial N r k i j * z * I) * (weight N r k v cd c i j : ℝ)

/-- Overlap of a pupil with its copy displaced by `(p, q)` pixels. -/
noncomputable def overlap (N : ℕ) (E : ℕ → ℕ → ℂ) (p q : ℤ) : ℂ :=
  ∑ i ∈ Finset.range N, ∑ j ∈ Finset.range N, E i j * (starRingEnd ℂ) (E (cyc N (i - p)) (cyc N (j - q)))

/-! ## Proofs -/

theorem cyc_dvd {N : ℕ} (hN : 0 < N) (k : ℤ) : (N : ℤ) ∣ k - (cyc N k : ℕ) := by
  have h1 := Int.emod_nonneg k (by omega : (N : ℤ) ≠ 0)
  rw [cyc, Int.toNat_of_nonneg h1]
  exact Int.dvd_self_sub_emod

theorem sum_dvd {N : ℕ} (hN : 0 < N) (k : ℤ) (f : ℕ → ℂ) :
    (∑ v ∈ Finset.range N, (if (N : ℤ) ∣ k - v then f v else 0)) = f (cyc N k) := by
  rw [Finset.sum_eq_single (cyc N k)]
  · rw [if_pos (cyc_dvd hN k)]
  · intro v hv hne
    rw [if_neg]
    intro hd
    have h3 := dvd_sub (cyc_dvd hN k) hd
    rw [show k - (cyc N k : ℕ) - (k - v) = (v : ℤ) - (cyc N k : ℕ) by ring] at h3
    have := Int.eq_zero_of_abs_lt_dvd h3 (by rw [abs_lt]; have := Finset.mem_range.mp hv; have := cyc_lt hN k; omega)
    omega
  · intro h; exact absurd (Finset.mem_range.mpr (cyc_lt hN k)) h

/-- The spectrum of an intensity is the autocorrelation of the pupil. -/
theorem spectrum_autocorr (N : ℕ) (hN : 0 < N) (P : ℕ → ℕ → ℂ) (p q : ℤ) :
    ∑ y ∈ Finset.range N, ∑ x ∈ Finset.range N, ((‖field N N P y x‖ ^ 2 : ℝ) : ℂ) * (W N (-(p * y)) * W N (-(q * x))) =
      W N (-((N / 2 : ℕ) * p)) * W N (-((N / 2 : ℕ) * q)) * overlap N P p q / (N * N) := by
  have hN' : (N : ℂ) ≠ 0 := by exact_mod_cast hN.ne'
  have e1 : ∀ y x : ℕ, ((‖field N N P y x‖ ^ 2 : ℝ) : ℂ) * (W N (-(p * y)) * W N (-(q * x))) =
      ∑ i ∈ Finset.range N, ∑ j ∈ Finset.range N, ∑ i' ∈ Finset.range N, ∑ j' ∈ Finset.range N,
        (P i j * (starRingEnd ℂ) (P i' j') / (N * N) ^ 2 * W N (-((N / 2 : ℕ) * ((i : ℤ) - i'))) * W N (-((N / 2 : ℕ) * ((j : ℤ) - j')))) *
        (W N (((i : ℤ) - p - i') * y) * W N (((j : ℤ) - q - j') * x)) := by
    intro y x
    have : ((‖field N N P y x‖ ^ 2 : ℝ) : ℂ) = field N N P y x * (starRingEnd ℂ) (field N N P y x) := by
      rw [mul_conj, normSq_eq_norm_sq]
    rw [this, field_eq]
    simp only [map_div₀, map_sum, map_mul, W_conj, map_natCast]
    rw [div_mul_div_comm, div_mul_eq_mul_div, Finset.sum_mul, Finset.sum_mul, Finset.sum_div]
    refine Finset.sum_congr rfl fun i _ => ?_
    rw [Finset.sum_mul, Finset.sum_mul, Finset.sum_div]
    refine Finset.sum_congr rfl fun j _ => ?_
    rw [Finset.mul_sum, Finset.sum_mul, Finset.sum_div]
    refine Finset.sum_congr rfl fun i' _ => ?_
    rw [Finset.mul_sum, Finset.sum_mul, Finset.sum_div]
    refine Finset.sum_congr rfl fun j' _ => ?_
    have w1 : W N (-((N / 2 : ℕ) * ((i : ℤ) - i'))) * W N (((i : ℤ) - p - i') * y) =
        W N (((y : ℤ) - (N / 2 : ℕ)) * i) * W N (-(((y : ℤ) - (N / 2 : ℕ)) * i')) * W N (-(p * y)) := by
      rw [← W_add, ← W_add, ← W_add]; congr 1; ring
    have w2 : W N (-((N / 2 : ℕ) * ((j : ℤ) - j'))) * W N (((j : ℤ) - q - j') * x) =
        W N (((x : ℤ) - (N / 2 : ℕ)) * j) * W N (-(((x : ℤ) - (N / 2 : ℕ)) * j')) * W N (-(q * x)) := by
      rw [← W_add, ← W_add, ← W_add]; congr 1; ring
    calc _ = P i j * (starRingEnd ℂ) (P i' j') / (N * N) ^ 2 *
        (W N (((y : ℤ) - (N / 2 : ℕ)) * i) * W N (-(((y : ℤ) - (N / 2 : ℕ)) * i')) * W N (-(p * y))) *
        (W N (((x : ℤ) - (N / 2 : ℕ)) * j) * W N (-(((x : ℤ) - (N / 2 : ℕ)) * j')) * W N (-(q * x))) := by ring
      _ = _ := by rw [← w1, ← w2]; ring
  simp only [e1]
  have c1 : ∀ F : ℕ → ℕ → ℕ → ℕ → ℕ → ℕ → ℂ, (∑ a ∈ Finset.range N, ∑ b ∈ Finset.range N, ∑ y ∈ Finset.range N, ∑ k ∈ Finset.range N,
      ∑ y' ∈ Finset.range N, ∑ k' ∈ Finset.range N, F a b y k y' k') = ∑ y ∈ Finset.range N, ∑ k ∈ Finset.range N,
      ∑ y' ∈ Finset.range N, ∑ k' ∈ Finset.range N, ∑ a ∈ Finset.range N, ∑ b ∈ Finset.range N, F a b y k y' k' := by
    intro F
    have c0 : ∀ G : ℕ → ℕ → ℕ → ℂ, (∑ a ∈ Finset.range N, ∑ b ∈ Finset.range N, ∑ y ∈ Finset.range N, G a b y) =
        ∑ y ∈ Finset.range N, ∑ a ∈ Finset.range N, ∑ b ∈ Finset.range N, G a b y := fun G => by
      rw [Finset.sum_congr rfl fun a _ => Finset.sum_comm, Finset.sum_comm]
    rw [c0 fun a b y => ∑ k ∈ Finset.range N, ∑ y' ∈ Finset.range N, ∑ k' ∈ Finset.range N, F a b y k y' k']
    refine Finset.sum_congr rfl fun y _ => ?_
    rw [c0 fun a b k => ∑ y' ∈ Finset.range N, ∑ k' ∈ Finset.range N, F a b y k y' k']
    refine Finset.sum_congr rfl fun k _ => ?_
    rw [c0 fun a b y' => ∑ k' ∈ Finset.range N, F a b y k y' k']
    exact Finset.sum_congr rfl fun y' _ => c0 fun a b k' => F a b y k y' k'
  rw [c1, overlap, Finset.mul_sum, Finset.sum_div]
  refine Finset.sum_congr rfl fun i _ => ?_
  rw [Finset.mul_sum, Finset.sum_div]
  refine Finset.sum_congr rfl fun j _ => ?_
  simp only [← Finset.mul_sum, ← Finset.sum_mul]
  have e2 : ∀ i' j' : ℕ, (P i j * (starRingEnd ℂ) (P i' j') / (N * N) ^ 2 * W N (-((N / 2 : ℕ) * ((i : ℤ) - i'))) *
      W N (-((N / 2 : ℕ) * ((j : ℤ) - j')))) * ((∑ y ∈ Finset.range N, W N (((i : ℤ) - p - i') * y)) * ∑ x ∈ Finset.range N, W N (((j : ℤ) - q - j') * x)) =
      if (N : ℤ) ∣ (i : ℤ) - p - i' then (if (N : ℤ) ∣ (j : ℤ) - q - j' then
        P i j * (starRingEnd ℂ) (P i' j') / (N * N) * (W N (-((N / 2 : ℕ) * p)) * W N (-((N / 2 : ℕ) * q))) else 0) else 0 := by
    intro i' j'
    rw [W_sum hN, W_sum hN]
    by_cases h1 : (N : ℤ) ∣ (i : ℤ) - p - i'
    · rw [if_pos h1, if_pos h1]
      by_cases h2 : (N : ℤ) ∣ (j : ℤ) - q - j'
      · rw [if_pos h2, if_pos h2]
        have m1 : W N (-((N / 2 : ℕ) * ((i : ℤ) - i'))) = W N (-((N / 2 : ℕ) * p)) := by
          apply W_modEq hN
          obtain ⟨u, hu⟩ := h1
          exact ⟨-((N / 2 : ℕ) * u), by linear_combination -((N / 2 : ℕ) : ℤ) * hu⟩
        have m2 : W N (-((N / 2 : ℕ) * ((j : ℤ) - j'))) = W N (-((N / 2 : ℕ) * q)) := by
          apply W_modEq hN
          obtain ⟨u, hu⟩ := h2
          exact ⟨-((N / 2 : ℕ) * u), by linear_combination -((N / 2 : ℕ) : ℤ) * hu⟩
        rw [m1, m2]
        field_simp
      · rw [if_neg h2, if_neg h2]; ring
    · rw [if_neg h1, if_neg h1]; ring
  simp only [e2]
  have e3 : ∀ i' ∈ Finset.range N, (∑ j' ∈ Finset.range N, if (N : ℤ) ∣ (i : ℤ) - p - i' then (if (N : ℤ) ∣ (j : ℤ) - q - j' then
        P i j * (starRingEnd ℂ) (P i' j') / (N * N) * (W N (-((N / 2 : ℕ) * p)) * W N (-((N / 2 : ℕ) * q))) else 0) else 0) =
      if (N : ℤ) ∣ (i : ℤ) - p - i' then
        P i j * (starRingEnd ℂ) (P i' (cyc N (j - q))) / (N * N) * (W N (-((N / 2 : ℕ) * p)) * W N (-((N / 2 : ℕ) * q))) else 0 := by
    intro i' _
    by_cases h1 : (N : ℤ) ∣ (i : ℤ) - p - i'
    · simp only [if_pos h1]
      exact sum_dvd hN ((j : ℤ) - q) fun j' => P i j * (starRingEnd ℂ) (P i' j') / (N * N) * (W N (-((N / 2 : ℕ) * p)) * W N (-((N / 2 : ℕ) * q)))
    · simp only [if_neg h1, Finset.sum_const_zero]
  rw [Finset.sum_congr rfl e3, sum_dvd hN ((i : ℤ) - p) fun i' =>
    P i j * (starRingEnd ℂ) (P i' (cyc N (j - q))) / (N * N) * (W N (-((N / 2 : ℕ) * p)) * W N (-((N / 2 : ℕ) * q)))]
  ring

/-- C117: the lateral spectrum of each plane of `PSFi` is the sum over the components of the autocorrelation of the pupil (with the defocus of the
plane), times a phase factor that puts the origin at pixel `N // 2`. -/
theorem C117_autocorrelation (s : HSpec) (hf : s.Fits) {w n i r : ℚ} {N : ℕ} {zs : List ℚ} {v : VecCorr} {cd : Condition}
    (ho : Optics s.params w n i r N zs v cd) (b : Arr ℝ) (hb : s.PSFi = .ok b) (iz : ℕ) (jy jx : ℤ) :
    sliceSpectrum b N iz jy jx = exp (-(2 * Real.pi * I * ((N / 2 : ℕ) * (jy + jx) / N))) / N ^ 2 *
      ∑ c ∈ Finset.range (components v), overlap N (defocusedPupil N r ((i / w : ℚ) : ℝ) v cd (s.pupilFn N r ((n / w : ℚ) : ℝ))
        ((zs.getD iz 0 : ℚ) : ℝ) c) jy jx := by
  obtain ⟨hs, hN, hget⟩ := psfi_amplitude s hf ho b hb
  rw [sliceSpectrum_W]
  simp only [hget, ofReal_sum, Finset.sum_mul]
  have sw : ∀ f : ℕ → ℕ → ℕ → ℂ, ∑ y ∈ Finset.range N, ∑ x ∈ Finset.range N, ∑ c ∈ Finset.range (components v), f y x c =
      ∑ c ∈ Finset.range (components v), ∑ y ∈ Finset.range N, ∑ x ∈ Finset.range N, f y x c := by
    intro f
    rw [← Finset.sum_product', Finset.sum_comm]
    exact Finset.sum_congr rfl fun c _ => by rw [← Finset.sum_product']
  rw [sw, Finset.mul_sum]
  refine Finset.sum_congr rfl fun c _ => ?_
  refine (spectrum_autocorr N hN (defocusedPupil N r ((i / w : ℚ) : ℝ) v cd (s.pupilFn N r ((n / w : ℚ) : ℝ)) ((zs.getD iz 0 : ℚ) : ℝ) c) jy jx).trans ?_
  have : W N (-((N / 2 : ℕ) * jy)) * W N (-((N / 2 : ℕ) * jx)) = exp (-(2 * Real.pi * I * ((N / 2 : ℕ) * (jy + jx) / N))) := by
    generalize (N / 2 : ℕ) = c2
    rw [W, W, ← exp_add]; congr 1; push_cast; ring
  rw [this]
  ring

theorem norm_overlap_le (N : ℕ) (E : ℕ → ℕ → ℂ) (p q : ℤ) :
    ‖overlap N E p q‖ ≤ ∑ i ∈ Finset.range N, ∑ j ∈ Finset.range N, ‖E i j‖ * ‖E (cyc N (i - p)) (cyc N (j - q))‖ := by
  refine (norm_sum_le _ _).trans (Finset.sum_le_sum fun i _ => (norm_sum_le _ _).trans (Finset.sum_le_sum fun j _ => ?_))
  rw [norm_mul, RCLike.norm_conj]

/-- C117: no aberration and no defocus improves the contrast.  With scalar theory, in every plane of any model and at every lateral frequency the
modulus of the spectrum is at most that of the focal plane of the model whose pupil has the same magnitude and no phase; and there it is the overlap
of the pupil with its displaced copy. -/
theorem C117_contrast (s s0 : HSpec) (hf : s.Fits) (hf0 : s0.Fits) {w n i r : ℚ} {N : ℕ} {zs zs0 : List ℚ} {cd : Condition}
    (ho : Optics s.params w n i r N zs .none cd) (ho0 : Optics s0.params w n i r N zs0 .none cd)
    (hP : ∀ a < N, ∀ c < N, s0.pupilFn N r ((n / w : ℚ) : ℝ) a c = (‖s.pupilFn N r ((n / w : ℚ) : ℝ) a c‖ : ℂ))
    (b b0 : Arr ℝ) (hb : s.PSFi = .ok b) (hb0 : s0.PSFi = .ok b0) (iz0 : ℕ) (hz : zs0.getD iz0 0 = 0) (iz : ℕ) (jy jx : ℤ) :
    ‖sliceSpectrum b N iz jy jx‖ ≤ ‖sliceSpectrum b0 N iz0 jy jx‖ := by
  obtain ⟨-, hN, -⟩ := psfi_amplitude s hf ho b hb
  rw [C117_autocorrelation s hf ho b hb, C117_autocorrelation s0 hf0 ho0 b0 hb0, norm_mul, norm_mul]
  refine mul_le_mul_of_nonneg_left ?_ (norm_nonneg _)
  simp only [components, Finset.sum_range_succ, Finset.sum_range_zero, zero_add]
  refine (norm_overlap_le _ _ _ _).trans (le_of_eq ?_)
  have wnn : ∀ a c, 0 ≤ weight N r ((i / w : ℚ) : ℝ) .none cd 0 a c := by
    intro a c
    simp only [weight, polarization, List.getD_cons_zero, mul_one]
    exact apodization_nonneg cd N r _ a c
  have e1 : ∀ a c, ‖defocusedPupil N r ((i / w : ℚ) : ℝ) .none cd (s.pupilFn N r ((n / w : ℚ) : ℝ)) ((zs.getD iz 0 : ℚ) : ℝ) 0 a c‖ =
      ‖s.pupilFn N r ((n / w : ℚ) : ℝ) a c‖ * weight N r ((i / w : ℚ) : ℝ) .none cd 0 a c := by
    intro a c
    have : ‖exp (2 * Real.pi * axial N r ((i / w : ℚ) : ℝ) a c * ((zs.getD iz 0 : ℚ) : ℝ) * I)‖ = 1 := by
      rw [show (2 * Real.pi * axial N r ((i / w : ℚ) : ℝ) a c * ((zs.getD iz 0 : ℚ) : ℝ) * I : ℂ) =
        ((2 * Real.pi * axial N r ((i / w : ℚ) : ℝ) a c * ((zs.getD iz 0 : ℚ) : ℝ) : ℝ) : ℂ) * I by push_cast; ring, norm_exp_ofReal_mul_I]
    rw [defocusedPupil, norm_mul, norm_mul, this, mul_one, norm_real, Real.norm_eq_abs, abs_of_nonneg (wnn a c)]
  have e2 : ∀ a < N, ∀ c < N, defocusedPupil N r ((i / w : ℚ) : ℝ) .none cd (s0.pupilFn N r ((n / w : ℚ) : ℝ)) ((zs0.getD iz0 0 : ℚ) : ℝ) 0 a c =
      ((‖s.pupilFn N r ((n / w : ℚ) : ℝ) a c‖ * weight N r ((i / w : ℚ) : ℝ) .none cd 0 a c : ℝ) : ℂ) := by
    intro a ha c hc
    rw [defocusedPupil, hz, hP a ha c hc]
    simp
  have e3 : overlap N (defocusedPupil N r ((i / w : ℚ) : ℝ) .none cd (s0.pupilFn N r ((n / w : ℚ) : ℝ)) ((zs0.getD iz0 0 : ℚ) : ℝ) 0) jy jx =
      ((∑ a ∈ Finset.range N, ∑ c ∈ Finset.range N,
        ‖defocusedPupil N r ((i / w : ℚ) : ℝ) .none cd (s.pupilFn N r ((n / w : ℚ) : ℝ)) ((zs.getD iz 0 : ℚ) : ℝ) 0 a c‖ *
        ‖defocusedPupil N r ((i / w : ℚ) : ℝ) .none cd (s.pupilFn N r ((n / w : ℚ) : ℝ)) ((zs.getD iz 0 : ℚ) : ℝ) 0 (cyc N (a - jy)) (cyc N (c - jx))‖ : ℝ) : ℂ) := by
    rw [overlap]
    simp only [ofReal_sum, ofReal_mul]
    refine Finset.sum_congr rfl fun a ha => Finset.sum_congr rfl fun c hc => ?_
    rw [e2 a (Finset.mem_range.mp ha) c (Finset.mem_range.mp hc), e2 _ (cyc_lt hN _) _ (cyc_lt hN _), e1, e1, conj_ofReal]
  rw [e3, norm_real, Real.norm_eq_abs, abs_of_nonneg]
  exact Finset.sum_nonneg fun a _ => Finset.sum_nonneg fun c _ => mul_nonneg (norm_nonneg _) (norm_nonneg _)

/-- C117: so the focal plane of the ideal model has more contrast at every frequency than every other plane. -/
theorem C117_focus (s : HSpec) (hp : s.pupil = none) {w n i r : ℚ} {N : ℕ} {zs : List ℚ} {cd : Condition}
    (ho : Optics s.params w n i r N zs .none cd) (b : Arr ℝ) (hb : s.PSFi = .ok b) (iz0 : ℕ) (hz : zs.getD iz0 0 = 0) (iz : ℕ) (jy jx : ℤ) :
    ‖sliceSpectrum b N iz jy jx‖ ≤ ‖sliceSpectrum b N iz0 jy jx‖ := by
  have hf : s.Fits := fun P v h => by rw [hp] at h; cases h
  refine C117_contrast s s hf hf ho ho (fun a _ c _ => ?_) b b hb hb iz0 hz iz jy jx
  obtain ⟨m, h0, h⟩ := C47_ideal s hp N r ((n / w : ℚ) : ℝ) a c
  rw [h, norm_real, Real.norm_eq_abs, abs_of_nonneg h0]

/-! ## C118 -/

/-- The spectrum along the axis of an array whose planes all have the same total. -/
theorem axial_spectrum (c : Arr ℝ) (Z N : ℕ) (hZ : 0 < Z) (hN : 0 < N) (hs : c.shape = [Z, N, N]) (E : ℝ)
    (hE : ∀ z < Z, ∑ y ∈ Finset.range N, ∑ x ∈ Finset.range N, c.get [z, y, x] = E) (kz : ℕ) (hk : kz < Z) :
    (easyFft none (c.map fun (v : ℝ) => (v : ℂ))).get [kz, N / 2, N / 2] = if kz = Z / 2 then ((Z * E : ℝ) : ℂ) else 0 := by
  rw [easyFft3_get (c.map fun (v : ℝ) => (v : ℂ)) Z N N hs kz (N / 2) (N / 2) hk (by omega) (by omega)]
  have e : ∀ z ∈ Finset.range Z, (∑ y ∈ Finset.range N, ∑ x ∈ Finset.range N, (c.map fun (v : ℝ) => (v : ℂ)).get [z, y, x] *
      (W N (-(((x : ℤ) - (N / 2 : ℕ)) * (((N / 2 : ℕ) : ℤ) - (N / 2 : ℕ)))) * W N (-(((y : ℤ) - (N / 2 : ℕ)) * (((N / 2 : ℕ) : ℤ) - (N / 2 : ℕ)))) *
        W Z (-(((z : ℤ) - (Z / 2 : ℕ)) * ((kz : ℤ) - (Z / 2 : ℕ)))))) =
      ((E : ℂ) * W Z ((Z / 2 : ℕ) * ((kz : ℤ) - (Z / 2 : ℕ)))) * W Z ((-((kz : ℤ) - (Z / 2 : ℕ))) * z) := by
    intro z hz
    rw [← hE z (Finset.mem_range.mp hz)]
    have w0 : W N 0 = 1 := W_dvd hN (dvd_zero _)
    simp only [sub_self, mul_zero, neg_zero, w0, one_mul, ← Finset.sum_mul, mul_assoc, ← W_add]
    congr 1
    · simp only [ofReal_sum]; rfl
    · congr 1; ring
  rw [Finset.sum_congr rfl e, ← Finset.mul_sum, W_sum hZ]
  by_cases h : kz = Z / 2
  · rw [if_pos h, if_pos (by rw [h]; simp), h, sub_self, mul_zero, W_dvd hZ (dvd_zero _)]
    push_cast; ring
  · rw [if_neg h, if_neg, mul_zero]
    intro hd
    have := Int.eq_zero_of_abs_lt_dvd hd (by rw [abs_lt]; omega)
    omega

/-- C118: the missing cone.  For every pupil and every theory, the OTF of a model vanishes on the optical axis away from the origin. -/
theorem C118_model (s : HSpec) (hf : s.Fits) (t : Arr ℂ) (ht : s.OTFi = .ok t) (Z N : ℕ) (hs : t.shape = [Z, N, N]) (kz : ℕ) (hk : kz < Z)
    (hne : kz ≠ Z / 2) : t.get [kz, N / 2, N / 2] = 0 := by
  unfold HSpec.OTFi at ht
  obtain ⟨b, hb, ht⟩ := py_bind_ok ht
  unfold otfiOf at ht
  obtain ⟨_, hc, ht⟩ := py_bind_ok ht
  rw [← py_pure_ok ht] at hs ⊢
  have hbs : b.shape = [Z, N, N] := by rw [← hs, easyFft_shape]; rfl
  obtain ⟨h, hN, hs', -⟩ := psfi_field s hf b hb
  have hN' := hN.pos.2
  rw [hbs] at hs'
  simp only [List.cons.injEq, and_true] at hs'
  rw [← hs'.2.1] at hN'
  rw [axial_spectrum b Z N (by omega) hN' hbs (planeEnergy b N 0) (fun z _ => C40_same_energy s hf b hb Z N hbs z 0) kz hk, if_neg hne]

theorem sum_cyc {M : ℕ} (hM : 0 < M) (A : ℤ) (f : ℕ → ℝ) : ∑ i ∈ Finset.range M, f (cyc M (A + i)) = ∑ i ∈ Finset.range M, f i := by
  refine Finset.sum_nbij' (fun i => cyc M (A + i)) (fun j => cyc M (j - A)) ?_ ?_ ?_ ?_ ?_
  · intro i _; exact Finset.mem_range.mpr (cyc_lt hM _)
  · intro i _; exact Finset.mem_range.mpr (cyc_lt hM _)
  · intro i hi
    obtain ⟨u, hu⟩ := cyc_dvd hM (A + i)
    obtain ⟨u', hu'⟩ := cyc_dvd hM ((cyc M (A + i) : ℕ) - A)
    have h := Int.eq_zero_of_abs_lt_dvd (m := M) (x := (i : ℤ) - (cyc M ((cyc M (A + i) : ℕ) - A) : ℕ)) ⟨u + u', by linear_combination hu + hu'⟩
      (by rw [abs_lt]; have := Finset.mem_range.mp hi; have := cyc_lt hM ((cyc M (A + i) : ℕ) - A); omega)
    omega
  · intro i hi
    obtain ⟨u, hu⟩ := cyc_dvd hM (i - A)
    obtain ⟨u', hu'⟩ := cyc_dvd hM (A + (cyc M (i - A) : ℕ))
    have h := Int.eq_zero_of_abs_lt_dvd (m := M) (x := (i : ℤ) - (cyc M (A + (cyc M (i - A) : ℕ)) : ℕ)) ⟨u + u', by linear_combination hu + hu'⟩
      (by rw [abs_lt]; have := Finset.mem_range.mp hi; have := cyc_lt hM (A + (cyc M (i - A) : ℕ)); omega)
    omega
  · intro i _; rfl

/-- The camera pixels cover the field of view once. -/
theorem superPixel_total (o n : ℕ) (hM : 0 < n * o) (f : ℕ → ℕ → ℝ) : ∑ y ∈ Finset.range n, ∑ x ∈ Finset.range n, superPixel o n f y x =
    ∑ i ∈ Finset.range (n * o), ∑ j ∈ Finset.range (n * o), f i j := by
  have one : ∀ g : ℕ → ℝ, ∑ y ∈ Finset.range n, ∑ dy ∈ Finset.range o,
      g (cyc (n * o) (((n * o / 2 : ℕ) : ℤ) + ((y : ℤ) - (n / 2 : ℕ)) * o + ((dy : ℤ) - (o / 2 : ℕ)))) = ∑ i ∈ Finset.range (n * o), g i := by
    intro g
    rw [← sum_cyc hM (((n * o / 2 : ℕ) : ℤ) - (n / 2 : ℕ) * o - (o / 2 : ℕ)) g, sum_range_mul]
    refine Finset.sum_congr rfl fun y _ => Finset.sum_congr rfl fun d _ => ?_
    congr 2
    generalize (n * o / 2 : ℕ) = c1
    generalize (o / 2 : ℕ) = c2
    generalize (n / 2 : ℕ) = c3
    push_cast; ring
  have e : ∀ y : ℕ, ∑ x ∈ Finset.range n, superPixel o n f y x = ∑ dy ∈ Finset.range o, ∑ j ∈ Finset.range (n * o),
      f (cyc (n * o) (((n * o / 2 : ℕ) : ℤ) + ((y : ℤ) - (n / 2 : ℕ)) * o + ((dy : ℤ) - (o / 2 : ℕ)))) j := by
    intro y
    unfold superPixel
    rw [Finset.sum_comm]
    exact Finset.sum_congr rfl fun dy _ => one _
  simp only [e]
  exact one fun i => ∑ j ∈ Finset.range (n * o), f i j

/-- C118: a widefield microscope does not see the planes of a thick sample: each plane of its PSF has the same total, and its OTF vanishes on the optical
axis away from the origin. -/
theorem C118_widefield (a : MicroArgs) (o n nz : ℕ) (q w na i z : ℚ) (ha : OrdinaryArgs a o n nz q w na i z) :
    ∃ m p t, Micro.newWidefield a = .ok m ∧ (Micro.getPSF m).1 = .ok p ∧ (Micro.getOTF m).1 = .ok t ∧ p.shape = [nz, n, n] ∧ t.shape = [nz, n, n] ∧
      (∀ iz < nz, ∑ y ∈ Finset.range n, ∑ x ∈ Finset.range n, p.get [iz, y, x] = 1 / nz) ∧
      ∀ kz < nz, t.get [kz, n / 2, n / 2] = if kz = nz / 2 then 1 else 0 := by
  obtain ⟨m, h, b, hm, hmod, hb, hbs, hbpos, p, hp, hps, hpget⟩ := C54_widefield a o n nz ha.odd ha.n_pos ha.nz_pos q w na i z
    ha.q_pos.ne' ha.hmod ha.hdual ha.hzr ha.hov ha.hsize ha.hpix ha.hwl ha.hw ha.hna ha.hna0 ha.hni ha.hi ha.hres ha.hz ha.hz0 ha.hzs ha.hspec ha.hvc ha.hcd
  obtain ⟨h', v, cd, hnew, hh, hvz, hO⟩ := widefield_setup a o n nz ha.odd q w na i z ha.hmod ha.hdual ha.hzr ha.hov ha.hsize ha.hpix ha.hwl ha.hw
    ha.hna ha.hna0 ha.hni ha.hi ha.hres ha.hz ha.hz0 ha.hzs ha.hspec ha.hvc ha.hcd
  have hm0 := hm
  rw [hnew] at hm0; cases hm0
  cases hmod
  have ho0 : 0 < o := by have := ha.odd; omega
  have hM : 0 < n * o := Nat.mul_pos ha.n_pos ho0
  have hrel : HRel h ⟨h.params, none⟩ := by
    obtain ⟨r1, r2⟩ := hanser_ready hh
    rw [r2]; exact HRel.cleared r1
  have hb' : (⟨h.params, none⟩ : HSpec).PSFi = .ok b := by rw [← (getPSFi_rel hrel).1, hb]
  have hf : (⟨h.params, none⟩ : HSpec).Fits := fun P v h => by cases h
  have hE : ∀ iz, ∑ y ∈ Finset.range (n * o), ∑ x ∈ Finset.range (n * o), b.get [iz, y, x] = planeEnergy b (n * o) 0 := fun iz =>
    C40_same_energy ⟨h.params, none⟩ hf b hb' nz (n * o) hbs iz 0
  have hsum : b.sum = nz * planeEnergy b (n * o) 0 := by
    rw [sum3 b _ _ _ hbs]
    simp only [hE, Finset.sum_const, Finset.card_range, nsmul_eq_mul]
  have hnz : (nz : ℝ) ≠ 0 := by exact_mod_cast ha.nz_pos.ne'
  have hpl : ∀ iz < nz, ∑ y ∈ Finset.range n, ∑ x ∈ Finset.range n, p.get [iz, y, x] = 1 / nz := by
    intro iz hz
    have : ∀ y ∈ Finset.range n, ∀ x ∈ Finset.range n, p.get [iz, y, x] = superPixel o n (fun i j => b.get [iz, i, j]) y x / b.sum :=
      fun y hy x hx => hpget iz hz y (Finset.mem_range.mp hy) x (Finset.mem_range.mp hx)
    rw [Finset.sum_congr rfl fun y hy => Finset.sum_congr rfl fun x hx => this y hy x hx]
    simp only [← Finset.sum_div]
    rw [superPixel_total o n hM, hE, hsum]
    have : planeEnergy b (n * o) 0 ≠ 0 := by
      intro h0; rw [hsum, h0, mul_zero] at hbpos; exact lt_irrefl _ hbpos
    field_simp
  refine ⟨_, p, spectrum p, hm, hp, ?_, hps, ?_, hpl, fun kz hk => ?_⟩
  · rw [getOTF_run]
    simp only []
    rcases hg : Micro.getPSF (Micro.mk (.int o) (ordinaryParams a n o q) a.pixelSize (.hanser h) .widefield none none) with ⟨e | p', m'⟩
    · rw [hg] at hp; cases hp
    · rw [hg] at hp; cases hp; rfl
  · rw [spectrum, easyFft_shape]; exact hps
  · rw [spectrum, axial_spectrum p nz n ha.nz_pos ha.n_pos hps (1 / nz) hpl kz hk, mul_one_div_cancel hnz, ofReal_one]

/-! ## Non-vacuity -/

example : ∃ m p t, Micro.newWidefield demoMicroArgs = .ok m ∧ (Micro.getPSF m).1 = .ok p ∧ (Micro.getOTF m).1 = .ok t ∧
    (∑ y ∈ Finset.range 64, ∑ x ∈ Finset.range 64, p.get [0, y, x] = 1 / 64) ∧ t.get [0, 32, 32] = 0 ∧ t.get [32, 32, 32] = 1 := by
  have ha : OrdinaryArgs demoMicroArgs 3 64 64 130 520 (17/20) 1 130 := by exact_mod_cast demoArgs_ordinary 520 (by norm_num)
  obtain ⟨m, p, t, h1, h2, h3, -, -, h4, h5⟩ := C118_widefield _ _ _ _ _ _ _ _ _ ha
  refine ⟨m, p, t, h1, h2, h3, by simpa using h4 0 (by norm_num), ?_, ?_⟩
  · simpa using h5 0 (by norm_num)
  · simpa using h5 32 (by norm_num)

/-- Non-vacuity of C117: plane 32 of the model is the focal plane. -/
example : ∃ (s : HSpec) (b : Arr ℝ), s.PSFi = .ok b ∧ ∀ (iz : ℕ) (jy jx : ℤ), ‖sliceSpectrum b 64 iz jy jx‖ ≤ ‖sliceSpectrum b 64 32 jy jx‖ := by
  obtain ⟨o, a, ho, hf, h3, ha⟩ := demo_optics
  exact ⟨⟨o.params, none⟩, _, PSFi_of ha, fun iz jy jx => C117_focus ⟨o.params, none⟩ rfl h3 _ (PSFi_of ha) 32 (by simp [plane]) iz jy jx⟩

example : ∃ (s : HSpec) (t : Arr ℂ), s.OTFi = .ok t ∧ t.shape = [64, 64, 64] ∧ t.get [7, 32, 32] = 0 := by
  obtain ⟨o, a, ho, hf, h3, ha⟩ := demo_optics
  obtain ⟨b, hb, hs, -⟩ := hanser_total_pos ⟨o.params, none⟩ rfl h3 (by norm_num) (by norm_num) (by norm_num) (by norm_num) (by norm_num) (by simp) (by simp)
  obtain ⟨t, ht⟩ := (C44_computable _ _ hb).mpr (by rw [hs]; simp)
  obtain ⟨b', Z, A, B, hb', hs', hts, -, -, -, -⟩ := C44_otfi _ t ht
  rw [hb] at hb'; cases hb'
  have hts' : t.shape = [64, 64, 64] := by rw [hts, ← hs', hs]; simp
  exact ⟨⟨o.params, none⟩, t, ht, hts', C118_model _ hf t ht 64 64 hts' 7 (by norm_num) (by norm_num)⟩

end PyOTF
