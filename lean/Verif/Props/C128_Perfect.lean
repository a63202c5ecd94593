import Verif.Props.C128_Strehl

/-!
# C128: which wavefronts do not dim the focus at all
-/

namespace PyOTF

open Physics

/-- Phasors with positive weights add up to the sum of the weights only if they are all equal. -/
theorem phasor_sum_eq {ι : Type} (S : Finset ι) (W : ι → ℝ) (Z : ι → ℂ) (hW : ∀ u ∈ S, 0 < W u) (hZ : ∀ u ∈ S, ‖Z u‖ = 1) :
    ‖∑ u ∈ S, (W u : ℂ) * Z u‖ = ∑ u ∈ S, W u ↔ ∀ u ∈ S, ∀ v ∈ S, Z u = Z v := by
  constructor
  · intro h
    rcases S.eq_empty_or_nonempty with rfl | hne
    · simp
    have hpos : 0 < ∑ u ∈ S, W u := Finset.sum_pos hW hne
    set T := ∑ u ∈ S, (W u : ℂ) * Z u with hT
    have hT0 : T ≠ 0 := by
      intro h0
      rw [h0, norm_zero] at h
      linarith
    set d : ℂ := (starRingEnd ℂ) T / ‖T‖ with hd
    have hdT : d * T = ‖T‖ := by
      rw [hd, div_mul_eq_mul_div, mul_comm, Complex.mul_conj, Complex.normSq_eq_norm_sq]
      have : ((‖T‖ : ℝ) : ℂ) ≠ 0 := by exact_mod_cast norm_ne_zero_iff.mpr hT0
      push_cast
      field_simp
    have hnd : ‖d‖ = 1 := by
      rw [hd, norm_div, RCLike.norm_conj, Complex.norm_real, norm_norm, div_self (norm_ne_zero_iff.mpr hT0)]
    have hre : ∑ u ∈ S, W u * (1 - (d * Z u).re) = 0 := by
      have e : ∑ u ∈ S, W u * (d * Z u).re = ‖T‖ := by
        have := congrArg Complex.re hdT
        rw [hT, Finset.mul_sum, Complex.re_sum, ← hT, Complex.ofReal_re] at this
        rw [← this]
        refine Finset.sum_congr rfl fun u _ => ?_
        rw [mul_left_comm, Complex.re_ofReal_mul]
      simp only [mul_sub, mul_one, Finset.sum_sub_distrib]
      rw [e, h, sub_self]
    have hle : ∀ u ∈ S, (d * Z u).re ≤ 1 := by
      intro u hu
      refine (Complex.re_le_norm _).trans ?_
      rw [norm_mul, hnd, hZ u hu, one_mul]
    have hone : ∀ u ∈ S, d * Z u = 1 := by
      intro u hu
      have h0 := (Finset.sum_eq_zero_iff_of_nonneg fun u hu => mul_nonneg (hW u hu).le (sub_nonneg.mpr (hle u hu))).mp hre u hu
      have h1 : (d * Z u).re = 1 := by
        rcases mul_eq_zero.mp h0 with h | h
        · exact absurd h (hW u hu).ne'
        · linarith
      have hn : ‖d * Z u‖ = 1 := by rw [norm_mul, hnd, hZ u hu, one_mul]
      have h2 : Complex.normSq (d * Z u) = 1 := by rw [Complex.normSq_eq_norm_sq, hn, one_pow]
      rw [Complex.normSq_apply, h1] at h2
      apply Complex.ext
      · simpa using h1
      · simp only [Complex.one_im]
        nlinarith
    have hd0 : d ≠ 0 := by
      intro h0
      rw [h0, norm_zero] at hnd
      norm_num at hnd
    intro u hu v hv
    exact mul_left_cancel₀ hd0 ((hone u hu).trans (hone v hv).symm)
  · intro h
    rcases S.eq_empty_or_nonempty with rfl | ⟨v, hv⟩
    · simp
    have : ∑ u ∈ S, (W u : ℂ) * Z u = ((∑ u ∈ S, W u : ℝ) : ℂ) * Z v := by
      push_cast
      rw [Finset.sum_mul]
      exact Finset.sum_congr rfl fun u hu => by rw [h u hu v hv]
    rw [this, norm_mul, hZ v hv, mul_one, Complex.norm_real, Real.norm_eq_abs, abs_of_nonneg (Finset.sum_nonneg fun u hu => (hW u hu).le)]

/-- Equal phasors: phases that differ by whole waves. -/
theorem phasor_eq_iff (x y : ℝ) : Complex.exp (Complex.I * (x : ℝ)) = Complex.exp (Complex.I * (y : ℝ)) ↔ ∃ q : ℤ, x - y = 2 * Real.pi * q := by
  rw [Complex.exp_eq_exp_iff_exists_int]
  constructor
  · rintro ⟨q, h⟩
    refine ⟨q, ?_⟩
    have h' : Complex.I * (x : ℂ) = Complex.I * ((y + q * (2 * Real.pi) : ℝ) : ℂ) := by rw [h]; push_cast; ring
    have := Complex.ofReal_injective (mul_left_cancel₀ Complex.I_ne_zero h')
    linarith
  · rintro ⟨q, h⟩
    refine ⟨q, ?_⟩
    have : x = y + 2 * Real.pi * q := by linarith
    rw [this]; push_cast; ring

/-- C128: scalar theory, phase aberrations only: the centre of the focal plane is as bright as without aberration exactly if the phase is the same at all
pixels of the aperture up to whole waves. -/
theorem C128_perfect (heap : Heap) (k : ℕ) (o : HObj) (hk : heap[k]? = some o) (mc pc : Option (List ℝ))
    (m ph : List ℝ) (hc : fillCoefs mc pc = some (m, ph)) {w n i r : ℚ} {N : ℕ} {zs : List ℚ} {cd : Condition}
    (hA : Aberrable o m ph w n i r N zs .none cd) (hm : ∀ j < m.length, m.getD j 0 = 0)
    (iz0 : ℕ) (hz : zs.getD iz0 0 = 0) :
    ∃ ref o' b b0 D, (applyAberration k mc pc heap).1 = .ok ref ∧ (applyAberration k mc pc heap).2[ref]? = some o' ∧
    (HObj.getPSFi o').1 = .ok b ∧ (⟨o.params, none⟩ : HSpec).PSFi = .ok b0 ∧ NollModes D m.length ∧
    (b.get [iz0, N / 2, N / 2] = b0.get [iz0, N / 2, N / 2] ↔
      ∀ a < N, ∀ c < N, ∀ a' < N, ∀ c' < N, radial N r a c < ((n / w : ℚ) : ℝ) → radial N r a' c' < ((n / w : ℚ) : ℝ) →
        ∃ q : ℤ, zernikeSum D ph N r ((n / w : ℚ) : ℝ) a c - zernikeSum D ph N r ((n / w : ℚ) : ℝ) a' c' = 2 * Real.pi * q) := by
  obtain ⟨ref, o', a, D, h1, h2, h3, h4, h5, h6, h7, h8⟩ := C49_aberrated heap k o hk mc pc m ph hc hA
  have hf : (⟨o.params, none⟩ : HSpec).Fits := by intro P' v' h; cases h
  have hN : 0 < N := by have := hA.pixels; omega
  obtain ⟨a0, ha0⟩ := (C76_computable ⟨o.params, none⟩ hf hA.optics).mpr ⟨hA.wl.ne', hA.res, hN, hA.index⟩
  obtain ⟨hs0, hg0⟩ := C76_diffraction_integral ⟨o.params, none⟩ hf hA.optics a0 ha0
  refine ⟨ref, o', _, _, D, h1, h2, h5, PSFi_of ha0, h6, ?_⟩
  have hl : (0 : ℝ) < ((n / w : ℚ) : ℝ) := by exact_mod_cast div_pos hA.na hA.wl
  rw [psfiOf_get a _ _ _ _ h7, psfiOf_get a0 _ _ _ _ hs0]
  simp only [components, Finset.sum_range_one, h8, hg0, hz, Rat.cast_zero]
  generalize ((n / w : ℚ) : ℝ) = l at *
  generalize ((i / w : ℚ) : ℝ) = κ at *
  have e : ∀ P : ℕ → ℕ → ℂ, ∀ φ : ℕ → ℕ → ℝ, (∀ a b, P a b = aperture N r l a b * Complex.exp (Complex.I * (φ a b : ℝ))) →
      amplitude N r κ .none cd P 0 0 (N / 2) (N / 2) = (∑ u ∈ aperturePixels N r l, ((apodization cd (cosTheta N r κ u.1 u.2) : ℝ) : ℂ) *
        Complex.exp (Complex.I * (φ u.1 u.2 : ℝ))) / (N * N) := by
    intro P φ hP
    rw [← amplitude_focus]
    congr 1
    funext a b
    exact hP a b
  have eA := e (aberrated D m ph N r l) (fun a b => zernikeSum D ph N r l a b) (fun a b => by rw [aberrated, zernikeSum_zero D m hm, Complex.ofReal_zero, add_zero])
  have eI := e ((⟨o.params, none⟩ : HSpec).pupilFn N r l) (fun _ _ => 0) (fun a b => by simp [HSpec.pupilFn])
  rw [eA, eI]
  set Wt := ∑ u ∈ aperturePixels N r l, apodization cd (cosTheta N r κ u.1 u.2) with hWt
  have hWpos : 0 < Wt := aperture_weight_pos hN r κ hl cd
  have e0 : ∑ u ∈ aperturePixels N r l, ((apodization cd (cosTheta N r κ u.1 u.2) : ℝ) : ℂ) * Complex.exp (Complex.I * ((0 : ℝ) : ℂ)) = (Wt : ℂ) := by
    rw [hWt]; push_cast; simp
  have key := phasor_sum_eq (aperturePixels N r l) (fun u => apodization cd (cosTheta N r κ u.1 u.2)) (fun u => Complex.exp (Complex.I * (zernikeSum D ph N r l u.1 u.2 : ℝ)))
    (fun u _ => apodization_pos cd N r κ _ _) (fun u _ => by rw [mul_comm Complex.I, Complex.norm_exp_ofReal_mul_I])
  rw [e0]
  rw [← hWt] at key
  have hNN : (0 : ℝ) < ((N : ℝ) * N) ^ 2 := by positivity
  have n1 : ‖(Wt : ℂ) / (N * N)‖ ^ 2 = Wt ^ 2 / (N * N) ^ 2 := by
    rw [norm_div, Complex.norm_real, Real.norm_eq_abs, abs_of_pos hWpos, norm_mul, Complex.norm_natCast, div_pow]
  have n2 : ∀ S : ℂ, ‖S / (N * N)‖ ^ 2 = ‖S‖ ^ 2 / (N * N) ^ 2 := by
    intro S
    rw [norm_div, norm_mul, Complex.norm_natCast, div_pow]
  rw [n1, n2, div_left_inj' hNN.ne', sq_eq_sq₀ (norm_nonneg _) hWpos.le, key]
  simp only [phasor_eq_iff]
  constructor
  · intro h a ha c hc a' ha' c' hc' r1 r2
    exact h (a, c) (Finset.mem_filter.mpr ⟨by simp [ha, hc], r1⟩) (a', c') (Finset.mem_filter.mpr ⟨by simp [ha', hc'], r2⟩)
  · rintro h ⟨a, c⟩ hu ⟨a', c'⟩ hv
    obtain ⟨m1, r1⟩ := Finset.mem_filter.mp hu
    obtain ⟨m2, r2⟩ := Finset.mem_filter.mp hv
    simp only [Finset.mem_product, Finset.mem_range] at m1 m2
    exact h a m1.1 c m1.2 a' m2.1 c' m2.2 r1 r2

end PyOTF
