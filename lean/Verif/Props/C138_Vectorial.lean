import Verif.Props.C138_Weights
import Verif.Props.C126_Rounding

/-!
# C138: the amplitude and intensity PSF of every `HanserPSF` in floating point
-/

namespace PyOTF

open Physics Complex

variable {A : FlTrig} {u : ℝ} {o : FlOptics}

/-- The computed amplitude against the diffraction integral. -/
theorem psfaOf_near (hA : A.Accurate u) {ε : ℝ} (hF : A.FftAccurate o.size ε) (ho : o.Valid) (hni : o.na < o.ni) (hu : 2400 * u ≤ 1 - (o.na / o.ni) ^ 2)
    (hgap : ∀ m : ℤ, (m : ℝ) < ((1 - 7 * u) * (o.size * o.res * o.na / o.wl)) ^ 2 ∨ ((1 + 7 * u) * (o.size * o.res * o.na / o.wl)) ^ 2 ≤ m)
    (v : VecCorr) (cd : Condition) (c : ℕ) (hc : c < components v) (z : ℝ) (y x : ℕ) :
    ‖A.psfaOf o v cd c z y x - amplitude o.size o.res (o.ni / o.wl) v cd (aperture o.size o.res (o.na / o.wl)) z c y x‖ ≤ weightedBound u ε o z := by
  classical
  have hN := ho.size
  have hNr : (0 : ℝ) < o.size := by exact_mod_cast hN
  have hwave := component_near hA ho hni hu hgap v cd c hc z
  have mc0 : 0 ≤ marginalCos o := Real.sqrt_nonneg _
  set n := (aperturePixels o.size o.res (o.na / o.wl)).card with hn
  set X := A.component o v cd c z with hX
  have hcomp : A.psfaOf o v cd c z y x = A.ifft2 o.size X (rollIdx o.size (o.size / 2 : ℕ) y) (rollIdx o.size (o.size / 2 : ℕ) x) := rfl
  have hfield : ‖field o.size o.size X y x - amplitude o.size o.res (o.ni / o.wl) v cd (aperture o.size o.res (o.na / o.wl)) z c y x‖ ≤
      n * componentError u o z / o.size ^ 2 := by
    set P : ℕ → ℕ → ℂ := fun i j => aperture o.size o.res (o.na / o.wl) i j * exp (2 * Real.pi * axial o.size o.res (o.ni / o.wl) i j * z * I) *
      (weight o.size o.res (o.ni / o.wl) v cd c i j : ℝ) with hP
    have ham : amplitude o.size o.res (o.ni / o.wl) v cd (aperture o.size o.res (o.na / o.wl)) z c y x = field o.size o.size P y x := rfl
    have hsub : field o.size o.size X y x - field o.size o.size P y x = field o.size o.size (fun i j => X i j - P i j) y x := by
      rw [sub_eq_iff_eq_add, ← field_add]
      exact field_congr (fun i _ j _ => by ring) y x
    rw [ham, hsub]
    refine (field_le _ _ _ _ _).trans ?_
    rw [← pow_two, div_le_div_iff_of_pos_right (by positivity), hn, ← sum_aperture_const]
    refine Finset.sum_le_sum fun i _ => Finset.sum_le_sum fun j _ => ?_
    simp only [hP, aperture]
    split_ifs with h
    · rw [one_mul]; exact ((hwave i j).1 h).1
    · rw [(hwave i j).2 h]; simp
  have hfft : ‖A.psfaOf o v cd c z y x - field o.size o.size X y x‖ ≤ ε * (√n * (1.1 / marginalCos o) / o.size) := by
    rw [hcomp, field_invDft _ hN]
    have hy' : rollIdx o.size (o.size / 2 : ℕ) y < o.size := rollIdx_lt _ _ hN
    have hx' : rollIdx o.size (o.size / 2 : ℕ) x < o.size := rollIdx_lt _ _ hN
    generalize rollIdx o.size (o.size / 2 : ℕ) y = a at *
    generalize rollIdx o.size (o.size / 2 : ℕ) x = b at *
    have hs := hF.2 X
    rw [invDft_energy _ hN] at hs
    have h1 : ‖A.ifft2 o.size X a b - invDft o.size X a b‖ ^ 2 ≤
        ∑ y ∈ Finset.range o.size, ∑ x ∈ Finset.range o.size, ‖A.ifft2 o.size X y x - invDft o.size X y x‖ ^ 2 := by
      refine le_trans ?_ (Finset.single_le_sum (f := fun y => ∑ x ∈ Finset.range o.size, ‖A.ifft2 o.size X y x - invDft o.size X y x‖ ^ 2)
        (fun i _ => Finset.sum_nonneg fun j _ => sq_nonneg _) (Finset.mem_range.mpr hy'))
      exact Finset.single_le_sum (f := fun x => ‖A.ifft2 o.size X a x - invDft o.size X a x‖ ^ 2)
        (fun j _ => sq_nonneg _) (Finset.mem_range.mpr hx')
    have h2 : ∑ i ∈ Finset.range o.size, ∑ j ∈ Finset.range o.size, ‖X i j‖ ^ 2 ≤ n * (1.1 / marginalCos o) ^ 2 := by
      rw [hn, ← sum_aperture_const]
      refine Finset.sum_le_sum fun i _ => Finset.sum_le_sum fun j _ => ?_
      split_ifs with h
      · exact pow_le_pow_left₀ (norm_nonneg _) ((hwave i j).1 h).2 2
      · rw [(hwave i j).2 h]; simp
    have h3 : ‖A.ifft2 o.size X a b - invDft o.size X a b‖ ^ 2 ≤ (ε * (√n * (1.1 / marginalCos o) / o.size)) ^ 2 := by
      refine (h1.trans hs).trans ?_
      rw [mul_pow, div_pow (_ * _), mul_pow, Real.sq_sqrt (by positivity), ← pow_two]
      gcongr
    exact le_of_sq_le_sq h3 (mul_nonneg hF.1 (by positivity))
  calc _ ≤ ‖A.psfaOf o v cd c z y x - field o.size o.size X y x‖ + _ := norm_sub_le_norm_sub_add_norm_sub _ _ _
    _ ≤ _ := by
      unfold weightedBound
      linarith [add_le_add hfft hfield]

/-! ## C138 -/

/-- C138: the amplitude PSF of every unaberrated `HanserPSF` - scalar or vectorial, with or without apodisation - computed in floating point differs from the exact one at every pixel of every
plane and component by at most `weightedBound`, if no pixel is within a few units in the last place of the edge of the aperture and the marginal ray is not within rounding of grazing. -/
theorem C138_all_amplitudes (s : HSpec) (hs : s.pupil = none) {w n i r : ℚ} {N : ℕ} {zs : List ℚ} {v : VecCorr} {cd : Condition} (hop : Optics s.params w n i r N zs v cd)
    (a : Arr ℂ) (ha : s.PSFa = .ok a) (hA : A.Accurate u) {ε : ℝ} (hF : A.FftAccurate N ε) (hN : 0 < N) (hr : 0 < r) (hw : 0 < w) (hn : 0 < n) (hni : n < i)
    (hu : 2400 * u ≤ 1 - ((n : ℝ) / i) ^ 2)
    (hgap : ∀ m : ℤ, (m : ℝ) < ((1 - 7 * u) * (N * r * n / w)) ^ 2 ∨ ((1 + 7 * u) * (N * r * n / w)) ^ 2 ≤ m)
    (c : ℕ) (hc : c < components v) (iz y x : ℕ) :
    ‖A.psfaOf ⟨N, r, w, n, i⟩ v cd c ((zs.getD iz 0 : ℚ) : ℝ) y x - a.get [c, iz, y, x]‖ ≤ weightedBound u ε ⟨N, r, w, n, i⟩ ((zs.getD iz 0 : ℚ) : ℝ) := by
  have hf : s.Fits := fun P v h => by rw [hs] at h; cases h
  rw [(C76_diffraction_integral s hf hop a ha).2 c iz y x]
  have hv : (⟨N, r, w, n, i⟩ : FlOptics).Valid := ⟨hN, Rat.cast_pos.mpr hr, Rat.cast_pos.mpr hw, Rat.cast_pos.mpr hn⟩
  have e : s.pupilFn N r ((n / w : ℚ) : ℝ) = aperture N r ((n : ℝ) / w) := by
    unfold HSpec.pupilFn; rw [hs]; push_cast; rfl
  rw [e]
  have := psfaOf_near (o := ⟨N, r, w, n, i⟩) hA hF hv (Rat.cast_lt.mpr hni) hu hgap v cd c hc ((zs.getD iz 0 : ℚ) : ℝ) y x
  push_cast at this ⊢
  exact this

theorem plist_length (v : VecCorr) : max 1 (A.plist v 0 0).length = components v := by cases v <;> rfl

theorem components_le (v : VecCorr) : components v ≤ 6 := by cases v <;> simp [components]

/-- The squared modulus of a computed amplitude. -/
theorem modulus_near (hA : A.Accurate u) {D : ℕ → ℕ} (hD : A.toArith.Accurate u D) (p : ℂ) : Near u 7 (‖p‖ ^ 2) (A.fl (A.hyp p.re p.im ^ 2)) := by
  have h0 := hA.nonneg
  have h1 := hA.small
  have hh := hA.hyp p.re p.im
  have hnorm : √(p.re ^ 2 + p.im ^ 2) = ‖p‖ := by
    rw [Complex.norm_def, Complex.normSq_apply]; congr 1; ring
  rw [hnorm] at hh
  obtain ⟨l, r⟩ := abs_le.mp hh
  have p0 := norm_nonneg p
  have l3 : (1 - u) ^ 3 * ‖p‖ ≤ A.hyp p.re p.im := by
    have : (1 - u) ^ 3 ≤ 1 - 2 * u := by nlinarith [mul_nonneg (mul_nonneg h0 h0) h0]
    nlinarith [mul_le_mul_of_nonneg_right this p0]
  have r3 : A.hyp p.re p.im ≤ (1 + u) ^ 3 * ‖p‖ := by
    have : 1 + 2 * u ≤ (1 + u) ^ 3 := by nlinarith [mul_nonneg h0 h0, mul_nonneg (mul_nonneg h0 h0) h0]
    nlinarith [mul_le_mul_of_nonneg_right this p0]
  have hv0 : 0 ≤ A.hyp p.re p.im := le_trans (mul_nonneg (pow_nonneg (by linarith) 3) p0) l3
  refine near_fl hD (by positivity) ⟨?_, ?_⟩
  · have := pow_le_pow_left₀ (mul_nonneg (pow_nonneg (by linarith) 3) p0) l3 2
    rw [mul_pow, ← pow_mul] at this
    exact this
  · have := pow_le_pow_left₀ hv0 r3 2
    rw [mul_pow, ← pow_mul] at this
    exact this

theorem one_sub_pow_le (h0 : 0 ≤ u) (h1 : u ≤ 1) (k : ℕ) : 1 - (1 - u) ^ k ≤ (1 + u) ^ k - 1 := by
  have e1 := one_add_mul_le_pow (a := u) (by linarith) k
  have e2 := one_add_mul_le_pow (a := -u) (by linarith) k
  rw [← sub_eq_add_neg] at e2
  linarith

/-- C138: and the intensity PSF, whatever the order in which the (at most six) components are added: the error is that of the amplitudes, `E`, and a relative one of `7 + D` roundings,
`D` additions deep. -/
theorem C138_all_intensities (s : HSpec) (hs : s.pupil = none) {w n i r : ℚ} {N : ℕ} {zs : List ℚ} {v : VecCorr} {cd : Condition} (hop : Optics s.params w n i r N zs v cd)
    (a : Arr ℂ) (ha : s.PSFa = .ok a) (b : Arr ℝ) (hb : s.PSFi = .ok b) (hA : A.Accurate u) {D : ℕ → ℕ} (hD : A.toArith.Accurate u D) {ε : ℝ} (hF : A.FftAccurate N ε)
    (hN : 0 < N) (hr : 0 < r) (hw : 0 < w) (hn : 0 < n) (hni : n < i) (hu : 2400 * u ≤ 1 - ((n : ℝ) / i) ^ 2)
    (hgap : ∀ m : ℤ, (m : ℝ) < ((1 - 7 * u) * (N * r * n / w)) ^ 2 ∨ ((1 + 7 * u) * (N * r * n / w)) ^ 2 ≤ m)
    (iz y x : ℕ) {E : ℝ} (hE : weightedBound u ε ⟨N, r, w, n, i⟩ ((zs.getD iz 0 : ℚ) : ℝ) ≤ E) :
    |A.psfiSum ⟨N, r, w, n, i⟩ v cd ((zs.getD iz 0 : ℚ) : ℝ) y x - b.get [iz, y, x]| ≤
      ∑ c ∈ Finset.range (components v), E * (2 * ‖a.get [c, iz, y, x]‖ + E) +
      ((1 + u) ^ (7 + D 6) - 1) * ∑ c ∈ Finset.range (components v), (‖a.get [c, iz, y, x]‖ + E) ^ 2 := by
  have hf : s.Fits := fun P v h => by rw [hs] at h; cases h
  have h0 := hA.nonneg
  have h1 := hA.small
  obtain ⟨b', C, Z, M, B, hb', hsa, -, hg⟩ := C39_intensity s a ha
  rw [hb] at hb'; cases hb'
  have hsh := (C76_diffraction_integral s hf hop a ha).1
  rw [hsa] at hsh
  have hC : C = components v := (List.cons.inj hsh).1
  subst hC
  rw [(hg iz y x).1]
  have hamp : ∀ c < components v, _ := fun c hc => (C138_all_amplitudes s hs hop a ha hA hF hN hr hw hn hni hu hgap c hc iz y x).trans hE
  have hps : A.psfiSum ⟨N, r, w, n, i⟩ v cd ((zs.getD iz 0 : ℚ) : ℝ) y x = (A.order 4 [y, x] (components v)).sum A.fl fun c =>
      A.fl (A.hyp (A.psfaOf ⟨N, r, w, n, i⟩ v cd c ((zs.getD iz 0 : ℚ) : ℝ) y x).re (A.psfaOf ⟨N, r, w, n, i⟩ v cd c ((zs.getD iz 0 : ℚ) : ℝ) y x).im ^ 2) := by
    rw [FlTrig.psfiSum, plist_length]
  rw [hps]
  set p : ℕ → ℂ := fun c => A.psfaOf ⟨N, r, w, n, i⟩ v cd c ((zs.getD iz 0 : ℚ) : ℝ) y x with hp
  set q : ℕ → ℂ := fun c => a.get [c, iz, y, x] with hq
  obtain ⟨I0, near⟩ := order_near hD (components_le v) (k := 7) (x := fun c => ‖p c‖ ^ 2) (y := fun c => A.fl (A.hyp (p c).re (p c).im ^ 2)) 4 [y, x]
    (fun c _ => ⟨by positivity, modulus_near hA hD (p c)⟩)
  set T := ∑ c ∈ Finset.range (components v), ‖p c‖ ^ 2 with hT
  set F := (A.order 4 [y, x] (components v)).sum A.fl (fun c => A.fl (A.hyp (p c).re (p c).im ^ 2)) with hFF
  have hm : ∀ c ∈ Finset.range (components v), |‖p c‖ - ‖q c‖| ≤ E := fun c hc => (abs_norm_sub_norm_le (p c) (q c)).trans (hamp c (Finset.mem_range.mp hc))
  have t1 : |T - ∑ c ∈ Finset.range (components v), ‖q c‖ ^ 2| ≤ ∑ c ∈ Finset.range (components v), E * (2 * ‖q c‖ + E) := by
    rw [hT, ← Finset.sum_sub_distrib]
    refine (Finset.abs_sum_le_sum_abs _ _).trans (Finset.sum_le_sum fun c hc => ?_)
    have hmc := hm c hc
    obtain ⟨m1, m2⟩ := abs_le.mp hmc
    have p0 := norm_nonneg (p c)
    have q0 := norm_nonneg (q c)
    rw [show ‖p c‖ ^ 2 - ‖q c‖ ^ 2 = (‖p c‖ - ‖q c‖) * (‖p c‖ + ‖q c‖) by ring, abs_mul, abs_of_nonneg (by linarith : 0 ≤ ‖p c‖ + ‖q c‖)]
    exact mul_le_mul hmc (by linarith) (by linarith) ((abs_nonneg _).trans hmc)
  have t2 : T ≤ ∑ c ∈ Finset.range (components v), (‖q c‖ + E) ^ 2 := by
    refine Finset.sum_le_sum fun c hc => pow_le_pow_left₀ (norm_nonneg _) ?_ 2
    have := (abs_le.mp (hm c hc)).2
    linarith
  have k0 : 0 ≤ (1 + u) ^ (7 + D 6) - 1 := by
    have := one_le_pow₀ (n := 7 + D 6) (by linarith : 1 ≤ 1 + u)
    linarith
  have t3 : |F - T| ≤ ((1 + u) ^ (7 + D 6) - 1) * T := by
    have e := one_sub_pow_le h0 (by linarith) (7 + D 6)
    have := mul_le_mul_of_nonneg_right e I0
    rw [abs_le]; constructor <;> nlinarith [near.1, near.2]
  have t4 := mul_le_mul_of_nonneg_left t2 k0
  have t5 := abs_sub_le F T (∑ c ∈ Finset.range (components v), ‖q c‖ ^ 2)
  linarith

/-! ## Non-vacuity -/

/-- Double precision with correctly rounded library functions and an exact transform. -/
noncomputable def doubleTrig : FlTrig where
  toFlMath := doubleMath
  asin w := ieee (Real.arcsin w)
  sin x := ieee (Real.sin x)
  cos x := ieee (Real.cos x)
  atan2 y x := ieee (Complex.arg ⟨x, y⟩)

theorem ieee_abs {x b : ℝ} (h : |x| ≤ b) (hb : b ≤ 4) : |ieee x - x| ≤ 4 * (1 / 2 ^ 53) := by
  have := ieee_round x
  nlinarith [abs_nonneg x]

theorem doubleTrig_accurate : doubleTrig.Accurate (1 / 2 ^ 53) where
  toAccurate := doubleMath_accurate
  asin w _ := ieee_abs (b := 2) (abs_le.mpr ⟨by have := Real.neg_pi_div_two_le_arcsin w; have := Real.pi_le_four; linarith,
    by have := Real.arcsin_le_pi_div_two w; have := Real.pi_le_four; linarith⟩) (by norm_num)
  sin x := ieee_abs (Real.abs_sin_le_one x) (by norm_num)
  cos x := ieee_abs (Real.abs_cos_le_one x) (by norm_num)
  atan2 y x := ieee_abs ((Complex.abs_arg_le_pi _).trans Real.pi_le_four) le_rfl

theorem doubleTrig_sums : doubleTrig.toArith.Accurate (1 / 2 ^ 53) id :=
  ⟨by positivity, by norm_num, ieee_round, fun _ _ n => by show (sequential n).terms.Perm _; rw [sequential_terms], fun _ _ n => sequential_height n, fun _ _ h => h⟩

/-- Non-vacuity: the default model, `HanserPSF(wl=520, na=0.85, ni=1.0, res=130, size=64)` with the sine condition, in double precision (with an exact transform): all of its amplitudes are right
to 11 digits after the point. -/
example : ∃ (s : HSpec) (a : Arr ℂ) (zs : List ℚ), s.pupil = none ∧ Optics s.params 520 (17 / 20) 1 130 64 zs .none .sine ∧ s.PSFa = .ok a ∧ zs.length = 64 ∧
    ∀ iz y x, ‖doubleTrig.psfaOf ⟨64, (130 : ℚ), (520 : ℚ), (17 / 20 : ℚ), (1 : ℚ)⟩ .none .sine 0 ((zs.getD iz 0 : ℚ) : ℝ) y x - a.get [0, iz, y, x]‖ ≤ 1 / 10 ^ 11 := by
  obtain ⟨o, a, ho, hf, hop, ha⟩ := demo_optics
  set zs := (List.range 64).map (plane 64 130) with hzs
  refine ⟨⟨o.params, none⟩, a, zs, rfl, hop, ha, by simp [hzs], fun iz y x => ?_⟩
  refine (C138_all_amplitudes _ rfl hop a ha doubleTrig_accurate (doubleMath_fft 64) (by norm_num) (by norm_num) (by norm_num) (by norm_num) (by norm_num) (by norm_num)
    (fun m => ?_) 0 (by simp [components]) iz y x).trans ?_
  · rcases le_or_gt m 184 with h | h
    · left
      have : (m : ℝ) ≤ 184 := by exact_mod_cast h
      refine this.trans_lt ?_
      norm_num
    · right
      have : (185 : ℝ) ≤ m := by exact_mod_cast h
      refine le_trans ?_ this
      norm_num
  · have hz : |((zs.getD iz 0 : ℚ) : ℝ)| ≤ 4160 := by
      have : |zs.getD iz 0| ≤ 4160 := by
        rcases lt_or_ge iz 64 with h | h
        · have e : zs.getD iz 0 = plane 64 130 iz := by simp [hzs, h]
          have h1 : (iz : ℚ) ≤ 63 := by exact_mod_cast (by omega : iz ≤ 63)
          have h2 : (0 : ℚ) ≤ iz := by positivity
          rw [e, abs_le]; unfold plane
          constructor <;> push_cast <;> linarith
        · rw [List.getD_eq_default _ _ (by simp [hzs, h])]; norm_num
      exact_mod_cast this
    generalize ((zs.getD iz 0 : ℚ) : ℝ) = z at *
    have hc : (1 / 2 : ℝ) ≤ marginalCos ⟨64, (130 : ℚ), (520 : ℚ), (17 / 20 : ℚ), (1 : ℚ)⟩ := Real.le_sqrt_of_sq_le (by norm_num)
    have hw : waveError (1 / 2 ^ 53) ⟨64, (130 : ℚ), (520 : ℚ), (17 / 20 : ℚ), (1 : ℚ)⟩ z ≤ 1 / 10 ^ 12 := by
      have h1 : (((1 : ℚ) : ℝ) / ((520 : ℚ) : ℝ)) / √(1 - ((17 / 20 : ℚ) / (1 : ℚ) : ℝ) ^ 2) ≤ 1 / 260 := by
        have hc' : (1 / 2 : ℝ) ≤ √(1 - ((17 / 20 : ℚ) / (1 : ℚ) : ℝ) ^ 2) := hc
        rw [div_le_iff₀ (by linarith)]; push_cast at hc' ⊢; linarith
      unfold waveError
      have hp := Real.pi_le_four
      have hp0 := Real.pi_pos
      have h2 : 2 * Real.pi * |z| ≤ 2 * 4 * 4160 := by gcongr
      have h3 := mul_le_mul h2 (mul_le_mul_of_nonneg_left h1 (by norm_num : (0 : ℝ) ≤ 23 * (1 / 2 ^ 53))) (by positivity) (by norm_num)
      refine le_trans (add_le_add le_rfl h3) ?_
      norm_num
    have hw0 := waveError_nonneg (u := 1 / 2 ^ 53) (o := ⟨64, (130 : ℚ), (520 : ℚ), (17 / 20 : ℚ), (1 : ℚ)⟩) (by positivity) ⟨by norm_num, by norm_num, by norm_num, by norm_num⟩ (by norm_num) z
    have hce : componentError (1 / 2 ^ 53) ⟨64, (130 : ℚ), (520 : ℚ), (17 / 20 : ℚ), (1 : ℚ)⟩ z ≤ 1 / 10 ^ 11 := by
      unfold componentError
      generalize marginalCos ⟨64, (130 : ℚ), (520 : ℚ), (17 / 20 : ℚ), (1 : ℚ)⟩ = c at *
      have h2 : 120 * (1 / 2 ^ 53) / c ^ 2 ≤ 120 * (1 / 2 ^ 53) / (1 / 2) ^ 2 := by gcongr
      rw [div_le_iff₀ (by linarith)]
      norm_num at h2 hw ⊢
      linarith
    have hce0 : 0 ≤ componentError (1 / 2 ^ 53) ⟨64, (130 : ℚ), (520 : ℚ), (17 / 20 : ℚ), (1 : ℚ)⟩ z := by
      unfold componentError
      have : 0 ≤ marginalCos ⟨64, (130 : ℚ), (520 : ℚ), (17 / 20 : ℚ), (1 : ℚ)⟩ := by linarith
      positivity
    have hcard : (aperturePixels 64 ((130 : ℚ) : ℝ) (((17 / 20 : ℚ) : ℝ) / ((520 : ℚ) : ℝ))).card ≤ 64 * 64 := by
      unfold aperturePixels
      refine (Finset.card_filter_le _ _).trans ?_
      simp
    unfold weightedBound
    simp only [zero_mul, add_zero]
    have hcard' : ((aperturePixels 64 ((130 : ℚ) : ℝ) (((17 / 20 : ℚ) : ℝ) / ((520 : ℚ) : ℝ))).card : ℝ) ≤ 64 * 64 := by exact_mod_cast hcard
    rw [div_le_iff₀ (by norm_num)]
    refine (mul_le_mul hcard' hce hce0 (by norm_num)).trans ?_
    norm_num

end PyOTF
