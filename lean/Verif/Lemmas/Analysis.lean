import Verif.Spec.PhaseRetrieval
import Verif.Lemmas.HanserPhys

/-!
# `analysis` and `field` are inverse; error reduction
-/

namespace PyOTF

open Complex Physics

theorem analysis_eq (N : ℕ) (f : ℕ → ℕ → ℂ) (i j : ℕ) : analysis N f i j =
    ∑ y ∈ Finset.range N, ∑ x ∈ Finset.range N, f y x * (W N (-(((y : ℤ) - (N / 2 : ℕ)) * i)) *
      W N (-(((x : ℤ) - (N / 2 : ℕ)) * j))) := by
  simp only [analysis, W, ← exp_add]
  refine Finset.sum_congr rfl fun y _ => Finset.sum_congr rfl fun x _ => ?_
  congr 2
  simp only [Int.cast_mul, Int.cast_sub, Int.cast_natCast, Int.cast_neg]
  ring

theorem analysis_fft (N : ℕ) (hN : 0 < N) (f : ℕ → ℕ → ℂ) (i j : ℕ) : analysis N f i j =
    fft1 N (fun y => fft1 N (fun x => f (rollIdx N (-(N / 2 : ℕ)) y) (rollIdx N (-(N / 2 : ℕ)) x)) j) i := by
  rw [analysis_eq]
  simp only [fft1_eq]
  have e1 : ∀ (y k : ℕ), W N (-((((rollIdx N (-(N / 2 : ℕ)) y : ℕ) : ℤ) - (N / 2 : ℕ)) * k)) = W N (-((y : ℤ) * k)) := by
    intro y k
    have := W_rollIdx hN (-(N / 2 : ℕ)) y (-(k : ℤ))
    have h2 : -((((rollIdx N (-(N / 2 : ℕ)) y : ℕ) : ℤ) - (N / 2 : ℕ)) * (k : ℤ)) =
      -(k : ℤ) * (rollIdx N (-(N / 2 : ℕ)) y : ℕ) + (N / 2 : ℕ) * k := by ring
    rw [h2, W_add, this, ← W_add]
    congr 1; ring
  rw [← sum_rollIdx N (-(N / 2 : ℕ)) fun y => ∑ x ∈ Finset.range N, f y x * (W N (-(((y : ℤ) - (N / 2 : ℕ)) * i)) *
      W N (-(((x : ℤ) - (N / 2 : ℕ)) * j)))]
  refine Finset.sum_congr rfl fun y _ => ?_
  rw [← sum_rollIdx N (-(N / 2 : ℕ)) fun x => f (rollIdx N (-(N / 2 : ℕ)) y) x *
    (W N (-((((rollIdx N (-(N / 2 : ℕ)) y : ℕ) : ℤ) - (N / 2 : ℕ)) * i)) * W N (-(((x : ℤ) - (N / 2 : ℕ)) * j))), Finset.sum_mul]
  refine Finset.sum_congr rfl fun x _ => ?_
  rw [e1, e1]
  ring

theorem analysis_field (N : ℕ) (P : ℕ → ℕ → ℂ) (i j : ℕ) (hi : i < N) (hj : j < N) : analysis N (field N N P) i j = P i j := by
  have hN : 0 < N := by omega
  rw [analysis_fft N hN]
  simp only [field_ifft N N hN hN]
  have e : ∀ y < N, rollIdx N (N / 2 : ℕ) (rollIdx N (-(N / 2 : ℕ)) y) = y := fun y hy => by
    rw [rollIdx_comp _ _ _ hN]; exact rollIdx_of_dvd hy (by simp)
  have c1 : ∀ (x x' : ℕ → ℂ) (k : ℕ), (∀ y < N, x y = x' y) → fft1 N x k = fft1 N x' k := fun x x' k h => by
    rw [fft1_eq, fft1_eq]
    exact Finset.sum_congr rfl fun y hy => by rw [h y (Finset.mem_range.mp hy)]
  rw [c1 _ (fun y => ifft1 N (fun i' => P i' j) y) i fun y hy => ?_, fft1_ifft1 N _ i hi]
  rw [c1 _ (fun x => ifft1 N (fun j' => ifft1 N (fun i' => P i' j') y) x) j fun x hx => ?_, fft1_ifft1 N _ j hj]
  rw [e y hy, e x hx]
  simp only [ifft1_eq, Finset.sum_mul, Finset.sum_div]
  rw [Finset.sum_comm]
  refine Finset.sum_congr rfl fun a _ => Finset.sum_congr rfl fun b _ => ?_
  ring

theorem field_analysis (N : ℕ) (f : ℕ → ℕ → ℂ) (y x : ℕ) (hy : y < N) (hx : x < N) : field N N (analysis N f) y x = f y x := by
  have hN : 0 < N := by omega
  rw [field_ifft N N hN hN]
  have e : ∀ y < N, rollIdx N (-(N / 2 : ℕ)) (rollIdx N (N / 2 : ℕ) y) = y := fun y hy => by
    rw [rollIdx_comp _ _ _ hN]; exact rollIdx_of_dvd hy (by simp)
  have c1 : ∀ (x x' : ℕ → ℂ) (k : ℕ), (∀ y < N, x y = x' y) → ifft1 N x k = ifft1 N x' k := fun x x' k h => by
    rw [ifft1_eq, ifft1_eq]
    congr 1
    exact Finset.sum_congr rfl fun y hy => by rw [h y (Finset.mem_range.mp hy)]
  have hr : ∀ y, rollIdx N (N / 2 : ℕ) y < N := fun y => rollIdx_lt _ _ hN
  rw [c1 _ (fun i => fft1 N (fun y' => f (rollIdx N (-(N / 2 : ℕ)) y') (rollIdx N (-(N / 2 : ℕ)) (rollIdx N (N / 2 : ℕ) x))) i) _
    fun i hi => ?_, ifft1_fft1 N _ _ (hr y), e y hy, e x hx]
  rw [c1 _ (fun j => fft1 N (fun x' => fft1 N (fun y' => f (rollIdx N (-(N / 2 : ℕ)) y') (rollIdx N (-(N / 2 : ℕ)) x')) i) j) _
    fun j hj => ?_, ifft1_fft1 N _ _ (hr x)]
  rw [analysis_fft N hN]
  simp only [fft1_eq, Finset.sum_mul]
  rw [Finset.sum_comm]
  refine Finset.sum_congr rfl fun a _ => Finset.sum_congr rfl fun b _ => ?_
  ring

/-- The distance of two fields is that of their pupils. -/
theorem dist_parseval (N : ℕ) (hN : 0 < N) (Q : ℕ → ℕ → ℂ) (g : ℕ → ℕ → ℂ) :
    ∑ y ∈ Finset.range N, ∑ x ∈ Finset.range N, ‖field N N Q y x - g y x‖ ^ 2 =
      (∑ i ∈ Finset.range N, ∑ j ∈ Finset.range N, ‖Q i j - analysis N g i j‖ ^ 2) / (N * N) := by
  rw [← field_parseval N N hN hN]
  refine Finset.sum_congr rfl fun y hy => Finset.sum_congr rfl fun x hx => ?_
  have h1 := field_add N N Q (fun i j => (-1) * analysis N g i j) y x
  rw [field_mul, field_analysis N g y x (Finset.mem_range.mp hy) (Finset.mem_range.mp hx)] at h1
  have h2 : field N N (fun i j => Q i j - analysis N g i j) y x = field N N (fun i j => Q i j + (-1) * analysis N g i j) y x := by
    congr 1; funext i j; ring
  rw [h2, h1]
  congr 2; ring

theorem mean_min_real (Z : ℕ) (hZ : 0 < Z) (c : ℕ → ℝ) (w : ℝ) :
    ∑ z ∈ Finset.range Z, ((∑ z ∈ Finset.range Z, c z) / Z - c z) ^ 2 ≤ ∑ z ∈ Finset.range Z, (w - c z) ^ 2 := by
  have hZ' : (0 : ℝ) < Z := by exact_mod_cast hZ
  have e : ∀ w : ℝ, ∑ z ∈ Finset.range Z, (w - c z) ^ 2 = Z * w ^ 2 - 2 * w * (∑ z ∈ Finset.range Z, c z) +
      ∑ z ∈ Finset.range Z, c z ^ 2 := by
    intro w
    simp only [sub_sq, Finset.sum_add_distrib, Finset.sum_sub_distrib, Finset.sum_const, Finset.card_range, nsmul_eq_mul,
      ← Finset.mul_sum]
  rw [e, e]
  set m := ∑ z ∈ Finset.range Z, c z
  have : Z * w ^ 2 - 2 * w * m - (Z * (m / Z) ^ 2 - 2 * (m / Z) * m) = Z * (w - m / Z) ^ 2 := by
    field_simp; ring
  nlinarith [mul_nonneg hZ'.le (sq_nonneg (w - m / Z))]

/-- The mean minimises the sum of squared distances. -/
theorem mean_min (Z : ℕ) (hZ : 0 < Z) (c : ℕ → ℂ) (w : ℂ) :
    ∑ z ∈ Finset.range Z, ‖(∑ z ∈ Finset.range Z, c z) / Z - c z‖ ^ 2 ≤ ∑ z ∈ Finset.range Z, ‖w - c z‖ ^ 2 := by
  have e : ∀ a b : ℂ, ‖a - b‖ ^ 2 = (a.re - b.re) ^ 2 + (a.im - b.im) ^ 2 := fun a b => by
    rw [Complex.sq_norm, Complex.normSq_apply, Complex.sub_re, Complex.sub_im]; ring
  simp only [e, Finset.sum_add_distrib]
  have hre : ((∑ z ∈ Finset.range Z, c z) / (Z : ℂ)).re = (∑ z ∈ Finset.range Z, (c z).re) / Z := by
    rw [Complex.div_natCast_re, Complex.re_sum]
  have him : ((∑ z ∈ Finset.range Z, c z) / (Z : ℂ)).im = (∑ z ∈ Finset.range Z, (c z).im) / Z := by
    rw [Complex.div_natCast_im, Complex.im_sum]
  rw [hre, him]
  exact add_le_add (mean_min_real Z hZ _ _) (mean_min_real Z hZ _ _)

namespace Physics.Problem

variable (S : Problem)

theorem norm_defocus (z i j : ℕ) : ‖S.defocus z i j‖ = 1 := by
  have : (2 * Real.pi * axial S.N S.pixel S.shell i j * S.height z * I : ℂ) =
    ((2 * Real.pi * axial S.N S.pixel S.shell i j * S.height z : ℝ) : ℂ) * I := by push_cast; ring
  rw [defocus, this, norm_exp_ofReal_mul_I]

theorem defocus_ne (z i j : ℕ) : S.defocus z i j ≠ 0 := exp_ne_zero _

/-- Distance between the amplitudes of a pupil and the corrected images of another one. -/
noncomputable def gap (P Q : ℕ → ℕ → ℂ) : ℝ :=
  ∑ z ∈ Finset.range S.Z, ∑ y ∈ Finset.range S.N, ∑ x ∈ Finset.range S.N, ‖S.amplitude Q z y x - S.corrected P z y x‖ ^ 2

theorem gap_eq (hN : 0 < S.N) (P Q : ℕ → ℕ → ℂ) : S.gap P Q = (∑ i ∈ Finset.range S.N, ∑ j ∈ Finset.range S.N,
    ∑ z ∈ Finset.range S.Z, ‖Q i j - analysis S.N (S.corrected P z) i j / S.defocus z i j‖ ^ 2) / (S.N * S.N) := by
  have h : ∀ z i j, ‖Q i j * S.defocus z i j - analysis S.N (S.corrected P z) i j‖ =
      ‖Q i j - analysis S.N (S.corrected P z) i j / S.defocus z i j‖ := by
    intro z i j
    have hd := S.defocus_ne z i j
    have : Q i j * S.defocus z i j - analysis S.N (S.corrected P z) i j =
      (Q i j - analysis S.N (S.corrected P z) i j / S.defocus z i j) * S.defocus z i j := by field_simp
    rw [this, norm_mul, S.norm_defocus, mul_one]
  simp only [gap, amplitude, dist_parseval S.N hN, h]
  rw [← Finset.sum_div, Finset.sum_comm]
  congr 1
  refine Finset.sum_congr rfl fun i _ => ?_
  rw [Finset.sum_comm]

/-- The corrected images of `P` differ from its amplitudes only in the magnitude. -/
theorem gap_self (P : ℕ → ℕ → ℂ) : S.gap P P = S.amplitudeError P := by
  unfold gap amplitudeError
  refine Finset.sum_congr rfl fun z _ => Finset.sum_congr rfl fun y _ => Finset.sum_congr rfl fun x _ => ?_
  have h : S.amplitude P z y x - S.corrected P z y x = ((‖S.amplitude P z y x‖ - √(max 0 (S.data z y x)) : ℝ) : ℂ) *
      exp ((arg (S.amplitude P z y x) : ℝ) * I) := by
    have := norm_mul_exp_arg_mul_I (S.amplitude P z y x)
    rw [corrected]
    push_cast
    rw [sub_mul, this, mul_comm _ I]
  rw [h, norm_mul, norm_exp_ofReal_mul_I, mul_one, Complex.norm_real, Real.norm_eq_abs, sq_abs]

theorem error_le_gap (P Q : ℕ → ℕ → ℂ) : S.amplitudeError Q ≤ S.gap P Q := by
  unfold gap amplitudeError
  refine Finset.sum_le_sum fun z _ => Finset.sum_le_sum fun y _ => Finset.sum_le_sum fun x _ => ?_
  have h : ‖S.corrected P z y x‖ = √(max 0 (S.data z y x)) := by
    rw [corrected, mul_comm I, norm_mul, norm_exp_ofReal_mul_I, mul_one, Complex.norm_real, Real.norm_eq_abs,
      abs_of_nonneg (Real.sqrt_nonneg _)]
  rw [← h, ← sq_abs]
  gcongr
  exact abs_norm_sub_norm_le _ _

/-- The updated pupil is the best one in the aperture. -/
theorem gap_update (hN : 0 < S.N) (hZ : 0 < S.Z) (P Q : ℕ → ℕ → ℂ) (hQ : S.Supported Q) :
    S.gap P (S.update P) ≤ S.gap P Q := by
  rw [gap_eq S hN, gap_eq S hN]
  gcongr ?_ / _
  refine Finset.sum_le_sum fun i hi => Finset.sum_le_sum fun j hj => ?_
  by_cases h : S.Inside i j
  · simp only [update, if_pos h]
    exact mean_min S.Z hZ (fun z => analysis S.N (S.corrected P z) i j / S.defocus z i j) (Q i j)
  · rw [hQ i (Finset.mem_range.mp hi) j (Finset.mem_range.mp hj) h]
    simp only [update, if_neg h]
    exact le_refl _

theorem update_supported (P : ℕ → ℕ → ℂ) : S.Supported (S.update P) := fun i _ j _ h => by simp only [update, if_neg h]

theorem updatePhase_supported (P : ℕ → ℕ → ℂ) : S.Supported (S.updatePhase P) := fun i _ j _ h => by
  simp only [updatePhase, if_neg h]

theorem iterate_supported (b : Bool) (k : ℕ) : S.Supported (S.iterate b k) := by
  cases k with
  | zero => exact fun i _ j _ h => by simp only [iterate, aperture]; exact if_neg h
  | succ k =>
    cases b
    · exact S.update_supported _
    · exact S.updatePhase_supported _

/-- Error reduction. -/
theorem error_reduction (hN : 0 < S.N) (hZ : 0 < S.Z) (P : ℕ → ℕ → ℂ) (hP : S.Supported P) :
    S.amplitudeError (S.update P) ≤ S.amplitudeError P :=
  ((S.error_le_gap P _).trans (S.gap_update hN hZ P P hP)).trans_eq (S.gap_self P)

/-- If the data are those of a supported pupil, that pupil is a fixed point. -/
theorem update_fixed (hZ : 0 < S.Z) (P : ℕ → ℕ → ℂ) (hP : S.Supported P)
    (hd : ∀ z < S.Z, ∀ y < S.N, ∀ x < S.N, S.data z y x = ‖S.amplitude P z y x‖ ^ 2) (i j : ℕ) (hi : i < S.N) (hj : j < S.N) :
    S.update P i j = P i j := by
  by_cases h : S.Inside i j
  · have hc : ∀ z < S.Z, ∀ y < S.N, ∀ x < S.N, S.corrected P z y x = S.amplitude P z y x := by
      intro z hz y hy x hx
      rw [corrected, hd z hz y hy x hx, max_eq_right (by positivity), Real.sqrt_sq (norm_nonneg _), mul_comm I,
        norm_mul_exp_arg_mul_I]
    have ha : ∀ z < S.Z, analysis S.N (S.corrected P z) i j = P i j * S.defocus z i j := by
      intro z hz
      rw [← analysis_field S.N (fun i j => P i j * S.defocus z i j) i j hi hj]
      unfold analysis
      refine Finset.sum_congr rfl fun y hy => Finset.sum_congr rfl fun x hx => ?_
      rw [hc z hz y (Finset.mem_range.mp hy) x (Finset.mem_range.mp hx)]
      rfl
    simp only [update, if_pos h]
    rw [Finset.sum_congr rfl fun z hz => show _ = P i j by
      rw [ha z (Finset.mem_range.mp hz), mul_div_cancel_right₀ _ (S.defocus_ne z i j)]]
    rw [Finset.sum_const, Finset.card_range, nsmul_eq_mul, mul_div_cancel_left₀]
    exact_mod_cast hZ.ne'
  · rw [hP i hi j hj h, update, if_neg h]

end Physics.Problem

end PyOTF
