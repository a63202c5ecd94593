import Verif.Lemmas.Analysis
import Mathlib.Algebra.Order.Archimedean.Basic

/-!
# Descent of the iteration

The corrected images of a pupil have a fixed total energy, the update is an orthogonal projection onto the stacks
of pupils in the aperture.
-/

namespace PyOTF.Physics.Problem

open Complex

variable (S : Problem)

theorem mean_decomp_real (Z : ℕ) (hZ : 0 < Z) (c : ℕ → ℝ) (w : ℝ) :
    ∑ z ∈ Finset.range Z, (w - c z) ^ 2 = ∑ z ∈ Finset.range Z, ((∑ z ∈ Finset.range Z, c z) / Z - c z) ^ 2 +
      Z * (w - (∑ z ∈ Finset.range Z, c z) / Z) ^ 2 := by
  have hZ' : (Z : ℝ) ≠ 0 := by exact_mod_cast hZ.ne'
  have e : ∀ w : ℝ, ∑ z ∈ Finset.range Z, (w - c z) ^ 2 = Z * w ^ 2 - 2 * w * (∑ z ∈ Finset.range Z, c z) +
      ∑ z ∈ Finset.range Z, c z ^ 2 := by
    intro w
    simp only [sub_sq, Finset.sum_add_distrib, Finset.sum_sub_distrib, Finset.sum_const, Finset.card_range, nsmul_eq_mul,
      ← Finset.mul_sum]
  rw [e, e]
  field_simp; ring

theorem mean_decomp (Z : ℕ) (hZ : 0 < Z) (c : ℕ → ℂ) (w : ℂ) :
    ∑ z ∈ Finset.range Z, ‖w - c z‖ ^ 2 = ∑ z ∈ Finset.range Z, ‖(∑ z ∈ Finset.range Z, c z) / Z - c z‖ ^ 2 +
      Z * ‖w - (∑ z ∈ Finset.range Z, c z) / Z‖ ^ 2 := by
  have e : ∀ a b : ℂ, ‖a - b‖ ^ 2 = (a.re - b.re) ^ 2 + (a.im - b.im) ^ 2 := fun a b => by
    rw [Complex.sq_norm, Complex.normSq_apply, Complex.sub_re, Complex.sub_im]; ring
  have hre : ((∑ z ∈ Finset.range Z, c z) / (Z : ℂ)).re = (∑ z ∈ Finset.range Z, (c z).re) / Z := by
    rw [Complex.div_natCast_re, Complex.re_sum]
  have him : ((∑ z ∈ Finset.range Z, c z) / (Z : ℂ)).im = (∑ z ∈ Finset.range Z, (c z).im) / Z := by
    rw [Complex.div_natCast_im, Complex.im_sum]
  simp only [e, Finset.sum_add_distrib, hre, him]
  rw [mean_decomp_real Z hZ _ w.re, mean_decomp_real Z hZ _ w.im]
  ring

/-- Pythagoras: the update is the orthogonal projection. -/
theorem gap_decomp (hN : 0 < S.N) (hZ : 0 < S.Z) (P Q : ℕ → ℕ → ℂ) (hQ : S.Supported Q) :
    S.gap P Q = S.gap P (S.update P) + S.Z * S.distance Q (S.update P) := by
  rw [gap_eq S hN, gap_eq S hN, distance, ← mul_div_assoc, ← add_div]
  congr 1
  rw [Finset.mul_sum, ← Finset.sum_add_distrib]
  refine Finset.sum_congr rfl fun i hi => ?_
  rw [Finset.mul_sum, ← Finset.sum_add_distrib]
  refine Finset.sum_congr rfl fun j hj => ?_
  by_cases h : S.Inside i j
  · simp only [update, if_pos h]
    exact mean_decomp S.Z hZ (fun z => analysis S.N (S.corrected P z) i j / S.defocus z i j) (Q i j)
  · rw [hQ i (Finset.mem_range.mp hi) j (Finset.mem_range.mp hj) h]
    simp [update, if_neg h]

/-- Total energy of the data; negative data count as 0. -/
noncomputable def dataEnergy : ℝ :=
  ∑ z ∈ Finset.range S.Z, ∑ y ∈ Finset.range S.N, ∑ x ∈ Finset.range S.N, max 0 (S.data z y x)

theorem norm_corrected (P : ℕ → ℕ → ℂ) (z y x : ℕ) : ‖S.corrected P z y x‖ = √(max 0 (S.data z y x)) := by
  rw [corrected, mul_comm I, norm_mul, norm_exp_ofReal_mul_I, mul_one, Complex.norm_real, Real.norm_eq_abs,
    abs_of_nonneg (Real.sqrt_nonneg _)]

theorem amplitude_zero (z y x : ℕ) : S.amplitude (fun _ _ => 0) z y x = 0 := by
  simp [amplitude, field]

theorem gap_zero (P : ℕ → ℕ → ℂ) : S.gap P (fun _ _ => 0) = S.dataEnergy := by
  unfold gap dataEnergy
  refine Finset.sum_congr rfl fun z _ => Finset.sum_congr rfl fun y _ => Finset.sum_congr rfl fun x _ => ?_
  rw [amplitude_zero, zero_sub, norm_neg, norm_corrected, Real.sq_sqrt (le_max_left _ _)]

theorem gap_nonneg (P Q : ℕ → ℕ → ℂ) : 0 ≤ S.gap P Q :=
  Finset.sum_nonneg fun z _ => Finset.sum_nonneg fun y _ => Finset.sum_nonneg fun x _ => sq_nonneg _

theorem distance_zero (P : ℕ → ℕ → ℂ) : S.distance (fun _ _ => 0) P = S.energy P := by
  simp [distance, energy]

/-- The energy of the updated pupil in all planes and what the update cannot explain sum to the energy of the data. -/
theorem energy_update (hN : 0 < S.N) (hZ : 0 < S.Z) (P : ℕ → ℕ → ℂ) :
    S.Z * S.energy (S.update P) = S.dataEnergy - S.gap P (S.update P) := by
  have := S.gap_decomp hN hZ P (fun _ _ => 0) (fun _ _ _ _ _ => rfl)
  rw [gap_zero, distance_zero] at this
  linarith

theorem energy_update_le (hN : 0 < S.N) (hZ : 0 < S.Z) (P : ℕ → ℕ → ℂ) : S.Z * S.energy (S.update P) ≤ S.dataEnergy := by
  rw [S.energy_update hN hZ]; linarith [S.gap_nonneg P (S.update P)]

/-- Descent: an update lowers the amplitude error at least by its squared length. -/
theorem descent (hN : 0 < S.N) (hZ : 0 < S.Z) (P : ℕ → ℕ → ℂ) (hP : S.Supported P) :
    S.amplitudeError (S.update P) + S.Z * S.distance P (S.update P) ≤ S.amplitudeError P := by
  have h1 := S.gap_decomp hN hZ P P hP
  rw [S.gap_self] at h1
  have h2 := S.error_le_gap P (S.update P)
  linarith

theorem energy_mono (hN : 0 < S.N) (hZ : 0 < S.Z) (P : ℕ → ℕ → ℂ) :
    S.energy (S.update P) ≤ S.energy (S.update (S.update P)) := by
  have h1 := S.energy_update hN hZ P
  have h2 := S.energy_update hN hZ (S.update P)
  have h3 := S.gap_update hN hZ (S.update P) (S.update P) (S.update_supported P)
  rw [S.gap_self] at h3
  have h4 := S.error_le_gap P (S.update P)
  have hZ' : (0 : ℝ) < S.Z := by exact_mod_cast hZ
  exact le_of_mul_le_mul_left (by linarith) hZ'

theorem iterate_energy_mono (hN : 0 < S.N) (hZ : 0 < S.Z) {j k : ℕ} (hj : 1 ≤ j) (h : j ≤ k) :
    S.energy (S.iterate false j) ≤ S.energy (S.iterate false k) := by
  induction k, h using Nat.le_induction with
  | base => exact le_refl _
  | succ k hk ih =>
    obtain ⟨m, rfl⟩ : ∃ m, k = m + 1 := ⟨k - 1, by omega⟩
    exact ih.trans (S.energy_mono hN hZ (S.iterate false m))

theorem iterate_descent (hN : 0 < S.N) (hZ : 0 < S.Z) (k : ℕ) :
    S.amplitudeError (S.iterate false (k + 1)) + S.Z * S.distance (S.iterate false k) (S.iterate false (k + 1)) ≤
      S.amplitudeError (S.iterate false k) := S.descent hN hZ _ (S.iterate_supported false k)

theorem amplitudeError_nonneg (P : ℕ → ℕ → ℂ) : 0 ≤ S.amplitudeError P :=
  Finset.sum_nonneg fun z _ => Finset.sum_nonneg fun y _ => Finset.sum_nonneg fun x _ => sq_nonneg _

/-- The squared lengths of all updates together are bounded by the error at the beginning. -/
theorem sum_distance (hN : 0 < S.N) (hZ : 0 < S.Z) (a n : ℕ) :
    S.Z * ∑ k ∈ Finset.range n, S.distance (S.iterate false (a + k)) (S.iterate false (a + k + 1)) +
      S.amplitudeError (S.iterate false (a + n)) ≤ S.amplitudeError (S.iterate false a) := by
  induction n with
  | zero => simp
  | succ n ih =>
    rw [Finset.sum_range_succ, mul_add]
    have := S.iterate_descent hN hZ (a + n)
    rw [← add_assoc]
    linarith

/-- Among any `n > E / (Z t)` updates one is shorter than `t`. -/
theorem short_update (hN : 0 < S.N) (hZ : 0 < S.Z) (a n : ℕ) (t : ℝ) (hn : S.amplitudeError (S.iterate false a) < S.Z * (n * t)) :
    ∃ k < n, S.distance (S.iterate false (a + k)) (S.iterate false (a + k + 1)) < t := by
  by_contra hcon
  push Not at hcon
  have h1 := S.sum_distance hN hZ a n
  have h2 : (n : ℝ) * t ≤ ∑ k ∈ Finset.range n, S.distance (S.iterate false (a + k)) (S.iterate false (a + k + 1)) := by
    have := Finset.card_nsmul_le_sum (Finset.range n)
      (fun k => S.distance (S.iterate false (a + k)) (S.iterate false (a + k + 1))) t
      fun k hk => hcon k (Finset.mem_range.mp hk)
    simpa using this
  have h3 := S.amplitudeError_nonneg (S.iterate false (a + n))
  have hZ' : (0 : ℝ) < S.Z := by exact_mod_cast hZ
  have := mul_le_mul_of_nonneg_left h2 hZ'.le
  linarith

/-! ## Energy of the first update -/

theorem amplitude_const_mul (t : ℂ) (P : ℕ → ℕ → ℂ) (z y x : ℕ) : S.amplitude (fun i j => t * P i j) z y x = t * S.amplitude P z y x := by
  unfold amplitude
  rw [← field_mul]
  simp only [mul_assoc]

/-- Scaling the pupil changes the distance to its corrected images like a parabola. -/
theorem gap_smul (t : ℝ) (P : ℕ → ℕ → ℂ) : S.gap P (fun i j => (t : ℂ) * P i j) =
    t ^ 2 * (∑ z ∈ Finset.range S.Z, ∑ y ∈ Finset.range S.N, ∑ x ∈ Finset.range S.N, ‖S.amplitude P z y x‖ ^ 2) -
    2 * t * (∑ z ∈ Finset.range S.Z, ∑ y ∈ Finset.range S.N, ∑ x ∈ Finset.range S.N,
      ‖S.amplitude P z y x‖ * √(max 0 (S.data z y x))) + S.dataEnergy := by
  unfold gap dataEnergy
  simp only [Finset.mul_sum, ← Finset.sum_sub_distrib, ← Finset.sum_add_distrib]
  refine Finset.sum_congr rfl fun z _ => Finset.sum_congr rfl fun y _ => Finset.sum_congr rfl fun x _ => ?_
  rw [S.amplitude_const_mul]
  have h : (t : ℂ) * S.amplitude P z y x - S.corrected P z y x = ((t * ‖S.amplitude P z y x‖ - √(max 0 (S.data z y x)) : ℝ) : ℂ) *
      exp ((arg (S.amplitude P z y x) : ℝ) * I) := by
    have := norm_mul_exp_arg_mul_I (S.amplitude P z y x)
    rw [corrected]
    push_cast
    rw [sub_mul, mul_assoc, this, mul_comm _ I]
  rw [h, norm_mul, norm_exp_ofReal_mul_I, mul_one, Complex.norm_real, Real.norm_eq_abs, sq_abs]
  have := Real.sq_sqrt (le_max_left 0 (S.data z y x))
  nlinarith

/-- If some voxel is bright in the data and in the image of `P`, the update of `P` is not dark. -/
theorem energy_update_pos (hN : 0 < S.N) (hZ : 0 < S.Z) (P : ℕ → ℕ → ℂ) (hP : S.Supported P) {z y x : ℕ} (hz : z < S.Z)
    (hy : y < S.N) (hx : x < S.N) (hd : 0 < S.data z y x) (ha : S.amplitude P z y x ≠ 0) : 0 < S.energy (S.update P) := by
  set A := ∑ z ∈ Finset.range S.Z, ∑ y ∈ Finset.range S.N, ∑ x ∈ Finset.range S.N, ‖S.amplitude P z y x‖ ^ 2 with hA
  set B := ∑ z ∈ Finset.range S.Z, ∑ y ∈ Finset.range S.N, ∑ x ∈ Finset.range S.N,
      ‖S.amplitude P z y x‖ * √(max 0 (S.data z y x)) with hB
  have hA0 : 0 ≤ A := Finset.sum_nonneg fun z _ => Finset.sum_nonneg fun y _ => Finset.sum_nonneg fun x _ => sq_nonneg _
  have nn : ∀ z y x, 0 ≤ ‖S.amplitude P z y x‖ * √(max 0 (S.data z y x)) := fun z y x => by positivity
  have hB0 : 0 < B := by
    refine Finset.sum_pos' (fun z _ => Finset.sum_nonneg fun y _ => Finset.sum_nonneg fun x _ => nn z y x)
      ⟨z, Finset.mem_range.mpr hz, ?_⟩
    refine Finset.sum_pos' (fun y _ => Finset.sum_nonneg fun x _ => nn z y x) ⟨y, Finset.mem_range.mpr hy, ?_⟩
    refine Finset.sum_pos' (fun x _ => nn z y x) ⟨x, Finset.mem_range.mpr hx, ?_⟩
    exact mul_pos (norm_pos_iff.mpr ha) (Real.sqrt_pos.mpr (lt_max_of_lt_right hd))
  have hZ' : (0 : ℝ) < S.Z := by exact_mod_cast hZ
  set t := B / (A + 1) with ht
  have hsup : S.Supported (fun i j => (t : ℂ) * P i j) := fun i hi j hj h => by simp only [hP i hi j hj h, mul_zero]
  have h1 := S.gap_update hN hZ P _ hsup
  rw [S.gap_smul t P] at h1
  have h2 := S.energy_update hN hZ P
  have h3 : t ^ 2 * A - 2 * t * B < 0 := by
    have hA1 : 0 < A + 1 := by linarith
    have ht0 : 0 < t := div_pos hB0 hA1
    have : t * (A + 1) = B := by rw [ht]; field_simp
    nlinarith [mul_pos ht0 hB0, mul_pos ht0 ht0]
  have : 0 < S.Z * S.energy (S.update P) := by
    rw [h2]
    change _ ≤ t ^ 2 * A - 2 * t * B + S.dataEnergy at h1
    linarith
  exact (mul_pos_iff_of_pos_left hZ').mp this

/-! ## The error of close pupils -/

/-- A single voxel is at most as bright as the whole pupil. -/
theorem norm_amplitude_le (hN : 0 < S.N) (P : ℕ → ℕ → ℂ) (z : ℕ) {y x : ℕ} (hy : y < S.N) (hx : x < S.N) :
    ‖S.amplitude P z y x‖ ^ 2 ≤ S.energy P := by
  have h := field_parseval S.N S.N hN hN (fun i j => P i j * S.defocus z i j)
  simp only [norm_mul, S.norm_defocus, mul_one] at h
  have h2 : S.energy P = ∑ y ∈ Finset.range S.N, ∑ x ∈ Finset.range S.N, ‖S.amplitude P z y x‖ ^ 2 := by
    rw [energy]; exact h.symm
  rw [h2]
  refine le_trans ?_ (Finset.single_le_sum (f := fun y => ∑ x ∈ Finset.range S.N, ‖S.amplitude P z y x‖ ^ 2)
    (fun y _ => Finset.sum_nonneg fun x _ => sq_nonneg _) (Finset.mem_range.mpr hy))
  exact Finset.single_le_sum (f := fun x => ‖S.amplitude P z y x‖ ^ 2) (fun x _ => sq_nonneg _) (Finset.mem_range.mpr hx)

theorem norm_amplitude_sub_le (hN : 0 < S.N) (P Q : ℕ → ℕ → ℂ) (z : ℕ) {y x : ℕ} (hy : y < S.N) (hx : x < S.N) :
    ‖S.amplitude P z y x - S.amplitude Q z y x‖ ^ 2 ≤ S.distance P Q := by
  have h := S.norm_amplitude_le hN (fun i j => P i j + (-1) * Q i j) z hy hx
  have e1 : S.amplitude (fun i j => P i j + (-1) * Q i j) z y x = S.amplitude P z y x - S.amplitude Q z y x := by
    have h1 := field_add S.N S.N (fun i j => P i j * S.defocus z i j) (fun i j => (-1) * (Q i j * S.defocus z i j)) y x
    rw [field_mul] at h1
    have h2 : S.amplitude (fun i j => P i j + (-1) * Q i j) z y x =
        field S.N S.N (fun i j => P i j * S.defocus z i j + (-1) * (Q i j * S.defocus z i j)) y x := by
      unfold amplitude
      congr 1; funext i j; ring
    rw [h2, h1]
    simp only [amplitude]; ring
  have e2 : S.energy (fun i j => P i j + (-1) * Q i j) = S.distance P Q := by
    unfold energy distance
    simp only [neg_mul, one_mul, ← sub_eq_add_neg]
  rwa [e1, e2] at h

/-- Pupils of bounded energy that are close have close errors. -/
theorem mse_close (hN : 0 < S.N) (B : ℝ) : ∃ C, 0 ≤ C ∧ ∀ P Q : ℕ → ℕ → ℂ, S.energy P ≤ B ^ 2 → S.energy Q ≤ B ^ 2 → 0 ≤ B →
    |S.mse P - S.mse Q| ≤ C * √(S.distance P Q) := by
  set D := ∑ z ∈ Finset.range S.Z, ∑ y ∈ Finset.range S.N, ∑ x ∈ Finset.range S.N, |S.data z y x| with hD
  have hD0 : 0 ≤ D := Finset.sum_nonneg fun z _ => Finset.sum_nonneg fun y _ => Finset.sum_nonneg fun x _ => abs_nonneg _
  refine ⟨2 * |B| * (2 * D + 2 * B ^ 2), by positivity, fun P Q hP hQ hB => ?_⟩
  set δ := √(S.distance P Q) with hδ
  rw [abs_of_nonneg hB]
  have hvox : ∀ z < S.Z, ∀ y < S.N, ∀ x < S.N,
      |(S.data z y x - ‖S.amplitude P z y x‖ ^ 2) ^ 2 - (S.data z y x - ‖S.amplitude Q z y x‖ ^ 2) ^ 2| ≤
        2 * B * (2 * D + 2 * B ^ 2) * δ := by
    intro z hz y hy x hx
    set a := ‖S.amplitude P z y x‖ with ha
    set b := ‖S.amplitude Q z y x‖ with hb
    set d := S.data z y x with hd
    have ha0 : 0 ≤ a := norm_nonneg _
    have hb0 : 0 ≤ b := norm_nonneg _
    have haB : a ≤ B := abs_le_of_sq_le_sq' ((S.norm_amplitude_le hN P z hy hx).trans hP) hB |>.2
    have hbB : b ≤ B := abs_le_of_sq_le_sq' ((S.norm_amplitude_le hN Q z hy hx).trans hQ) hB |>.2
    have hab : |a - b| ≤ δ := (abs_norm_sub_norm_le _ _).trans
      (Real.le_sqrt_of_sq_le (S.norm_amplitude_sub_le hN P Q z hy hx))
    have hdD : |d| ≤ D := by
      refine le_trans ?_ (Finset.single_le_sum (f := fun z => ∑ y ∈ Finset.range S.N, ∑ x ∈ Finset.range S.N, |S.data z y x|)
        (fun z _ => Finset.sum_nonneg fun y _ => Finset.sum_nonneg fun x _ => abs_nonneg _) (Finset.mem_range.mpr hz))
      refine le_trans ?_ (Finset.single_le_sum (f := fun y => ∑ x ∈ Finset.range S.N, |S.data z y x|)
        (fun y _ => Finset.sum_nonneg fun x _ => abs_nonneg _) (Finset.mem_range.mpr hy))
      exact Finset.single_le_sum (f := fun x => |S.data z y x|) (fun x _ => abs_nonneg _) (Finset.mem_range.mpr hx)
    have e : (d - a ^ 2) ^ 2 - (d - b ^ 2) ^ 2 = -((a - b) * (a + b) * (2 * d - a ^ 2 - b ^ 2)) := by ring
    rw [e, abs_neg, abs_mul, abs_mul]
    have h1 : |a + b| ≤ 2 * B := by rw [abs_of_nonneg (by linarith)]; linarith
    have h2 : |2 * d - a ^ 2 - b ^ 2| ≤ 2 * D + 2 * B ^ 2 := by
      have := abs_le.mp hdD
      have e1 : a ^ 2 ≤ B ^ 2 := by gcongr
      have e2 : b ^ 2 ≤ B ^ 2 := by gcongr
      rw [abs_le]
      constructor <;> nlinarith [sq_nonneg a, sq_nonneg b]
    calc |a - b| * |a + b| * |2 * d - a ^ 2 - b ^ 2| ≤ δ * (2 * B) * (2 * D + 2 * B ^ 2) := by gcongr
      _ = _ := by ring
  unfold mse mean
  rw [← sub_div, abs_div]
  rcases Nat.eq_zero_or_pos S.Z with hZ | hZ
  · simp [hZ]
    positivity
  have hpos : (0 : ℝ) < S.Z * S.N * S.N := by
    have h1 : (0 : ℝ) < S.Z := by exact_mod_cast hZ
    have h2 : (0 : ℝ) < S.N := by exact_mod_cast hN
    positivity
  rw [abs_of_pos hpos, div_le_iff₀ hpos]
  simp only [← Finset.sum_sub_distrib]
  refine (Finset.abs_sum_le_sum_abs _ _).trans ?_
  have : ∑ z ∈ Finset.range S.Z, ∑ y ∈ Finset.range S.N, ∑ x ∈ Finset.range S.N, 2 * B * (2 * D + 2 * B ^ 2) * δ =
      2 * B * (2 * D + 2 * B ^ 2) * δ * (S.Z * S.N * S.N) := by
    simp only [Finset.sum_const, Finset.card_range, nsmul_eq_mul]; ring
  rw [← this]
  refine Finset.sum_le_sum fun z hz => (Finset.abs_sum_le_sum_abs _ _).trans ?_
  refine Finset.sum_le_sum fun y hy => (Finset.abs_sum_le_sum_abs _ _).trans ?_
  exact Finset.sum_le_sum fun x hx => hvox z (Finset.mem_range.mp hz) y (Finset.mem_range.mp hy) x (Finset.mem_range.mp hx)

/-! ## The stopping rule is reached -/

/-- With a positive tolerance of the error the rule is satisfied sooner or later. -/
theorem stops_mse (hN : 0 < S.N) (hZ : 0 < S.Z) (pt mt : ℝ) (hm : 0 < mt) : ∃ k, S.Stops false pt mt k := by
  have hZ' : (0 : ℝ) < S.Z := by exact_mod_cast hZ
  have hD : 0 ≤ S.dataEnergy := Finset.sum_nonneg fun z _ => Finset.sum_nonneg fun y _ => Finset.sum_nonneg fun x _ =>
    le_max_left _ _
  have hen : ∀ k, S.energy (S.iterate false (1 + k)) ≤ √(S.dataEnergy / S.Z) ^ 2 := by
    intro k
    rw [Real.sq_sqrt (by positivity), le_div_iff₀ hZ', mul_comm, add_comm]
    exact S.energy_update_le hN hZ (S.iterate false k)
  obtain ⟨C, hC, hclose⟩ := S.mse_close hN √(S.dataEnergy / S.Z)
  set t := (mt ^ 2 / (C + 1)) ^ 2 with ht
  have ht0 : 0 < t := by positivity
  obtain ⟨n, hn⟩ := exists_nat_gt (S.amplitudeError (S.iterate false 1) / (S.Z * t))
  obtain ⟨k, -, hk⟩ := S.short_update hN hZ 1 n t (by
    rw [div_lt_iff₀ (by positivity)] at hn
    linarith [mul_left_comm (S.Z : ℝ) n t])
  by_cases h : S.errorAt false (1 + k) < mt
  · exact ⟨1 + k, Or.inl h⟩
  · push Not at h
    refine ⟨1 + k + 1, Or.inr ⟨1 + k, rfl, Or.inl ⟨(hm.trans_le h).ne', ?_⟩⟩⟩
    have h1 : |S.errorAt false (1 + k) - S.errorAt false (1 + k + 1)| ≤
      C * √(S.distance (S.iterate false (1 + k)) (S.iterate false (1 + k + 1))) :=
        hclose _ _ (hen k) (hen (k + 1)) (Real.sqrt_nonneg _)
    have h2 : √(S.distance (S.iterate false (1 + k)) (S.iterate false (1 + k + 1))) < mt ^ 2 / (C + 1) := by
      rw [Real.sqrt_lt' (by positivity)]; exact hk
    rw [div_lt_iff₀ (hm.trans_le h)]
    have h3 : C * √(S.distance (S.iterate false (1 + k)) (S.iterate false (1 + k + 1))) ≤ C * (mt ^ 2 / (C + 1)) :=
      mul_le_mul_of_nonneg_left h2.le hC
    have h4 : C * (mt ^ 2 / (C + 1)) < mt ^ 2 := by
      rw [← mul_div_assoc, div_lt_iff₀ (by positivity)]
      nlinarith [sq_pos_of_pos hm]
    nlinarith

/-- With a positive tolerance of the pupil the rule is satisfied within `2 + E / (Z e t)` passes, if the first update
is not dark. -/
theorem stops_pupil (hN : 0 < S.N) (hZ : 0 < S.Z) (pt mt : ℝ) (hp : 0 < pt) (he : 0 < S.energy (S.iterate false 1)) (n : ℕ)
    (hn : S.amplitudeError (S.iterate false 1) < n * (S.Z * S.energy (S.iterate false 1) * pt)) :
    ∃ k, k ≤ n + 1 ∧ S.Stops false pt mt k := by
  obtain ⟨k, hk, hlt⟩ := S.short_update hN hZ 1 n (S.energy (S.iterate false 1) * pt) (by linarith [mul_left_comm (S.Z : ℝ) n (S.energy (S.iterate false 1) * pt), mul_assoc (S.Z : ℝ) (S.energy (S.iterate false 1)) pt])
  have hmono := S.iterate_energy_mono hN hZ (le_refl 1) (Nat.le_add_right 1 k)
  have hpos := he.trans_le hmono
  refine ⟨1 + k + 1, by omega, Or.inr ⟨1 + k, rfl, Or.inr ⟨hpos.ne', ?_⟩⟩⟩
  rw [div_lt_iff₀ hpos]
  nlinarith

/-! ## Iteration of the phase alone -/

/-- The nearest point of the unit circle. -/
theorem norm_sub_exp_arg_le (u v : ℂ) (hv : ‖v‖ = 1) : ‖exp (I * (arg u : ℝ)) - u‖ ≤ ‖v - u‖ := by
  have h : exp (I * (arg u : ℝ)) - u = ((1 - ‖u‖ : ℝ) : ℂ) * exp ((arg u : ℝ) * I) := by
    have := norm_mul_exp_arg_mul_I u
    push_cast
    rw [sub_mul, this, one_mul, mul_comm I]
  rw [h, norm_mul, norm_exp_ofReal_mul_I, mul_one, Complex.norm_real, Real.norm_eq_abs, ← hv]
  exact abs_norm_sub_norm_le v u

theorem error_reduction_phase (hN : 0 < S.N) (hZ : 0 < S.Z) (P : ℕ → ℕ → ℂ) (hP : S.Supported P)
    (hu : ∀ i < S.N, ∀ j < S.N, S.Inside i j → ‖P i j‖ = 1) :
    S.amplitudeError (S.updatePhase P) ≤ S.amplitudeError P := by
  have h1 := S.gap_decomp hN hZ P P hP
  have h2 := S.gap_decomp hN hZ P (S.updatePhase P) (S.updatePhase_supported P)
  rw [S.gap_self] at h1
  have h3 := S.error_le_gap P (S.updatePhase P)
  have h4 : S.distance (S.updatePhase P) (S.update P) ≤ S.distance P (S.update P) := by
    unfold distance
    gcongr ?_ / _
    refine Finset.sum_le_sum fun i hi => Finset.sum_le_sum fun j hj => ?_
    by_cases hin : S.Inside i j
    · gcongr
      rw [updatePhase, if_pos hin]
      exact norm_sub_exp_arg_le _ _ (hu i (Finset.mem_range.mp hi) j (Finset.mem_range.mp hj) hin)
    · rw [updatePhase, if_neg hin, hP i (Finset.mem_range.mp hi) j (Finset.mem_range.mp hj) hin]
  have hZ' : (0 : ℝ) ≤ S.Z := Nat.cast_nonneg _
  have := mul_le_mul_of_nonneg_left h4 hZ'
  linarith

end PyOTF.Physics.Problem
