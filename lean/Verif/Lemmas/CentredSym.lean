import Verif.Lemmas.Pair

/-!
# Symmetry, size and energy of a centred inverse transform
-/

namespace PyOTF

open Complex

theorem wave_opp {n j : ℕ} (k : ℕ) (hj : j < n) : exp (2 * Real.pi * I * (turns n (opp n j) k : ℝ)) = exp (-(2 * Real.pi * I * (turns n j k : ℝ))) := by
  rw [← W_turns, ← W_neg_turns]
  apply W_modEq (by omega)
  obtain ⟨d, hd⟩ := opp_dvd hj
  exact ⟨d * ((k : ℤ) - (n / 2 : ℕ)), by linear_combination ((k : ℤ) - (n / 2 : ℕ)) * hd⟩

theorem turns_comm (n j k : ℕ) : turns n j k = turns n k j := by unfold turns; ring

theorem wave_opp' {n k : ℕ} (j : ℕ) (hk : k < n) : exp (2 * Real.pi * I * (turns n j (opp n k) : ℝ)) = exp (-(2 * Real.pi * I * (turns n j k : ℝ))) := by
  rw [turns_comm, wave_opp j hk, turns_comm]

theorem wave_conj (t : ℝ) : (starRingEnd ℂ) (exp (2 * Real.pi * I * (t : ℝ))) = exp (-(2 * Real.pi * I * (t : ℝ))) := by
  rw [← exp_conj]
  congr 1
  simp only [map_mul, conj_I, conj_ofReal, map_ofNat]
  ring

theorem wave_norm (t : ℝ) : ‖exp (2 * Real.pi * I * (t : ℝ))‖ = 1 := by
  rw [show (2 * Real.pi * I * (t : ℝ) : ℂ) = ((2 * Real.pi * t : ℝ) : ℂ) * I by push_cast; ring]
  exact norm_exp_ofReal_mul_I _

theorem wave_split (a b c : ℝ) : exp (2 * Real.pi * I * ((a + b + c : ℝ) : ℂ)) =
    exp (2 * Real.pi * I * (a : ℝ)) * exp (2 * Real.pi * I * (b : ℝ)) * exp (2 * Real.pi * I * (c : ℝ)) := by
  rw [← exp_add, ← exp_add]; congr 1; push_cast; ring

/-- A real spectrum gives conjugate amplitudes at opposite points. -/
theorem centredInverse_point (f : ℕ → ℕ → ℕ → ℝ) (Z A B z y x : ℕ) (hz : z < Z) (hy : y < A) (hx : x < B) :
    centredInverse (fun a p q => (f a p q : ℂ)) Z A B (opp Z z) (opp A y) (opp B x) =
      (starRingEnd ℂ) (centredInverse (fun a p q => (f a p q : ℂ)) Z A B z y x) := by
  unfold centredInverse
  rw [map_div₀]
  congr 1
  · simp only [map_sum, map_mul, conj_ofReal, wave_conj]
    refine Finset.sum_congr rfl fun a _ => Finset.sum_congr rfl fun p _ => Finset.sum_congr rfl fun q _ => ?_
    rw [wave_split, wave_opp a hz, wave_opp p hy, wave_opp q hx, ← wave_conj, ← wave_conj, ← wave_conj, ← map_mul, ← map_mul, ← wave_split,
      wave_conj]
  · simp

/-- Mirror symmetry of the lateral coordinates. -/
theorem centredInverse_mirror (f g : ℕ → ℕ → ℕ → ℂ) (Z A B z y x : ℕ) (hx : x < B)
    (h : ∀ a < Z, ∀ p < A, ∀ q < B, f a p (opp B q) = g a p q) :
    centredInverse f Z A B z y (opp B x) = centredInverse g Z A B z y x := by
  unfold centredInverse
  congr 1
  refine Finset.sum_congr rfl fun a ha => Finset.sum_congr rfl fun p hp => ?_
  refine ((sum_opp B _).symm).trans (Finset.sum_congr rfl fun q hq => ?_)
  have hq := Finset.mem_range.mp hq
  rw [h a (Finset.mem_range.mp ha) p (Finset.mem_range.mp hp) q hq, wave_split, wave_split, wave_opp _ hx, exp_neg, wave_opp' _ hq, exp_neg, inv_inv]

theorem centredInverse_mirror_y (f g : ℕ → ℕ → ℕ → ℂ) (Z A B z y x : ℕ) (hy : y < A)
    (h : ∀ a < Z, ∀ p < A, ∀ q < B, f a (opp A p) q = g a p q) :
    centredInverse f Z A B z (opp A y) x = centredInverse g Z A B z y x := by
  unfold centredInverse
  congr 1
  refine Finset.sum_congr rfl fun a ha => ?_
  refine ((sum_opp A _).symm).trans (Finset.sum_congr rfl fun p hp => ?_)
  refine Finset.sum_congr rfl fun q hq => ?_
  have hp := Finset.mem_range.mp hp
  rw [h a (Finset.mem_range.mp ha) p hp q (Finset.mem_range.mp hq), wave_split, wave_split, wave_opp _ hy, exp_neg, wave_opp' _ hp, exp_neg, inv_inv]

theorem centredInverse_exchange (f g : ℕ → ℕ → ℕ → ℂ) (Z A z y x : ℕ) (h : ∀ a < Z, ∀ p < A, ∀ q < A, f a q p = g a p q) :
    centredInverse f Z A A z x y = centredInverse g Z A A z y x := by
  unfold centredInverse
  congr 1
  refine Finset.sum_congr rfl fun a ha => ?_
  rw [Finset.sum_comm]
  refine Finset.sum_congr rfl fun p hp => Finset.sum_congr rfl fun q hq => ?_
  rw [h a (Finset.mem_range.mp ha) p (Finset.mem_range.mp hp) q (Finset.mem_range.mp hq), wave_split, wave_split]
  ring

theorem centredInverse_neg (f : ℕ → ℕ → ℕ → ℂ) (Z A B z y x : ℕ) : centredInverse (fun a p q => -f a p q) Z A B z y x = -centredInverse f Z A B z y x := by
  unfold centredInverse
  simp only [neg_mul, Finset.sum_neg_distrib, neg_div]

theorem centredInverse_congr (f g : ℕ → ℕ → ℕ → ℂ) (Z A B z y x : ℕ) (h : ∀ a < Z, ∀ p < A, ∀ q < B, f a p q = g a p q) :
    centredInverse f Z A B z y x = centredInverse g Z A B z y x := by
  unfold centredInverse
  congr 1
  exact Finset.sum_congr rfl fun a ha => Finset.sum_congr rfl fun p hp => Finset.sum_congr rfl fun q hq => by
    rw [h a (Finset.mem_range.mp ha) p (Finset.mem_range.mp hp) q (Finset.mem_range.mp hq)]

theorem turns_centre (n k : ℕ) : turns n (n / 2) k = 0 := by simp [turns]

theorem centredInverse_origin (f : ℕ → ℕ → ℕ → ℂ) (Z A B : ℕ) : centredInverse f Z A B (Z / 2) (A / 2) (B / 2) =
    (∑ a ∈ Finset.range Z, ∑ p ∈ Finset.range A, ∑ q ∈ Finset.range B, f a p q) / (Z * A * B) := by
  unfold centredInverse
  simp only [turns_centre, add_zero, ofReal_zero, mul_zero, exp_zero, mul_one]

theorem centredInverse_le (f : ℕ → ℕ → ℕ → ℂ) (Z A B z y x : ℕ) : ‖centredInverse f Z A B z y x‖ ≤
    (∑ a ∈ Finset.range Z, ∑ p ∈ Finset.range A, ∑ q ∈ Finset.range B, ‖f a p q‖) / (Z * A * B) := by
  unfold centredInverse
  rw [norm_div]
  have : ‖((Z : ℂ) * A * B)‖ = (Z : ℝ) * A * B := by simp
  rw [this]
  gcongr
  refine (norm_sum_le _ _).trans (Finset.sum_le_sum fun a _ => (norm_sum_le _ _).trans (Finset.sum_le_sum fun p _ =>
    (norm_sum_le _ _).trans (Finset.sum_le_sum fun q _ => ?_)))
  rw [norm_mul, wave_norm, mul_one]

/-- Parseval. -/
theorem centredInverse_energy (f : ℕ → ℕ → ℕ → ℂ) (Z A B : ℕ) (hZ : 0 < Z) (hA : 0 < A) (hB : 0 < B) :
    ∑ z ∈ Finset.range Z, ∑ y ∈ Finset.range A, ∑ x ∈ Finset.range B, ‖centredInverse f Z A B z y x‖ ^ 2 =
    (∑ a ∈ Finset.range Z, ∑ p ∈ Finset.range A, ∑ q ∈ Finset.range B, ‖f a p q‖ ^ 2) / (Z * A * B) := by
  let u : Arr ℂ := ⟨[Z, A, B], fun i => f (i.getD 0 0) (i.getD 1 0) (i.getD 2 0)⟩
  have hc : ∀ z y x, (cinv u).get [z, y, x] = centredInverse f Z A B z y x := by
    intro z y x
    rw [cinv3_get u Z A B rfl]
    unfold centredInverse
    congr 1
    refine Finset.sum_congr rfl fun a _ => Finset.sum_congr rfl fun p _ => Finset.sum_congr rfl fun q _ => ?_
    rw [wave_split, W_turns, W_turns, W_turns]
    show f a p q * _ = _
    ring
  have h := C09_easy_fft_energy none (cinv u) (goodAxes_all _)
  have hs : (cinv u).shape = [Z, A, B] := cinv_shape u
  rw [hs] at h
  have e1 : sumIdx [Z, A, B] (fun i => ‖(easyFft none (cinv u)).get i‖ ^ 2) = sumIdx [Z, A, B] (fun i => ‖u.get i‖ ^ 2) :=
    sumIdx_congr fun i hi => by rw [(easyFft_cinv u).2 i (by rw [easyFft_shape, hs]; exact hi)]
  rw [e1] at h
  have e2 : sumIdx [Z, A, B] (fun i => ‖u.get i‖ ^ 2) = ∑ a ∈ Finset.range Z, ∑ p ∈ Finset.range A, ∑ q ∈ Finset.range B, ‖f a p q‖ ^ 2 := rfl
  have e3 : sumIdx [Z, A, B] (fun i => ‖(cinv u).get i‖ ^ 2) =
      ∑ z ∈ Finset.range Z, ∑ y ∈ Finset.range A, ∑ x ∈ Finset.range B, ‖centredInverse f Z A B z y x‖ ^ 2 := by
    simp only [← hc]; rfl
  have e4 : ((List.map (fun ax => [Z, A, B].getD ax 0) (axesOf none [Z, A, B])).prod : ℕ) = Z * A * B := by
    simp [axesOf, List.range_succ, mul_assoc]
  rw [e2, e3, e4] at h
  have h0 : ((Z : ℝ) * A * B) ≠ 0 := by positivity
  rw [h]
  push_cast
  field_simp

end PyOTF
