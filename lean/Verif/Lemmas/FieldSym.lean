import Verif.Lemmas.HanserPhys

/-!
# Symmetries and spectrum of the field of a pupil
-/

namespace PyOTF

open Complex

/-- Index of the opposite frequency. -/
def negIdx (n i : ℕ) : ℕ := (n - i) % n

theorem negIdx_lt {n : ℕ} (hn : 0 < n) (i : ℕ) : negIdx n i < n := Nat.mod_lt _ hn

theorem negIdx_eq {n i : ℕ} (hi : i < n) : negIdx n i = if i = 0 then 0 else n - i := by
  unfold negIdx
  split_ifs with h
  · subst h; simp
  · exact Nat.mod_eq_of_lt (by omega)

theorem negIdx_negIdx {n i : ℕ} (hi : i < n) : negIdx n (negIdx n i) = i := by
  have h0 : 0 < n := by omega
  rw [negIdx_eq (negIdx_lt h0 i), negIdx_eq hi]
  split_ifs <;> omega

theorem sum_negIdx {β : Type} [AddCommMonoid β] (n : ℕ) (f : ℕ → β) :
    ∑ i ∈ Finset.range n, f (negIdx n i) = ∑ i ∈ Finset.range n, f i := by
  refine Finset.sum_nbij' (negIdx n) (negIdx n) ?_ ?_ ?_ ?_ ?_
  · intro i hi; rw [Finset.mem_range] at hi ⊢; exact negIdx_lt (by omega) i
  · intro i hi; rw [Finset.mem_range] at hi ⊢; exact negIdx_lt (by omega) i
  · intro i hi; exact negIdx_negIdx (Finset.mem_range.mp hi)
  · intro i hi; exact negIdx_negIdx (Finset.mem_range.mp hi)
  · intro i _; rfl

theorem W_negIdx {n i : ℕ} (hi : i < n) (c c' : ℤ) (h : (n : ℤ) ∣ c + c') : W n (c' * (negIdx n i : ℕ)) = W n (c * i) := by
  have hn : 0 < n := by omega
  apply W_modEq hn
  obtain ⟨d, hd⟩ := h
  rw [negIdx_eq hi]
  split_ifs with h0
  · subst h0; simp
  · have : c' = n * d - c := by linarith
    rw [this, Nat.cast_sub hi.le]
    exact ⟨d * (n - i) - c, by ring⟩

/-- Mirror image of the field along the first axis. -/
theorem field_mirror_y (A B : ℕ) (P : ℕ → ℕ → ℂ) (y y' x : ℕ) (h : (A : ℤ) ∣ (y : ℤ) + y' - 2 * (A / 2 : ℕ)) :
    field A B P y' x = field A B (fun i j => P (negIdx A i) j) y x := by
  rw [field_eq, field_eq]
  congr 1
  rw [← sum_negIdx A]
  refine Finset.sum_congr rfl fun i hi => Finset.sum_congr rfl fun j _ => ?_
  rw [W_negIdx (Finset.mem_range.mp hi) ((y : ℤ) - (A / 2 : ℕ)) _ (by convert h using 1; ring)]

theorem field_mirror_x (A B : ℕ) (P : ℕ → ℕ → ℂ) (y x x' : ℕ) (h : (B : ℤ) ∣ (x : ℤ) + x' - 2 * (B / 2 : ℕ)) :
    field A B P y x' = field A B (fun i j => P i (negIdx B j)) y x := by
  rw [field_eq, field_eq]
  congr 1
  refine Finset.sum_congr rfl fun i hi => ?_
  rw [← sum_negIdx B]
  refine Finset.sum_congr rfl fun j hj => ?_
  rw [W_negIdx (Finset.mem_range.mp hj) ((x : ℤ) - (B / 2 : ℕ)) _ (by convert h using 1; ring)]

/-- Exchange of the axes of a square field. -/
theorem field_swap (A : ℕ) (P : ℕ → ℕ → ℂ) (y x : ℕ) : field A A P y x = field A A (fun i j => P j i) x y := by
  rw [field_eq, field_eq, Finset.sum_comm]
  congr 1
  refine Finset.sum_congr rfl fun i _ => Finset.sum_congr rfl fun j _ => ?_
  ring

/-- Complex conjugation of the pupil inverts the field. -/
theorem field_conj (A B : ℕ) (P : ℕ → ℕ → ℂ) (y x y' x' : ℕ) (hA : 0 < A) (hB : 0 < B)
    (h : (A : ℤ) ∣ (y : ℤ) + y' - 2 * (A / 2 : ℕ)) (h' : (B : ℤ) ∣ (x : ℤ) + x' - 2 * (B / 2 : ℕ)) :
    field A B (fun i j => (starRingEnd ℂ) (P i j)) y x = (starRingEnd ℂ) (field A B P y' x') := by
  rw [field_eq, field_eq]
  simp only [map_div₀, map_sum, map_mul, W_conj, map_natCast]
  congr 1
  refine Finset.sum_congr rfl fun i _ => Finset.sum_congr rfl fun j _ => ?_
  congr 2
  · apply W_modEq hA
    obtain ⟨d, hd⟩ := h
    exact ⟨d * i, by linear_combination (i : ℤ) * hd⟩
  · apply W_modEq hB
    obtain ⟨d, hd⟩ := h'
    exact ⟨d * j, by linear_combination (j : ℤ) * hd⟩

theorem field_conj_norm (A B : ℕ) (P : ℕ → ℕ → ℂ) (y x y' x' : ℕ) (hA : 0 < A) (hB : 0 < B)
    (h : (A : ℤ) ∣ (y : ℤ) + y' - 2 * (A / 2 : ℕ)) (h' : (B : ℤ) ∣ (x : ℤ) + x' - 2 * (B / 2 : ℕ)) :
    ‖field A B (fun i j => (starRingEnd ℂ) (P i j)) y x‖ = ‖field A B P y' x'‖ := by
  rw [field_conj A B P y x y' x' hA hB h h', RCLike.norm_conj]

/-- The field nowhere exceeds the total of the magnitudes. -/
theorem field_le (A B : ℕ) (P : ℕ → ℕ → ℂ) (y x : ℕ) :
    ‖field A B P y x‖ ≤ (∑ i ∈ Finset.range A, ∑ j ∈ Finset.range B, ‖P i j‖) / (A * B) := by
  rw [field_eq, norm_div]
  have e : ‖((A : ℂ) * B)‖ = (A : ℝ) * B := by simp
  rw [e]
  gcongr
  refine (norm_sum_le _ _).trans (Finset.sum_le_sum fun i _ => (norm_sum_le _ _).trans (Finset.sum_le_sum fun j _ => ?_))
  simp [norm_W]

/-- At the centre pixel the field is the mean of the pupil. -/
theorem field_centre (A B : ℕ) (P : ℕ → ℕ → ℂ) :
    field A B P (A / 2) (B / 2) = (∑ i ∈ Finset.range A, ∑ j ∈ Finset.range B, P i j) / (A * B) := by
  rw [field_eq]
  simp [W_zero]

/-- The spectrum of the intensity is the autocorrelation of the pupil; where that has no terms it vanishes. -/
theorem spectrum_zero (A B : ℕ) (hA : 0 < A) (hB : 0 < B) (P : ℕ → ℕ → ℂ) (p q : ℤ)
    (h : ∀ i < A, ∀ i' < A, ∀ j < B, ∀ j' < B, P i j ≠ 0 → P i' j' ≠ 0 → (A : ℤ) ∣ (i : ℤ) - i' - p →
      (B : ℤ) ∣ (j : ℤ) - j' - q → False) :
    ∑ y ∈ Finset.range A, ∑ x ∈ Finset.range B,
      ((‖field A B P y x‖ ^ 2 : ℝ) : ℂ) * (W A (-(p * y)) * W B (-(q * x))) = 0 := by
  have e1 : ∀ y x, ((‖field A B P y x‖ ^ 2 : ℝ) : ℂ) * (W A (-(p * y)) * W B (-(q * x))) =
      ∑ u ∈ Finset.range A ×ˢ Finset.range B, ∑ v ∈ Finset.range A ×ˢ Finset.range B,
        (P u.1 u.2 * (starRingEnd ℂ) (P v.1 v.2) / (A * B) ^ 2 * W A (-((A / 2 : ℕ) * ((u.1 : ℤ) - v.1))) *
          W B (-((B / 2 : ℕ) * ((u.2 : ℤ) - v.2)))) *
        (W A (((u.1 : ℤ) - v.1 - p) * y) * W B (((u.2 : ℤ) - v.2 - q) * x)) := by
    intro y x
    have : ((‖field A B P y x‖ ^ 2 : ℝ) : ℂ) = field A B P y x * (starRingEnd ℂ) (field A B P y x) := by
      rw [mul_conj, normSq_eq_norm_sq]
    rw [this, field_eq, ← Finset.sum_product']
    simp only [map_div₀, map_sum, map_mul, W_conj, map_natCast]
    rw [div_mul_div_comm, Finset.sum_mul_sum, div_mul_eq_mul_div, Finset.sum_mul, Finset.sum_div]
    refine Finset.sum_congr rfl fun u _ => ?_
    rw [Finset.sum_mul, Finset.sum_div]
    refine Finset.sum_congr rfl fun v _ => ?_
    have w1 : W A (-((A / 2 : ℕ) * ((u.1 : ℤ) - v.1))) * W A (((u.1 : ℤ) - v.1 - p) * y) =
        W A (((y : ℤ) - (A / 2 : ℕ)) * u.1) * W A (-(((y : ℤ) - (A / 2 : ℕ)) * v.1)) * W A (-(p * y)) := by
      rw [← W_add, ← W_add, ← W_add]; congr 1; ring
    have w2 : W B (-((B / 2 : ℕ) * ((u.2 : ℤ) - v.2))) * W B (((u.2 : ℤ) - v.2 - q) * x) =
        W B (((x : ℤ) - (B / 2 : ℕ)) * u.2) * W B (-(((x : ℤ) - (B / 2 : ℕ)) * v.2)) * W B (-(q * x)) := by
      rw [← W_add, ← W_add, ← W_add]; congr 1; ring
    calc _ = P u.1 u.2 * (starRingEnd ℂ) (P v.1 v.2) / (A * B) ^ 2 *
        (W A (((y : ℤ) - (A / 2 : ℕ)) * u.1) * W A (-(((y : ℤ) - (A / 2 : ℕ)) * v.1)) * W A (-(p * y))) *
        (W B (((x : ℤ) - (B / 2 : ℕ)) * u.2) * W B (-(((x : ℤ) - (B / 2 : ℕ)) * v.2)) * W B (-(q * x))) := by ring
      _ = _ := by rw [← w1, ← w2]; ring
  simp only [e1]
  have e2 : ∀ f : ℕ → ℕ → ℕ × ℕ → ℕ × ℕ → ℂ, ∑ y ∈ Finset.range A, ∑ x ∈ Finset.range B,
      ∑ u ∈ Finset.range A ×ˢ Finset.range B, ∑ v ∈ Finset.range A ×ˢ Finset.range B, f y x u v =
      ∑ u ∈ Finset.range A ×ˢ Finset.range B, ∑ v ∈ Finset.range A ×ˢ Finset.range B,
        ∑ y ∈ Finset.range A, ∑ x ∈ Finset.range B, f y x u v := by
    intro f
    rw [← Finset.sum_product', Finset.sum_comm]
    refine Finset.sum_congr rfl fun u _ => ?_
    rw [Finset.sum_comm]
    refine Finset.sum_congr rfl fun v _ => ?_
    rw [← Finset.sum_product']
  rw [e2]
  refine Finset.sum_eq_zero fun u hu => Finset.sum_eq_zero fun v hv => ?_
  simp only [Finset.mem_product, Finset.mem_range] at hu hv
  simp only [← Finset.mul_sum, ← Finset.sum_mul]
  by_cases hP : P u.1 u.2 = 0
  · simp [hP]
  by_cases hQ : P v.1 v.2 = 0
  · simp [hQ]
  rw [W_sum hA, W_sum hB]
  split_ifs with ha hb
  · exact (h u.1 hu.1 v.1 hv.1 u.2 hu.2 v.2 hv.2 hP hQ ha hb).elim
  all_goals simp

end PyOTF
