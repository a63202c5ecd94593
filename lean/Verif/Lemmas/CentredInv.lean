import Verif.Props.C44_C45_Otfi

/-!
# The inverse of `easy_fft` on every grid
-/

namespace PyOTF

open Complex

/-- The inverse of the centred transform of one axis. -/
noncomputable def cinv1 (n : ℕ) (x : ℕ → ℂ) (j : ℕ) : ℂ :=
  (∑ k ∈ Finset.range n, x k * W n (((j : ℤ) - (n / 2 : ℕ)) * ((k : ℤ) - (n / 2 : ℕ)))) / n

theorem isKern_cinv1 : IsKern cinv1 :=
  ⟨fun n i j => W n (((i : ℤ) - (n / 2 : ℕ)) * ((j : ℤ) - (n / 2 : ℕ))) / n, fun n x i _ => by
    rw [cinv1, Finset.sum_div]; exact Finset.sum_congr rfl fun j _ => by ring⟩

theorem easy1_cinv1 {n : ℕ} (x : ℕ → ℂ) {i : ℕ} (hi : i < n) : easy1 n (cinv1 n x) i = x i := by
  have hn : 0 < n := by omega
  have hn' : (n : ℂ) ≠ 0 := by exact_mod_cast hn.ne'
  rw [easy1_eq _ hi]
  simp only [cinv1]
  have e : ∀ j ∈ Finset.range n, (∑ k ∈ Finset.range n, x k * W n (((j : ℤ) - (n / 2 : ℕ)) * ((k : ℤ) - (n / 2 : ℕ)))) / n *
      W n (-(((j : ℤ) - (n / 2 : ℕ)) * ((i : ℤ) - (n / 2 : ℕ)))) =
      ∑ k ∈ Finset.range n, x k / n * W n (-((n / 2 : ℕ) : ℤ) * ((k : ℤ) - i)) * W n (((k : ℤ) - i) * (j : ℤ)) := fun j _ => by
    rw [Finset.sum_div, Finset.sum_mul]
    refine Finset.sum_congr rfl fun k _ => ?_
    rw [show x k * W n (((j : ℤ) - (n / 2 : ℕ)) * ((k : ℤ) - (n / 2 : ℕ))) / n * W n (-(((j : ℤ) - (n / 2 : ℕ)) * ((i : ℤ) - (n / 2 : ℕ)))) =
      x k / n * (W n (((j : ℤ) - (n / 2 : ℕ)) * ((k : ℤ) - (n / 2 : ℕ))) * W n (-(((j : ℤ) - (n / 2 : ℕ)) * ((i : ℤ) - (n / 2 : ℕ))))) by ring,
      mul_assoc (x k / n), ← W_add, ← W_add]
    congr 2; ring
  rw [Finset.sum_congr rfl e, Finset.sum_comm]
  have e2 : ∀ k ∈ Finset.range n, ∑ j ∈ Finset.range n, x k / n * W n (-((n / 2 : ℕ) : ℤ) * ((k : ℤ) - i)) * W n (((k : ℤ) - i) * (j : ℤ)) =
      if k = i then x i else 0 := fun k hk => by
    rw [← Finset.mul_sum, W_sum hn]
    have hk := Finset.mem_range.mp hk
    by_cases h : k = i
    · subst h
      simp [W_zero]
      field_simp
    · rw [if_neg h, if_neg, mul_zero]
      rintro ⟨c, hc⟩
      have : c = 0 := by
        by_contra h0
        rcases lt_or_gt_of_ne h0 with h1 | h1 <;> nlinarith
      subst this
      omega
  rw [Finset.sum_congr rfl e2]
  simp [hi]

/-- The inverse of `easy_fft` over all axes. -/
noncomputable def cinv (a : Arr ℂ) : Arr ℂ := a.alongAxes cinv1 (axesOf none a.shape)

theorem cinv_shape (a : Arr ℂ) : (cinv a).shape = a.shape := alongAxes_shape ..

theorem easyFft_cinv (a : Arr ℂ) : (easyFft none (cinv a)).Same a := by
  have h := goodAxes_all a.shape
  have s1 := easyFft_same none (cinv a) (by rw [cinv_shape]; exact h)
  rw [cinv_shape] at s1
  refine s1.trans ((alongAxes_comp isKern_easy1 isKern_cinv1 h).trans (alongAxes_id h.2 fun ax _ x i hi => easy1_cinv1 x hi))

theorem cinv3_get (u : Arr ℂ) (Z A B : ℕ) (hs : u.shape = [Z, A, B]) (z y x : ℕ) :
    (cinv u).get [z, y, x] = (∑ a ∈ Finset.range Z, ∑ p ∈ Finset.range A, ∑ q ∈ Finset.range B, u.get [a, p, q] *
      (W B (((x : ℤ) - (B / 2 : ℕ)) * ((q : ℤ) - (B / 2 : ℕ))) * W A (((y : ℤ) - (A / 2 : ℕ)) * ((p : ℤ) - (A / 2 : ℕ))) *
        W Z (((z : ℤ) - (Z / 2 : ℕ)) * ((a : ℤ) - (Z / 2 : ℕ))))) / (Z * A * B) := by
  simp only [cinv, axesOf, hs, Option.getD_none, List.length_cons, List.length_nil, zero_add, List.range_succ, List.range_zero,
    List.nil_append, List.cons_append, Arr.alongAxes, List.foldr_cons, List.foldr_nil, Arr.alongAxis, List.getD_cons_zero,
    List.getD_cons_succ, List.set_cons_zero, List.set_cons_succ]
  simp only [cinv1, Finset.sum_div, Finset.sum_mul]
  refine Finset.sum_congr rfl fun a _ => Finset.sum_congr rfl fun p _ => Finset.sum_congr rfl fun q _ => ?_
  ring

/-- The sample at the opposite frequency. -/
def opp (n i : ℕ) : ℕ := (2 * (n / 2) + n - i) % n

theorem opp_lt {n i : ℕ} (hi : i < n) : opp n i < n := Nat.mod_lt _ (by omega)

theorem opp_dvd {n i : ℕ} (hi : i < n) : (n : ℤ) ∣ ((i : ℤ) - (n / 2 : ℕ)) + ((opp n i : ℤ) - (n / 2 : ℕ)) := by
  have h : (opp n i : ℤ) = (2 * (n / 2 : ℕ) + n - i : ℤ) % n := by
    unfold opp
    rw [Int.natCast_mod]
    congr 1
    have : i ≤ 2 * (n / 2) + n := by omega
    push_cast [Nat.cast_sub this]
    ring
  rw [h, Int.emod_def]
  exact ⟨1 - (2 * (n / 2 : ℕ) + n - i : ℤ) / n, by ring⟩

theorem opp_opp {n i : ℕ} (hi : i < n) : opp n (opp n i) = i := by
  have h1 := opp_dvd hi
  have h2 := opp_dvd (opp_lt hi)
  have h3 := opp_lt (opp_lt hi)
  obtain ⟨a, ha⟩ := h1
  obtain ⟨b, hb⟩ := h2
  have : (opp n (opp n i) : ℤ) - i = n * (b - a) := by rw [mul_sub, ← ha, ← hb]; ring
  have : b - a = 0 := by
    by_contra h0
    rcases lt_or_gt_of_ne h0 with h | h <;> nlinarith
  simp only [this, mul_zero] at *
  omega

theorem sum_opp (n : ℕ) (f : ℕ → ℂ) : ∑ i ∈ Finset.range n, f (opp n i) = ∑ i ∈ Finset.range n, f i :=
  Finset.sum_bij' (fun i _ => opp n i) (fun i _ => opp n i) (fun _ hi => Finset.mem_range.mpr (opp_lt (Finset.mem_range.mp hi)))
    (fun _ hi => Finset.mem_range.mpr (opp_lt (Finset.mem_range.mp hi))) (fun _ hi => opp_opp (Finset.mem_range.mp hi))
    (fun _ hi => opp_opp (Finset.mem_range.mp hi)) (fun _ _ => rfl)

/-- A real spectrum with equal values at opposite frequencies belongs to a real array. -/
theorem cinv_real (u : Arr ℂ) (Z A B : ℕ) (hs : u.shape = [Z, A, B]) (hr : ∀ a < Z, ∀ p < A, ∀ q < B, (u.get [a, p, q]).im = 0)
    (he : ∀ a < Z, ∀ p < A, ∀ q < B, u.get [opp Z a, opp A p, opp B q] = u.get [a, p, q]) (z y x : ℕ) :
    ((cinv u).get [z, y, x]).im = 0 := by
  rw [← Complex.conj_eq_iff_im, cinv3_get u Z A B hs, map_div₀]
  congr 1
  · simp only [map_sum]
    refine (Finset.sum_congr rfl fun a ha => ?_).trans (sum_opp Z _)
    have ha := Finset.mem_range.mp ha
    refine (Finset.sum_congr rfl fun p hp => ?_).trans (sum_opp A _)
    have hp := Finset.mem_range.mp hp
    refine (Finset.sum_congr rfl fun q hq => ?_).trans (sum_opp B _)
    have hq := Finset.mem_range.mp hq
    rw [map_mul, map_mul, map_mul, W_conj, W_conj, W_conj, he a ha p hp q hq, Complex.conj_eq_iff_im.mpr (hr a ha p hp q hq)]
    have key : ∀ (n a z : ℕ), a < n → W n (-(((z : ℤ) - (n / 2 : ℕ)) * ((a : ℤ) - (n / 2 : ℕ)))) =
        W n (((z : ℤ) - (n / 2 : ℕ)) * ((opp n a : ℤ) - (n / 2 : ℕ))) := fun n a z ha => by
      apply W_modEq (by omega)
      obtain ⟨d, hd⟩ := opp_dvd ha
      exact ⟨-(((z : ℤ) - (n / 2 : ℕ)) * d), by linear_combination -(((z : ℤ) - (n / 2 : ℕ))) * hd⟩
    rw [key Z a z ha, key A p y hp, key B q x hq]
  · simp

end PyOTF
