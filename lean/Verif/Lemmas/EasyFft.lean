import Verif.Model.Utils
import Verif.Lemmas.Fft

/-! # `easy_fft` / `easy_ifft` axis by axis -/

namespace PyOTF

open Complex

/-- 1-d `easy_fft`. -/
noncomputable def easy1 (n : ℕ) (x : ℕ → ℂ) : ℕ → ℂ := fftshift1 n (fft1 n (ifftshift1 n x))

/-- 1-d `easy_ifft`. -/
noncomputable def ieasy1 (n : ℕ) (x : ℕ → ℂ) : ℕ → ℂ := ifftshift1 n (ifft1 n (fftshift1 n x))

theorem isKern_fftshift1 : IsKern fftshift1 := isKern_roll1 _
theorem isKern_ifftshift1 : IsKern ifftshift1 := isKern_roll1 _
theorem isKern_easy1 : IsKern easy1 := isKern_fftshift1.comp (isKern_fft1.comp isKern_ifftshift1)
theorem isKern_ieasy1 : IsKern ieasy1 := isKern_ifftshift1.comp (isKern_ifft1.comp isKern_fftshift1)

theorem easy1_eq {n : ℕ} (x : ℕ → ℂ) {k : ℕ} (hk : k < n) :
    easy1 n x k = ∑ j ∈ Finset.range n, x j * W n (-(((j : ℤ) - (n / 2 : ℕ)) * ((k : ℤ) - (n / 2 : ℕ)))) := by
  have hn : 0 < n := by omega
  simp only [easy1, fftshift1, ifftshift1, roll1, fft1_eq]
  rw [← sum_rollIdx n (-(n / 2 : ℕ)) fun j =>
    x j * W n (-(((j : ℤ) - (n / 2 : ℕ)) * ((k : ℤ) - (n / 2 : ℕ))))]
  refine Finset.sum_congr rfl fun j _ => ?_
  congr 1
  rw [show -((j : ℤ) * (rollIdx n (n / 2 : ℕ) k : ℕ)) = (-j) * (rollIdx n (n / 2 : ℕ) k : ℕ) by ring,
    W_rollIdx hn]
  rw [show -((((rollIdx n (-(n / 2 : ℕ)) j : ℕ) : ℤ) - (n / 2 : ℕ)) * ((k : ℤ) - (n / 2 : ℕ)))
    = (n / 2 : ℕ) * ((k : ℤ) - (n / 2 : ℕ)) + (-((k : ℤ) - (n / 2 : ℕ))) * (rollIdx n (-(n / 2 : ℕ)) j : ℕ) by ring,
    W_add, W_rollIdx hn, ← W_add]
  congr 1; ring

theorem ieasy1_eq {n : ℕ} (x : ℕ → ℂ) {k : ℕ} (hk : k < n) :
    ieasy1 n x k = (∑ j ∈ Finset.range n,
      x j * W n (((j : ℤ) + (n / 2 : ℕ)) * ((k : ℤ) + (n / 2 : ℕ)))) / n := by
  have hn : 0 < n := by omega
  simp only [ieasy1, fftshift1, ifftshift1, roll1, ifft1_eq]
  rw [← sum_rollIdx n (n / 2 : ℕ) fun j =>
    x j * W n (((j : ℤ) + (n / 2 : ℕ)) * ((k : ℤ) + (n / 2 : ℕ)))]
  congr 1
  refine Finset.sum_congr rfl fun j _ => ?_
  congr 1
  rw [mul_comm ((rollIdx n (-(n / 2 : ℕ)) k : ℕ) : ℤ), W_rollIdx hn]
  rw [show (((rollIdx n (n / 2 : ℕ) j : ℕ) : ℤ) + (n / 2 : ℕ)) * ((k : ℤ) + (n / 2 : ℕ))
    = (n / 2 : ℕ) * ((k : ℤ) + (n / 2 : ℕ)) + ((k : ℤ) + (n / 2 : ℕ)) * (rollIdx n (n / 2 : ℕ) j : ℕ) by ring,
    W_add, W_rollIdx hn, ← W_add]
  congr 1; ring

/-- Sum against a character that selects one residue. -/
theorem sum_select {n : ℕ} (x : ℕ → ℂ) (c : ℕ → ℤ) (t : ℤ) {r : ℕ} (hr : r < n)
    (hd : (n : ℤ) ∣ t - r) :
    ∑ m ∈ Finset.range n, ∑ k ∈ Finset.range n, x m * W n (c m) * W n ((t - m) * k)
      = x r * W n (c r) * n := by
  have hn : 0 < n := by omega
  have e : ∀ m ∈ Finset.range n, ∑ k ∈ Finset.range n, x m * W n (c m) * W n ((t - m) * k)
      = if m = r then x r * W n (c r) * n else 0 := by
    intro m hm
    have hm' := Finset.mem_range.mp hm
    rw [← Finset.mul_sum, W_sum hn]
    by_cases h : m = r
    · subst h; rw [if_pos rfl, if_pos hd]
    · rw [if_neg h, if_neg, mul_zero]
      intro hd'
      obtain ⟨q, hq⟩ := dvd_sub hd hd'
      have : q = 0 := by
        rcases lt_trichotomy q 0 with hneg | h0 | hpos
        · nlinarith
        · exact h0
        · nlinarith
      subst this; omega
  rw [Finset.sum_congr rfl e, Finset.sum_ite_eq' (Finset.range n), if_pos (Finset.mem_range.mpr hr)]

/-- Round trip on one axis: `easy_ifft ∘ easy_fft`. -/
theorem ieasy1_easy1 {n : ℕ} (x : ℕ → ℂ) {j : ℕ} (hj : j < n) :
    ieasy1 n (easy1 n x) j
      = x ((j + 2 * (n / 2)) % n) * W n (2 * (n / 2 : ℕ) * ((j : ℤ) + (n / 2 : ℕ))) := by
  have hn : 0 < n := by omega
  have hn' : (n : ℂ) ≠ 0 := by exact_mod_cast hn.ne'
  rw [ieasy1_eq _ hj, div_eq_iff hn']
  have e : ∀ k ∈ Finset.range n, easy1 n x k * W n (((k : ℤ) + (n / 2 : ℕ)) * ((j : ℤ) + (n / 2 : ℕ)))
      = ∑ m ∈ Finset.range n, x m * W n ((n / 2 : ℕ) * ((m : ℤ) + j)) *
          W n ((((j : ℤ) + 2 * (n / 2 : ℕ)) - m) * k) := by
    intro k hk
    rw [easy1_eq _ (Finset.mem_range.mp hk), Finset.sum_mul]
    refine Finset.sum_congr rfl fun m _ => ?_
    rw [mul_assoc, mul_assoc, ← W_add, ← W_add]
    congr 2; ring
  have hd : (n : ℤ) ∣ ((j : ℤ) + 2 * (n / 2 : ℕ)) - ((j + 2 * (n / 2)) % n : ℕ) := by
    rw [show ((j : ℤ) + 2 * (n / 2 : ℕ)) = ((j + 2 * (n / 2) : ℕ) : ℤ) by push_cast; ring,
      Int.natCast_mod]
    exact Int.dvd_self_sub_emod
  rw [Finset.sum_congr rfl e, Finset.sum_comm,
    sum_select x (fun m => (n / 2 : ℕ) * ((m : ℤ) + j)) _ (Nat.mod_lt _ hn) hd]
  congr 2
  apply W_modEq hn
  obtain ⟨c, hc⟩ := hd
  refine ⟨-((n / 2 : ℕ) * c), ?_⟩
  linear_combination (-((n / 2 : ℕ) : ℤ)) * hc

/-- Round trip on one axis: `easy_fft ∘ easy_ifft`. -/
theorem easy1_ieasy1 {n : ℕ} (x : ℕ → ℂ) {j : ℕ} (hj : j < n) :
    easy1 n (ieasy1 n x) j
      = x ((j + 2 * (n - n / 2)) % n) * W n (2 * (n / 2 : ℕ) * ((j : ℤ) - (n / 2 : ℕ))) := by
  have hn : 0 < n := by omega
  have hn' : (n : ℂ) ≠ 0 := by exact_mod_cast hn.ne'
  rw [easy1_eq _ hj]
  apply mul_right_cancel₀ hn'
  rw [Finset.sum_mul]
  have e : ∀ k ∈ Finset.range n, ieasy1 n x k * W n (-(((k : ℤ) - (n / 2 : ℕ)) * ((j : ℤ) - (n / 2 : ℕ)))) * n
      = ∑ m ∈ Finset.range n, x m * W n ((n / 2 : ℕ) * ((m : ℤ) + j)) *
          W n ((((j : ℤ) - 2 * (n / 2 : ℕ)) - m) * (-1) * k) := by
    intro k hk
    rw [ieasy1_eq _ (Finset.mem_range.mp hk), div_mul_eq_mul_div, div_mul_cancel₀ _ hn', Finset.sum_mul]
    refine Finset.sum_congr rfl fun m _ => ?_
    rw [mul_assoc, mul_assoc, ← W_add, ← W_add]
    congr 2; ring
  rw [Finset.sum_congr rfl e, Finset.sum_comm]
  have e2 : ∀ m ∈ Finset.range n, ∑ k ∈ Finset.range n, x m * W n ((n / 2 : ℕ) * ((m : ℤ) + j)) *
          W n ((((j : ℤ) - 2 * (n / 2 : ℕ)) - m) * (-1) * k)
      = ∑ k ∈ Finset.range n, x m * W n ((n / 2 : ℕ) * ((m : ℤ) + j)) *
          W n ((((j : ℤ) - 2 * (n / 2 : ℕ)) - m) * k) := by
    intro m _
    rw [← Finset.mul_sum, ← Finset.mul_sum, W_sum hn, W_sum hn, mul_neg_one]
    simp only [dvd_neg]
  have hd : (n : ℤ) ∣ ((j : ℤ) - 2 * (n / 2 : ℕ)) - ((j + 2 * (n - n / 2)) % n : ℕ) := by
    rw [Int.natCast_mod]
    have h1 : (n : ℤ) ∣ ((j + 2 * (n - n / 2) : ℕ) : ℤ) - ((j + 2 * (n - n / 2) : ℕ) : ℤ) % n :=
      Int.dvd_self_sub_emod
    have h2 : ((j : ℤ) - 2 * (n / 2 : ℕ)) - ((j + 2 * (n - n / 2) : ℕ) : ℤ) % n
      = (((j + 2 * (n - n / 2) : ℕ) : ℤ) - ((j + 2 * (n - n / 2) : ℕ) : ℤ) % n) - 2 * n := by
      have h3 : ((n - n / 2 : ℕ) : ℤ) = n - (n / 2 : ℕ) := Nat.cast_sub (Nat.div_le_self n 2)
      have h4 : ((j + 2 * (n - n / 2) : ℕ) : ℤ) = j + 2 * ((n : ℤ) - (n / 2 : ℕ)) := by
        rw [Nat.cast_add, Nat.cast_mul, h3]; rfl
      linarith
    rw [h2]
    exact dvd_sub h1 (Dvd.intro_left 2 rfl)
  rw [Finset.sum_congr rfl e2,
    sum_select x (fun m => (n / 2 : ℕ) * ((m : ℤ) + j)) _ (Nat.mod_lt _ hn) hd]
  congr 2
  apply W_modEq hn
  obtain ⟨c, hc⟩ := hd
  refine ⟨-((n / 2 : ℕ) * c), ?_⟩
  linear_combination (-((n / 2 : ℕ) : ℤ)) * hc

/-- `easy_fft` is the 1-d transform applied axis by axis. -/
theorem easyFft_same (axes : Option (List ℕ)) (a : Arr ℂ) (h : GoodAxes (axesOf axes a.shape) a.shape) :
    (easyFft axes a).Same (a.alongAxes easy1 (axesOf axes a.shape)) := by
  simp only [easyFft, fftshift, fftn, ifftshift, alongAxes_shape]
  have s1 := alongAxes_comp isKern_fft1 isKern_ifftshift1 h
  refine (alongAxes_same isKern_fftshift1 (by simpa [alongAxes_shape] using h.2) s1).trans ?_
  exact alongAxes_comp isKern_fftshift1 (isKern_fft1.comp isKern_ifftshift1) h

theorem easyIfft_same (axes : Option (List ℕ)) (a : Arr ℂ) (h : GoodAxes (axesOf axes a.shape) a.shape) :
    (easyIfft axes a).Same (a.alongAxes ieasy1 (axesOf axes a.shape)) := by
  simp only [easyIfft, fftshift, ifftn, ifftshift, alongAxes_shape]
  have s1 := alongAxes_comp isKern_ifft1 isKern_fftshift1 h
  refine (alongAxes_same isKern_ifftshift1 (by simpa [alongAxes_shape] using h.2) s1).trans ?_
  exact alongAxes_comp isKern_ifftshift1 (isKern_ifft1.comp isKern_fftshift1) h

theorem easyFft_shape (axes : Option (List ℕ)) (a : Arr ℂ) : (easyFft axes a).shape = a.shape := by
  simp [easyFft, fftshift, fftn, ifftshift, alongAxes_shape]

theorem easyIfft_shape (axes : Option (List ℕ)) (a : Arr ℂ) : (easyIfft axes a).shape = a.shape := by
  simp [easyIfft, fftshift, ifftn, ifftshift, alongAxes_shape]

end PyOTF
