import Verif.Lemmas.CentredInv
import Verif.Spec.Centred

/-!
# `easy_fft` and `easy_ifft` of the last three of four axes
-/

namespace PyOTF

open Complex

theorem goodAxes_123 (C Z A B : ℕ) : GoodAxes [1, 2, 3] [C, Z, A, B] := by
  refine ⟨by decide, ?_⟩
  intro ax h
  simp only [List.mem_cons, List.not_mem_nil, or_false] at h
  rcases h with rfl | rfl | rfl <;> simp

theorem W_turns (n j k : ℕ) : W n (((j : ℤ) - (n / 2 : ℕ)) * ((k : ℤ) - (n / 2 : ℕ))) = exp (2 * Real.pi * I * (turns n j k : ℝ)) := by
  rw [W, turns]; generalize n / 2 = h; congr 1; push_cast; ring

theorem W_neg_turns (n j k : ℕ) : W n (-(((j : ℤ) - (n / 2 : ℕ)) * ((k : ℤ) - (n / 2 : ℕ)))) = exp (-(2 * Real.pi * I * (turns n j k : ℝ))) := by
  rw [W, turns]; generalize n / 2 = h; congr 1; push_cast; ring

/-- `easy_fft` along the last three axes, written out. -/
theorem easyFft4_get (u : Arr ℂ) (C Z A B : ℕ) (hs : u.shape = [C, Z, A, B]) (c a p q : ℕ) (hc : c < C) (ha : a < Z) (hp : p < A) (hq : q < B) :
    (easyFft (some [1, 2, 3]) u).get [c, a, p, q] = ∑ z ∈ Finset.range Z, ∑ y ∈ Finset.range A, ∑ x ∈ Finset.range B,
      u.get [c, z, y, x] * exp (-(2 * Real.pi * I * ((turns Z z a + turns A y p + turns B x q : ℝ) : ℂ))) := by
  have hg : GoodAxes (axesOf (some [1, 2, 3]) u.shape) u.shape := by rw [hs]; exact goodAxes_123 C Z A B
  have hin : InShape [c, a, p, q] u.shape := by rw [hs]; exact .cons hc (.cons ha (.cons hp (.cons hq .nil)))
  rw [(easyFft_same _ u hg).2 _ (by rw [easyFft_shape]; exact hin)]
  have h2 : (u.alongAxes easy1 (axesOf (some [1, 2, 3]) u.shape)).get [c, a, p, q] =
      (u.alongAxes (fun n (x : ℕ → ℂ) k => ∑ j ∈ Finset.range n, x j * exp (-(2 * Real.pi * I * (turns n j k : ℝ)))) [1, 2, 3]).get [c, a, p, q] := by
    refine (alongAxes_of_eq isKern_easy1 hg.2 fun ax _ x i hi => ?_).2 _ (by rw [alongAxes_shape]; exact hin)
    rw [easy1_eq x hi]
    exact Finset.sum_congr rfl fun j _ => by rw [W_neg_turns]
  rw [h2]
  simp only [hs, Arr.alongAxes, List.foldr_cons, List.foldr_nil, Arr.alongAxis, List.getD_cons_zero,
    List.getD_cons_succ, List.set_cons_zero, List.set_cons_succ, Finset.sum_mul]
  refine Finset.sum_congr rfl fun z _ => Finset.sum_congr rfl fun y _ => Finset.sum_congr rfl fun x _ => ?_
  rw [mul_assoc, mul_assoc, ← exp_add, ← exp_add]
  congr 2; push_cast; ring

/-- `easy_ifft` of one axis: the inverse of `easy_fft`, displaced and modulated on odd axes. -/
theorem ieasy1_turns {n : ℕ} (x : ℕ → ℂ) {k : ℕ} (hk : k < n) :
    ieasy1 n x k = (∑ j ∈ Finset.range n, x j * exp (2 * Real.pi * I * (turns n (cameFrom n k) j : ℝ))) / n *
      exp (-(2 * Real.pi * I * (phaseRamp n k : ℝ))) := by
  have hn : 0 < n := by omega
  rw [ieasy1_eq x hk, div_mul_eq_mul_div, Finset.sum_mul]
  congr 1
  refine Finset.sum_congr rfl fun j _ => ?_
  rw [mul_assoc, ← W_turns]
  congr 1
  unfold cameFrom phaseRamp
  split_ifs with he
  · simp only [ofReal_zero, mul_zero, neg_zero, exp_zero, mul_one]
    apply W_modEq hn
    refine ⟨(j : ℤ) + k, ?_⟩
    have : (2 : ℤ) * (n / 2 : ℕ) = n := by omega
    linear_combination ((j : ℤ) + k) * this
  · have e : exp (-(2 * Real.pi * I * ((((k : ℝ) + (n / 2 : ℕ)) / n : ℝ) : ℂ))) = W n (-((k : ℤ) + (n / 2 : ℕ))) := by
      rw [W]; generalize n / 2 = h; congr 1; push_cast; ring
    rw [e, ← W_add]
    apply W_modEq hn
    have h2 : (2 : ℤ) * (n / 2 : ℕ) = n - 1 := by omega
    obtain ⟨c, hc⟩ : (n : ℤ) ∣ (k : ℤ) + (n - 1) - ((k + (n - 1)) % n : ℕ) := by
      have : ((k + (n - 1) : ℕ) : ℤ) = (k : ℤ) + (n - 1) := by rw [Nat.cast_add, Nat.cast_sub (by omega)]; simp
      rw [← this, Int.natCast_mod]
      exact Int.dvd_self_sub_emod
    refine ⟨(j : ℤ) + k + ((j : ℤ) - (n / 2 : ℕ)) * (c - 1), ?_⟩
    linear_combination ((j : ℤ) + k) * h2 + ((j : ℤ) - (n / 2 : ℕ)) * hc

/-- `easy_ifft` along the last three axes, written out. -/
theorem easyIfft4_get (u : Arr ℂ) (C Z A B : ℕ) (hs : u.shape = [C, Z, A, B]) (c z y x : ℕ) (hc : c < C) (hz : z < Z) (hy : y < A) (hx : x < B) :
    (easyIfft (some [1, 2, 3]) u).get [c, z, y, x] = (∑ a ∈ Finset.range Z, ∑ p ∈ Finset.range A, ∑ q ∈ Finset.range B,
      u.get [c, a, p, q] * exp (2 * Real.pi * I * ((turns Z (cameFrom Z z) a + turns A (cameFrom A y) p + turns B (cameFrom B x) q : ℝ) : ℂ))) /
      (Z * A * B) * exp (-(2 * Real.pi * I * ((phaseRamp Z z + phaseRamp A y + phaseRamp B x : ℝ) : ℂ))) := by
  have hg : GoodAxes (axesOf (some [1, 2, 3]) u.shape) u.shape := by rw [hs]; exact goodAxes_123 C Z A B
  have hin : InShape [c, z, y, x] u.shape := by rw [hs]; exact .cons hc (.cons hz (.cons hy (.cons hx .nil)))
  rw [(easyIfft_same _ u hg).2 _ (by rw [easyIfft_shape]; exact hin)]
  have h2 : (u.alongAxes ieasy1 (axesOf (some [1, 2, 3]) u.shape)).get [c, z, y, x] =
      (u.alongAxes (fun n (x : ℕ → ℂ) k => (∑ j ∈ Finset.range n, x j * exp (2 * Real.pi * I * (turns n (cameFrom n k) j : ℝ))) / n *
      exp (-(2 * Real.pi * I * (phaseRamp n k : ℝ)))) [1, 2, 3]).get [c, z, y, x] := by
    refine (alongAxes_of_eq isKern_ieasy1 hg.2 fun ax _ x i hi => ?_).2 _ (by rw [alongAxes_shape]; exact hin)
    exact ieasy1_turns x hi
  rw [h2]
  simp only [hs, Arr.alongAxes, List.foldr_cons, List.foldr_nil, Arr.alongAxis, List.getD_cons_zero,
    List.getD_cons_succ, List.set_cons_zero, List.set_cons_succ, Finset.sum_mul, Finset.sum_div]
  refine Finset.sum_congr rfl fun a _ => Finset.sum_congr rfl fun p _ => Finset.sum_congr rfl fun q _ => ?_
  push_cast
  simp only [mul_add, neg_add, exp_add]
  ring

end PyOTF
