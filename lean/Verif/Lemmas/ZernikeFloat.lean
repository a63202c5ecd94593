import Verif.Model.ZernikeFloat
import Mathlib.Tactic

/-!
# Lemmas about degrees in floating point
-/

namespace PyOTF

open Finset

/-- `binom(k + a, k)` for a natural number `a`. -/
theorem binomFloat_nat (a k : ℕ) : (∏ i ∈ range k, ((a : ℝ) + i + 1) / (i + 1)) = ((a + k).choose k : ℝ) := by
  induction k with
  | zero => simp
  | succ k ih =>
    rw [prod_range_succ, ih]
    have h := Nat.add_one_mul_choose_eq (a + k) k
    have h' : ((a : ℝ) + k + 1) * ((a + k).choose k : ℝ) = ((a + (k + 1)).choose (k + 1) : ℝ) * (k + 1) := by exact_mod_cast h
    rw [mul_div_assoc', div_eq_iff (by positivity), ← h']
    ring

/-- The coefficients of the Jacobi polynomial. -/
theorem jacobiTerm_nat (a k s : ℕ) (hs : s ≤ k) :
    ((a + k).choose k : ℝ) * (∏ i ∈ range s, ((-(k : ℝ) + i) * (k + a + 1 + i)) / ((a + 1 + i) * (i + 1))) = (-1) ^ s * (k.choose s : ℝ) * ((a + k + s).choose k : ℝ) := by
  induction s with
  | zero => simp
  | succ s ih =>
    rw [prod_range_succ, ← mul_assoc, ih (by omega), mul_div_assoc', div_eq_iff (by positivity)]
    have h1 := Nat.choose_succ_right_eq k s
    have h2 := Nat.choose_mul_succ_eq (a + k + s) k
    have h1' : (k.choose (s + 1) : ℝ) * (s + 1) = (k.choose s : ℝ) * (k - s) := by
      rw [← Nat.cast_sub (by omega : s ≤ k)]
      exact_mod_cast h1
    have h2' : ((a + k + s).choose k : ℝ) * (a + k + s + 1) = ((a + k + (s + 1)).choose k : ℝ) * (a + s + 1) := by
      rw [show a + k + s + 1 - k = a + s + 1 by omega] at h2
      exact_mod_cast h2
    have e : ((-1 : ℝ) ^ (s + 1) * (k.choose (s + 1) : ℝ) * ((a + k + (s + 1)).choose k : ℝ)) * ((a + 1 + s) * (s + 1))
        = (-1) ^ (s + 1) * ((k.choose (s + 1) : ℝ) * (s + 1)) * (((a + k + (s + 1)).choose k : ℝ) * (a + s + 1)) := by ring
    rw [e, h1', ← h2']
    ring

/-- With a whole number `a`, SciPy's two formulas agree. -/
theorem evalJacobiFloat_nat (k a : ℕ) (x : ℝ) : evalJacobiFloat k a x = evalJacobi k a x := by
  rw [evalJacobiFloat, evalJacobi, binomFloat_nat, mul_sum]
  refine sum_congr rfl fun s hs => ?_
  rw [← mul_assoc, jacobiTerm_nat a k s (by have := mem_range.mp hs; omega), show (1 - x) / 2 = -((x - 1) / 2) by ring, neg_pow ((x - 1) / 2)]
  have : (-1 : ℝ) ^ s * (-1) ^ s = 1 := by rw [← mul_pow]; simp
  linear_combination (k.choose s : ℝ) * ((a + k + s).choose k : ℝ) * ((x - 1) / 2) ^ s * this

theorem evenDiff_iff {n m : ℚ} : evenDiff (.fin n) (.fin m) = true ↔ ∃ k : ℤ, n - |m| = 2 * k := by
  simp only [evenDiff, decide_eq_true_eq]
  constructor
  · exact fun h => ⟨⌊(n - |m|) / 2⌋, by linarith⟩
  · rintro ⟨k, hk⟩
    rw [hk, show (2 * (k : ℚ)) / 2 = k by ring, Int.floor_intCast]
    ring

theorem evenDiff_int (n m : ℤ) : evenDiff (.ofInt n) (.ofInt m) = decide ((n - |m|) % 2 = 0) := by
  rw [Bool.eq_iff_iff, PyFloat.ofInt, PyFloat.ofInt, evenDiff_iff, decide_eq_true_eq]
  constructor
  · rintro ⟨k, hk⟩
    have : n - |m| = 2 * k := by exact_mod_cast hk
    omega
  · intro h
    refine ⟨(n - |m|) / 2, ?_⟩
    have : n - |m| = 2 * ((n - |m|) / 2) := by omega
    exact_mod_cast this

theorem geAbs_int (n m : ℤ) : geAbs (.ofInt n) (.ofInt m) = decide (|m| ≤ n) := by
  rw [Bool.eq_iff_iff, PyFloat.ofInt, PyFloat.ofInt, geAbs, decide_eq_true_eq, decide_eq_true_eq]
  exact_mod_cast Iff.rfl

theorem floor_half (z : ℤ) : ⌊(z : ℚ) / 2⌋ = z / 2 := by
  have := Rat.floor_intCast_div_natCast z 2
  simpa using this

theorem radialFloat_int (r : ℝ) (n m : ℤ) (h : |m| ≤ n) : radialZernikeFloat r n m = radialZernike r n m := by
  rw [radialZernikeFloat, radialZernike]
  split_ifs with h1 h2 h3 h3
  · rfl
  · exact absurd ⟨by exact_mod_cast h2.1, by exact_mod_cast h2.2⟩ h3
  · exact absurd ⟨by exact_mod_cast h3.1, by exact_mod_cast h3.2⟩ h2
  · have h0 := abs_nonneg m
    obtain ⟨a, ha⟩ := Int.eq_ofNat_of_zero_le h0
    have e1 : ⌊((n : ℚ) + |(m : ℚ)|) / 2⌋ = (n + |m|) / 2 := by rw [← floor_half]; push_cast; rfl
    have e2 : ⌊((n : ℚ) - |(m : ℚ)|) / 2⌋ = (n - |m|) / 2 := by rw [← floor_half]; push_cast; rfl
    have e3 : ((|(m : ℚ)| : ℚ) : ℝ) = (a : ℝ) := by
      have : (|(m : ℚ)| : ℚ) = (a : ℚ) := by rw [← Int.cast_abs, ha]; simp
      rw [this]; simp
    simp only [e1, e2, e3]
    rw [evalJacobiFloat_nat, Real.rpow_natCast, ha]
    obtain ⟨b, hb⟩ := Int.eq_ofNat_of_zero_le (show 0 ≤ (n + (a : ℤ)) / 2 by omega)
    simp only [Int.toNat_natCast]
    rw [hb]
    simp
  · rfl

/-- Whole degrees given as floats: the same numbers. -/
theorem zernikeFloat1_int (r t : ℝ) (n m : ℤ) (h : |m| ≤ n) (norm : Bool) : zernikeFloat1 r t (.ofInt n) (.ofInt m) norm = zernike1 r t n m norm := by
  rw [zernike1]
  by_cases hp : (n - |m|) % 2 = 0
  · have e1 : (|(m : ℚ)| : ℚ) = ((|m| : ℤ) : ℚ) := by push_cast; rfl
    have e2 : ((((|m| : ℤ) : ℚ)) : ℝ) = ((|m| : ℤ) : ℝ) := by push_cast; rfl
    have e3 : (((n : ℚ)) : ℝ) = (n : ℝ) := by push_cast; rfl
    have e4 : ((((|m| : ℤ) : ℚ)) = 0) = (|m| = 0) := by simp
    have e5 : decide ((m : ℚ) < 0) = decide (m < 0) := by rw [decide_eq_decide]; exact_mod_cast Iff.rfl
    have e6 : evenDiff (.fin (n : ℚ)) (.fin (m : ℚ)) = true := (evenDiff_int n m).trans (by simpa using hp)
    simp only [zernikeFloat1, PyFloat.ofInt, e6, if_true, e1, e5, hp, ne_eq, not_true_eq_false, if_false]
    rw [radialFloat_int r n |m| (by rw [abs_abs]; exact h)]
    simp only [e2, e3, e4]
  · have e6 : evenDiff (.fin (n : ℚ)) (.fin (m : ℚ)) = false := (evenDiff_int n m).trans (by simpa using hp)
    simp [zernikeFloat1, PyFloat.ofInt, e6, hp]

end PyOTF
