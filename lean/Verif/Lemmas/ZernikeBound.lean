import Verif.Lemmas.ZernikeOrtho
import Mathlib.Data.Nat.Choose.Vandermonde
import Mathlib.Algebra.Polynomial.Roots

/-!
# The radial polynomials are bounded by one

`R_n^m(r)` is a diagonal entry of the matrix by which the rotation `(c, s)`, `c = r`, `c² + s² = 1`, acts on
the homogeneous polynomials of degree `n`, and that matrix is orthogonal for suitable weights.
-/

namespace PyOTF

open Polynomial Finset

/-- The image of `x^i y^(n-i)` under a rotation. -/
noncomputable def rotPoly (n : ℕ) (c s : ℝ) (i : ℕ) : ℝ[X] := (C c * X - C s) ^ i * (C s * X + C c) ^ (n - i)

theorem rotPoly_natDegree (n : ℕ) (c s : ℝ) {i : ℕ} (hi : i ≤ n) : (rotPoly n c s i).natDegree ≤ n := by
  rw [rotPoly]
  refine natDegree_mul_le.trans ?_
  have h1 : (C c * X - C s).natDegree ≤ 1 := by
    rw [sub_eq_add_neg, ← C_neg]; exact natDegree_linear_le
  have h2 : (C s * X + C c).natDegree ≤ 1 := natDegree_linear_le
  have h3 := natDegree_pow_le_of_le i h1
  have h4 := natDegree_pow_le_of_le (n - i) h2
  omega

/-- Homogenised evaluation. -/
theorem rotPoly_homog (n : ℕ) (c s : ℝ) {i : ℕ} (hi : i ≤ n) (x y : ℝ) (hy : y ≠ 0) :
    ∑ j ∈ range (n + 1), (rotPoly n c s i).coeff j * (x ^ j * y ^ (n - j))
      = (c * x - s * y) ^ i * (s * x + c * y) ^ (n - i) := by
  have h := eval_eq_sum_range' (Nat.lt_succ_of_le (rotPoly_natDegree n c s hi)) (x / y)
  have e : ∑ j ∈ range (n + 1), (rotPoly n c s i).coeff j * (x ^ j * y ^ (n - j))
      = y ^ n * (rotPoly n c s i).eval (x / y) := by
    rw [h, mul_sum]
    refine sum_congr rfl fun j hj => ?_
    have hj' : j ≤ n := by have := mem_range.mp hj; omega
    obtain ⟨d, rfl⟩ := Nat.exists_eq_add_of_le hj'
    rw [Nat.add_sub_cancel_left, div_pow, pow_add]
    field_simp
  rw [e, rotPoly]
  simp only [eval_mul, eval_pow, eval_sub, eval_add, eval_C, eval_X]
  obtain ⟨d, rfl⟩ := Nat.exists_eq_add_of_le hi
  rw [Nat.add_sub_cancel_left, pow_add]
  have e1 : (c * x - s * y) = y * (c * (x / y) - s) := by field_simp
  have e2 : (s * x + c * y) = y * (s * (x / y) + c) := by field_simp
  rw [e1, e2, mul_pow, mul_pow]
  ring

/-- The matrix of the inverse rotation is the inverse. -/
theorem rotPoly_inv (n : ℕ) (c s : ℝ) (hcs : c ^ 2 + s ^ 2 = 1) {i : ℕ} (hi : i ≤ n) :
    ∑ j ∈ range (n + 1), C ((rotPoly n c s i).coeff j) * rotPoly n c (-s) j = X ^ i := by
  refine eq_of_infinite_eval_eq _ _ ?_
  have hfin : {t : ℝ | c - s * t = 0}.Finite := by
    by_cases hs : s = 0
    · subst hs
      have : c ≠ 0 := by rintro rfl; norm_num at hcs
      simp [this]
    · refine (Set.finite_singleton (c / s)).subset fun t ht => ?_
      have ht' : c - s * t = 0 := ht
      rw [Set.mem_singleton_iff, eq_div_iff hs]; linarith
  refine (hfin.infinite_compl).mono fun t ht => ?_
  have ht' : c - s * t ≠ 0 := ht
  have h := rotPoly_homog n c s hi (c * t + s) (c - s * t) ht'
  show eval t _ = eval t _
  rw [eval_finsetSum, eval_pow, eval_X]
  have e1 : c * (c * t + s) - s * (c - s * t) = t := by linear_combination t * hcs
  have e2 : s * (c * t + s) + c * (c - s * t) = 1 := by linear_combination hcs
  rw [e1, e2, one_pow, mul_one] at h
  rw [← h]
  refine sum_congr rfl fun j _ => ?_
  have e3 : eval t (rotPoly n c (-s) j) = (c * t - -s) ^ j * (-s * t + c) ^ (n - j) := by
    rw [rotPoly]; simp
  rw [eval_mul, eval_C, e3]
  ring

/-- The matrix is symmetric for the binomial weights, up to inversion. -/
theorem rotPoly_symm (n : ℕ) (c s : ℝ) {i j : ℕ} (hi : i ≤ n) (hj : j ≤ n) :
    (n.choose i : ℝ) * (rotPoly n c s i).coeff j = (n.choose j : ℝ) * (rotPoly n c (-s) j).coeff i := by
  -- a polynomial in `U` (outer) over the polynomials in `X` (inner)
  have h1 : ((X : ℝ[X][X]) * C (C c * X - C s) + C (C s * X + C c)) ^ n
      = ((C X * (C (C c) * X + C (C s)) + (C (C c) - C (C s) * X)) : ℝ[X][X]) ^ n := by
    congr 1
    simp only [map_sub, map_add, map_mul]
    ring
  have hl : (((X : ℝ[X][X]) * C (C c * X - C s) + C (C s * X + C c)) ^ n).coeff i
      = (n.choose i : ℝ[X]) * rotPoly n c s i := by
    rw [add_pow, finsetSum_coeff]
    rw [sum_eq_single i]
    · rw [mul_pow, ← C_pow, ← C_pow, mul_assoc, mul_assoc, coeff_X_pow_mul', if_pos le_rfl, Nat.sub_self,
        ← C_eq_natCast, ← C_mul, ← C_mul, coeff_C_zero, rotPoly]
      ring
    · intro b _ hb
      rw [mul_pow, ← C_pow, ← C_pow, mul_assoc, mul_assoc, ← C_eq_natCast, ← C_mul, ← C_mul]
      rw [X_pow_mul, coeff_C_mul_X_pow, if_neg (Ne.symm hb)]
    · intro hh; exact absurd (mem_range.mpr (by omega)) hh
  have hr : (((C X * (C (C c) * X + C (C s)) + (C (C c) - C (C s) * X)) : ℝ[X][X]) ^ n).coeff i
      = ∑ b ∈ range (n + 1), (X : ℝ[X]) ^ b * C ((n.choose b : ℝ) * (rotPoly n c (-s) b).coeff i) := by
    rw [add_pow, finsetSum_coeff]
    refine sum_congr rfl fun b _ => ?_
    have : ((C X * (C (C c) * X + C (C s))) ^ b * (C (C c) - C (C s) * X) ^ (n - b) * (n.choose b : ℝ[X][X]))
        = C (X ^ b * C (n.choose b : ℝ)) * (rotPoly n c (-s) b).map C := by
      rw [rotPoly, mul_pow]
      simp only [Polynomial.map_mul, Polynomial.map_pow, Polynomial.map_sub, Polynomial.map_add,
        Polynomial.map_C, Polynomial.map_X, Polynomial.map_neg, map_neg, map_mul, map_pow, map_natCast]
      rw [sub_neg_eq_add]
      ring
    rw [this, coeff_C_mul, coeff_map, mul_assoc, ← C_mul]
  have h2 : (n.choose i : ℝ[X]) * rotPoly n c s i
      = ∑ b ∈ range (n + 1), (X : ℝ[X]) ^ b * C ((n.choose b : ℝ) * (rotPoly n c (-s) b).coeff i) := by
    rw [← hl, h1, hr]
  have h3 := congrArg (fun p => p.coeff j) h2
  simp only [finsetSum_coeff] at h3
  rw [sum_eq_single j] at h3
  · rw [X_pow_mul, coeff_C_mul_X_pow, if_pos rfl, ← C_eq_natCast, coeff_C_mul] at h3
    exact h3
  · intro b _ hb
    rw [X_pow_mul, coeff_C_mul_X_pow, if_neg (Ne.symm hb)]
  · intro hh; exact absurd (mem_range.mpr (by omega)) hh

/-- The diagonal entries are at most one. -/
theorem rotPoly_diag (n : ℕ) (c s : ℝ) (hcs : c ^ 2 + s ^ 2 = 1) {i : ℕ} (hi : i ≤ n) :
    ((rotPoly n c s i).coeff i) ^ 2 ≤ 1 := by
  have h := congrArg (fun p => p.coeff i) (rotPoly_inv n c s hcs hi)
  simp only [finsetSum_coeff, coeff_C_mul, coeff_X_pow, if_true] at h
  have hpos : ∀ k, k ≤ n → (0 : ℝ) < (n.choose k : ℝ) := fun k hk => by exact_mod_cast Nat.choose_pos hk
  have hnn : ∀ j ∈ range (n + 1), 0 ≤ (rotPoly n c s i).coeff j * (rotPoly n c (-s) j).coeff i := by
    intro j hj
    have hj' : j ≤ n := by have := mem_range.mp hj; omega
    have hs := rotPoly_symm n c s hi hj'
    have h1 := hpos i hi; have h2 := hpos j hj'
    have : (rotPoly n c (-s) j).coeff i = (n.choose i : ℝ) / (n.choose j : ℝ) * (rotPoly n c s i).coeff j := by
      rw [div_mul_eq_mul_div, hs]; field_simp
    rw [this]
    have : 0 ≤ (n.choose i : ℝ) / (n.choose j : ℝ) := by positivity
    nlinarith [mul_nonneg this (sq_nonneg ((rotPoly n c s i).coeff j))]
  have hle := single_le_sum hnn (mem_range.mpr (show i < n + 1 by omega))
  rw [h] at hle
  have hs := rotPoly_symm n c s hi hi
  have := mul_left_cancel₀ (hpos i hi).ne' hs
  rw [← this] at hle
  rw [sq]; exact hle

/-- Vandermonde. -/
theorem jacobi_sum (a k : ℕ) (x : ℝ) :
    ∑ j ∈ range (k + 1), (-1 : ℝ) ^ j * (a.choose j : ℝ) * (k.choose j : ℝ) * (x ^ (k - j) * (1 - x) ^ j)
      = (-1) ^ k * ∑ s ∈ range (k + 1), (-1 : ℝ) ^ s * (k.choose s : ℝ) * ((a + s).choose k : ℝ) * x ^ s := by
  have e1 : ∀ j ∈ range (k + 1),
      (-1 : ℝ) ^ j * (a.choose j : ℝ) * (k.choose j : ℝ) * (x ^ (k - j) * (1 - x) ^ j)
        = ∑ d ∈ range (k + 1), (-1 : ℝ) ^ d * (k.choose d : ℝ) * x ^ (k - d) *
            ((a.choose j : ℝ) * ((k - d).choose (k - j) : ℝ)) := by
    intro j hj
    have hj' : j ≤ k := by have := mem_range.mp hj; omega
    have e2 : (1 - x) ^ j = ∑ d ∈ range (k + 1), (-x) ^ (j - d) * (j.choose d : ℝ) := by
      rw [show (1 : ℝ) - x = 1 + -x by ring, add_pow]
      simp only [one_pow, one_mul]
      refine sum_subset (range_mono (by omega)) fun d _ hd => ?_
      rw [Nat.choose_eq_zero_of_lt (by simp at hd; omega)]; simp
    rw [e2, mul_sum, mul_sum]
    refine sum_congr rfl fun d hd => ?_
    have hd' : d ≤ k := by have := mem_range.mp hd; omega
    by_cases hdj : d ≤ j
    · obtain ⟨u, rfl⟩ := Nat.exists_eq_add_of_le hdj
      obtain ⟨v, rfl⟩ := Nat.exists_eq_add_of_le hj'
      have hc : ((d + u + v).choose (d + u) : ℝ) * ((d + u).choose d : ℝ)
          = ((d + u + v).choose d : ℝ) * ((d + u + v - d).choose (d + u + v - (d + u)) : ℝ) := by
        have := Nat.choose_mul (n := d + u + v) (k := d + u) (s := d) (by omega)
        rw [show d + u + v - (d + u) = v by omega, show d + u + v - d = u + v by omega]
        rw [show d + u + v - d = u + v by omega, show d + u - d = u by omega] at this
        rw [show (u + v).choose v = (u + v).choose u from Nat.choose_symm_add.symm]
        exact_mod_cast this
      rw [show d + u - d = u by omega, show d + u + v - (d + u) = v by omega,
        show d + u + v - d = u + v by omega] at *
      have sg : (-1 : ℝ) ^ (d + u) * (-1) ^ u = (-1) ^ d := by
        rw [pow_add, mul_assoc, ← mul_pow]; simp
      rw [neg_pow x u, pow_add x]
      calc _ = ((-1 : ℝ) ^ (d + u) * (-1) ^ u) * (a.choose (d + u) : ℝ) * x ^ v * x ^ u *
            (((d + u + v).choose (d + u) : ℝ) * ((d + u).choose d : ℝ)) := by ring
        _ = _ := by rw [sg, hc]; ring
    · rw [Nat.choose_eq_zero_of_lt (show j < d by omega),
        Nat.choose_eq_zero_of_lt (show k - d < k - j by omega)]
      simp
  rw [sum_congr rfl e1, sum_comm]
  have e3 : ∀ d ∈ range (k + 1), ∑ j ∈ range (k + 1), (-1 : ℝ) ^ d * (k.choose d : ℝ) * x ^ (k - d) *
      ((a.choose j : ℝ) * ((k - d).choose (k - j) : ℝ))
        = (-1 : ℝ) ^ d * (k.choose d : ℝ) * x ^ (k - d) * ((a + (k - d)).choose k : ℝ) := by
    intro d _
    rw [← mul_sum]
    congr 1
    rw [Nat.add_choose_eq, Finset.Nat.sum_antidiagonal_eq_sum_range_succ_mk]
    push_cast
    rfl
  rw [sum_congr rfl e3, ← sum_range_reflect, mul_sum]
  refine sum_congr rfl fun s hs => ?_
  have hs' : s ≤ k := by have := mem_range.mp hs; omega
  obtain ⟨u, rfl⟩ := Nat.exists_eq_add_of_le hs'
  rw [show s + u + 1 - 1 - s = u by omega, show s + u - u = s by omega,
    show (s + u).choose u = (s + u).choose s from Nat.choose_symm_add.symm]
  have sg : (-1 : ℝ) ^ (s + u) * (-1) ^ s = (-1) ^ u := by
    rw [pow_add, mul_comm, ← mul_assoc, ← mul_pow]; simp
  rw [← sg]; ring

/-- The radial polynomial is the diagonal entry. -/
theorem rotPoly_radPoly (m k : ℕ) (c s : ℝ) (hcs : c ^ 2 + s ^ 2 = 1) :
    (rotPoly (m + 2 * k) c s (m + k)).coeff (m + k) = (-1) ^ m * radPoly m k c := by
  have h1 : (C c * X - C s : ℝ[X]) ^ (m + k)
      = ∑ j ∈ range (m + k + 1), C ((-1 : ℝ) ^ j * ((m + k).choose j : ℝ) * c ^ (m + k - j) * s ^ j) * X ^ (m + k - j) := by
    rw [sub_eq_add_neg, add_comm, add_pow]
    refine sum_congr rfl fun j _ => ?_
    rw [neg_pow, mul_pow]
    simp only [map_mul, map_pow, map_neg, map_one, map_natCast]
    ring
  have h2 : (rotPoly (m + 2 * k) c s (m + k)).coeff (m + k)
      = ∑ j ∈ range (m + k + 1), (-1 : ℝ) ^ j * ((m + k).choose j : ℝ) * c ^ (m + k - j) * s ^ j *
          ((C s * X + C c : ℝ[X]) ^ k).coeff j := by
    rw [rotPoly, show m + 2 * k - (m + k) = k by omega, h1, sum_mul, finsetSum_coeff]
    refine sum_congr rfl fun j hj => ?_
    have hj' : j ≤ m + k := by have := mem_range.mp hj; omega
    rw [mul_assoc, coeff_C_mul, coeff_X_pow_mul', if_pos (by omega), show m + k - (m + k - j) = j by omega]
  have h3 : ∀ j, ((C s * X + C c : ℝ[X]) ^ k).coeff j = if j ≤ k then s ^ j * c ^ (k - j) * (k.choose j : ℝ) else 0 := by
    intro j
    rw [add_pow, finsetSum_coeff]
    by_cases hj : j ≤ k
    · rw [if_pos hj, sum_eq_single j]
      · rw [mul_pow, ← C_pow, ← C_pow, ← C_eq_natCast,
          show C (s ^ j) * X ^ j * C (c ^ (k - j)) * C (k.choose j : ℝ)
            = C (s ^ j * c ^ (k - j) * (k.choose j : ℝ)) * X ^ j by simp only [map_mul]; ring,
          coeff_C_mul_X_pow, if_pos rfl]
      · intro b _ hb
        rw [mul_pow, ← C_pow, ← C_pow, ← C_eq_natCast,
          show C (s ^ b) * X ^ b * C (c ^ (k - b)) * C (k.choose b : ℝ)
            = C (s ^ b * c ^ (k - b) * (k.choose b : ℝ)) * X ^ b by simp only [map_mul]; ring,
          coeff_C_mul_X_pow, if_neg (Ne.symm hb)]
      · intro hh; exact absurd (mem_range.mpr (by omega)) hh
    · rw [if_neg hj]
      refine sum_eq_zero fun b hb => ?_
      have hb' : b ≤ k := by have := mem_range.mp hb; omega
      rw [mul_pow, ← C_pow, ← C_pow, ← C_eq_natCast,
        show C (s ^ b) * X ^ b * C (c ^ (k - b)) * C (k.choose b : ℝ)
          = C (s ^ b * c ^ (k - b) * (k.choose b : ℝ)) * X ^ b by simp only [map_mul]; ring,
        coeff_C_mul_X_pow, if_neg (by omega)]
  rw [h2]
  have h4 : ∑ j ∈ range (m + k + 1), (-1 : ℝ) ^ j * ((m + k).choose j : ℝ) * c ^ (m + k - j) * s ^ j *
          ((C s * X + C c : ℝ[X]) ^ k).coeff j
      = ∑ j ∈ range (k + 1), c ^ m * ((-1 : ℝ) ^ j * ((m + k).choose j : ℝ) * (k.choose j : ℝ) *
          ((c ^ 2) ^ (k - j) * (1 - c ^ 2) ^ j)) := by
    rw [← sum_subset (range_mono (show k + 1 ≤ m + k + 1 by omega))]
    · refine sum_congr rfl fun j hj => ?_
      have hj' : j ≤ k := by have := mem_range.mp hj; omega
      obtain ⟨u, rfl⟩ := Nat.exists_eq_add_of_le hj'
      rw [h3, if_pos (by omega), show m + (j + u) - j = m + u by omega, show j + u - j = u by omega,
        show (1 : ℝ) - c ^ 2 = s ^ 2 by linarith]
      ring
    · intro j _ hj
      rw [h3, if_neg (by simp at hj; omega), mul_zero]
  rw [h4, ← mul_sum, jacobi_sum, radPoly]
  have sg : (-1 : ℝ) ^ m * (-1) ^ (m + k) = (-1) ^ k := by
    rw [pow_add, ← mul_assoc, ← mul_pow]; simp
  rw [← mul_assoc, ← mul_assoc, ← mul_assoc, sg]
  rw [mul_comm (c ^ m)]
  congr 1
  refine sum_congr rfl fun t _ => ?_
  rw [← pow_mul]

/-- `|R_n^m(r)| ≤ 1` on the unit interval. -/
theorem radPoly_abs_le (m k : ℕ) (r : ℝ) (h0 : 0 ≤ r) (h1 : r ≤ 1) : |radPoly m k r| ≤ 1 := by
  have hs : (0 : ℝ) ≤ 1 - r ^ 2 := by nlinarith
  have hcs : r ^ 2 + Real.sqrt (1 - r ^ 2) ^ 2 = 1 := by rw [Real.sq_sqrt hs]; ring
  have h := rotPoly_diag (m + 2 * k) r _ hcs (show m + k ≤ m + 2 * k by omega)
  rw [rotPoly_radPoly m k r _ hcs, mul_pow, ← pow_mul, mul_comm m 2, pow_mul] at h
  simp only [even_two, Even.neg_pow, one_pow, one_mul] at h
  exact abs_le_one_iff_mul_self_le_one.mpr (by rw [← sq]; exact h)

end PyOTF
