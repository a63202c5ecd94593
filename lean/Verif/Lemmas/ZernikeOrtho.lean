import Verif.Model.Zernike
import Mathlib.Algebra.Group.ForwardDiff
import Mathlib.Algebra.Polynomial.Div
import Mathlib.Analysis.SpecialFunctions.Integrals.Basic

/-!
# Radial and angular orthogonality of the Zernike modes
-/

namespace PyOTF

open Polynomial Finset

/-- Alternating binomial sum of a polynomial of smaller degree. -/
theorem alt_sum_poly (P : ℝ[X]) (k : ℕ) (h : P.natDegree < k) :
    ∑ s ∈ range (k + 1), (-1 : ℝ) ^ s * (k.choose s : ℝ) * P.eval (s : ℝ) = 0 := by
  have h1 := Polynomial.fwdDiff_iter_eq_zero_of_degree_lt h
  have h2 := congrFun h1 0
  rw [fwdDiff_iter_eq_sum_shift] at h2
  simp only [zero_add, Pi.zero_apply, nsmul_eq_mul, mul_one, zsmul_eq_mul] at h2
  push_cast at h2
  have h3 : (-1 : ℝ) ^ k * ∑ s ∈ range (k + 1), (-1 : ℝ) ^ s * (k.choose s : ℝ) * P.eval (s : ℝ) = 0 := by
    rw [← h2, mul_sum]
    refine sum_congr rfl fun s hs => ?_
    have hsk : s ≤ k := Nat.lt_succ_iff.mp (mem_range.mp hs)
    have : (-1 : ℝ) ^ k * (-1) ^ s = (-1) ^ (k - s) := by
      obtain ⟨d, rfl⟩ := Nat.exists_eq_add_of_le hsk
      rw [Nat.add_sub_cancel_left, pow_add]
      have : ((-1 : ℝ) ^ s * (-1) ^ s) = 1 := by rw [← mul_pow]; simp
      calc (-1 : ℝ) ^ s * (-1) ^ d * (-1) ^ s = ((-1 : ℝ) ^ s * (-1) ^ s) * (-1) ^ d := by ring
        _ = _ := by rw [this, one_mul]
    rw [← mul_assoc, ← mul_assoc, this]
  exact (mul_eq_zero.mp h3).resolve_left (pow_ne_zero _ (by norm_num))

/-- `Σ (-1)^s C(k,s) / (x+s) = k! / (x (x+1) … (x+k))`. -/
theorem alt_sum_inv (k : ℕ) (x : ℝ) (hx : 0 < x) :
    ∑ s ∈ range (k + 1), (-1 : ℝ) ^ s * (k.choose s : ℝ) * (1 / (x + s))
      = (k.factorial : ℝ) / ∏ i ∈ range (k + 1), (x + i) := by
  induction k generalizing x with
  | zero => simp
  | succ k ih =>
    have hstep : ∑ s ∈ range (k + 1 + 1), (-1 : ℝ) ^ s * ((k + 1).choose s : ℝ) * (1 / (x + s))
        = (∑ s ∈ range (k + 1), (-1 : ℝ) ^ s * (k.choose s : ℝ) * (1 / (x + s)))
          - ∑ s ∈ range (k + 1), (-1 : ℝ) ^ s * (k.choose s : ℝ) * (1 / (x + 1 + s)) := by
      rw [sum_range_succ' _ (k + 1)]
      have e1 : ∑ s ∈ range (k + 1), (-1 : ℝ) ^ s * (k.choose s : ℝ) * (1 / (x + s))
          = ∑ s ∈ range (k + 1), (-1 : ℝ) ^ (s + 1) * (k.choose (s + 1) : ℝ) * (1 / (x + (s + 1 : ℕ)))
            + (-1 : ℝ) ^ 0 * (k.choose 0 : ℝ) * (1 / (x + (0 : ℕ))) := by
        rw [← sum_range_succ' (fun s => (-1 : ℝ) ^ s * (k.choose s : ℝ) * (1 / (x + s)))]
        rw [sum_range_succ _ (k + 1)]
        simp
      rw [e1, add_sub_right_comm, ← sum_sub_distrib]
      congr 1
      · refine sum_congr rfl fun s _ => ?_
        rw [Nat.choose_succ_succ]
        push_cast
        rw [show x + 1 + (s : ℝ) = x + (s + 1) by ring]
        ring
      · simp
    rw [hstep, ih x hx, ih (x + 1) (by linarith)]
    have hp : ∀ (y : ℝ) (n : ℕ), 0 < y → (∏ i ∈ range n, (y + i)) ≠ 0 := fun y n hy =>
      prod_ne_zero_iff.mpr fun i _ => by positivity
    have e2 : ∏ i ∈ range (k + 1 + 1), (x + i) = x * ∏ i ∈ range (k + 1), (x + 1 + i) := by
      rw [prod_range_succ']
      simp only [Nat.cast_add, Nat.cast_one, CharP.cast_eq_zero, add_zero]
      rw [mul_comm]
      congr 1
      exact prod_congr rfl fun i _ => by ring
    have e3 : ∏ i ∈ range (k + 1 + 1), (x + i) = (∏ i ∈ range (k + 1), (x + i)) * (x + (k + 1 : ℕ)) :=
      prod_range_succ _ _
    have hA := hp x (k + 1) hx
    have hB := hp (x + 1) (k + 1) (by linarith)
    have hxk : x + ((k + 1 : ℕ) : ℝ) ≠ 0 := by positivity
    have e4 : (∏ i ∈ range (k + 1), (x + i)) = x * (∏ i ∈ range (k + 1), (x + 1 + i)) / (x + (k + 1 : ℕ)) := by
      rw [eq_div_iff hxk, ← e3, e2]
    rw [e2, e4, Nat.factorial_succ]
    push_cast at hxk ⊢
    field_simp
    ring

/-- The polynomial `(X+m+1)(X+m+2)…(X+m+k)`. -/
noncomputable def risePoly (k m : ℕ) : ℝ[X] := ∏ i ∈ range k, (X + C ((m : ℝ) + 1 + i))

theorem risePoly_eval (k m s : ℕ) :
    (risePoly k m).eval (s : ℝ) = (k.factorial : ℝ) * ((m + k + s).choose k : ℝ) := by
  have h : (risePoly k m).eval (s : ℝ) = ((m + s + 1).ascFactorial k : ℕ) := by
    rw [risePoly, eval_prod, Nat.ascFactorial_eq_prod_range]
    push_cast
    refine prod_congr rfl fun i _ => ?_
    simp; ring
  rw [h, Nat.ascFactorial_eq_factorial_mul_choose]
  rw [show m + s + k = m + k + s by ring]
  push_cast; ring

theorem risePoly_natDegree (k m : ℕ) : (risePoly k m).natDegree ≤ k := by
  rw [risePoly]
  refine (natDegree_prod_le _ _).trans ?_
  refine (sum_le_card_nsmul _ _ 1 fun i _ => ?_).trans (by simp)
  exact (natDegree_X_add_C _).le

theorem risePoly_eval_neg (k m j : ℕ) (hj : j ≤ k) :
    (risePoly k m).eval (-((m : ℝ) + j + 1)) = if j = k then (-1) ^ k * (k.factorial : ℝ) else 0 := by
  rw [risePoly, eval_prod]
  have e : ∀ i ∈ range k, eval (-((m : ℝ) + j + 1)) (X + C ((m : ℝ) + 1 + i)) = (i : ℝ) - j := by
    intro i _; simp; ring
  rw [prod_congr rfl e]
  split_ifs with h
  · subst h
    rw [← prod_range_reflect]
    have : ∀ i ∈ range j, (((j - 1 - i : ℕ) : ℝ) - j) = (-1) * ((i : ℝ) + 1) := by
      intro i hi
      have : i < j := mem_range.mp hi
      rw [show j - 1 - i = j - (i + 1) by omega, Nat.cast_sub (by omega)]
      push_cast; ring
    rw [prod_congr rfl this, prod_mul_distrib]
    simp [← prod_range_add_one_eq_factorial]
  · exact prod_eq_zero (i := j) (mem_range.mpr (by omega)) (sub_self _)

/-- Moments of the Jacobi part against `t^(m+j)`. -/
theorem moment (k m j : ℕ) (hj : j ≤ k) :
    ∑ s ∈ range (k + 1), (-1 : ℝ) ^ s * (k.choose s : ℝ) * ((m + k + s).choose k : ℝ) * (1 / ((m : ℝ) + s + j + 1))
      = if j = k then (-1) ^ k / (((m : ℝ) + 2 * k + 1) * ((m + 2 * k).choose k : ℝ)) else 0 := by
  have hkf : (k.factorial : ℝ) ≠ 0 := by exact_mod_cast k.factorial_ne_zero
  set x : ℝ := (m : ℝ) + j + 1 with hx
  have hxpos : 0 < x := by positivity
  set q := risePoly k m
  set t := q /ₘ (X - C (-x))
  have hmonic : (X - C (-x)).Monic := monic_X_sub_C _
  have hdiv : C (q.eval (-x)) + (X - C (-x)) * t = q := by
    have := modByMonic_add_div q (X - C (-x))
    rwa [modByMonic_X_sub_C_eq_C_eval] at this
  have heval : ∀ s : ℕ, q.eval (s : ℝ) * (1 / (x + s)) = q.eval (-x) * (1 / (x + s)) + t.eval (s : ℝ) := by
    intro s
    have hs : x + (s : ℝ) ≠ 0 := by positivity
    conv_lhs => rw [← hdiv]
    simp only [eval_add, eval_mul, eval_sub, eval_X, eval_C]
    field_simp
    ring
  have ht : ∑ s ∈ range (k + 1), (-1 : ℝ) ^ s * (k.choose s : ℝ) * t.eval (s : ℝ) = 0 := by
    rcases Nat.eq_zero_or_pos k with hk | hk
    · have : q.natDegree = 0 := Nat.le_zero.mp (hk ▸ risePoly_natDegree k m)
      have ht0 : t = 0 := by
        rw [divByMonic_eq_zero_iff hmonic]
        calc q.degree ≤ q.natDegree := degree_le_natDegree
          _ < _ := by rw [this, degree_X_sub_C]; norm_num
      simp [ht0]
    · apply alt_sum_poly
      rw [natDegree_divByMonic _ hmonic, natDegree_X_sub_C]
      have : q.natDegree ≤ k := risePoly_natDegree k m
      omega
  have hsum : (k.factorial : ℝ) * ∑ s ∈ range (k + 1), (-1 : ℝ) ^ s * (k.choose s : ℝ) *
      ((m + k + s).choose k : ℝ) * (1 / ((m : ℝ) + s + j + 1))
      = q.eval (-x) * ((k.factorial : ℝ) / ∏ i ∈ range (k + 1), (x + i)) := by
    rw [← alt_sum_inv k x hxpos, mul_sum, mul_sum, ← sub_eq_zero, ← sum_sub_distrib, ← ht]
    refine sum_congr rfl fun s _ => ?_
    have h1 := heval s
    rw [risePoly_eval] at h1
    have e : (m : ℝ) + s + j + 1 = x + s := by rw [hx]; ring
    rw [e]
    linear_combination (-1 : ℝ) ^ s * (k.choose s : ℝ) * h1
  have hq := risePoly_eval_neg k m j hj
  rw [hq] at hsum
  split_ifs at hsum ⊢ with h
  · have hprod : ∏ i ∈ range (k + 1), (x + i) = (k.factorial : ℝ) * (((m : ℝ) + 2 * k + 1) * ((m + 2 * k).choose k : ℝ)) := by
      have h1 : ∏ i ∈ range k, (x + i) = (k.factorial : ℝ) * ((m + 2 * k).choose k : ℝ) := by
        have : ∏ i ∈ range k, (x + i) = ((m + k + 1).ascFactorial k : ℕ) := by
          rw [Nat.ascFactorial_eq_prod_range]
          push_cast
          refine prod_congr rfl fun i _ => ?_
          rw [hx, h]
        rw [this, Nat.ascFactorial_eq_factorial_mul_choose, show m + k + k = m + 2 * k by ring]
        push_cast; ring
      rw [prod_range_succ, h1, hx, h]; ring
    rw [hprod] at hsum
    have hc : ((m + 2 * k).choose k : ℝ) ≠ 0 := by
      exact_mod_cast (Nat.choose_pos (by omega)).ne'
    have hm : (m : ℝ) + 2 * k + 1 ≠ 0 := by positivity
    apply mul_left_cancel₀ hkf
    rw [hsum]
    field_simp
  · rw [zero_mul] at hsum
    exact (mul_eq_zero.mp hsum).resolve_left hkf

/-! ## Radial integral -/

/-- The radial polynomial of the code on the disk, for `n = m + 2k`, `m ≥ 0`. -/
noncomputable def radPoly (m k : ℕ) (r : ℝ) : ℝ :=
  (-1) ^ (m + k) * r ^ m * ∑ s ∈ range (k + 1), (-1 : ℝ) ^ s * (k.choose s : ℝ) * ((m + k + s).choose k : ℝ) * r ^ (2 * s)

theorem radPoly_eq (m k : ℕ) (r : ℝ) :
    radPoly m k r = ∑ s ∈ range (k + 1),
      ((-1) ^ (m + k) * ((-1 : ℝ) ^ s * (k.choose s : ℝ) * ((m + k + s).choose k : ℝ))) * r ^ (m + 2 * s) := by
  rw [radPoly, mul_sum]
  exact sum_congr rfl fun s _ => by rw [pow_add]; ring

theorem radial_integral_le (m k k' : ℕ) (h : k' ≤ k) :
    ∫ r in (0 : ℝ)..1, radPoly m k r * radPoly m k' r * r
      = if k' = k then 1 / (2 * ((m : ℝ) + 2 * k + 1)) else 0 := by
  set c : ℕ → ℕ → ℝ := fun k s => (-1 : ℝ) ^ s * (k.choose s : ℝ) * ((m + k + s).choose k : ℝ) with hc
  have e : ∀ r : ℝ, radPoly m k r * radPoly m k' r * r = ∑ s' ∈ range (k' + 1), ∑ s ∈ range (k + 1),
      ((-1) ^ (m + k) * (-1) ^ (m + k') * c k' s' * c k s) * r ^ (2 * m + 2 * s + 2 * s' + 1) := by
    intro r
    rw [radPoly_eq, radPoly_eq, mul_comm (∑ s ∈ range (k + 1), _), sum_mul_sum, sum_mul]
    refine sum_congr rfl fun s' _ => ?_
    rw [sum_mul]
    refine sum_congr rfl fun s _ => ?_
    rw [hc]
    simp only [pow_add, pow_mul, pow_one]
    ring
  simp only [e]
  rw [intervalIntegral.integral_finsetSum]
  swap
  · intro s' _
    exact Continuous.intervalIntegrable (by fun_prop) _ _
  have e2 : ∀ s' ∈ range (k' + 1), ∫ r in (0 : ℝ)..1, ∑ s ∈ range (k + 1),
      ((-1) ^ (m + k) * (-1) ^ (m + k') * c k' s' * c k s) * r ^ (2 * m + 2 * s + 2 * s' + 1)
      = (-1) ^ (m + k) * (-1) ^ (m + k') * c k' s' * (1 / 2) *
        (if s' = k then (-1) ^ k / (((m : ℝ) + 2 * k + 1) * ((m + 2 * k).choose k : ℝ)) else 0) := by
    intro s' hs'
    rw [intervalIntegral.integral_finsetSum]
    swap
    · intro s _
      exact Continuous.intervalIntegrable (by fun_prop) _ _
    rw [← moment k m s' (by have := mem_range.mp hs'; omega), mul_sum]
    refine sum_congr rfl fun s _ => ?_
    rw [intervalIntegral.integral_const_mul, integral_pow]
    have h0 : ((m : ℝ) + s + s' + 1) ≠ 0 := by positivity
    have h1 : ((2 * m + 2 * s + 2 * s' + 1 : ℕ) : ℝ) + 1 = 2 * ((m : ℝ) + s + s' + 1) := by push_cast; ring
    rw [h1, hc]
    simp only [one_pow, ne_eq, Nat.add_eq_zero_iff, one_ne_zero, and_false, not_false_eq_true, zero_pow, sub_zero]
    field_simp
  rw [sum_congr rfl e2]
  split_ifs with hk
  · subst hk
    rw [sum_range_succ, sum_eq_zero]
    · rw [if_pos rfl, zero_add, hc]
      have hch : ((m + 2 * k').choose k' : ℝ) ≠ 0 := by exact_mod_cast (Nat.choose_pos (by omega)).ne'
      have hm : (m : ℝ) + 2 * k' + 1 ≠ 0 := by positivity
      have s1 : (-1 : ℝ) ^ (m + k') * (-1) ^ (m + k') = 1 := by rw [← mul_pow]; simp
      have s2 : (-1 : ℝ) ^ k' * (-1) ^ k' = 1 := by rw [← mul_pow]; simp
      simp only [Nat.choose_self, Nat.cast_one, mul_one, show m + k' + k' = m + 2 * k' by ring]
      field_simp
      linear_combination (-1 : ℝ) ^ k' * (-1) ^ k' * s1 + s2
    · intro s' hs'
      rw [if_neg (by have := mem_range.mp hs'; omega), mul_zero]
  · refine sum_eq_zero fun s' hs' => ?_
    rw [if_neg (by have := mem_range.mp hs'; omega), mul_zero]

theorem radial_integral (m k k' : ℕ) :
    ∫ r in (0 : ℝ)..1, radPoly m k r * radPoly m k' r * r
      = if k' = k then 1 / (2 * ((m : ℝ) + 2 * k + 1)) else 0 := by
  rcases le_total k' k with h | h
  · exact radial_integral_le m k k' h
  · have := radial_integral_le m k' k h
    rw [show (fun r : ℝ => radPoly m k r * radPoly m k' r * r)
      = fun r => radPoly m k' r * radPoly m k r * r from funext fun r => by ring, this]
    by_cases hk : k = k'
    · subst hk; rfl
    · rw [if_neg hk, if_neg (Ne.symm hk)]

/-! ## Angular integrals -/

theorem int_cos (k : ℤ) : ∫ t in (0 : ℝ)..(2 * Real.pi), Real.cos (k * t) = if k = 0 then 2 * Real.pi else 0 := by
  split_ifs with h
  · subst h; simp
  · have hk : (k : ℝ) ≠ 0 := by exact_mod_cast h
    rw [intervalIntegral.integral_comp_mul_left (fun x => Real.cos x) hk]
    rw [integral_cos]
    have : Real.sin (k * (2 * Real.pi)) = 0 := by
      have := Real.sin_int_mul_pi (2 * k)
      rw [← this]; congr 1; push_cast; ring
    simp [this]

theorem int_sin (k : ℤ) : ∫ t in (0 : ℝ)..(2 * Real.pi), Real.sin (k * t) = 0 := by
  by_cases h : k = 0
  · subst h; simp
  · have hk : (k : ℝ) ≠ 0 := by exact_mod_cast h
    rw [intervalIntegral.integral_comp_mul_left (fun x => Real.sin x) hk, integral_sin]
    have : Real.cos (k * (2 * Real.pi)) = 1 := Real.cos_int_mul_two_pi k
    simp [this]

theorem int_cos_cos (a b : ℤ) : ∫ t in (0 : ℝ)..(2 * Real.pi), Real.cos (a * t) * Real.cos (b * t)
    = ((if a = b then 2 * Real.pi else 0) + (if a = -b then 2 * Real.pi else 0)) / 2 := by
  have e : ∀ t : ℝ, Real.cos (a * t) * Real.cos (b * t)
      = (Real.cos ((a - b : ℤ) * t) + Real.cos ((a + b : ℤ) * t)) * (1 / 2) := by
    intro t
    push_cast
    rw [show ((a : ℝ) - b) * t = a * t - b * t by ring, show ((a : ℝ) + b) * t = a * t + b * t by ring,
      Real.cos_sub, Real.cos_add]; ring
  simp only [e]
  rw [intervalIntegral.integral_mul_const, intervalIntegral.integral_add, int_cos, int_cos]
  · simp only [sub_eq_zero, add_eq_zero_iff_eq_neg]; ring
  all_goals exact Continuous.intervalIntegrable (by fun_prop) _ _

theorem int_sin_sin (a b : ℤ) : ∫ t in (0 : ℝ)..(2 * Real.pi), Real.sin (a * t) * Real.sin (b * t)
    = ((if a = b then 2 * Real.pi else 0) - (if a = -b then 2 * Real.pi else 0)) / 2 := by
  have e : ∀ t : ℝ, Real.sin (a * t) * Real.sin (b * t)
      = (Real.cos ((a - b : ℤ) * t) - Real.cos ((a + b : ℤ) * t)) * (1 / 2) := by
    intro t
    push_cast
    rw [show ((a : ℝ) - b) * t = a * t - b * t by ring, show ((a : ℝ) + b) * t = a * t + b * t by ring,
      Real.cos_sub, Real.cos_add]; ring
  simp only [e]
  rw [intervalIntegral.integral_mul_const, intervalIntegral.integral_sub, int_cos, int_cos]
  · simp only [sub_eq_zero, add_eq_zero_iff_eq_neg]; ring
  all_goals exact Continuous.intervalIntegrable (by fun_prop) _ _

theorem int_sin_cos (a b : ℤ) : ∫ t in (0 : ℝ)..(2 * Real.pi), Real.sin (a * t) * Real.cos (b * t) = 0 := by
  have e : ∀ t : ℝ, Real.sin (a * t) * Real.cos (b * t)
      = (Real.sin ((a + b : ℤ) * t) + Real.sin ((a - b : ℤ) * t)) * (1 / 2) := by
    intro t
    push_cast
    rw [show ((a : ℝ) - b) * t = a * t - b * t by ring, show ((a : ℝ) + b) * t = a * t + b * t by ring,
      Real.sin_sub, Real.sin_add]; ring
  simp only [e]
  rw [intervalIntegral.integral_mul_const, intervalIntegral.integral_add, int_sin, int_sin]
  · simp
  all_goals exact Continuous.intervalIntegrable (by fun_prop) _ _

end PyOTF
