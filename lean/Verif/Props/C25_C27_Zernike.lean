import Verif.Lemmas.ZernikeOrtho
import Verif.Model.Utils
import Verif.Props.C22_C24_Noll
import Mathlib.Analysis.SpecialFunctions.PolarCoord
import Mathlib.MeasureTheory.Integral.IntervalIntegral.Periodic
import Mathlib.MeasureTheory.Integral.Prod

/-!
# C25–C27: values of the Zernike polynomials
-/

namespace PyOTF

open Finset MeasureTheory

/-! ## Specification -/

/-- The textbook radial polynomial `R_n^m` (Born & Wolf), for `0 ≤ m ≤ n`, `n - m` even. -/
noncomputable def radialTextbook (n m : ℕ) (r : ℝ) : ℝ :=
  ∑ k ∈ range ((n - m) / 2 + 1), (-1 : ℝ) ^ k * ((n - k).factorial : ℝ) /
    ((k.factorial : ℝ) * (((n + m) / 2 - k).factorial : ℝ) * (((n - m) / 2 - k).factorial : ℝ)) * r ^ (n - 2 * k)

/-- Mean over the unit disk (area π) of a function of the Cartesian coordinates. -/
noncomputable def diskMean (f : ℝ × ℝ → ℝ) : ℝ :=
  (1 / Real.pi) * ∫ p in {p : ℝ × ℝ | p.1 ^ 2 + p.2 ^ 2 ≤ 1}, f p

/-- The mode as a function of Cartesian coordinates, through the library's own `cart2pol`. -/
noncomputable def zernikeXY (n m : ℤ) (norm : Bool) (p : ℝ × ℝ) : ℝ :=
  zernike1 (cart2pol p.2 p.1).1 (cart2pol p.2 p.1).2 n m norm

/-! ## C25 -/

theorem radPoly_textbook (m k : ℕ) (r : ℝ) : radPoly m k r = (-1) ^ m * radialTextbook (m + 2 * k) m r := by
  rw [radPoly_eq, radialTextbook, show (m + 2 * k - m) / 2 = k by omega,
    show (m + 2 * k + m) / 2 = m + k by omega, mul_sum, ← sum_range_reflect]
  refine sum_congr rfl fun j hj => ?_
  have hj' : j ≤ k := by have := mem_range.mp hj; omega
  obtain ⟨s, rfl⟩ := Nat.exists_eq_add_of_le hj'
  rw [show j + s + 1 - 1 - j = s by omega, show m + 2 * (j + s) - 2 * j = m + 2 * s by omega,
    show m + 2 * (j + s) - j = m + (j + s) + s by omega, show m + (j + s) - j = m + s by omega,
    show j + s - j = s by omega]
  have hf : ∀ n : ℕ, (n.factorial : ℝ) ≠ 0 := fun n => by exact_mod_cast n.factorial_ne_zero
  have h1 : ((j + s).choose s : ℝ) = ((j + s).factorial : ℝ) / (s.factorial * j.factorial) := by
    rw [Nat.cast_choose ℝ (Nat.le_add_left s j), Nat.add_sub_cancel]
  have h2 : ((m + (j + s) + s).choose (j + s) : ℝ)
      = ((m + (j + s) + s).factorial : ℝ) / ((j + s).factorial * (m + s).factorial) := by
    rw [Nat.cast_choose ℝ (by omega)]
    rw [show m + (j + s) + s - (j + s) = m + s by omega]
  rw [h1, h2]
  have sg : (-1 : ℝ) ^ (m + (j + s)) * (-1) ^ s = (-1) ^ m * (-1) ^ j := by
    have : (-1 : ℝ) ^ s * (-1) ^ s = 1 := by rw [← mul_pow]; simp
    rw [pow_add, pow_add]
    linear_combination (-1 : ℝ) ^ m * (-1) ^ j * this
  have a1 := hf s; have a2 := hf j; have a3 := hf (j + s); have a4 := hf (m + s)
  set F := ((m + (j + s) + s).factorial : ℝ)
  field_simp
  linear_combination (F * r ^ (m + 2 * s)) * sg

/-- An admissible pair is `n = |m| + 2k`. -/
theorem admissible_iff {n m : ℤ} : Admissible n m ↔ ∃ k : ℕ, n = |m| + 2 * k := by
  constructor
  · rintro ⟨h1, h2⟩
    refine ⟨((n - |m|) / 2).toNat, ?_⟩
    have : (n - |m|) % 2 = 0 := by rcases abs_choice m with h | h <;> rw [h] <;> omega
    omega
  · rintro ⟨k, hk⟩
    refine ⟨by omega, ?_⟩
    rcases abs_choice m with h | h <;> rw [h] at hk <;> omega

theorem radialZernike_radPoly {n m : ℤ} {k : ℕ} (hk : n = |m| + 2 * k) {r : ℝ} (hr : r ≤ 1) :
    radialZernike r n m = radPoly m.natAbs k r := by
  have hab : |m| = (m.natAbs : ℤ) := Int.abs_eq_natAbs m
  rw [radialZernike, if_pos hr]
  split_ifs with h
  · obtain ⟨rfl, rfl⟩ := h
    have hk0 : k = 0 := by simpa using hk
    subst hk0
    simp [radPoly]
  · simp only []
    rw [hk, hab, show ((m.natAbs : ℤ) + 2 * k + m.natAbs) / 2 = ((m.natAbs + k : ℕ) : ℤ) by push_cast; omega,
      show ((m.natAbs : ℤ) + 2 * k - m.natAbs) / 2 = (k : ℤ) by omega]
    simp only [Int.toNat_natCast]
    rw [radPoly, evalJacobi]
    congr 1
    refine sum_congr rfl fun s _ => ?_
    rw [show (1 - 2 * r ^ 2 - 1) / 2 = -1 * r ^ 2 by ring, mul_pow, ← pow_mul]
    ring

/-- C25: for every admissible `(n, m)` and every `r ≤ 1` the radial part is `(-1)^m` times the textbook
radial polynomial. -/
theorem C25_radial (n m : ℤ) (h : Admissible n m) (r : ℝ) (hr : r ≤ 1) :
    radialZernike r n m = (-1) ^ m.natAbs * radialTextbook n.toNat m.natAbs r := by
  obtain ⟨k, hk⟩ := admissible_iff.mp h
  rw [radialZernike_radPoly hk hr, radPoly_textbook]
  congr 2
  rw [Int.abs_eq_natAbs] at hk
  omega

/-- C25: exactly the textbook polynomial for even `m`, its negative for odd `m`. -/
theorem C25_radial_sign (n m : ℤ) (h : Admissible n m) (r : ℝ) (hr : r ≤ 1) :
    (m % 2 = 0 → radialZernike r n m = radialTextbook n.toNat m.natAbs r) ∧
    (m % 2 ≠ 0 → radialZernike r n m = -radialTextbook n.toNat m.natAbs r) := by
  rw [C25_radial n m h r hr]
  constructor
  · intro hm
    rw [Even.neg_one_pow (by rw [Nat.even_iff]; omega), one_mul]
  · intro hm
    rw [Odd.neg_one_pow (by rw [Nat.odd_iff]; omega), neg_one_mul]

theorem textbook_one (m k : ℕ) : radialTextbook (m + 2 * k) m 1 = 1 := by
  -- value at the rim: `radPoly m k 1 = (-1)^m`
  have h := radPoly_textbook m k 1
  have hs : ∑ s ∈ range (k + 1), (-1 : ℝ) ^ s * (k.choose s : ℝ) * ((m + k + s).choose k : ℝ) = (-1) ^ k := by
    -- k-th difference of a polynomial of degree k with leading coefficient 1/k!
    have hP : (risePoly k m).natDegree = k := by
      rw [risePoly, Polynomial.natDegree_prod_of_monic _ _ (fun i _ => Polynomial.monic_X_add_C _),
        sum_congr rfl (fun i _ => Polynomial.natDegree_X_add_C _)]
      simp
    have h1 := Polynomial.fwdDiff_iter_degree_eq_factorial (risePoly k m)
    rw [hP] at h1
    have h2 := congrFun h1 0
    rw [fwdDiff_iter_eq_sum_shift] at h2
    have hl : (risePoly k m).leadingCoeff = 1 :=
      Polynomial.monic_prod_of_monic _ _ fun i _ => Polynomial.monic_X_add_C _
    simp only [zero_add, nsmul_eq_mul, mul_one, zsmul_eq_mul, hl, one_smul, Pi.natCast_apply] at h2
    push_cast at h2
    have hkf : (k.factorial : ℝ) ≠ 0 := by exact_mod_cast k.factorial_ne_zero
    have h3 : (k.factorial : ℝ) * ∑ s ∈ range (k + 1), (-1 : ℝ) ^ s * (k.choose s : ℝ) * ((m + k + s).choose k : ℝ)
        = (k.factorial : ℝ) * (-1) ^ k := by
      have : (k.factorial : ℝ) * (-1) ^ k = (-1) ^ k * (k.factorial : ℝ) := mul_comm _ _
      rw [this]
      nth_rewrite 2 [← h2]
      rw [mul_sum, mul_sum]
      refine sum_congr rfl fun s hs => ?_
      rw [risePoly_eval]
      have hsk : s ≤ k := Nat.lt_succ_iff.mp (mem_range.mp hs)
      obtain ⟨d, rfl⟩ := Nat.exists_eq_add_of_le hsk
      rw [Nat.add_sub_cancel_left, pow_add]
      have : ((-1 : ℝ) ^ d * (-1) ^ d) = 1 := by rw [← mul_pow]; simp
      linear_combination -((-1 : ℝ) ^ s * ((s + d).choose s : ℝ) * ((s + d).factorial : ℝ) *
        ((m + (s + d) + s).choose (s + d) : ℝ)) * this
    exact mul_left_cancel₀ hkf h3
  rw [radPoly] at h
  simp only [one_pow, mul_one] at h
  rw [hs] at h
  have e1 : (-1 : ℝ) ^ (m + k) * (-1) ^ k = (-1) ^ m := by
    have : ((-1 : ℝ) ^ k * (-1) ^ k) = 1 := by rw [← mul_pow]; simp
    rw [pow_add]; linear_combination (-1 : ℝ) ^ m * this
  rw [e1] at h
  have h0 : (-1 : ℝ) ^ m ≠ 0 := pow_ne_zero m (by norm_num)
  exact (mul_left_cancel₀ h0 ((mul_one _).trans h)).symm

/-- C25: the radial part at the rim `r = 1` is `(-1)^m`. -/
theorem C25_rim (n m : ℤ) (h : Admissible n m) : radialZernike 1 n m = (-1) ^ m.natAbs := by
  obtain ⟨k, hk⟩ := admissible_iff.mp h
  rw [C25_radial n m h 1 le_rfl]
  have : n.toNat = m.natAbs + 2 * k := by rw [Int.abs_eq_natAbs] at hk; omega
  rw [this, textbook_one, mul_one]

/-- Non-vacuity of C25: the code's defocus and tip. -/
example (r : ℝ) (hr : r ≤ 1) : radialZernike r 2 0 = 2 * r ^ 2 - 1 ∧ radialZernike r 1 1 = -r := by
  have h1 := C25_radial 2 0 (by decide) r hr
  have h2 := C25_radial 1 1 (by decide) r hr
  rw [h1, h2]
  constructor
  · simp [radialTextbook, sum_range_succ, Nat.factorial]; ring
  · simp [radialTextbook]

/-! ## C26 -/

/-- Normalisation factor of the default `norm=True`. -/
noncomputable def normFactor (n m : ℤ) : ℝ := if m = 0 then Real.sqrt (n + 1) else Real.sqrt (2 * (n + 1))

/-- Angular factor. -/
noncomputable def angular (m : ℤ) (t : ℝ) : ℝ :=
  if m < 0 then Real.sin ((|m| : ℤ) * t) else Real.cos ((|m| : ℤ) * t)

theorem zernike1_factor {n m : ℤ} {k : ℕ} (hk : n = |m| + 2 * k) (r t : ℝ) :
    zernike1 r t n m true = (if r ≤ 1 then radPoly m.natAbs k r else 0) * angular m t * normFactor n m := by
  have hpar : ¬ ((n - |m|) % 2 ≠ 0) := by omega
  have hrad : radialZernike r n |m| = if r ≤ 1 then radPoly m.natAbs k r else 0 := by
    split_ifs with hr
    · have := radialZernike_radPoly (m := |m|) (n := n) (k := k) (by rw [abs_abs]; exact hk) hr
      rw [this, Int.natAbs_abs]
    · rw [radialZernike, if_neg hr]
  rw [zernike1]
  simp only []
  rw [if_neg hpar, hrad]
  simp only [if_true, normFactor, angular, abs_eq_zero, decide_eq_true_eq]
  split_ifs <;> ring

theorem cart2pol_polar {r t : ℝ} (hr : 0 < r) (ht : t ∈ Set.Ioo (-Real.pi) Real.pi) :
    cart2pol (r * Real.sin t) (r * Real.cos t) = (r, t) := by
  have h1 : (⟨r * Real.cos t, r * Real.sin t⟩ : ℂ) = r * (Complex.cos t + Complex.sin t * Complex.I) := by
    apply Complex.ext
    · simp [Complex.cos_ofReal_re, Complex.sin_ofReal_re, Complex.cos_ofReal_im, Complex.sin_ofReal_im]
    · simp [Complex.cos_ofReal_re, Complex.sin_ofReal_re, Complex.cos_ofReal_im, Complex.sin_ofReal_im]
  simp only [cart2pol]
  rw [h1, Complex.arg_mul_cos_add_sin_mul_I hr ⟨ht.1, ht.2.le⟩]
  congr 1
  rw [show (r * Real.sin t) ^ 2 + (r * Real.cos t) ^ 2 = r ^ 2 * (Real.sin t ^ 2 + Real.cos t ^ 2) by ring,
    Real.sin_sq_add_cos_sq, mul_one, Real.sqrt_sq hr.le]

theorem int_angular (m m' : ℤ) : ∫ t in Set.Ioo (-Real.pi) Real.pi, angular m t * angular m' t
    = if m = m' then (if m = 0 then 2 * Real.pi else Real.pi) else 0 := by
  rw [← integral_Ioc_eq_integral_Ioo, ← intervalIntegral.integral_of_le (by linarith [Real.pi_pos])]
  have hper : Function.Periodic (fun t => angular m t * angular m' t) (2 * Real.pi) := by
    have ha : ∀ m : ℤ, Function.Periodic (angular m) (2 * Real.pi) := by
      intro m t
      simp only [angular]
      rw [mul_add]
      split_ifs
      · exact Real.sin_add_int_mul_two_pi _ _
      · exact Real.cos_add_int_mul_two_pi _ _
    intro t; simp only [ha m t, ha m' t]
  have := hper.intervalIntegral_add_eq (-Real.pi) 0
  rw [show -Real.pi + 2 * Real.pi = Real.pi by ring, zero_add] at this
  rw [this]
  have hp := Real.pi_pos
  by_cases h1 : m < 0 <;> by_cases h2 : m' < 0
  · simp only [angular, h1, h2, if_true]
    rw [int_sin_sin, abs_of_neg h1, abs_of_neg h2]
    by_cases h : m = m'
    · subst h
      rw [if_pos rfl, if_neg (by omega), if_pos rfl, if_neg (by omega)]; ring
    · rw [if_neg (by omega), if_neg (by omega), if_neg h]; ring
  · simp only [angular, h1, h2, if_true, if_false]
    rw [int_sin_cos, if_neg (by omega)]
  · simp only [angular, h1, h2, if_true, if_false]
    rw [show (fun t : ℝ => Real.cos (((|m| : ℤ) : ℝ) * t) * Real.sin (((|m'| : ℤ) : ℝ) * t))
      = fun t => Real.sin (((|m'| : ℤ) : ℝ) * t) * Real.cos (((|m| : ℤ) : ℝ) * t) from
        funext fun t => mul_comm _ _, int_sin_cos, if_neg (by omega)]
  · simp only [angular, h1, h2, if_false]
    rw [int_cos_cos, abs_of_nonneg (not_lt.mp h1), abs_of_nonneg (not_lt.mp h2)]
    by_cases h : m = m'
    · subst h
      by_cases h0 : m = 0
      · subst h0; simp
      · rw [if_pos rfl, if_neg (by omega), if_pos rfl, if_neg h0]; ring
    · rw [if_neg h, if_neg (by omega), if_neg h]; ring

/-- C26: the default-normalised modes are orthonormal with respect to the mean over the unit disk, for
all admissible pairs. -/
theorem C26_orthonormal (n m n' m' : ℤ) (h : Admissible n m) (h' : Admissible n' m') :
    diskMean (fun p => zernikeXY n m true p * zernikeXY n' m' true p)
      = if (n, m) = (n', m') then 1 else 0 := by
  obtain ⟨k, hk⟩ := admissible_iff.mp h
  obtain ⟨k', hk'⟩ := admissible_iff.mp h'
  set D : Set (ℝ × ℝ) := {p : ℝ × ℝ | p.1 ^ 2 + p.2 ^ 2 ≤ 1} with hD
  have hDm : MeasurableSet D := by
    apply measurableSet_le <;> fun_prop
  set F : ℝ × ℝ → ℝ := fun p => zernikeXY n m true p * zernikeXY n' m' true p with hF
  have e1 : ∫ p in D, F p = ∫ p, D.indicator F p := (integral_indicator hDm).symm
  rw [diskMean, ← hD, e1, ← integral_comp_polarCoord_symm]
  set A : ℝ → ℝ := fun r => r * ((if r ≤ 1 then radPoly m.natAbs k r else 0) *
    (if r ≤ 1 then radPoly m'.natAbs k' r else 0)) with hA
  set B : ℝ → ℝ := fun t => angular m t * angular m' t * (normFactor n m * normFactor n' m') with hB
  have e2 : ∫ p in polarCoord.target, p.1 • D.indicator F (polarCoord.symm p)
      = ∫ p in Set.Ioi (0 : ℝ) ×ˢ Set.Ioo (-Real.pi) Real.pi, A p.1 * B p.2 := by
    rw [polarCoord_target]
    refine setIntegral_congr_fun (measurableSet_Ioi.prod measurableSet_Ioo) fun p hp => ?_
    obtain ⟨r, t⟩ := p
    simp only [Set.mem_prod, Set.mem_Ioi] at hp
    have hpol : polarCoord.symm (r, t) = (r * Real.cos t, r * Real.sin t) := rfl
    simp only [hpol, smul_eq_mul]
    have hmem : ((r * Real.cos t, r * Real.sin t) ∈ D) ↔ r ≤ 1 := by
      simp only [hD, Set.mem_ofPred_eq]
      rw [show (r * Real.cos t) ^ 2 + (r * Real.sin t) ^ 2 = r ^ 2 * (Real.sin t ^ 2 + Real.cos t ^ 2) by ring,
        Real.sin_sq_add_cos_sq, mul_one, sq_le_one_iff₀ hp.1.le]
    by_cases hr : r ≤ 1
    · rw [Set.indicator_of_mem (hmem.mpr hr), hF]
      simp only [zernikeXY, cart2pol_polar hp.1 hp.2]
      rw [zernike1_factor hk, zernike1_factor hk', hA, hB]
      simp only []
      ring
    · rw [Set.indicator_of_notMem (fun hh => hr (hmem.mp hh)), hA]
      simp [hr]
  rw [e2, Measure.volume_eq_prod, setIntegral_prod_mul]
  have e3 : ∫ r in Set.Ioi (0 : ℝ), A r = ∫ r in (0 : ℝ)..1, radPoly m.natAbs k r * radPoly m'.natAbs k' r * r := by
    rw [intervalIntegral.integral_of_le zero_le_one, ← integral_indicator measurableSet_Ioi,
      ← integral_indicator measurableSet_Ioc]
    congr 1
    funext r
    by_cases h0 : 0 < r
    · by_cases h1 : r ≤ 1
      · rw [Set.indicator_of_mem (show r ∈ Set.Ioi 0 from h0), Set.indicator_of_mem (show r ∈ Set.Ioc 0 1 from ⟨h0, h1⟩), hA]
        simp only [h1, if_true]; ring
      · rw [Set.indicator_of_mem (show r ∈ Set.Ioi 0 from h0), Set.indicator_of_notMem (fun hh => h1 hh.2), hA]
        simp [h1]
    · rw [Set.indicator_of_notMem (show r ∉ Set.Ioi 0 from fun hh => h0 hh),
        Set.indicator_of_notMem (show r ∉ Set.Ioc 0 1 from fun hh => h0 hh.1)]
  have e4 : ∫ t in Set.Ioo (-Real.pi) Real.pi, B t
      = (if m = m' then (if m = 0 then 2 * Real.pi else Real.pi) else 0) * (normFactor n m * normFactor n' m') := by
    rw [hB, integral_mul_const, int_angular]
  rw [e3, e4]
  by_cases hm : m = m'
  · subst hm
    rw [radial_integral, if_pos rfl]
    by_cases hkk : k' = k
    · subst hkk
      have hnn : n = n' := by omega
      subst hnn
      rw [if_pos rfl, if_pos rfl]
      have hn : (n : ℝ) = (m.natAbs : ℝ) + 2 * k' := by
        rw [Int.abs_eq_natAbs] at hk
        have h2 : n = (((m.natAbs + 2 * k' : ℕ)) : ℤ) := by rw [hk]; push_cast; rfl
        rw [h2, Int.cast_natCast]; rw [Nat.cast_add, Nat.cast_mul]; simp
      rw [← hn]
      have hn0 : (0 : ℝ) < (n : ℝ) + 1 := by rw [hn]; positivity
      have hp := Real.pi_pos
      simp only [normFactor]
      split_ifs with h0
      · rw [Real.mul_self_sqrt hn0.le]; field_simp
      · rw [Real.mul_self_sqrt (by linarith)]; field_simp
    · have hne : ¬ ((n, m) = (n', m)) := by
        intro hh
        have := (Prod.mk.injEq _ _ _ _ ▸ hh : n = n' ∧ m = m).1
        omega
      rw [if_neg hkk, if_neg hne]
      ring
  · rw [if_neg hm, if_neg]
    · ring
    · rintro hh
      simp only [Prod.mk.injEq] at hh
      exact hm hh.2

/-- Non-vacuity of C26: defocus against itself and against oblique astigmatism. -/
example : diskMean (fun p => zernikeXY 2 0 true p * zernikeXY 2 0 true p) = 1 ∧
    diskMean (fun p => zernikeXY 2 0 true p * zernikeXY 2 (-2) true p) = 0 :=
  ⟨by rw [C26_orthonormal 2 0 2 0 (by decide) (by decide)]; simp,
   by rw [C26_orthonormal 2 0 2 (-2) (by decide) (by decide)]; simp⟩

/-! ## C27 -/

/-- C27: zero outside the unit disk. -/
theorem C27_support (n m : ℤ) (norm : Bool) (r t : ℝ) (hr : 1 < r) : zernike1 r t n m norm = 0 := by
  have : radialZernike r n |m| = 0 := by rw [radialZernike, if_neg (not_le.mpr hr)]
  rw [zernike1]
  simp only [this, zero_mul, ite_self]

/-- C27: zero for every pair with odd `n - |m|`. -/
theorem C27_parity_zero (n m : ℤ) (norm : Bool) (r t : ℝ) (h : (n - m) % 2 ≠ 0) : zernike1 r t n m norm = 0 := by
  rw [zernike1]
  simp only []
  rw [if_pos]
  rcases abs_choice m with h' | h' <;> rw [h'] <;> omega

/-- C27: rotation by π multiplies by `(-1)^n`. -/
theorem C27_rotation (n m : ℤ) (h : Admissible n m) (norm : Bool) (r t : ℝ) :
    zernike1 r (t + Real.pi) n m norm = (-1) ^ n.toNat * zernike1 r t n m norm := by
  obtain ⟨k, hk⟩ := admissible_iff.mp h
  have hpar : ¬ ((n - |m|) % 2 ≠ 0) := by omega
  have hn : n.toNat = m.natAbs + 2 * k := by rw [Int.abs_eq_natAbs] at hk; omega
  have hsg : (-1 : ℝ) ^ n.toNat = (-1) ^ m.natAbs := by rw [hn, pow_add, pow_mul]; simp
  have hab : ((|m| : ℤ) : ℝ) = (m.natAbs : ℝ) := by rw [Int.abs_eq_natAbs]; simp
  have hs : Real.sin (((|m| : ℤ) : ℝ) * (t + Real.pi)) = (-1) ^ m.natAbs * Real.sin (((|m| : ℤ) : ℝ) * t) := by
    rw [hab, mul_add, Real.sin_add_nat_mul_pi]
  have hc : Real.cos (((|m| : ℤ) : ℝ) * (t + Real.pi)) = (-1) ^ m.natAbs * Real.cos (((|m| : ℤ) : ℝ) * t) := by
    rw [hab, mul_add, Real.cos_add_nat_mul_pi]
  rw [zernike1, zernike1, hsg]
  simp only []
  rw [if_neg hpar, if_neg hpar, hs, hc]
  split_ifs <;> ring

/-- C27: cosine modes (`m ≥ 0`) are even and sine modes (`m < 0`) odd in the angle. -/
theorem C27_sin_cos (n m : ℤ) (norm : Bool) (r t : ℝ) :
    (0 ≤ m → zernike1 r (-t) n m norm = zernike1 r t n m norm) ∧
    (m < 0 → zernike1 r (-t) n m norm = -zernike1 r t n m norm) := by
  have h1 : Real.sin (((|m| : ℤ) : ℝ) * -t) = -Real.sin (((|m| : ℤ) : ℝ) * t) := by
    rw [mul_neg, Real.sin_neg]
  have h2 : Real.cos (((|m| : ℤ) : ℝ) * -t) = Real.cos (((|m| : ℤ) : ℝ) * t) := by
    rw [mul_neg, Real.cos_neg]
  rw [zernike1, zernike1, h1, h2]
  constructor
  · intro h
    simp only [decide_eq_false (not_lt.mpr h)]
    simp
  · intro h
    simp only [decide_eq_true h]
    split_ifs <;> simp

/-- C27: inside the disk a mode is (normalisation) × (±textbook radial polynomial) × sin/cos(|m|θ). -/
theorem C27_closed_form (n m : ℤ) (h : Admissible n m) (r t : ℝ) (hr : r ≤ 1) :
    zernike1 r t n m true = (if m = 0 then Real.sqrt (n + 1) else Real.sqrt (2 * (n + 1))) *
      ((-1) ^ m.natAbs * radialTextbook n.toNat m.natAbs r) *
      (if m < 0 then Real.sin (m.natAbs * t) else Real.cos (m.natAbs * t)) := by
  obtain ⟨k, hk⟩ := admissible_iff.mp h
  rw [zernike1_factor hk, if_pos hr, radPoly_textbook,
    show m.natAbs + 2 * k = n.toNat by rw [Int.abs_eq_natAbs] at hk; omega]
  have hab : ((|m| : ℤ) : ℝ) = (m.natAbs : ℝ) := by rw [Int.abs_eq_natAbs]; simp
  simp only [angular, normFactor, hab]
  ring

/-- Non-vacuity of C27. -/
example : zernike1 (1 / 2) (Real.pi / 2) 1 (-1) true = -1 := by
  rw [C27_closed_form 1 (-1) (by decide) _ _ (by norm_num)]
  simp [radialTextbook]
  rw [show (1 : ℝ) + 1 = 2 by norm_num, Real.mul_self_sqrt (by norm_num)]
  norm_num

end PyOTF
