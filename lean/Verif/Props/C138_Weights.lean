import Verif.Model.FloatWeights
import Verif.Props.C138_Amplitude

/-!
# C138: rounding errors of apodised and vectorial PSFs
-/

namespace PyOTF

open Physics Complex

/-! ## Specification -/

/-- The trigonometric functions of the library have absolute error `4 * u`. -/
structure FlTrig.Accurate (A : FlTrig) (u : ℝ) : Prop extends FlMath.Accurate A.toFlMath u where
  asin : ∀ w, |w| ≤ 1 → |A.asin w - Real.arcsin w| ≤ 4 * u
  sin : ∀ x, |A.sin x - Real.sin x| ≤ 4 * u
  cos : ∀ x, |A.cos x - Real.cos x| ≤ 4 * u
  atan2 : ∀ y x, |A.atan2 y x - Complex.arg ⟨x, y⟩| ≤ 4 * u

/-- Cosine of the angle of the marginal ray. -/
noncomputable def marginalCos (o : FlOptics) : ℝ := √(1 - (o.na / o.ni) ^ 2)

/-- Error bound of one wave of a component of the pupil. -/
noncomputable def componentError (u : ℝ) (o : FlOptics) (z : ℝ) : ℝ :=
  (1.02 * waveError u o z + 120 * u / marginalCos o ^ 2) / marginalCos o

/-- Error bound of the amplitude PSF: `n` pixels of the aperture, each with the error of its wave, and the error of the transform. -/
noncomputable def weightedBound (u ε : ℝ) (o : FlOptics) (z : ℝ) : ℝ :=
  (aperturePixels o.size o.res (o.na / o.wl)).card * componentError u o z / o.size ^ 2 +
    ε * (√(aperturePixels o.size o.res (o.na / o.wl)).card * (1.1 / marginalCos o) / o.size)

/-! ## Proofs -/

variable {A : FlTrig} {u : ℝ} {o : FlOptics}

/-- Products in floating point. -/
theorem mul_near (hA : A.Accurate u) {a b X Y e f : ℝ} (hX : |X| ≤ 1) (hY : |Y| ≤ 1) (he : e ≤ 1 / 25) (hf : f ≤ 1 / 25) (ha : |a - X| ≤ e) (hb : |b - Y| ≤ f) :
    |A.fl (a * b) - X * Y| ≤ 1.04 * e + f + 1.1 * u := by
  have h0 := hA.nonneg
  have e0 : 0 ≤ e := (abs_nonneg _).trans ha
  have f0 : 0 ≤ f := (abs_nonneg _).trans hb
  have b1 : |b| ≤ 1.04 := by
    have := abs_sub_abs_le_abs_sub b Y
    linarith
  have a1 : |a| ≤ 1.04 := by
    have := abs_sub_abs_le_abs_sub a X
    linarith
  have t1 : |a * b - X * Y| ≤ 1.04 * e + f := by
    rw [show a * b - X * Y = (a - X) * b + X * (b - Y) by ring]
    refine (abs_add_le _ _).trans ?_
    rw [abs_mul, abs_mul]
    have s1 : |a - X| * |b| ≤ e * 1.04 := mul_le_mul ha b1 (abs_nonneg _) e0
    have s2 : |X| * |b - Y| ≤ 1 * f := mul_le_mul hX hb (abs_nonneg _) (by norm_num)
    linarith
  have t2 := hA.round (a * b)
  have t3 : u * |a * b| ≤ u * 1.1 := by
    refine mul_le_mul_of_nonneg_left ?_ h0
    rw [abs_mul]
    nlinarith [abs_nonneg a, abs_nonneg b]
  have t4 := abs_sub_le (A.fl (a * b)) (a * b) (X * Y)
  linarith

/-- Sums in floating point. -/
theorem add_near (hA : A.Accurate u) {a b X Y e f : ℝ} (hXY : |X + Y| ≤ 1) (hef : e + f ≤ 1 / 25) (ha : |a - X| ≤ e) (hb : |b - Y| ≤ f) :
    |A.fl (a + b) - (X + Y)| ≤ e + f + 1.1 * u := by
  have h0 := hA.nonneg
  have t1 : |a + b - (X + Y)| ≤ e + f := by
    rw [show a + b - (X + Y) = (a - X) + (b - Y) by ring]
    exact (abs_add_le _ _).trans (add_le_add ha hb)
  have t2 := hA.round (a + b)
  have t3 : u * |a + b| ≤ u * 1.1 := by
    refine mul_le_mul_of_nonneg_left ?_ h0
    have := abs_sub_abs_le_abs_sub (a + b) (X + Y)
    linarith
  have t4 := abs_sub_le (A.fl (a + b)) (a + b) (X + Y)
  linarith

/-- Reciprocals in floating point. -/
theorem inv_near (hA : A.Accurate u) {v V η : ℝ} (hV : 0 < V) (hη : η ≤ 1 / 80) (h : |v - V| ≤ η * V) :
    |A.fl (1 / v) - 1 / V| ≤ (1.013 * η + 1.02 * u) / V := by
  have h0 := hA.nonneg
  have η0 : 0 ≤ η := by
    have := (abs_nonneg _).trans h
    exact nonneg_of_mul_nonneg_left this hV
  obtain ⟨l, r⟩ := abs_le.mp h
  have v1 : (1 - 1 / 80) * V ≤ v := by nlinarith
  have v0 : 0 < v := lt_of_lt_of_le (by nlinarith) v1
  have i1 : 1 / v ≤ 80 / 79 / V := by rw [div_div, div_le_div_iff₀ v0 (by positivity)]; nlinarith
  have t1 : |1 / v - 1 / V| ≤ 1.013 * η / V := by
    rw [show 1 / v - 1 / V = -((v - V) * (1 / v)) / V by field_simp; ring, abs_div, abs_of_pos hV, abs_neg, abs_mul,
      abs_of_pos (show 0 < 1 / v by positivity), div_le_div_iff_of_pos_right hV]
    calc |v - V| * (1 / v) ≤ η * V * (80 / 79 / V) := mul_le_mul h i1 (by positivity) (by positivity)
      _ = 80 / 79 * η := by field_simp
      _ ≤ _ := by nlinarith
  have t2 := hA.round (1 / v)
  rw [abs_of_pos (show 0 < 1 / v by positivity)] at t2
  have t3 : u * (1 / v) ≤ 1.02 * u / V := by
    have := mul_le_mul_of_nonneg_left i1 h0
    refine this.trans ?_
    rw [mul_div_assoc', div_le_div_iff_of_pos_right hV]
    nlinarith
  have t4 := abs_sub_le (A.fl (1 / v)) (1 / v) (1 / V)
  rw [add_div]
  linarith

/-- Facts about a pixel inside the aperture. -/
structure InPixel (o : FlOptics) (u : ℝ) (y x : ℕ) (S C : ℝ) : Prop where
  S0 : 0 ≤ S
  C0 : 0 < C
  C1 : C ≤ 1
  cC : marginalCos o ≤ C
  c0 : 0 < marginalCos o
  sq : S ^ 2 + C ^ 2 = 1
  hu : 2400 * u ≤ marginalCos o ^ 2
  hs : sinTheta o.size o.res (o.ni / o.wl) y x = S
  hc : cosTheta o.size o.res (o.ni / o.wl) y x = C
  rad : radial o.size o.res y x = S * (o.ni / o.wl)
  wl : 0 < o.wl
  ni : 0 < o.ni

theorem inPixel (ho : o.Valid) (hu : 2400 * u ≤ 1 - (o.na / o.ni) ^ 2) (hni : o.na < o.ni) {y x : ℕ} (hin : radial o.size o.res y x < o.na / o.wl) :
    ∃ S C, InPixel o u y x S C := by
  have hwl := ho.wl
  have hna := ho.na
  have ni0 : 0 < o.ni := hna.trans hni
  have K0 : 0 < o.ni / o.wl := div_pos ni0 hwl
  have R0 : 0 ≤ radial o.size o.res y x := Real.sqrt_nonneg _
  have hs1 : (o.na / o.ni) ^ 2 < 1 := by rw [div_pow, div_lt_one (by positivity)]; nlinarith
  have hlt : radial o.size o.res y x < o.ni / o.wl := hin.trans (div_lt_div_of_pos_right hni hwl)
  set S := radial o.size o.res y x / (o.ni / o.wl) with hS
  have S0 : 0 ≤ S := div_nonneg R0 K0.le
  have hSs : S ≤ o.na / o.ni := by
    rw [hS, div_le_iff₀ K0]
    refine hin.le.trans (le_of_eq ?_)
    field_simp
  have hS2 : S ^ 2 ≤ (o.na / o.ni) ^ 2 := pow_le_pow_left₀ S0 hSs 2
  refine ⟨S, √(1 - S ^ 2), S0, Real.sqrt_pos.mpr (by linarith), Real.sqrt_le_one.mpr (by linarith [sq_nonneg S]), Real.sqrt_le_sqrt (by linarith),
    Real.sqrt_pos.mpr (by linarith), ?_, ?_, ?_, ?_, ?_, hwl, ni0⟩
  · rw [Real.sq_sqrt (by linarith)]; ring
  · rw [marginalCos, Real.sq_sqrt (by linarith)]; exact hu
  · rw [sinTheta, if_pos hlt]
  · rw [cosTheta, sinTheta, if_pos hlt]
  · rw [hS, div_mul_cancel₀ _ K0.ne']

namespace InPixel

variable {y x : ℕ} {S C : ℝ} (h : InPixel o u y x S C)
include h

/-- `u` relative to the cosines. -/
theorem small (h0 : 0 ≤ u) : u ≤ u / marginalCos o ∧ u / C ≤ u / marginalCos o ∧ u / marginalCos o ≤ 1 / 2400 ∧ u / C ^ 2 ≤ 1 / 2400 ∧ S ≤ 1 := by
  have c0 := h.c0
  have C0 := h.C0
  have c1 : marginalCos o ≤ 1 := h.cC.trans h.C1
  have hu := h.hu
  refine ⟨?_, ?_, ?_, ?_, ?_⟩
  · rw [le_div_iff₀ c0]; nlinarith
  · exact div_le_div_of_nonneg_left h0 c0 h.cC
  · rw [div_le_div_iff₀ c0 (by norm_num)]; nlinarith
  · rw [div_le_div_iff₀ (by positivity) (by norm_num)]
    have : marginalCos o ^ 2 ≤ C ^ 2 := pow_le_pow_left₀ c0.le h.cC 2
    linarith
  · nlinarith [h.sq, h.S0, sq_nonneg C]

/-- The argument of the arc sine. -/
theorem ratio (hA : A.Accurate u) (ho : o.Valid) : ∃ w, A.theta o y x = A.asin w ∧ |w - S| ≤ 7.5 * u * S ∧ 0 ≤ w ∧ w ≤ 1 := by
  classical
  have h0 := hA.nonneg
  have h1 := hA.small
  have K0 : 0 < o.ni / o.wl := div_pos h.ni h.wl
  obtain ⟨a1, a2⟩ := hA.fl_mem (x := o.ni / o.wl) K0.le
  obtain ⟨r1, r2⟩ := kr_mem hA.toAccurate ho y x
  rw [h.rad] at r1 r2
  have hkm : A.kmag o = A.fl (o.ni / o.wl) := rfl
  rw [← hkm] at a1 a2
  set K := o.ni / o.wl
  obtain ⟨-, -, -, uC, S1⟩ := h.small h0
  have S0 := h.S0
  have C0 := h.C0
  have hsq := h.sq
  have uC' : 2400 * u ≤ C ^ 2 := by
    rw [div_le_div_iff₀ (by positivity) (by norm_num)] at uC; linarith
  have hS : (1 + 8 * u) * S ≤ 1 := by
    have : S ≤ 1 - 1200 * u := by nlinarith
    nlinarith
  have k0 : 0 < A.kmag o := lt_of_lt_of_le (mul_pos (by linarith) K0) a1
  have hlt : A.kr o y x < A.kmag o := by
    refine lt_of_le_of_lt r2 (lt_of_lt_of_le ?_ a1)
    rw [← mul_assoc, mul_lt_mul_iff_left₀ K0]
    have : S * (1 + 8 * u) ≤ 1 := by linarith
    by_contra hc
    rw [not_lt] at hc
    have hS2 : S ^ 2 ≤ 1 - 2400 * u := by linarith
    have : (1 - u) ^ 2 ≤ ((1 + 5.2 * u) * S) ^ 2 := pow_le_pow_left₀ (by linarith) hc 2
    rw [mul_pow] at this
    have h5 : (1 + 5.2 * u) ^ 2 * S ^ 2 ≤ (1 + 5.2 * u) ^ 2 * (1 - 2400 * u) := mul_le_mul_of_nonneg_left hS2 (by positivity)
    rcases h0.eq_or_lt with e | hp
    · subst e; norm_num at hc; nlinarith
    · nlinarith [mul_pos hp hp, mul_pos (mul_pos hp hp) hp]
  refine ⟨A.fl (A.kr o y x / A.kmag o), by rw [FlTrig.theta, if_pos hlt], ?_⟩
  have q1 : (1 - 6 * u) * S ≤ A.kr o y x / A.kmag o := by
    rw [le_div_iff₀ k0]
    have : (1 - 6 * u) * S * A.kmag o ≤ (1 - 6 * u) * S * ((1 + u) * K) := mul_le_mul_of_nonneg_left a2 (mul_nonneg (by linarith) S0)
    have e : (1 - 6 * u) * (1 + u) ≤ 1 - 5 * u := by nlinarith
    have := mul_le_mul_of_nonneg_right e (mul_nonneg S0 K0.le)
    nlinarith
  have q2 : A.kr o y x / A.kmag o ≤ (1 + 6.3 * u) * S := by
    rw [div_le_iff₀ k0]
    have : (1 + 6.3 * u) * S * ((1 - u) * K) ≤ (1 + 6.3 * u) * S * A.kmag o := mul_le_mul_of_nonneg_left a1 (mul_nonneg (by linarith) S0)
    have e : 1 + 5.2 * u ≤ (1 + 6.3 * u) * (1 - u) := by nlinarith
    have := mul_le_mul_of_nonneg_right e (mul_nonneg S0 K0.le)
    nlinarith
  set q := A.kr o y x / A.kmag o
  have q0 : 0 ≤ q := le_trans (mul_nonneg (by linarith) S0) q1
  obtain ⟨f1, f2⟩ := hA.fl_mem (x := q) q0
  have uS : 0 ≤ u * S := mul_nonneg h0 S0
  have uq : u * q ≤ 1.01 * (u * S) := by
    have : q ≤ 1.01 * S := by nlinarith
    nlinarith
  have hw : |A.fl q - S| ≤ 7.5 * u * S := by
    rw [abs_le]; constructor <;> linarith
  refine ⟨hw, le_trans (mul_nonneg (by linarith) q0) f1, ?_⟩
  have := (abs_le.mp hw).2
  linarith

/-- The cosine of the angle. -/
theorem cos_near (hA : A.Accurate u) (ho : o.Valid) : |A.cos (A.theta o y x) - C| ≤ 23.2 * (u / C) := by
  obtain ⟨w, hw, w1, w0, w2⟩ := h.ratio hA ho
  have h0 := hA.nonneg
  have h1 := hA.small
  have S0 := h.S0
  have C0 := h.C0
  have S1 := (h.small h0).2.2.2.2
  rw [hw]
  have a1 := hA.asin w (abs_le.mpr ⟨by linarith, w2⟩)
  have a2 := hA.cos (A.asin w)
  have a3 := Real.abs_cos_sub_cos_le (A.asin w) (Real.arcsin w)
  have a4 : |√(max 0 (1 - w ^ 2)) - C| ≤ 15.1 * u / C := by
    refine sqrt_near C0 ?_
    rw [show 1 - w ^ 2 - C ^ 2 = -((w - S) * (w + S)) by nlinarith [h.sq], abs_neg, abs_mul, abs_of_nonneg (by linarith : 0 ≤ w + S)]
    calc |w - S| * (w + S) ≤ (7.5 * u * S) * 2 := mul_le_mul w1 (by linarith) (by linarith) (by positivity)
      _ ≤ 15.1 * u := by nlinarith
  rw [max_eq_right (by nlinarith), ← Real.cos_arcsin] at a4
  have t1 := abs_sub_le (A.cos (A.asin w)) (Real.cos (A.asin w)) C
  have t2 := abs_sub_le (Real.cos (A.asin w)) (Real.cos (Real.arcsin w)) C
  have uC : u ≤ u / C := by rw [le_div_iff₀ C0]; nlinarith [h.C1]
  have e : 15.1 * u / C = 15.1 * (u / C) := by ring
  rw [e] at a4
  linarith

/-- The sine of the angle. -/
theorem sin_near (hA : A.Accurate u) (ho : o.Valid) : |A.sin (A.theta o y x) - S| ≤ 15.5 * u := by
  obtain ⟨w, hw, w1, w0, w2⟩ := h.ratio hA ho
  have h0 := hA.nonneg
  have S0 := h.S0
  have S1 := (h.small h0).2.2.2.2
  rw [hw]
  have a1 := hA.asin w (abs_le.mpr ⟨by linarith, w2⟩)
  have a2 := hA.sin (A.asin w)
  have a3 := Real.abs_sin_sub_sin_le (A.asin w) (Real.arcsin w)
  rw [Real.sin_arcsin (by linarith) w2] at a3
  have t1 := abs_sub_le (A.sin (A.asin w)) (Real.sin (A.asin w)) S
  have t2 := abs_sub_le (Real.sin (A.asin w)) w S
  have : u * S ≤ u := by nlinarith
  linarith

end InPixel


/-- A ratio of nearby numbers, one a part of the other. -/
theorem part_near {X R t q : ℝ} (h0 : 0 ≤ u) (h1 : u ≤ 1 / 1000) (hR : 0 < R) (hX : |X| ≤ R) (t1 : 1 - 3 * u ≤ t) (t2 : t ≤ 1 + 3.1 * u) (q1 : (1 - 3 * u) * R ≤ q)
    (q2 : q ≤ (1 + 3.1 * u) * R) : |t * X / q - X / R| ≤ 6.3 * u := by
  have q0 : 0 < q := lt_of_lt_of_le (mul_pos (by linarith) hR) q1
  have e : t * X / q - X / R = X / R * ((t * R - q) / q) := by field_simp
  have e1 : |X / R| ≤ 1 := by rw [abs_div, abs_of_pos hR, div_le_one hR]; exact hX
  have e2 : |(t * R - q) / q| ≤ 6.3 * u := by
    rw [abs_div, abs_of_pos q0, div_le_iff₀ q0]
    have a1 : (1 - 3 * u) * R ≤ t * R := mul_le_mul_of_nonneg_right t1 hR.le
    have a2 : t * R ≤ (1 + 3.1 * u) * R := mul_le_mul_of_nonneg_right t2 hR.le
    have a3 : 6.3 * u * ((1 - 3 * u) * R) ≤ 6.3 * u * q := mul_le_mul_of_nonneg_left q1 (by linarith)
    have a4 : u * (u * R) ≤ 1 / 1000 * (u * R) := mul_le_mul_of_nonneg_right h1 (by positivity)
    have a5 : 0 ≤ u * R := by positivity
    rw [abs_le]; constructor <;> nlinarith
  rw [e, abs_mul]
  calc _ ≤ 1 * (6.3 * u) := mul_le_mul e1 e2 (abs_nonneg _) (by norm_num)
    _ = _ := one_mul _

/-- The azimuth. -/
theorem phi_near (hA : A.Accurate u) (ho : o.Valid) (y x : ℕ) : |A.cos (A.phi o y x) - cosPhi o.size o.res y x| ≤ 14.5 * u ∧
    |A.sin (A.phi o y x) - sinPhi o.size o.res y x| ≤ 14.5 * u := by
  have h0 := hA.nonneg
  have h1 := hA.small
  obtain ⟨s, hs, s1, s2⟩ := k_factor hA.toAccurate ho y
  obtain ⟨t, ht, t1, t2⟩ := k_factor hA.toAccurate ho x
  have a1 := hA.atan2 (A.k o y) (A.k o x)
  have a2 := hA.cos (A.phi o y x)
  have a3 := hA.sin (A.phi o y x)
  have a4 := Real.abs_cos_sub_cos_le (A.phi o y x) (Complex.arg ⟨A.k o x, A.k o y⟩)
  have a5 := Real.abs_sin_sub_sin_le (A.phi o y x) (Complex.arg ⟨A.k o x, A.k o y⟩)
  have hphi : A.phi o y x = A.atan2 (A.k o y) (A.k o x) := rfl
  rw [← hphi] at a1
  have key : |Real.cos (Complex.arg ⟨A.k o x, A.k o y⟩) - cosPhi o.size o.res y x| ≤ 6.3 * u ∧
      |Real.sin (Complex.arg ⟨A.k o x, A.k o y⟩) - sinPhi o.size o.res y x| ≤ 6.3 * u := by
    set Y := freq o.size o.res y with hY
    set X := freq o.size o.res x with hX
    have hR : radial o.size o.res y x = √(Y ^ 2 + X ^ 2) := rfl
    by_cases hr : radial o.size o.res y x = 0
    · have e0 : Y ^ 2 + X ^ 2 = 0 := by rwa [hR, Real.sqrt_eq_zero (by positivity)] at hr
      have eX : X = 0 := by nlinarith [sq_nonneg X, sq_nonneg Y]
      have eY : Y = 0 := by nlinarith [sq_nonneg X, sq_nonneg Y]
      have e : (⟨A.k o x, A.k o y⟩ : ℂ) = 0 := by
        rw [hs, ht, eX, eY]; simp [Complex.ext_iff]
      rw [e, Complex.arg_zero, cosPhi, sinPhi, if_pos hr, if_pos hr]
      simp only [Real.cos_zero, Real.sin_zero, sub_self, abs_zero]
      constructor <;> linarith
    · have R0 : 0 < radial o.size o.res y x := lt_of_le_of_ne (Real.sqrt_nonneg _) (Ne.symm hr)
      have hn : ‖(⟨A.k o x, A.k o y⟩ : ℂ)‖ = √(A.k o y ^ 2 + A.k o x ^ 2) := by
        rw [Complex.norm_def, Complex.normSq_apply]; congr 1; ring
      have up : √(A.k o y ^ 2 + A.k o x ^ 2) ≤ (1 + 3.1 * u) * radial o.size o.res y x := by
        rw [hR]
        refine Real.sqrt_le_iff.mpr ⟨by positivity, ?_⟩
        rw [mul_pow, Real.sq_sqrt (by positivity), hs, ht, mul_pow, mul_pow]
        have e1 : s ^ 2 ≤ (1 + 3.1 * u) ^ 2 := pow_le_pow_left₀ (by linarith) s2 2
        have e2 : t ^ 2 ≤ (1 + 3.1 * u) ^ 2 := pow_le_pow_left₀ (by linarith) t2 2
        nlinarith [sq_nonneg Y, sq_nonneg X]
      have down : (1 - 3 * u) * radial o.size o.res y x ≤ √(A.k o y ^ 2 + A.k o x ^ 2) := by
        rw [hR]
        refine Real.le_sqrt_of_sq_le ?_
        rw [mul_pow, Real.sq_sqrt (by positivity), hs, ht, mul_pow, mul_pow]
        have e1 : (1 - 3 * u) ^ 2 ≤ s ^ 2 := pow_le_pow_left₀ (by linarith) s1 2
        have e2 : (1 - 3 * u) ^ 2 ≤ t ^ 2 := pow_le_pow_left₀ (by linarith) t1 2
        nlinarith [sq_nonneg Y, sq_nonneg X]
      have hq0 : 0 < √(A.k o y ^ 2 + A.k o x ^ 2) := lt_of_lt_of_le (mul_pos (by linarith) R0) down
      have hz : (⟨A.k o x, A.k o y⟩ : ℂ) ≠ 0 := by
        intro e; rw [← hn, e, norm_zero] at hq0; exact lt_irrefl _ hq0
      have hXR : |X| ≤ radial o.size o.res y x := by rw [hR]; exact Real.abs_le_sqrt (by nlinarith [sq_nonneg Y])
      have hYR : |Y| ≤ radial o.size o.res y x := by rw [hR]; exact Real.abs_le_sqrt (by nlinarith [sq_nonneg X])
      rw [Complex.cos_arg hz, Complex.sin_arg, hn, cosPhi, sinPhi, if_neg hr, if_neg hr]
      constructor
      · show |A.k o x / _ - X / _| ≤ _
        have := part_near h0 h1 R0 hXR t1 t2 down up
        rwa [← ht] at this
      · show |A.k o y / _ - Y / _| ≤ _
        have := part_near h0 h1 R0 hYR s1 s2 down up
        rwa [← hs] at this
  obtain ⟨k1, k2⟩ := key
  have b1 := abs_sub_le (A.cos (A.phi o y x)) (Real.cos (A.phi o y x)) (cosPhi o.size o.res y x)
  have b2 := abs_sub_le (Real.cos (A.phi o y x)) (Real.cos (Complex.arg ⟨A.k o x, A.k o y⟩)) (cosPhi o.size o.res y x)
  have b3 := abs_sub_le (A.sin (A.phi o y x)) (Real.sin (A.phi o y x)) (sinPhi o.size o.res y x)
  have b4 := abs_sub_le (Real.sin (A.phi o y x)) (Real.sin (Complex.arg ⟨A.k o x, A.k o y⟩)) (sinPhi o.size o.res y x)
  constructor <;> linarith

theorem phi_circle (N : ℕ) (r : ℝ) (y x : ℕ) : sinPhi N r y x ^ 2 + cosPhi N r y x ^ 2 = 1 := by
  unfold sinPhi cosPhi
  split_ifs with h
  · norm_num
  · rw [div_pow, div_pow, ← add_div]
    have : radial N r y x ^ 2 = freq N r y ^ 2 + freq N r x ^ 2 := Real.sq_sqrt (by positivity)
    rw [this, div_self]
    rw [← this]; exact pow_ne_zero 2 h

set_option maxHeartbeats 800000 in
/-- Polarisation factors. -/
theorem plist_near (hA : A.Accurate u) (ho : o.Valid) {y x : ℕ} {S C : ℝ} (h : InPixel o u y x S C) (v : VecCorr) (hv : v ≠ .none) (c : ℕ) :
    |(A.plist v (A.theta o y x) (A.phi o y x)).getD c 0 - (polarization v S C (sinPhi o.size o.res y x) (cosPhi o.size o.res y x)).getD c 0| ≤
      90 * (u / marginalCos o) ∧
    |(polarization v S C (sinPhi o.size o.res y x) (cosPhi o.size o.res y x)).getD c 0| ≤ 1 := by
  have h0 := hA.nonneg
  obtain ⟨g1, g2, g3, -, S1⟩ := h.small h0
  have dc := h.cos_near hA ho
  have ds := h.sin_near hA ho
  obtain ⟨pc, ps⟩ := phi_near hA ho y x
  have circ := phi_circle o.size o.res y x
  have sq := h.sq
  have S0 := h.S0
  have C0 := h.C0
  have C1 := h.C1
  generalize sinPhi o.size o.res y x = sp at *
  generalize cosPhi o.size o.res y x = cp at *
  generalize A.theta o y x = θ at *
  generalize A.phi o y x = φ at *
  set g := u / marginalCos o with hg
  have dc : |A.cos θ - C| ≤ 23.2 * g := dc.trans (by linarith)
  have ds : |A.sin θ - S| ≤ 15.5 * g := ds.trans (by linarith)
  have pc : |A.cos φ - cp| ≤ 14.5 * g := pc.trans (by linarith)
  have ps : |A.sin φ - sp| ≤ 14.5 * g := ps.trans (by linarith)
  have hcp : |cp| ≤ 1 := by rw [← sq_le_one_iff_abs_le_one]; nlinarith [sq_nonneg sp]
  have hsp : |sp| ≤ 1 := by rw [← sq_le_one_iff_abs_le_one]; nlinarith [sq_nonneg cp]
  have hS : |S| ≤ 1 := abs_le.mpr ⟨by linarith, S1⟩
  have hC : |C| ≤ 1 := abs_le.mpr ⟨by linarith, C1⟩
  have hC1 : |C - 1| ≤ 1 := abs_le.mpr ⟨by linarith, by linarith⟩
  have prod : ∀ {a b : ℝ}, |a| ≤ 1 → |b| ≤ 1 → |a * b| ≤ 1 := by
    intro a b ha hb
    rw [abs_mul]
    calc |a| * |b| ≤ 1 * 1 := mul_le_mul ha hb (abs_nonneg _) (by norm_num)
      _ = 1 := one_mul 1
  have hcross : |A.cross θ φ - (C - 1) * sp * cp| ≤ 90 * g := by
    have e1 := add_near hA (a := A.cos θ) (b := -1) (X := C) (Y := -1) (e := 23.2 * g) (f := 0) (by simpa [← sub_eq_add_neg] using hC1) (by linarith) dc (by simp)
    rw [← sub_eq_add_neg, ← sub_eq_add_neg] at e1
    have e2 := mul_near hA hC1 hsp (by linarith) (by linarith) e1 ps
    have e3 := mul_near hA (prod hC1 hsp) hcp (by linarith) (by linarith) e2 pc
    exact e3.trans (by linarith)
  have halong : ∀ {c s P Q : ℝ}, |P| ≤ 1 → |Q| ≤ 1 → P ^ 2 + Q ^ 2 = 1 → |c - P| ≤ 14.5 * g → |s - Q| ≤ 14.5 * g →
      |A.along θ c s - (C * P ^ 2 + Q ^ 2)| ≤ 90 * g ∧ |C * P ^ 2 + Q ^ 2| ≤ 1 := by
    intro c s P Q hP hQ hPQ hc hs
    have e1 := mul_near hA hP hP (by linarith) (by linarith) hc hc
    have e2 := mul_near hA hQ hQ (by linarith) (by linarith) hs hs
    rw [← pow_two, ← pow_two] at e1 e2
    have hP2 : |P ^ 2| ≤ 1 := by rw [pow_two]; exact prod hP hP
    have e3 := mul_near hA hC hP2 (by linarith) (by linarith) dc e1
    have hb : |C * P ^ 2 + Q ^ 2| ≤ 1 := by
      rw [abs_le]; constructor <;> nlinarith [sq_nonneg P, sq_nonneg Q]
    have e4 := add_near hA hb (by linarith) e3 e2
    exact ⟨e4.trans (by linarith), hb⟩
  have hz1 : |A.fl (A.sin θ * A.cos φ) - S * cp| ≤ 90 * g := (mul_near hA hS hcp (by linarith) (by linarith) ds pc).trans (by linarith)
  have hz2 : |A.fl (A.sin θ * A.sin φ) - S * sp| ≤ 90 * g := (mul_near hA hS hsp (by linarith) (by linarith) ds ps).trans (by linarith)
  obtain ⟨hx1, hx2⟩ := halong hcp hsp (by linarith) pc ps
  obtain ⟨hy1, hy2⟩ := halong hsp hcp circ ps pc
  have hcr : |(C - 1) * sp * cp| ≤ 1 := prod (prod hC1 hsp) hcp
  have hzc := prod hS hcp
  have hzs := prod hS hsp
  have g0 : 0 ≤ 90 * g := by
    have : 0 ≤ g := h0.trans g1
    linarith
  have hnil : |(0 : ℝ) - 0| ≤ 90 * g ∧ |(0 : ℝ)| ≤ 1 := by simpa using g0
  cases v with
  | none => exact absurd rfl hv
  | x => rcases c with _ | _ | c
         · exact ⟨hx1, hx2⟩
         · exact ⟨hcross, hcr⟩
         · exact hnil
  | y => rcases c with _ | _ | c
         · exact ⟨hcross, hcr⟩
         · exact ⟨hy1, hy2⟩
         · exact hnil
  | z => rcases c with _ | _ | c
         · exact ⟨hz1, hzc⟩
         · exact ⟨hz2, hzs⟩
         · exact hnil
  | total => rcases c with _ | _ | _ | _ | _ | _ | c
             · exact ⟨hz1, hzc⟩
             · exact ⟨hz2, hzs⟩
             · exact ⟨hcross, hcr⟩
             · exact ⟨hy1, hy2⟩
             · exact ⟨hx1, hx2⟩
             · exact ⟨hcross, hcr⟩
             · exact hnil


/-- The factor of the sine condition or of Herschel's condition, as it is computed. -/
noncomputable def FlTrig.apod (A : FlTrig) (o : FlOptics) (cd : Condition) (y x : ℕ) : ℝ :=
  match cd with
  | .none => 1
  | .sine => A.fl (1 / A.fl (Real.sqrt (A.cos (A.theta o y x))))
  | .herschel => A.fl (1 / A.cos (A.theta o y x))

theorem apod_near (hA : A.Accurate u) (ho : o.Valid) {y x : ℕ} {S C : ℝ} (h : InPixel o u y x S C) (cd : Condition) :
    |A.apod o cd y x - apodization cd C| ≤ 26 * (u / marginalCos o ^ 2) / marginalCos o ∧ 0 ≤ apodization cd C ∧ apodization cd C ≤ 1 / marginalCos o := by
  have h0 := hA.nonneg
  have c0 := h.c0
  have C0 := h.C0
  have C1 := h.C1
  have cC := h.cC
  have c1 : marginalCos o ≤ 1 := cC.trans C1
  obtain ⟨-, -, -, g4, -⟩ := h.small h0
  have dc := h.cos_near hA ho
  set G := u / C ^ 2 with hG
  have G0 : 0 ≤ G := by positivity
  have uG : u ≤ G := by rw [hG, le_div_iff₀ (by positivity)]; nlinarith [mul_le_mul C1 C1 C0.le (by norm_num : (0:ℝ) ≤ 1)]
  have hGg : G ≤ u / marginalCos o ^ 2 := div_le_div_of_nonneg_left h0 (by positivity) (pow_le_pow_left₀ c0.le cC 2)
  have eG : 23.2 * (u / C) = 23.2 * G * C := by rw [hG]; field_simp
  rw [eG] at dc
  have iC : 1 / C ≤ 1 / marginalCos o := one_div_le_one_div_of_le c0 cC
  cases cd with
  | none =>
    refine ⟨?_, zero_le_one, ?_⟩
    · simp only [FlTrig.apod, apodization, sub_self, abs_zero]
      positivity
    · rw [le_div_iff₀ c0]; simpa [apodization] using c1
  | herschel =>
    refine ⟨?_, by simp only [apodization]; positivity, iC⟩
    have e := inv_near hA C0 (η := 23.2 * G) (by linarith) dc
    refine e.trans ?_
    refine div_le_div₀ (by positivity) ?_ c0 cC
    linarith
  | sine =>
    have q0 : 0 < √C := Real.sqrt_pos.mpr C0
    have q2 : √C ^ 2 = C := Real.sq_sqrt C0.le
    have q1 : √C ≤ 1 := Real.sqrt_le_one.mpr C1
    have qc : marginalCos o ≤ √C := by nlinarith
    have cp : 0 < A.cos (A.theta o y x) := by
      have := (abs_le.mp dc).1
      nlinarith
    have e1 := sqrt_near (d := A.cos (A.theta o y x)) (q := √C) (e := 23.2 * G * C) q0 (by rw [q2]; exact dc)
    rw [max_eq_right cp.le] at e1
    have e2 : 23.2 * G * C / √C = 23.2 * G * √C := by
      rw [div_eq_iff q0.ne']
      linear_combination (-(23.2 * G)) * q2
    rw [e2] at e1
    set s := √(A.cos (A.theta o y x)) with hs
    have s0 : 0 ≤ s := Real.sqrt_nonneg _
    have s1 : s ≤ 1.01 * √C := by
      have := (abs_le.mp e1).2
      nlinarith
    have e3 := hA.round s
    rw [abs_of_nonneg s0] at e3
    have e4 : |A.fl s - √C| ≤ 24.3 * G * √C := by
      have t := abs_sub_le (A.fl s) s (√C)
      have t1 : u * s ≤ G * (1.01 * √C) := mul_le_mul uG s1 s0 G0
      nlinarith [mul_nonneg G0 q0.le]
    have e := inv_near hA q0 (η := 24.3 * G) (by linarith) e4
    refine ⟨e.trans ?_, by simp only [apodization]; positivity, one_div_le_one_div_of_le c0 qc⟩
    refine div_le_div₀ (by positivity) ?_ c0 qc
    linarith

theorem mulReal_near (hA : A.Accurate u) (p : ℂ) (a : ℝ) : ‖A.mulReal p a - p * a‖ ≤ u * (‖p‖ * |a|) := by
  have h0 := hA.nonneg
  have r1 := hA.round (p.re * a)
  have r2 := hA.round (p.im * a)
  have e : A.mulReal p a - p * a = ⟨A.fl (p.re * a) - p.re * a, A.fl (p.im * a) - p.im * a⟩ := by
    apply Complex.ext <;> simp [FlTrig.mulReal]
  rw [e]
  refine le_of_sq_le_sq ?_ (by positivity)
  rw [← Complex.normSq_eq_norm_sq, Complex.normSq_apply]
  have s1 : (A.fl (p.re * a) - p.re * a) ^ 2 ≤ (u * |p.re * a|) ^ 2 := by rw [← sq_abs]; exact pow_le_pow_left₀ (abs_nonneg _) r1 2
  have s2 : (A.fl (p.im * a) - p.im * a) ^ 2 ≤ (u * |p.im * a|) ^ 2 := by rw [← sq_abs]; exact pow_le_pow_left₀ (abs_nonneg _) r2 2
  rw [mul_pow, sq_abs] at s1 s2
  have e2 : (u * (‖p‖ * |a|)) ^ 2 = u ^ 2 * (p.re * a) ^ 2 + u ^ 2 * (p.im * a) ^ 2 := by
    rw [mul_pow, mul_pow, sq_abs, ← Complex.normSq_eq_norm_sq, Complex.normSq_apply]; ring
  rw [e2]
  simp only
  nlinarith

theorem mulReal_zero (hA : A.Accurate u) (a : ℝ) : A.mulReal 0 a = 0 := by
  have := hA.round 0
  simp only [abs_zero, mul_zero, sub_zero, abs_nonpos_iff] at this
  simp [FlTrig.mulReal, this, Complex.ext_iff]

set_option maxHeartbeats 1600000 in
/-- One wave of a component. -/
theorem component_near (hA : A.Accurate u) (ho : o.Valid) (hni : o.na < o.ni) (hu : 2400 * u ≤ 1 - (o.na / o.ni) ^ 2)
    (hgap : ∀ m : ℤ, (m : ℝ) < ((1 - 7 * u) * (o.size * o.res * o.na / o.wl)) ^ 2 ∨ ((1 + 7 * u) * (o.size * o.res * o.na / o.wl)) ^ 2 ≤ m)
    (v : VecCorr) (cd : Condition) (c : ℕ) (hc : c < components v) (z : ℝ) (y x : ℕ) :
    (radial o.size o.res y x < o.na / o.wl →
      ‖A.component o v cd c z y x - exp (2 * Real.pi * axial o.size o.res (o.ni / o.wl) y x * z * I) * (weight o.size o.res (o.ni / o.wl) v cd c y x : ℝ)‖ ≤
        componentError u o z ∧ ‖A.component o v cd c z y x‖ ≤ 1.1 / marginalCos o) ∧
    (¬ radial o.size o.res y x < o.na / o.wl → A.component o v cd c z y x = 0) := by
  classical
  have h0 := hA.nonneg
  have h1 := hA.small
  have hin := C138_same_aperture hA.toAccurate ho hgap y x
  constructor
  · intro hr
    obtain ⟨S, C, h⟩ := inPixel ho hu hni hr
    have c0 := h.c0
    have c1 : marginalCos o ≤ 1 := h.cC.trans h.C1
    have hd := defocus_near hA.toAccurate ho hni z y x hr
    have hδ := waveError_nonneg h0 ho h.ni z
    set d := A.defocus o z y x with hdd
    set D := exp (2 * Real.pi * axial o.size o.res (o.ni / o.wl) y x * z * I) with hD
    have hD1 : ‖D‖ = 1 := by
      have : D = exp ((2 * Real.pi * axial o.size o.res (o.ni / o.wl) y x * z : ℝ) * I) := by rw [hD]; push_cast; rfl
      rw [this, norm_exp_ofReal_mul_I]
    have hd1 : ‖d‖ ≤ 1.004 := by
      have := hA.expi (A.fl (A.fl (A.fl (2 * A.fl Real.pi) * A.kz o y x) * z))
      have e := norm_sub_norm_le d (exp ((A.fl (A.fl (A.fl (2 * A.fl Real.pi) * A.kz o y x) * z) : ℝ) * I))
      rw [norm_exp_ofReal_mul_I] at e
      have e2 : d = A.expi (A.fl (A.fl (A.fl (2 * A.fl Real.pi) * A.kz o y x) * z)) := rfl
      rw [← e2] at this
      linarith
    have hpup : A.pupil o z y x = d := by rw [FlMath.pupil, if_pos (hin.mpr hr)]
    obtain ⟨ha, hA0, hA1⟩ := apod_near hA ho h cd
    set Ap := apodization cd C with hAp
    set δ := waveError u o z with hδd
    set g := u / marginalCos o ^ 2 with hg
    have g0 : 0 ≤ g := by positivity
    have ug : u ≤ g := by
      rw [hg, le_div_iff₀ (by positivity)]
      have : marginalCos o ^ 2 ≤ 1 := pow_le_one₀ c0.le c1
      exact mul_le_of_le_one_right h0 this
    have gl : g ≤ 1 / 2400 := by
      rw [hg, div_le_div_iff₀ (by positivity) (by norm_num)]; linarith [h.hu]
    have icc : 0 < 1 / marginalCos o := by positivity
    set ic := 1 / marginalCos o with hic
    have eic : ∀ t : ℝ, t / marginalCos o = t * ic := fun t => by rw [hic]; ring
    rw [eic] at ha
    -- the apodised pupil
    have stage1 : ‖A.apodised o cd z y x - D * (Ap : ℝ)‖ ≤ (1.02 * δ + 27.1 * g) * ic ∧ ‖A.apodised o cd z y x‖ ≤ 1.02 * ic := by
      have gen : ∀ a : ℝ, |a - Ap| ≤ 26 * g * ic → ‖A.mulReal d a - D * (Ap : ℝ)‖ ≤ (1.02 * δ + 27.1 * g) * ic ∧ ‖A.mulReal d a‖ ≤ 1.02 * ic := by
        intro a ha
        have a1 : |a| ≤ 1.011 * ic := by
          have := abs_sub_abs_le_abs_sub a Ap
          rw [abs_of_nonneg hA0] at this
          have : 26 * g * ic ≤ 26 * (1 / 2400) * ic := by gcongr
          linarith
        have m1 := mulReal_near hA d a
        have m2 : u * (‖d‖ * |a|) ≤ g * (1.004 * (1.011 * ic)) := by gcongr
        have m3 : ‖d * a - D * (Ap : ℝ)‖ ≤ δ * (1.011 * ic) + 26 * g * ic := by
          rw [show d * a - D * (Ap : ℝ) = (d - D) * a + D * ((a : ℂ) - (Ap : ℝ)) by ring]
          refine (norm_add_le _ _).trans ?_
          rw [norm_mul, norm_mul, hD1, one_mul, ← Complex.ofReal_sub, Complex.norm_real, Complex.norm_real, Real.norm_eq_abs, Real.norm_eq_abs]
          exact add_le_add (mul_le_mul hd a1 (abs_nonneg _) hδ) ha
        have m4 := norm_sub_le_norm_sub_add_norm_sub (A.mulReal d a) (d * a) (D * (Ap : ℝ))
        have gi : 0 ≤ g * ic := by positivity
        have di : 0 ≤ δ * ic := by positivity
        refine ⟨by nlinarith, ?_⟩
        have m5 := norm_sub_norm_le (A.mulReal d a) (d * a)
        have m6 : ‖d * a‖ ≤ 1.004 * (1.011 * ic) := by
          rw [norm_mul, Complex.norm_real, Real.norm_eq_abs]
          gcongr
        have : g * (1.004 * (1.011 * ic)) ≤ 1 / 2400 * (1.004 * (1.011 * ic)) := by gcongr
        nlinarith
      cases cd with
      | none =>
        have e : A.apodised o .none z y x = d := hpup
        have e1 : (1 : ℝ) ≤ ic := by rw [hic, le_div_iff₀ c0]; linarith
        have hAp1 : Ap = 1 := rfl
        rw [e, hAp1]
        refine ⟨?_, by nlinarith⟩
        simp only [Complex.ofReal_one, mul_one]
        refine hd.trans ?_
        nlinarith
      | sine =>
        have e : A.apodised o .sine z y x = A.mulReal d (A.apod o .sine y x) := by rw [← hpup]; rfl
        rw [e]; exact gen _ ha
      | herschel =>
        have e : A.apodised o .herschel z y x = A.mulReal d (A.apod o .herschel y x) := by rw [← hpup]; rfl
        rw [e]; exact gen _ ha
    obtain ⟨s1, s2⟩ := stage1
    have hce : componentError u o z = (1.02 * δ + 120 * g) * ic := by
      rw [componentError, eic, ← hδd, hg]; ring
    have gi : 0 ≤ g * ic := by positivity
    rw [hce, eic]
    have hwt : weight o.size o.res (o.ni / o.wl) v cd c y x = Ap * (polarization v S C (sinPhi o.size o.res y x) (cosPhi o.size o.res y x)).getD c 0 := by
      rw [weight, h.hs, h.hc]
    rw [hwt]
    by_cases hv : v = .none
    · subst hv
      obtain rfl : c = 0 := by simpa [components] using hc
      have e : A.component o .none cd 0 z y x = A.apodised o cd z y x := rfl
      rw [e]
      refine ⟨?_, s2.trans (by linarith)⟩
      simp only [polarization, List.getD_cons_zero, mul_one]
      exact s1.trans (by nlinarith)
    · obtain ⟨p1, p2⟩ := plist_near hA ho h v hv c
      set p := (A.plist v (A.theta o y x) (A.phi o y x)).getD c 0
      set P := (polarization v S C (sinPhi o.size o.res y x) (cosPhi o.size o.res y x)).getD c 0
      have e : A.component o v cd c z y x = A.mulReal (A.apodised o cd z y x) p := by
        cases v with
        | none => exact absurd rfl hv
        | _ => rfl
      rw [e]
      set q := A.apodised o cd z y x
      have hug : u / marginalCos o ≤ g := by
        rw [hg]
        exact div_le_div_of_nonneg_left h0 (by positivity) (by nlinarith)
      have p1 : |p - P| ≤ 90 * g := p1.trans (by linarith)
      have p3 : |p| ≤ 1.04 := by
        have := abs_sub_abs_le_abs_sub p P
        linarith
      have m1 := mulReal_near hA q p
      have m2 : u * (‖q‖ * |p|) ≤ g * (1.02 * ic * 1.04) := by gcongr
      have m3 : ‖q * p - D * ((Ap * P : ℝ) : ℂ)‖ ≤ 1.02 * ic * (90 * g) + (1.02 * δ + 27.1 * g) * ic := by
        rw [show q * p - D * ((Ap * P : ℝ) : ℂ) = q * ((p : ℂ) - (P : ℝ)) + (q - D * (Ap : ℝ)) * (P : ℝ) by push_cast; ring]
        refine (norm_add_le _ _).trans ?_
        rw [norm_mul, norm_mul, ← Complex.ofReal_sub, Complex.norm_real, Complex.norm_real, Real.norm_eq_abs, Real.norm_eq_abs]
        refine add_le_add (mul_le_mul s2 p1 (abs_nonneg _) (by positivity)) ?_
        calc _ ≤ ((1.02 * δ + 27.1 * g) * ic) * 1 := mul_le_mul s1 p2 (abs_nonneg _) (by positivity)
          _ = _ := mul_one _
      have m4 := norm_sub_le_norm_sub_add_norm_sub (A.mulReal q p) (q * p) (D * ((Ap * P : ℝ) : ℂ))
      refine ⟨by nlinarith, ?_⟩
      have m5 := norm_sub_norm_le (A.mulReal q p) (q * p)
      have m6 : ‖q * p‖ ≤ 1.02 * ic * 1.04 := by
        rw [norm_mul, Complex.norm_real, Real.norm_eq_abs]
        gcongr
      have : g * (1.02 * ic * 1.04) ≤ 1 / 2400 * (1.02 * ic * 1.04) := by gcongr
      nlinarith
  · intro hr
    have hpup : A.pupil o z y x = 0 := by rw [FlMath.pupil, if_neg (fun hh => hr (hin.mp hh))]
    have hap : A.apodised o cd z y x = 0 := by
      cases cd <;> simp only [FlTrig.apodised, hpup, mulReal_zero hA]
    cases v <;> simp only [FlTrig.component, hap, mulReal_zero hA]

end PyOTF
