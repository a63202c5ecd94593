import Verif.Model.FloatPupil
import Verif.Props.C131_Double
import Verif.Lemmas.HanserPhys
import Verif.Lemmas.Rint

/-!
# C138: rounding and the aperture
-/

namespace PyOTF

open Physics

/-! ## Specification -/

/-- Operations are rounded with relative error `u`, `np.hypot` has relative error `2 * u`, `np.exp` of an imaginary number absolute error `4 * u`. -/
structure FlMath.Accurate (A : FlMath) (u : ℝ) : Prop where
  nonneg : 0 ≤ u
  small : u ≤ 1 / 1000
  round : ∀ x, |A.fl x - x| ≤ u * |x|
  hyp : ∀ y x, |A.hyp y x - √(y ^ 2 + x ^ 2)| ≤ 2 * u * √(y ^ 2 + x ^ 2)
  expi : ∀ x, ‖A.expi x - Complex.exp (x * Complex.I)‖ ≤ 4 * u

/-- Rounding does not depend on the sign and `np.hypot` depends neither on the signs nor on the order of its arguments. -/
structure FlMath.Symmetric (A : FlMath) : Prop where
  neg : ∀ x, A.fl (-x) = -A.fl x
  abs : ∀ y x, A.hyp |y| |x| = A.hyp y x
  swap : ∀ y x, A.hyp y x = A.hyp x y

/-- A sensible model. -/
structure FlOptics.Valid (o : FlOptics) : Prop where
  size : 0 < o.size
  res : 0 < o.res
  wl : 0 < o.wl
  na : 0 < o.na

/-! ## Proofs -/

variable {A : FlMath} {u : ℝ} {o : FlOptics}

theorem FlMath.Accurate.fl_mem (hA : A.Accurate u) {x : ℝ} (hx : 0 ≤ x) : (1 - u) * x ≤ A.fl x ∧ A.fl x ≤ (1 + u) * x := by
  have h := abs_le.mp (hA.round x)
  rw [abs_of_nonneg hx] at h
  constructor <;> linarith [h.1, h.2]

/-- The unit of frequency. -/
theorem unit_mem (hA : A.Accurate u) {M : ℝ} (hM : 0 < M) :
    (1 - u) / ((1 + u) * M) ≤ A.fl (1 / A.fl M) ∧ A.fl (1 / A.fl M) ≤ (1 + u) / ((1 - u) * M) := by
  have h0 := hA.nonneg
  have h1 := hA.small
  obtain ⟨a1, a2⟩ := hA.fl_mem hM.le
  have hlo : 0 < (1 - u) * M := mul_pos (by linarith) hM
  have ha : 0 < A.fl M := lt_of_lt_of_le hlo a1
  obtain ⟨b1, b2⟩ := hA.fl_mem (x := 1 / A.fl M) (by positivity)
  constructor
  · refine le_trans ?_ b1
    rw [div_eq_mul_one_div]
    exact mul_le_mul_of_nonneg_left (one_div_le_one_div_of_le ha a2) (by linarith)
  · refine b2.trans ?_
    rw [div_eq_mul_one_div (1 + u)]
    exact mul_le_mul_of_nonneg_left (one_div_le_one_div_of_le hlo a1) (by linarith)

theorem lo_ge (h0 : 0 ≤ u) : 1 - 3 * u ≤ (1 - u) * (1 - u) / (1 + u) := by
  rw [le_div_iff₀ (by linarith)]
  nlinarith

theorem hi_le (h0 : 0 ≤ u) (h1 : u ≤ 1 / 1000) : (1 + u) * (1 + u) / (1 - u) ≤ 1 + 3.1 * u := by
  rw [div_le_iff₀ (by linarith)]
  nlinarith

/-- The frequencies, as multiples of the exact ones. -/
theorem k_factor (hA : A.Accurate u) (ho : o.Valid) (i : ℕ) : ∃ t, A.k o i = t * freq o.size o.res i ∧ 1 - 3 * u ≤ t ∧ t ≤ 1 + 3.1 * u := by
  have h0 := hA.nonneg
  have h1 := hA.small
  have hM : (0 : ℝ) < o.size * o.res := mul_pos (by exact_mod_cast ho.size) ho.res
  obtain ⟨b1, b2⟩ := unit_mem hA hM
  set b := A.fl (1 / A.fl (o.size * o.res)) with hb
  have hbpos : 0 < b := lt_of_lt_of_le (div_pos (by linarith) (mul_pos (by linarith) hM)) b1
  rw [← freq_eq, fftfreq]
  have hk : A.k o i = A.fl (fftfreqNum o.size i * b) := rfl
  clear_value b
  generalize (o.size : ℝ) * o.res = M at *
  set j : ℝ := (fftfreqNum o.size i : ℝ) with hj
  by_cases hj0 : j = 0
  · refine ⟨1, ?_, by linarith, by linarith⟩
    have := hA.round (j * b)
    rw [hj0] at this
    simp only [zero_mul, abs_zero, mul_zero, sub_zero, abs_nonpos_iff] at this
    rw [hk, hj0]; simp [this]
  have hr := hA.round (j * b)
  rw [abs_mul, abs_of_pos hbpos] at hr
  have hjp : 0 < |j| := abs_pos.mpr hj0
  refine ⟨A.fl (j * b) / j * M, ?_, ?_, ?_⟩
  · rw [hk]; field_simp
  all_goals
    have e : |A.fl (j * b) / j - b| ≤ u * b := by
      rw [show A.fl (j * b) / j - b = (A.fl (j * b) - j * b) / j by field_simp, abs_div, div_le_iff₀ hjp]
      linarith
    have e := abs_le.mp e
  · refine (lo_ge h0).trans ?_
    have : (1 - u) * ((1 - u) / ((1 + u) * M)) ≤ A.fl (j * b) / j := by
      have := mul_le_mul_of_nonneg_left b1 (show 0 ≤ 1 - u by linarith)
      linarith [e.1]
    have := mul_le_mul_of_nonneg_right this hM.le
    refine le_trans (le_of_eq ?_) this
    field_simp
  · refine le_trans ?_ (hi_le h0 h1)
    have : A.fl (j * b) / j ≤ (1 + u) * ((1 + u) / ((1 - u) * M)) := by
      have := mul_le_mul_of_nonneg_left b2 (show 0 ≤ 1 + u by linarith)
      linarith [e.2]
    have := mul_le_mul_of_nonneg_right this hM.le
    refine this.trans (le_of_eq ?_)
    have : (1 - u) ≠ 0 := by linarith
    field_simp

/-- The radial frequency in floating point. -/
theorem kr_mem (hA : A.Accurate u) (ho : o.Valid) (y x : ℕ) :
    (1 - 5 * u) * radial o.size o.res y x ≤ A.kr o y x ∧ A.kr o y x ≤ (1 + 5.2 * u) * radial o.size o.res y x := by
  have h0 := hA.nonneg
  have h1 := hA.small
  obtain ⟨s, hs, s1, s2⟩ := k_factor hA ho y
  obtain ⟨t, ht, t1, t2⟩ := k_factor hA ho x
  have hh := abs_le.mp (hA.hyp (A.k o y) (A.k o x))
  have R0 : 0 ≤ radial o.size o.res y x := Real.sqrt_nonneg _
  set Y := freq o.size o.res y with hY
  set X := freq o.size o.res x with hX
  have up : √(A.k o y ^ 2 + A.k o x ^ 2) ≤ (1 + 3.1 * u) * radial o.size o.res y x := by
    rw [show radial o.size o.res y x = √(Y ^ 2 + X ^ 2) from rfl]
    refine Real.sqrt_le_iff.mpr ⟨by positivity, ?_⟩
    rw [mul_pow, Real.sq_sqrt (by positivity), hs, ht, mul_pow, mul_pow]
    have e1 : s ^ 2 ≤ (1 + 3.1 * u) ^ 2 := pow_le_pow_left₀ (by linarith) s2 2
    have e2 : t ^ 2 ≤ (1 + 3.1 * u) ^ 2 := pow_le_pow_left₀ (by linarith) t2 2
    nlinarith [sq_nonneg Y, sq_nonneg X]
  have down : (1 - 3 * u) * radial o.size o.res y x ≤ √(A.k o y ^ 2 + A.k o x ^ 2) := by
    rw [show radial o.size o.res y x = √(Y ^ 2 + X ^ 2) from rfl]
    refine Real.le_sqrt_of_sq_le ?_
    rw [mul_pow, Real.sq_sqrt (by positivity), hs, ht, mul_pow, mul_pow]
    have e1 : (1 - 3 * u) ^ 2 ≤ s ^ 2 := pow_le_pow_left₀ (by linarith) s1 2
    have e2 : (1 - 3 * u) ^ 2 ≤ t ^ 2 := pow_le_pow_left₀ (by linarith) t1 2
    nlinarith [sq_nonneg Y, sq_nonneg X]
  have hkr : A.kr o y x = A.hyp (A.k o y) (A.k o x) := rfl
  set S := √(A.k o y ^ 2 + A.k o x ^ 2) with hS
  set R := radial o.size o.res y x with hR
  constructor
  · have a1 : (1 - 2 * u) * S ≤ A.kr o y x := by rw [hkr]; linarith [hh.1]
    have a2 : (1 - 2 * u) * ((1 - 3 * u) * R) ≤ (1 - 2 * u) * S := mul_le_mul_of_nonneg_left down (by linarith)
    nlinarith [mul_nonneg (mul_nonneg h0 h0) R0]
  · have a1 : A.kr o y x ≤ (1 + 2 * u) * S := by rw [hkr]; linarith [hh.2]
    have a2 : (1 + 2 * u) * S ≤ (1 + 2 * u) * ((1 + 3.1 * u) * R) := mul_le_mul_of_nonneg_left up (by linarith)
    have a3 : u * u * R ≤ 1 / 1000 * (u * R) := by
      have := mul_le_mul_of_nonneg_right h1 (mul_nonneg h0 R0)
      linarith
    linarith [mul_nonneg h0 R0]

theorem limit_mem (hA : A.Accurate u) (ho : o.Valid) :
    (1 - u) * (o.na / o.wl) ≤ A.limit o ∧ A.limit o ≤ (1 + u) * (o.na / o.wl) :=
  hA.fl_mem (div_pos ho.na ho.wl).le

/-! ## C138 -/

/-- C138: rounding moves no pixel across the edge of the aperture unless it is within a few units in the last place of the edge: a pixel whose exact radial frequency is below
`(1 - 7u) * na / wl` is in the computed pupil and one of at least `(1 + 7u) * na / wl` is not. -/
theorem C138_aperture (hA : A.Accurate u) (ho : o.Valid) (y x : ℕ) :
    (radial o.size o.res y x < (1 - 7 * u) * (o.na / o.wl) → A.Inside o y x) ∧
    ((1 + 7 * u) * (o.na / o.wl) ≤ radial o.size o.res y x → ¬ A.Inside o y x) := by
  have h0 := hA.nonneg
  have h1 := hA.small
  obtain ⟨a1, a2⟩ := kr_mem hA ho y x
  obtain ⟨b1, b2⟩ := limit_mem hA ho
  have hL : 0 < o.na / o.wl := div_pos ho.na ho.wl
  set L := o.na / o.wl
  set R := radial o.size o.res y x
  constructor
  · intro h
    have c1 : (1 + 5.2 * u) * R < (1 + 5.2 * u) * ((1 - 7 * u) * L) := mul_lt_mul_of_pos_left h (by linarith)
    show A.kr o y x < A.limit o
    nlinarith [mul_nonneg (mul_nonneg h0 h0) hL.le, mul_nonneg h0 hL.le]
  · intro h
    have c1 : (1 - 5 * u) * ((1 + 7 * u) * L) ≤ (1 - 5 * u) * R := mul_le_mul_of_nonneg_left h (by linarith)
    have c2 : u * u * L ≤ 1 / 1000 * (u * L) := by
      have := mul_le_mul_of_nonneg_right h1 (mul_nonneg h0 hL.le)
      linarith
    refine not_lt.mpr ?_
    show A.limit o ≤ A.kr o y x
    linarith [mul_nonneg h0 hL.le]

/-- The squared distance of a pixel of the pupil from the centre, in pixels. -/
def distSq (N y x : ℕ) : ℤ := fftfreqNum N y ^ 2 + fftfreqNum N x ^ 2

theorem radial_dist (ho : o.Valid) (y x : ℕ) : radial o.size o.res y x = √(distSq o.size y x : ℝ) / (o.size * o.res) := by
  have hM : (0 : ℝ) < o.size * o.res := mul_pos (by exact_mod_cast ho.size) ho.res
  have e : freq o.size o.res y ^ 2 + freq o.size o.res x ^ 2 = (distSq o.size y x : ℝ) * (1 / (o.size * o.res)) ^ 2 := by
    rw [← freq_eq, ← freq_eq, fftfreq, fftfreq]
    simp only [distSq]
    push_cast
    ring
  rw [radial, e, Real.sqrt_mul' _ (by positivity), Real.sqrt_sq (by positivity), mul_one_div]

/-- C138: if no whole number lies between `((1 - 7u) * R)²` and `((1 + 7u) * R)²`, where `R = size * res * na / wl` is the radius of the aperture in pixels, the computed aperture is
the exact one, pixel by pixel. -/
theorem C138_same_aperture (hA : A.Accurate u) (ho : o.Valid)
    (hgap : ∀ m : ℤ, (m : ℝ) < ((1 - 7 * u) * (o.size * o.res * o.na / o.wl)) ^ 2 ∨ ((1 + 7 * u) * (o.size * o.res * o.na / o.wl)) ^ 2 ≤ m) (y x : ℕ) :
    A.Inside o y x ↔ radial o.size o.res y x < o.na / o.wl := by
  have h0 := hA.nonneg
  have h1 := hA.small
  have hM : (0 : ℝ) < o.size * o.res := mul_pos (by exact_mod_cast ho.size) ho.res
  have hL : 0 < o.na / o.wl := div_pos ho.na ho.wl
  have e : (o.size * o.res * o.na / o.wl : ℝ) = o.na / o.wl * (o.size * o.res) := by ring
  obtain ⟨c1, c2⟩ := C138_aperture hA ho y x
  rw [e] at hgap
  have hd : (0 : ℝ) ≤ (distSq o.size y x : ℝ) := by unfold distSq; push_cast; positivity
  rcases hgap (distSq o.size y x) with h | h
  · have : radial o.size o.res y x < (1 - 7 * u) * (o.na / o.wl) := by
      rw [radial_dist ho, div_lt_iff₀ hM, mul_assoc, Real.sqrt_lt hd (mul_nonneg (by linarith) (by positivity))]
      exact h
    refine iff_of_true (c1 this) (this.trans_le ?_)
    nlinarith
  · have : (1 + 7 * u) * (o.na / o.wl) ≤ radial o.size o.res y x := by
      rw [radial_dist ho, le_div_iff₀ hM, mul_assoc]
      exact Real.le_sqrt_of_sq_le h
    refine iff_of_false (c2 this) (not_lt.mpr (le_trans ?_ this))
    nlinarith

/-- Index of the frequency of opposite sign. -/
def mirrored (N i : ℕ) : ℕ := (N - i) % N

theorem num_mirrored {N i : ℕ} (h : i < N) : |fftfreqNum N (mirrored N i)| = |fftfreqNum N i| := by
  unfold mirrored fftfreqNum
  rcases Nat.eq_zero_or_pos i with rfl | hi
  · simp
  rw [Nat.mod_eq_of_lt (by omega), abs_eq_abs]
  split_ifs <;> omega

theorem k_abs (hS : A.Symmetric) {i j : ℕ} (h : |fftfreqNum o.size i| = |fftfreqNum o.size j|) : |A.k o i| = |A.k o j| := by
  unfold FlMath.k
  rcases abs_eq_abs.mp h with h | h
  · rw [h]
  · rw [h]; push_cast
    rw [neg_mul, hS.neg, abs_neg]

/-- C138: whatever the rounding does at the edge, the computed aperture has the symmetry of the square: it is its own mirror image in both axes and in the diagonal. -/
theorem C138_symmetric (hS : A.Symmetric) (y x : ℕ) (hy : y < o.size) (hx : x < o.size) :
    (A.Inside o (mirrored o.size y) x ↔ A.Inside o y x) ∧ (A.Inside o y (mirrored o.size x) ↔ A.Inside o y x) ∧
    (A.Inside o x y ↔ A.Inside o y x) := by
  unfold FlMath.Inside FlMath.kr
  refine ⟨?_, ?_, by rw [hS.swap]⟩
  · rw [← hS.abs, k_abs hS (num_mirrored hy), hS.abs]
  · rw [← hS.abs, k_abs hS (num_mirrored hx), hS.abs]

/-- C138: the limit for `res`, too, is right up to a few units in the last place. -/
theorem C138_abbe (hA : A.Accurate u) {na wl : ℝ} (hna : 0 < na) (hwl : 0 < wl) (res : ℝ) :
    (res < (1 - 4 * u) * (wl / (2 * na)) → A.Accepts na wl res) ∧ ((1 + 4 * u) * (wl / (2 * na)) ≤ res → ¬ A.Accepts na wl res) := by
  have h0 := hA.nonneg
  have h1 := hA.small
  obtain ⟨a1, a2⟩ := hA.fl_mem (x := 2 * na) (by positivity)
  have ap : 0 < A.fl (2 * na) := lt_of_lt_of_le (mul_pos (by linarith) (by positivity)) a1
  obtain ⟨b1, b2⟩ := hA.fl_mem (x := A.fl (2 * na) / wl) (by positivity)
  set q := A.fl (A.fl (2 * na) / wl) with hq
  have q1 : (1 - u) * ((1 - u) * (2 * na / wl)) ≤ q := by
    refine le_trans (mul_le_mul_of_nonneg_left ?_ (by linarith)) b1
    rw [mul_div_assoc', div_le_div_iff_of_pos_right hwl]; exact a1
  have q2 : q ≤ (1 + u) * ((1 + u) * (2 * na / wl)) := by
    refine b2.trans (mul_le_mul_of_nonneg_left ?_ (by linarith))
    rw [mul_div_assoc', div_le_div_iff_of_pos_right hwl]; exact a2
  have hT : 0 < 2 * na / wl := by positivity
  have qp : 0 < q := lt_of_lt_of_le (mul_pos (by linarith) (mul_pos (by linarith) hT)) q1
  obtain ⟨c1, c2⟩ := hA.fl_mem (x := 1 / q) (by positivity)
  have el : wl / (2 * na) = 1 / (2 * na / wl) := by field_simp
  rw [el]
  generalize 2 * na / wl = T at *
  have hl : A.abbeLimit na wl = A.fl (1 / q) := rfl
  unfold FlMath.Accepts
  rw [hl]
  constructor
  · intro h
    refine not_le.mpr (h.trans_le (le_trans ?_ c1))
    rw [mul_one_div, mul_one_div, div_le_div_iff₀ hT qp]
    have e1 : (1 - 4 * u) * q ≤ (1 - 4 * u) * ((1 + u) * ((1 + u) * T)) := mul_le_mul_of_nonneg_left q2 (by linarith)
    have e2 : (1 - 4 * u) * ((1 + u) * (1 + u)) ≤ 1 - u := by nlinarith [mul_nonneg (mul_nonneg h0 h0) h0]
    nlinarith [mul_le_mul_of_nonneg_right e2 hT.le]
  · intro h
    refine not_not.mpr (le_trans c2 (le_trans ?_ h))
    rw [mul_one_div, mul_one_div, div_le_div_iff₀ qp hT]
    have e1 : (1 + 4 * u) * ((1 - u) * ((1 - u) * T)) ≤ (1 + 4 * u) * q := mul_le_mul_of_nonneg_left q1 (by linarith)
    have e2 : 1 + u ≤ (1 + 4 * u) * ((1 - u) * (1 - u)) := by nlinarith [mul_nonneg (mul_nonneg h0 h0) h0]
    nlinarith [mul_le_mul_of_nonneg_right e2 hT.le]

/-- C138: for a pixel size that is below the limit by more than rounding the computed aperture stays clear of the Nyquist frequency (row and column `size / 2`, which have no
mirror image). -/
theorem C138_nyquist (hA : A.Accurate u) (ho : o.Valid) (hres : (1 + 7 * u) * o.res ≤ o.wl / (2 * o.na)) (y x : ℕ)
    (h : 2 * y = o.size ∨ 2 * x = o.size) : ¬ A.Inside o y x := by
  have h0 := hA.nonneg
  refine (C138_aperture hA ho y x).2 ?_
  have hf : ∀ i, 2 * i = o.size → freq o.size o.res i ^ 2 = (1 / (2 * o.res)) ^ 2 := by
    intro i hi
    have hp := ho.size
    have hr := ho.res.ne'
    rw [freq, if_neg (by omega)]
    have : (o.size : ℝ) = 2 * i := by exact_mod_cast hi.symm
    have hi0 : (i : ℝ) ≠ 0 := by
      have : i ≠ 0 := by omega
      exact_mod_cast this
    rw [this]
    field_simp
    ring
  have key : 1 / (2 * o.res) ≤ radial o.size o.res y x := by
    unfold radial
    refine Real.le_sqrt_of_sq_le ?_
    rcases h with h | h
    · rw [hf y h]; nlinarith [sq_nonneg (freq o.size o.res x)]
    · rw [hf x h]; nlinarith [sq_nonneg (freq o.size o.res y)]
  refine le_trans ?_ key
  have := ho.res; have := ho.na; have := ho.wl
  rw [le_div_iff₀ (by positivity)] at hres ⊢
  rw [mul_div_assoc', div_mul_eq_mul_div, div_le_one this]
  linarith

/-! ## Double precision -/

/-- Rounding to 53 binary digits, ties to even. -/
noncomputable def ieee (x : ℝ) : ℝ := rint (x / 2 ^ (Int.log 2 |x| - 52)) * 2 ^ (Int.log 2 |x| - 52)

theorem rint_neg (x : ℝ) : rint (-x) = -rint x := by
  refine rint_unique _ _ ?_ ?_
  · have := rint_nearest x
    push_cast
    rw [show -x - -(rint x : ℝ) = -(x - rint x) by ring, abs_neg]; exact this
  · intro h
    push_cast at h
    rw [show -x - -(rint x : ℝ) = -(x - rint x) by ring, abs_neg] at h
    have := rint_tie_even x h
    omega

theorem ieee_neg (x : ℝ) : ieee (-x) = -ieee x := by
  unfold ieee
  rw [abs_neg, neg_div, rint_neg]
  push_cast; ring

theorem ieee_round (x : ℝ) : |ieee x - x| ≤ 1 / 2 ^ 53 * |x| := by
  by_cases hx : x = 0
  · subst hx; simp [ieee, show rint (0 : ℝ) = 0 from by exact_mod_cast rint_intCast (K := ℝ) 0]
  have hp : (0 : ℝ) < 2 ^ (Int.log 2 |x| - 52) := by positivity
  have e : ieee x - x = -(x / 2 ^ (Int.log 2 |x| - 52) - rint (x / 2 ^ (Int.log 2 |x| - 52))) * 2 ^ (Int.log 2 |x| - 52) := by
    unfold ieee
    field_simp
    ring
  have hl : (2 : ℝ) ^ Int.log 2 |x| ≤ |x| := by
    have := Int.zpow_log_le_self (b := 2) (r := |x|) (by norm_num) (abs_pos.mpr hx)
    exact_mod_cast this
  rw [e, abs_mul, abs_neg, abs_of_pos hp]
  calc _ ≤ 1 / 2 * (2 : ℝ) ^ (Int.log 2 |x| - 52) := mul_le_mul_of_nonneg_right (rint_nearest _) hp.le
    _ = 1 / 2 ^ 53 * 2 ^ Int.log 2 |x| := by
        rw [zpow_sub₀ (by norm_num)]
        norm_num; ring
    _ ≤ _ := mul_le_mul_of_nonneg_left hl (by positivity)

theorem ieee_eval {x : ℝ} (e r : ℤ) (h1 : (2 : ℝ) ^ e ≤ x) (h2 : x < 2 ^ (e + 1)) (h3 : ((r : ℝ) - 1 / 2) * 2 ^ (e - 52) < x)
    (h4 : x < ((r : ℝ) + 1 / 2) * 2 ^ (e - 52)) : ieee x = r * 2 ^ (e - 52) := by
  have hx : 0 < x := lt_of_lt_of_le (by positivity) h1
  have hl : Int.log 2 |x| = e := by
    rw [abs_of_pos hx]
    apply le_antisymm
    · have : x < ((2 : ℕ) : ℝ) ^ (e + 1) := by exact_mod_cast h2
      have := (Int.lt_zpow_iff_log_lt (by norm_num : 1 < 2) hx).mp this
      omega
    · exact (Int.zpow_le_iff_le_log (by norm_num : 1 < 2) hx).mp (by exact_mod_cast h1)
  have hp : (0 : ℝ) < 2 ^ (e - 52) := by positivity
  have k1 := (lt_div_iff₀ hp).mpr h3
  have k2 := (div_lt_iff₀ hp).mpr h4
  have k : |x / 2 ^ (e - 52) - r| < 1 / 2 := abs_lt.mpr ⟨by linarith, by linarith⟩
  rw [ieee, hl, rint_unique _ r k.le (fun h => absurd h k.ne)]

/-- Double precision with correctly rounded library functions and an exact transform. -/
noncomputable def doubleMath : FlMath where
  fl := ieee
  order _ _ n := sequential n
  hyp y x := ieee (√(y ^ 2 + x ^ 2))
  expi x := ⟨ieee (Real.cos x), ieee (Real.sin x)⟩
  ifft2 N X y x := (∑ i ∈ Finset.range N, ∑ j ∈ Finset.range N, X i j * Complex.exp (2 * Real.pi * Complex.I * (y * i + x * j) / N)) / (N * N)

theorem doubleMath_symmetric : doubleMath.Symmetric :=
  ⟨ieee_neg, fun y x => by simp only [doubleMath, sq_abs], fun y x => by simp only [doubleMath, add_comm]⟩

theorem doubleMath_accurate : doubleMath.Accurate (1 / 2 ^ 53) := by
  refine ⟨by positivity, by norm_num, ieee_round, fun y x => ?_, fun x => ?_⟩
  · have := ieee_round (√(y ^ 2 + x ^ 2))
    rw [abs_of_nonneg (Real.sqrt_nonneg _)] at this
    refine this.trans ?_
    have := Real.sqrt_nonneg (y ^ 2 + x ^ 2)
    nlinarith
  · have e : Complex.exp (x * Complex.I) = ⟨Real.cos x, Real.sin x⟩ := by
      rw [Complex.exp_mul_I]
      apply Complex.ext <;> simp [Complex.cos_ofReal_re, Complex.sin_ofReal_re]
    rw [e]
    refine (Complex.norm_le_abs_re_add_abs_im _).trans ?_
    have h1 := ieee_round (Real.cos x)
    have h2 := ieee_round (Real.sin x)
    have h3 := Real.abs_cos_le_one x
    have h4 := Real.abs_sin_le_one x
    show |ieee (Real.cos x) - Real.cos x| + |ieee (Real.sin x) - Real.sin x| ≤ _
    nlinarith

/-- C138: at the edge rounding does decide.  `HanserPSF(wl=600, na=1.0, res=60, size=100)`: the aperture has a radius of exactly 10 pixels; the pixel 10 pixels from the centre is
not inside (`kr < na / wl` is false in exact arithmetic), but it is in double precision. -/
theorem C138_edge (A : FlMath) (hfl : A.fl = ieee) (hyp : ∀ x, A.hyp 0 x = |x|) (o : FlOptics) (ho : o.size = 100 ∧ o.res = 60 ∧ o.wl = 600 ∧ o.na = 1) :
    A.Inside o 0 10 ∧ radial o.size o.res 0 10 = o.na / o.wl := by
  obtain ⟨N, res, wl, na, ni⟩ := o
  simp only at ho
  obtain ⟨rfl, rfl, rfl, rfl⟩ := ho
  constructor
  · have e1 : ieee 6000 = 6000 := by
      rw [ieee_eval 12 (6000 * 2 ^ 40)] <;> norm_num
    have e2 : ieee (1 / 6000) = 6148914691236517 * 2 ^ (-65 : ℤ) := by
      rw [ieee_eval (-13) 6148914691236517] <;> norm_num
    have e3 : ieee (10 * (6148914691236517 * 2 ^ (-65 : ℤ))) = 7686143364045646 * 2 ^ (-62 : ℤ) := by
      rw [ieee_eval (-10) 7686143364045646] <;> norm_num
    have e4 : ieee (1 / 600) = 7686143364045647 * 2 ^ (-62 : ℤ) := by
      rw [ieee_eval (-10) 7686143364045647] <;> norm_num
    have e0 : ieee 0 = 0 := by simp [ieee, show rint (0 : ℝ) = 0 from by exact_mod_cast rint_intCast (K := ℝ) 0]
    have k0 : A.k ⟨100, 60, 600, 1, ni⟩ 0 = 0 := by
      simp [FlMath.k, hfl, fftfreqNum, e0]
    have k10 : A.k ⟨100, 60, 600, 1, ni⟩ 10 = 7686143364045646 * 2 ^ (-62 : ℤ) := by
      rw [← e3, ← e2, ← e1]
      simp only [FlMath.k, hfl, fftfreqNum]
      norm_num [e1]
    show A.hyp _ _ < A.fl (1 / 600)
    rw [k0, k10, hyp, hfl, e4]
    norm_num
  · simp only [radial, freq]
    rw [show (if 2 * 0 < 100 then ((0 : ℕ) : ℝ) else ((0 : ℕ) : ℝ) - (100 : ℕ)) / ((100 : ℕ) * 60) = 0 by norm_num,
      show (if 2 * 10 < 100 then ((10 : ℕ) : ℝ) else ((10 : ℕ) : ℝ) - (100 : ℕ)) / ((100 : ℕ) * 60) = 1 / 600 by norm_num]
    rw [show (0 : ℝ) ^ 2 + (1 / 600) ^ 2 = (1 / 600) ^ 2 by norm_num]
    exact Real.sqrt_sq (by norm_num)

/-- Non-vacuity of `C138_same_aperture` and `C138_nyquist`: the default-like model with `wl=520, na=0.85, res=130, size=64` (radius 13.6 pixels) in double precision. -/
example (ni : ℝ) (y x : ℕ) : (doubleMath.Inside ⟨64, 130, 520, 17 / 20, ni⟩ y x ↔ radial 64 130 y x < 17 / 20 / 520) ∧
    ¬ doubleMath.Inside ⟨64, 130, 520, 17 / 20, ni⟩ 32 x := by
  have hv : (⟨64, 130, 520, 17 / 20, ni⟩ : FlOptics).Valid := ⟨by norm_num, by norm_num, by norm_num, by norm_num⟩
  refine ⟨C138_same_aperture doubleMath_accurate hv (fun m => ?_) y x, C138_nyquist doubleMath_accurate hv (by norm_num) 32 x (.inl rfl)⟩
  rcases le_or_gt m 184 with h | h
  · left
    have : (m : ℝ) ≤ 184 := by exact_mod_cast h
    refine this.trans_lt ?_
    norm_num
  · right
    have : (185 : ℝ) ≤ m := by exact_mod_cast h
    refine le_trans ?_ this
    norm_num

end PyOTF
