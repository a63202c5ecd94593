import Verif.Props.C138_Aperture
import Verif.Lemmas.FieldSym
import Verif.Props.C39_C43_Hanser
import Verif.Props.C128_Strehl

/-!
# C138: rounding errors of the amplitude PSF
-/

namespace PyOTF

open Physics Complex

/-! ## Specification -/

/-- The inverse discrete Fourier transform of `N` by `N` numbers. -/
noncomputable def invDft (N : ℕ) (X : ℕ → ℕ → ℂ) (y x : ℕ) : ℂ :=
  (∑ i ∈ Finset.range N, ∑ j ∈ Finset.range N, X i j * exp (2 * Real.pi * I * (y * i + x * j) / N)) / (N * N)

/-- The transform of the library has relative error `ε` in root mean square. -/
def FlMath.FftAccurate (A : FlMath) (N : ℕ) (ε : ℝ) : Prop :=
  0 ≤ ε ∧ ∀ X : ℕ → ℕ → ℂ, ∑ y ∈ Finset.range N, ∑ x ∈ Finset.range N, ‖A.ifft2 N X y x - invDft N X y x‖ ^ 2 ≤
    ε ^ 2 * ∑ y ∈ Finset.range N, ∑ x ∈ Finset.range N, ‖invDft N X y x‖ ^ 2

/-- Error of the defocused wave at height `z`: that of `np.exp` and that of the phase `2π kz z`, which grows with the distance from the focus and with the angle of the marginal ray. -/
noncomputable def waveError (u : ℝ) (o : FlOptics) (z : ℝ) : ℝ :=
  4 * u + 2 * Real.pi * |z| * (23 * u * (o.ni / o.wl / √(1 - (o.na / o.ni) ^ 2)))

/-- Error bound of the amplitude PSF at height `z`: `n` pixels of the aperture, each with the error of its wave, and the error of the transform. -/
noncomputable def amplitudeBound (u ε : ℝ) (o : FlOptics) (z : ℝ) : ℝ :=
  (aperturePixels o.size o.res (o.na / o.wl)).card * waveError u o z / o.size ^ 2 +
    ε * (√(aperturePixels o.size o.res (o.na / o.wl)).card * (1 + 4 * u) / o.size)

/-! ## Proofs -/

variable {A : FlMath} {u : ℝ} {o : FlOptics}

/-- Square roots of nearby numbers. -/
theorem sqrt_near {d q e : ℝ} (hq : 0 < q) (h : |d - q ^ 2| ≤ e) : |√(max 0 d) - q| ≤ e / q := by
  have h1 : |max 0 d - q ^ 2| ≤ e := by
    have hq2 : 0 ≤ q ^ 2 := sq_nonneg q
    rcases le_total 0 d with hd | hd
    · rw [max_eq_right hd]; exact h
    · rw [max_eq_left hd]
      refine le_trans ?_ h
      rw [zero_sub, abs_neg, abs_of_nonneg hq2, abs_of_nonpos (by linarith)]
      linarith
  have hs := Real.sqrt_nonneg (max 0 d)
  have hm : √(max 0 d) ^ 2 = max 0 d := Real.sq_sqrt (le_max_left _ _)
  rw [le_div_iff₀ hq]
  have e1 : max 0 d - q ^ 2 = (√(max 0 d) - q) * (√(max 0 d) + q) := by nlinarith
  rw [e1, abs_mul, abs_of_nonneg (by linarith : 0 ≤ √(max 0 d) + q)] at h1
  refine le_trans ?_ h1
  exact mul_le_mul_of_nonneg_left (by linarith) (abs_nonneg _)

/-- Squares in floating point. -/
theorem sq_near (hA : A.Accurate u) {v x a : ℝ} (hx : 0 ≤ x) (ha0 : 0 ≤ a) (ha : a ≤ 5.2) (h : |v - x| ≤ a * u * x) :
    |A.fl (v ^ 2) - x ^ 2| ≤ (2 * a + 1.05) * u * x ^ 2 := by
  have h0 := hA.nonneg
  have h1 := hA.small
  have hau : 0 ≤ a * u := mul_nonneg ha0 h0
  have hau2 : a * u ≤ 0.0052 := by nlinarith
  obtain ⟨l, r⟩ := abs_le.mp h
  have h2 : |v ^ 2 - x ^ 2| ≤ (2 * a + 0.03) * u * x ^ 2 := by
    rw [show v ^ 2 - x ^ 2 = (v - x) * (v + x) by ring, abs_mul]
    have hp : |v + x| ≤ (2 + a * u) * x := by
      rw [abs_le]; constructor <;> nlinarith
    calc |v - x| * |v + x| ≤ (a * u * x) * ((2 + a * u) * x) := mul_le_mul h hp (abs_nonneg _) (by positivity)
      _ = (2 * a + a * (a * u)) * u * x ^ 2 := by ring
      _ ≤ _ := by
        have : a * (a * u) ≤ 0.03 := by nlinarith
        have hux : 0 ≤ u * x ^ 2 := by positivity
        nlinarith
  have h3 := hA.round (v ^ 2)
  rw [abs_of_nonneg (sq_nonneg v)] at h3
  have hv : v ^ 2 ≤ 1.02 * x ^ 2 := by
    have := (abs_le.mp h2).2
    have hx2 : 0 ≤ x ^ 2 := sq_nonneg x
    have : (2 * a + 0.03) * u ≤ 0.02 := by nlinarith
    nlinarith
  have h4 : u * v ^ 2 ≤ u * (1.02 * x ^ 2) := mul_le_mul_of_nonneg_left hv h0
  have h5 := abs_sub_le (A.fl (v ^ 2)) (v ^ 2) (x ^ 2)
  linarith

/-- Axial frequencies in floating point. -/
theorem kz_near (hA : A.Accurate u) (ho : o.Valid) (hni : 0 < o.ni) (y x : ℕ) {K R Q : ℝ} (hK : K = o.ni / o.wl)
    (hR : R = radial o.size o.res y x) (hRK : R ≤ K) (hQ : 0 < Q) (hQ2 : Q ^ 2 = K ^ 2 - R ^ 2) :
    |A.kz o y x - Q| ≤ 18 * u * (K ^ 2 / Q) := by
  have h0 := hA.nonneg
  have h1 := hA.small
  have K0 : 0 < K := by rw [hK]; exact div_pos hni ho.wl
  have R0 : 0 ≤ R := by rw [hR]; exact Real.sqrt_nonneg _
  have hQK : Q ≤ K := by
    refine le_of_sq_le_sq ?_ K0.le
    nlinarith
  obtain ⟨a1, a2⟩ := hA.fl_mem (x := o.ni / o.wl) (div_pos hni ho.wl).le
  rw [← hK] at a1 a2
  obtain ⟨r1, r2⟩ := kr_mem hA ho y x
  rw [← hR] at r1 r2
  have hkm : A.kmag o = A.fl (o.ni / o.wl) := rfl
  rw [← hK] at hkm
  rw [← hkm] at a1 a2
  have s1 := sq_near hA (v := A.kmag o) (x := K) (a := 1) K0.le (by norm_num) (by norm_num) (by
    rw [abs_le]; constructor <;> linarith)
  have s2 := sq_near hA (v := A.kr o y x) (x := R) (a := 5.2) R0 (by norm_num) (by norm_num) (by
    have := mul_nonneg h0 R0
    rw [abs_le]; constructor <;> linarith)
  set S := A.fl (A.kmag o ^ 2)
  set B := A.fl (A.kr o y x ^ 2)
  have hR2 : R ^ 2 ≤ K ^ 2 := pow_le_pow_left₀ R0 hRK 2
  have K2 : 0 < K ^ 2 := by positivity
  have uK : 0 ≤ u * K ^ 2 := by positivity
  have t1 : |S - B - Q ^ 2| ≤ 14.5 * (u * K ^ 2) := by
    have e : S - B - Q ^ 2 = (S - K ^ 2) - (B - R ^ 2) := by rw [hQ2]; ring
    rw [e]
    have := abs_sub (S - K ^ 2) (B - R ^ 2)
    have : (2 * 5.2 + 1.05) * u * R ^ 2 ≤ (2 * 5.2 + 1.05) * u * K ^ 2 := mul_le_mul_of_nonneg_left hR2 (by positivity)
    linarith
  have t2 : |S - B| ≤ 1.02 * K ^ 2 := by
    have hQ2K : Q ^ 2 ≤ K ^ 2 := by nlinarith [sq_nonneg R]
    have hu : u * K ^ 2 ≤ 1 / 1000 * K ^ 2 := mul_le_mul_of_nonneg_right h1 K2.le
    have := abs_le.mp t1
    rw [abs_le]; constructor <;> nlinarith [sq_nonneg Q]
  have t3 : |A.fl (S - B) - Q ^ 2| ≤ 15.6 * (u * K ^ 2) := by
    have := hA.round (S - B)
    have h5 := abs_sub_le (A.fl (S - B)) (S - B) (Q ^ 2)
    have h6 : u * |S - B| ≤ u * (1.02 * K ^ 2) := mul_le_mul_of_nonneg_left t2 h0
    linarith
  have t4 := sqrt_near hQ t3
  set V := √(max 0 (A.fl (S - B))) with hV
  have V0 : 0 ≤ V := Real.sqrt_nonneg _
  have hkz : A.kz o y x = A.fl V := rfl
  have t5 := hA.round V
  rw [abs_of_nonneg V0] at t5
  have e1 : 15.6 * (u * K ^ 2) / Q = 15.6 * (u * (K ^ 2 / Q)) := by ring
  rw [e1] at t4
  have hQq : Q ≤ K ^ 2 / Q := by rw [le_div_iff₀ hQ]; nlinarith
  generalize K ^ 2 / Q = G at *
  have hG : 0 < G := hQ.trans_le hQq
  have uG : 0 ≤ u * G := by positivity
  have t6 : V ≤ 1.1 * G := by
    have := (abs_le.mp t4).2
    have : u * G ≤ 1 / 1000 * G := mul_le_mul_of_nonneg_right h1 hG.le
    linarith
  have t7 : u * V ≤ u * (1.1 * G) := mul_le_mul_of_nonneg_left t6 h0
  have h5 := abs_sub_le (A.fl V) V Q
  rw [hkz]
  linarith


/-- Phases in floating point. -/
theorem phase_near (hA : A.Accurate u) (z : ℝ) {q Q G : ℝ} (hQ : 0 < Q) (hG : Q ≤ G) (hq : |q - Q| ≤ 18 * u * G) :
    |A.fl (A.fl (A.fl (2 * A.fl Real.pi) * q) * z) - 2 * Real.pi * Q * z| ≤ 2 * Real.pi * |z| * (23 * u * G) := by
  have h0 := hA.nonneg
  have h1 := hA.small
  have hp := Real.pi_pos
  have G0 : 0 < G := hQ.trans_le hG
  have uG : 0 ≤ u * G := by positivity
  have uG1 : u * G ≤ 1 / 1000 * G := mul_le_mul_of_nonneg_right h1 G0.le
  obtain ⟨a1, a2⟩ := hA.fl_mem hp.le
  obtain ⟨b1, b2⟩ := hA.fl_mem (x := 2 * A.fl Real.pi) (by nlinarith)
  set V := A.fl (2 * A.fl Real.pi)
  have uu : u * u ≤ 1 / 1000 * u := mul_le_mul_of_nonneg_right h1 h0
  have hV : |V - 2 * Real.pi| ≤ 2.1 * u * (2 * Real.pi) := by
    have c1 : (1 + u) * (2 * A.fl Real.pi) ≤ (1 + u) * (2 * ((1 + u) * Real.pi)) := mul_le_mul_of_nonneg_left (by linarith) (by linarith)
    have c2 : (1 - u) * (2 * ((1 - u) * Real.pi)) ≤ (1 - u) * (2 * A.fl Real.pi) := mul_le_mul_of_nonneg_left (by linarith) (by linarith)
    have c3 : u * u * Real.pi ≤ 1 / 1000 * u * Real.pi := mul_le_mul_of_nonneg_right uu hp.le
    have c4 : 0 ≤ u * u * Real.pi := by positivity
    rw [abs_le]; constructor <;> nlinarith
  have q1 : |q| ≤ 1.018 * G := by
    have := abs_le.mp hq
    rw [abs_le]; constructor <;> linarith
  have s1 : |V * q - 2 * Real.pi * Q| ≤ 2 * Real.pi * (20.14 * (u * G)) := by
    rw [show V * q - 2 * Real.pi * Q = (V - 2 * Real.pi) * q + 2 * Real.pi * (q - Q) by ring]
    refine (abs_add_le _ _).trans ?_
    rw [abs_mul, abs_mul, abs_of_pos (by positivity : 0 < 2 * Real.pi)]
    have t1 : |V - 2 * Real.pi| * |q| ≤ 2.1 * u * (2 * Real.pi) * (1.018 * G) := mul_le_mul hV q1 (abs_nonneg _) (by positivity)
    have t2 : 2 * Real.pi * |q - Q| ≤ 2 * Real.pi * (18 * u * G) := mul_le_mul_of_nonneg_left hq (by positivity)
    have : 0 ≤ Real.pi * (u * G) := by positivity
    nlinarith
  have s2 : |V * q| ≤ 2 * Real.pi * (1.021 * G) := by
    have := abs_sub_abs_le_abs_sub (V * q) (2 * Real.pi * Q)
    rw [abs_of_pos (by positivity : 0 < 2 * Real.pi * Q)] at this
    have t : 2 * Real.pi * (20.14 * (u * G)) ≤ 2 * Real.pi * (20.14 * (1 / 1000 * G)) := by gcongr
    have t' : 2 * Real.pi * Q ≤ 2 * Real.pi * G := by gcongr
    have : 0 ≤ Real.pi * G := by positivity
    nlinarith
  have s3 : |A.fl (V * q) - 2 * Real.pi * Q| ≤ 2 * Real.pi * (21.2 * (u * G)) := by
    have r := hA.round (V * q)
    have t := abs_sub_le (A.fl (V * q)) (V * q) (2 * Real.pi * Q)
    have t' : u * |V * q| ≤ u * (2 * Real.pi * (1.021 * G)) := mul_le_mul_of_nonneg_left s2 h0
    have : 0 ≤ Real.pi * (u * G) := by positivity
    nlinarith
  have s4 : |A.fl (V * q)| ≤ 2 * Real.pi * (1.03 * G) := by
    have := abs_sub_abs_le_abs_sub (A.fl (V * q)) (2 * Real.pi * Q)
    rw [abs_of_pos (by positivity : 0 < 2 * Real.pi * Q)] at this
    have t : 2 * Real.pi * (21.2 * (u * G)) ≤ 2 * Real.pi * (21.2 * (1 / 1000 * G)) := by gcongr
    have t' : 2 * Real.pi * Q ≤ 2 * Real.pi * G := by gcongr
    have : 0 ≤ Real.pi * G := by positivity
    nlinarith
  set p := A.fl (V * q)
  have r := hA.round (p * z)
  have t := abs_sub_le (A.fl (p * z)) (p * z) (2 * Real.pi * Q * z)
  have e1 : |p * z - 2 * Real.pi * Q * z| ≤ 2 * Real.pi * (21.2 * (u * G)) * |z| := by
    rw [← sub_mul, abs_mul]
    exact mul_le_mul_of_nonneg_right s3 (abs_nonneg _)
  have e2 : u * |p * z| ≤ u * (2 * Real.pi * (1.03 * G) * |z|) := by
    rw [abs_mul]
    exact mul_le_mul_of_nonneg_left (mul_le_mul_of_nonneg_right s4 (abs_nonneg _)) h0
  have : 0 ≤ Real.pi * (u * G) * |z| := by positivity
  nlinarith

theorem expi_near (hA : A.Accurate u) (a b : ℝ) : ‖A.expi a - exp (b * I)‖ ≤ 4 * u + |a - b| := by
  have h1 := hA.expi a
  have h2 : ‖exp (a * I) - exp (b * I)‖ ≤ |a - b| := by
    have e : exp (a * I) - exp (b * I) = exp (b * I) * (exp (I * (a - b : ℝ)) - 1) := by
      rw [mul_sub, ← exp_add, mul_one]
      congr 2
      push_cast; ring
    rw [e, norm_mul, norm_exp_ofReal_mul_I, one_mul]
    exact Real.norm_exp_I_mul_ofReal_sub_one_le
  exact (norm_sub_le_norm_sub_add_norm_sub _ (exp (a * I)) _).trans (add_le_add h1 h2)

/-- A wave of the pupil. -/
theorem defocus_near (hA : A.Accurate u) (ho : o.Valid) (hni : o.na < o.ni) (z : ℝ) (y x : ℕ) (hin : radial o.size o.res y x < o.na / o.wl) :
    ‖A.defocus o z y x - exp (2 * Real.pi * axial o.size o.res (o.ni / o.wl) y x * z * I)‖ ≤ waveError u o z := by
  have h0 := hA.nonneg
  have ni0 : 0 < o.ni := ho.na.trans hni
  have hwl := ho.wl
  have K0 : 0 < o.ni / o.wl := div_pos ni0 ho.wl
  have R0 : 0 ≤ radial o.size o.res y x := Real.sqrt_nonneg _
  have hLK : o.na / o.wl < o.ni / o.wl := div_lt_div_of_pos_right hni ho.wl
  have hna := ho.na
  have hs : (o.na / o.ni) ^ 2 < 1 := by
    rw [div_pow, div_lt_one (by positivity)]; nlinarith
  set c := √(1 - (o.na / o.ni) ^ 2) with hc
  have c0 : 0 < c := Real.sqrt_pos.mpr (by linarith)
  set K := o.ni / o.wl with hK
  set R := radial o.size o.res y x with hR
  have hd : (c * K) ^ 2 < K ^ 2 - R ^ 2 := by
    have e : (c * K) ^ 2 = K ^ 2 - (o.na / o.wl) ^ 2 := by
      rw [mul_pow, hc, Real.sq_sqrt (by linarith), hK]
      field_simp
    rw [e]
    have : R ^ 2 < (o.na / o.wl) ^ 2 := by nlinarith
    linarith
  have hcK : 0 < c * K := mul_pos c0 K0
  have hpos : 0 < K ^ 2 - R ^ 2 := lt_trans (by positivity) hd
  set Q := axial o.size o.res K y x with hQd
  have hQe : Q = √(K ^ 2 - R ^ 2) := by rw [hQd, axial, max_eq_right hpos.le]
  have Q0 : 0 < Q := by rw [hQe]; exact Real.sqrt_pos.mpr hpos
  have hQ2 : Q ^ 2 = K ^ 2 - R ^ 2 := by rw [hQe, Real.sq_sqrt hpos.le]
  have hkz := kz_near hA ho ni0 y x hK hR (hin.trans hLK).le Q0 hQ2
  have hQK : Q ≤ K := by nlinarith [sq_nonneg R]
  have hcQ : c * K ≤ Q := by nlinarith
  have hG : Q ≤ K ^ 2 / Q := by rw [le_div_iff₀ Q0]; nlinarith
  have hGc : K ^ 2 / Q ≤ K / c := by rw [div_le_div_iff₀ Q0 c0]; nlinarith
  have hph := phase_near hA z Q0 hG hkz
  have h2 := expi_near hA (A.fl (A.fl (A.fl (2 * A.fl Real.pi) * A.kz o y x) * z)) (2 * Real.pi * Q * z)
  have e : exp (2 * Real.pi * Q * z * I) = exp ((2 * Real.pi * Q * z : ℝ) * I) := by push_cast; rfl
  rw [e]
  refine h2.trans ?_
  unfold waveError
  have hm : 2 * Real.pi * |z| * (23 * u * (K ^ 2 / Q)) ≤ 2 * Real.pi * |z| * (23 * u * (K / c)) :=
    mul_le_mul_of_nonneg_left (mul_le_mul_of_nonneg_left hGc (by positivity)) (by have := Real.pi_pos; positivity)
  linarith

theorem field_invDft (N : ℕ) (hN : 0 < N) (X : ℕ → ℕ → ℂ) (y x : ℕ) :
    field N N X y x = invDft N X (rollIdx N (N / 2 : ℕ) y) (rollIdx N (N / 2 : ℕ) x) := by
  rw [field_eq, invDft]
  congr 1
  have e1 : ∀ (y k : ℕ), W N (((y : ℤ) - (N / 2 : ℕ)) * k) = W N ((rollIdx N (N / 2 : ℕ) y : ℕ) * (k : ℤ)) := by
    intro y k
    rw [mul_comm ((rollIdx N (N / 2 : ℕ) y : ℕ) : ℤ), W_rollIdx hN, mul_comm]
  refine Finset.sum_congr rfl fun i _ => Finset.sum_congr rfl fun j _ => ?_
  rw [e1, e1]
  simp only [W, ← exp_add]
  congr 2
  push_cast; ring

theorem invDft_energy (N : ℕ) (hN : 0 < N) (X : ℕ → ℕ → ℂ) :
    ∑ y ∈ Finset.range N, ∑ x ∈ Finset.range N, ‖invDft N X y x‖ ^ 2 = (∑ i ∈ Finset.range N, ∑ j ∈ Finset.range N, ‖X i j‖ ^ 2) / (N * N) := by
  rw [← field_parseval N N hN hN]
  simp only [field_invDft N hN]
  rw [sum_rollIdx N (N / 2 : ℕ) fun y' => ∑ x ∈ Finset.range N, ‖invDft N X y' (rollIdx N (N / 2 : ℕ) x)‖ ^ 2]
  refine Finset.sum_congr rfl fun y _ => ?_
  rw [sum_rollIdx N (N / 2 : ℕ) fun x => ‖invDft N X y x‖ ^ 2]


open Classical in
theorem sum_aperture_const (N : ℕ) (r l d : ℝ) : ∑ i ∈ Finset.range N, ∑ j ∈ Finset.range N, (if radial N r i j < l then d else 0) =
    (aperturePixels N r l).card * d := by
  rw [sum_pixels N r l fun _ _ => d, Finset.sum_const, nsmul_eq_mul]

theorem waveError_nonneg (h0 : 0 ≤ u) (ho : o.Valid) (hni : 0 < o.ni) (z : ℝ) : 0 ≤ waveError u o z := by
  have := ho.wl
  have := Real.pi_pos
  unfold waveError
  positivity

/-- The computed amplitude against the diffraction integral. -/
theorem psfa_near (hA : A.Accurate u) {ε : ℝ} (hF : A.FftAccurate o.size ε) (ho : o.Valid) (hni : o.na < o.ni)
    (hgap : ∀ m : ℤ, (m : ℝ) < ((1 - 7 * u) * (o.size * o.res * o.na / o.wl)) ^ 2 ∨ ((1 + 7 * u) * (o.size * o.res * o.na / o.wl)) ^ 2 ≤ m)
    (z : ℝ) (y x : ℕ) :
    ‖A.psfa o z y x - amplitude o.size o.res (o.ni / o.wl) .none .none (aperture o.size o.res (o.na / o.wl)) z 0 y x‖ ≤ amplitudeBound u ε o z := by
  classical
  have h0 := hA.nonneg
  have hN := ho.size
  have hNr : (0 : ℝ) < o.size := by exact_mod_cast hN
  have hin := C138_same_aperture hA ho hgap
  have hd := waveError_nonneg h0 ho (ho.na.trans hni) z
  set n := (aperturePixels o.size o.res (o.na / o.wl)).card with hn
  set X := A.pupil o z with hX
  have hcomp : A.psfa o z y x = A.ifft2 o.size X (rollIdx o.size (o.size / 2 : ℕ) y) (rollIdx o.size (o.size / 2 : ℕ) x) := rfl
  -- the pupil
  have hfield : ‖field o.size o.size X y x - amplitude o.size o.res (o.ni / o.wl) .none .none (aperture o.size o.res (o.na / o.wl)) z 0 y x‖ ≤
      n * waveError u o z / o.size ^ 2 := by
    set P : ℕ → ℕ → ℂ := fun i j => aperture o.size o.res (o.na / o.wl) i j * exp (2 * Real.pi * axial o.size o.res (o.ni / o.wl) i j * z * I) *
      (weight o.size o.res (o.ni / o.wl) .none .none 0 i j : ℝ) with hP
    have ham : amplitude o.size o.res (o.ni / o.wl) .none .none (aperture o.size o.res (o.na / o.wl)) z 0 y x = field o.size o.size P y x := rfl
    have hsub : field o.size o.size X y x - field o.size o.size P y x = field o.size o.size (fun i j => X i j - P i j) y x := by
      rw [sub_eq_iff_eq_add, ← field_add]
      exact field_congr (fun i _ j _ => by ring) y x
    rw [ham, hsub]
    refine (field_le _ _ _ _ _).trans ?_
    rw [← pow_two, div_le_div_iff_of_pos_right (by positivity), hn, ← sum_aperture_const]
    refine Finset.sum_le_sum fun i _ => Finset.sum_le_sum fun j _ => ?_
    simp only [hX, hP, FlMath.pupil, aperture, hin i j]
    have hw : weight o.size o.res (o.ni / o.wl) .none .none 0 i j = 1 := by simp [weight, apodization, polarization]
    rw [hw]
    split_ifs with h
    · simpa using defocus_near hA ho hni z i j h
    · simp
  -- the transform
  have hfft : ‖A.psfa o z y x - field o.size o.size X y x‖ ≤ ε * (√n * (1 + 4 * u) / o.size) := by
    rw [hcomp, field_invDft _ hN]
    have hy' : rollIdx o.size (o.size / 2 : ℕ) y < o.size := rollIdx_lt _ _ hN
    have hx' : rollIdx o.size (o.size / 2 : ℕ) x < o.size := rollIdx_lt _ _ hN
    generalize rollIdx o.size (o.size / 2 : ℕ) y = a at *
    generalize rollIdx o.size (o.size / 2 : ℕ) x = b at *
    have hs := hF.2 X
    rw [invDft_energy _ hN] at hs
    have h1 : ‖A.ifft2 o.size X a b - invDft o.size X a b‖ ^ 2 ≤
        ∑ y ∈ Finset.range o.size, ∑ x ∈ Finset.range o.size, ‖A.ifft2 o.size X y x - invDft o.size X y x‖ ^ 2 := by
      refine le_trans ?_ (Finset.single_le_sum (f := fun y => ∑ x ∈ Finset.range o.size, ‖A.ifft2 o.size X y x - invDft o.size X y x‖ ^ 2)
        (fun i _ => Finset.sum_nonneg fun j _ => sq_nonneg _) (Finset.mem_range.mpr hy'))
      exact Finset.single_le_sum (f := fun x => ‖A.ifft2 o.size X a x - invDft o.size X a x‖ ^ 2)
        (fun j _ => sq_nonneg _) (Finset.mem_range.mpr hx')
    have h2 : ∑ i ∈ Finset.range o.size, ∑ j ∈ Finset.range o.size, ‖X i j‖ ^ 2 ≤ n * (1 + 4 * u) ^ 2 := by
      rw [hn, ← sum_aperture_const]
      refine Finset.sum_le_sum fun i _ => Finset.sum_le_sum fun j _ => ?_
      simp only [hX, FlMath.pupil, hin i j]
      split_ifs with h
      · refine pow_le_pow_left₀ (norm_nonneg _) ?_ 2
        have := hA.expi (A.fl (A.fl (A.fl (2 * A.fl Real.pi) * A.kz o i j) * z))
        have e := norm_sub_norm_le (A.defocus o z i j) (exp ((A.fl (A.fl (A.fl (2 * A.fl Real.pi) * A.kz o i j) * z) : ℝ) * I))
        rw [norm_exp_ofReal_mul_I] at e
        have e2 : A.defocus o z i j = A.expi (A.fl (A.fl (A.fl (2 * A.fl Real.pi) * A.kz o i j) * z)) := rfl
        rw [← e2] at this
        linarith
      · simp
    have h3 : ‖A.ifft2 o.size X a b - invDft o.size X a b‖ ^ 2 ≤ (ε * (√n * (1 + 4 * u) / o.size)) ^ 2 := by
      refine (h1.trans hs).trans ?_
      rw [mul_pow, div_pow, mul_pow, Real.sq_sqrt (by positivity), ← pow_two]
      gcongr
    exact le_of_sq_le_sq h3 (mul_nonneg hF.1 (by positivity))
  calc _ ≤ ‖A.psfa o z y x - field o.size o.size X y x‖ + _ := norm_sub_le_norm_sub_add_norm_sub _ _ _
    _ ≤ _ := by
      unfold amplitudeBound
      linarith [add_le_add hfft hfield]

/-! ## C138 -/

/-- C138: the amplitude PSF of a scalar, unapodised model computed in floating point differs from the exact one at every pixel of every plane by at most `amplitudeBound`, if no pixel is
within a few units in the last place of the edge of the aperture. -/
theorem C138_amplitude (s : HSpec) (hs : s.pupil = none) {w n i r : ℚ} {N : ℕ} {zs : List ℚ} (hop : Optics s.params w n i r N zs .none .none)
    (a : Arr ℂ) (ha : s.PSFa = .ok a) (hA : A.Accurate u) {ε : ℝ} (hF : A.FftAccurate N ε) (hN : 0 < N) (hr : 0 < r) (hw : 0 < w) (hn : 0 < n) (hni : n < i)
    (hgap : ∀ m : ℤ, (m : ℝ) < ((1 - 7 * u) * (N * r * n / w)) ^ 2 ∨ ((1 + 7 * u) * (N * r * n / w)) ^ 2 ≤ m)
    (iz y x : ℕ) :
    ‖A.psfa ⟨N, r, w, n, i⟩ ((zs.getD iz 0 : ℚ) : ℝ) y x - a.get [0, iz, y, x]‖ ≤ amplitudeBound u ε ⟨N, r, w, n, i⟩ ((zs.getD iz 0 : ℚ) : ℝ) := by
  have hf : s.Fits := fun P v h => by rw [hs] at h; cases h
  rw [(C76_diffraction_integral s hf hop a ha).2 0 iz y x]
  have hv : (⟨N, r, w, n, i⟩ : FlOptics).Valid := ⟨hN, Rat.cast_pos.mpr hr, Rat.cast_pos.mpr hw, Rat.cast_pos.mpr hn⟩
  have e : s.pupilFn N r ((n / w : ℚ) : ℝ) = aperture N r ((n : ℝ) / w) := by
    unfold HSpec.pupilFn; rw [hs]; push_cast; rfl
  rw [e]
  have := psfa_near (o := ⟨N, r, w, n, i⟩) hA hF hv (Rat.cast_lt.mpr hni) hgap ((zs.getD iz 0 : ℚ) : ℝ) y x
  push_cast at this ⊢
  exact this

/-- C138: and the intensity PSF, at a pixel of amplitude `a`, by at most `E * (2 * |a| + E) + 5.1 * u * (|a| + E)²`. -/
theorem C138_intensity (s : HSpec) (hs : s.pupil = none) {w n i r : ℚ} {N : ℕ} {zs : List ℚ} (hop : Optics s.params w n i r N zs .none .none)
    (b : Arr ℝ) (hb : s.PSFi = .ok b) (hA : A.Accurate u) {ε : ℝ} (hF : A.FftAccurate N ε) (hN : 0 < N) (hr : 0 < r) (hw : 0 < w) (hn : 0 < n) (hni : n < i)
    (hgap : ∀ m : ℤ, (m : ℝ) < ((1 - 7 * u) * (N * r * n / w)) ^ 2 ∨ ((1 + 7 * u) * (N * r * n / w)) ^ 2 ≤ m)
    (iz y x : ℕ) {E : ℝ} (hE : amplitudeBound u ε ⟨N, r, w, n, i⟩ ((zs.getD iz 0 : ℚ) : ℝ) ≤ E) :
    |A.psfi ⟨N, r, w, n, i⟩ ((zs.getD iz 0 : ℚ) : ℝ) y x - b.get [iz, y, x]| ≤
      E * (2 * √(b.get [iz, y, x]) + E) + 5.1 * u * (√(b.get [iz, y, x]) + E) ^ 2 := by
  have hf : s.Fits := fun P v h => by rw [hs] at h; cases h
  have h0 := hA.nonneg
  obtain ⟨a, ha, rfl⟩ := PSFi_ok hb
  obtain ⟨b', C, Z, M, B, hb', hsa, -, hg⟩ := C39_intensity s a ha
  rw [hb] at hb'; cases hb'
  have hsh := (C76_diffraction_integral s hf hop a ha).1
  rw [hsa] at hsh
  have hC : C = 1 := by simpa [components] using (List.cons.inj hsh).1
  subst hC
  have hI : (psfiOf a).get [iz, y, x] = ‖a.get [0, iz, y, x]‖ ^ 2 := by rw [(hg _ _ _).1]; simp
  rw [hI, Real.sqrt_sq (norm_nonneg _)]
  have hamp := (C138_amplitude s hs hop a ha hA hF hN hr hw hn hni hgap iz y x).trans hE
  set p := A.psfa ⟨N, r, w, n, i⟩ ((zs.getD iz 0 : ℚ) : ℝ) y x with hp
  set q := a.get [0, iz, y, x]
  have E0 : 0 ≤ E := (norm_nonneg _).trans hamp
  have hm : |‖p‖ - ‖q‖| ≤ E := (abs_norm_sub_norm_le p q).trans hamp
  obtain ⟨m1, m2⟩ := abs_le.mp hm
  have p0 := norm_nonneg p
  have q0 := norm_nonneg q
  have hh := hA.hyp p.re p.im
  have hnorm : √(p.re ^ 2 + p.im ^ 2) = ‖p‖ := by
    rw [Complex.norm_def, Complex.normSq_apply]; congr 1; ring
  rw [hnorm] at hh
  have hs2 := sq_near hA (v := A.hyp p.re p.im) (x := ‖p‖) (a := 2) p0 (by norm_num) (by norm_num) hh
  have hpsfi : A.psfi ⟨N, r, w, n, i⟩ ((zs.getD iz 0 : ℚ) : ℝ) y x = A.fl (A.hyp p.re p.im ^ 2) := rfl
  rw [hpsfi]
  have t := abs_sub_le (A.fl (A.hyp p.re p.im ^ 2)) (‖p‖ ^ 2) (‖q‖ ^ 2)
  have t1 : |‖p‖ ^ 2 - ‖q‖ ^ 2| ≤ E * (2 * ‖q‖ + E) := by
    rw [show ‖p‖ ^ 2 - ‖q‖ ^ 2 = (‖p‖ - ‖q‖) * (‖p‖ + ‖q‖) by ring, abs_mul, abs_of_nonneg (by linarith : 0 ≤ ‖p‖ + ‖q‖)]
    exact mul_le_mul hm (by linarith) (by linarith) E0
  have t2 : (2 * 2 + 1.05) * u * ‖p‖ ^ 2 ≤ 5.1 * u * (‖q‖ + E) ^ 2 := by
    have : ‖p‖ ^ 2 ≤ (‖q‖ + E) ^ 2 := pow_le_pow_left₀ p0 (by linarith) 2
    have : 0 ≤ u * (‖q‖ + E) ^ 2 := by positivity
    nlinarith
  linarith

theorem doubleMath_fft (N : ℕ) : doubleMath.FftAccurate N 0 := by
  refine ⟨le_rfl, fun X => ?_⟩
  have e : ∀ y x, doubleMath.ifft2 N X y x - invDft N X y x = 0 := fun y x => sub_self _
  simp [e]


/-- Non-vacuity: `HanserPSF(wl=520, na=0.85, ni=1.0, res=130, size=64, condition="none")` in double precision (with an exact transform): all of its 262144 amplitudes are right to 12
digits after the point. -/
example : ∃ (s : HSpec) (a : Arr ℂ) (zs : List ℚ), s.pupil = none ∧ Optics s.params 520 (17 / 20) 1 130 64 zs .none .none ∧ s.PSFa = .ok a ∧ zs.length = 64 ∧
    ∀ iz y x, ‖doubleMath.psfa ⟨64, (130 : ℚ), (520 : ℚ), (17 / 20 : ℚ), (1 : ℚ)⟩ ((zs.getD iz 0 : ℚ) : ℝ) y x - a.get [0, iz, y, x]‖ ≤ 1 / 10 ^ 12 := by
  obtain ⟨o, a, ho, hf, hop, -⟩ := demo_optics
  set zs := (List.range 64).map (plane 64 130) with hzs
  have hop' : Optics { o.params with condition := some .none } 520 (17 / 20) 1 130 64 zs .none .none :=
    ⟨hop.wl, hop.na, hop.ni, hop.res, hop.size, hop.zrange, hop.vecCorr, rfl⟩
  obtain ⟨a, ha⟩ := (C76_computable ⟨{ o.params with condition := some .none }, none⟩ (fun P v h => by cases h) hop').mpr
    ⟨by norm_num, by norm_num, by norm_num, by norm_num⟩
  refine ⟨⟨{ o.params with condition := some .none }, none⟩, a, zs, rfl, hop', ha, by simp [hzs], fun iz y x => ?_⟩
  refine (C138_amplitude _ rfl hop' a ha doubleMath_accurate (doubleMath_fft 64) (by norm_num) (by norm_num) (by norm_num) (by norm_num) (by norm_num)
    (fun m => ?_) iz y x).trans ?_
  · rcases le_or_gt m 184 with h | h
    · left
      have : (m : ℝ) ≤ 184 := by exact_mod_cast h
      refine this.trans_lt ?_
      norm_num
    · right
      have : (185 : ℝ) ≤ m := by exact_mod_cast h
      refine le_trans ?_ this
      norm_num
  · have hz : |((zs.getD iz 0 : ℚ) : ℝ)| ≤ 4160 := by
      have : |zs.getD iz 0| ≤ 4160 := by
        rcases lt_or_ge iz 64 with h | h
        · have e : zs.getD iz 0 = plane 64 130 iz := by simp [hzs, h]
          have h1 : (iz : ℚ) ≤ 63 := by exact_mod_cast (by omega : iz ≤ 63)
          have h2 : (0 : ℚ) ≤ iz := by positivity
          rw [e, abs_le]; unfold plane
          constructor <;> push_cast <;> linarith
        · rw [List.getD_eq_default _ _ (by simp [hzs, h])]; norm_num
      exact_mod_cast this
    generalize ((zs.getD iz 0 : ℚ) : ℝ) = z at *
    have hw : waveError (1 / 2 ^ 53) ⟨64, (130 : ℚ), (520 : ℚ), (17 / 20 : ℚ), (1 : ℚ)⟩ z ≤ 1 / 10 ^ 12 := by
      have hc : (1 / 2 : ℝ) ≤ √(1 - ((17 / 20 : ℚ) / (1 : ℚ) : ℝ) ^ 2) := Real.le_sqrt_of_sq_le (by norm_num)
      have h1 : (((1 : ℚ) : ℝ) / ((520 : ℚ) : ℝ)) / √(1 - ((17 / 20 : ℚ) / (1 : ℚ) : ℝ) ^ 2) ≤ 1 / 260 := by
        rw [div_le_iff₀ (by linarith)]; push_cast; linarith
      unfold waveError
      have hp := Real.pi_le_four
      have hp0 := Real.pi_pos
      have h2 : 2 * Real.pi * |z| ≤ 2 * 4 * 4160 := by gcongr
      have h3 := mul_le_mul h2 (mul_le_mul_of_nonneg_left h1 (by norm_num : (0 : ℝ) ≤ 23 * (1 / 2 ^ 53))) (by positivity) (by norm_num)
      refine le_trans (add_le_add le_rfl h3) ?_
      norm_num
    have hcard : (aperturePixels 64 ((130 : ℚ) : ℝ) (((17 / 20 : ℚ) : ℝ) / ((520 : ℚ) : ℝ))).card ≤ 64 * 64 := by
      unfold aperturePixels
      refine (Finset.card_filter_le _ _).trans ?_
      simp
    unfold amplitudeBound
    simp only [zero_mul, add_zero]
    have hcard' : ((aperturePixels 64 ((130 : ℚ) : ℝ) (((17 / 20 : ℚ) : ℝ) / ((520 : ℚ) : ℝ))).card : ℝ) ≤ 64 * 64 := by exact_mod_cast hcard
    rw [div_le_iff₀ (by norm_num)]
    refine (mul_le_mul hcard' hw (waveError_nonneg (by positivity) ⟨by norm_num, by norm_num, by norm_num, by norm_num⟩ (by norm_num) z) (by norm_num)).trans ?_
    norm_num

end PyOTF
