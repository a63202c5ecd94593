import Verif.Lemmas.StripCap

/-!
# Columns of samples of a cap: their mean number
-/

open MeasureTheory Filter Topology

namespace PyOTF

open Physics

section
variable {K l τ : ℝ}

/-- Half the number of samples, as a function of the sample. -/
noncomputable def halfCount (K τ : ℝ) (x : ℝ × ℝ × ℝ) : ℝ :=
  pixelRatio τ x.1 x.2.1 x.2.2 * (length3 x.1 x.2.1 x.2.2 + K) / (τ * (x.1 + axialAt K x.2.1 x.2.2))

theorem halfCount_continuousAt (hτ : 0 < τ) {x : ℝ × ℝ × ℝ} (hx : 0 < x.1) : ContinuousAt (halfCount K τ) x := by
  unfold halfCount pixelRatio
  have c1 : Continuous fun x : ℝ × ℝ × ℝ => length3 (τ * x.1) x.2.1 x.2.2 := by unfold length3; fun_prop
  have c2 : Continuous fun x : ℝ × ℝ × ℝ => length3 x.1 x.2.1 x.2.2 := by unfold length3; fun_prop
  have c3 : Continuous fun x : ℝ × ℝ × ℝ => axialAt K x.2.1 x.2.2 := (axialAt_continuous K).comp continuous_snd
  have h1 : length3 x.1 x.2.1 x.2.2 ≠ 0 := (length3_pos hx.ne').ne'
  have h2 : 0 ≤ axialAt K x.2.1 x.2.2 := Real.sqrt_nonneg _
  have h3 : τ * (x.1 + axialAt K x.2.1 x.2.2) ≠ 0 := by positivity
  exact ((c1.continuousAt.div c2.continuousAt h1).mul (c2.continuousAt.add continuousAt_const)).div
    (continuousAt_const.mul (continuous_fst.continuousAt.add c3.continuousAt)) h3

theorem halfCount_value (hτ : 0 < τ) {u : ℝ × ℝ} (hu : radialAt u.1 u.2 < K) :
    halfCount K τ (axialAt K u.1 u.2, u) = capThickness τ K u.1 u.2 := by
  have hw := axialAt_pos hu
  have hK : 0 < K := lt_of_le_of_lt (Real.sqrt_nonneg _) hu
  have hlen : length3 (axialAt K u.1 u.2) u.1 u.2 = K := by
    have h := length3_radial_sq (axialAt K u.1 u.2) u.1 u.2
    rw [axialAt_sq' hu.le] at h
    have h0 := length3_nonneg (axialAt K u.1 u.2) u.1 u.2
    have : (length3 (axialAt K u.1 u.2) u.1 u.2 - K) * (length3 (axialAt K u.1 u.2) u.1 u.2 + K) = 0 := by nlinarith
    rcases mul_eq_zero.mp this with h | h <;> linarith
  unfold halfCount pixelRatio capThickness
  simp only
  rw [hlen]
  field_simp

/-- Distance of a sample from the sphere, radially and axially. -/
theorem radial_axial {kz fy fx s : ℝ} (hkz : 0 < kz) (hs : 0 < s) (hK : 0 < K) (e : s ^ 2 = K ^ 2 - radialAt fy fx ^ 2) (P : ℝ) :
    |length3 kz fy fx - K| < P ↔ |kz - s| < P * (length3 kz fy fx + K) / (kz + s) := by
  have h1 := length3_radial_sq kz fy fx
  have h0 := length3_nonneg kz fy fx
  set A := length3 kz fy fx
  have hA : 0 < A + K := by linarith
  have hk : 0 < kz + s := by linarith
  have key : |kz - s| * (kz + s) = |A - K| * (A + K) := by
    have t1 : |kz - s| * (kz + s) = |(kz - s) * (kz + s)| := by rw [abs_mul, abs_of_pos hk]
    have t2 : |A - K| * (A + K) = |(A - K) * (A + K)| := by rw [abs_mul, abs_of_pos hA]
    rw [t1, t2]
    congr 1
    linear_combination -e - h1
  rw [lt_div_iff₀ hk, key, mul_lt_mul_iff_left₀ hA]

/-- Above a frequency inside the aperture the samples of the cap are the integers near a phase. -/
theorem onCap_inside (hτ : 0 < τ) (hl : 0 ≤ l) (hlK : l < K) {u : ℝ × ℝ} (hu : radialAt u.1 u.2 < l) {δ : ℝ} (hδ : 0 < δ) : ∃ η > 0, ∀ L : ℝ, 1 ≤ L → 1 / L < η →
    ∀ fy fx : ℝ, dist (fy, fx) u < η → ∀ c : ℤ,
      (c ∈ near (L * axialAt K fy fx / τ) (capThickness τ K u.1 u.2 - δ) → OnCap K l (τ / L) (1 / L) false (c * τ / L) fy fx) ∧
      (OnCap K l (τ / L) (1 / L) false (c * τ / L) fy fx → c ∈ near (L * axialAt K fy fx / τ) (capThickness τ K u.1 u.2 + δ)) ∧
      (OnCap K l (τ / L) (1 / L) false (c * τ / L) fy fx ∨ c ∈ near (L * axialAt K fy fx / τ) (capThickness τ K u.1 u.2 - δ) →
        |(c : ℝ) * τ / L - axialAt K u.1 u.2| < δ) := by
  have hK : 0 < K := by linarith
  have huK : radialAt u.1 u.2 < K := by linarith
  have hw := axialAt_pos huK
  have hw2 := axialAt_sq' huK.le
  set w := axialAt K u.1 u.2 with hwd
  set κ := capThickness τ K u.1 u.2 with hκ
  have hκ0 : 0 ≤ κ := div_nonneg (length3_nonneg _ _ _) (by positivity)
  set m := √(K ^ 2 - l ^ 2) with hm
  have hm0 : 0 ≤ m := Real.sqrt_nonneg _
  have hmw : m < w := by
    have h1 := Real.sq_sqrt (show 0 ≤ K ^ 2 - l ^ 2 by nlinarith)
    have h2 : radialAt u.1 u.2 ^ 2 < l ^ 2 := by
      have : 0 ≤ radialAt u.1 u.2 := Real.sqrt_nonneg _
      nlinarith
    rw [← hm] at h1
    nlinarith
  obtain ⟨η1, hη1, h1⟩ := Metric.continuousAt_iff.mp (halfCount_continuousAt (K := K) hτ (x := (w, u)) hw) δ hδ
  rw [halfCount_value hτ huK] at h1
  set g := (w - m) / 2 with hg
  have hg0 : 0 < g := by simp only [hg]; linarith
  set e1 := min (min η1 δ) (min g (w / 2)) with he1
  have he1pos : 0 < e1 := lt_min (lt_min hη1 hδ) (lt_min hg0 (by linarith))
  have he1a : e1 ≤ η1 := (min_le_left _ _).trans (min_le_left _ _)
  have he1b : e1 ≤ δ := (min_le_left _ _).trans (min_le_right _ _)
  have he1c : e1 ≤ g := (min_le_right _ _).trans (min_le_left _ _)
  have he1d : e1 ≤ w / 2 := (min_le_right _ _).trans (min_le_right _ _)
  obtain ⟨η2, hη2, h2⟩ := Metric.continuousAt_iff.mp ((axialAt_continuous K).continuousAt (x := u)) (e1 / 2) (by linarith)
  obtain ⟨η3, hη3, h3⟩ := Metric.continuousAt_iff.mp (radialAt_continuous.continuousAt (x := u)) (K - radialAt u.1 u.2) (by linarith)
  set D := τ + 1 with hD
  have hD0 : 0 < D := by positivity
  set M := τ * (κ + δ) + D * (2 * K + D) * 2 / w + D + 1 with hM
  have hM0 : 0 < M := by positivity
  refine ⟨min (min η1 η2) (min η3 (e1 / 2 / M)), lt_min (lt_min hη1 hη2) (lt_min hη3 (by positivity)), fun L hL hL' fy fx hf c => ?_⟩
  have hL0 : 0 < L := by linarith
  have hLM : M * (1 / L) < e1 / 2 := by
    have : 1 / L < e1 / 2 / M := lt_of_lt_of_le hL' ((min_le_right _ _).trans (min_le_right _ _))
    rw [lt_div_iff₀ hM0] at this
    linarith
  have hf1 : dist (fy, fx) u < η1 := lt_of_lt_of_le hf ((min_le_left _ _).trans (min_le_left _ _))
  have hf2 := h2 (lt_of_lt_of_le hf ((min_le_left _ _).trans (min_le_right _ _)))
  have hf3 := h3 (lt_of_lt_of_le hf ((min_le_right _ _).trans (min_le_left _ _)))
  simp only at hf2 hf3
  rw [Real.dist_eq, ← hwd] at hf2
  have hr : radialAt fy fx < K := by
    rw [Real.dist_eq, abs_lt] at hf3; linarith [hf3.2]
  have hs := axialAt_pos hr
  have hs2 := axialAt_sq' hr.le
  set s := axialAt K fy fx with hsd
  have hsw : w / 2 < s := by
    rw [abs_lt] at hf2; linarith [hf2.1]
  set kz := (c : ℝ) * τ / L with hkz
  have hphase : |(c : ℝ) - L * s / τ| = |kz - s| * L / τ := by
    have : (c : ℝ) - L * s / τ = (kz - s) * (L / τ) := by rw [hkz]; field_simp
    rw [this, abs_mul, abs_of_pos (show 0 < L / τ by positivity)]; ring
  have hL1 : 0 < 1 / L := by positivity
  have hL2 : 1 / L ≤ 1 := by rw [div_le_one hL0]; exact hL
  have hLτ : τ * (κ + δ) * (1 / L) < e1 / 2 := by
    have : τ * (κ + δ) ≤ M := by
      have : 0 ≤ D * (2 * K + D) * 2 / w := by positivity
      linarith
    exact lt_of_le_of_lt (mul_le_mul_of_nonneg_right this hL1.le) hLM
  have hLD : D * (1 / L) < e1 / 2 := by
    have : D ≤ M := by
      have : 0 ≤ D * (2 * K + D) * 2 / w := by positivity
      have : 0 ≤ τ * (κ + δ) := by positivity
      linarith
    exact lt_of_le_of_lt (mul_le_mul_of_nonneg_right this hL1.le) hLM
  have hLw : D * (2 * K + D) * 2 / w * (1 / L) < e1 / 2 := by
    have : D * (2 * K + D) * 2 / w ≤ M := by
      have : 0 ≤ τ * (κ + δ) := by positivity
      linarith
    exact lt_of_le_of_lt (mul_le_mul_of_nonneg_right this hL1.le) hLM
  -- samples close to the sphere
  have close1 : OnCap K l (τ / L) (1 / L) false kz fy fx → |kz - s| < e1 / 2 := by
    intro h
    have hk0 : 0 < kz := OnCap_pos h
    rw [onCap_iff hL0] at h
    have hP : pixelRatio τ kz fy fx / L ≤ D * (1 / L) := by
      rw [div_eq_mul_one_div]; exact mul_le_mul_of_nonneg_right (pixelRatio_le hτ _ _ _) hL1.le
    have hP0 : 0 ≤ pixelRatio τ kz fy fx / L := div_nonneg (pixelRatio_nonneg _ _ _ _) hL0.le
    have hA := (abs_lt.mp h.1).2
    have h4 := (radial_axial hk0 hs hK hs2 _).mp h.1
    have hDL : D * (1 / L) ≤ D := mul_le_of_le_one_right hD0.le hL2
    have h5 : pixelRatio τ kz fy fx / L * (length3 kz fy fx + K) ≤ D * (1 / L) * (2 * K + D) :=
      mul_le_mul hP (by linarith) (by have := length3_nonneg kz fy fx; linarith) (by positivity)
    have h6 : pixelRatio τ kz fy fx / L * (length3 kz fy fx + K) / (kz + s) ≤ D * (1 / L) * (2 * K + D) / (w / 2) :=
      div_le_div₀ (by positivity) h5 (by linarith) (by linarith)
    have h7 : D * (1 / L) * (2 * K + D) / (w / 2) = D * (2 * K + D) * 2 / w * (1 / L) := by field_simp
    linarith
  have close2 : c ∈ near (L * s / τ) (κ - δ) → |kz - s| < e1 / 2 := by
    intro h
    rw [mem_near, hphase, div_lt_iff₀ hτ] at h
    have : |kz - s| < (κ - δ) * τ * (1 / L) := by rw [mul_one_div, lt_div_iff₀ hL0]; exact h
    have : (κ - δ) * τ * (1 / L) ≤ τ * (κ + δ) * (1 / L) := mul_le_mul_of_nonneg_right (by nlinarith) hL1.le
    linarith
  have close3 : |kz - s| < e1 / 2 → |kz - w| < e1 := by
    intro h
    have := abs_sub_le kz s w
    linarith
  -- the exact criterion
  have crit : |kz - w| < e1 → (OnCap K l (τ / L) (1 / L) false kz fy fx ↔ |(c : ℝ) - L * s / τ| < halfCount K τ (kz, fy, fx)) := by
    intro h
    have hb := abs_lt.mp h
    have hk0 : 0 < kz := by linarith [hb.1]
    have hP : pixelRatio τ kz fy fx / L ≤ D * (1 / L) := by
      rw [div_eq_mul_one_div]; exact mul_le_mul_of_nonneg_right (pixelRatio_le hτ _ _ _) hL1.le
    have hsec : m + pixelRatio τ kz fy fx / L < kz := by
      have : w = m + 2 * g := by simp only [hg]; ring
      linarith [hb.1]
    rw [onCap_iff hL0, and_iff_left hsec, radial_axial hk0 hs hK hs2, hphase]
    unfold halfCount
    simp only
    rw [← hsd, div_lt_iff₀ hτ]
    have : pixelRatio τ kz fy fx * (length3 kz fy fx + K) / (τ * (kz + s)) * τ = pixelRatio τ kz fy fx / L * (length3 kz fy fx + K) / (kz + s) * L := by
      field_simp
    rw [this, mul_lt_mul_iff_left₀ hL0]
  have hF : |kz - w| < e1 → |halfCount K τ (kz, fy, fx) - κ| < δ := by
    intro h
    have := @h1 (kz, fy, fx) (by
      rw [Prod.dist_eq]
      exact max_lt (by simp only [Real.dist_eq]; linarith) hf1)
    rwa [Real.dist_eq] at this
  refine ⟨fun h => ?_, fun h => ?_, fun h => ?_⟩
  · have h4 := close3 (close2 h)
    rw [crit h4]
    have h5 := abs_lt.mp (hF h4)
    rw [mem_near] at h
    linarith [h5.1]
  · have h4 := close3 (close1 h)
    have h5 := abs_lt.mp (hF h4)
    rw [mem_near]
    have := (crit h4).mp h
    linarith [h5.2]
  · rcases h with h | h
    · exact lt_of_lt_of_le (close3 (close1 h)) he1b
    · exact lt_of_lt_of_le (close3 (close2 h)) he1b

/-- The phase is nearly linear in the column. -/
theorem axial_slope {u : ℝ × ℝ} (hu : radialAt u.1 u.2 < K) : ∃ C : ℝ, 0 ≤ C ∧ ∃ η > 0, ∀ e : ℝ, e < η → ∀ fy x0 x1 : ℝ, |fy - u.1| ≤ e → |x0 - u.2| ≤ e → |x1 - u.2| ≤ e →
    |axialAt K fy x1 - axialAt K fy x0 - (-u.2 / axialAt K u.1 u.2) * (x1 - x0)| ≤ C * e * |x1 - x0| := by
  have hw := axialAt_pos hu
  have hw2 := axialAt_sq' hu.le
  set w := axialAt K u.1 u.2 with hwd
  set A := 2 * |u.1| + 2 * |u.2| + 2 with hA
  have hA0 : 0 < A := by positivity
  obtain ⟨η2, hη2, h2⟩ := Metric.continuousAt_iff.mp ((axialAt_continuous K).continuousAt (x := u)) (w / 2) (by linarith)
  obtain ⟨η3, hη3, h3⟩ := Metric.continuousAt_iff.mp (radialAt_continuous.continuousAt (x := u)) (K - radialAt u.1 u.2) (by linarith)
  refine ⟨(2 * |u.2| * (A / w) + 2 * w) / (w * w), by positivity, min 1 (min η2 η3), lt_min one_pos (lt_min hη2 hη3), fun e he fy x0 x1 hy h0 h1 => ?_⟩
  have he0 : 0 ≤ e := (abs_nonneg _).trans hy
  have point : ∀ x, |x - u.2| ≤ e → w / 2 < axialAt K fy x ∧ axialAt K fy x ^ 2 = K ^ 2 - (fy ^ 2 + x ^ 2) ∧ |axialAt K fy x - w| ≤ A / w * e := by
    intro x hx
    have hd : dist (fy, x) u ≤ e := by
      rw [Prod.dist_eq]; exact max_le (by simpa [Real.dist_eq] using hy) (by simpa [Real.dist_eq] using hx)
    have a2 := h2 (lt_of_le_of_lt hd (lt_of_lt_of_le he ((min_le_right _ _).trans (min_le_left _ _))))
    have a3 := h3 (lt_of_le_of_lt hd (lt_of_lt_of_le he ((min_le_right _ _).trans (min_le_right _ _))))
    simp only at a2 a3
    rw [Real.dist_eq, ← hwd, abs_lt] at a2
    rw [Real.dist_eq, abs_lt] at a3
    have hs2 := axialAt_sq' (K := K) (fy := fy) (fx := x) (by linarith [a3.2])
    rw [radialAt_sq] at hs2
    refine ⟨by linarith [a2.1], hs2, ?_⟩
    set s := axialAt K fy x
    have hs : 0 < s := by linarith [a2.1]
    rw [radialAt_sq] at hw2
    have e1 : (s - w) * (s + w) = (u.1 - fy) * (u.1 + fy) + (u.2 - x) * (u.2 + x) := by linear_combination hs2 - hw2
    have b1 : |u.1 + fy| ≤ 2 * |u.1| + 1 := by
      have : u.1 + fy = 2 * u.1 + (fy - u.1) := by ring
      rw [this]
      refine (abs_add_le _ _).trans ?_
      rw [abs_mul, abs_of_pos (by norm_num : (0 : ℝ) < 2)]
      have := lt_of_lt_of_le he (min_le_left _ _)
      linarith
    have b2 : |u.2 + x| ≤ 2 * |u.2| + 1 := by
      have : u.2 + x = 2 * u.2 + (x - u.2) := by ring
      rw [this]
      refine (abs_add_le _ _).trans ?_
      rw [abs_mul, abs_of_pos (by norm_num : (0 : ℝ) < 2)]
      have := lt_of_lt_of_le he (min_le_left _ _)
      linarith
    have b3 : |s - w| * (s + w) ≤ e * A := by
      rw [← abs_of_pos (show 0 < s + w by linarith), ← abs_mul, e1]
      refine (abs_add_le _ _).trans ?_
      rw [abs_mul, abs_mul, abs_sub_comm u.1, abs_sub_comm u.2]
      have c1 := mul_le_mul hy b1 (abs_nonneg _) he0
      have c2 := mul_le_mul hx b2 (abs_nonneg _) he0
      have : e * A = e * (2 * |u.1| + 1) + e * (2 * |u.2| + 1) := by rw [hA]; ring
      linarith
    have b4 : |s - w| * w ≤ e * A := le_trans (mul_le_mul_of_nonneg_left (by linarith) (abs_nonneg _)) b3
    rw [div_mul_eq_mul_div, le_div_iff₀ hw]
    linarith
  obtain ⟨p1, p2, p3⟩ := point x0 h0
  obtain ⟨q1, q2, q3⟩ := point x1 h1
  set s0 := axialAt K fy x0
  set s1 := axialAt K fy x1
  have hpos : 0 < s1 + s0 := by linarith
  have e2 : s1 - s0 = (x0 - x1) * (x1 + x0) / (s1 + s0) := by
    rw [eq_div_iff hpos.ne']; linear_combination q2 - p2
  have e3 : s1 - s0 - (-u.2 / w) * (x1 - x0) =
      (x1 - x0) * ((u.2 * (s1 - w) + u.2 * (s0 - w) - w * (x1 - u.2) - w * (x0 - u.2)) / (w * (s1 + s0))) := by
    rw [e2]; field_simp; ring
  rw [e3, abs_mul, mul_comm]
  refine mul_le_mul_of_nonneg_right ?_ (abs_nonneg _)
  rw [abs_div, abs_of_pos (show 0 < w * (s1 + s0) by positivity)]
  have num : |u.2 * (s1 - w) + u.2 * (s0 - w) - w * (x1 - u.2) - w * (x0 - u.2)| ≤ (2 * |u.2| * (A / w) + 2 * w) * e := by
    refine (abs_sub _ _).trans ?_
    have t1 := abs_sub (u.2 * (s1 - w) + u.2 * (s0 - w)) (w * (x1 - u.2))
    have t2 := abs_add_le (u.2 * (s1 - w)) (u.2 * (s0 - w))
    rw [abs_mul, abs_mul] at t2
    rw [abs_mul w, abs_of_pos hw] at t1 ⊢
    have t3 := mul_le_mul_of_nonneg_left q3 (abs_nonneg u.2)
    have t4 := mul_le_mul_of_nonneg_left p3 (abs_nonneg u.2)
    have t5 := mul_le_mul_of_nonneg_left h1 hw.le
    have t6 := mul_le_mul_of_nonneg_left h0 hw.le
    linarith
  have hden : w * w ≤ w * (s1 + s0) := mul_le_mul_of_nonneg_left (by linarith) hw.le
  rw [div_mul_eq_mul_div]
  exact div_le_div₀ (by positivity) num (by positivity) hden

end

end PyOTF
