import Verif.Lemmas.Strip
import Verif.Lemmas.StripSum
import Verif.Lemmas.Debye
import Verif.Spec.CapLimit
import Verif.Props.C50_C52_Sheppard

/-!
# Samples of a cap of a sphere, column by column
-/

open MeasureTheory Filter Topology

namespace PyOTF

open Physics

theorem length3_radial_sq (a b c : ℝ) : length3 a b c ^ 2 = a ^ 2 + radialAt b c ^ 2 := by
  rw [length3, radialAt, Real.sq_sqrt (by positivity), Real.sq_sqrt (by positivity)]; ring

theorem radialAt_sq (b c : ℝ) : radialAt b c ^ 2 = b ^ 2 + c ^ 2 := by rw [radialAt, Real.sq_sqrt (by positivity)]

theorem axialAt_sq' {K fy fx : ℝ} (h : radialAt fy fx ≤ K) : axialAt K fy fx ^ 2 = K ^ 2 - radialAt fy fx ^ 2 := by
  have h0 : 0 ≤ radialAt fy fx := Real.sqrt_nonneg _
  have : 0 ≤ K ^ 2 - radialAt fy fx ^ 2 := by nlinarith
  rw [axialAt, max_eq_right this, Real.sq_sqrt this]

theorem axialAt_pos {K fy fx : ℝ} (h : radialAt fy fx < K) : 0 < axialAt K fy fx := by
  have h0 : 0 ≤ radialAt fy fx := Real.sqrt_nonneg _
  have : 0 < K ^ 2 - radialAt fy fx ^ 2 := by nlinarith
  rw [axialAt, max_eq_right this.le]; exact Real.sqrt_pos.mpr this

theorem axialAt_continuous (K : ℝ) : Continuous fun p : ℝ × ℝ => axialAt K p.1 p.2 := by
  unfold axialAt radialAt; fun_prop

/-- Extent of a pixel along a direction, in units of the lateral frequency step. -/
noncomputable def pixelRatio (τ kz ky kx : ℝ) : ℝ := length3 (τ * kz) ky kx / length3 kz ky kx

theorem pixelAlong_eq {L : ℝ} (hL : 0 < L) (τ kz ky kx : ℝ) : pixelAlong (τ / L) (1 / L) kz ky kx = pixelRatio τ kz ky kx / L := by
  unfold pixelAlong pixelRatio
  have : length3 (kz * (τ / L)) (ky * (1 / L)) (kx * (1 / L)) = length3 (τ * kz) ky kx / L := by
    unfold length3
    have e : (kz * (τ / L)) ^ 2 + (ky * (1 / L)) ^ 2 + (kx * (1 / L)) ^ 2 = ((τ * kz) ^ 2 + ky ^ 2 + kx ^ 2) / L ^ 2 := by field_simp
    rw [e, Real.sqrt_div (by positivity), Real.sqrt_sq hL.le]
  rw [this]; ring

theorem pixelRatio_nonneg (τ kz ky kx : ℝ) : 0 ≤ pixelRatio τ kz ky kx := div_nonneg (length3_nonneg _ _ _) (length3_nonneg _ _ _)

theorem pixelRatio_le {τ : ℝ} (hτ : 0 < τ) (kz ky kx : ℝ) : pixelRatio τ kz ky kx ≤ τ + 1 := by
  unfold pixelRatio
  refine div_le_of_le_mul₀ (length3_nonneg _ _ _) (by positivity) ?_
  refine Real.sqrt_le_iff.mpr ⟨mul_nonneg (by positivity) (length3_nonneg _ _ _), ?_⟩
  rw [mul_pow (τ + 1), length3_radial_sq, radialAt_sq]
  nlinarith [mul_nonneg hτ.le (sq_nonneg kz), mul_nonneg hτ.le (sq_nonneg ky), mul_nonneg hτ.le (sq_nonneg kx), mul_nonneg (sq_nonneg τ) (sq_nonneg ky),
    mul_nonneg (sq_nonneg τ) (sq_nonneg kx), sq_nonneg kz]

theorem radialAt_le_length3 (a b c : ℝ) : radialAt b c ≤ length3 a b c := by
  unfold radialAt length3
  exact Real.sqrt_le_sqrt (by nlinarith [sq_nonneg a])

section
variable {K l τ L : ℝ}

theorem onCap_iff (hL : 0 < L) {kz ky kx : ℝ} : OnCap K l (τ / L) (1 / L) false kz ky kx ↔
    |length3 kz ky kx - K| < pixelRatio τ kz ky kx / L ∧ √(K ^ 2 - l ^ 2) + pixelRatio τ kz ky kx / L < kz := by
  unfold OnCap
  rw [pixelAlong_eq hL]; simp

/-- Samples on the cap are laterally bounded. -/
theorem onCap_lateral (hτ : 0 < τ) (hL : 1 ≤ L) {kz ky kx : ℝ} (h : OnCap K l (τ / L) (1 / L) false kz ky kx) : radialAt ky kx < K + (τ + 1) := by
  have hL0 : 0 < L := by linarith
  rw [onCap_iff hL0] at h
  have h1 := (abs_lt.mp h.1).2
  have h2 := radialAt_le_length3 kz ky kx
  have h3 : pixelRatio τ kz ky kx / L ≤ τ + 1 := (div_le_self (pixelRatio_nonneg _ _ _ _) hL).trans (pixelRatio_le hτ _ _ _)
  linarith

/-- The number of samples in a column is bounded. -/
theorem onCap_column (hτ : 0 < τ) (hl : 0 ≤ l) (hlK : l < K) (hL : 1 ≤ L) (ky kx : ℝ) {c c' : ℤ} (h : OnCap K l (τ / L) (1 / L) false (c * τ / L) ky kx)
    (h' : OnCap K l (τ / L) (1 / L) false (c' * τ / L) ky kx) : |(c : ℝ) - c'| ≤ 2 * (τ + 1) * (K + (τ + 1)) / (τ * √(K ^ 2 - l ^ 2)) := by
  have hL0 : 0 < L := by linarith
  rw [onCap_iff hL0] at h h'
  have hm : 0 < √(K ^ 2 - l ^ 2) := Real.sqrt_pos.mpr (by nlinarith)
  set m := √(K ^ 2 - l ^ 2)
  set kz := (c : ℝ) * τ / L with hkz
  set kz' := (c' : ℝ) * τ / L with hkz'
  have d1 : pixelRatio τ kz ky kx / L ≤ (τ + 1) / L := div_le_div_of_nonneg_right (pixelRatio_le hτ _ _ _) hL0.le
  have d2 : pixelRatio τ kz' ky kx / L ≤ (τ + 1) / L := div_le_div_of_nonneg_right (pixelRatio_le hτ _ _ _) hL0.le
  have p1 : 0 ≤ pixelRatio τ kz ky kx / L := div_nonneg (pixelRatio_nonneg _ _ _ _) hL0.le
  have p2 : 0 ≤ pixelRatio τ kz' ky kx / L := div_nonneg (pixelRatio_nonneg _ _ _ _) hL0.le
  have dl : (τ + 1) / L ≤ τ + 1 := div_le_self (by positivity) hL
  have a1 := abs_lt.mp h.1
  have a2 := abs_lt.mp h'.1
  have e1 := length3_radial_sq kz ky kx
  have e2 := length3_radial_sq kz' ky kx
  have n1 := length3_nonneg kz ky kx
  have n2 := length3_nonneg kz' ky kx
  set A := length3 kz ky kx
  set A' := length3 kz' ky kx
  set D := (τ + 1) / L with hD
  have hAA : |A - A'| ≤ 2 * D := by rw [abs_le]; constructor <;> linarith
  have hsum : A + A' ≤ 2 * (K + (τ + 1)) := by linarith
  have hk : 2 * m ≤ kz + kz' := by linarith [h.2, h'.2]
  have key : |kz - kz'| * (2 * m) ≤ 2 * D * (2 * (K + (τ + 1))) := by
    calc |kz - kz'| * (2 * m) ≤ |kz - kz'| * (kz + kz') := mul_le_mul_of_nonneg_left hk (abs_nonneg _)
      _ = |(kz - kz') * (kz + kz')| := by rw [abs_mul, abs_of_pos (by linarith : 0 < kz + kz')]
      _ = |(A - A') * (A + A')| := by congr 1; linear_combination e2 - e1
      _ = |A - A'| * (A + A') := by rw [abs_mul, abs_of_nonneg (by linarith : 0 ≤ A + A')]
      _ ≤ 2 * D * (2 * (K + (τ + 1))) := mul_le_mul hAA hsum (by linarith) (by positivity)
  have ec : |kz - kz'| = |(c : ℝ) - c'| * (τ / L) := by
    rw [← abs_of_pos (show 0 < τ / L by positivity), ← abs_mul, hkz, hkz']; congr 1; ring
  rw [ec, hD] at key
  rw [le_div_iff₀ (by positivity)]
  have : |(c : ℝ) - c'| * (τ / L) * (2 * m) * L = |(c : ℝ) - c'| * (τ * m) * 2 := by field_simp
  have h4 := mul_le_mul_of_nonneg_right key hL0.le
  rw [this] at h4
  have : 2 * ((τ + 1) / L) * (2 * (K + (τ + 1))) * L = 2 * (τ + 1) * (K + (τ + 1)) * 2 := by field_simp
  linarith

open Classical in
theorem onCap_card (hτ : 0 < τ) (hl : 0 ≤ l) (hlK : l < K) (hL : 1 ≤ L) (ky kx : ℝ) (T : Finset ℤ) :
    ((T.filter fun c : ℤ => OnCap K l (τ / L) (1 / L) false (c * τ / L) ky kx).card : ℝ) ≤
      2 * (2 * (τ + 1) * (K + (τ + 1)) / (τ * √(K ^ 2 - l ^ 2)) + 1) + 1 := by
  set M := 2 * (τ + 1) * (K + (τ + 1)) / (τ * √(K ^ 2 - l ^ 2)) with hM
  have hK : 0 < K := by linarith
  have hM0 : 0 ≤ M := by positivity
  set A := T.filter fun c : ℤ => OnCap K l (τ / L) (1 / L) false (c * τ / L) ky kx with hA
  rcases A.eq_empty_or_nonempty with h | ⟨c0, h0⟩
  · rw [h, Finset.card_empty]; push_cast; positivity
  · have hsub : A ⊆ near c0 (M + 1) := by
      intro c hc
      rw [mem_near]
      have := onCap_column hτ hl hlK hL ky kx (Finset.mem_filter.mp hc).2 (Finset.mem_filter.mp h0).2
      rw [← hM] at this
      linarith
    have h1 : (A.card : ℝ) ≤ (near c0 (M + 1)).card := by exact_mod_cast Finset.card_le_card hsub
    exact h1.trans (card_near_le _ (by positivity))

/-- No samples above frequencies outside of the aperture. -/
theorem onCap_outside (hτ : 0 < τ) (hl : 0 ≤ l) (hlK : l < K) {u : ℝ × ℝ} (hu : l < radialAt u.1 u.2) : ∃ η > 0, ∀ L : ℝ, 1 ≤ L → 1 / L < η → ∀ fy fx : ℝ,
    dist (fy, fx) u < η → ∀ kz, ¬ OnCap K l (τ / L) (1 / L) false kz fy fx := by
  have hcont : Continuous fun x : ℝ × ℝ => radialAt x.1 x.2 := radialAt_continuous
  set ρ := radialAt u.1 u.2
  obtain ⟨η1, hη1, h1⟩ := Metric.continuousAt_iff.mp hcont.continuousAt (ρ - (ρ + l) / 2) (by linarith)
  set ρ' := (ρ + l) / 2
  have hρ' : l < ρ' := by simp only [ρ']; linarith
  have hK : 0 < K := by linarith
  set D := τ + 1
  have hD : 0 < D := by positivity
  refine ⟨min η1 ((ρ' ^ 2 - l ^ 2) / (D * (2 * K + D))), ?_, fun L hL hL' fy fx hf kz hcap => ?_⟩
  · refine lt_min hη1 (div_pos ?_ (by positivity)); nlinarith
  have hL0 : 0 < L := by linarith
  have h2 := h1 (lt_of_lt_of_le hf (min_le_left _ _))
  have h3 : ρ' < radialAt fy fx := by
    rw [Real.dist_eq, abs_lt] at h2
    linarith [h2.1]
  rw [onCap_iff hL0] at hcap
  set P := pixelRatio τ kz fy fx / L with hP
  have hP0 : 0 ≤ P := div_nonneg (pixelRatio_nonneg _ _ _ _) hL0.le
  have hPD : P ≤ D * (1 / L) := by
    rw [hP, div_eq_mul_one_div]
    exact mul_le_mul_of_nonneg_right (pixelRatio_le hτ _ _ _) (by positivity)
  have hPD' : P ≤ D := hPD.trans (mul_le_of_le_one_right hD.le (by rw [div_le_one hL0]; exact hL))
  have hs := Real.sqrt_nonneg (K ^ 2 - l ^ 2)
  have hsq := Real.sq_sqrt (show 0 ≤ K ^ 2 - l ^ 2 by nlinarith)
  set m := √(K ^ 2 - l ^ 2)
  have a1 := (abs_lt.mp hcap.1).2
  have e1 := length3_radial_sq kz fy fx
  have n1 := length3_nonneg kz fy fx
  set A := length3 kz fy fx
  have b1 : A ^ 2 < (K + P) ^ 2 := by nlinarith
  have b2 : m ^ 2 ≤ kz ^ 2 := by nlinarith [hcap.2]
  have b3 : ρ' ^ 2 < radialAt fy fx ^ 2 := by nlinarith
  have b4 : ρ' ^ 2 < l ^ 2 + 2 * K * P + P ^ 2 := by nlinarith
  have b5 : 2 * K * P + P ^ 2 ≤ P * (2 * K + D) := by nlinarith
  have b6 : P * (2 * K + D) ≤ D * (1 / L) * (2 * K + D) := mul_le_mul_of_nonneg_right hPD (by positivity)
  have b7 : 1 / L < (ρ' ^ 2 - l ^ 2) / (D * (2 * K + D)) := lt_of_lt_of_le hL' (min_le_right _ _)
  rw [lt_div_iff₀ (by positivity)] at b7
  linarith

end

end PyOTF
