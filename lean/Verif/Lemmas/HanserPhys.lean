import Verif.Lemmas.HanserForm
import Verif.Spec.Hanser

/-!
# The modelled numbers are those of the specification
-/

namespace PyOTF

open Complex Physics

theorem freq_eq (N : ℕ) (r : ℝ) (i : ℕ) : fftfreq N r i = freq N r i := by
  unfold fftfreq freq fftfreqNum
  have : i < (N - 1) / 2 + 1 ↔ 2 * i < N ∨ N = 0 ∧ i = 0 := by omega
  by_cases h : 2 * i < N
  · rw [if_pos (this.mpr (Or.inl h)), if_pos h]; push_cast; ring
  · by_cases h0 : N = 0
    · subst h0; simp
    · rw [if_neg (by omega), if_neg h]; push_cast; ring

theorem kr_eq (h : HanserNum) (i j : ℕ) : h.kr i j = radial h.size h.res i j := by
  simp only [HanserNum.kr, cart2pol, HanserNum.k, freq_eq, radial]

theorem radial_nonneg (N : ℕ) (r : ℝ) (i j : ℕ) : 0 ≤ radial N r i j := Real.sqrt_nonneg _

theorem kz_eq (h : HanserNum) (i j : ℕ) : h.kz i j = axial h.size h.res h.kmag i j := by
  simp only [HanserNum.kz, psqrt, kr_eq, axial]

theorem sin_theta (h : HanserNum) (i j : ℕ) : Real.sin (h.theta i j) = sinTheta h.size h.res h.kmag i j := by
  unfold HanserNum.theta sinTheta
  have h0 := radial_nonneg h.size h.res i j
  rw [kr_eq]
  split_ifs with hk
  · have hk0 : 0 < h.kmag := lt_of_le_of_lt h0 hk
    rw [one_mul, Real.sin_arcsin]
    · have : 0 ≤ radial h.size h.res i j / h.kmag := by positivity
      linarith
    · exact (div_le_one hk0).mpr hk.le
  · simp

theorem cos_theta (h : HanserNum) (i j : ℕ) : Real.cos (h.theta i j) = cosTheta h.size h.res h.kmag i j := by
  rw [cosTheta, ← sin_theta]
  unfold HanserNum.theta
  rw [Real.cos_arcsin]
  have h0 := radial_nonneg h.size h.res i j
  rw [kr_eq]
  split_ifs with hk
  · have hk0 : 0 < h.kmag := lt_of_le_of_lt h0 hk
    rw [one_mul, Real.sin_arcsin]
    · have : 0 ≤ radial h.size h.res i j / h.kmag := by positivity
      linarith
    · exact (div_le_one hk0).mpr hk.le
  · simp

theorem norm_cart (N : ℕ) (r : ℝ) (i j : ℕ) : ‖(⟨freq N r j, freq N r i⟩ : ℂ)‖ = radial N r i j := by
  rw [Complex.norm_eq_sqrt_sq_add_sq, radial, add_comm]

theorem cos_phi (h : HanserNum) (i j : ℕ) : Real.cos (h.phi i j) = cosPhi h.size h.res i j := by
  simp only [HanserNum.phi, cart2pol, HanserNum.k, freq_eq, cosPhi]
  split_ifs with h0
  · rw [← norm_cart, norm_eq_zero] at h0
    rw [h0, arg_zero, Real.cos_zero]
  · rw [Complex.cos_arg (by rw [ne_eq, ← norm_eq_zero, norm_cart]; exact h0), norm_cart]

theorem sin_phi (h : HanserNum) (i j : ℕ) : Real.sin (h.phi i j) = sinPhi h.size h.res i j := by
  simp only [HanserNum.phi, cart2pol, HanserNum.k, freq_eq, sinPhi]
  split_ifs with h0
  · rw [← norm_cart, norm_eq_zero] at h0
    rw [h0, arg_zero, Real.sin_zero]
  · rw [Complex.sin_arg, norm_cart]

theorem weight_eq (h : HanserNum) (c i j : ℕ) :
    h.apod i j * (h.vecFactors i j).getD c 0 = weight h.size h.res h.kmag h.vecCorr h.condition c i j := by
  have e1 : h.apod i j = apodization h.condition (cosTheta h.size h.res h.kmag i j) := by
    unfold HanserNum.apod apodization
    cases h.condition <;> simp [cos_theta]
  have e2 : h.vecFactors i j = polarization h.vecCorr (sinTheta h.size h.res h.kmag i j)
      (cosTheta h.size h.res h.kmag i j) (sinPhi h.size h.res i j) (cosPhi h.size h.res i j) := by
    unfold HanserNum.vecFactors polarization
    cases h.vecCorr <;> simp [sin_theta, cos_theta, sin_phi, cos_phi]
  rw [weight, e1, e2]

theorem pupilAt_eq (h : HanserNum) (P : ℕ → ℕ → ℂ) (c iz i j : ℕ) :
    h.pupilAt P c iz i j = P i j * exp (2 * Real.pi * axial h.size h.res h.kmag i j * (h.z.getD iz 0 : ℝ) * I) *
      (weight h.size h.res h.kmag h.vecCorr h.condition c i j : ℝ) := by
  rw [HanserNum.pupilAt, ← weight_eq, HanserNum.defocus, kz_eq]
  push_cast
  have : (2 * Real.pi * I * axial h.size h.res h.kmag i j * (h.z.getD iz 0 : ℝ) : ℂ) =
    2 * Real.pi * axial h.size h.res h.kmag i j * (h.z.getD iz 0 : ℝ) * I := by ring
  rw [this]
  ring

theorem idealPupil_eq (h : HanserNum) {l : ℚ} (hl : h.limit = .fin l) (i j : ℕ) :
    h.idealPupil.get [i, j] = aperture h.size h.res l i j := by
  simp [HanserNum.idealPupil, aperture, hl, ltPyFloat, kr_eq]

theorem Optics.num {p : Params} {w n i r : ℚ} {N : ℕ} {zs : List ℚ} {v : VecCorr} {cd : Condition}
    (ho : Optics p w n i r N zs v cd) {h : HanserNum} (hN : NumbersOf p h) :
    w ≠ 0 ∧ r ≠ 0 ∧ 0 < N ∧ h = ⟨N, r, ((i / w : ℚ) : ℝ), .fin (n / w), zs.map fun (q : ℚ) => (q : ℝ), v, cd⟩ := by
  obtain ⟨u1, a1, b1⟩ := ho.wl
  obtain ⟨u2, a2, b2⟩ := ho.na
  obtain ⟨u3, a3, b3⟩ := ho.ni
  obtain ⟨u4, a4, b4⟩ := ho.res
  obtain ⟨u5, a5, b5⟩ := ho.size
  obtain ⟨t5, c5, d5⟩ := hN.size
  rw [a5] at c5; cases c5
  obtain ⟨t4, q4, c4, d4, e4⟩ := hN.res
  rw [a4] at c4; cases c4
  rw [b4] at d4; cases d4
  obtain ⟨t3, t1, x, y, q, c3, c1, d3, d1, e1, e2⟩ := hN.kmag
  rw [a3] at c3; cases c3
  rw [a1] at c1; cases c1
  rw [b3] at d3; cases d3
  rw [b1] at d1; cases d1
  obtain ⟨t2, t1', x', y', c2, c1, d2, d1, f1⟩ := hN.limit
  rw [a2] at c2; cases c2
  rw [a1] at c1; cases c1
  rw [b2] at d2; cases d2
  rw [b1] at d1; cases d1
  obtain ⟨zs', g1, g2⟩ := hN.z
  rw [ho.zrange] at g1
  have hz : zs = zs' := by
    have := Option.some.inj g1
    exact List.map_injective_iff.mpr (fun a b hab => by injection hab) this
  subst hz
  have h6 := hN.vecCorr
  rw [ho.vecCorr] at h6
  have h7 := hN.condition
  rw [ho.condition] at h7
  have hpos := hN.pos
  simp only [PyFloat.div] at e1 f1
  have hw : w ≠ 0 := by
    rintro rfl
    rw [if_pos rfl] at e1
    cases e1
  rw [if_neg hw] at e1 f1
  injection e1 with e1; injection e1 with e1
  injection f1 with f1
  have hr : r ≠ 0 := by
    have := hpos.1; rw [e4] at this; exact Rat.cast_ne_zero.mp this
  have hNN : 0 < N := by rw [← b5, ← d5]; exact hpos.2
  refine ⟨hw, hr, hNN, ?_⟩
  cases h with
  | mk s1 s2 s3 s4 s5 s6 s7 =>
    simp only at d5 e4 e2 f1 g2 h6 h7
    subst d5 e4 e2 f1 g2 b5 e1
    cases h6; cases h7
    rfl

/-- Conversely. -/
theorem Optics.numbersOf {p : Params} {w n i r : ℚ} {N : ℕ} {zs : List ℚ} {v : VecCorr} {cd : Condition}
    (ho : Optics p w n i r N zs v cd) (hw : w ≠ 0) (hr : r ≠ 0) (hN : 0 < N)
    (hi : (v ≠ .none ∨ cd ≠ .none) → i ≠ 0) :
    NumbersOf p ⟨N, r, ((i / w : ℚ) : ℝ), .fin (n / w), zs.map fun (q : ℚ) => (q : ℝ), v, cd⟩ := by
  obtain ⟨u1, a1, b1⟩ := ho.wl
  obtain ⟨u2, a2, b2⟩ := ho.na
  obtain ⟨u3, a3, b3⟩ := ho.ni
  obtain ⟨u4, a4, b4⟩ := ho.res
  obtain ⟨u5, a5, b5⟩ := ho.size
  refine ⟨⟨u5, a5, b5.symm⟩, ⟨u4, r, a4, b4, rfl⟩, ⟨u3, u1, _, _, i / w, a3, a1, b3, b1, by simp [PyFloat.div, hw], rfl⟩,
    ⟨u2, u1, _, _, a2, a1, b2, b1, by simp [PyFloat.div, hw]⟩, ⟨zs, ho.zrange, rfl⟩, ho.vecCorr, ho.condition,
    ⟨Rat.cast_ne_zero.mpr hr, hN⟩, ?_⟩
  intro hu
  have : v ≠ .none ∨ cd ≠ .none := by
    simp only [HanserNum.usesTheta] at hu
    by_cases h1 : v = .none
    · right; rintro rfl; simp [h1] at hu
    · left; exact h1
  exact Rat.cast_ne_zero.mpr (div_ne_zero (hi this) hw)

end PyOTF
