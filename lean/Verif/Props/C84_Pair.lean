import Verif.Lemmas.Pair
import Verif.Props.C50_C52_Sheppard

/-!
# C84: amplitude PSF and amplitude OTF are a Fourier pair
-/

namespace PyOTF

open Complex Physics

/-- C84: the amplitude OTF of a `HanserPSF` is the centred Fourier transform of every component of the amplitude PSF, for all sizes. -/
theorem C84_hanser (s : HSpec) (t : Arr ℂ) (ht : s.OTFa = .ok t) : ∃ (a : Arr ℂ) (C Z A B : ℕ), s.PSFa = .ok a ∧
    a.shape = [C, Z, A, B] ∧ t.shape = [C, Z, A, B] ∧ ∀ c < C, ∀ kz < Z, ∀ ky < A, ∀ kx < B,
      t.get [c, kz, ky, kx] = centredSum (fun z y x => a.get [c, z, y, x]) Z A B kz ky kx := by
  unfold HSpec.OTFa at ht
  obtain ⟨a, ha, ht⟩ := py_bind_ok ht
  obtain ⟨_, -, ht⟩ := py_bind_ok ht
  obtain ⟨v, Z, A, B, -, hs⟩ := psfa_shape s a ha
  rw [← py_pure_ok ht]
  exact ⟨a, _, Z, A, B, ha, hs, by rw [easyFft_shape]; exact hs, fun c hc kz h1 ky h2 kx h3 => easyFft4_get a _ Z A B hs c kz ky kx hc h1 h2 h3⟩

/-- C84: it can be read exactly when the amplitude PSF can and has at least one plane and pixel. -/
theorem C84_hanser_computable (s : HSpec) : (∃ t, s.OTFa = .ok t) ↔
    ∃ a C Z A B, s.PSFa = .ok a ∧ a.shape = [C, Z, A, B] ∧ 0 < Z ∧ 0 < A ∧ 0 < B := by
  unfold HSpec.OTFa
  rcases ha : s.PSFa with e | a
  · simp [bind, Except.bind]
  obtain ⟨v, Z, A, B, -, hs⟩ := psfa_shape s a ha
  simp only [bind, Except.bind, hanserOTFa, fftCheck, hs]
  by_cases h : 0 < Z ∧ 0 < A ∧ 0 < B
  · rw [if_neg (by simp; omega)]
    exact iff_of_true ⟨_, rfl⟩ ⟨a, _, Z, A, B, rfl, hs, h⟩
  · rw [if_pos (by simp; omega)]
    refine iff_of_false (by rintro ⟨t, ht⟩; cases ht) ?_
    rintro ⟨a', C, Z', A', B', h1, h2, h3⟩
    cases h1
    rw [hs] at h2
    simp only [List.cons.injEq, and_true] at h2
    obtain ⟨-, rfl, rfl, rfl⟩ := h2
    exact h h3

/-- The outputs of a `SheppardPSF` in terms of its amplitude OTF. -/
theorem sheppard_psfa {p : Params} {t : Arr (Option ℂ)} (ht : SSpec.OTFa p = .ok t) : ∃ C Z N : ℕ, 2 ≤ Z ∧ 2 ≤ N ∧
    t.shape = [C, Z, N, N] ∧ SSpec.PSFa p = .ok (sheppardPSFa t) ∧ (sheppardPSFa t).shape = [C, Z, N, N] ∧
    SSpec.PSFi p = .ok (sheppardPSFi (sheppardPSFa t)) ∧ (sheppardPSFi (sheppardPSFa t)).shape = [Z, N, N] := by
  obtain ⟨h, hh, e⟩ := sheppardGenOtf_ok ht
  obtain ⟨-, -, -, h1⟩ := hh.size
  obtain ⟨-, -, -, h2⟩ := hh.zsize
  have hs : t.shape = [h.ncomp, h.zsize, h.size, h.size] := by rw [e, sheppard_otf_shape]
  exact ⟨_, _, _, h2, h1, hs, by rw [SSpec.PSFa, ht]; rfl, hs, by rw [SSpec.PSFi, SSpec.PSFa, ht]; rfl,
    by show (sheppardPSFa t).shape.tail = _; rw [show (sheppardPSFa t).shape = t.shape from rfl, hs]; rfl⟩

/-- C84: the amplitude PSF of a `SheppardPSF`.  A component whose OTF contains a NaN is NaN everywhere.  Otherwise it is the inverse of
the centred transform of the OTF on even axes; on odd axes this inverse is displaced by one pixel and multiplied by a phase. -/
theorem C84_sheppard (p : Params) (t : Arr (Option ℂ)) (ht : SSpec.OTFa p = .ok t) : ∃ (a : Arr (Option ℂ)) (C Z N : ℕ),
    SSpec.PSFa p = .ok a ∧ t.shape = [C, Z, N, N] ∧ a.shape = [C, Z, N, N] ∧ ∀ c < C,
    ((∃ kz < Z, ∃ ky < N, ∃ kx < N, t.get [c, kz, ky, kx] = none) → ∀ z y x, a.get [c, z, y, x] = none) ∧
    ∀ T : ℕ → ℕ → ℕ → ℂ, (∀ kz < Z, ∀ ky < N, ∀ kx < N, t.get [c, kz, ky, kx] = some (T kz ky kx)) →
      ∀ z < Z, ∀ y < N, ∀ x < N, a.get [c, z, y, x] = some (centredInverse T Z N N (cameFrom Z z) (cameFrom N y) (cameFrom N x) *
        exp (-(2 * Real.pi * I * ((phaseRamp Z z + phaseRamp N y + phaseRamp N x : ℝ) : ℂ)))) := by
  obtain ⟨C, Z, N, hZ, hN, hs, ha, has, -, -⟩ := sheppard_psfa ht
  refine ⟨_, C, Z, N, ha, hs, has, fun c hc => ⟨?_, ?_⟩⟩
  · rintro ⟨kz, h1, ky, h2, kx, h3, hn⟩ z y x
    simp only [sheppardPSFa, nanTransform]
    rw [if_pos]
    exact ⟨[kz, ky, kx], by rw [hs]; exact .cons h1 (.cons h2 (.cons h3 .nil)), hn⟩
  · intro T hT z hz y hy x hx
    simp only [sheppardPSFa, nanTransform]
    rw [if_neg]
    · congr 1
      rw [easyIfft4_get (t.map fun v => v.getD 0) C Z N N hs c z y x hc hz hy hx]
      congr 2
      refine Finset.sum_congr rfl fun a ha => Finset.sum_congr rfl fun p hp => Finset.sum_congr rfl fun q hq => ?_
      congr 1
      show (t.get [c, a, p, q]).getD 0 = _
      rw [hT a (Finset.mem_range.mp ha) p (Finset.mem_range.mp hp) q (Finset.mem_range.mp hq)]
      rfl
    · rintro ⟨u, hu, hn⟩
      rw [hs] at hu
      obtain ⟨a, p, q, rfl, h1, h2, h3⟩ : ∃ a p q, u = [a, p, q] ∧ a < Z ∧ p < N ∧ q < N := by
        cases hu with
        | cons ha hj => cases hj with
          | cons hp hj => cases hj with
            | cons hq hj => cases hj; exact ⟨_, _, _, rfl, ha, hp, hq⟩
      have hn : t.get [c, a, p, q] = none := hn
      rw [hT a h1 p h2 q h3] at hn
      cases hn

/-- C84: with even `size` and `zsize` nothing is displaced. -/
theorem C84_sheppard_even (p : Params) (t a : Arr (Option ℂ)) (C Z N : ℕ) (ht : SSpec.OTFa p = .ok t) (ha : SSpec.PSFa p = .ok a)
    (hs : t.shape = [C, Z, N, N]) (eZ : Z % 2 = 0) (eN : N % 2 = 0) (c : ℕ) (hc : c < C) (T : ℕ → ℕ → ℕ → ℂ)
    (hT : ∀ kz < Z, ∀ ky < N, ∀ kx < N, t.get [c, kz, ky, kx] = some (T kz ky kx)) (z y x : ℕ) (hz : z < Z) (hy : y < N) (hx : x < N) :
    a.get [c, z, y, x] = some (centredInverse T Z N N z y x) := by
  obtain ⟨a', C', Z', N', h1, h2, h3, h4⟩ := C84_sheppard p t ht
  rw [ha] at h1; cases h1
  rw [hs] at h2
  simp only [List.cons.injEq, and_true] at h2
  obtain ⟨rfl, rfl, rfl, -⟩ := h2
  rw [(h4 c hc).2 T hT z hz y hy x hx]
  simp [cameFrom, phaseRamp, eZ, eN]

/-- Non-vacuity: the demo models have all four outputs. -/
theorem demo_pair : ∃ (s : HSpec) (a t : Arr ℂ), s.PSFa = .ok a ∧ s.OTFa = .ok t ∧ a.shape = [1, 64, 64, 64] := by
  obtain ⟨o, a, ho, hf, h3, ha⟩ := demo_optics
  have hs := (C76_diffraction_integral _ hf h3 a ha).1
  simp only [List.length_map, List.length_range, components] at hs
  obtain ⟨t, ht⟩ := (C84_hanser_computable _).mpr ⟨a, 1, 64, 64, 64, ha, hs, by norm_num, by norm_num, by norm_num⟩
  exact ⟨_, a, t, ha, ht, hs⟩

/-- Non-vacuity: a scalar and a polarised `SheppardPSF` without NaN. -/
example : ∃ (o : SObj) (t : Arr (Option ℂ)), SObj.new (demoArgsV "total" "sine") (.bool false) = .ok o ∧ SSpec.OTFa o.params = .ok t ∧
    ∀ c < 6, ∃ T : ℕ → ℕ → ℕ → ℂ, ∀ kz < 64, ∀ ky < 64, ∀ kx < 64, t.get [c, kz, ky, kx] = some (T kz ky kx) := by
  obtain ⟨o, t, ho, h, ht⟩ := demo_soptics .total .sine false "total" "sine" rfl rfl
  refine ⟨o, t, ho, ht, fun c hc => ?_⟩
  exact ⟨_, fun kz h1 ky h2 kx h3 => (C50_value h (by norm_num) (by norm_num) (by norm_num) t ht).2 c hc kz h1 ky h2 kx h3⟩

end PyOTF
