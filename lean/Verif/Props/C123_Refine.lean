import Verif.Props.C122_Maxwell
import Verif.Props.C57_Pinhole

/-!
# C123: the pixel size only says where the PSF is sampled
-/

namespace PyOTF

open Physics Complex

/-- `inDisk` loses nothing by its bounding box. -/
theorem mem_inDisk {R : ℝ} (hR : 0 < R) (p : ℤ × ℤ) : p ∈ inDisk R ↔ (p.1 : ℝ) ^ 2 + (p.2 : ℝ) ^ 2 < R ^ 2 := mem_disk hR p

theorem fnum_inj {N i j : ℕ} (hi : i < N) (hj : j < N) (h : fnum N i = fnum N j) : i = j := by
  unfold fnum at h
  split_ifs at h <;> omega

theorem fnum_surj {N : ℕ} {m : ℤ} (h : 2 * |m| < N) : ∃ i < N, fnum N i = m := by
  have h' := abs_lt.mp (show |m| < N - |m| by linarith)
  rcases le_or_gt 0 m with h0 | h0
  · rw [abs_of_nonneg h0] at h
    refine ⟨m.toNat, by omega, ?_⟩
    rw [fnum, if_pos (by omega)]
    omega
  · rw [abs_of_neg h0] at h
    refine ⟨(m + N).toNat, by omega, ?_⟩
    rw [fnum, if_neg (by omega)]
    omega

/-- The sum over the pixels of the aperture is a sum over the waves of the field of view. -/
theorem sum_aperture {N : ℕ} {r l : ℝ} (hN : 0 < N) (hr : 0 < r) (hl : 0 < l) (hny : 2 * (l * r) < 1) (g : ℝ → ℝ → ℂ) :
    ∑ i ∈ Finset.range N, ∑ j ∈ Finset.range N, aperture N r l i j * g (freq N r i) (freq N r j) =
    ∑ p ∈ inDisk (N * r * l), g (p.1 / (N * r)) (p.2 / (N * r)) := by
  classical
  have hN' : (0 : ℝ) < N := by exact_mod_cast hN
  have hL : 0 < N * r := by positivity
  have hLl : 0 < N * r * l := by positivity
  have hrad : ∀ i j, radial N r i j < l ↔ (fnum N i, fnum N j) ∈ inDisk (N * r * l) := by
    intro i j
    rw [mem_inDisk hLl, radial, Real.sqrt_lt' hl, freq_fnum, freq_fnum, div_pow, div_pow, ← add_div, div_lt_iff₀ (by positivity)]
    constructor <;> intro h <;> nlinarith
  rw [← Finset.sum_product']
  simp only [aperture, ite_mul, one_mul, zero_mul]
  rw [← Finset.sum_filter]
  refine Finset.sum_bij (fun u _ => (fnum N u.1, fnum N u.2)) ?_ ?_ ?_ ?_
  · intro u hu
    exact (hrad _ _).mp (Finset.mem_filter.mp hu).2
  · intro u hu u' hu' h
    simp only [Finset.mem_filter, Finset.mem_product, Finset.mem_range] at hu hu'
    simp only [Prod.mk.injEq] at h
    exact Prod.ext (fnum_inj hu.1.1 hu'.1.1 h.1) (fnum_inj hu.1.2 hu'.1.2 h.2)
  · intro p hp
    have hp' := hp
    rw [mem_inDisk hLl] at hp'
    have key : ∀ a b : ℤ, (a : ℝ) ^ 2 + (b : ℝ) ^ 2 < (N * r * l) ^ 2 → 2 * |a| < N := by
      intro a b h
      have h1 : |(a : ℝ)| < N * r * l := abs_lt_of_sq_lt_sq (by nlinarith [sq_nonneg (b : ℝ)]) hLl.le
      have : 2 * |(a : ℝ)| < N := by nlinarith
      exact_mod_cast this
    obtain ⟨i, hi, hi'⟩ := fnum_surj (key _ _ hp')
    obtain ⟨j, hj, hj'⟩ := fnum_surj (key p.2 p.1 (by linarith))
    refine ⟨(i, j), ?_, Prod.ext hi' hj'⟩
    simp only [Finset.mem_filter, Finset.mem_product, Finset.mem_range]
    refine ⟨⟨hi, hj⟩, (hrad i j).mpr ?_⟩
    rw [hi', hj']; exact hp
  · intro u _
    rw [freq_fnum, freq_fnum]

/-- The unaberrated amplitude does not depend on the pixel grid, up to the factor of the discrete transform. -/
theorem amplitude_fov {N : ℕ} {r l : ℝ} (k : ℝ) (hN : 0 < N) (hr : 0 < r) (hl : 0 < l) (hny : 2 * (l * r) < 1) (v : VecCorr) (cd : Condition) (z : ℝ) (c y x : ℕ) :
    amplitude N r k v cd (aperture N r l) z c y x = fovField (N * r) k l v cd c z (offset N r y) (offset N r x) / (N * N) := by
  rw [amplitude_eq_wave N r k hr.ne' hN, waveField, fovField]
  congr 1
  have := sum_aperture hN hr hl hny fun fy fx => (weightAt k fy fx v cd c : ℂ) *
    exp (2 * Real.pi * I * ((axialAt k fy fx * z + fy * offset N r y + fx * offset N r x : ℝ) : ℂ))
  rw [← this]
  refine Finset.sum_congr rfl fun i _ => Finset.sum_congr rfl fun j _ => ?_
  rw [mul_assoc]
  rfl

/-- C123: the unaberrated `PSFi` (pixel below the Abbe limit) holds the intensity of the field of view at the positions of the pixels, divided by `N^4`;
the intensity depends on the width `N r` of the field of view, not on the pixel size. -/
theorem C123_samples (s : HSpec) {w n i r : ℚ} {N : ℕ} {zs : List ℚ} {v : VecCorr} {cd : Condition}
    (hI : Ideal s w n i r N zs v cd) (b : Arr ℝ) (hb : s.PSFi = .ok b) (iz y x : ℕ) :
    b.get [iz, y, x] = fovIntensity ((N * r : ℚ) : ℝ) ((i / w : ℚ) : ℝ) ((n / w : ℚ) : ℝ) v cd ((zs.getD iz 0 : ℚ) : ℝ) (offset N r y) (offset N r x) / N ^ 4 := by
  obtain ⟨-, hN, hget⟩ := psfi_amplitude s hI.fits hI.optics b hb
  obtain ⟨h1, h2, h3⟩ := hI.real
  have hl : (0 : ℝ) < ((n / w : ℚ) : ℝ) := by exact_mod_cast div_pos hI.na hI.wl
  rw [hget, h3, fovIntensity, Finset.sum_div]
  refine Finset.sum_congr rfl fun c _ => ?_
  rw [amplitude_fov _ hN h1 hl h2, norm_div, div_pow, Rat.cast_mul, Rat.cast_natCast, norm_mul, Complex.norm_natCast]
  congr 1; ring

/-- C123: two unaberrated PSFs of the same instrument, field of view and planes, but with different pixel sizes, agree wherever their pixels coincide:
`N^4 PSFi` is the same number. -/
theorem C123_refine (s s' : HSpec) {w n i r r' : ℚ} {N N' : ℕ} {zs : List ℚ} {v : VecCorr} {cd : Condition}
    (hI : Ideal s w n i r N zs v cd) (hI' : Ideal s' w n i r' N' zs v cd) (hfov : N * r = N' * r') (b b' : Arr ℝ)
    (hb : s.PSFi = .ok b) (hb' : s'.PSFi = .ok b') (iz y x y' x' : ℕ)
    (hy : ((y : ℚ) - (N / 2 : ℕ)) * r = ((y' : ℚ) - (N' / 2 : ℕ)) * r') (hx : ((x : ℚ) - (N / 2 : ℕ)) * r = ((x' : ℚ) - (N' / 2 : ℕ)) * r') :
    N ^ 4 * b.get [iz, y, x] = N' ^ 4 * b'.get [iz, y', x'] := by
  have hN := (psfi_amplitude s hI.fits hI.optics b hb).2.1
  have hN' := (psfi_amplitude s' hI'.fits hI'.optics b' hb').2.1
  have e : ∀ y y' : ℕ, ((y : ℚ) - (N / 2 : ℕ)) * r = ((y' : ℚ) - (N' / 2 : ℕ)) * r' → offset N r y = offset N' r' y' := by
    intro y y' h
    unfold offset
    generalize N / 2 = a at *
    generalize N' / 2 = a' at *
    exact_mod_cast h
  have h1 : ((N : ℝ)) ≠ 0 := by exact_mod_cast hN.ne'
  have h2 : ((N' : ℝ)) ≠ 0 := by exact_mod_cast hN'.ne'
  rw [C123_samples s hI b hb, C123_samples s' hI' b' hb', hfov, e _ _ hy, e _ _ hx]
  field_simp

/-- C123: in particular for pixels `1 / t` as large and `t` times as many of them: pixel `N//2 + m` of the coarse image is pixel `t N // 2 + t m` of the fine one, relative to
the centre the two images show the same. -/
theorem C123_relative (s s' : HSpec) {w n i r : ℚ} {N t : ℕ} (ht : 0 < t) {zs : List ℚ} {v : VecCorr} {cd : Condition}
    (hI : Ideal s w n i r N zs v cd) (hI' : Ideal s' w n i (r / t) (t * N) zs v cd) (b b' : Arr ℝ)
    (hb : s.PSFi = .ok b) (hb' : s'.PSFi = .ok b') (iz y x y' x' : ℕ)
    (hy : (y' : ℤ) - (t * N / 2 : ℕ) = t * ((y : ℤ) - (N / 2 : ℕ))) (hx : (x' : ℤ) - (t * N / 2 : ℕ) = t * ((x : ℤ) - (N / 2 : ℕ))) :
    b.get [iz, y, x] = t ^ 4 * b'.get [iz, y', x'] := by
  have hN := (psfi_amplitude s hI.fits hI.optics b hb).2.1
  have ht' : (t : ℚ) ≠ 0 := by exact_mod_cast ht.ne'
  have e : ∀ y y' : ℕ, (y' : ℤ) - (t * N / 2 : ℕ) = t * ((y : ℤ) - (N / 2 : ℕ)) →
      ((y : ℚ) - (N / 2 : ℕ)) * r = ((y' : ℚ) - (t * N / 2 : ℕ)) * (r / t) := by
    intro y y' h
    generalize N / 2 = a at *
    generalize t * N / 2 = a' at *
    have : (y' : ℚ) - a' = t * ((y : ℚ) - a) := by exact_mod_cast h
    rw [this]; field_simp
  have := C123_refine s s' hI hI' (by push_cast; field_simp) b b' hb hb' iz y x y' x' (e y y' hy) (e x x' hx)
  have h1 : ((N : ℝ)) ≠ 0 := by exact_mod_cast hN.ne'
  push_cast at this
  have h2 : (N : ℝ) ^ 4 * b.get [iz, y, x] = N ^ 4 * (t ^ 4 * b'.get [iz, y', x']) := by rw [this]; ring
  exact mul_left_cancel₀ (pow_ne_zero 4 h1) h2

/-- The demo instrument with pixels a third as large, the same field of view and the same planes. -/
def fineArgs : InitArgs := { demoArgs with res := .float (.fin (130/3)), size := .int 192, zres := .int 130, zsize := .int 64 }

theorem fineArgs_good : NoSpecialArgs fineArgs ∧ GoodArgs fineArgs 520 (17/20) 1 (130/3) 130 192 64 := by
  refine ⟨by constructor <;> simp [fineArgs, demoArgs, NotSpecial], ?_⟩
  constructor <;> norm_num [fineArgs, demoArgs, Denotes, DenotesNat, PyVal.num?] <;> (intro h; cases h)

theorem demo_fine : ∃ (s : HSpec) (b : Arr ℝ),
    Ideal s 520 (17/20) 1 (130/3) 192 ((List.range 64).map (plane 64 130)) .none .sine ∧ s.PSFi = .ok b := by
  obtain ⟨o, ho⟩ := (C34_hanser_accepts fineArgs fineArgs_good.1 none).mpr ⟨_, _, _, _, _, _, _, fineArgs_good.2⟩
  obtain ⟨v, cd, h1, h2, h3⟩ := C76_constructed fineArgs o ho fineArgs_good.2
  cases h1; cases h2
  have hf : (⟨o.params, none⟩ : HSpec).Fits := fun P v h => by cases h
  obtain ⟨a, ha⟩ := (C76_computable ⟨o.params, none⟩ hf h3).mpr ⟨by norm_num, by norm_num, by norm_num, by norm_num⟩
  exact ⟨⟨o.params, none⟩, _, ⟨rfl, h3, by norm_num, by norm_num, by norm_num, by norm_num⟩, PSFi_of ha⟩

/-- Non-vacuity of C123: pixel (33, 30) of the demo PSF is pixel (99, 90) of the fine one, 81 times as bright. -/
example : ∃ (s s' : HSpec) (b b' : Arr ℝ), s.PSFi = .ok b ∧ s'.PSFi = .ok b' ∧ b.get [5, 33, 30] = 81 * b'.get [5, 99, 90] := by
  obtain ⟨s, b, hI, hb⟩ := demo_ideal
  obtain ⟨s', b', hI', hb'⟩ := demo_fine
  refine ⟨s, s', b, b', hb, hb', ?_⟩
  have := C123_relative s s' (t := 3) (by norm_num) hI (by exact_mod_cast hI') b b' hb hb' 5 33 30 99 90 (by norm_num) (by norm_num)
  rw [this]; norm_num

end PyOTF
