import Verif.Props.C123_Refine
import Verif.Props.C01_C04_Pad
import Verif.Spec.Sampling

/-!
# C129: sampling theorem - below the Nyquist limit a finer pixel grid only pads the transfer function with zeros
-/

namespace PyOTF

open Physics Complex

theorem W_sum_centred {N : ℕ} (hN : 0 < N) {e : ℤ} (he : |e| < N) :
    ∑ y ∈ Finset.range N, W N (((y : ℤ) - (N / 2 : ℕ)) * e) = if e = 0 then (N : ℂ) else 0 := by
  have h : ∀ y : ℕ, W N (((y : ℤ) - (N / 2 : ℕ)) * e) = W N (-((N / 2 : ℕ) * e)) * W N (e * y) := by
    intro y; rw [← W_add]; congr 1; ring
  simp only [h, ← Finset.mul_sum]
  rw [W_sum hN]
  by_cases h0 : e = 0
  · subst h0; simp [W_zero]
  · rw [if_neg h0, if_neg, mul_zero]
    exact fun hd => h0 (Int.eq_zero_of_abs_lt_dvd hd he)

/-- Complex amplitude of the wave number `p` of a field of view. -/
noncomputable def fovWave (L k : ℝ) (v : VecCorr) (cd : Condition) (c : ℕ) (z : ℝ) (p : ℤ × ℤ) : ℂ :=
  (weightAt k (p.1 / L) (p.2 / L) v cd c : ℂ) * exp (2 * Real.pi * I * ((axialAt k (p.1 / L) (p.2 / L) * z : ℝ) : ℂ))

/-- A wave of the field of view of width `L`. -/
noncomputable def carrier (L : ℝ) (d : ℤ × ℤ) (Y X : ℝ) : ℂ := exp (2 * Real.pi * I * ((d.1 * (Y / L) + d.2 * (X / L) : ℝ) : ℂ))

theorem fovField_eq (L k l : ℝ) (v : VecCorr) (cd : Condition) (c : ℕ) (z Y X : ℝ) :
    fovField L k l v cd c z Y X = ∑ p ∈ inDisk (L * l), fovWave L k v cd c z p * carrier L p Y X := by
  refine Finset.sum_congr rfl fun p _ => ?_
  rw [fovWave, carrier, mul_assoc (ofReal _), ← exp_add]
  congr 2
  push_cast; ring

theorem carrier_mul_conj (L : ℝ) (p q : ℤ × ℤ) (Y X : ℝ) :
    carrier L p Y X * (starRingEnd ℂ) (carrier L q Y X) = carrier L (p - q) Y X := by
  rw [carrier, carrier, carrier, ← exp_conj, ← exp_add]
  congr 1
  simp only [map_mul, conj_I, conj_ofReal, map_ofNat, Prod.fst_sub, Prod.snd_sub]
  push_cast; ring

theorem fovField_sq (L k l : ℝ) (v : VecCorr) (cd : Condition) (c : ℕ) (z Y X : ℝ) :
    ((‖fovField L k l v cd c z Y X‖ ^ 2 : ℝ) : ℂ) = ∑ p ∈ inDisk (L * l), ∑ q ∈ inDisk (L * l),
      fovWave L k v cd c z p * (starRingEnd ℂ) (fovWave L k v cd c z q) * carrier L (p - q) Y X := by
  rw [← normSq_eq_norm_sq, ← mul_conj, fovField_eq, map_sum, Finset.sum_mul_sum]
  refine Finset.sum_congr rfl fun p _ => Finset.sum_congr rfl fun q _ => ?_
  rw [map_mul, ← carrier_mul_conj]
  ring

theorem diff_bound {N : ℕ} {r l : ℝ} (hN : 0 < N) (hr : 0 < r) (hl : 0 < l) (hny : 4 * (l * r) < 1) {p q : ℤ × ℤ}
    (hp : p ∈ inDisk (N * r * l)) (hq : q ∈ inDisk (N * r * l)) : 2 * |(p - q).1| < N ∧ 2 * |(p - q).2| < N := by
  have hN' : (0 : ℝ) < N := by exact_mod_cast hN
  have hLl : 0 < N * r * l := by positivity
  rw [mem_inDisk hLl] at hp hq
  have key : ∀ a b : ℤ, (a : ℝ) ^ 2 + (b : ℝ) ^ 2 < (N * r * l) ^ 2 → |(a : ℝ)| < N / 4 := by
    intro a b h
    have h1 : |(a : ℝ)| < N * r * l := abs_lt_of_sq_lt_sq (by nlinarith [sq_nonneg (b : ℝ)]) hLl.le
    nlinarith
  have fin : ∀ a b : ℤ, |(a : ℝ)| < N / 4 → |(b : ℝ)| < N / 4 → 2 * |a - b| < N := by
    intro a b ha hb
    have := abs_sub (a : ℝ) b
    have h : 2 * |(a : ℝ) - b| < N := by linarith
    exact_mod_cast h
  exact ⟨fin _ _ (key _ _ hp) (key _ _ hq), fin _ _ (key p.2 p.1 (by linarith)) (key q.2 q.1 (by linarith))⟩

theorem carrier_offset {N : ℕ} {r : ℝ} (hN : 0 < N) (hr : 0 < r) (d : ℤ × ℤ) (y x : ℕ) :
    carrier (N * r) d (offset N r y) (offset N r x) = W N (((y : ℤ) - (N / 2 : ℕ)) * d.1) * W N (((x : ℤ) - (N / 2 : ℕ)) * d.2) := by
  have hN' : (N : ℝ) ≠ 0 := by exact_mod_cast hN.ne'
  rw [← W_add, carrier, W, mul_div_assoc]
  congr 2
  have e : d.1 * (offset N r y / (N * r)) + d.2 * (offset N r x / (N * r)) =
      (((((y : ℤ) - (N / 2 : ℕ)) * d.1 + ((x : ℤ) - (N / 2 : ℕ)) * d.2 : ℤ) : ℝ) / N) := by
    unfold offset
    generalize N / 2 = a
    push_cast
    field_simp
  rw [e]
  push_cast; rfl

/-- Autocorrelation at `m` of the waves of a field of view, summed over the components. -/
noncomputable def fovCorrelation (L k l : ℝ) (v : VecCorr) (cd : Condition) (z : ℝ) (m : ℤ × ℤ) : ℂ :=
  ∑ c ∈ Finset.range (components v), ∑ p ∈ inDisk (L * l), ∑ q ∈ inDisk (L * l),
    if p - q = m then fovWave L k v cd c z p * (starRingEnd ℂ) (fovWave L k v cd c z q) else 0

theorem fov_spectrum {N : ℕ} {r l : ℝ} (k : ℝ) (hN : 0 < N) (hr : 0 < r) (hl : 0 < l) (hny : 4 * (l * r) < 1) (v : VecCorr) (cd : Condition) (z : ℝ)
    (m : ℤ × ℤ) (h1 : 2 * |m.1| ≤ N) (h2 : 2 * |m.2| ≤ N) :
    ∑ y ∈ Finset.range N, ∑ x ∈ Finset.range N, ((fovIntensity (N * r) k l v cd z (offset N r y) (offset N r x) : ℝ) : ℂ) *
      (W N (-(((y : ℤ) - (N / 2 : ℕ)) * m.1)) * W N (-(((x : ℤ) - (N / 2 : ℕ)) * m.2))) = N ^ 2 * fovCorrelation (N * r) k l v cd z m := by
  have e : ∀ y x : ℕ, ((fovIntensity (N * r) k l v cd z (offset N r y) (offset N r x) : ℝ) : ℂ) *
      (W N (-(((y : ℤ) - (N / 2 : ℕ)) * m.1)) * W N (-(((x : ℤ) - (N / 2 : ℕ)) * m.2))) =
      ∑ c ∈ Finset.range (components v), ∑ p ∈ inDisk (N * r * l), ∑ q ∈ inDisk (N * r * l),
        fovWave (N * r) k v cd c z p * (starRingEnd ℂ) (fovWave (N * r) k v cd c z q) *
        (W N (((y : ℤ) - (N / 2 : ℕ)) * ((p - q).1 - m.1)) * W N (((x : ℤ) - (N / 2 : ℕ)) * ((p - q).2 - m.2))) := by
    intro y x
    rw [fovIntensity, ofReal_sum, Finset.sum_mul]
    refine Finset.sum_congr rfl fun c _ => ?_
    rw [fovField_sq, Finset.sum_mul]
    refine Finset.sum_congr rfl fun p _ => ?_
    rw [Finset.sum_mul]
    refine Finset.sum_congr rfl fun q _ => ?_
    rw [carrier_offset hN hr]
    rw [show ((y : ℤ) - (N / 2 : ℕ)) * ((p - q).1 - m.1) = ((y : ℤ) - (N / 2 : ℕ)) * (p - q).1 + -(((y : ℤ) - (N / 2 : ℕ)) * m.1) by ring,
      show ((x : ℤ) - (N / 2 : ℕ)) * ((p - q).2 - m.2) = ((x : ℤ) - (N / 2 : ℕ)) * (p - q).2 + -(((x : ℤ) - (N / 2 : ℕ)) * m.2) by ring, W_add, W_add]
    ring
  simp only [e]
  have sw : ∀ {ι : Type} (S : Finset ι) (f : ℕ → ℕ → ι → ℂ), ∑ y ∈ Finset.range N, ∑ x ∈ Finset.range N, ∑ c ∈ S, f y x c =
      ∑ c ∈ S, ∑ y ∈ Finset.range N, ∑ x ∈ Finset.range N, f y x c := by
    intro ι S f
    rw [← Finset.sum_product', Finset.sum_comm]
    exact Finset.sum_congr rfl fun c _ => by rw [← Finset.sum_product']
  rw [sw, fovCorrelation, Finset.mul_sum]
  refine Finset.sum_congr rfl fun c _ => ?_
  rw [sw, Finset.mul_sum]
  refine Finset.sum_congr rfl fun p hp => ?_
  rw [sw, Finset.mul_sum]
  refine Finset.sum_congr rfl fun q hq => ?_
  obtain ⟨b1, b2⟩ := diff_bound hN hr hl hny hp hq
  simp only [← Finset.mul_sum, ← Finset.sum_mul]
  rw [W_sum_centred hN (e := (p - q).1 - m.1) (by have := abs_sub (p - q).1 m.1; omega),
    W_sum_centred hN (e := (p - q).2 - m.2) (by have := abs_sub (p - q).2 m.2; omega)]
  by_cases hm : p - q = m
  · rw [if_pos hm, hm]; simp; ring
  · rw [if_neg hm, mul_zero]
    by_cases h : (p - q).1 - m.1 = 0
    · have : ¬ (p - q).2 - m.2 = 0 := fun h' => hm (Prod.ext (by omega) (by omega))
      rw [if_neg this]; ring
    · rw [if_neg h]; ring

/-- Below the Nyquist limit a plane of `PSFi` has the autocorrelation of the waves as its spectrum. -/
theorem otfi_fov (s : HSpec) {w n i r : ℚ} {N : ℕ} {zs : List ℚ} {v : VecCorr} {cd : Condition}
    (hI : Ideal s w n i r N zs v cd) (hny : r < w / (4 * n)) (t : Arr ℂ) (ht : s.OTFi = .ok t) (kz p q : ℕ) (hk : kz < zs.length) (hp : p < N) (hq : q < N) :
    (N : ℂ) ^ 2 * t.get [kz, p, q] = ∑ z ∈ Finset.range zs.length,
      fovCorrelation ((N * r : ℚ) : ℝ) ((i / w : ℚ) : ℝ) ((n / w : ℚ) : ℝ) v cd ((zs.getD z 0 : ℚ) : ℝ) ((p : ℤ) - (N / 2 : ℕ), (q : ℤ) - (N / 2 : ℕ)) *
      W zs.length (-(((z : ℤ) - (zs.length / 2 : ℕ)) * ((kz : ℤ) - (zs.length / 2 : ℕ)))) := by
  unfold HSpec.OTFi at ht
  obtain ⟨b, hb, ht⟩ := py_bind_ok ht
  unfold otfiOf at ht
  obtain ⟨_, hc, ht⟩ := py_bind_ok ht
  rw [← py_pure_ok ht]
  obtain ⟨hs, hN, -⟩ := psfi_amplitude s hI.fits hI.optics b hb
  obtain ⟨h1, h2, h3⟩ := hI.real
  have hl : (0 : ℝ) < ((n / w : ℚ) : ℝ) := by exact_mod_cast div_pos hI.na hI.wl
  have hny' : 4 * (((n / w : ℚ) : ℝ) * r) < 1 := by
    have : 4 * (n / w * r) < 1 := by
      have hn := hI.na
      have hw := hI.wl
      rw [lt_div_iff₀ (by positivity)] at hny
      have : n / w * r = (r * n) / w := by ring
      rw [this, ← mul_div_assoc, div_lt_one hw]
      linarith
    exact_mod_cast this
  have hN' : (N : ℂ) ≠ 0 := by exact_mod_cast hN.ne'
  rw [easyFft3_get (b.map fun (v : ℝ) => (v : ℂ)) zs.length N N hs kz p q hk hp hq, Finset.mul_sum]
  refine Finset.sum_congr rfl fun z _ => ?_
  have key := fov_spectrum (N := N) ((i / w : ℚ) : ℝ) hN h1 hl hny' v cd ((zs.getD z 0 : ℚ) : ℝ) ((p : ℤ) - (N / 2 : ℕ), (q : ℤ) - (N / 2 : ℕ))
    (by have : |(p : ℤ) - (N / 2 : ℕ)| ≤ (N / 2 : ℕ) := by rw [abs_le]; constructor <;> omega
        simp only; omega)
    (by have : |(q : ℤ) - (N / 2 : ℕ)| ≤ (N / 2 : ℕ) := by rw [abs_le]; constructor <;> omega
        simp only; omega)
  have e : ((N * r : ℚ) : ℝ) = N * (r : ℝ) := by push_cast; rfl
  rw [e]
  have key' : fovCorrelation (N * (r : ℝ)) ((i / w : ℚ) : ℝ) ((n / w : ℚ) : ℝ) v cd ((zs.getD z 0 : ℚ) : ℝ) ((p : ℤ) - (N / 2 : ℕ), (q : ℤ) - (N / 2 : ℕ)) =
      (∑ y ∈ Finset.range N, ∑ x ∈ Finset.range N, ((fovIntensity (N * r) ((i / w : ℚ) : ℝ) ((n / w : ℚ) : ℝ) v cd ((zs.getD z 0 : ℚ) : ℝ) (offset N r y) (offset N r x) : ℝ) : ℂ) *
      (W N (-(((y : ℤ) - (N / 2 : ℕ)) * ((p : ℤ) - (N / 2 : ℕ)))) * W N (-(((x : ℤ) - (N / 2 : ℕ)) * ((q : ℤ) - (N / 2 : ℕ)))))) / N ^ 2 := by
    rw [key]; field_simp
  rw [key', Finset.mul_sum, Finset.sum_div, Finset.sum_mul]
  refine Finset.sum_congr rfl fun y _ => ?_
  rw [Finset.mul_sum, Finset.sum_div, Finset.sum_mul]
  refine Finset.sum_congr rfl fun x _ => ?_
  simp only [Arr.map]
  rw [C123_samples s hI b hb, e]
  push_cast
  field_simp

/-- C129: two unaberrated models of the same instrument, field of view and planes, with different pixels, all below the Nyquist limit `wl / (4 na)`:
`N^2 OTFi` is the same at every frequency both hold, so the finer one only has more frequencies. -/
theorem C129_same (s s' : HSpec) {w n i r r' : ℚ} {N N' : ℕ} {zs : List ℚ} {v : VecCorr} {cd : Condition}
    (hI : Ideal s w n i r N zs v cd) (hI' : Ideal s' w n i r' N' zs v cd) (hfov : N * r = N' * r') (hny : r < w / (4 * n)) (hny' : r' < w / (4 * n))
    (t t' : Arr ℂ) (ht : s.OTFi = .ok t) (ht' : s'.OTFi = .ok t') (kz p q p' q' : ℕ) (hk : kz < zs.length) (hp : p < N) (hq : q < N) (hp' : p' < N') (hq' : q' < N')
    (hpp : (p : ℤ) - (N / 2 : ℕ) = p' - (N' / 2 : ℕ)) (hqq : (q : ℤ) - (N / 2 : ℕ) = q' - (N' / 2 : ℕ)) :
    (N : ℂ) ^ 2 * t.get [kz, p, q] = N' ^ 2 * t'.get [kz, p', q'] := by
  rw [otfi_fov s hI hny t ht kz p q hk hp hq, otfi_fov s' hI' hny' t' ht' kz p' q' hk hp' hq', hpp, hqq, hfov]

theorem OTFi_shape (s : HSpec) {w n i r : ℚ} {N : ℕ} {zs : List ℚ} {v : VecCorr} {cd : Condition}
    (hI : Ideal s w n i r N zs v cd) (t : Arr ℂ) (ht : s.OTFi = .ok t) : t.shape = [zs.length, N, N] ∧ 0 < N := by
  unfold HSpec.OTFi at ht
  obtain ⟨b, hb, ht⟩ := py_bind_ok ht
  unfold otfiOf at ht
  obtain ⟨_, hc, ht⟩ := py_bind_ok ht
  rw [← py_pure_ok ht, easyFft_shape]
  obtain ⟨hs, hN, -⟩ := psfi_amplitude s hI.fits hI.optics b hb
  exact ⟨hs, hN⟩

/-- C129: the frequencies only the finer model has are empty. -/
theorem C129_empty (s s' : HSpec) {w n i r r' : ℚ} {N N' : ℕ} {zs : List ℚ} {v : VecCorr} {cd : Condition}
    (hI : Ideal s w n i r N zs v cd) (hI' : Ideal s' w n i r' N' zs v cd) (hfov : N * r = N' * r') (hny : r < w / (4 * n)) (hny' : r' < w / (4 * n))
    (t t' : Arr ℂ) (ht : s.OTFi = .ok t) (ht' : s'.OTFi = .ok t') (kz p' q' : ℕ) (hk : kz < zs.length) (hp' : p' < N') (hq' : q' < N')
    (h : ¬ ∃ p < N, ∃ q < N, (p : ℤ) - (N / 2 : ℕ) = p' - (N' / 2 : ℕ) ∧ (q : ℤ) - (N / 2 : ℕ) = q' - (N' / 2 : ℕ)) :
    t'.get [kz, p', q'] = 0 := by
  obtain ⟨-, hN⟩ := OTFi_shape s hI t ht
  obtain ⟨-, hN'⟩ := OTFi_shape s' hI' t' ht'
  have hw := hI.wl
  have hn := hI.na
  have hr := hI.res
  refine C45_otfi s' hI'.fits hI'.optics t' ht' hI'.wl hI'.res hI'.na hny' (fun a _ c _ h => ideal_masked _ hI'.pupil _ _ _ _ _ h) kz p' q' hk hp' hq' ?_
  have hNr : (0 : ℚ) < N := by exact_mod_cast hN
  have hlr : ((n / w : ℚ) : ℝ) * (4 * r) < 1 := by
    have : n / w * (4 * r) < 1 := by
      rw [lt_div_iff₀ (by positivity)] at hny
      have : n / w * (4 * r) = (r * (4 * n)) / w := by ring
      rw [this, div_lt_one hw]; linarith
    exact_mod_cast this
  have hr' : (0 : ℝ) < r := by exact_mod_cast hr
  have hNr' : (0 : ℝ) < N := by exact_mod_cast hN
  have hf : (N' : ℝ) * (r' : ℝ) = N * r := by exact_mod_cast hfov.symm
  rw [hf]
  have key : ∀ m : ℤ, ¬ (∃ p < N, (p : ℤ) - (N / 2 : ℕ) = m) → 2 * ((n / w : ℚ) : ℝ) ≤ |(m : ℝ) / (N * r)| := by
    intro m hm
    have h2 : (N : ℤ) ≤ 2 * |m| := by
      by_contra hlt
      refine hm ⟨(m + (N / 2 : ℕ)).toNat, ?_, ?_⟩
      · have := abs_lt.mp (show |m| < N - |m| by omega)
        rcases abs_cases m with h | h <;> omega
      · rcases abs_cases m with h | h <;> omega
    have h3 : (N : ℝ) ≤ 2 * |(m : ℝ)| := by exact_mod_cast h2
    rw [abs_div, abs_of_pos (show 0 < N * (r : ℝ) by positivity), le_div_iff₀ (by positivity)]
    nlinarith
  have split : (¬ ∃ p < N, (p : ℤ) - (N / 2 : ℕ) = (p' : ℤ) - (N' / 2 : ℕ)) ∨ (¬ ∃ q < N, (q : ℤ) - (N / 2 : ℕ) = (q' : ℤ) - (N' / 2 : ℕ)) := by
    by_contra hc
    push Not at hc
    obtain ⟨⟨p, hp, e1⟩, q, hq, e2⟩ := hc
    exact h ⟨p, hp, q, hq, e1, e2⟩
  refine Real.le_sqrt_of_sq_le ?_
  rcases split with h1 | h1
  · have := key _ h1
    rw [Int.cast_sub, Int.cast_natCast, Int.cast_natCast] at this
    have h0 : 0 ≤ 2 * ((n / w : ℚ) : ℝ) := by
      have : (0 : ℝ) < ((n / w : ℚ) : ℝ) := by exact_mod_cast div_pos hn hw
      linarith
    have := pow_le_pow_left₀ h0 this 2
    rw [sq_abs] at this
    nlinarith [sq_nonneg (((q' : ℝ) - (N' / 2 : ℕ)) / (N * r))]
  · have := key _ h1
    rw [Int.cast_sub, Int.cast_natCast, Int.cast_natCast] at this
    have h0 : 0 ≤ 2 * ((n / w : ℚ) : ℝ) := by
      have : (0 : ℝ) < ((n / w : ℚ) : ℝ) := by exact_mod_cast div_pos hn hw
      linarith
    have := pow_le_pow_left₀ h0 this 2
    rw [sq_abs] at this
    nlinarith [sq_nonneg (((p' : ℝ) - (N' / 2 : ℕ)) / (N * r))]

/-- C129: for sizes of the same parity, `fft_pad` of the coarse `OTFi` to the size of the fine one is the fine `OTFi`, times `(N' / N)^2`. -/
theorem C129_fft_pad (nf : ℕ → ℕ) (s s' : HSpec) {w n i r r' : ℚ} {N N' : ℕ} {zs : List ℚ} {v : VecCorr} {cd : Condition}
    (hI : Ideal s w n i r N zs v cd) (hI' : Ideal s' w n i r' N' zs v cd) (hfov : N * r = N' * r') (hny : r < w / (4 * n)) (hny' : r' < w / (4 * n))
    (hpar : N % 2 = N' % 2) (t t' : Arr ℂ) (ht : s.OTFi = .ok t) (ht' : s'.OTFi = .ok t') :
    ∃ u, fftPad nf t (.seq [some zs.length, some N', some N']) .constant = .ok u ∧ u.shape = t'.shape ∧
      ∀ kz < zs.length, ∀ p < N', ∀ q < N', u.get [kz, p, q] = ((N' : ℂ) / N) ^ 2 * t'.get [kz, p, q] := by
  obtain ⟨hs, hN⟩ := OTFi_shape s hI t ht
  obtain ⟨hs', hN'⟩ := OTFi_shape s' hI' t' ht'
  have hrank : t.shape ≠ [] := by rw [hs]; simp
  have hlen : [some zs.length, some N', some N'].length = t.shape.length := by rw [hs]; rfl
  obtain ⟨u, hu, hsu⟩ := C01_fft_pad_shape nf t [some zs.length, some N', some N'] .constant hrank hlen (.inl rfl)
  have hsu' : u.shape = [zs.length, N', N'] := by rw [hsu, hs]; rfl
  refine ⟨u, hu, by rw [hsu', hs'], fun kz hk p hp q hq => ?_⟩
  have hNc : (N : ℂ) ≠ 0 := by exact_mod_cast hN.ne'
  have hin : InShape [kz, p, q] u.shape := by rw [hsu']; exact .cons hk (.cons hp (.cons hq .nil))
  by_cases h : ∃ p0 < N, ∃ q0 < N, (p0 : ℤ) - (N / 2 : ℕ) = p - (N' / 2 : ℕ) ∧ (q0 : ℤ) - (N / 2 : ℕ) = q - (N' / 2 : ℕ)
  · obtain ⟨p0, hp0, q0, hq0, e1, e2⟩ := h
    rw [C02_fft_pad_aligned nf t u _ .constant hrank hlen (.inl rfl) hu [kz, p, q] [kz, p0, q0] hin
      (by rw [hs]; exact .cons hk (.cons hp0 (.cons hq0 .nil))) (by
        rw [hs, hsu']
        exact ⟨by omega, by omega, by omega, trivial⟩)]
    have := C129_same s s' hI hI' hfov hny hny' t t' ht ht' kz p0 q0 p q hk hp0 hq0 hp hq e1 e2
    field_simp
    rw [mul_comm, this]
  · rw [C129_empty s s' hI hI' hfov hny hny' t t' ht ht' kz p q hk hp hq h, mul_zero]
    refine C02_fft_pad_zero_elsewhere nf t u _ hrank hlen hu [kz, p, q] hin ?_
    rw [hs, hsu']
    intro j hj hal
    cases hj with
    | @cons a _ js _ ha hjs =>
    cases hjs with
    | @cons b _ js _ hb hjs =>
    cases hjs with
    | @cons c _ js _ hc hjs =>
    cases hjs
    obtain ⟨-, h1, h2, -⟩ := hal
    exact h ⟨b, hb, c, hc, by omega, by omega⟩

/-! ## Interpolation -/

theorem sum_exp_symm (h : ℕ) (u : ℝ) : ∑ m ∈ Finset.Icc (-(h : ℤ)) h, exp (2 * Real.pi * I * ((m * u : ℝ) : ℂ)) =
    ((∑ m ∈ Finset.Icc (-(h : ℤ)) h, Real.cos (2 * Real.pi * m * u) : ℝ) : ℂ) := by
  have e : ∀ m : ℤ, exp (2 * Real.pi * I * ((m * u : ℝ) : ℂ)) = ((Real.cos (2 * Real.pi * m * u) : ℝ) : ℂ) + ((Real.sin (2 * Real.pi * m * u) : ℝ) : ℂ) * I := by
    intro m
    rw [ofReal_cos, ofReal_sin, ← exp_mul_I]
    congr 1
    push_cast; ring
  simp only [e, Finset.sum_add_distrib, ← Finset.sum_mul, ofReal_sum]
  have : ∑ m ∈ Finset.Icc (-(h : ℤ)) h, Real.sin (2 * Real.pi * m * u) = 0 := by
    have h1 : ∑ m ∈ Finset.Icc (-(h : ℤ)) h, Real.sin (2 * Real.pi * m * u) = ∑ m ∈ Finset.Icc (-(h : ℤ)) h, -Real.sin (2 * Real.pi * m * u) := by
      refine Finset.sum_bij (fun m _ => -m) ?_ ?_ ?_ ?_
      · intro m hm; rw [Finset.mem_Icc] at hm ⊢; omega
      · intro a _ b _ h; simpa using h
      · intro b hb; exact ⟨-b, by rw [Finset.mem_Icc] at hb ⊢; omega, by simp⟩
      · intro m _
        rw [← Real.sin_neg]; congr 1; push_cast; ring
    rw [Finset.sum_neg_distrib] at h1
    linarith
  rw [← ofReal_sum (f := fun m : ℤ => Real.sin (2 * Real.pi * m * u)), this]
  simp

/-- One wave of less than `N / 2` oscillations is interpolated from its samples. -/
theorem interpolate_wave {N : ℕ} (hN : 0 < N) {d : ℤ} (hd : 2 * |d| < N) (u : ℝ) :
    ∑ y ∈ Finset.range N, W N (((y : ℤ) - (N / 2 : ℕ)) * d) * (dirichlet N (u - ((y : ℝ) - (N / 2 : ℕ)) / N) : ℂ) = exp (2 * Real.pi * I * ((d * u : ℝ) : ℂ)) := by
  have hNc : (N : ℂ) ≠ 0 := by exact_mod_cast hN.ne'
  have hNr : (N : ℝ) ≠ 0 := by exact_mod_cast hN.ne'
  have e : ∀ y : ℕ, W N (((y : ℤ) - (N / 2 : ℕ)) * d) * (dirichlet N (u - ((y : ℝ) - (N / 2 : ℕ)) / N) : ℂ) =
      ∑ m ∈ Finset.Icc (-(((N - 1) / 2 : ℕ) : ℤ)) ((N - 1) / 2 : ℕ), exp (2 * Real.pi * I * ((m * u : ℝ) : ℂ)) / N * W N (((y : ℤ) - (N / 2 : ℕ)) * (d - m)) := by
    intro y
    rw [dirichlet, ofReal_div, ← sum_exp_symm, Finset.sum_div, Finset.mul_sum, ofReal_natCast]
    refine Finset.sum_congr rfl fun m _ => ?_
    rw [W, W, ← mul_div_assoc, div_mul_eq_mul_div, ← exp_add, ← exp_add]
    congr 2
    generalize N / 2 = a
    push_cast
    field_simp
    ring
  simp only [e]
  rw [Finset.sum_comm]
  simp only [← Finset.mul_sum]
  rw [Finset.sum_eq_single d]
  · rw [W_sum_centred hN (e := d - d) (by simpa using hN), if_pos (by ring)]
    field_simp
  · intro m hm hne
    rw [Finset.mem_Icc] at hm
    rw [W_sum_centred hN (e := d - m) (by rcases abs_cases d with h | h <;> rw [abs_lt] <;> constructor <;> omega), if_neg (by omega), mul_zero]
  · intro hd'
    exact absurd (Finset.mem_Icc.mpr (by rcases abs_cases d with h | h <;> omega)) hd'

/-- C129: the intensity of the field of view at every position - between the pixels too - follows from the pixels, if they are below the Nyquist limit. -/
theorem C129_interpolation (s : HSpec) {w n i r : ℚ} {N : ℕ} {zs : List ℚ} {v : VecCorr} {cd : Condition}
    (hI : Ideal s w n i r N zs v cd) (hny : r < w / (4 * n)) (b : Arr ℝ) (hb : s.PSFi = .ok b) (iz : ℕ) (Y X : ℝ) :
    fovIntensity ((N * r : ℚ) : ℝ) ((i / w : ℚ) : ℝ) ((n / w : ℚ) : ℝ) v cd ((zs.getD iz 0 : ℚ) : ℝ) Y X / N ^ 4 =
    ∑ y ∈ Finset.range N, ∑ x ∈ Finset.range N, b.get [iz, y, x] *
      (dirichlet N ((Y - offset N r y) / (N * r)) * dirichlet N ((X - offset N r x) / (N * r))) := by
  obtain ⟨hs, hN, -⟩ := psfi_amplitude s hI.fits hI.optics b hb
  obtain ⟨h1, h2, h3⟩ := hI.real
  have hl : (0 : ℝ) < ((n / w : ℚ) : ℝ) := by exact_mod_cast div_pos hI.na hI.wl
  have hny' : 4 * (((n / w : ℚ) : ℝ) * r) < 1 := by
    have : 4 * (n / w * r) < 1 := by
      have hn := hI.na
      have hw := hI.wl
      rw [lt_div_iff₀ (by positivity)] at hny
      have : n / w * r = (r * n) / w := by ring
      rw [this, ← mul_div_assoc, div_lt_one hw]
      linarith
    exact_mod_cast this
  have hNr : (N : ℝ) ≠ 0 := by exact_mod_cast hN.ne'
  have el : ((N * r : ℚ) : ℝ) = N * (r : ℝ) := by push_cast; rfl
  simp only [C123_samples s hI b hb, el, div_mul_eq_mul_div, ← Finset.sum_div]
  congr 1
  apply ofReal_injective
  simp only [fovIntensity, ofReal_sum, ofReal_mul, Finset.sum_mul]
  have sw : ∀ {ι : Type} (S : Finset ι) (f : ℕ → ℕ → ι → ℂ), ∑ y ∈ Finset.range N, ∑ x ∈ Finset.range N, ∑ c ∈ S, f y x c =
      ∑ c ∈ S, ∑ y ∈ Finset.range N, ∑ x ∈ Finset.range N, f y x c := by
    intro ι S f
    rw [← Finset.sum_product', Finset.sum_comm]
    exact Finset.sum_congr rfl fun c _ => by rw [← Finset.sum_product']
  rw [sw]
  refine Finset.sum_congr rfl fun c _ => ?_
  simp only [fovField_sq, Finset.sum_mul]
  rw [sw]
  refine Finset.sum_congr rfl fun p hp => ?_
  rw [sw]
  refine Finset.sum_congr rfl fun q hq => ?_
  obtain ⟨b1, b2⟩ := diff_bound hN h1 hl hny' hp hq
  simp only [mul_assoc, ← Finset.mul_sum]
  congr 2
  have c1 : carrier (N * r) (p - q) Y X = exp (2 * Real.pi * I * (((p - q).1 * (Y / (N * r)) : ℝ) : ℂ)) * exp (2 * Real.pi * I * (((p - q).2 * (X / (N * r)) : ℝ) : ℂ)) := by
    rw [carrier, ← exp_add]; congr 1; push_cast; ring
  rw [c1, ← interpolate_wave hN b1, ← interpolate_wave hN b2, Finset.sum_mul_sum]
  refine Finset.sum_congr rfl fun y _ => Finset.sum_congr rfl fun x _ => ?_
  have ou : ∀ (Y : ℝ) (y : ℕ), (Y - offset N r y) / (N * r) = Y / (N * r) - ((y : ℝ) - (N / 2 : ℕ)) / N := by
    intro Y y
    unfold offset
    generalize N / 2 = a
    field_simp
  rw [carrier_offset hN h1, ou, ou]
  ring

/-- C129: so the pixels of any other grid over the same field of view - a finer one, say - follow from the pixels of one below the Nyquist limit. -/
theorem C129_resample (s s' : HSpec) {w n i r r' : ℚ} {N N' : ℕ} {zs : List ℚ} {v : VecCorr} {cd : Condition}
    (hI : Ideal s w n i r N zs v cd) (hI' : Ideal s' w n i r' N' zs v cd) (hfov : N * r = N' * r') (hny : r < w / (4 * n))
    (b b' : Arr ℝ) (hb : s.PSFi = .ok b) (hb' : s'.PSFi = .ok b') (iz y' x' : ℕ) :
    (N' : ℝ) ^ 4 * b'.get [iz, y', x'] = (N : ℝ) ^ 4 * ∑ y ∈ Finset.range N, ∑ x ∈ Finset.range N, b.get [iz, y, x] *
      (dirichlet N ((offset N' r' y' - offset N r y) / (N * r)) * dirichlet N ((offset N' r' x' - offset N r x) / (N * r))) := by
  have hN := (psfi_amplitude s hI.fits hI.optics b hb).2.1
  have hN' := (psfi_amplitude s' hI'.fits hI'.optics b' hb').2.1
  have h1 : ((N : ℝ)) ≠ 0 := by exact_mod_cast hN.ne'
  have h2 : ((N' : ℝ)) ≠ 0 := by exact_mod_cast hN'.ne'
  rw [← C129_interpolation s hI hny b hb, C123_samples s' hI' b' hb', hfov]
  field_simp

/-- Non-vacuity: the demo OTF (64 pixels of 130) padded to 192 pixels is the OTF with pixels a third as large, 9 times as high; the frequency (35, 28) off
the centre is in both, and is 9 times as high in the coarse one. -/
example (nf : ℕ → ℕ) : ∃ (s s' : HSpec) (t t' u : Arr ℂ), s.OTFi = .ok t ∧ s'.OTFi = .ok t' ∧
    fftPad nf t (.seq [some 64, some 192, some 192]) .constant = .ok u ∧ (∀ kz < 64, ∀ p < 192, ∀ q < 192, u.get [kz, p, q] = 9 * t'.get [kz, p, q]) ∧
    t.get [20, 35, 28] = 9 * t'.get [20, 99, 92] ∧ t'.get [20, 30, 99] = 0 := by
  obtain ⟨s, b, hI, hb⟩ := demo_ideal
  obtain ⟨s', b', hI', hb'⟩ := demo_fine
  obtain ⟨t, ht⟩ := (C44_computable _ _ hb).mpr (by rw [(psfi_amplitude s hI.fits hI.optics b hb).1]; simp)
  obtain ⟨t', ht'⟩ := (C44_computable _ _ hb').mpr (by rw [(psfi_amplitude s' hI'.fits hI'.optics b' hb').1]; simp)
  have hl : ((List.range 64).map (plane 64 130)).length = 64 := by simp
  obtain ⟨u, hu, -, h⟩ := C129_fft_pad nf s s' hI hI' (by norm_num) (by norm_num) (by norm_num) (by norm_num) t t' ht ht'
  rw [hl] at hu h
  refine ⟨s, s', t, t', u, ht, ht', hu, fun kz hk p hp q hq => ?_, ?_, ?_⟩
  · rw [h kz hk p hp q hq]; norm_num
  · have := C129_same s s' hI hI' (by norm_num) (by norm_num) (by norm_num) t t' ht ht' 20 35 28 99 92 (by rw [hl]; norm_num) (by norm_num) (by norm_num)
      (by norm_num) (by norm_num) (by norm_num) (by norm_num)
    norm_num at this
    linear_combination this / 4096
  · refine C129_empty s s' hI hI' (by norm_num) (by norm_num) (by norm_num) t t' ht ht' 20 30 99 (by rw [hl]; norm_num) (by norm_num) (by norm_num) ?_
    rintro ⟨p, hp, q, hq, e1, e2⟩
    omega

end PyOTF
