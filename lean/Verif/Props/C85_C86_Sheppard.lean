import Verif.Lemmas.CentredSym
import Verif.Props.C84_Pair

/-!
# C85, C86: the intensity PSF of a `SheppardPSF`: position, energy and symmetry
-/

namespace PyOTF

open Complex Physics

open Classical in
/-- Amplitude of the wave of sample `(iz, iy, ix)` of the pupil of Sheppard's model. -/
noncomputable def Physics.capField (N nz : ℕ) (r z K L : ℝ) (v : VecCorr) (cd : Condition) (dual : Bool) (c iz iy ix : ℕ) : ℝ :=
  if at3 N nz r z (OnCap K L (1 / (nz * z)) (1 / (N * r)) dual) iz iy ix then at3 N nz r z (capAmplitude v cd c) iz iy ix else 0

/-- Intensity at a point of an array with its origin at index `n // 2`: the summed squared moduli of the waves of all components. -/
noncomputable def Physics.capIntensity (N nz : ℕ) (r z K L : ℝ) (v : VecCorr) (cd : Condition) (dual : Bool) (iz iy ix : ℕ) : ℝ :=
  ∑ c ∈ Finset.range (components v), ‖centredInverse (fun a p q => (capField N nz r z K L v cd dual c a p q : ℂ)) nz N N iz iy ix‖ ^ 2

theorem capField_value {p : Params} {w n i r z : ℚ} {N nz : ℕ} {v : VecCorr} {cd : Condition} {dual : Bool}
    (ho : SOptics p w n i r z N nz v cd dual) (hd : dual = false ∨ v = .none) (hN : 3 ≤ N) (hnz : 3 ≤ nz) (hr : 0 < r)
    (t : Arr (Option ℂ)) (ht : SSpec.OTFa p = .ok t) : t.shape = [components v, nz, N, N] ∧
    ∀ c < components v, ∀ iz < nz, ∀ iy < N, ∀ ix < N, t.get [c, iz, iy, ix] =
      some ((capField N nz r z ((i / w : ℚ) : ℝ) ((n / w : ℚ) : ℝ) v cd dual c iz iy ix : ℝ) : ℂ) := by
  rcases hd with rfl | rfl
  · obtain ⟨h1, h2⟩ := C50_value ho hN hnz hr t ht
    refine ⟨h1, fun c hc iz a iy b ix d => ?_⟩
    rw [h2 c hc iz a iy b ix d, capField]
    by_cases hcap : at3 N nz (r : ℝ) z (OnCap ((i / w : ℚ) : ℝ) ((n / w : ℚ) : ℝ) (1 / (nz * z)) (1 / (N * r)) false) iz iy ix
    · rw [if_pos hcap, if_pos hcap]
    · rw [if_neg hcap, if_neg hcap]; simp
  · classical
    have hrR : (0 : ℝ) < r := by exact_mod_cast hr
    obtain ⟨h, hh, rfl, rfl, rfl, HV, rfl, HD, e6, e7, e8, e9⟩ := ho.obtain ht
    rw [← e6] at hrR
    refine ⟨?_, fun c hc iz h1 iy h2 ix h3 => ?_⟩
    · rw [sheppard_otf_shape, SheppardNum.ncomp, HV]; rfl
    have hc0 : c = 0 := by simp only [components] at hc; omega
    subst hc0
    rw [← e6, ← e7, ← e8, ← e9, ← HD]
    rw [otf_value h hN hnz hrR 0 h1 h2 h3 (at3 h.size h.zsize h.res h.zres (OnCap h.kmag h.limit (1 / (h.zsize * h.zres))
      (1 / (h.size * h.res)) h.dual) iz iy ix) Iff.rfl, capField, if_pos HV]
    by_cases hcap : at3 h.size h.zsize h.res h.zres (OnCap h.kmag h.limit (1 / (h.zsize * h.zres))
      (1 / (h.size * h.res)) h.dual) iz iy ix
    · rw [if_pos hcap, if_pos hcap]; simp [at3, capAmplitude, capPolarization]
    · rw [if_neg hcap, if_neg hcap]; simp

/-- C85: the intensity PSF of a `SheppardPSF` (one objective, or two and a scalar field) is the intensity of the waves of the cap; its origin is
pixel `n // 2` on even axes and the next pixel on odd ones. -/
theorem C85_psfi {p : Params} {w n i r z : ℚ} {N nz : ℕ} {v : VecCorr} {cd : Condition} {dual : Bool}
    (ho : SOptics p w n i r z N nz v cd dual) (hd : dual = false ∨ v = .none) (hN : 3 ≤ N) (hnz : 3 ≤ nz) (hr : 0 < r)
    (b : Arr (Option ℝ)) (hb : SSpec.PSFi p = .ok b) : b.shape = [nz, N, N] ∧ ∀ iz < nz, ∀ y < N, ∀ x < N, b.get [iz, y, x] =
      some (capIntensity N nz r z ((i / w : ℚ) : ℝ) ((n / w : ℚ) : ℝ) v cd dual (cameFrom nz iz) (cameFrom N y) (cameFrom N x)) := by
  rcases ht : SSpec.OTFa p with e | t
  · rw [SSpec.PSFi, SSpec.PSFa, ht] at hb; cases hb
  obtain ⟨hs, hval⟩ := capField_value ho hd hN hnz hr t ht
  obtain ⟨C, Z, N', -, -, hs', -, -, hb', hbs⟩ := sheppard_psfa ht
  rw [hb] at hb'; cases hb'
  rw [hs] at hs'
  simp only [List.cons.injEq, and_true] at hs'
  obtain ⟨rfl, rfl, rfl, -⟩ := hs'
  refine ⟨hbs, fun iz hz y hy x hx => ?_⟩
  obtain ⟨a, C, Z, N', ha, hs2, has, hget⟩ := C84_sheppard p t ht
  rw [hs] at hs2
  simp only [List.cons.injEq, and_true] at hs2
  obtain ⟨rfl, rfl, rfl, -⟩ := hs2
  have ea : a = sheppardPSFa t := by
    rw [SSpec.PSFa, ht] at ha; cases ha; rfl
  have hv : ∀ c < components v, (sheppardPSFa t).get [c, iz, y, x] = _ := fun c hc => ea ▸ (hget c hc).2 _ (hval c hc) iz hz y hy x hx
  have hhead : (sheppardPSFa t).shape.headD 0 = components v := by rw [← ea, has]; rfl
  simp only [sheppardPSFi, nanSum, hhead]
  rw [if_neg]
  · congr 1
    refine Finset.sum_congr rfl fun c hc => ?_
    rw [hv c (Finset.mem_range.mp hc), Option.map_some, Option.getD_some, norm_mul, mul_pow]
    have : ‖exp (-(2 * Real.pi * I * ((phaseRamp nz iz + phaseRamp N y + phaseRamp N x : ℝ) : ℂ)))‖ = 1 := by
      rw [exp_neg, norm_inv, wave_norm, inv_one]
    rw [this, one_pow, mul_one]
  · rintro ⟨c, hc, hn⟩
    rw [hv c hc] at hn
    cases hn

theorem capField_scalar (N nz : ℕ) (r z K L : ℝ) (cd : Condition) (dual : Bool) (iz iy ix : ℕ) : 0 ≤ capField N nz r z K L .none cd dual 0 iz iy ix ∧
    (at3 N nz r z (OnCap K L (1 / (nz * z)) (1 / (N * r)) dual) iz iy ix → capField N nz r z K L .none cd dual 0 iz iy ix = 1) := by
  unfold capField
  split_ifs with h
  · exact ⟨by simp [at3, capAmplitude, capPolarization], fun _ => by simp [at3, capAmplitude, capPolarization]⟩
  · exact ⟨le_rfl, fun hh => absurd hh h⟩

/-- C85: the scalar PSF has its maximum at the origin, i.e. at pixel `n // 2` of even axes but one pixel further on odd axes; it is
not zero when some sample lies on the cap. -/
theorem C85_peak {p : Params} {w n i r z : ℚ} {N nz : ℕ} {cd : Condition} {dual : Bool}
    (ho : SOptics p w n i r z N nz .none cd dual) (hN : 3 ≤ N) (hnz : 3 ≤ nz) (hr : 0 < r)
    (b : Arr (Option ℝ)) (hb : SSpec.PSFi p = .ok b) : ∃ peak : ℝ,
    b.get [centrePixel nz, centrePixel N, centrePixel N] = some peak ∧ 0 ≤ peak ∧
    (∀ iz < nz, ∀ y < N, ∀ x < N, ∃ u, b.get [iz, y, x] = some u ∧ u ≤ peak) ∧
    ((∃ iz < nz, ∃ iy < N, ∃ ix < N, at3 N nz (r : ℝ) z (OnCap ((i / w : ℚ) : ℝ) ((n / w : ℚ) : ℝ) (1 / (nz * z)) (1 / (N * r)) dual) iz iy ix) →
      0 < peak) := by
  obtain ⟨hbs, hget⟩ := C85_psfi ho (Or.inr rfl) hN hnz hr b hb
  have hp := hget _ (centrePixel_lt (by omega : 0 < nz)) _ (centrePixel_lt (by omega : 0 < N)) _ (centrePixel_lt (by omega : 0 < N))
  rw [cameFrom_centrePixel (by omega), cameFrom_centrePixel (by omega)] at hp
  set F := capField N nz (r : ℝ) z ((i / w : ℚ) : ℝ) ((n / w : ℚ) : ℝ) .none cd dual 0 with hF
  have h0 : ∀ a p q, 0 ≤ F a p q := fun a p q => (capField_scalar _ _ _ _ _ _ _ _ _ _ _).1
  have hone : ∀ u v w', capIntensity N nz (r : ℝ) z ((i / w : ℚ) : ℝ) ((n / w : ℚ) : ℝ) .none cd dual u v w' =
      ‖centredInverse (fun a p q => (F a p q : ℂ)) nz N N u v w'‖ ^ 2 := fun u v w' => by simp [capIntensity, components, hF]
  have hpk : ‖centredInverse (fun a p q => (F a p q : ℂ)) nz N N (nz / 2) (N / 2) (N / 2)‖ =
      (∑ a ∈ Finset.range nz, ∑ p ∈ Finset.range N, ∑ q ∈ Finset.range N, F a p q) / (nz * N * N) := by
    rw [centredInverse_origin]
    have : ((∑ a ∈ Finset.range nz, ∑ p ∈ Finset.range N, ∑ q ∈ Finset.range N, (F a p q : ℂ)) / (nz * N * N) : ℂ) =
        (((∑ a ∈ Finset.range nz, ∑ p ∈ Finset.range N, ∑ q ∈ Finset.range N, F a p q) / (nz * N * N) : ℝ) : ℂ) := by push_cast; rfl
    rw [this, Complex.norm_real, Real.norm_eq_abs, abs_of_nonneg]
    exact div_nonneg (Finset.sum_nonneg fun a _ => Finset.sum_nonneg fun p _ => Finset.sum_nonneg fun q _ => h0 a p q) (by positivity)
  refine ⟨_, hp, ?_, fun iz hz y hy x hx => ⟨_, hget iz hz y hy x hx, ?_⟩, ?_⟩
  · rw [hone]; positivity
  · rw [hone, hone]
    refine pow_le_pow_left₀ (norm_nonneg _) ?_ 2
    refine (centredInverse_le _ _ _ _ _ _ _).trans (le_of_eq ?_)
    rw [hpk]
    congr 1
    exact Finset.sum_congr rfl fun a _ => Finset.sum_congr rfl fun p _ => Finset.sum_congr rfl fun q _ => by
      rw [Complex.norm_real, Real.norm_eq_abs, abs_of_nonneg (h0 a p q)]
  · rintro ⟨iz, hz, iy, hy, ix, hx, hcap⟩
    rw [hone, hpk]
    have : 0 < ∑ a ∈ Finset.range nz, ∑ p ∈ Finset.range N, ∑ q ∈ Finset.range N, F a p q := by
      refine Finset.sum_pos' (fun a _ => Finset.sum_nonneg fun p _ => Finset.sum_nonneg fun q _ => h0 a p q) ⟨iz, Finset.mem_range.mpr hz, ?_⟩
      refine Finset.sum_pos' (fun p _ => Finset.sum_nonneg fun q _ => h0 iz p q) ⟨iy, Finset.mem_range.mpr hy, ?_⟩
      refine Finset.sum_pos' (fun q _ => h0 iz iy q) ⟨ix, Finset.mem_range.mpr hx, ?_⟩
      rw [hF, (capField_scalar _ _ _ _ _ _ _ _ _ _ _).2 hcap]
      exact one_pos
    have hnz' : (0 : ℝ) < nz := by exact_mod_cast (by omega : 0 < nz)
    have hN' : (0 : ℝ) < N := by exact_mod_cast (by omega : 0 < N)
    positivity

theorem sum_cameFrom (n : ℕ) (f : ℕ → ℝ) : ∑ j ∈ Finset.range n, f (cameFrom n j) = ∑ j ∈ Finset.range n, f j := by
  unfold cameFrom
  split_ifs with h
  · rfl
  refine Finset.sum_bij' (fun j _ => (j + (n - 1)) % n) (fun j _ => (j + 1) % n) ?_ ?_ ?_ ?_ (fun _ _ => rfl)
  · intro j hj; exact Finset.mem_range.mpr (Nat.mod_lt _ (by have := Finset.mem_range.mp hj; omega))
  · intro j hj; exact Finset.mem_range.mpr (Nat.mod_lt _ (by have := Finset.mem_range.mp hj; omega))
  · intro j hj
    have := Finset.mem_range.mp hj
    show ((j + (n - 1)) % n + 1) % n = j
    rw [Nat.mod_add_mod, show j + (n - 1) + 1 = j + n by omega, Nat.add_mod_right, Nat.mod_eq_of_lt this]
  · intro j hj
    have := Finset.mem_range.mp hj
    show ((j + 1) % n + (n - 1)) % n = j
    rw [Nat.mod_add_mod, show j + 1 + (n - 1) = j + n by omega, Nat.add_mod_right, Nat.mod_eq_of_lt this]

/-- C85: the total intensity is the energy of the pupil divided by the number of voxels. -/
theorem C85_energy {p : Params} {w n i r z : ℚ} {N nz : ℕ} {v : VecCorr} {cd : Condition} {dual : Bool}
    (ho : SOptics p w n i r z N nz v cd dual) (hd : dual = false ∨ v = .none) (hN : 3 ≤ N) (hnz : 3 ≤ nz) (hr : 0 < r)
    (t : Arr (Option ℂ)) (ht : SSpec.OTFa p = .ok t) (b : Arr (Option ℝ)) (hb : SSpec.PSFi p = .ok b) :
    ∑ iz ∈ Finset.range nz, ∑ y ∈ Finset.range N, ∑ x ∈ Finset.range N, (b.get [iz, y, x]).getD 0 =
    (∑ c ∈ Finset.range (components v), ∑ kz ∈ Finset.range nz, ∑ ky ∈ Finset.range N, ∑ kx ∈ Finset.range N,
      ‖(t.get [c, kz, ky, kx]).getD 0‖ ^ 2) / (nz * N * N) := by
  obtain ⟨-, hget⟩ := C85_psfi ho hd hN hnz hr b hb
  obtain ⟨-, hval⟩ := capField_value ho hd hN hnz hr t ht
  set G := capIntensity N nz (r : ℝ) z ((i / w : ℚ) : ℝ) ((n / w : ℚ) : ℝ) v cd dual with hG
  have e1 : ∑ iz ∈ Finset.range nz, ∑ y ∈ Finset.range N, ∑ x ∈ Finset.range N, (b.get [iz, y, x]).getD 0 =
      ∑ iz ∈ Finset.range nz, ∑ y ∈ Finset.range N, ∑ x ∈ Finset.range N, G iz y x := by
    symm
    rw [← sum_cameFrom nz]
    refine Finset.sum_congr rfl fun iz hz => ?_
    rw [← sum_cameFrom N]
    refine Finset.sum_congr rfl fun y hy => ?_
    rw [← sum_cameFrom N]
    refine Finset.sum_congr rfl fun x hx => ?_
    rw [hget iz (Finset.mem_range.mp hz) y (Finset.mem_range.mp hy) x (Finset.mem_range.mp hx)]
    rfl
  rw [e1]
  simp only [hG, capIntensity]
  have e2 : ∀ f : ℕ → ℕ → ℕ → ℕ → ℝ, ∑ iz ∈ Finset.range nz, ∑ y ∈ Finset.range N, ∑ x ∈ Finset.range N, ∑ c ∈ Finset.range (components v), f iz y x c =
      ∑ c ∈ Finset.range (components v), ∑ iz ∈ Finset.range nz, ∑ y ∈ Finset.range N, ∑ x ∈ Finset.range N, f iz y x c := by
    intro f
    rw [Finset.sum_comm (s := Finset.range (components v))]
    refine Finset.sum_congr rfl fun iz _ => ?_
    rw [Finset.sum_comm (s := Finset.range (components v))]
    refine Finset.sum_congr rfl fun y _ => ?_
    rw [Finset.sum_comm (s := Finset.range (components v))]
  rw [e2, Finset.sum_div]
  refine Finset.sum_congr rfl fun c hc => ?_
  rw [centredInverse_energy _ _ _ _ (by omega) (by omega) (by omega)]
  congr 1
  refine Finset.sum_congr rfl fun a ha => Finset.sum_congr rfl fun p hp => Finset.sum_congr rfl fun q hq => ?_
  rw [hval c (Finset.mem_range.mp hc) a (Finset.mem_range.mp ha) p (Finset.mem_range.mp hp) q (Finset.mem_range.mp hq)]
  rfl

/-! ## C86: symmetry -/

theorem mirrorIn_half (n j : ℕ) : mirrorIn n (n / 2) j = opp n j := rfl

/-- C86: the intensity is symmetric under inversion in the origin. -/
theorem C86_inversion {p : Params} {w n i r z : ℚ} {N nz : ℕ} {v : VecCorr} {cd : Condition} {dual : Bool}
    (ho : SOptics p w n i r z N nz v cd dual) (hd : dual = false ∨ v = .none) (hN : 3 ≤ N) (hnz : 3 ≤ nz) (hr : 0 < r)
    (b : Arr (Option ℝ)) (hb : SSpec.PSFi p = .ok b) (iz y x : ℕ) (hz : iz < nz) (hy : y < N) (hx : x < N) :
    b.get [mirrorIn nz (centrePixel nz) iz, mirrorIn N (centrePixel N) y, mirrorIn N (centrePixel N) x] = b.get [iz, y, x] := by
  obtain ⟨-, hget⟩ := C85_psfi ho hd hN hnz hr b hb
  rw [hget _ (mirrorIn_lt (by omega)) _ (mirrorIn_lt (by omega)) _ (mirrorIn_lt (by omega)), hget iz hz y hy x hx,
    cameFrom_mirror hz, cameFrom_mirror hy, cameFrom_mirror hx]
  congr 1
  refine Finset.sum_congr rfl fun c _ => ?_
  have := centredInverse_point (capField N nz (r : ℝ) z ((i / w : ℚ) : ℝ) ((n / w : ℚ) : ℝ) v cd dual c) nz N N
    (cameFrom nz iz) (cameFrom N y) (cameFrom N x) (cameFrom_lt hz) (cameFrom_lt hy) (cameFrom_lt hx)
  refine (congrArg (‖·‖ ^ 2) this).trans ?_
  simp only [RCLike.norm_conj]

theorem centred_opp {N q : ℕ} (r : ℝ) (hq : q < N) (h : ¬ (N % 2 = 0 ∧ q = 0)) : centred N r (opp N q) = -centred N r q := by
  have : opp N q + q = 2 * (N / 2) := by
    unfold opp
    by_cases h0 : q = 0
    · subst h0
      rw [show 2 * (N / 2) + N - 0 = 2 * (N / 2) + N by omega, Nat.add_mod_right, Nat.mod_eq_of_lt (by omega)]; omega
    · by_cases h1 : q ≤ 2 * (N / 2)
      · rw [show 2 * (N / 2) + N - q = (2 * (N / 2) - q) + N by omega, Nat.add_mod_right, Nat.mod_eq_of_lt (by omega)]; omega
      · omega
  have : (opp N q : ℝ) + q = 2 * (N / 2 : ℕ) := by exact_mod_cast this
  rw [centred, centred, ← neg_div]
  congr 1
  linarith

theorem centred_opp_sq {N q : ℕ} (r : ℝ) (hq : q < N) : centred N r (opp N q) = -centred N r q ∨ centred N r (opp N q) = centred N r q := by
  by_cases h : N % 2 = 0 ∧ q = 0
  · right
    obtain ⟨h1, rfl⟩ := h
    have : opp N 0 = 0 := by
      unfold opp
      rw [show 2 * (N / 2) + N - 0 = N + N by omega, Nat.add_mod_right, Nat.mod_self]
    rw [this]
  · exact Or.inl (centred_opp r hq h)

theorem length3_sq {a b c a' b' c' : ℝ} (ha : a' ^ 2 = a ^ 2) (hb : b' ^ 2 = b ^ 2) (hc : c' ^ 2 = c ^ 2) : length3 a' b' c' = length3 a b c := by
  rw [length3, length3, ha, hb, hc]

theorem onCap_sq {K L dz dk kz ky kx ky' kx' : ℝ} {dual : Bool} (hy : ky' ^ 2 = ky ^ 2) (hx : kx' ^ 2 = kx ^ 2) :
    OnCap K L dz dk dual kz ky' kx' ↔ OnCap K L dz dk dual kz ky kx := by
  unfold OnCap pixelAlong
  rw [length3_sq rfl hy hx, length3_sq (a := kz * dz) (b := ky * dk) (c := kx * dk) rfl (by rw [mul_pow, mul_pow, hy]) (by rw [mul_pow, mul_pow, hx])]

theorem capPolarization_neg_m (v : VecCorr) (c : ℕ) : ∃ e : ℝ, (e = 1 ∨ e = -1) ∧ (v = .none → e = 1) ∧ ∀ m n s,
    (capPolarization v (-m) n s).getD c 0 = e * (capPolarization v m n s).getD c 0 := by
  rcases v with _ | _ | _ | _ | _ <;> rcases c with _ | _ | _ | _ | _ | _ | c <;> first
    | (refine ⟨1, Or.inl rfl, fun _ => rfl, fun m n s => ?_⟩; (simp [capPolarization]; done))
    | (refine ⟨-1, Or.inr rfl, (fun h => by cases h), fun m n s => ?_⟩; (simp [capPolarization, neg_div]; done))

theorem capPolarization_neg_n (v : VecCorr) (c : ℕ) : ∃ e : ℝ, (e = 1 ∨ e = -1) ∧ (v = .none → e = 1) ∧ ∀ m n s,
    (capPolarization v m (-n) s).getD c 0 = e * (capPolarization v m n s).getD c 0 := by
  rcases v with _ | _ | _ | _ | _ <;> rcases c with _ | _ | _ | _ | _ | _ | c <;> first
    | (refine ⟨1, Or.inl rfl, fun _ => rfl, fun m n s => ?_⟩; (simp [capPolarization]; done))
    | (refine ⟨-1, Or.inr rfl, (fun h => by cases h), fun m n s => ?_⟩; (simp [capPolarization, neg_div]; done))

/-- No sample of the lowest lateral frequency `-1 / (2 res)` of an even axis (which has no opposite) lies on the cap. -/
def Physics.NyquistFree (N nz : ℕ) (r z K L : ℝ) (dual : Bool) : Prop := N % 2 = 0 → ∀ iz < nz, ∀ j < N,
  ¬ at3 N nz r z (OnCap K L (1 / (nz * z)) (1 / (N * r)) dual) iz j 0 ∧ ¬ at3 N nz r z (OnCap K L (1 / (nz * z)) (1 / (N * r)) dual) iz 0 j

theorem capField_mirror_x (N nz : ℕ) (r z K L : ℝ) (v : VecCorr) (cd : Condition) (dual : Bool) (c : ℕ)
    (hf : v = .none ∨ NyquistFree N nz r z K L dual) : ∃ e : ℝ, (e = 1 ∨ e = -1) ∧ ∀ a < nz, ∀ p < N, ∀ q < N,
    capField N nz r z K L v cd dual c a p (opp N q) = e * capField N nz r z K L v cd dual c a p q := by
  obtain ⟨e, he, hnone, hsym⟩ := capPolarization_neg_m v c
  refine ⟨e, he, fun a ha p hp q hq => ?_⟩
  have hsq : centred N r (opp N q) ^ 2 = centred N r q ^ 2 := by
    rcases centred_opp_sq r hq with h | h <;> rw [h]; ring
  have hcap : at3 N nz r z (OnCap K L (1 / (nz * z)) (1 / (N * r)) dual) a p (opp N q) ↔
      at3 N nz r z (OnCap K L (1 / (nz * z)) (1 / (N * r)) dual) a p q := onCap_sq rfl hsq
  unfold capField
  by_cases h : at3 N nz r z (OnCap K L (1 / (nz * z)) (1 / (N * r)) dual) a p q
  · rw [if_pos h, if_pos (hcap.mpr h)]
    by_cases h0 : N % 2 = 0 ∧ q = 0
    · rcases hf with rfl | hf
      · rw [hnone rfl]
        rcases c with _ | c <;> simp [at3, capAmplitude, capPolarization]
      · obtain ⟨h1, rfl⟩ := h0
        exact absurd h (hf h1 a ha p hp).1
    · simp only [at3, capAmplitude, cosine, length3_sq rfl rfl hsq]
      rw [centred_opp r hq h0, neg_div, hsym, mul_assoc]
  · rw [if_neg h, if_neg (fun hh => h (hcap.mp hh)), mul_zero]

theorem capField_mirror_y (N nz : ℕ) (r z K L : ℝ) (v : VecCorr) (cd : Condition) (dual : Bool) (c : ℕ)
    (hf : v = .none ∨ NyquistFree N nz r z K L dual) : ∃ e : ℝ, (e = 1 ∨ e = -1) ∧ ∀ a < nz, ∀ p < N, ∀ q < N,
    capField N nz r z K L v cd dual c a (opp N p) q = e * capField N nz r z K L v cd dual c a p q := by
  obtain ⟨e, he, hnone, hsym⟩ := capPolarization_neg_n v c
  refine ⟨e, he, fun a ha p hp q hq => ?_⟩
  have hsq : centred N r (opp N p) ^ 2 = centred N r p ^ 2 := by
    rcases centred_opp_sq r hp with h | h <;> rw [h]; ring
  have hcap : at3 N nz r z (OnCap K L (1 / (nz * z)) (1 / (N * r)) dual) a (opp N p) q ↔
      at3 N nz r z (OnCap K L (1 / (nz * z)) (1 / (N * r)) dual) a p q := onCap_sq hsq rfl
  unfold capField
  by_cases h : at3 N nz r z (OnCap K L (1 / (nz * z)) (1 / (N * r)) dual) a p q
  · rw [if_pos h, if_pos (hcap.mpr h)]
    by_cases h0 : N % 2 = 0 ∧ p = 0
    · rcases hf with rfl | hf
      · rw [hnone rfl]
        rcases c with _ | c <;> simp [at3, capAmplitude, capPolarization]
      · obtain ⟨h1, rfl⟩ := h0
        exact absurd h (hf h1 a ha q hq).2
    · simp only [at3, capAmplitude, cosine, length3_sq rfl hsq rfl]
      rw [centred_opp r hp h0, neg_div, hsym, mul_assoc]
  · rw [if_neg h, if_neg (fun hh => h (hcap.mp hh)), mul_zero]

theorem norm_centredInverse_sign {f : ℕ → ℕ → ℕ → ℝ} {e : ℝ} (he : e = 1 ∨ e = -1) (Z A B z y x : ℕ) :
    ‖centredInverse (fun a p q => ((e * f a p q : ℝ) : ℂ)) Z A B z y x‖ = ‖centredInverse (fun a p q => (f a p q : ℂ)) Z A B z y x‖ := by
  rcases he with rfl | rfl
  · simp only [one_mul]
  · simp only [neg_one_mul, ofReal_neg, centredInverse_neg, norm_neg]

theorem capIntensity_mirror (N nz : ℕ) (r z K L : ℝ) (v : VecCorr) (cd : Condition) (dual : Bool) (hf : v = .none ∨ NyquistFree N nz r z K L dual)
    (iz y x : ℕ) (hx : x < N) : capIntensity N nz r z K L v cd dual iz y (opp N x) = capIntensity N nz r z K L v cd dual iz y x := by
  refine Finset.sum_congr rfl fun c _ => ?_
  obtain ⟨e, he, hs⟩ := capField_mirror_x N nz r z K L v cd dual c hf
  have h1 := centredInverse_mirror (fun a p q => (capField N nz r z K L v cd dual c a p q : ℂ))
    (fun a p q => ((e * capField N nz r z K L v cd dual c a p q : ℝ) : ℂ)) nz N N iz y x hx fun a ha p hp q hq => by rw [hs a ha p hp q hq]
  rw [h1, norm_centredInverse_sign he]

theorem capIntensity_mirror_y (N nz : ℕ) (r z K L : ℝ) (v : VecCorr) (cd : Condition) (dual : Bool) (hf : v = .none ∨ NyquistFree N nz r z K L dual)
    (iz y x : ℕ) (hy : y < N) : capIntensity N nz r z K L v cd dual iz (opp N y) x = capIntensity N nz r z K L v cd dual iz y x := by
  refine Finset.sum_congr rfl fun c _ => ?_
  obtain ⟨e, he, hs⟩ := capField_mirror_y N nz r z K L v cd dual c hf
  have h1 := centredInverse_mirror_y (fun a p q => (capField N nz r z K L v cd dual c a p q : ℂ))
    (fun a p q => ((e * capField N nz r z K L v cd dual c a p q : ℝ) : ℂ)) nz N N iz y x hy fun a ha p hp q hq => by rw [hs a ha p hp q hq]
  rw [h1, norm_centredInverse_sign he]

/-- C86: the intensity is symmetric under each of the three mirror images in the planes through the origin. -/
theorem C86_mirror {p : Params} {w n i r z : ℚ} {N nz : ℕ} {v : VecCorr} {cd : Condition} {dual : Bool}
    (ho : SOptics p w n i r z N nz v cd dual) (hd : dual = false ∨ v = .none) (hN : 3 ≤ N) (hnz : 3 ≤ nz) (hr : 0 < r)
    (hf : v = .none ∨ NyquistFree N nz r z ((i / w : ℚ) : ℝ) ((n / w : ℚ) : ℝ) dual)
    (b : Arr (Option ℝ)) (hb : SSpec.PSFi p = .ok b) (iz y x : ℕ) (hz : iz < nz) (hy : y < N) (hx : x < N) :
    b.get [iz, y, mirrorIn N (centrePixel N) x] = b.get [iz, y, x] ∧ b.get [iz, mirrorIn N (centrePixel N) y, x] = b.get [iz, y, x] ∧
    b.get [mirrorIn nz (centrePixel nz) iz, y, x] = b.get [iz, y, x] := by
  obtain ⟨-, hget⟩ := C85_psfi ho hd hN hnz hr b hb
  have mx : ∀ iz < nz, ∀ y < N, ∀ x < N, b.get [iz, y, mirrorIn N (centrePixel N) x] = b.get [iz, y, x] := by
    intro iz hz y hy x hx
    rw [hget _ hz _ hy _ (mirrorIn_lt (by omega)), hget iz hz y hy x hx, cameFrom_mirror hx, mirrorIn_half,
      capIntensity_mirror N nz r z _ _ v cd dual hf _ _ _ (cameFrom_lt hx)]
  have my : ∀ iz < nz, ∀ y < N, ∀ x < N, b.get [iz, mirrorIn N (centrePixel N) y, x] = b.get [iz, y, x] := by
    intro iz hz y hy x hx
    rw [hget _ hz _ (mirrorIn_lt (by omega)) _ hx, hget iz hz y hy x hx, cameFrom_mirror hy, mirrorIn_half,
      capIntensity_mirror_y N nz r z _ _ v cd dual hf _ _ _ (cameFrom_lt hy)]
  refine ⟨mx iz hz y hy x hx, my iz hz y hy x hx, ?_⟩
  rw [← C86_inversion ho hd hN hnz hr b hb iz y x hz hy hx, mx _ (mirrorIn_lt (by omega)) _ (mirrorIn_lt (by omega)) _ hx,
    my _ (mirrorIn_lt (by omega)) _ hy _ hx]

theorem capIntensity_exchange (N nz : ℕ) (r z K L : ℝ) (v v' : VecCorr) (cd : Condition) (dual : Bool)
    (hv : v = .none ∧ v' = .none ∨ v = .z ∧ v' = .z ∨ v = .total ∧ v' = .total ∨ v = .x ∧ v' = .y) (iz y x : ℕ) :
    capIntensity N nz r z K L v cd dual iz x y = capIntensity N nz r z K L v' cd dual iz y x := by
  have key : ∀ c c', (∀ m n s, (capPolarization v n m s).getD c 0 = (capPolarization v' m n s).getD c' 0) → (v = .none ↔ v' = .none) →
      centredInverse (fun a p q => (capField N nz r z K L v cd dual c a p q : ℂ)) nz N N iz x y =
      centredInverse (fun a p q => (capField N nz r z K L v' cd dual c' a p q : ℂ)) nz N N iz y x := by
    intro c c' h hnone
    refine centredInverse_exchange _ _ nz N iz y x fun a _ p _ q _ => ?_
    congr 1
    have hl : ∀ A B C : ℝ, length3 A C B = length3 A B C := fun A B C => by rw [length3, length3]; congr 1; ring
    have hcap : at3 N nz r z (OnCap K L (1 / (nz * z)) (1 / (N * r)) dual) a q p ↔
        at3 N nz r z (OnCap K L (1 / (nz * z)) (1 / (N * r)) dual) a p q := by
      simp only [at3, OnCap, pixelAlong]
      rw [hl, hl (centred nz z a * _)]
    unfold capField
    by_cases hc : at3 N nz r z (OnCap K L (1 / (nz * z)) (1 / (N * r)) dual) a p q
    · rw [if_pos hc, if_pos (hcap.mpr hc)]
      simp only [at3, capAmplitude, cosine]
      rw [hl, h]
      simp only [hnone]
    · rw [if_neg hc, if_neg (fun hh => hc (hcap.mp hh))]
  unfold capIntensity
  rcases hv with ⟨rfl, rfl⟩ | ⟨rfl, rfl⟩ | ⟨rfl, rfl⟩ | ⟨rfl, rfl⟩
  · simp only [components, Finset.sum_range_one]
    rw [key 0 0 (fun m n s => by simp [capPolarization]) Iff.rfl]
  · simp only [components, Finset.sum_range_succ, Finset.sum_range_zero]
    rw [key 0 1 (fun m n s => by simp [capPolarization]) Iff.rfl, key 1 0 (fun m n s => by simp [capPolarization]) Iff.rfl]
    ring
  · simp only [components, Finset.sum_range_succ, Finset.sum_range_zero]
    rw [key 0 1 (fun m n s => by simp [capPolarization]) Iff.rfl, key 1 0 (fun m n s => by simp [capPolarization]) Iff.rfl,
      key 2 5 (fun m n s => by simp [capPolarization]) Iff.rfl, key 5 2 (fun m n s => by simp [capPolarization]) Iff.rfl,
      key 3 4 (fun m n s => by simp [capPolarization]) Iff.rfl, key 4 3 (fun m n s => by simp [capPolarization]) Iff.rfl]
    ring
  · simp only [components, Finset.sum_range_succ, Finset.sum_range_zero]
    rw [key 0 1 (fun m n s => by simp [capPolarization]) (by simp), key 1 0 (fun m n s => by simp [capPolarization]) (by simp)]
    ring

/-- C86: exchanging x and y leaves the PSF unchanged for `vec_corr` 'none', 'z' and 'total', and turns the 'x' model into the 'y' model. -/
theorem C86_exchange {p p' : Params} {w n i r z : ℚ} {N nz : ℕ} {v v' : VecCorr} {cd : Condition} {dual : Bool}
    (ho : SOptics p w n i r z N nz v cd dual) (ho' : SOptics p' w n i r z N nz v' cd dual)
    (hv : v = .none ∧ v' = .none ∨ v = .z ∧ v' = .z ∨ v = .total ∧ v' = .total ∨ v = .x ∧ v' = .y)
    (hd : dual = false ∨ v = .none) (hN : 3 ≤ N) (hnz : 3 ≤ nz) (hr : 0 < r)
    (b b' : Arr (Option ℝ)) (hb : SSpec.PSFi p = .ok b) (hb' : SSpec.PSFi p' = .ok b') (iz y x : ℕ) (hz : iz < nz) (hy : y < N) (hx : x < N) :
    b.get [iz, x, y] = b'.get [iz, y, x] := by
  have hd' : dual = false ∨ v' = .none := hd.imp id fun h => by rcases hv with ⟨-, h'⟩ | ⟨h', -⟩ | ⟨h', -⟩ | ⟨h', -⟩ <;> first | exact h' | (rw [h] at h'; cases h')
  rw [(C85_psfi ho hd hN hnz hr b hb).2 iz hz x hx y hy, (C85_psfi ho' hd' hN hnz hr b' hb').2 iz hz y hy x hx,
    capIntensity_exchange N nz r z _ _ v v' cd dual hv]

/-! ## The three polarisations together -/

/-- C42 for a `SheppardPSF` with one objective: the intensity with `vec_corr='total'` is the sum of those with 'x', 'y' and 'z'. -/
theorem C42_sheppard_total {p px py pz : Params} {w n i r z : ℚ} {N nz : ℕ} {cd : Condition}
    (ho : SOptics p w n i r z N nz .total cd false) (hx : SOptics px w n i r z N nz .x cd false) (hy : SOptics py w n i r z N nz .y cd false)
    (hz : SOptics pz w n i r z N nz .z cd false) (hN : 3 ≤ N) (hnz : 3 ≤ nz) (hr : 0 < r)
    (b bx by' bz : Arr (Option ℝ)) (hb : SSpec.PSFi p = .ok b) (hbx : SSpec.PSFi px = .ok bx) (hby : SSpec.PSFi py = .ok by')
    (hbz : SSpec.PSFi pz = .ok bz) (iz iy ix : ℕ) (h1 : iz < nz) (h2 : iy < N) (h3 : ix < N) : ∃ ux uy uz : ℝ,
    bx.get [iz, iy, ix] = some ux ∧ by'.get [iz, iy, ix] = some uy ∧ bz.get [iz, iy, ix] = some uz ∧
    b.get [iz, iy, ix] = some (ux + uy + uz) := by
  refine ⟨_, _, _, (C85_psfi hx (Or.inl rfl) hN hnz hr bx hbx).2 iz h1 iy h2 ix h3, (C85_psfi hy (Or.inl rfl) hN hnz hr by' hby).2 iz h1 iy h2 ix h3,
    (C85_psfi hz (Or.inl rfl) hN hnz hr bz hbz).2 iz h1 iy h2 ix h3, ?_⟩
  rw [(C85_psfi ho (Or.inl rfl) hN hnz hr b hb).2 iz h1 iy h2 ix h3]
  congr 1
  have key : ∀ v c c', (∀ m n s, (capPolarization .total m n s).getD c 0 = (capPolarization v m n s).getD c' 0) → v ≠ .none →
      (fun a p q => ((capField N nz r z ((i / w : ℚ) : ℝ) ((n / w : ℚ) : ℝ) .total cd false c a p q : ℝ) : ℂ)) =
      fun a p q => ((capField N nz r z ((i / w : ℚ) : ℝ) ((n / w : ℚ) : ℝ) v cd false c' a p q : ℝ) : ℂ) := by
    intro v c c' h hv
    funext a p q
    simp only [capField, at3, capAmplitude, h, hv, if_false, reduceCtorEq]
  simp only [capIntensity, components, Finset.sum_range_succ, Finset.sum_range_zero]
  rw [key .z 0 0 (fun m n s => by simp [capPolarization]) (by simp), key .z 1 1 (fun m n s => by simp [capPolarization]) (by simp),
    key .y 2 0 (fun m n s => by simp [capPolarization]) (by simp), key .y 3 1 (fun m n s => by simp [capPolarization]) (by simp),
    key .x 4 0 (fun m n s => by simp [capPolarization]) (by simp), key .x 5 1 (fun m n s => by simp [capPolarization]) (by simp)]
  ring

open Classical in
/-- C42 for a `SheppardPSF` with one objective: the total energy with `vec_corr='total'` is twice the summed squared apodisation over the
cap divided by the number of voxels; without apodisation (`condition='none'`) this is twice the energy of the scalar model. -/
theorem C42_sheppard_energy {p : Params} {w n i r z : ℚ} {N nz : ℕ} {cd : Condition}
    (ho : SOptics p w n i r z N nz .total cd false) (hN : 3 ≤ N) (hnz : 3 ≤ nz) (hr : 0 < r)
    (t : Arr (Option ℂ)) (ht : SSpec.OTFa p = .ok t) (b : Arr (Option ℝ)) (hb : SSpec.PSFi p = .ok b) :
    ∑ iz ∈ Finset.range nz, ∑ y ∈ Finset.range N, ∑ x ∈ Finset.range N, (b.get [iz, y, x]).getD 0 =
    2 * (∑ kz ∈ Finset.range nz, ∑ ky ∈ Finset.range N, ∑ kx ∈ Finset.range N,
      if at3 N nz (r : ℝ) z (OnCap ((i / w : ℚ) : ℝ) ((n / w : ℚ) : ℝ) (1 / (nz * z)) (1 / (N * r)) false) kz ky kx
      then apodization cd (at3 N nz (r : ℝ) z (fun a b c => cosine a a b c) kz ky kx) ^ 2 else 0) / (nz * N * N) := by
  rw [C85_energy ho (Or.inl rfl) hN hnz hr t ht b hb]
  obtain ⟨-, hval⟩ := capField_value ho (Or.inl rfl) hN hnz hr t ht
  congr 1
  rw [Finset.sum_comm, Finset.mul_sum]
  refine Finset.sum_congr rfl fun kz h1 => ?_
  rw [Finset.sum_comm, Finset.mul_sum]
  refine Finset.sum_congr rfl fun ky h2 => ?_
  rw [Finset.sum_comm, Finset.mul_sum]
  refine Finset.sum_congr rfl fun kx h3 => ?_
  have h1 := Finset.mem_range.mp h1
  have h2 := Finset.mem_range.mp h2
  have h3 := Finset.mem_range.mp h3
  have e : ∀ c ∈ Finset.range (components .total), ‖(t.get [c, kz, ky, kx]).getD 0‖ ^ 2 =
      capField N nz r z ((i / w : ℚ) : ℝ) ((n / w : ℚ) : ℝ) .total cd false c kz ky kx ^ 2 := fun c hc => by
    rw [hval c (Finset.mem_range.mp hc) kz h1 ky h2 kx h3, Option.getD_some, Complex.norm_real, Real.norm_eq_abs, sq_abs]
  rw [Finset.sum_congr rfl e]
  unfold capField
  by_cases hcap : at3 N nz (r : ℝ) z (OnCap ((i / w : ℚ) : ℝ) ((n / w : ℚ) : ℝ) (1 / (nz * z)) (1 / (N * r)) false) kz ky kx
  · simp only [if_pos hcap]
    have hpos := OnCap_pos hcap
    have hs := cosine_pos (ky := centred N (r : ℝ) ky) (kx := centred N (r : ℝ) kx) hpos
    have hl := length3_pos (b := centred N (r : ℝ) ky) (c := centred N (r : ℝ) kx) hpos.ne'
    have hunit : cosine (centred N (r : ℝ) kx) (centred nz (z : ℝ) kz) (centred N (r : ℝ) ky) (centred N (r : ℝ) kx) ^ 2 +
        cosine (centred N (r : ℝ) ky) (centred nz (z : ℝ) kz) (centred N (r : ℝ) ky) (centred N (r : ℝ) kx) ^ 2 +
        cosine (centred nz (z : ℝ) kz) (centred nz (z : ℝ) kz) (centred N (r : ℝ) ky) (centred N (r : ℝ) kx) ^ 2 = 1 := by
      simp only [cosine, div_pow, ← add_div]
      rw [div_eq_one_iff_eq (by positivity)]
      conv_rhs => rw [length3, Real.sq_sqrt (by positivity)]
      ring
    simp only [components, Finset.sum_range_succ, Finset.sum_range_zero, at3, capAmplitude, reduceCtorEq, if_false]
    generalize cosine (centred N (r : ℝ) kx) (centred nz (z : ℝ) kz) (centred N (r : ℝ) ky) (centred N (r : ℝ) kx) = m at *
    generalize cosine (centred N (r : ℝ) ky) (centred nz (z : ℝ) kz) (centred N (r : ℝ) ky) (centred N (r : ℝ) kx) = n' at *
    generalize cosine (centred nz (z : ℝ) kz) (centred nz (z : ℝ) kz) (centred N (r : ℝ) ky) (centred N (r : ℝ) kx) = s at *
    generalize apodization cd s = A
    have h1s : (1 : ℝ) + s ≠ 0 := by linarith
    have key : (-m) ^ 2 + (-n') ^ 2 + (-(n' * m) / (1 + s)) ^ 2 + (1 - n' ^ 2 / (1 + s)) ^ 2 + (1 - m ^ 2 / (1 + s)) ^ 2 + (-(m * n') / (1 + s)) ^ 2 = 2 := by
      have hm : m ^ 2 = (1 - s) * (1 + s) - n' ^ 2 := by linear_combination hunit
      have e1 : m ^ 2 / (1 + s) = (1 - s) - n' ^ 2 / (1 + s) := by rw [hm]; field_simp
      have e2 : (-(n' * m) / (1 + s)) ^ 2 = n' ^ 2 / (1 + s) * (m ^ 2 / (1 + s)) := by field_simp
      have e3 : (-(m * n') / (1 + s)) ^ 2 = n' ^ 2 / (1 + s) * (m ^ 2 / (1 + s)) := by field_simp
      rw [e2, e3, e1]
      linear_combination hunit
    simp only [capPolarization, List.getD_cons_zero, List.getD_cons_succ]
    linear_combination A ^ 2 * key
  · simp only [if_neg hcap]
    simp

/-- Non-vacuity of C85 and C86: the demo parameters; the peak is not zero, and no Nyquist sample lies on the cap. -/
theorem demo_sheppard_peak (dual : Bool) : ∃ (o : SObj) (b : Arr (Option ℝ)) (peak : ℝ), SObj.new (demoArgsV "none" "sine") (.bool dual) = .ok o ∧
    SSpec.PSFi o.params = .ok b ∧ b.get [32, 32, 32] = some peak ∧ 0 < peak := by
  obtain ⟨o, t, ho, h, ht⟩ := demo_soptics .none .sine dual "none" "sine" rfl rfl
  have hb : SSpec.PSFi o.params = .ok (sheppardPSFi (sheppardPSFa t)) := by rw [SSpec.PSFi, SSpec.PSFa, ht]; rfl
  obtain ⟨pk, h1, -, -, h4⟩ := C85_peak h (by norm_num) (by norm_num) (by norm_num) _ hb
  exact ⟨o, _, pk, ho, hb, h1, h4 ⟨48, by norm_num, 32, by norm_num, 32, by norm_num, (demo_cap dual).1⟩⟩

theorem demo_nyquistFree : NyquistFree 64 64 ((130 : ℚ) : ℝ) ((130 : ℚ) : ℝ) ((1 / 520 : ℚ) : ℝ) ((17 / 20 / 520 : ℚ) : ℝ) false := by
  have h0 : centred 64 ((130 : ℚ) : ℝ) 0 = -(1 / 260) := by norm_num [centred]
  have main : ∀ kz ky kx : ℝ, (ky = -(1 / 260) ∨ kx = -(1 / 260)) →
      ¬ OnCap ((1 / 520 : ℚ) : ℝ) ((17 / 20 / 520 : ℚ) : ℝ) (1 / ((64 : ℕ) * (130 : ℚ))) (1 / ((64 : ℕ) * (130 : ℚ))) false kz ky kx := by
    intro kz ky kx h hc
    have hl : 1 / 260 ≤ length3 kz ky kx := by
      refine Real.le_sqrt_of_sq_le ?_
      rcases h with h | h <;> rw [h] <;> nlinarith [sq_nonneg kz, sq_nonneg ky, sq_nonneg kx]
    have hb := (pixelAlong_bounds (dz := 1 / ((64 : ℕ) * (130 : ℚ) : ℝ)) (dk := 1 / ((64 : ℕ) * (130 : ℚ) : ℝ)) (kz := kz) (ky := ky) (kx := kx)
      (by norm_num) (by norm_num) hc.kz_ne).2
    have h1 := (abs_lt.mp hc.1).2
    rw [max_self] at hb
    norm_num at h1 hb hl
    linarith
  intro _ iz _ j _
  exact ⟨main _ _ _ (Or.inr h0), main _ _ _ (Or.inl h0)⟩

end PyOTF
