import Verif.Props.C83_Wiener
import Verif.Props.C82_MicroOtf
import Verif.Lemmas.Pair
import Verif.Props.C46_C48_Symmetry

/-!
# C113, C114: the spectra of the SIM microscopes
-/

namespace PyOTF

open Physics Complex

/-! ## Specification -/

/-- Wave of frequency `(fz, fy, fx)` (cycles per unit length) at `(z, y, x)`. -/
noncomputable def planeWave (fz fy fx z y x : ℝ) : ℂ := exp (-(2 * Real.pi * I * ((fz * z + fy * y + fx * x : ℝ) : ℂ)))

/-- Spectrum of an image of `Z` planes of `N` x `N` pixels (`dz` and `d` apart) at any real frequency; the pixel `(n + 1) // 2` of every axis
is the origin. -/
noncomputable def spectrumAt (a : Arr ℝ) (Z N : ℕ) (dz d fz fy fx : ℝ) : ℂ :=
  ∑ z ∈ Finset.range Z, ∑ y ∈ Finset.range N, ∑ x ∈ Finset.range N,
    (a.get [z, y, x] : ℂ) * planeWave fz fy fx (position Z dz z) (position N d y) (position N d x)

/-- Frequency of element `k` of `n` of an OTF for samples `d` apart. -/
noncomputable def otfFreq (n : ℕ) (d : ℝ) (k : ℕ) : ℝ := ((k : ℝ) - (n / 2 : ℕ)) / (n * d)

/-- The axial frequency of three beam interference. -/
noncomputable def axialFreq (n a l : ℝ) : ℝ := n / l * (1 - Real.sqrt (1 - (a / n) ^ 2))

/-- Phase (turns) between the origin of an odd axis at pixel `(n + 1) // 2` and at `n // 2`. -/
noncomputable def oddTurns (n k : ℕ) : ℝ := (n % 2 : ℕ) * ((k : ℝ) - (n / 2 : ℕ)) / n

/-! ## Proofs -/

theorem planeWave_cos (fz fy fx gz gy gx z y x : ℝ) :
    planeWave fz fy fx z y x * (Real.cos (2 * Real.pi * (gz * z + gy * y + gx * x)) : ℝ) =
      (planeWave (fz - gz) (fy - gy) (fx - gx) z y x + planeWave (fz + gz) (fy + gy) (fx + gx) z y x) / 2 := by
  rw [Complex.ofReal_cos, Complex.cos, planeWave, planeWave, planeWave, mul_div_assoc', mul_add, ← exp_add, ← exp_add]
  congr 3 <;> (push_cast; ring)

/-- A pattern of cosines: weight and frequency of each. -/
structure Wave where
  w : ℝ
  gz : ℝ
  gy : ℝ
  gx : ℝ

/-- Its value. -/
noncomputable def Wave.at (c : Wave) (z y x : ℝ) : ℝ := c.w * Real.cos (2 * Real.pi * (c.gz * z + c.gy * y + c.gx * x))

/-- Its two bands. -/
noncomputable def Wave.bands (c : Wave) (a : Arr ℝ) (Z N : ℕ) (dz d fz fy fx : ℝ) : ℂ :=
  (c.w : ℂ) * ((spectrumAt a Z N dz d (fz - c.gz) (fy - c.gy) (fx - c.gx) + spectrumAt a Z N dz d (fz + c.gz) (fy + c.gy) (fx + c.gx)) / 2)

/-- The spectrum of an image times a pattern is the sum of the bands. -/
theorem spectrum_pattern (a c : Arr ℝ) (Z N : ℕ) (dz d : ℝ) (ws : List Wave)
    (hc : ∀ iz < Z, ∀ iy < N, ∀ ix < N, c.get [iz, iy, ix] = a.get [iz, iy, ix] *
      (ws.map fun w => w.at (position Z dz iz) (position N d iy) (position N d ix)).sum) (fz fy fx : ℝ) :
    spectrumAt c Z N dz d fz fy fx = (ws.map fun w => w.bands a Z N dz d fz fy fx).sum := by
  have e : spectrumAt c Z N dz d fz fy fx = ∑ z ∈ Finset.range Z, ∑ y ∈ Finset.range N, ∑ x ∈ Finset.range N,
      (a.get [z, y, x] : ℂ) * (ws.map fun w => planeWave fz fy fx (position Z dz z) (position N d y) (position N d x) *
        (w.at (position Z dz z) (position N d y) (position N d x) : ℝ)).sum := by
    refine Finset.sum_congr rfl fun z hz => Finset.sum_congr rfl fun y hy => Finset.sum_congr rfl fun x hx => ?_
    rw [hc z (Finset.mem_range.mp hz) y (Finset.mem_range.mp hy) x (Finset.mem_range.mp hx), List.sum_map_mul_left]
    have : (((ws.map fun w => w.at (position Z dz z) (position N d y) (position N d x)).sum : ℝ) : ℂ) =
        (ws.map fun w => ((w.at (position Z dz z) (position N d y) (position N d x) : ℝ) : ℂ)).sum := by
      rw [← Complex.ofRealHom_eq_coe, map_list_sum, List.map_map]; rfl
    rw [Complex.ofReal_mul, this]; ring
  rw [e]
  clear hc e
  induction ws with
  | nil => simp
  | cons w ws ih =>
    simp only [List.map_cons, List.sum_cons, mul_add, Finset.sum_add_distrib, ih]
    congr 1
    rw [Wave.bands, spectrumAt, spectrumAt, ← Finset.sum_add_distrib, Finset.sum_div, Finset.mul_sum]
    refine Finset.sum_congr rfl fun z _ => ?_
    rw [← Finset.sum_add_distrib, Finset.sum_div, Finset.mul_sum]
    refine Finset.sum_congr rfl fun y _ => ?_
    rw [← Finset.sum_add_distrib, Finset.sum_div, Finset.mul_sum]
    refine Finset.sum_congr rfl fun x _ => ?_
    rw [Wave.at, Complex.ofReal_mul]
    have := planeWave_cos fz fy fx w.gz w.gy w.gx (position Z dz z) (position N d y) (position N d x)
    linear_combination (a.get [z, y, x] : ℂ) * w.w * this

theorem twoBeam_waves (a l o z y x : ℝ) : twoBeam (lateralPhase a l o x y) =
    ([⟨2, 0, 0, 0⟩, ⟨2, 0, 2 * (a / l) * Real.sin o, 2 * (a / l) * Real.cos o⟩].map fun w : Wave => w.at z y x).sum := by
  simp only [List.map_cons, List.map_nil, List.sum_cons, List.sum_nil, Wave.at, twoBeam, lateralPhase]
  rw [show 2 * Real.pi * (0 * z + 0 * y + 0 * x) = 0 by ring, Real.cos_zero]
  rw [show 2 * Real.pi * (0 * z + 2 * (a / l) * Real.sin o * y + 2 * (a / l) * Real.cos o * x) =
    2 * (2 * Real.pi * a / l * (x * Real.cos o + y * Real.sin o)) by ring]
  ring

theorem threeBeam_waves (n a l o z y x : ℝ) : threeBeam (lateralPhase a l o x y) (axialPhase n a l z) =
    ([⟨3, 0, 0, 0⟩, ⟨2, 0, 2 * (a / l) * Real.sin o, 2 * (a / l) * Real.cos o⟩,
      ⟨2, axialFreq n a l, a / l * Real.sin o, a / l * Real.cos o⟩,
      ⟨2, -axialFreq n a l, a / l * Real.sin o, a / l * Real.cos o⟩].map fun w : Wave => w.at z y x).sum := by
  simp only [List.map_cons, List.map_nil, List.sum_cons, List.sum_nil, Wave.at, threeBeam, lateralPhase, axialPhase, axialFreq]
  rw [show 2 * Real.pi * (0 * z + 0 * y + 0 * x) = 0 by ring, Real.cos_zero]
  set φ := 2 * Real.pi * a / l * (x * Real.cos o + y * Real.sin o) with hφ
  set ψ := 2 * Real.pi * n / l * (1 - Real.sqrt (1 - (a / n) ^ 2)) * z with hψ
  rw [show 2 * Real.pi * (0 * z + 2 * (a / l) * Real.sin o * y + 2 * (a / l) * Real.cos o * x) = 2 * φ by rw [hφ]; ring]
  rw [show 2 * Real.pi * (n / l * (1 - Real.sqrt (1 - (a / n) ^ 2)) * z + a / l * Real.sin o * y + a / l * Real.cos o * x) = φ + ψ by
    rw [hφ, hψ]; ring]
  rw [show 2 * Real.pi * (-(n / l * (1 - Real.sqrt (1 - (a / n) ^ 2))) * z + a / l * Real.sin o * y + a / l * Real.cos o * x) = φ - ψ by
    rw [hφ, hψ]; ring]
  rw [Real.cos_add, Real.cos_sub]
  ring

theorem fiveBeam_waves (n a l o o' z y x : ℝ) : fiveBeam (lateralPhase a l o x y) (lateralPhase a l o' x y) (axialPhase n a l z) =
    ([⟨5, 0, 0, 0⟩, ⟨2, 0, 2 * (a / l) * Real.sin o, 2 * (a / l) * Real.cos o⟩, ⟨2, 0, 2 * (a / l) * Real.sin o', 2 * (a / l) * Real.cos o'⟩,
      ⟨4, 0, a / l * Real.sin o + a / l * Real.sin o', a / l * Real.cos o + a / l * Real.cos o'⟩,
      ⟨4, 0, a / l * Real.sin o - a / l * Real.sin o', a / l * Real.cos o - a / l * Real.cos o'⟩,
      ⟨2, axialFreq n a l, a / l * Real.sin o, a / l * Real.cos o⟩,
      ⟨2, -axialFreq n a l, a / l * Real.sin o, a / l * Real.cos o⟩,
      ⟨2, axialFreq n a l, a / l * Real.sin o', a / l * Real.cos o'⟩,
      ⟨2, -axialFreq n a l, a / l * Real.sin o', a / l * Real.cos o'⟩].map fun w : Wave => w.at z y x).sum := by
  simp only [List.map_cons, List.map_nil, List.sum_cons, List.sum_nil, Wave.at, fiveBeam, lateralPhase, axialPhase, axialFreq]
  rw [show 2 * Real.pi * (0 * z + 0 * y + 0 * x) = 0 by ring, Real.cos_zero]
  set φ := 2 * Real.pi * a / l * (x * Real.cos o + y * Real.sin o) with hφ
  set φ' := 2 * Real.pi * a / l * (x * Real.cos o' + y * Real.sin o') with hφ'
  set ψ := 2 * Real.pi * n / l * (1 - Real.sqrt (1 - (a / n) ^ 2)) * z with hψ
  rw [show 2 * Real.pi * (0 * z + 2 * (a / l) * Real.sin o * y + 2 * (a / l) * Real.cos o * x) = 2 * φ by rw [hφ]; ring]
  rw [show 2 * Real.pi * (0 * z + 2 * (a / l) * Real.sin o' * y + 2 * (a / l) * Real.cos o' * x) = 2 * φ' by rw [hφ']; ring]
  rw [show 2 * Real.pi * (0 * z + (a / l * Real.sin o + a / l * Real.sin o') * y + (a / l * Real.cos o + a / l * Real.cos o') * x) = φ + φ' by
    rw [hφ, hφ']; ring]
  rw [show 2 * Real.pi * (0 * z + (a / l * Real.sin o - a / l * Real.sin o') * y + (a / l * Real.cos o - a / l * Real.cos o') * x) = φ - φ' by
    rw [hφ, hφ']; ring]
  rw [show 2 * Real.pi * (n / l * (1 - Real.sqrt (1 - (a / n) ^ 2)) * z + a / l * Real.sin o * y + a / l * Real.cos o * x) = φ + ψ by
    rw [hφ, hψ]; ring]
  rw [show 2 * Real.pi * (-(n / l * (1 - Real.sqrt (1 - (a / n) ^ 2))) * z + a / l * Real.sin o * y + a / l * Real.cos o * x) = φ - ψ by
    rw [hφ, hψ]; ring]
  rw [show 2 * Real.pi * (n / l * (1 - Real.sqrt (1 - (a / n) ^ 2)) * z + a / l * Real.sin o' * y + a / l * Real.cos o' * x) = φ' + ψ by
    rw [hφ', hψ]; ring]
  rw [show 2 * Real.pi * (-(n / l * (1 - Real.sqrt (1 - (a / n) ^ 2))) * z + a / l * Real.sin o' * y + a / l * Real.cos o' * x) = φ' - ψ by
    rw [hφ', hψ]; ring]
  simp only [Real.cos_add, Real.cos_sub, Real.cos_two_mul]
  ring

/-- The waves of all orientations and the suppression of the unmodulated part. -/
noncomputable def simWaves (dc ds : Bool) (n a l : ℝ) (os : List ℝ) : List Wave :=
  ⟨if ds then -(2 * (os.length : ℝ) - 1) else 0, 0, 0, 0⟩ :: os.flatMap fun o => if dc then
    [⟨3, 0, 0, 0⟩, ⟨2, 0, 2 * (a / l) * Real.sin o, 2 * (a / l) * Real.cos o⟩,
      ⟨2, axialFreq n a l, a / l * Real.sin o, a / l * Real.cos o⟩,
      ⟨2, -axialFreq n a l, a / l * Real.sin o, a / l * Real.cos o⟩]
    else [⟨2, 0, 0, 0⟩, ⟨2, 0, 2 * (a / l) * Real.sin o, 2 * (a / l) * Real.cos o⟩]

theorem sum_map_flatMap {α : Type} (os : List α) (F : α → List Wave) {M : Type} [AddCommMonoid M] (f : Wave → M) :
    ((os.flatMap F).map f).sum = (os.map fun o => ((F o).map f).sum).sum := by
  induction os with
  | nil => rfl
  | cons o os ih => simp only [List.flatMap_cons, List.map_append, List.sum_append, List.map_cons, List.sum_cons, ih]

theorem sim_pattern (m : Micro) (dc ds : Bool) (os : List ℝ) (N Z : ℕ) (d dz n a l : ℚ) (p : Arr ℝ)
    (h : SimSetting m false dc ds os N Z d dz n a l p) : ∃ c, (Micro.modelPsf m).1 = .ok c ∧ c.shape = [Z, N, N] ∧
    ∀ fz fy fx : ℝ, spectrumAt c Z N dz d fz fy fx = ((simWaves dc ds n a l os).map fun w => w.bands p Z N dz d fz fy fx).sum := by
  obtain ⟨c, h1, h2, h3⟩ := C59_incoherent m dc ds os N Z d dz n a l p h
  refine ⟨c, h1, h2, fun fz fy fx => spectrum_pattern p c Z N dz d _ (fun iz _ iy _ ix _ => ?_) fz fy fx⟩
  rw [h3, simWaves, List.map_cons, List.sum_cons, sum_map_flatMap]
  congr 1
  have e0 : ∀ w : ℝ, (⟨w, 0, 0, 0⟩ : Wave).at (position Z dz iz) (position N d iy) (position N d ix) = w := fun w => by
    simp [Wave.at]
  rw [e0, sub_eq_neg_add]
  congr 1
  · cases ds <;> simp
  · refine congrArg List.sum (List.map_congr_left fun o _ => ?_)
    cases dc
    · simp only [Bool.false_eq_true, if_false]
      exact twoBeam_waves a l o _ _ _
    · simp only [if_true]
      exact threeBeam_waves n a l o _ _ _

theorem bands_zero (w : ℝ) (p : Arr ℝ) (Z N : ℕ) (dz d fz fy fx : ℝ) :
    (⟨w, 0, 0, 0⟩ : Wave).bands p Z N dz d fz fy fx = w * spectrumAt p Z N dz d fz fy fx := by
  simp only [Wave.bands, sub_zero, add_zero]; ring

/-- C113: the spectrum of the PSF of a two-beam (2D) SIM microscope: for every orientation twice the spectrum of the (filtered) model PSF and a copy
displaced by the pattern frequency `2 na_exc / wl_exc` either way; with `dc_suppress` the unmodulated part has the weight 1. -/
theorem C113_bands_2d (m : Micro) (ds : Bool) (os : List ℝ) (N Z : ℕ) (d dz n a l : ℚ) (p : Arr ℝ)
    (h : SimSetting m false false ds os N Z d dz n a l p) : ∃ c, (Micro.modelPsf m).1 = .ok c ∧ c.shape = [Z, N, N] ∧
    ∀ fz fy fx : ℝ, spectrumAt c Z N dz d fz fy fx = (if ds then 1 else 2 * (os.length : ℂ)) * spectrumAt p Z N dz d fz fy fx +
      (os.map fun o => let gy : ℝ := 2 * (a / l) * Real.sin o; let gx : ℝ := 2 * (a / l) * Real.cos o
        spectrumAt p Z N dz d fz (fy - gy) (fx - gx) + spectrumAt p Z N dz d fz (fy + gy) (fx + gx)).sum := by
  obtain ⟨c, h1, h2, h3⟩ := sim_pattern m false ds os N Z d dz n a l p h
  refine ⟨c, h1, h2, fun fz fy fx => ?_⟩
  rw [h3, simWaves, List.map_cons, List.sum_cons, sum_map_flatMap, bands_zero]
  simp only [Bool.false_eq_true, if_false, List.map_cons, List.map_nil, List.sum_cons, List.sum_nil, bands_zero, add_zero]
  rw [List.sum_map_add]
  have e : ∀ (os : List ℝ) (c : ℂ), (os.map fun _ => c).sum = os.length * c := by
    intro os c
    simp
  rw [e]
  have e2 : (os.map fun o => (⟨2, 0, 2 * (a / l) * Real.sin o, 2 * (a / l) * Real.cos o⟩ : Wave).bands p Z N dz d fz fy fx) =
      os.map fun o => spectrumAt p Z N dz d fz (fy - 2 * (a / l) * Real.sin o) (fx - 2 * (a / l) * Real.cos o) +
        spectrumAt p Z N dz d fz (fy + 2 * (a / l) * Real.sin o) (fx + 2 * (a / l) * Real.cos o) := by
    refine List.map_congr_left fun o _ => ?_
    simp only [Wave.bands, sub_zero, add_zero]; push_cast; ring
  rw [e2]
  cases ds <;> simp <;> ring

/-- C113: three-beam (3D) SIM: for every orientation three times the spectrum, a copy at the pattern frequency either way, and copies at half that
frequency displaced axially either way. -/
theorem C113_bands_3d (m : Micro) (ds : Bool) (os : List ℝ) (N Z : ℕ) (d dz n a l : ℚ) (p : Arr ℝ)
    (h : SimSetting m false true ds os N Z d dz n a l p) : ∃ c, (Micro.modelPsf m).1 = .ok c ∧ c.shape = [Z, N, N] ∧
    ∀ fz fy fx : ℝ, spectrumAt c Z N dz d fz fy fx =
      (3 * (os.length : ℂ) - if ds then 2 * (os.length : ℂ) - 1 else 0) * spectrumAt p Z N dz d fz fy fx +
      (os.map fun o => let gy : ℝ := a / l * Real.sin o; let gx : ℝ := a / l * Real.cos o; let gz := axialFreq n a l
        spectrumAt p Z N dz d fz (fy - 2 * gy) (fx - 2 * gx) + spectrumAt p Z N dz d fz (fy + 2 * gy) (fx + 2 * gx) +
        spectrumAt p Z N dz d (fz - gz) (fy - gy) (fx - gx) + spectrumAt p Z N dz d (fz + gz) (fy + gy) (fx + gx) +
        spectrumAt p Z N dz d (fz + gz) (fy - gy) (fx - gx) + spectrumAt p Z N dz d (fz - gz) (fy + gy) (fx + gx)).sum := by
  obtain ⟨c, h1, h2, h3⟩ := sim_pattern m true ds os N Z d dz n a l p h
  refine ⟨c, h1, h2, fun fz fy fx => ?_⟩
  rw [h3, simWaves, List.map_cons, List.sum_cons, sum_map_flatMap, bands_zero]
  simp only [if_true, List.map_cons, List.map_nil, List.sum_cons, List.sum_nil, bands_zero, add_zero]
  rw [List.sum_map_add]
  have e : ∀ (os : List ℝ) (c : ℂ), (os.map fun _ => c).sum = os.length * c := by
    intro os c
    simp
  rw [e]
  have e2 : (os.map fun o => (⟨2, 0, 2 * (a / l) * Real.sin o, 2 * (a / l) * Real.cos o⟩ : Wave).bands p Z N dz d fz fy fx +
      ((⟨2, axialFreq n a l, a / l * Real.sin o, a / l * Real.cos o⟩ : Wave).bands p Z N dz d fz fy fx +
       (⟨2, -axialFreq n a l, a / l * Real.sin o, a / l * Real.cos o⟩ : Wave).bands p Z N dz d fz fy fx)) =
      os.map fun o => let gy : ℝ := a / l * Real.sin o; let gx : ℝ := a / l * Real.cos o; let gz := axialFreq n a l
        spectrumAt p Z N dz d fz (fy - 2 * gy) (fx - 2 * gx) + spectrumAt p Z N dz d fz (fy + 2 * gy) (fx + 2 * gx) +
        spectrumAt p Z N dz d (fz - gz) (fy - gy) (fx - gx) + spectrumAt p Z N dz d (fz + gz) (fy + gy) (fx + gx) +
        spectrumAt p Z N dz d (fz + gz) (fy - gy) (fx - gx) + spectrumAt p Z N dz d (fz - gz) (fy + gy) (fx + gx) := by
    refine List.map_congr_left fun o _ => ?_
    simp only [Wave.bands, sub_zero, add_zero, mul_assoc, sub_neg_eq_add, ← sub_eq_add_neg]; push_cast; ring
  rw [e2]
  cases ds <;> simp <;> ring

theorem lattice_pattern (m : Micro) (ds : Bool) (o o' : ℝ) (N Z : ℕ) (d dz n a l : ℚ) (p : Arr ℝ)
    (h : SimSetting m true true ds [o, o'] N Z d dz n a l p) : ∃ c, (Micro.modelPsf m).1 = .ok c ∧ c.shape = [Z, N, N] ∧
    ∀ fz fy fx : ℝ, spectrumAt c Z N dz d fz fy fx = (([⟨5, 0, 0, 0⟩, ⟨2, 0, 2 * (a / l) * Real.sin o, 2 * (a / l) * Real.cos o⟩, ⟨2, 0, 2 * (a / l) * Real.sin o', 2 * (a / l) * Real.cos o'⟩,
      ⟨4, 0, a / l * Real.sin o + a / l * Real.sin o', a / l * Real.cos o + a / l * Real.cos o'⟩,
      ⟨4, 0, a / l * Real.sin o - a / l * Real.sin o', a / l * Real.cos o - a / l * Real.cos o'⟩,
      ⟨2, axialFreq n a l, a / l * Real.sin o, a / l * Real.cos o⟩,
      ⟨2, -axialFreq n a l, a / l * Real.sin o, a / l * Real.cos o⟩,
      ⟨2, axialFreq n a l, a / l * Real.sin o', a / l * Real.cos o'⟩,
      ⟨2, -axialFreq n a l, a / l * Real.sin o', a / l * Real.cos o'⟩] : List Wave).map fun w => w.bands p Z N dz d fz fy fx).sum := by
  obtain ⟨c, h1, h2, h3⟩ := C59_lattice m ds o o' N Z d dz n a l p h
  refine ⟨c, h1, h2, fun fz fy fx => spectrum_pattern p c Z N dz d _ (fun iz _ iy _ ix _ => ?_) fz fy fx⟩
  rw [h3, fiveBeam_waves]

/-- C113: the lattice: the pairs of two orientations `o`, `o'` also interfere with one another. -/
theorem C113_bands_lattice (m : Micro) (ds : Bool) (o o' : ℝ) (N Z : ℕ) (d dz n a l : ℚ) (p : Arr ℝ)
    (h : SimSetting m true true ds [o, o'] N Z d dz n a l p) : ∃ c, (Micro.modelPsf m).1 = .ok c ∧ c.shape = [Z, N, N] ∧
    ∀ fz fy fx : ℝ, let gy : ℝ := a / l * Real.sin o; let gx : ℝ := a / l * Real.cos o
      let gy' : ℝ := a / l * Real.sin o'; let gx' : ℝ := a / l * Real.cos o'; let gz := axialFreq n a l
      spectrumAt c Z N dz d fz fy fx = 5 * spectrumAt p Z N dz d fz fy fx +
        (spectrumAt p Z N dz d fz (fy - 2 * gy) (fx - 2 * gx) + spectrumAt p Z N dz d fz (fy + 2 * gy) (fx + 2 * gx) +
         spectrumAt p Z N dz d fz (fy - 2 * gy') (fx - 2 * gx') + spectrumAt p Z N dz d fz (fy + 2 * gy') (fx + 2 * gx')) +
        2 * (spectrumAt p Z N dz d fz (fy - (gy + gy')) (fx - (gx + gx')) + spectrumAt p Z N dz d fz (fy + (gy + gy')) (fx + (gx + gx')) +
         spectrumAt p Z N dz d fz (fy - (gy - gy')) (fx - (gx - gx')) + spectrumAt p Z N dz d fz (fy + (gy - gy')) (fx + (gx - gx'))) +
        (spectrumAt p Z N dz d (fz - gz) (fy - gy) (fx - gx) + spectrumAt p Z N dz d (fz + gz) (fy + gy) (fx + gx) +
         spectrumAt p Z N dz d (fz + gz) (fy - gy) (fx - gx) + spectrumAt p Z N dz d (fz - gz) (fy + gy) (fx + gx) +
         spectrumAt p Z N dz d (fz - gz) (fy - gy') (fx - gx') + spectrumAt p Z N dz d (fz + gz) (fy + gy') (fx + gx') +
         spectrumAt p Z N dz d (fz + gz) (fy - gy') (fx - gx') + spectrumAt p Z N dz d (fz - gz) (fy + gy') (fx + gx')) := by
  obtain ⟨c, h1, h2, h3⟩ := lattice_pattern m ds o o' N Z d dz n a l p h
  refine ⟨c, h1, h2, fun fz fy fx => ?_⟩
  intro gy gx gy' gx' gz
  rw [h3]
  simp only [List.map_cons, List.map_nil, List.sum_cons, List.sum_nil, Wave.bands, sub_zero, add_zero, mul_assoc,
    sub_neg_eq_add, ← sub_eq_add_neg]
  push_cast
  ring

/-! ## The OTF of the microscope -/

theorem position_turns {n : ℕ} (hn : 0 < n) {d : ℝ} (hd : d ≠ 0) (k j : ℕ) : otfFreq n d k * position n d j + oddTurns n k = turns n j k := by
  have h : (((n + 1) / 2 : ℕ) : ℝ) = (n / 2 : ℕ) + (n % 2 : ℕ) := by
    rw [← Nat.cast_add]; congr 1; omega
  have hn' : (n : ℝ) ≠ 0 := by exact_mod_cast hn.ne'
  rw [otfFreq, position, oddTurns, turns, h]
  generalize ((n / 2 : ℕ) : ℝ) = c
  generalize ((n % 2 : ℕ) : ℝ) = e
  field_simp
  ring

/-- `easy_fft` samples this spectrum; on odd axes its origin is one pixel off, which is a phase. -/
theorem easyFft_spectrumAt (c : Arr ℝ) (Z N : ℕ) (dz d : ℝ) (hs : c.shape = [Z, N, N]) (hdz : dz ≠ 0) (hd : d ≠ 0) (kz ky kx : ℕ)
    (h1 : kz < Z) (h2 : ky < N) (h3 : kx < N) : (easyFft none (c.map fun (v : ℝ) => (v : ℂ))).get [kz, ky, kx] =
      exp (-(2 * Real.pi * I * ((oddTurns Z kz + oddTurns N ky + oddTurns N kx : ℝ) : ℂ))) *
        spectrumAt c Z N dz d (otfFreq Z dz kz) (otfFreq N d ky) (otfFreq N d kx) := by
  rw [easyFft3_get (c.map fun (v : ℝ) => (v : ℂ)) Z N N hs kz ky kx h1 h2 h3, spectrumAt, Finset.mul_sum]
  refine Finset.sum_congr rfl fun z _ => ?_
  rw [Finset.mul_sum]
  refine Finset.sum_congr rfl fun y _ => ?_
  rw [Finset.mul_sum]
  refine Finset.sum_congr rfl fun x _ => ?_
  rw [W_neg_turns, W_neg_turns, W_neg_turns]
  show (c.get [z, y, x] : ℂ) * _ = _
  rw [mul_left_comm (exp _)]
  congr 1
  rw [← exp_add, ← exp_add, planeWave, ← exp_add, ← position_turns (by omega : 0 < Z) hdz kz z, ← position_turns (by omega : 0 < N) hd ky y,
    ← position_turns (by omega : 0 < N) hd kx x]
  congr 1
  push_cast
  ring

/-- C113: without oversampling, the OTF of a microscope is the spectrum of its model PSF divided by the value at zero frequency, sampled at the
frequencies `(k - n // 2) / (n d)`; on odd axes there is a phase factor besides. -/
theorem C113_otf (m : Micro) (hp : m.psf = none) (ht : m.otf = none) (ho : pyInt m.oversample = 1) (c : Arr ℝ)
    (hc : (Micro.modelPsf m).1 = .ok c) (Z N : ℕ) (hs : c.shape = [Z, N, N]) (h0 : c.sum ≠ 0) (dz d : ℝ) (hdz : dz ≠ 0) (hd : d ≠ 0) :
    spectrumAt c Z N dz d 0 0 0 = c.sum ∧ ∃ t, (Micro.getOTF m).1 = .ok t ∧ t.shape = [Z, N, N] ∧ ∀ kz < Z, ∀ ky < N, ∀ kx < N,
      t.get [kz, ky, kx] = exp (-(2 * Real.pi * I * ((oddTurns Z kz + oddTurns N ky + oddTurns N kx : ℝ) : ℂ))) *
        spectrumAt c Z N dz d (otfFreq Z dz kz) (otfFreq N d ky) (otfFreq N d kx) / spectrumAt c Z N dz d 0 0 0 := by
  have hsum : spectrumAt c Z N dz d 0 0 0 = c.sum := by
    rw [sum3 c Z N N hs, spectrumAt]
    push_cast
    refine Finset.sum_congr rfl fun z _ => Finset.sum_congr rfl fun y _ => Finset.sum_congr rfl fun x _ => ?_
    simp [planeWave]
  have hb : binned (pyInt m.oversample) (pyInt m.psfParams.size).toNat c = .ok c := by
    rw [ho, binned, if_neg (by norm_num)]
  have hg := C53_exists m hp c c hc hb h0
  refine ⟨hsum, easyFft none ((c.map fun v => v / c.sum).map fun (v : ℝ) => (v : ℂ)), ?_, ?_, ?_⟩
  · rw [getOTF_run, ht]
    rcases hm : Micro.getPSF m with ⟨e | a, m'⟩
    · rw [hm] at hg; cases hg
    · rw [hm] at hg; cases hg; rfl
  · rw [easyFft_shape]; exact hs
  · intro kz h1 ky h2 kx h3
    rw [hsum]
    have e := easyFft_spectrumAt (c.map fun v => v / c.sum) Z N dz d hs hdz hd kz ky kx h1 h2 h3
    rw [e, mul_div_assoc]
    congr 1
    rw [spectrumAt, spectrumAt, Finset.sum_div]
    refine Finset.sum_congr rfl fun z _ => ?_
    rw [Finset.sum_div]
    refine Finset.sum_congr rfl fun y _ => ?_
    rw [Finset.sum_div]
    refine Finset.sum_congr rfl fun x _ => ?_
    simp only [Arr.map]
    push_cast
    ring

/-! ## C114: resolution -/

/-- The planes of the image contain no lateral frequency of `ρ` or more. -/
def CutOff (p : Arr ℝ) (Z N : ℕ) (d ρ : ℝ) : Prop := ∀ z < Z, ∀ jy jx : ℤ, |2 * jy| ≤ N → |2 * jx| ≤ N →
  ρ ≤ √((jy / (N * d)) ^ 2 + (jx / (N * d)) ^ 2) →
  ∑ y ∈ Finset.range N, ∑ x ∈ Finset.range N, (p.get [z, y, x] : ℂ) * exp (-(2 * Real.pi * I * (((jy * y + jx * x) / N : ℝ) : ℂ))) = 0

/-- Every integer frequency has an alias within the Nyquist limits. -/
theorem alias_exists {N : ℕ} (hN : 0 < N) (m : ℤ) : ∃ j : ℤ, (N : ℤ) ∣ m - j ∧ |2 * j| ≤ N := by
  by_cases h : 2 * (m % N) ≤ N
  · refine ⟨m % N, Int.dvd_self_sub_emod, ?_⟩
    rw [abs_le]
    have := Int.emod_nonneg m (by omega : (N : ℤ) ≠ 0)
    constructor <;> omega
  · refine ⟨m % N - N, ?_, ?_⟩
    · rw [← sub_add]; exact dvd_add Int.dvd_self_sub_emod dvd_rfl
    · rw [abs_le]
      have := Int.emod_lt_of_pos m (by omega : (0 : ℤ) < N)
      constructor <;> omega

theorem alias_far {N : ℕ} {ky kx sy sx jy jx : ℤ} {R G : ℝ} (hky : |2 * ky| ≤ N) (hkx : |2 * kx| ≤ N) (hG : √((sy : ℝ) ^ 2 + (sx : ℝ) ^ 2) ≤ G)
    (h1 : R + G ≤ √((ky : ℝ) ^ 2 + (kx : ℝ) ^ 2)) (h2 : R + G ≤ N / 2) (dy : (N : ℤ) ∣ (ky - sy) - jy) (dx : (N : ℤ) ∣ (kx - sx) - jx) :
    R ≤ √((jy : ℝ) ^ 2 + (jx : ℝ) ^ 2) := by
  have far : ∀ k s j : ℤ, |2 * k| ≤ N → (N : ℤ) ∣ (k - s) - j → k - s ≠ j → |(s : ℝ)| ≤ G → R ≤ |(j : ℝ)| := by
    intro k s j hk hd hne hs
    have h3 : (N : ℤ) ≤ |k - s - j| := by
      by_contra hlt
      exact hne (by have := Int.eq_zero_of_abs_lt_dvd hd (by omega); omega)
    have h4 : (N : ℝ) ≤ |(k : ℝ) - s - j| := by exact_mod_cast h3
    have h5 : |2 * (k : ℝ)| ≤ N := by exact_mod_cast hk
    rw [abs_mul, abs_of_pos (by norm_num : (0 : ℝ) < 2)] at h5
    have h6 : |(k : ℝ) - s - j| ≤ |(k : ℝ)| + |(s : ℝ)| + |(j : ℝ)| := by
      calc |(k : ℝ) - s - j| ≤ |(k : ℝ) - s| + |(j : ℝ)| := abs_sub _ _
        _ ≤ _ := by linarith [abs_sub (k : ℝ) s]
    linarith
  have sy' : |(sy : ℝ)| ≤ G := le_trans (Real.abs_le_sqrt (by nlinarith [sq_nonneg (sx : ℝ)])) hG
  have sx' : |(sx : ℝ)| ≤ G := le_trans (Real.abs_le_sqrt (by nlinarith [sq_nonneg (sy : ℝ)])) hG
  by_cases ey : ky - sy = jy
  · by_cases ex : kx - sx = jx
    · subst ey ex
      have t : ∀ a b : ℝ, √(a ^ 2 + b ^ 2) = ‖(⟨a, b⟩ : ℂ)‖ := fun a b => by rw [Complex.norm_eq_sqrt_sq_add_sq]
      rw [t] at h1 hG ⊢
      have := norm_add_le (⟨((ky - sy : ℤ) : ℝ), ((kx - sx : ℤ) : ℝ)⟩ : ℂ) ⟨(sy : ℝ), (sx : ℝ)⟩
      rw [show (⟨((ky - sy : ℤ) : ℝ), ((kx - sx : ℤ) : ℝ)⟩ : ℂ) + ⟨(sy : ℝ), (sx : ℝ)⟩ = ⟨(ky : ℝ), (kx : ℝ)⟩ by
        apply Complex.ext <;> simp] at this
      linarith
    · exact le_trans (far _ _ _ hkx dx ex sx') (Real.abs_le_sqrt (by nlinarith [sq_nonneg (jy : ℝ)]))
  · exact le_trans (far _ _ _ hky dy ey sy') (Real.abs_le_sqrt (by nlinarith [sq_nonneg (jx : ℝ)]))

theorem sqrt_scale {D : ℝ} (hD : 0 < D) (a b : ℝ) : √((a / D) ^ 2 + (b / D) ^ 2) = √(a ^ 2 + b ^ 2) / D := by
  rw [div_pow, div_pow, ← add_div, Real.sqrt_div' _ (by positivity), Real.sqrt_sq hD.le]

/-- The spectrum of an image with a cut-off, displaced by a multiple of the sampling frequency. -/
theorem cutoff_shifted {p : Arr ℝ} {Z N : ℕ} {d ρ : ℝ} (hc : CutOff p Z N d ρ) (hd : 0 < d) (dz fz fy fx gy gx G : ℝ) (ky kx : ℕ) (hky : ky < N)
    (hkx : kx < N) (hfy : fy = otfFreq N d ky) (hfx : fx = otfFreq N d kx) (ey : ∃ s : ℤ, gy * (N * d) = s) (ex : ∃ s : ℤ, gx * (N * d) = s)
    (hG : √(gy ^ 2 + gx ^ 2) ≤ G) (h1 : ρ + G ≤ √(fy ^ 2 + fx ^ 2)) (h2 : ρ + G ≤ 1 / (2 * d)) :
    spectrumAt p Z N dz d fz (fy - gy) (fx - gx) = 0 := by
  obtain ⟨sy, ey⟩ := ey
  obtain ⟨sx, ex⟩ := ex
  have hN : 0 < N := by omega
  have hN' : (0 : ℝ) < N := by exact_mod_cast hN
  have hD : (0 : ℝ) < N * d := by positivity
  obtain ⟨jy, ay, by'⟩ := alias_exists hN ((ky : ℤ) - (N / 2 : ℕ) - sy)
  obtain ⟨jx, ax, bx'⟩ := alias_exists hN ((kx : ℤ) - (N / 2 : ℕ) - sx)
  have gy' : gy = sy / (N * d) := by rw [← ey]; field_simp
  have gx' : gx = sx / (N * d) := by rw [← ex]; field_simp
  have fy' : fy = (((ky : ℤ) - (N / 2 : ℕ) : ℤ) : ℝ) / (N * d) := by rw [hfy, otfFreq]; push_cast; rfl
  have fx' : fx = (((kx : ℤ) - (N / 2 : ℕ) : ℤ) : ℝ) / (N * d) := by rw [hfx, otfFreq]; push_cast; rfl
  have hR : ρ * (N * d) ≤ √((jy : ℝ) ^ 2 + (jx : ℝ) ^ 2) := by
    refine alias_far (R := ρ * (N * d)) (G := G * (N * d)) (ky := (ky : ℤ) - (N / 2 : ℕ)) (kx := (kx : ℤ) - (N / 2 : ℕ)) (sy := sy) (sx := sx)
      (by rw [abs_le]; constructor <;> omega) (by rw [abs_le]; constructor <;> omega) ?_ ?_ ?_ ay ax
    · rw [gy', gx', sqrt_scale hD, div_le_iff₀ hD] at hG; exact hG
    · rw [fy', fx', sqrt_scale hD, le_div_iff₀ hD, add_mul] at h1; exact h1
    · rw [← add_mul, ← le_div_iff₀ hD]
      refine h2.trans (le_of_eq ?_)
      field_simp
  rw [spectrumAt]
  refine Finset.sum_eq_zero fun z hz => ?_
  have key := hc z (Finset.mem_range.mp hz) jy jx by' bx' (by rw [sqrt_scale hD, le_div_iff₀ hD]; exact hR)
  have e : ∀ y x : ℕ, planeWave fz (fy - gy) (fx - gx) (position Z dz z) (position N d y) (position N d x) =
      (exp (-(2 * Real.pi * I * ((fz * position Z dz z : ℝ) : ℂ))) *
        (W N (((ky : ℤ) - (N / 2 : ℕ) - sy) * ((N + 1) / 2 : ℕ)) * W N (((kx : ℤ) - (N / 2 : ℕ) - sx) * ((N + 1) / 2 : ℕ)))) *
        exp (-(2 * Real.pi * I * (((jy * y + jx * x) / N : ℝ) : ℂ))) := by
    intro y x
    have w1 : exp (-(2 * Real.pi * I * (((jy * y + jx * x) / N : ℝ) : ℂ))) = W N (-(jy * y)) * W N (-(jx * x)) := by
      rw [W, W, ← exp_add]; congr 1; push_cast; ring
    have w2 : W N (-(jy * y)) = W N (-(((ky : ℤ) - (N / 2 : ℕ) - sy) * y)) := by
      apply W_modEq hN
      obtain ⟨q, hq⟩ := ay
      exact ⟨q * y, by linear_combination (y : ℤ) * hq⟩
    have w3 : W N (-(jx * x)) = W N (-(((kx : ℤ) - (N / 2 : ℕ) - sx) * x)) := by
      apply W_modEq hN
      obtain ⟨q, hq⟩ := ax
      exact ⟨q * x, by linear_combination (x : ℤ) * hq⟩
    rw [w1, w2, w3]
    simp only [planeWave, position]
    generalize (N / 2 : ℕ) = c at *
    generalize ((N + 1) / 2 : ℕ) = c' at *
    generalize ((Z + 1) / 2 : ℕ) = c'' at *
    rw [W, W, W, W, ← exp_add, ← exp_add, ← exp_add, ← exp_add, fy', fx', gy', gx']
    congr 1
    have hd' : (d : ℂ) ≠ 0 := by exact_mod_cast hd.ne'
    have hN'' : (N : ℂ) ≠ 0 := by exact_mod_cast hN'.ne'
    push_cast
    field_simp
    ring
  simp only [e]
  calc _ = (exp (-(2 * Real.pi * I * ((fz * position Z dz z : ℝ) : ℂ))) *
        (W N (((ky : ℤ) - (N / 2 : ℕ) - sy) * ((N + 1) / 2 : ℕ)) * W N (((kx : ℤ) - (N / 2 : ℕ) - sx) * ((N + 1) / 2 : ℕ)))) *
        ∑ y ∈ Finset.range N, ∑ x ∈ Finset.range N, (p.get [z, y, x] : ℂ) * exp (-(2 * Real.pi * I * (((jy * y + jx * x) / N : ℝ) : ℂ))) := by
        rw [Finset.mul_sum]
        refine Finset.sum_congr rfl fun y _ => ?_
        rw [Finset.mul_sum]
        refine Finset.sum_congr rfl fun x _ => ?_
        ring
    _ = 0 := by rw [key, mul_zero]

theorem waves_cutoff {p : Arr ℝ} {Z N : ℕ} {d ρ : ℝ} (hc : CutOff p Z N d ρ) (hd : 0 < d) (dz fz fy fx G : ℝ) (ky kx : ℕ) (hky : ky < N)
    (hkx : kx < N) (hfy : fy = otfFreq N d ky) (hfx : fx = otfFreq N d kx) (ws : List Wave)
    (hw : ∀ w ∈ ws, (∃ s : ℤ, w.gy * (N * d) = s) ∧ (∃ s : ℤ, w.gx * (N * d) = s) ∧ √(w.gy ^ 2 + w.gx ^ 2) ≤ G)
    (h1 : ρ + G ≤ √(fy ^ 2 + fx ^ 2)) (h2 : ρ + G ≤ 1 / (2 * d)) : (ws.map fun w => w.bands p Z N dz d fz fy fx).sum = 0 := by
  refine List.sum_eq_zero fun v hv => ?_
  obtain ⟨w, hw', rfl⟩ := List.mem_map.mp hv
  obtain ⟨⟨sy, ey⟩, ⟨sx, ex⟩, e3⟩ := hw w hw'
  have z1 := cutoff_shifted hc hd dz (fz - w.gz) fy fx w.gy w.gx G ky kx hky hkx hfy hfx ⟨sy, ey⟩ ⟨sx, ex⟩ e3 h1 h2
  have z2 := cutoff_shifted hc hd dz (fz + w.gz) fy fx (-w.gy) (-w.gx) G ky kx hky hkx hfy hfx ⟨-sy, by push_cast; rw [← ey]; ring⟩
    ⟨-sx, by push_cast; rw [← ex]; ring⟩ (by simpa using e3) h1 h2
  rw [sub_neg_eq_add, sub_neg_eq_add] at z2
  rw [Wave.bands, z1, z2]
  simp

theorem sqrt_polar (g o : ℝ) : √((g * Real.sin o) ^ 2 + (g * Real.cos o) ^ 2) = |g| := by
  rw [show (g * Real.sin o) ^ 2 + (g * Real.cos o) ^ 2 = g ^ 2 by have := Real.sin_sq_add_cos_sq o; linear_combination g ^ 2 * this, Real.sqrt_sq_eq_abs]

/-- The pattern of orientation `o` repeats in the field of view: its wave vector `g (sin o, cos o)` is a multiple of the sampling frequency. -/
def OnGrid (g o : ℝ) (N : ℕ) (d : ℝ) : Prop := (∃ s : ℤ, g * Real.sin o * (N * d) = s) ∧ ∃ s : ℤ, g * Real.cos o * (N * d) = s

theorem onGrid_two {g o : ℝ} {N : ℕ} {d : ℝ} (h : OnGrid g o N d) : OnGrid (2 * g) o N d := by
  obtain ⟨⟨s, h1⟩, ⟨s', h2⟩⟩ := h
  exact ⟨⟨2 * s, by push_cast; rw [← h1]; ring⟩, ⟨2 * s', by push_cast; rw [← h2]; ring⟩⟩

/-- C114: resolution of 2D and 3D SIM.  If the model PSF has no lateral frequency of `ρ` or more, the SIM PSF has none of `ρ + 2 na_exc / wl_exc` or more
(as long as that is sampled, and the patterns repeat in the field of view). -/
theorem C114_resolution (m : Micro) (dc ds : Bool) (os : List ℝ) (N Z : ℕ) (d dz n a l : ℚ) (p : Arr ℝ)
    (h : SimSetting m false dc ds os N Z d dz n a l p) (hd : 0 < d) (ρ : ℝ) (hp : CutOff p Z N d ρ)
    (hg : ∀ o ∈ os, OnGrid ((if dc then 1 else 2) * (a / l)) o N d) (hny : ρ + 2 * |(a : ℝ) / l| ≤ 1 / (2 * d)) :
    ∃ c, (Micro.modelPsf m).1 = .ok c ∧ c.shape = [Z, N, N] ∧ ∀ (fz : ℝ) (ky kx : ℕ), ky < N → kx < N →
      ρ + 2 * |(a : ℝ) / l| ≤ √(otfFreq N d ky ^ 2 + otfFreq N d kx ^ 2) →
      spectrumAt c Z N dz d fz (otfFreq N d ky) (otfFreq N d kx) = 0 := by
  obtain ⟨c, h1, h2, h3⟩ := sim_pattern m dc ds os N Z d dz n a l p h
  refine ⟨c, h1, h2, fun fz ky kx hky hkx hf => ?_⟩
  rw [h3]
  have hd' : (0 : ℝ) < d := by exact_mod_cast hd
  refine waves_cutoff hp hd' dz fz _ _ (2 * |(a : ℝ) / l|) ky kx hky hkx rfl rfl _ ?_ hf hny
  intro w hw
  have z0 : ∀ c : ℝ, (∃ s : ℤ, (⟨c, 0, 0, 0⟩ : Wave).gy * (N * d) = s) ∧ (∃ s : ℤ, (⟨c, 0, 0, 0⟩ : Wave).gx * (N * d) = s) ∧
      √((⟨c, 0, 0, 0⟩ : Wave).gy ^ 2 + (⟨c, 0, 0, 0⟩ : Wave).gx ^ 2) ≤ 2 * |(a : ℝ) / l| :=
    fun c => ⟨⟨0, by simp⟩, ⟨0, by simp⟩, by simp⟩
  have n2 : ∀ o, √((2 * ((a : ℝ) / l) * Real.sin o) ^ 2 + (2 * ((a : ℝ) / l) * Real.cos o) ^ 2) ≤ 2 * |(a : ℝ) / l| := fun o => by
    rw [sqrt_polar, abs_mul, abs_of_pos (by norm_num : (0 : ℝ) < 2)]
  have n1 : ∀ o, √(((a : ℝ) / l * Real.sin o) ^ 2 + ((a : ℝ) / l * Real.cos o) ^ 2) ≤ 2 * |(a : ℝ) / l| := fun o => by
    rw [sqrt_polar]; linarith [abs_nonneg ((a : ℝ) / l)]
  unfold simWaves at hw
  rcases List.mem_cons.mp hw with rfl | hw
  · exact z0 _
  obtain ⟨o, ho, hw⟩ := List.mem_flatMap.mp hw
  have hgo := hg o ho
  cases dc
  · simp only [Bool.false_eq_true, if_false, List.mem_cons, List.not_mem_nil, or_false] at hw hgo
    rcases hw with rfl | rfl
    · exact z0 _
    · exact ⟨hgo.1, hgo.2, n2 o⟩
  · simp only [if_true, List.mem_cons, List.not_mem_nil, or_false, one_mul] at hw hgo
    have hgo2 := onGrid_two hgo
    rcases hw with rfl | rfl | rfl | rfl
    · exact z0 _
    · exact ⟨hgo2.1, hgo2.2, n2 o⟩
    · exact ⟨hgo.1, hgo.2, n1 o⟩
    · exact ⟨hgo.1, hgo.2, n1 o⟩

/-- C114: the same for the lattice. -/
theorem C114_resolution_lattice (m : Micro) (ds : Bool) (o o' : ℝ) (N Z : ℕ) (d dz n a l : ℚ) (p : Arr ℝ)
    (h : SimSetting m true true ds [o, o'] N Z d dz n a l p) (hd : 0 < d) (ρ : ℝ) (hp : CutOff p Z N d ρ)
    (hg : OnGrid (a / l) o N d) (hg' : OnGrid (a / l) o' N d) (hny : ρ + 2 * |(a : ℝ) / l| ≤ 1 / (2 * d)) :
    ∃ c, (Micro.modelPsf m).1 = .ok c ∧ c.shape = [Z, N, N] ∧ ∀ (fz : ℝ) (ky kx : ℕ), ky < N → kx < N →
      ρ + 2 * |(a : ℝ) / l| ≤ √(otfFreq N d ky ^ 2 + otfFreq N d kx ^ 2) →
      spectrumAt c Z N dz d fz (otfFreq N d ky) (otfFreq N d kx) = 0 := by
  obtain ⟨c, h1, h2, h3⟩ := lattice_pattern m ds o o' N Z d dz n a l p h
  refine ⟨c, h1, h2, fun fz ky kx hky hkx hf => ?_⟩
  rw [h3]
  have hd' : (0 : ℝ) < d := by exact_mod_cast hd
  refine waves_cutoff hp hd' dz fz _ _ (2 * |(a : ℝ) / l|) ky kx hky hkx rfl rfl _ ?_ hf hny
  have n2 : ∀ o, √((2 * ((a : ℝ) / l) * Real.sin o) ^ 2 + (2 * ((a : ℝ) / l) * Real.cos o) ^ 2) ≤ 2 * |(a : ℝ) / l| := fun o => by
    rw [sqrt_polar, abs_mul, abs_of_pos (by norm_num : (0 : ℝ) < 2)]
  have n1 : ∀ o, √(((a : ℝ) / l * Real.sin o) ^ 2 + ((a : ℝ) / l * Real.cos o) ^ 2) ≤ 2 * |(a : ℝ) / l| := fun o => by
    rw [sqrt_polar]; linarith [abs_nonneg ((a : ℝ) / l)]
  have t : ∀ a b : ℝ, √(a ^ 2 + b ^ 2) = ‖(⟨a, b⟩ : ℂ)‖ := fun a b => by rw [Complex.norm_eq_sqrt_sq_add_sq]
  have np : ∀ o, ‖(⟨(a : ℝ) / l * Real.sin o, (a : ℝ) / l * Real.cos o⟩ : ℂ)‖ = |(a : ℝ) / l| := fun o => by rw [← t, sqrt_polar]
  have hg2 := onGrid_two hg
  have hg2' := onGrid_two hg'
  obtain ⟨⟨s, k1⟩, ⟨s', k2⟩⟩ := hg
  obtain ⟨⟨q, k3⟩, ⟨q', k4⟩⟩ := hg'
  intro w hw
  simp only [List.mem_cons, List.not_mem_nil, or_false] at hw
  rcases hw with rfl | rfl | rfl | rfl | rfl | rfl | rfl | rfl | rfl
  · exact ⟨⟨0, by simp⟩, ⟨0, by simp⟩, by simp⟩
  · exact ⟨hg2.1, hg2.2, n2 o⟩
  · exact ⟨hg2'.1, hg2'.2, n2 o'⟩
  · refine ⟨⟨s + q, by push_cast; rw [← k1, ← k3]; ring⟩, ⟨s' + q', by push_cast; rw [← k2, ← k4]; ring⟩, ?_⟩
    rw [t, show (⟨(a : ℝ) / l * Real.sin o + (a : ℝ) / l * Real.sin o', (a : ℝ) / l * Real.cos o + (a : ℝ) / l * Real.cos o'⟩ : ℂ) =
      ⟨(a : ℝ) / l * Real.sin o, (a : ℝ) / l * Real.cos o⟩ + ⟨(a : ℝ) / l * Real.sin o', (a : ℝ) / l * Real.cos o'⟩ from rfl]
    exact (norm_add_le _ _).trans (by rw [np, np]; linarith)
  · refine ⟨⟨s - q, by push_cast; rw [← k1, ← k3]; ring⟩, ⟨s' - q', by push_cast; rw [← k2, ← k4]; ring⟩, ?_⟩
    rw [t, show (⟨(a : ℝ) / l * Real.sin o - (a : ℝ) / l * Real.sin o', (a : ℝ) / l * Real.cos o - (a : ℝ) / l * Real.cos o'⟩ : ℂ) =
      ⟨(a : ℝ) / l * Real.sin o, (a : ℝ) / l * Real.cos o⟩ - ⟨(a : ℝ) / l * Real.sin o', (a : ℝ) / l * Real.cos o'⟩ by
        apply Complex.ext <;> simp]
    exact (norm_sub_le _ _).trans (by rw [np, np]; linarith)
  · exact ⟨⟨s, k1⟩, ⟨s', k2⟩, n1 o⟩
  · exact ⟨⟨s, k1⟩, ⟨s', k2⟩, n1 o⟩
  · exact ⟨⟨q, k3⟩, ⟨q', k4⟩, n1 o'⟩
  · exact ⟨⟨q, k3⟩, ⟨q', k4⟩, n1 o'⟩

/-! ### PSFs with a cut-off -/

theorem alias_sq {N : ℕ} (hN : 0 < N) {a b : ℤ} (ha : |2 * a| ≤ N) (hb : |2 * b| ≤ N) (h : (N : ℤ) ∣ a - b) : a ^ 2 = b ^ 2 := by
  obtain ⟨q, hq⟩ := h
  rw [abs_le] at ha hb
  have hN' : (0 : ℤ) < N := by exact_mod_cast hN
  have h1 : q ≤ 1 := by by_contra hc; nlinarith
  have h2 : -1 ≤ q := by by_contra hc; nlinarith
  have h3 : q = -1 ∨ q = 0 ∨ q = 1 := by omega
  rcases h3 with rfl | rfl | rfl
  · have : a = -b := by omega
    rw [this]; ring
  · have : a = b := by omega
    rw [this]
  · have : a = -b := by omega
    rw [this]; ring

/-- A cut-off can be read off the transform. -/
theorem cutoff_of_transform (f : Arr ℝ) (Z N : ℕ) (d ρ : ℝ) (hs : f.shape = [Z, N, N])
    (h : ∀ kz < Z, ∀ ky < N, ∀ kx < N, ρ ≤ √(otfFreq N d ky ^ 2 + otfFreq N d kx ^ 2) →
      (easyFft none (f.map fun (v : ℝ) => (v : ℂ))).get [kz, ky, kx] = 0) : CutOff f Z N d ρ := by
  intro z hz jy jx hjy hjx hρ
  rcases Nat.eq_zero_or_pos N with rfl | hN
  · simp
  let P : ℕ → ℂ := fun z => ∑ y ∈ Finset.range N, ∑ x ∈ Finset.range N, (f.get [z, y, x] : ℂ) *
    exp (-(2 * Real.pi * I * (((jy * y + jx * x) / N : ℝ) : ℂ)))
  have idx : ∀ j : ℤ, |2 * j| ≤ N → ∃ k < N, (N : ℤ) ∣ ((k : ℤ) - (N / 2 : ℕ)) - j ∧ otfFreq N d k ^ 2 = (j / (N * d)) ^ 2 := by
    intro j hj
    have h1 := Int.emod_nonneg (j + (N / 2 : ℕ)) (by omega : (N : ℤ) ≠ 0)
    have h2 := Int.emod_lt_of_pos (j + (N / 2 : ℕ)) (by omega : (0 : ℤ) < N)
    have hd : (N : ℤ) ∣ (((j + (N / 2 : ℕ)) % (N : ℤ)) - (N / 2 : ℕ)) - j := by
      have := Int.dvd_self_sub_emod (x := j + (N / 2 : ℕ)) (m := (N : ℤ))
      rw [← Int.dvd_neg]; convert this using 1; ring
    refine ⟨((j + (N / 2 : ℕ)) % (N : ℤ)).toNat, by omega, ?_, ?_⟩
    · rw [Int.toNat_of_nonneg h1]; exact hd
    · have e := alias_sq hN (a := ((j + (N / 2 : ℕ)) % (N : ℤ)) - (N / 2 : ℕ)) (b := j) (by rw [abs_le]; constructor <;> omega) hj hd
      rw [otfFreq, div_pow, div_pow]
      congr 1
      have e' : ((((j + (N / 2 : ℕ)) % (N : ℤ)).toNat : ℤ) - (N / 2 : ℕ)) ^ 2 = j ^ 2 := by rw [Int.toNat_of_nonneg h1]; exact e
      exact_mod_cast e'
  obtain ⟨ky, hky, dy, ey⟩ := idx jy hjy
  obtain ⟨kx, hkx, dx, ex⟩ := idx jx hjx
  have hzero : ∀ kz < Z, easy1 Z P kz = 0 := by
    intro kz hkz
    have h0 := h kz hkz ky hky kx hkx (by rw [ey, ex]; exact hρ)
    rw [easyFft3_get (f.map fun (v : ℝ) => (v : ℂ)) Z N N hs kz ky kx hkz hky hkx] at h0
    have e : (∑ z ∈ Finset.range Z, ∑ y ∈ Finset.range N, ∑ x ∈ Finset.range N, (f.map fun (v : ℝ) => (v : ℂ)).get [z, y, x] *
        (W N (-(((x : ℤ) - (N / 2 : ℕ)) * ((kx : ℤ) - (N / 2 : ℕ)))) * W N (-(((y : ℤ) - (N / 2 : ℕ)) * ((ky : ℤ) - (N / 2 : ℕ)))) *
          W Z (-(((z : ℤ) - (Z / 2 : ℕ)) * ((kz : ℤ) - (Z / 2 : ℕ)))))) =
        (W N (jy * (N / 2 : ℕ)) * W N (jx * (N / 2 : ℕ))) * easy1 Z P kz := by
      rw [easy1_eq _ hkz, Finset.mul_sum]
      refine Finset.sum_congr rfl fun z _ => ?_
      simp only [P]
      rw [Finset.sum_mul, Finset.mul_sum]
      refine Finset.sum_congr rfl fun y _ => ?_
      rw [Finset.sum_mul, Finset.mul_sum]
      refine Finset.sum_congr rfl fun x _ => ?_
      have w1 : exp (-(2 * Real.pi * I * (((jy * y + jx * x) / N : ℝ) : ℂ))) = W N (-(jy * y)) * W N (-(jx * x)) := by
        rw [W, W, ← exp_add]; congr 1; push_cast; ring
      have w2 : W N (-(((x : ℤ) - (N / 2 : ℕ)) * ((kx : ℤ) - (N / 2 : ℕ)))) = W N (jx * (N / 2 : ℕ)) * W N (-(jx * x)) := by
        rw [← W_add]
        apply W_modEq hN
        obtain ⟨q, hq⟩ := dx
        exact ⟨-(q * ((x : ℤ) - (N / 2 : ℕ))), by linear_combination -((x : ℤ) - (N / 2 : ℕ)) * hq⟩
      have w3 : W N (-(((y : ℤ) - (N / 2 : ℕ)) * ((ky : ℤ) - (N / 2 : ℕ)))) = W N (jy * (N / 2 : ℕ)) * W N (-(jy * y)) := by
        rw [← W_add]
        apply W_modEq hN
        obtain ⟨q, hq⟩ := dy
        exact ⟨-(q * ((y : ℤ) - (N / 2 : ℕ))), by linear_combination -((y : ℤ) - (N / 2 : ℕ)) * hq⟩
      rw [w1, w2, w3]
      simp only [Arr.map]
      ring
    rw [e] at h0
    rcases mul_eq_zero.mp h0 with h1 | h1
    · exact absurd h1 (mul_ne_zero (W_ne_zero _ _) (W_ne_zero _ _))
    · exact h1
  have hZ : 0 < Z := by omega
  have hj : (z + (Z - 2 * (Z / 2))) % Z < Z := Nat.mod_lt _ hZ
  have hinv := ieasy1_easy1 P hj
  rw [ieasy1_eq _ hj, Finset.sum_eq_zero fun k hk => by rw [hzero k (Finset.mem_range.mp hk), zero_mul], zero_div] at hinv
  have hidx : ((z + (Z - 2 * (Z / 2))) % Z + 2 * (Z / 2)) % Z = z := by
    rw [Nat.mod_add_mod, show z + (Z - 2 * (Z / 2)) + 2 * (Z / 2) = z + Z by omega, Nat.add_mod_right, Nat.mod_eq_of_lt hz]
  rw [hidx] at hinv
  rcases mul_eq_zero.mp hinv.symm with h1 | h1
  · exact h1
  · exact absurd h1 (W_ne_zero _ _)

/-- C114: the intensity PSF of a `HanserPSF` below the Nyquist limit has the cut-off `2 na / wl`. -/
theorem C114_hanser_cutoff (s : HSpec) (hf : s.Fits) {w n i r : ℚ} {N : ℕ} {zs : List ℚ} {v : VecCorr} {cd : Condition}
    (ho : Optics s.params w n i r N zs v cd) (b : Arr ℝ) (hb : s.PSFi = .ok b)
    (hw : 0 < w) (hr : 0 < r) (hn : 0 < n) (hny : r < w / (4 * n))
    (hmask : ∀ a < N, ∀ c < N, s.pupilFn N r ((n / w : ℚ) : ℝ) a c ≠ 0 → radial N r a c < ((n / w : ℚ) : ℝ)) :
    CutOff b zs.length N r (2 * ((n / w : ℚ) : ℝ)) := by
  intro z _ jy jx hjy hjx hρ
  have := plane_spectrum_zero s hf ho b hb hw hr hn hny hmask z hjy hjx hρ
  rw [← this]
  refine Finset.sum_congr rfl fun y _ => Finset.sum_congr rfl fun x _ => ?_
  congr 1
  rw [W, W, ← exp_add]; congr 1; push_cast; ring

/-- C114: on even grids the Wiener filter keeps the cut-off. -/
theorem C114_wiener_cutoff (s : HSpec) (hf : s.Fits) {w n i r : ℚ} {N : ℕ} {zs : List ℚ} {v : VecCorr} {cd : Condition}
    (ho : Optics s.params w n i r N zs v cd) (b : Arr ℝ) (hb : s.PSFi = .ok b) (hpos : 0 < b.sum) (t : Arr ℂ) (ht : s.OTFi = .ok t)
    (hw : 0 < w) (hr : 0 < r) (hn : 0 < n) (hny : r < w / (4 * n))
    (hmask : ∀ a < N, ∀ c < N, s.pupilFn N r ((n / w : ℚ) : ℝ) a c ≠ 0 → radial N r a c < ((n / w : ℚ) : ℝ))
    (hZ : zs.length % 2 = 0) (hN : N % 2 = 0) (wiener : ℚ) :
    ∃ f, wienerPsf wiener t = .ok f ∧ f.shape = [zs.length, N, N] ∧ CutOff f zs.length N r (2 * ((n / w : ℚ) : ℝ)) := by
  obtain ⟨hs, hN0, -⟩ := psfi_amplitude s hf ho b hb
  obtain ⟨b', Z, A, B, hb', hs', hts, h1, h2, h3, sp⟩ := C44_otfi s t ht
  rw [hb] at hb'; cases hb'
  rw [hs] at hs'
  simp only [List.cons.injEq, and_true] at hs'
  obtain ⟨rfl, rfl, rfl⟩ := hs'
  obtain ⟨f, k1, k2, k3, -⟩ := C83_even wiener b.get t zs.length N N hts h1 h2 h3 hZ hN hN sp b.sum (sum3 b _ _ _ hs) hpos
  refine ⟨f, k1, k2, cutoff_of_transform f _ _ _ _ k2 fun kz hkz ky hky kx hkx hρ => ?_⟩
  rw [k3 kz hkz ky hky kx hkx, C45_otfi s hf ho t ht hw hr hn hny hmask kz ky kx hkz hky hkx hρ]
  norm_num [wienerGain]

/-- C114: so the OTF of a SIM microscope on such a model (without oversampling) vanishes from `2 na / wl + 2 na_exc / wl_exc` on, in all its planes. -/
theorem C114_otf_limit (m : Micro) (dc ds : Bool) (os : List ℝ) (N Z : ℕ) (d dz n a l : ℚ) (p : Arr ℝ)
    (h : SimSetting m false dc ds os N Z d dz n a l p) (hd : 0 < d) (hdz : dz ≠ 0) (ρ : ℝ) (hp : CutOff p Z N d ρ)
    (hg : ∀ o ∈ os, OnGrid ((if dc then 1 else 2) * (a / l)) o N d) (hny : ρ + 2 * |(a : ℝ) / l| ≤ 1 / (2 * d))
    (h1 : m.psf = none) (h2 : m.otf = none) (h3 : pyInt m.oversample = 1) (t : Arr ℂ) (ht : (Micro.getOTF m).1 = .ok t)
    (kz ky kx : ℕ) (hkz : kz < Z) (hky : ky < N) (hkx : kx < N)
    (hf : ρ + 2 * |(a : ℝ) / l| ≤ √(otfFreq N d ky ^ 2 + otfFreq N d kx ^ 2)) : t.get [kz, ky, kx] = 0 := by
  obtain ⟨c, k1, k2, k3⟩ := C114_resolution m dc ds os N Z d dz n a l p h hd ρ hp hg hny
  have h0 : c.sum ≠ 0 := by
    intro h0
    have hb : binned (pyInt m.oversample) (pyInt m.psfParams.size).toNat c = .ok c := by
      rw [h3, binned, if_neg (by norm_num)]
    rw [getOTF_run, h2, getPSF_run, h1] at ht
    rcases hm : Micro.modelPsf m with ⟨e | c', m'⟩
    · rw [hm] at k1; cases k1
    · rw [hm] at k1; cases k1
      rw [hm] at ht
      simp only [microPsf, hb, Except.bind, normalised, if_pos h0] at ht
      cases ht
  obtain ⟨-, t', ht', -, hget⟩ := C113_otf m h1 h2 h3 c k1 Z N k2 h0 dz d (by exact_mod_cast hdz) (by exact_mod_cast hd.ne')
  rw [ht] at ht'; cases ht'
  rw [hget kz hkz ky hky kx hkx, k3 _ ky kx hky hkx hf, mul_zero, zero_div]

/-! ### Such microscopes exist -/

theorem twoBeam_nonneg (φ : ℝ) : 0 ≤ twoBeam φ := by rw [twoBeam]; linarith [Real.neg_one_le_cos (2 * φ)]

theorem threeBeam_nonneg (φ ψ : ℝ) : 0 ≤ threeBeam φ ψ := by
  rw [threeBeam, Real.cos_two_mul]
  have := Real.sin_sq_add_cos_sq ψ
  nlinarith [sq_nonneg (2 * Real.cos φ + Real.cos ψ), sq_nonneg (Real.sin ψ)]

/-- A SIM PSF (without `dc_suppress`) is nonnegative, and its total is positive if the origin of the model PSF is. -/
theorem sim_total_pos (m : Micro) (dc : Bool) (os : List ℝ) (N Z : ℕ) (d dz n a l : ℚ) (p : Arr ℝ)
    (h : SimSetting m false dc false os N Z d dz n a l p) (hos : os ≠ []) (hp : ∀ z y x, 0 ≤ p.get [z, y, x])
    (hZ : (Z + 1) / 2 < Z) (hN : (N + 1) / 2 < N) (h0 : 0 < p.get [(Z + 1) / 2, (N + 1) / 2, (N + 1) / 2]) (c : Arr ℝ)
    (hc : (Micro.modelPsf m).1 = .ok c) : 0 < c.sum := by
  obtain ⟨c', h1, h2, h3⟩ := C59_incoherent m dc false os N Z d dz n a l p h
  rw [hc] at h1; cases h1
  simp only [Bool.false_eq_true, if_false, sub_zero] at h3
  have nn : ∀ z y x, 0 ≤ c.get [z, y, x] := by
    intro z y x
    rw [h3]
    refine mul_nonneg (hp _ _ _) (List.sum_nonneg ?_)
    intro v hv
    obtain ⟨o, -, rfl⟩ := List.mem_map.mp hv
    cases dc
    · exact twoBeam_nonneg _
    · exact threeBeam_nonneg _ _
  have pos0 : ∀ (n : ℕ) (d : ℝ), position n d ((n + 1) / 2) = 0 := by intro n d; simp [position]
  have hcen : 0 < c.get [(Z + 1) / 2, (N + 1) / 2, (N + 1) / 2] := by
    rw [h3]
    refine mul_pos h0 ?_
    simp only [pos0]
    have e : ∀ o : ℝ, 4 ≤ (if dc = true then threeBeam (lateralPhase a l o 0 0) (axialPhase n a l 0) else twoBeam (lateralPhase a l o 0 0)) := by
      intro o
      cases dc <;> norm_num [threeBeam, twoBeam, lateralPhase, axialPhase]
    have : ∀ os : List ℝ, os ≠ [] → 0 < (os.map fun o => if dc = true then threeBeam (lateralPhase a l o 0 0) (axialPhase n a l 0)
        else twoBeam (lateralPhase a l o 0 0)).sum := by
      intro os hos
      refine List.sum_pos _ ?_ (by simpa using hos)
      intro v hv
      obtain ⟨o, -, rfl⟩ := List.mem_map.mp hv
      exact lt_of_lt_of_le (by norm_num) (e o)
    exact this os hos
  rw [sum3 c Z N N h2]
  refine Finset.sum_pos' (fun z _ => Finset.sum_nonneg fun y _ => Finset.sum_nonneg fun x _ => nn z y x) ⟨_, Finset.mem_range.mpr hZ, ?_⟩
  refine Finset.sum_pos' (fun y _ => Finset.sum_nonneg fun x _ => nn _ y x) ⟨_, Finset.mem_range.mpr hN, ?_⟩
  exact Finset.sum_pos' (fun x _ => nn _ _ x) ⟨_, Finset.mem_range.mpr hN, hcen⟩

def demoFine : MicroArgs := { demoMicroArgs with oversample := .int 1, pixelSize := .float (.fin 40) }

/-- Non-vacuity: 3D SIM with two orientations; element (0, 32) is beyond the limit. -/
theorem demoSimOtf : ∃ m₀ m t, Micro.newSIM3D demoFine (.float (.fin (4/5))) (.float (.fin 512)) (.float (.fin (1/2)))
      (.bool false) [0, Real.pi / 2] = .ok m₀ ∧ m = (m₀.ustep (.wiener .none)).2 ∧ (Micro.getOTF m).1 = .ok t ∧ t.shape = [64, 64, 64] ∧
    t.get [32, 0, 32] = 0 := by
  obtain ⟨h', v, cd, hnew, hh, hvz, hO⟩ := widefield_setup demoFine 1 64 64 rfl
    40 520 (17/20) 1 40 rfl rfl rfl rfl rfl rfl (by norm_num [demoFine, demoMicroArgs, Denotes, PyVal.num?])
    (by norm_num) (by norm_num [demoFine, demoMicroArgs, Denotes, PyVal.num?]) (by norm_num)
    (by norm_num [demoFine, demoMicroArgs, Denotes, PyVal.num?]) (by norm_num) (by norm_num)
    (by norm_num [demoFine, demoMicroArgs, Denotes, PyVal.num?]) (by norm_num) (Or.inl rfl)
    (by constructor <;> simp [demoFine, demoMicroArgs, NotSpecial, PsfParams.initArgs]) (by simp [demoFine, demoMicroArgs])
    (by simp [demoFine, demoMicroArgs])
  have hv : v = .none := by
    obtain ⟨l, x, z', vc, cd', a1, a2, a3, a4, a4', a4'', a5, a6, a6', a7, a8, a9, e⟩ := (hanser_new_iff _ none h').mp hh
    have e1 := hO.vecCorr
    rw [e] at e1
    cases e1
    cases a8
    rfl
  subst hv
  obtain ⟨p, hp, hps, hpos⟩ := hanser_total_pos ⟨h'.params, none⟩ rfl hO (by norm_num) (by norm_num) (by norm_num) (by norm_num)
    (by norm_num) (by simp) hvz
  have hf : (⟨h'.params, none⟩ : HSpec).Fits := fun P v h => by cases h
  have hl := constructed_live (Or.inl ⟨_, hnew⟩)
  have hp' : (Inner.getPSFi (.hanser h')).1 = .ok p := (inner_PSFi hl.model).1.trans hp
  have hsim : Micro.newSIM3D demoFine (.float (.fin (4/5))) (.float (.fin 512)) (.float (.fin (1/2))) (.bool false) [0, Real.pi / 2] =
      .ok (Micro.mk (.int (1 : ℕ)) (ordinaryParams demoFine 64 1 40) demoFine.pixelSize (.hanser h')
        (.sim (.float (.fin (4/5))) (.float (.fin 512)) (.bool false) (.bool true) (.bool false) [0, Real.pi / 2] (.float (.fin (1/2)))) none none) := by
    unfold Micro.newSIM3D Micro.newSIM
    rw [hnew]
    have n1 : numericSet Micro.isFloat none (.float (.fin (4/5))) = .ok (some (.float (.fin (4/5)))) := by decide +kernel
    have n2 : numericSet Micro.isFloat none (.float (.fin 512)) = .ok (some (.float (.fin 512))) := rfl
    have n3 : ∀ b, numericSet Micro.isBool none (.bool b) = .ok (some (.bool b)) := by intro b; cases b <;> rfl
    have n4 : PyVal.ltZero (.float (.fin (1/2))) = .ok false := by decide +kernel
    simp only [bind, Except.bind, reduceCtorEq, if_false, n1, n2, n3, n4]
    rfl
  obtain ⟨m, hm⟩ : ∃ m, m = ((Micro.mk (.int (1 : ℕ)) (ordinaryParams demoFine 64 1 40) demoFine.pixelSize (.hanser h')
        (.sim (.float (.fin (4/5))) (.float (.fin 512)) (.bool false) (.bool true) (.bool false) [0, Real.pi / 2] (.float (.fin (1/2))))
        none none).ustep (.wiener .none)).2 := ⟨_, rfl⟩
  have hS : SimSetting m false true false [0, Real.pi / 2] 64 64 40 40 1 (4/5) 512 p := by
    subst hm
    refine ⟨⟨_, _, _, rfl, by norm_num [Denotes, PyVal.num?], by norm_num [Denotes, PyVal.num?], ?_⟩, rfl, rfl, ?_, ?_,
      ?_, by norm_num, by norm_num, by norm_num, ?_⟩
    · exact hp'
    · norm_num [Denotes, PyVal.num?, Micro.ustep, Micro.setWiener, PyM.modify, ordinaryParams]
    · norm_num [Denotes, PyVal.num?, Micro.ustep, Micro.setWiener, PyM.modify, ordinaryParams, demoFine, demoMicroArgs]
    · norm_num [Denotes, PyVal.num?, Micro.ustep, Micro.setWiener, PyM.modify, ordinaryParams, demoFine, demoMicroArgs]
    · rw [hps]; simp
  have e1 : m.psf = none := by rw [hm]; rfl
  have e2 : m.otf = none := by rw [hm]; rfl
  have e3 : pyInt m.oversample = 1 := by rw [hm]; rfl
  have hcut := C114_hanser_cutoff ⟨h'.params, none⟩ hf hO p hp (by norm_num) (by norm_num) (by norm_num) (by norm_num)
    (fun a _ c _ h => ideal_masked _ rfl _ _ _ _ _ h)
  have hcut' : CutOff p 64 64 ((40 : ℚ) : ℝ) (2 * (((17/20) / 520 : ℚ) : ℝ)) := by
    have : (List.map (plane 64 40) (List.range 64)).length = 64 := by simp
    rw [this] at hcut
    norm_num at hcut ⊢
    exact hcut
  have nn : ∀ z y x, 0 ≤ p.get [z, y, x] := fun z y x => by
    rw [(psfi_amplitude _ hf hO p hp).2.2]
    exact Finset.sum_nonneg fun c _ => sq_nonneg _
  have hcen : 0 < p.get [(64 + 1) / 2, (64 + 1) / 2, (64 + 1) / 2] := by
    have hle := C47_peak _ hf hO (fun a _ c _ => C47_ideal _ rfl _ _ _ a c) p hp 32 (by simp [plane])
    rcases (nn 32 32 32).lt_or_eq with h1 | h1
    · exact h1
    · exfalso
      rw [sum3 p 64 64 64 (by rw [hps]; simp)] at hpos
      refine hpos.ne' (Finset.sum_eq_zero fun z _ => Finset.sum_eq_zero fun y _ => Finset.sum_eq_zero fun x _ => ?_)
      exact le_antisymm ((hle z y x).trans h1.symm.le) (nn z y x)
  obtain ⟨c, k1, k2, -⟩ := C113_bands_3d m false _ 64 64 40 40 1 (4/5) 512 p hS
  have hcs := sim_total_pos m true _ 64 64 40 40 1 (4/5) 512 p hS (by simp) nn (by norm_num) (by norm_num) hcen c k1
  obtain ⟨-, t, ht, hts, -⟩ := C113_otf m e1 e2 e3 c k1 64 64 k2 hcs.ne' 40 40 (by norm_num) (by norm_num)
  refine ⟨_, m, t, hsim, hm, ht, hts, ?_⟩
  refine C114_otf_limit m true false _ 64 64 40 40 1 (4/5) 512 p hS (by norm_num) (by norm_num) _ hcut' ?_ ?_ e1 e2 e3 t ht 32 0 32
    (by norm_num) (by norm_num) (by norm_num) ?_
  · intro o ho
    simp only [List.mem_cons, List.not_mem_nil, or_false] at ho
    rcases ho with rfl | rfl
    · exact ⟨⟨0, by simp⟩, ⟨4, by norm_num⟩⟩
    · exact ⟨⟨4, by norm_num⟩, ⟨0, by simp⟩⟩
  · rw [abs_of_pos (by norm_num)]; norm_num
  · rw [abs_of_pos (by norm_num)]
    refine Real.le_sqrt_of_sq_le ?_
    norm_num [otfFreq]

end PyOTF
