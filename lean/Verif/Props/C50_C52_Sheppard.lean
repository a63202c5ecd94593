import Verif.Spec.Sheppard
import Verif.Props.C44_C45_Otfi

/-!
# C50-C52: the amplitude OTF of a `SheppardPSF`
-/

open Complex PyOTF.Physics

namespace PyOTF

theorem SOptics.num {p : Params} {w n i r z : ℚ} {N nz : ℕ} {v : VecCorr} {cd : Condition} {dual : Bool}
    (ho : SOptics p w n i r z N nz v cd dual) {h : SheppardNum} (hN : SNumbersOf p h) :
    w ≠ 0 ∧ r ≠ 0 ∧ z ≠ 0 ∧ 2 ≤ N ∧ 2 ≤ nz ∧ (n / w) ^ 2 ≤ (i / w) ^ 2 ∧
    h = ⟨N, nz, r, z, ((i / w : ℚ) : ℝ), ((n / w : ℚ) : ℝ), v, cd, dual⟩ := by
  obtain ⟨u1, a1, b1⟩ := ho.wl
  obtain ⟨u2, a2, b2⟩ := ho.na
  obtain ⟨u3, a3, b3⟩ := ho.ni
  obtain ⟨u4, a4, b4⟩ := ho.res
  obtain ⟨u5, a5, b5⟩ := ho.zres
  obtain ⟨u6, a6, b6⟩ := ho.size
  obtain ⟨u7, a7, b7⟩ := ho.zsize
  obtain ⟨sv, hs1, hs2, hs3⟩ := hN.size
  obtain ⟨zsv, hzs1, hzs2, hzs3⟩ := hN.zsize
  obtain ⟨rv, r', hr1, hr2, hr3, hr4⟩ := hN.res
  obtain ⟨zrv, zr, hzr1, hzr2, hzr3, hzr4⟩ := hN.zres
  obtain ⟨niv, wlv, ni, wl, k, h1, h2, h3, h4, h5, h6⟩ := hN.kmag
  obtain ⟨nav, wlv', na, wl', l, g1, g2, g3, g4, g5, g6⟩ := hN.limit
  have hle := hN.le
  have e1 := hN.vecCorr
  have e2 := hN.condition
  have e3 := hN.dual
  rw [a1] at h2 g2; cases h2; cases g2
  rw [b1] at h4 g4; cases h4; cases g4
  rw [a2] at g1; cases g1; rw [b2] at g3; cases g3
  rw [a3] at h1; cases h1; rw [b3] at h3; cases h3
  rw [a4] at hr1; cases hr1; rw [b4] at hr2; cases hr2
  rw [a5] at hzr1; cases hzr1; rw [b5] at hzr2; cases hzr2
  rw [a6] at hs1; cases hs1; rw [b6] at hs2
  rw [a7] at hzs1; cases hzs1; rw [b7] at hzs2
  rw [ho.vecCorr] at e1; rw [ho.condition] at e2; rw [ho.dual] at e3
  have hw : w ≠ 0 := by rintro rfl; simp [PyFloat.div] at h5
  simp only [PyFloat.div, if_neg hw] at h5 g5
  cases h5; cases g5
  obtain ⟨s, zs, re, ze, km, li, vc, cdn, du⟩ := h
  simp only at hs2 hs3 hzs2 hzs3 hr3 hzr3 h6 g6 hle e1 e2 e3
  cases e1; cases e2; cases e3
  subst hs2 hzs2 hr3 hzr3 h6 g6
  refine ⟨hw, hr4, hzr4, hs3, hzs3, ?_, rfl⟩
  rw [← Rat.cast_le (K := ℝ), Rat.cast_pow, Rat.cast_pow]
  exact hle

/-- The numbers of an ordinary model, as equations. -/
theorem SOptics.obtain {p : Params} {w n i r z : ℚ} {N nz : ℕ} {v : VecCorr} {cd : Condition} {dual : Bool}
    (ho : SOptics p w n i r z N nz v cd dual) {t : Arr (Option ℂ)} (ht : SSpec.OTFa p = .ok t) : ∃ h : SheppardNum,
    SNumbersOf p h ∧ t = fftshift (some [1, 2, 3]) h.otf ∧ h.size = N ∧ h.zsize = nz ∧ h.vecCorr = v ∧ h.condition = cd ∧
    h.dual = dual ∧ h.res = (r : ℝ) ∧ h.zres = (z : ℝ) ∧ h.kmag = ((i / w : ℚ) : ℝ) ∧ h.limit = ((n / w : ℚ) : ℝ) := by
  obtain ⟨h, hh, e⟩ := sheppardGenOtf_ok ht
  obtain ⟨-, -, -, -, -, -, e'⟩ := ho.num hh
  exact ⟨h, hh, e, by rw [e'], by rw [e'], by rw [e'], by rw [e'], by rw [e'], by rw [e'], by rw [e'], by rw [e'], by rw [e']⟩

theorem centred_eq {N : ℕ} (r : ℝ) {x : ℕ} (hx : x < N) : fftfreq N r (rollIdx N (N / 2 : ℕ) x) = centred N r x := by
  have hN : 0 < N := by omega
  have h := rollIdx_cast (n := N) (N / 2 : ℕ) x hN
  unfold fftfreq centred
  rw [mul_one_div]
  congr 1
  have : fftfreqNum N (rollIdx N (N / 2 : ℕ) x) = (x : ℤ) - (N / 2 : ℕ) := by
    have hmod : (((x : ℤ) - (N / 2 : ℕ)) % N) = if x < N / 2 then (x : ℤ) - (N / 2 : ℕ) + N else (x : ℤ) - (N / 2 : ℕ) := by
      split_ifs with hlt
      · rw [← Int.add_emod_right, Int.emod_eq_of_lt] <;> omega
      · rw [Int.emod_eq_of_lt] <;> omega
    rw [hmod] at h
    unfold fftfreqNum
    split_ifs at h ⊢ <;> omega
  rw [this]
  simp only [Int.cast_sub, Int.cast_natCast]

theorem fftfreq_step (N : ℕ) (r : ℝ) (hN : 3 ≤ N) : fftfreq N r 1 - fftfreq N r 0 = 1 / (N * r) := by
  have h0 : fftfreqNum N 0 = 0 := by unfold fftfreqNum; rw [if_pos (by omega)]; rfl
  have h1 : fftfreqNum N 1 = 1 := by unfold fftfreqNum; rw [if_pos (by omega)]; rfl
  simp [fftfreq, h0, h1]

theorem length3_nonneg (a b c : ℝ) : 0 ≤ length3 a b c := Real.sqrt_nonneg _

theorem pixelAlong_nonneg (a b c d e : ℝ) : 0 ≤ pixelAlong a b c d e := div_nonneg (length3_nonneg _ _ _) (length3_nonneg _ _ _)

theorem length3_pos {a b c : ℝ} (h : a ≠ 0) : 0 < length3 a b c := by
  refine Real.sqrt_pos.mpr ?_
  have := sq_pos_of_ne_zero h
  nlinarith [sq_nonneg b, sq_nonneg c]

/-- A frequency on a cap is not lateral. -/
theorem Physics.OnCap.kz_ne {K L dz dk kz ky kx : ℝ} {dual : Bool} (h : OnCap K L dz dk dual kz ky kx) : kz ≠ 0 := by
  rintro rfl
  have h2 := h.2
  have h1 := Real.sqrt_nonneg (K ^ 2 - L ^ 2)
  have h3 := pixelAlong_nonneg dz dk 0 ky kx
  simp only [abs_zero, ite_self] at h2
  linarith

theorem valid_iff (h : SheppardNum) (hN : 3 ≤ h.size) (hz : 3 ≤ h.zsize) (hr : 0 < h.res) {iz iy ix : ℕ}
    (h1 : iz < h.zsize) (h2 : iy < h.size) (h3 : ix < h.size) :
    h.valid (rollIdx h.zsize (h.zsize / 2 : ℕ) iz) (rollIdx h.size (h.size / 2 : ℕ) iy) (rollIdx h.size (h.size / 2 : ℕ) ix) ↔
    OnCap h.kmag h.limit (1 / (h.zsize * h.zres)) (1 / (h.size * h.res)) h.dual
      (centred h.zsize h.zres iz) (centred h.size h.res iy) (centred h.size h.res ix) := by
  have ek : h.kr (rollIdx h.zsize (h.zsize / 2 : ℕ) iz) (rollIdx h.size (h.size / 2 : ℕ) iy) (rollIdx h.size (h.size / 2 : ℕ) ix) =
      length3 (centred h.zsize h.zres iz) (centred h.size h.res iy) (centred h.size h.res ix) := by
    simp only [SheppardNum.kr, SheppardNum.k, SheppardNum.kz, centred_eq _ h1, centred_eq _ h2, centred_eq _ h3, length3]
  have ezz : h.kzz (rollIdx h.zsize (h.zsize / 2 : ℕ) iz) = if h.dual then |centred h.zsize h.zres iz| else centred h.zsize h.zres iz := by
    simp only [SheppardNum.kzz, SheppardNum.kz, centred_eq _ h1]
  have edk : h.dk = 1 / (h.size * h.res) := fftfreq_step _ _ hN
  have edz : h.dkz = 1 / (h.zsize * h.zres) := fftfreq_step _ _ hz
  have hdk : 0 < h.dk := by rw [edk]; positivity
  rw [← edk, ← edz]
  by_cases hkz : centred h.zsize h.zres iz = 0
  · -- no lateral frequency is on the cap
    constructor
    · rintro ⟨-, hb⟩
      exfalso
      rw [ezz, hkz] at hb
      simp only [abs_zero, ite_self] at hb
      have : 0 ≤ h.kzMin := Real.sqrt_nonneg _
      have : 0 ≤ h.dkr (rollIdx h.zsize (h.zsize / 2 : ℕ) iz) (rollIdx h.size (h.size / 2 : ℕ) iy)
          (rollIdx h.size (h.size / 2 : ℕ) ix) := by
        unfold SheppardNum.dkr
        split_ifs
        · exact le_rfl
        · exact div_nonneg (Real.sqrt_nonneg _) (Real.sqrt_nonneg _)
        · exact hdk.le
      linarith
    · intro hb
      exact absurd hkz hb.kz_ne
  have ed : h.dkr (rollIdx h.zsize (h.zsize / 2 : ℕ) iz) (rollIdx h.size (h.size / 2 : ℕ) iy) (rollIdx h.size (h.size / 2 : ℕ) ix) =
      pixelAlong h.dkz h.dk (centred h.zsize h.zres iz) (centred h.size h.res iy) (centred h.size h.res ix) := by
    unfold SheppardNum.dkr
    by_cases hd : h.dk ≠ h.dkz
    · rw [if_pos hd, if_neg, ek]
      · simp only [SheppardNum.k, SheppardNum.kz, centred_eq _ h1, centred_eq _ h2, centred_eq _ h3, pixelAlong, length3]
      · rintro ⟨h0, -, -⟩
        apply hkz
        rw [← centred_eq _ h1, h0]
        simp [fftfreq, fftfreqNum]
    · rw [if_neg hd]
      have hd' : h.dkz = h.dk := (not_not.mp hd).symm
      have hp := length3_pos (b := centred h.size h.res iy) (c := centred h.size h.res ix) hkz
      rw [pixelAlong, hd', eq_div_iff hp.ne']
      unfold length3
      rw [show (centred h.zsize h.zres iz * h.dk) ^ 2 + (centred h.size h.res iy * h.dk) ^ 2 + (centred h.size h.res ix * h.dk) ^ 2 =
        h.dk ^ 2 * (centred h.zsize h.zres iz ^ 2 + centred h.size h.res iy ^ 2 + centred h.size h.res ix ^ 2) by ring,
        Real.sqrt_mul (sq_nonneg _), Real.sqrt_sq hdk.le]
  unfold SheppardNum.valid OnCap
  rw [ek, ezz, ed]
  exact Iff.rfl

/-- Direction cosine along an axis. -/
noncomputable def Physics.cosine (k kz ky kx : ℝ) : ℝ := k / length3 kz ky kx

/-- The frequency sampled by element `(z, y, x)` of an array of an ordinary model. -/
noncomputable def Physics.at3 {α : Type} (N nz : ℕ) (r z : ℝ) (f : ℝ → ℝ → ℝ → α) (iz iy ix : ℕ) : α :=
  f (centred nz z iz) (centred N r iy) (centred N r ix)

/-- Apodisation of a vectorial field (`s` the cosine of the angle to the axis). -/
noncomputable def Physics.capAmplitude (v : VecCorr) (cd : Condition) (c : ℕ) (kz ky kx : ℝ) : ℝ :=
  (capPolarization v (cosine kx kz ky kx) (cosine ky kz ky kx) (cosine kz kz ky kx)).getD c 0 *
    if v = .none then 1 else apodization cd (cosine kz kz ky kx)

theorem OnCap_pos {K L dz dk kz ky kx : ℝ} (h : OnCap K L dz dk false kz ky kx) : 0 < kz := by
  have h2 := h.2
  have h1 := Real.sqrt_nonneg (K ^ 2 - L ^ 2)
  have h3 := pixelAlong_nonneg dz dk kz ky kx
  simp only [Bool.false_eq_true, if_false] at h2
  linarith

theorem cosine_pos {kz ky kx : ℝ} (h : 0 < kz) : 0 < cosine kz kz ky kx := div_pos h (length3_pos h.ne')

theorem div?_some {a b : ℝ} (hb : b ≠ 0) : SheppardNum.div? a b = some (a / b) := by
  unfold SheppardNum.div?; rw [if_neg hb]

/-- Direction cosines in terms of frequencies. -/
theorem cosines_eq (h : SheppardNum) {iz iy ix : ℕ} (h1 : iz < h.zsize) (h2 : iy < h.size) (h3 : ix < h.size) :
    h.m (rollIdx h.zsize (h.zsize / 2 : ℕ) iz) (rollIdx h.size (h.size / 2 : ℕ) iy) (rollIdx h.size (h.size / 2 : ℕ) ix) =
      cosine (centred h.size h.res ix) (centred h.zsize h.zres iz) (centred h.size h.res iy) (centred h.size h.res ix) ∧
    h.n (rollIdx h.zsize (h.zsize / 2 : ℕ) iz) (rollIdx h.size (h.size / 2 : ℕ) iy) (rollIdx h.size (h.size / 2 : ℕ) ix) =
      cosine (centred h.size h.res iy) (centred h.zsize h.zres iz) (centred h.size h.res iy) (centred h.size h.res ix) ∧
    h.s (rollIdx h.zsize (h.zsize / 2 : ℕ) iz) (rollIdx h.size (h.size / 2 : ℕ) iy) (rollIdx h.size (h.size / 2 : ℕ) ix) =
      cosine (centred h.zsize h.zres iz) (centred h.zsize h.zres iz) (centred h.size h.res iy) (centred h.size h.res ix) := by
  simp only [SheppardNum.m, SheppardNum.n, SheppardNum.s, SheppardNum.kr, SheppardNum.k, SheppardNum.kz, centred_eq _ h1,
    centred_eq _ h2, centred_eq _ h3, cosine, length3, and_self]

/-- The element of the shifted array. -/
theorem otf_value (h : SheppardNum) (hN : 3 ≤ h.size) (hz : 3 ≤ h.zsize) (hr : 0 < h.res) (c : ℕ) {iz iy ix : ℕ}
    (h1 : iz < h.zsize) (h2 : iy < h.size) (h3 : ix < h.size) (P : Prop) [Decidable P]
    (hP : P ↔ at3 h.size h.zsize h.res h.zres (OnCap h.kmag h.limit (1 / (h.zsize * h.zres)) (1 / (h.size * h.res)) h.dual) iz iy ix) :
    (fftshift (some [1, 2, 3]) h.otf).get [c, iz, iy, ix] =
    if P then
      if h.vecCorr = .none then some 1
      else ((h.vecFactors (rollIdx h.zsize (h.zsize / 2 : ℕ) iz) (rollIdx h.size (h.size / 2 : ℕ) iy)
          (rollIdx h.size (h.size / 2 : ℕ) ix)).getD c none).bind fun p =>
        (h.apod (rollIdx h.zsize (h.zsize / 2 : ℕ) iz) (rollIdx h.size (h.size / 2 : ℕ) iy)
          (rollIdx h.size (h.size / 2 : ℕ) ix)).map fun a => ((p * a : ℝ) : ℂ)
    else some 0 := by
  have hv := valid_iff h hN hz hr h1 h2 h3
  rw [sheppard_otf_get]
  unfold SheppardNum.otf
  by_cases hp : P
  · rw [if_pos hp]
    exact if_pos (hv.mpr (hP.mp hp))
  · rw [if_neg hp]
    exact if_neg (fun hh => hp (hP.mpr (hv.mp hh)))

open Classical in
/-- C50 for the numbers of the model. -/
theorem value_single (h : SheppardNum) (hN : 3 ≤ h.size) (hz : 3 ≤ h.zsize) (hr : 0 < h.res) (hd : h.dual = false) (c : ℕ)
    (hc : c < components h.vecCorr) {iz iy ix : ℕ} (h1 : iz < h.zsize) (h2 : iy < h.size) (h3 : ix < h.size) :
    (fftshift (some [1, 2, 3]) h.otf).get [c, iz, iy, ix] =
    some (if at3 h.size h.zsize h.res h.zres (OnCap h.kmag h.limit (1 / (h.zsize * h.zres)) (1 / (h.size * h.res)) false) iz iy ix
        then ((at3 h.size h.zsize h.res h.zres (capAmplitude h.vecCorr h.condition c) iz iy ix : ℝ) : ℂ) else 0) := by
  rw [otf_value h hN hz hr c h1 h2 h3 (at3 h.size h.zsize h.res h.zres (OnCap h.kmag h.limit (1 / (h.zsize * h.zres))
    (1 / (h.size * h.res)) false) iz iy ix) (by rw [hd])]
  by_cases hcap : at3 h.size h.zsize h.res h.zres (OnCap h.kmag h.limit (1 / (h.zsize * h.zres))
    (1 / (h.size * h.res)) false) iz iy ix
  swap
  · rw [if_neg hcap, if_neg hcap]
  rw [if_pos hcap, if_pos hcap]
  by_cases hv : h.vecCorr = .none
  · rw [if_pos hv]
    rw [hv] at hc ⊢
    have : c = 0 := by simp only [components] at hc; omega
    subst this
    simp [at3, capAmplitude, capPolarization]
  rw [if_neg hv]
  have hpos : 0 < centred h.zsize h.zres iz := OnCap_pos hcap
  have hs := cosine_pos (ky := centred h.size h.res iy) (kx := centred h.size h.res ix) hpos
  obtain ⟨e1, e2, e3⟩ := cosines_eq h h1 h2 h3
  have hap : h.apod (rollIdx h.zsize (h.zsize / 2 : ℕ) iz) (rollIdx h.size (h.size / 2 : ℕ) iy) (rollIdx h.size (h.size / 2 : ℕ) ix) =
      some (apodization h.condition (cosine (centred h.zsize h.zres iz) (centred h.zsize h.zres iz) (centred h.size h.res iy)
        (centred h.size h.res ix))) := by
    unfold SheppardNum.apod
    rw [e3]
    cases h.condition with
    | none => simp only [apodization]
    | sine =>
      simp only [npSqrt]
      rw [if_neg (not_lt.mpr hs.le)]
      simp only [Option.bind_some, div?_some (Real.sqrt_pos.mpr hs).ne', apodization]
    | herschel => simp only [div?_some hs.ne', apodization]
  have h1s : (1 : ℝ) + cosine (centred h.zsize h.zres iz) (centred h.zsize h.zres iz) (centred h.size h.res iy)
      (centred h.size h.res ix) ≠ 0 := by linarith
  have hvf : (h.vecFactors (rollIdx h.zsize (h.zsize / 2 : ℕ) iz) (rollIdx h.size (h.size / 2 : ℕ) iy)
      (rollIdx h.size (h.size / 2 : ℕ) ix)).getD c none =
      some ((capPolarization h.vecCorr
        (cosine (centred h.size h.res ix) (centred h.zsize h.zres iz) (centred h.size h.res iy) (centred h.size h.res ix))
        (cosine (centred h.size h.res iy) (centred h.zsize h.zres iz) (centred h.size h.res iy) (centred h.size h.res ix))
        (cosine (centred h.zsize h.zres iz) (centred h.zsize h.zres iz) (centred h.size h.res iy) (centred h.size h.res ix))).getD c 0) := by
    unfold SheppardNum.vecFactors
    rw [e1, e2, e3]
    revert hc hv
    cases h.vecCorr
    · intro _ hv; exact absurd rfl hv
    all_goals
      intro hc _
      simp only [components] at hc
      simp only [div?_some h1s, Option.map_some, capPolarization]
      interval_cases c <;> simp [neg_mul]
  rw [hap, hvf, at3, capAmplitude, if_neg hv]
  rfl

open Classical in
/-- C50: the amplitude OTF of a single-objective model: 1 (scalar) or the apodised polarisation factor on the cap of
the sphere of radius `ni / wl`, and 0 everywhere else.  No element is NaN. -/
theorem C50_value {p : Params} {w n i r z : ℚ} {N nz : ℕ} {v : VecCorr} {cd : Condition}
    (ho : SOptics p w n i r z N nz v cd false) (hN : 3 ≤ N) (hnz : 3 ≤ nz) (hr : 0 < r)
    (t : Arr (Option ℂ)) (ht : SSpec.OTFa p = .ok t) :
    t.shape = [components v, nz, N, N] ∧ ∀ c < components v, ∀ iz < nz, ∀ iy < N, ∀ ix < N,
      t.get [c, iz, iy, ix] = some (if at3 N nz r z (OnCap ((i / w : ℚ) : ℝ) ((n / w : ℚ) : ℝ) (1 / (nz * z)) (1 / (N * r)) false) iz iy ix
        then ((at3 N nz r z (capAmplitude v cd c) iz iy ix : ℝ) : ℂ) else 0) := by
  have hrR : (0 : ℝ) < r := by exact_mod_cast hr
  obtain ⟨h, hh, rfl, rfl, rfl, rfl, rfl, HD, e6, e7, e8, e9⟩ := ho.obtain ht
  rw [← e6] at hrR
  refine ⟨?_, fun c hc iz h1 iy h2 ix h3 => ?_⟩
  · rw [sheppard_otf_shape, SheppardNum.ncomp]
    cases h.vecCorr <;> rfl
  · rw [← e6, ← e7, ← e8, ← e9]
    exact value_single h hN hnz hrR HD c hc h1 h2 h3

theorem pixelAlong_bounds {dz dk kz ky kx : ℝ} (hz : 0 < dz) (hk : 0 < dk) (h0 : kz ≠ 0) :
    min dz dk ≤ pixelAlong dz dk kz ky kx ∧ pixelAlong dz dk kz ky kx ≤ max dz dk := by
  have hp := length3_pos (b := ky) (c := kx) h0
  have hm : 0 < min dz dk := lt_min hz hk
  have e : ∀ d : ℝ, 0 ≤ d → d * length3 kz ky kx = √(d ^ 2 * kz ^ 2 + d ^ 2 * ky ^ 2 + d ^ 2 * kx ^ 2) := by
    intro d hd
    rw [length3, ← Real.sqrt_sq hd, ← Real.sqrt_mul (sq_nonneg _), Real.sqrt_sq hd]
    congr 1; ring
  have sq1 : ∀ a b : ℝ, 0 ≤ a → a ≤ b → ∀ k : ℝ, a ^ 2 * k ^ 2 ≤ (k * b) ^ 2 := by
    intro a b ha hab k
    rw [mul_pow, mul_comm (k ^ 2)]
    have := pow_le_pow_left₀ ha hab 2
    gcongr
  have sq2 : ∀ a b : ℝ, 0 ≤ a → a ≤ b → ∀ k : ℝ, (k * a) ^ 2 ≤ b ^ 2 * k ^ 2 := by
    intro a b ha hab k
    rw [mul_pow, mul_comm (k ^ 2)]
    have := pow_le_pow_left₀ ha hab 2
    gcongr
  constructor
  · rw [pixelAlong, le_div_iff₀ hp, e _ hm.le]
    refine Real.sqrt_le_sqrt ?_
    have a1 := sq1 _ _ hm.le (min_le_left dz dk) kz
    have a2 := sq1 _ _ hm.le (min_le_right dz dk) ky
    have a3 := sq1 _ _ hm.le (min_le_right dz dk) kx
    linarith
  · rw [pixelAlong, div_le_iff₀ hp, e _ (hz.le.trans (le_max_left _ _))]
    refine Real.sqrt_le_sqrt ?_
    have a1 := sq2 _ _ hz.le (le_max_left dz dk) kz
    have a2 := sq2 _ _ hk.le (le_max_right dz dk) ky
    have a3 := sq2 _ _ hk.le (le_max_right dz dk) kx
    linarith

/-- C50: every element of the amplitude OTF that is not 0 has a frequency within one pixel of the sphere
`|k| = ni / wl`; with one objective its axial frequency exceeds that of the rim `√((ni/wl)² - (na/wl)²)` by at least one
pixel (the smaller of the axial and lateral extents), in particular it is positive; with two objectives this holds for
its absolute value. -/
theorem C50_support {p : Params} {w n i r z : ℚ} {N nz : ℕ} {v : VecCorr} {cd : Condition} {dual : Bool}
    (ho : SOptics p w n i r z N nz v cd dual) (hN : 3 ≤ N) (hnz : 3 ≤ nz) (hr : 0 < r) (hz : 0 < z)
    (t : Arr (Option ℂ)) (ht : SSpec.OTFa p = .ok t) (c iz iy ix : ℕ) (h1 : iz < nz) (h2 : iy < N) (h3 : ix < N)
    (hne : t.get [c, iz, iy, ix] ≠ some 0) :
    |length3 (centred nz z iz) (centred N r iy) (centred N r ix) - ((i / w : ℚ) : ℝ)| < max (1 / (nz * z : ℝ)) (1 / (N * r)) ∧
    √(((i / w : ℚ) : ℝ) ^ 2 - ((n / w : ℚ) : ℝ) ^ 2) + min (1 / (nz * z : ℝ)) (1 / (N * r)) <
      if dual then |centred nz z iz| else centred nz z iz := by
  classical
  have hrR : (0 : ℝ) < r := by exact_mod_cast hr
  have hzR : (0 : ℝ) < z := by exact_mod_cast hz
  obtain ⟨h, hh, rfl, rfl, rfl, rfl, rfl, rfl, e6, e7, e8, e9⟩ := ho.obtain ht
  rw [← e6, ← e7, ← e8, ← e9]
  rw [← e6] at hrR
  rw [← e7] at hzR
  rw [otf_value h hN hnz hrR c h1 h2 h3 (at3 h.size h.zsize h.res h.zres (OnCap h.kmag h.limit (1 / (h.zsize * h.zres))
    (1 / (h.size * h.res)) h.dual) iz iy ix) Iff.rfl] at hne
  have hcap : at3 h.size h.zsize h.res h.zres (OnCap h.kmag h.limit (1 / (h.zsize * h.zres))
      (1 / (h.size * h.res)) h.dual) iz iy ix := by
    by_contra hc
    rw [if_neg hc] at hne
    exact hne rfl
  have hnN : 0 < h.zsize := by omega
  have hNN : 0 < h.size := by omega
  have hnR : (0 : ℝ) < h.zsize := by exact_mod_cast hnN
  have hNR : (0 : ℝ) < h.size := by exact_mod_cast hNN
  unfold at3 at hcap
  obtain ⟨b1, b2⟩ := pixelAlong_bounds (dz := 1 / (h.zsize * h.zres)) (dk := 1 / (h.size * h.res)) (kz := centred h.zsize h.zres iz)
    (ky := centred h.size h.res iy) (kx := centred h.size h.res ix) (by positivity) (by positivity) hcap.kz_ne
  exact ⟨lt_of_lt_of_le hcap.1 b2, lt_of_le_of_lt (by linarith) hcap.2⟩

/-- C50: with two objectives the scalar amplitude OTF is symmetric under `kz -> -kz` (element `iz` and its mirror image
about element `zsize // 2`). -/
theorem C50_dual_symmetric {p : Params} {w n i r z : ℚ} {N nz : ℕ} {cd : Condition}
    (ho : SOptics p w n i r z N nz .none cd true) (hN : 3 ≤ N) (hnz : 3 ≤ nz) (hr : 0 < r)
    (t : Arr (Option ℂ)) (ht : SSpec.OTFa p = .ok t) (iz iz' iy ix : ℕ) (h1 : iz < nz) (h1' : iz' < nz) (h2 : iy < N) (h3 : ix < N)
    (hm : iz + iz' = 2 * (nz / 2)) : t.get [0, iz', iy, ix] = t.get [0, iz, iy, ix] := by
  classical
  have hrR : (0 : ℝ) < r := by exact_mod_cast hr
  obtain ⟨h, hh, rfl, rfl, rfl, HV, rfl, HD, e6, e7, e8, e9⟩ := ho.obtain ht
  rw [← e6] at hrR
  have hc : centred h.zsize h.zres iz' = -centred h.zsize h.zres iz := by
    have : (iz : ℝ) + iz' = 2 * (h.zsize / 2 : ℕ) := by exact_mod_cast hm
    rw [centred, centred, ← neg_div]
    congr 1
    linarith
  have hiff : at3 h.size h.zsize h.res h.zres (OnCap h.kmag h.limit (1 / (h.zsize * h.zres))
      (1 / (h.size * h.res)) h.dual) iz' iy ix ↔ at3 h.size h.zsize h.res h.zres (OnCap h.kmag h.limit (1 / (h.zsize * h.zres))
      (1 / (h.size * h.res)) h.dual) iz iy ix := by
    simp only [at3, OnCap, hc, length3, pixelAlong, neg_mul, neg_sq, abs_neg, HD, if_true]
  rw [otf_value h hN hnz hrR 0 h1 h2 h3 (at3 h.size h.zsize h.res h.zres (OnCap h.kmag h.limit (1 / (h.zsize * h.zres))
    (1 / (h.size * h.res)) h.dual) iz iy ix) Iff.rfl,
    otf_value h hN hnz hrR 0 h1' h2 h3 (at3 h.size h.zsize h.res h.zres (OnCap h.kmag h.limit (1 / (h.zsize * h.zres))
    (1 / (h.size * h.res)) h.dual) iz iy ix) hiff.symm]
  simp only [HV, if_true]

/-! ## C51 -/

/-- C51: without vectorial correction the condition has no effect at all: the same amplitude OTF (hence the same
amplitude and intensity PSF and intensity OTF) for every condition. -/
theorem C51_scalar_ignores_condition (p : Params) (cd' : Condition) (hv : p.vecCorr = some .none)
    (t : Arr (Option ℂ)) (ht : SSpec.OTFa p = .ok t) :
    SSpec.OTFa { p with condition := some cd' } = .ok t ∧ SSpec.PSFa { p with condition := some cd' } = SSpec.PSFa p ∧
    SSpec.PSFi { p with condition := some cd' } = SSpec.PSFi p ∧ SSpec.OTFi { p with condition := some cd' } = SSpec.OTFi p := by
  have key : SSpec.OTFa { p with condition := some cd' } = .ok t := by
    obtain ⟨h, hh, rfl⟩ := sheppardGenOtf_ok ht
    have hvc : h.vecCorr = .none := by have := hh.vecCorr; rw [hv] at this; exact (Option.some.inj this).symm
    have hh' : SNumbersOf { p with condition := some cd' } { h with condition := cd' } :=
      ⟨hh.size, hh.zsize, hh.res, hh.zres, hh.kmag, hh.limit, hh.le, hh.vecCorr, rfl, hh.dual⟩
    rw [SSpec.OTFa, sheppardGenOtf_of hh']
    congr 2
    have : ∀ idx, (SheppardNum.otf { h with condition := cd' }).get idx = h.otf.get idx := by
      intro idx
      unfold SheppardNum.otf
      simp only [hvc]
      rfl
    cases e : h.otf
    cases e' : SheppardNum.otf { h with condition := cd' }
    have hg : (SheppardNum.otf { h with condition := cd' }).get = h.otf.get := funext this
    have hs : (SheppardNum.otf { h with condition := cd' }).shape = h.otf.shape := rfl
    rw [e, e'] at hg hs
    simp only at hg hs
    rw [hg, hs]
  refine ⟨key, ?_, ?_, ?_⟩ <;> simp only [SSpec.OTFi, SSpec.PSFi, SSpec.PSFa, key, ht]

/-- C51: with a vectorial correction (single objective) the condition scales every element by the apodisation factor of
its direction: 1, `1/√s` or `1/s`, where `s = kz / |k|`. -/
theorem C51_vectorial_scaled {p : Params} {w n i r z : ℚ} {N nz : ℕ} {v : VecCorr} {cd : Condition}
    (ho : SOptics p w n i r z N nz v .none false) (hv : v ≠ .none) (hN : 3 ≤ N) (hnz : 3 ≤ nz) (hr : 0 < r)
    (t t' : Arr (Option ℂ)) (ht : SSpec.OTFa p = .ok t) (ht' : SSpec.OTFa { p with condition := some cd } = .ok t')
    (c iz iy ix : ℕ) (hc : c < components v) (h1 : iz < nz) (h2 : iy < N) (h3 : ix < N) : ∃ a : ℂ,
    t.get [c, iz, iy, ix] = some a ∧ t'.get [c, iz, iy, ix] =
      some (a * (apodization cd (cosine (centred nz z iz) (centred nz z iz) (centred N r iy) (centred N r ix)) : ℝ)) := by
  have ho' : SOptics { p with condition := some cd } w n i r z N nz v cd false :=
    ⟨ho.wl, ho.na, ho.ni, ho.res, ho.zres, ho.size, ho.zsize, ho.vecCorr, rfl, ho.dual⟩
  have e := (C50_value ho hN hnz hr t ht).2 c hc iz h1 iy h2 ix h3
  have e' := (C50_value ho' hN hnz hr t' ht').2 c hc iz h1 iy h2 ix h3
  refine ⟨_, e, ?_⟩
  rw [e']
  congr 1
  split_ifs
  · simp [at3, capAmplitude, hv, apodization]
  · simp

/-! ## C52 -/

/-- C52: two objectives, vectorial correction, sine condition (the default): every component is NaN at every element of
the lower cap. -/
theorem C52_lower_cap_nan {p : Params} {w n i r z : ℚ} {N nz : ℕ} {v : VecCorr}
    (ho : SOptics p w n i r z N nz v .sine true) (hv : v ≠ .none) (hN : 3 ≤ N) (hnz : 3 ≤ nz) (hr : 0 < r)
    (t : Arr (Option ℂ)) (ht : SSpec.OTFa p = .ok t) (c iz iy ix : ℕ) (h1 : iz < nz) (h2 : iy < N) (h3 : ix < N)
    (hlow : centred nz z iz < 0)
    (hcap : OnCap ((i / w : ℚ) : ℝ) ((n / w : ℚ) : ℝ) (1 / (nz * z)) (1 / (N * r)) true
      (centred nz z iz) (centred N r iy) (centred N r ix)) : t.get [c, iz, iy, ix] = none := by
  classical
  have hrR : (0 : ℝ) < r := by exact_mod_cast hr
  obtain ⟨h, hh, rfl, rfl, rfl, rfl, HC, HD, e6, e7, e8, e9⟩ := ho.obtain ht
  rw [← e6] at hrR
  rw [← e6, ← e7, ← e8, ← e9, ← HD] at hcap
  rw [← e7] at hlow
  rw [otf_value h hN hnz hrR c h1 h2 h3 (at3 h.size h.zsize h.res h.zres (OnCap h.kmag h.limit (1 / (h.zsize * h.zres))
    (1 / (h.size * h.res)) h.dual) iz iy ix) Iff.rfl, at3, if_pos hcap, if_neg hv]
  obtain ⟨-, -, e3⟩ := cosines_eq h h1 h2 h3
  simp only [SheppardNum.apod, HC, e3, npSqrt, cosine]
  rw [if_pos (div_neg_of_neg_of_pos hlow (length3_pos hlow.ne))]
  simp

/-- C52: one such element makes the whole amplitude PSF, intensity PSF and intensity OTF NaN. -/
theorem C52_everything_nan {p : Params} {w n i r z : ℚ} {N nz : ℕ} {v : VecCorr}
    (ho : SOptics p w n i r z N nz v .sine true) (hv : v ≠ .none) (hN : 3 ≤ N) (hnz : 3 ≤ nz) (hr : 0 < r)
    (t : Arr (Option ℂ)) (ht : SSpec.OTFa p = .ok t) (iz iy ix : ℕ) (h1 : iz < nz) (h2 : iy < N) (h3 : ix < N)
    (hlow : centred nz z iz < 0)
    (hcap : OnCap ((i / w : ℚ) : ℝ) ((n / w : ℚ) : ℝ) (1 / (nz * z)) (1 / (N * r)) true
      (centred nz z iz) (centred N r iy) (centred N r ix)) : ∃ a b o, SSpec.PSFa p = .ok a ∧ SSpec.PSFi p = .ok b ∧
      SSpec.OTFi p = .ok o ∧ (∀ idx, a.get idx = none) ∧ (∀ idx, b.get idx = none) ∧ ∀ idx, o.get idx = none := by
  obtain ⟨h, hh, e, rfl, rfl, rfl, HC, HD, e6, e7, e8, e9⟩ := ho.obtain ht
  have hshape : t.shape = [h.ncomp, h.zsize, h.size, h.size] := by
    rw [e, sheppard_otf_shape]
  have ha : ∀ idx, (sheppardPSFa t).get idx = none := by
    intro idx
    simp only [sheppardPSFa, nanTransform]
    rw [if_pos]
    refine ⟨[iz, iy, ix], ?_, C52_lower_cap_nan ho hv hN hnz hr t ht _ iz iy ix h1 h2 h3 hlow hcap⟩
    rw [hshape]
    simp [InShape, h1, h2, h3]
  have hb : ∀ idx, (sheppardPSFi (sheppardPSFa t)).get idx = none := by
    intro idx
    simp only [sheppardPSFi, nanSum]
    rw [if_pos]
    refine ⟨0, ?_, by rw [ha]; rfl⟩
    simp only [sheppardPSFa, nanTransform, hshape, List.headD_cons, SheppardNum.ncomp]
    cases h.vecCorr <;> simp
  refine ⟨_, _, _, by rw [SSpec.PSFa, ht]; rfl, by rw [SSpec.PSFi, SSpec.PSFa, ht]; rfl,
    by rw [SSpec.OTFi, SSpec.PSFi, SSpec.PSFa, ht]; rfl, ha, hb, fun idx => ?_⟩
  simp only [sheppardOTFi]
  rw [if_pos]
  refine ⟨[iz, iy, ix], ?_, hb _⟩
  simp only [sheppardPSFi, sheppardPSFa, nanTransform, hshape, List.tail_cons]
  simp [InShape, h1, h2, h3]

/-- C52: with one objective nothing the model computes contains a NaN. -/
theorem C52_single_never_nan {p : Params} {w n i r z : ℚ} {N nz : ℕ} {v : VecCorr} {cd : Condition}
    (ho : SOptics p w n i r z N nz v cd false) (hN : 3 ≤ N) (hnz : 3 ≤ nz) (hr : 0 < r)
    (t : Arr (Option ℂ)) (ht : SSpec.OTFa p = .ok t) : ∃ a b o, SSpec.PSFa p = .ok a ∧ SSpec.PSFi p = .ok b ∧
      SSpec.OTFi p = .ok o ∧ ∀ c < components v, ∀ iz < nz, ∀ iy < N, ∀ ix < N, t.get [c, iz, iy, ix] ≠ none ∧
      a.get [c, iz, iy, ix] ≠ none ∧ b.get [iz, iy, ix] ≠ none ∧ o.get [iz, iy, ix] ≠ none := by
  obtain ⟨hshape, hval⟩ := C50_value ho hN hnz hr t ht
  have hidx : ∀ idx, InShape idx [nz, N, N] → ∃ iz < nz, ∃ iy < N, ∃ ix < N, idx = [iz, iy, ix] := by
    intro idx hi
    unfold InShape at hi
    rcases hi with _ | ⟨q1, hi⟩
    rcases hi with _ | ⟨q2, hi⟩
    rcases hi with _ | ⟨q3, hi⟩
    cases hi
    exact ⟨_, q1, _, q2, _, q3, rfl⟩
  have hta : ∀ c < components v, ∀ idx, InShape idx [nz, N, N] → t.get (c :: idx) ≠ none := by
    intro c hc idx hi
    obtain ⟨iz, h1, iy, h2, ix, h3, rfl⟩ := hidx idx hi
    rw [hval c hc iz h1 iy h2 ix h3]
    simp
  have ha : ∀ c < components v, ∀ idx, (sheppardPSFa t).get (c :: idx) ≠ none := by
    intro c hc idx
    simp only [sheppardPSFa, nanTransform]
    rw [if_neg]
    · simp
    · rintro ⟨u, hu, hn⟩
      rw [hshape] at hu
      exact hta c hc u hu hn
  have hb : ∀ idx, (sheppardPSFi (sheppardPSFa t)).get idx ≠ none := by
    intro idx
    simp only [sheppardPSFi, nanSum]
    rw [if_neg]
    · simp
    · rintro ⟨c, hc, hn⟩
      have hc' : c < components v := by
        simpa only [sheppardPSFa, nanTransform, hshape, List.headD_cons] using hc
      have := ha c hc' idx
      rw [Option.map_eq_none_iff] at hn
      exact this hn
  refine ⟨_, _, _, by rw [SSpec.PSFa, ht]; rfl, by rw [SSpec.PSFi, SSpec.PSFa, ht]; rfl,
    by rw [SSpec.OTFi, SSpec.PSFi, SSpec.PSFa, ht]; rfl, fun c hc iz h1 iy h2 ix h3 => ⟨?_, ha c hc _, hb _, ?_⟩⟩
  · exact hta c hc _ (by simp [InShape, h1, h2, h3])
  · simp only [sheppardOTFi]
    rw [if_neg]
    · simp
    · rintro ⟨u, -, hn⟩
      exact hb _ hn

/-- C52: whatever the condition, two objectives and a correction other than 'z' give NaN at the pole of the lower cap. -/
theorem C52_pole_nan {p : Params} {w n i r z : ℚ} {N nz : ℕ} {v : VecCorr} {cd : Condition}
    (ho : SOptics p w n i r z N nz v cd true) (hv : v = .x ∨ v = .y) (hN : 3 ≤ N) (hnz : 3 ≤ nz) (hr : 0 < r)
    (t : Arr (Option ℂ)) (ht : SSpec.OTFa p = .ok t) (c iz : ℕ) (hc : c < 2) (h1 : iz < nz)
    (hlow : centred nz z iz < 0)
    (hcap : OnCap ((i / w : ℚ) : ℝ) ((n / w : ℚ) : ℝ) (1 / (nz * z)) (1 / (N * r)) true (centred nz z iz) 0 0) :
    t.get [c, iz, N / 2, N / 2] = none := by
  classical
  have hrR : (0 : ℝ) < r := by exact_mod_cast hr
  obtain ⟨h, hh, rfl, rfl, rfl, HV, HC, HD, e6, e7, e8, e9⟩ := ho.obtain ht
  rw [← e6] at hrR
  have h2 : h.size / 2 < h.size := by omega
  have hc0 : centred h.size h.res (h.size / 2) = 0 := by simp [centred]
  rw [← e6, ← e7, ← e8, ← e9, ← HD] at hcap
  rw [← e7] at hlow
  rw [otf_value h hN hnz hrR c h1 h2 h2 (at3 h.size h.zsize h.res h.zres (OnCap h.kmag h.limit (1 / (h.zsize * h.zres))
    (1 / (h.size * h.res)) h.dual) iz (h.size / 2) (h.size / 2)) Iff.rfl,
    if_pos (by rw [at3, hc0]; exact hcap), if_neg (by rw [HV]; rcases hv with rfl | rfl <;> simp)]
  obtain ⟨e1, e2, e3⟩ := cosines_eq h h1 h2 h2
  rw [hc0] at e1 e2 e3
  have e4 : (1 : ℝ) + cosine (centred h.zsize h.zres iz) (centred h.zsize h.zres iz) 0 0 = 0 := by
    have : length3 (centred h.zsize h.zres iz) 0 0 = -centred h.zsize h.zres iz := by
      simp [length3, Real.sqrt_sq_eq_abs, abs_of_neg hlow]
    rw [cosine, this, div_neg, div_self hlow.ne]; ring
  have hdiv : ∀ a : ℝ, SheppardNum.div? a (1 + cosine (centred h.zsize h.zres iz) (centred h.zsize h.zres iz) 0 0) = none := by
    intro a; unfold SheppardNum.div?; rw [if_pos e4]
  have hvf : (h.vecFactors (rollIdx h.zsize (h.zsize / 2 : ℕ) iz) (rollIdx h.size (h.size / 2 : ℕ) (h.size / 2))
      (rollIdx h.size (h.size / 2 : ℕ) (h.size / 2))).getD c none = none := by
    unfold SheppardNum.vecFactors
    rw [e1, e2, e3, HV]
    rcases hv with rfl | rfl <;> interval_cases c <;> simp only [hdiv] <;> rfl
  rw [hvf]
  rfl

/-- Non-vacuity of C50-C52: for the demo parameters (64 x 64 x 64, `K` = 16 pixels) element 48 on the axis lies on the
cap and element 16 on the lower cap. -/
theorem demo_cap (dual : Bool) : OnCap ((1 / 520 : ℚ) : ℝ) ((17 / 20 / 520 : ℚ) : ℝ) (1 / ((64 : ℕ) * (130 : ℚ))) (1 / ((64 : ℕ) * (130 : ℚ))) dual
      (centred 64 (130 : ℚ) 48) (centred 64 (130 : ℚ) 32) (centred 64 (130 : ℚ) 32) ∧
    OnCap ((1 / 520 : ℚ) : ℝ) ((17 / 20 / 520 : ℚ) : ℝ) (1 / ((64 : ℕ) * (130 : ℚ))) (1 / ((64 : ℕ) * (130 : ℚ))) true
      (centred 64 (130 : ℚ) 16) (centred 64 (130 : ℚ) 32) (centred 64 (130 : ℚ) 32) ∧ centred 64 (130 : ℚ) 16 < 0 := by
  have h0 : centred 64 ((130 : ℚ) : ℝ) 32 = 0 := by norm_num [centred]
  have h1 : centred 64 ((130 : ℚ) : ℝ) 48 = 1 / 520 := by norm_num [centred]
  have h2 : centred 64 ((130 : ℚ) : ℝ) 16 = -(1 / 520) := by norm_num [centred]
  have hl : ∀ a : ℝ, length3 a 0 0 = |a| := fun a => by simp [length3, Real.sqrt_sq_eq_abs]
  have hp : ∀ a : ℝ, a ≠ 0 → pixelAlong (1 / ((64 : ℕ) * (130 : ℚ))) (1 / ((64 : ℕ) * (130 : ℚ))) a 0 0 = 1 / 8320 := by
    intro a ha
    rw [pixelAlong, zero_mul, hl, hl, abs_mul, mul_comm, mul_div_assoc, div_self (abs_ne_zero.mpr ha)]
    norm_num
  have hs : √(((1 / 520 : ℚ) : ℝ) ^ 2 - ((17 / 20 / 520 : ℚ) : ℝ) ^ 2) < 1 / 520 - 1 / 8320 := by
    rw [Real.sqrt_lt' (by norm_num)]
    norm_num
  refine ⟨⟨?_, ?_⟩, ⟨?_, ?_⟩, ?_⟩
  · rw [h0, h1, hl, hp _ (by norm_num)]; norm_num
  · rw [h0, h1, hp _ (by norm_num)]
    have : |(1 : ℝ) / 520| = 1 / 520 := abs_of_pos (by norm_num)
    rw [this, ite_self]; linarith
  · rw [h0, h2, hl, hp _ (by norm_num), abs_neg]; norm_num
  · rw [h0, h2, hp _ (by norm_num), abs_neg, if_pos rfl]
    have : |(1 : ℝ) / 520| = 1 / 520 := abs_of_pos (by norm_num)
    rw [this]; linarith
  · rw [h2]; norm_num

/-- The parameters of a constructed model. -/
theorem sheppard_soptics (a : InitArgs) (b : Bool) (o : SObj) (ho : SObj.new a (.bool b) = .ok o)
    {w n i r z : ℚ} {N nz : ℕ} (hg : GoodArgs a w n i r z N nz) : ∃ v cd,
    keyword VecCorr.ofString a.vecCorr = .ok v ∧ keyword Condition.ofString a.condition = .ok cd ∧
    SOptics o.params w n i r z N nz v cd b := by
  obtain ⟨l, x, w', n', h', zl, z', vc, cd, b', a1, a2, a3, a4, a4', a4'', a5, c1, c2, c3, c4, a6, a6', a6'', a7, a8, a9, hb, rfl⟩ :=
    (sheppard_new_iff a (.bool b) o).mp ho
  cases hb
  have hz' := zresEff_denotes.mpr hg.zres.1
  have hs := zsizeEff_denotes.mpr hg.zsize
  exact ⟨vc, cd, a8, a9, ⟨_, rfl, hg.wl.1⟩, ⟨_, rfl, hg.na.1⟩, ⟨_, rfl, hg.ni.1⟩, ⟨_, rfl, hg.res.1⟩, ⟨_, rfl, hz'⟩,
    ⟨_, rfl, num_of_denotesNat hg.size⟩, ⟨_, rfl, num_of_denotesNat hs⟩, rfl, rfl, rfl⟩

/-- The demo arguments with a polarisation. -/
def demoArgsV (v c : String) : InitArgs := { demoArgs with vecCorr := .str v, condition := .str c }

/-- Non-vacuity: constructed models, scalar and vectorial, with one objective and with two, satisfy `SOptics` and have an
amplitude OTF. -/
theorem demo_soptics (v : VecCorr) (cd : Condition) (b : Bool) (v' c' : String) (hv : VecCorr.ofString v' = some v)
    (hc : Condition.ofString c' = some cd) : ∃ (o : SObj) (t : Arr (Option ℂ)),
    SObj.new (demoArgsV v' c') (.bool b) = .ok o ∧ SOptics o.params 520 (17 / 20) 1 130 130 64 64 v cd b ∧
    SSpec.OTFa o.params = .ok t := by
  have hg : GoodArgs (demoArgsV v' c') 520 (17 / 20) 1 130 130 64 64 := by
    have h := demoArgs_good.2
    refine ⟨h.wl, h.na, h.ni, h.res, h.size, h.zres, h.zsize, ?_, ?_⟩
    · unfold VecCorr.ofString at hv
      split at hv <;> simp_all [demoArgsV]
    · unfold Condition.ofString at hc
      split at hc <;> simp_all [demoArgsV]
  have hs : NoSpecialArgs (demoArgsV v' c') := by
    have h := demoArgs_good.1
    exact ⟨h.wl, h.na, h.ni, h.res, h.zres⟩
  obtain ⟨o, ho⟩ := (C34_sheppard_accepts (demoArgsV v' c') hs (.bool b)).mpr
    ⟨⟨_, _, _, _, _, _, _, hg, by norm_num⟩, _, rfl⟩
  obtain ⟨v2, cd2, k1, k2, h⟩ := sheppard_soptics _ b o ho hg
  obtain ⟨v3, cd3, -, -, h3⟩ := sheppard_constructed _ b o ho hg (by norm_num) (by norm_num)
    (by norm_num) (by norm_num)
  simp only [keyword, demoArgsV, hv, hc] at k1 k2
  cases k1; cases k2
  exact ⟨o, _, ho, h, sheppardGenOtf_of h3⟩

/-- Non-vacuity of C52: with two objectives, polarisation 'x' and the default condition everything the model computes is NaN. -/
theorem demo_everything_nan : ∃ (o : SObj) (b : Arr (Option ℝ)), SObj.new (demoArgsV "x" "sine") (.bool true) = .ok o ∧
    SSpec.PSFi o.params = .ok b ∧ ∀ idx, b.get idx = none := by
  obtain ⟨o, t, ho, h, ht⟩ := demo_soptics .x .sine true "x" "sine" rfl rfl
  obtain ⟨a, b, c, -, hb, -, -, hn, -⟩ := C52_everything_nan h (by simp) (by norm_num) (by norm_num) (by norm_num) t ht 16 32 32
    (by norm_num) (by norm_num) (by norm_num) (demo_cap true).2.2 (demo_cap true).2.1
  exact ⟨o, b, ho, hb, hn⟩

end PyOTF
