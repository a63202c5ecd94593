import Verif.Props.C50_C52_Sheppard
import Verif.Props.C46_C48_Symmetry

/-!
# C79-C81: units of length, defocus and tilt of the pupil
-/

namespace PyOTF

open Physics Complex

/-! ## C79 -/

/-- The same instrument in another unit of length. -/
noncomputable def HanserNum.inUnit (h : HanserNum) (c : ℝ) (l : PyFloat) : HanserNum :=
  ⟨h.size, c * h.res, h.kmag / c, l, h.z.map fun z => c * z, h.vecCorr, h.condition⟩

namespace HanserNum

variable (h : HanserNum) {c : ℝ} (hc : 0 < c) (l : PyFloat)
include hc

omit hc in
theorem inUnit_k (i : ℕ) : (h.inUnit c l).k i = h.k i / c := by
  simp only [k, inUnit, fftfreq]
  rw [mul_div_assoc, div_div]
  congr 2; ring

theorem inUnit_kr (y x : ℕ) : (h.inUnit c l).kr y x = h.kr y x / c := by
  simp only [kr, cart2pol, h.inUnit_k]
  rw [div_pow, div_pow, ← add_div, Real.sqrt_div' _ (sq_nonneg c), Real.sqrt_sq hc.le]

theorem inUnit_phi (y x : ℕ) : (h.inUnit c l).phi y x = h.phi y x := by
  simp only [phi, cart2pol, h.inUnit_k]
  have : (⟨h.k x / c, h.k y / c⟩ : ℂ) = ((c⁻¹ : ℝ) : ℂ) * ⟨h.k x, h.k y⟩ := by
    have : c ≠ 0 := hc.ne'
    apply Complex.ext <;> simp <;> field_simp
  rw [this, Complex.arg_real_mul _ (inv_pos.mpr hc)]

theorem inUnit_kz (y x : ℕ) : (h.inUnit c l).kz y x = h.kz y x / c := by
  simp only [kz, h.inUnit_kr hc, psqrt]
  have e : (h.inUnit c l).kmag ^ 2 - (h.kr y x / c) ^ 2 = (h.kmag ^ 2 - h.kr y x ^ 2) / c ^ 2 := by
    simp only [inUnit]; rw [div_pow, div_pow, sub_div]
  have m : max 0 ((h.kmag ^ 2 - h.kr y x ^ 2) / c ^ 2) = max 0 (h.kmag ^ 2 - h.kr y x ^ 2) / c ^ 2 := by
    rw [← max_div_div_right (sq_nonneg c) 0, zero_div]
  rw [e, m, Real.sqrt_div' _ (sq_nonneg c), Real.sqrt_sq hc.le]

theorem inUnit_theta (y x : ℕ) : (h.inUnit c l).theta y x = h.theta y x := by
  unfold theta
  rw [h.inUnit_kr hc]
  have e : (h.inUnit c l).kmag = h.kmag / c := rfl
  simp only [e, div_lt_div_iff_of_pos_right hc, mul_div_assoc, div_div_div_cancel_right₀ hc.ne']

theorem inUnit_defocus (iz y x : ℕ) : (h.inUnit c l).defocus iz y x = h.defocus iz y x := by
  unfold defocus
  rw [h.inUnit_kz hc]
  have : (h.inUnit c l).z.getD iz 0 = c * h.z.getD iz 0 := by
    simp only [inUnit, List.getD_eq_getElem?_getD, List.getElem?_map]
    cases h.z[iz]? <;> simp
  rw [this]
  congr 1
  have : (c : ℂ) ≠ 0 := by exact_mod_cast hc.ne'
  push_cast
  field_simp

theorem inUnit_pupils (base : Arr ℂ) (A B : ℕ) : hanserPupils (h.inUnit c l) base A B = hanserPupils h base A B := by
  unfold hanserPupils
  simp only [h.inUnit_defocus hc, apod, vecFactors, h.inUnit_theta hc, h.inUnit_phi hc]
  simp [inUnit, ncomp]

theorem inUnit_idealPupil (q q' : ℚ) (hq : h.limit = .fin q) (hl : l = .fin q') (e : (q' : ℝ) = q / c) :
    (h.inUnit c l).idealPupil = h.idealPupil := by
  have e1 : (h.inUnit c l).limit = l := rfl
  have e2 : (h.inUnit c l).size = h.size := rfl
  have e3 : ∀ y x, ltPyFloat ((h.inUnit c l).kr y x) (h.inUnit c l).limit ↔ ltPyFloat (h.kr y x) h.limit := fun y x => by
    rw [h.inUnit_kr hc, e1, hl, hq]
    simp only [ltPyFloat, e, div_lt_div_iff_of_pos_right hc]
  unfold idealPupil
  rw [e2]
  congr 1
  funext idx
  by_cases hb : ltPyFloat (h.kr (idx.getD 0 0) (idx.getD 1 0)) h.limit
  · rw [if_pos ((e3 _ _).mpr hb), if_pos hb]
  · rw [if_neg (fun q => hb ((e3 _ _).mp q)), if_neg hb]

end HanserNum

/-- C79: the unit of length does not matter.  If wavelength, pixel size and planes of one `HanserPSF` are `c` times those of another (with
the same numerical aperture, index and pupil), their outputs are identical. -/
theorem C79_hanser (s s' : HSpec) (hf : s.Fits) {w n i r : ℚ} {N : ℕ} {zs : List ℚ} {v : VecCorr} {cd : Condition}
    (ho : Optics s.params w n i r N zs v cd) (c : ℚ) (hc : 0 < c)
    (ho' : Optics s'.params (c * w) n i (c * r) N (zs.map fun z => c * z) v cd) (hp : s'.pupil = s.pupil) (a : Arr ℂ)
    (ha : s.PSFa = .ok a) : s'.PSFa = .ok a := by
  have hcR : (0 : ℝ) < c := by exact_mod_cast hc
  obtain ⟨h1, h2, h3, h4⟩ := (C76_computable s hf ho).mp ⟨a, ha⟩
  have hN := ho.numbersOf h1 h2 h3 h4
  have hN' := ho'.numbersOf (mul_ne_zero hc.ne' h1) (mul_ne_zero hc.ne' h2) h3 h4
  have e : (⟨N, ((c * r : ℚ) : ℝ), ((i / (c * w) : ℚ) : ℝ), .fin (n / (c * w)), (zs.map fun z => c * z).map fun (q : ℚ) => (q : ℝ), v, cd⟩ :
      HanserNum) = HanserNum.inUnit ⟨N, r, ((i / w : ℚ) : ℝ), .fin (n / w), zs.map fun (q : ℚ) => (q : ℝ), v, cd⟩ c (.fin (n / (c * w))) := by
    simp only [HanserNum.inUnit, List.map_map, HanserNum.mk.injEq, true_and, and_true]
    refine ⟨by push_cast; ring, by push_cast; rw [div_div, mul_comm (w : ℝ)], ?_⟩
    congr 1; funext q; simp
  rw [e] at hN'
  rw [HSpec.PSFa] at ha ⊢
  rcases hq : s.pupil with _ | P
  · rw [hp, hq, genPsf_none_of hN', HanserNum.inUnit_pupils _ hcR, HanserNum.inUnit_idealPupil _ hcR _ (n / w) _ rfl rfl]
    · rw [hq, genPsf_none_of hN] at ha
      exact ha
    · push_cast; rw [div_div, mul_comm (w : ℝ)]
  · obtain ⟨u, hu, hu'⟩ := ho.size
    have hP : P.shape = [N, N] := by rw [hf P u hq hu, hu']
    rw [hp, hq, genPsf_some_of hN' hP, HanserNum.inUnit_pupils _ hcR]
    rw [hq, genPsf_some_of hN hP] at ha
    exact ha

/-! ### SheppardPSF -/

/-- The same instrument in another unit of length. -/
noncomputable def SheppardNum.inUnit (h : SheppardNum) (c : ℝ) : SheppardNum :=
  ⟨h.size, h.zsize, c * h.res, c * h.zres, h.kmag / c, h.limit / c, h.vecCorr, h.condition, h.dual⟩

namespace SheppardNum

variable (h : SheppardNum) {c : ℝ} (hc : 0 < c)

theorem inUnit_k (c : ℝ) (i : ℕ) : (h.inUnit c).k i = h.k i / c := by
  simp only [k, inUnit, fftfreq]
  rw [mul_div_assoc, div_div]
  congr 2; ring

theorem inUnit_kz (c : ℝ) (i : ℕ) : (h.inUnit c).kz i = h.kz i / c := by
  simp only [kz, inUnit, fftfreq]
  rw [mul_div_assoc, div_div]
  congr 2; ring

include hc

theorem inUnit_kr (iz iy ix : ℕ) : (h.inUnit c).kr iz iy ix = h.kr iz iy ix / c := by
  simp only [kr, inUnit_k, inUnit_kz]
  rw [div_pow, div_pow, div_pow, ← add_div, ← add_div, Real.sqrt_div' _ (sq_nonneg c), Real.sqrt_sq hc.le]

theorem inUnit_dkr (iz iy ix : ℕ) : (h.inUnit c).dkr iz iy ix = h.dkr iz iy ix / c := by
  have e1 : (h.inUnit c).dk = h.dk / c := by simp only [dk, inUnit_k]; ring
  have e2 : (h.inUnit c).dkz = h.dkz / c := by simp only [dkz, inUnit_kz]; ring
  unfold dkr
  rw [e1, e2, h.inUnit_kr hc, h.inUnit_k, h.inUnit_k, h.inUnit_kz]
  have e3 : h.dk / c ≠ h.dkz / c ↔ h.dk ≠ h.dkz := by
    rw [not_iff_not, div_left_inj' hc.ne']
  simp only [e3]
  split_ifs
  · simp
  · have : √((h.kz iz / c * (h.dkz / c)) ^ 2 + (h.k iy / c * (h.dk / c)) ^ 2 + (h.k ix / c * (h.dk / c)) ^ 2) =
        √((h.kz iz * h.dkz) ^ 2 + (h.k iy * h.dk) ^ 2 + (h.k ix * h.dk) ^ 2) / c ^ 2 := by
      rw [← Real.sqrt_sq (sq_nonneg c), ← Real.sqrt_div' _ (sq_nonneg _)]
      congr 1
      field_simp
    rw [this]
    have : c ≠ 0 := hc.ne'
    by_cases h0 : h.kr iz iy ix = 0
    · simp [h0]
    · field_simp
  · rfl

theorem inUnit_otf : (h.inUnit c).otf = h.otf := by
  have c0 : c ≠ 0 := hc.ne'
  have e1 : ∀ iz iy ix, (h.inUnit c).valid iz iy ix ↔ h.valid iz iy ix := fun iz iy ix => by
    have m : (h.inUnit c).kzMin = h.kzMin / c := by
      simp only [kzMin, inUnit]
      rw [div_pow, div_pow, ← sub_div, Real.sqrt_div' _ (sq_nonneg c), Real.sqrt_sq hc.le]
    have z : (h.inUnit c).kzz iz = h.kzz iz / c := by
      have d : (h.inUnit c).dual = h.dual := rfl
      simp only [kzz, inUnit_kz, d, abs_div, abs_of_pos hc]
      split_ifs <;> rfl
    have km : (h.inUnit c).kmag = h.kmag / c := rfl
    unfold valid
    rw [h.inUnit_kr hc, h.inUnit_dkr hc, m, z, km, ← sub_div, abs_div, abs_of_pos hc, ← add_div,
      div_lt_div_iff_of_pos_right hc, gt_iff_lt, div_lt_div_iff_of_pos_right hc]
  have e2 : ∀ iz iy ix, (h.inUnit c).m iz iy ix = h.m iz iy ix := fun iz iy ix => by
    rw [m, m, h.inUnit_kr hc, h.inUnit_k, div_div_div_cancel_right₀ c0]
  have e3 : ∀ iz iy ix, (h.inUnit c).n iz iy ix = h.n iz iy ix := fun iz iy ix => by
    rw [n, n, h.inUnit_kr hc, h.inUnit_k, div_div_div_cancel_right₀ c0]
  have e4 : ∀ iz iy ix, (h.inUnit c).s iz iy ix = h.s iz iy ix := fun iz iy ix => by
    rw [s, s, h.inUnit_kr hc, h.inUnit_kz, div_div_div_cancel_right₀ c0]
  have e5 : (h.inUnit c).vecCorr = h.vecCorr := rfl
  have e6 : (h.inUnit c).condition = h.condition := rfl
  have e7 : (h.inUnit c).size = h.size := rfl
  have e8 : (h.inUnit c).zsize = h.zsize := rfl
  unfold otf ncomp apod vecFactors
  simp only [e2, e3, e4, e5, e6, e7, e8]
  congr 1
  funext idx
  by_cases hb : h.valid (idx.getD 1 0) (idx.getD 2 0) (idx.getD 3 0)
  · rw [if_pos ((e1 _ _ _).mpr hb), if_pos hb]
  · rw [if_neg (fun q => hb ((e1 _ _ _).mp q)), if_neg hb]

end SheppardNum

/-- C79: the same for a `SheppardPSF`. -/
theorem C79_sheppard (p p' : Params) {w n i r z : ℚ} {N nz : ℕ} {v : VecCorr} {cd : Condition} {dual : Bool}
    (ho : SOptics p w n i r z N nz v cd dual) (c : ℚ) (hc : 0 < c)
    (ho' : SOptics p' (c * w) n i (c * r) (c * z) N nz v cd dual) (t : Arr (Option ℂ))
    (ht : SSpec.OTFa p = .ok t) : SSpec.OTFa p' = .ok t := by
  have hcR : (0 : ℝ) < c := by exact_mod_cast hc
  obtain ⟨h, hh, rfl⟩ := sheppardGenOtf_ok ht
  obtain ⟨hw, h1, h2, h3, h4, h5, rfl⟩ := ho.num hh
  obtain ⟨u1, a1, b1⟩ := ho'.wl
  obtain ⟨u2, a2, b2⟩ := ho'.na
  obtain ⟨u3, a3, b3⟩ := ho'.ni
  obtain ⟨u4, a4, b4⟩ := ho'.res
  obtain ⟨u5, a5, b5⟩ := ho'.zres
  obtain ⟨u6, a6, b6⟩ := ho'.size
  obtain ⟨u7, a7, b7⟩ := ho'.zsize
  have c0 := hc.ne'
  have hN : SNumbersOf p' (SheppardNum.inUnit ⟨N, nz, r, z, ((i / w : ℚ) : ℝ), ((n / w : ℚ) : ℝ), v, cd, dual⟩ c) := by
    refine ⟨⟨u6, a6, b6.symm, h3⟩, ⟨u7, a7, b7.symm, h4⟩, ⟨u4, _, a4, b4, ?_, mul_ne_zero c0 h1⟩, ⟨u5, _, a5, b5, ?_, mul_ne_zero c0 h2⟩,
      ⟨u3, u1, _, _, i / (c * w), a3, a1, b3, b1, ?_, ?_⟩, ⟨u2, u1, _, _, n / (c * w), a2, a1, b2, b1, ?_, ?_⟩, ?_, ho'.vecCorr, ho'.condition, ho'.dual⟩
    · simp [SheppardNum.inUnit]
    · simp [SheppardNum.inUnit]
    · simp [PyFloat.div, c0, hw]
    · simp only [SheppardNum.inUnit]; push_cast; rw [div_div, mul_comm (w : ℝ)]
    · simp [PyFloat.div, c0, hw]
    · simp only [SheppardNum.inUnit]; push_cast; rw [div_div, mul_comm (w : ℝ)]
    · have := hh.le
      simp only [SheppardNum.inUnit] at this ⊢
      rw [div_pow, div_pow]
      exact div_le_div_of_nonneg_right this (sq_nonneg _)
  rw [SSpec.OTFa, sheppardGenOtf_of hN, SheppardNum.inUnit_otf _ hcR]

/-- Two computations give the same four images. -/
structure SameImages (s s' : HSpec) : Prop where
  PSFa : s'.PSFa = s.PSFa
  PSFi : s'.PSFi = s.PSFi
  OTFa : s'.OTFa = s.OTFa
  OTFi : s'.OTFi = s.OTFi

theorem sameImages_of_PSFa {s s' : HSpec} (h : s'.PSFa = s.PSFa) : SameImages s s' := by
  have h2 : s'.PSFi = s.PSFi := by rw [HSpec.PSFi, HSpec.PSFi, h]
  exact ⟨h, h2, by rw [HSpec.OTFa, HSpec.OTFa, h], by rw [HSpec.OTFi, HSpec.OTFi, h2]⟩

/-- The arguments `a'` of a constructor are those of `a` in another unit of length: `wl`, `res` and `zres` are multiplied by `c`. -/
structure InUnit (a a' : InitArgs) (c : ℚ) : Prop where
  wl : ∀ q, Denotes a.wl q → Denotes a'.wl (c * q)
  res : ∀ q, Denotes a.res q → Denotes a'.res (c * q)
  zres : ∀ q, Denotes a.zres q → Denotes a'.zres (c * q)
  zresNone : a'.zres = .none ↔ a.zres = .none
  na : a'.na = a.na
  ni : a'.ni = a.ni
  size : a'.size = a.size
  zsize : a'.zsize = a.zsize
  vecCorr : a'.vecCorr = a.vecCorr
  condition : a'.condition = a.condition

theorem InUnit.good {a a' : InitArgs} {c : ℚ} (hc : 0 < c) (hu : InUnit a a' c) {w n i r z : ℚ} {N nz : ℕ}
    (hg : GoodArgs a w n i r z N nz) : GoodArgs a' (c * w) n i (c * r) (c * z) N nz := by
  refine ⟨⟨hu.wl _ hg.wl.1, mul_pos hc hg.wl.2⟩, by rw [hu.na]; exact hg.na, by rw [hu.ni]; exact hg.ni, ⟨hu.res _ hg.res.1, ?_⟩,
    by rw [hu.size]; exact hg.size, ⟨?_, mul_pos hc hg.zres.2⟩, by rw [hu.zsize, hu.size]; exact hg.zsize,
    by rw [hu.vecCorr]; exact hg.vecCorr, by rw [hu.condition]; exact hg.condition⟩
  · rw [mul_div_assoc]; exact mul_lt_mul_of_pos_left hg.res.2 hc
  · have := hg.zres.1
    by_cases h0 : a.zres = .none
    · rw [if_pos h0] at this; rw [if_pos (hu.zresNone.mpr h0)]; exact hu.res _ this
    · rw [if_neg h0] at this; rw [if_neg (fun h => h0 (hu.zresNone.mp h))]; exact hu.zres _ this

/-- C79: on constructed models.  If `HanserPSF(...)` accepts its arguments then it accepts them in another unit of length, and every image
is the same. -/
theorem C79_hanser_constructed (a a' : InitArgs) (hn : NoSpecialArgs a) (hn' : NoSpecialArgs a') (c : ℚ) (hc : 0 < c) (hu : InUnit a a' c)
    (o : HObj) (ho : HObj.new a none = .ok o) : ∃ o', HObj.new a' none = .ok o' ∧
    ((∃ t, (⟨o.params, none⟩ : HSpec).PSFa = .ok t) → SameImages ⟨o.params, none⟩ ⟨o'.params, none⟩) := by
  obtain ⟨w, n, i, r, z, N, nz, hg⟩ := (C34_hanser_accepts a hn none).mp ⟨o, ho⟩
  have hg' := hu.good hc hg
  obtain ⟨o', ho'⟩ := (C34_hanser_accepts a' hn' none).mpr ⟨_, _, _, _, _, _, _, hg'⟩
  refine ⟨o', ho', ?_⟩
  rintro ⟨t, ht⟩
  obtain ⟨v, cd, k1, k2, h⟩ := C76_constructed a o ho hg
  obtain ⟨v', cd', k1', k2', h'⟩ := C76_constructed a' o' ho' hg'
  rw [hu.vecCorr, k1] at k1'; cases k1'
  rw [hu.condition, k2] at k2'; cases k2'
  apply sameImages_of_PSFa
  rw [ht]
  refine C79_hanser ⟨o.params, none⟩ ⟨o'.params, none⟩ (fun P v h => by cases h) h c hc ?_ rfl t ht
  convert h' using 1
  rw [List.map_map]
  refine List.map_congr_left fun q _ => ?_
  simp only [Function.comp, plane]; ring

/-- C79: the same for `SheppardPSF(...)`. -/
theorem C79_sheppard_constructed (a a' : InitArgs) (hn : NoSpecialArgs a) (hn' : NoSpecialArgs a') (c : ℚ) (hc : 0 < c) (hu : InUnit a a' c)
    (b : Bool) (o : SObj) (ho : SObj.new a (.bool b) = .ok o) : ∃ o', SObj.new a' (.bool b) = .ok o' ∧
    ∀ t, SSpec.OTFa o.params = .ok t → SSpec.OTFa o'.params = .ok t ∧ SSpec.PSFa o'.params = SSpec.PSFa o.params ∧
      SSpec.PSFi o'.params = SSpec.PSFi o.params ∧ SSpec.OTFi o'.params = SSpec.OTFi o.params := by
  obtain ⟨⟨w, n, i, r, z, N, nz, hg, hi, hz⟩, -⟩ := (C34_sheppard_accepts a hn (.bool b)).mp ⟨o, ho⟩
  have hg' := hu.good hc hg
  obtain ⟨o', ho'⟩ := (C34_sheppard_accepts a' hn' (.bool b)).mpr ⟨⟨_, _, _, _, _, _, _, hg', hi, by
    rw [mul_div_assoc]; exact mul_lt_mul_of_pos_left hz hc⟩, b, rfl⟩
  refine ⟨o', ho', fun t ht => ?_⟩
  obtain ⟨v, cd, k1, k2, h⟩ := sheppard_soptics a b o ho hg
  obtain ⟨v', cd', k1', k2', h'⟩ := sheppard_soptics a' b o' ho' hg'
  rw [hu.vecCorr, k1] at k1'; cases k1'
  rw [hu.condition, k2] at k2'; cases k2'
  have e := C79_sheppard o.params o'.params h c hc h' t ht
  have e0 : SSpec.OTFa o'.params = SSpec.OTFa o.params := by rw [e, ht]
  have e1 : SSpec.PSFa o'.params = SSpec.PSFa o.params := by rw [SSpec.PSFa, SSpec.PSFa, e0]
  have e2 : SSpec.PSFi o'.params = SSpec.PSFi o.params := by rw [SSpec.PSFi, SSpec.PSFi, e1]
  exact ⟨e, e1, e2, by rw [SSpec.OTFi, SSpec.OTFi, e2]⟩

/-- The demo arguments in micrometres. -/
def demoArgsMicrometre : InitArgs :=
  { demoArgs with wl := .float (.fin (520 / 1000)), res := .float (.fin (130 / 1000)) }

/-- Non-vacuity of C79: nanometres and micrometres. -/
theorem demo_inUnit : NoSpecialArgs demoArgsMicrometre ∧ InUnit demoArgs demoArgsMicrometre (1 / 1000) := by
  refine ⟨by constructor <;> simp [demoArgs, demoArgsMicrometre, NotSpecial], ?_⟩
  constructor <;> simp [demoArgs, demoArgsMicrometre, Denotes, PyVal.num?] <;> norm_num

example : ∃ o o', HObj.new demoArgs none = .ok o ∧ HObj.new demoArgsMicrometre none = .ok o' ∧
    SameImages ⟨o.params, none⟩ ⟨o'.params, none⟩ := by
  obtain ⟨o, a, ho, -, -, ha⟩ := demo_optics
  obtain ⟨o', ho', h⟩ := C79_hanser_constructed demoArgs demoArgsMicrometre demoArgs_good.1 demo_inUnit.1 (1 / 1000) (by norm_num)
    demo_inUnit.2 o ho
  exact ⟨o, o', ho, ho', h ⟨a, ha⟩⟩

/-! ## C80 -/

/-- C80: defocus of the pupil is displacement of the planes.  Multiplying the pupil by `exp(2 pi i kz z0)`, with `kz` the axial frequency,
gives what the unchanged pupil gives with every plane moved by `z0`. -/
theorem C80_defocused_pupil (s s' : HSpec) (hf : s.Fits) (hf' : s'.Fits) {w n i r : ℚ} {N : ℕ} {zs : List ℚ} {v : VecCorr} {cd : Condition}
    (z0 : ℚ) (ho : Optics s.params w n i r N zs v cd) (ho' : Optics s'.params w n i r N (zs.map fun z => z + z0) v cd)
    (P : Arr ℂ) (hP : s.pupil = some P)
    (hPQ : ∀ y < N, ∀ x < N, P.get [y, x] = s'.pupilFn N r ((n / w : ℚ) : ℝ) y x *
      Complex.exp (2 * Real.pi * axial N r ((i / w : ℚ) : ℝ) y x * (z0 : ℝ) * Complex.I))
    (a a' : Arr ℂ) (ha : s.PSFa = .ok a) (ha' : s'.PSFa = .ok a') :
    a.shape = a'.shape ∧ ∀ c, ∀ iz < zs.length, ∀ y x, a.get [c, iz, y, x] = a'.get [c, iz, y, x] := by
  obtain ⟨h1, h2⟩ := C76_diffraction_integral s hf ho a ha
  obtain ⟨h1', h2'⟩ := C76_diffraction_integral s' hf' ho' a' ha'
  refine ⟨by rw [h1, h1', List.length_map], fun c iz hiz y x => ?_⟩
  rw [h2, h2', amplitude, amplitude]
  refine field_congr (fun y' hy x' hx => ?_) y x
  have e : (zs.map fun z => z + z0).getD iz 0 = zs.getD iz 0 + z0 := by
    simp [List.getD_eq_getElem?_getD, List.getElem?_eq_getElem hiz]
  rw [e]
  have e2 : s.pupilFn N r ((n / w : ℚ) : ℝ) y' x' = P.get [y', x'] := by simp only [HSpec.pupilFn, hP]
  rw [e2, hPQ y' hy x' hx]
  have : Complex.exp (2 * Real.pi * axial N r ((i / w : ℚ) : ℝ) y' x' * (((zs.getD iz 0 + z0 : ℚ) : ℝ) : ℂ) * Complex.I) =
      Complex.exp (2 * Real.pi * axial N r ((i / w : ℚ) : ℝ) y' x' * (z0 : ℝ) * Complex.I) *
      Complex.exp (2 * Real.pi * axial N r ((i / w : ℚ) : ℝ) y' x' * ((zs.getD iz 0 : ℚ) : ℝ) * Complex.I) := by
    rw [← Complex.exp_add]; congr 1; push_cast; ring
  rw [this]; ring

/-! ## C81 -/

/-- A linear phase across the pupil moves the field. -/
theorem field_ramp (A B : ℕ) (P : ℕ → ℕ → ℂ) (sy sx : ℤ) (y x y' x' : ℕ) (hA : 0 < A) (hB : 0 < B)
    (hy : (y' : ℤ) ≡ y + sy [ZMOD A]) (hx : (x' : ℤ) ≡ x + sx [ZMOD B]) :
    field A B (fun i j => P i j * Complex.exp (-(2 * Real.pi * Complex.I * ((sy : ℂ) * i / A + (sx : ℂ) * j / B)))) y' x' =
      field A B P y x := by
  obtain ⟨m, hm⟩ := (Int.modEq_iff_dvd.mp hy)
  obtain ⟨n, hn⟩ := (Int.modEq_iff_dvd.mp hx)
  have hA' : (A : ℂ) ≠ 0 := by exact_mod_cast hA.ne'
  have hB' : (B : ℂ) ≠ 0 := by exact_mod_cast hB.ne'
  have ey : (y' : ℂ) = y + sy - A * m := by
    have : (y' : ℤ) = y + sy - A * m := by omega
    exact_mod_cast congrArg (fun q : ℤ => (q : ℂ)) this
  have ex : (x' : ℂ) = x + sx - B * n := by
    have : (x' : ℤ) = x + sx - B * n := by omega
    exact_mod_cast congrArg (fun q : ℤ => (q : ℂ)) this
  unfold field
  congr 1
  refine Finset.sum_congr rfl fun i _ => Finset.sum_congr rfl fun j _ => ?_
  rw [mul_assoc, ← Complex.exp_add]
  congr 1
  rw [Complex.exp_eq_exp_iff_exists_int]
  refine ⟨-(m * i + n * j), ?_⟩
  rw [ey, ex]
  push_cast
  field_simp
  ring

/-- C81: tilting the pupil translates the image.  Multiplying the pupil by a linear phase of `sy` and `sx` turns per grid moves the amplitude
of every component and plane by `sy` rows and `sx` columns, cyclically. -/
theorem C81_tilted_pupil (s s' : HSpec) (hf : s.Fits) (hf' : s'.Fits) {w n i r : ℚ} {N : ℕ} {zs : List ℚ} {v : VecCorr} {cd : Condition}
    (ho : Optics s.params w n i r N zs v cd) (ho' : Optics s'.params w n i r N zs v cd) (sy sx : ℤ)
    (P : Arr ℂ) (hP : s.pupil = some P)
    (hPQ : ∀ y < N, ∀ x < N, P.get [y, x] = s'.pupilFn N r ((n / w : ℚ) : ℝ) y x *
      Complex.exp (-(2 * Real.pi * Complex.I * ((sy : ℂ) * y / N + (sx : ℂ) * x / N))))
    (a a' : Arr ℂ) (ha : s.PSFa = .ok a) (ha' : s'.PSFa = .ok a') :
    a.shape = a'.shape ∧ ∀ c iz (y x y' x' : ℕ), (y' : ℤ) ≡ y + sy [ZMOD N] → (x' : ℤ) ≡ x + sx [ZMOD N] →
      a.get [c, iz, y', x'] = a'.get [c, iz, y, x] := by
  obtain ⟨h1, h2⟩ := C76_diffraction_integral s hf ho a ha
  obtain ⟨h1', h2'⟩ := C76_diffraction_integral s' hf' ho' a' ha'
  obtain ⟨-, -, hN, -⟩ := (C76_computable s hf ho).mp ⟨a, ha⟩
  refine ⟨by rw [h1, h1'], fun c iz y x y' x' hy hx => ?_⟩
  rw [h2, h2', amplitude, amplitude, ← field_ramp N N _ sy sx y x y' x' hN hN hy hx]
  refine field_congr (fun i' hi j' hj => ?_) y' x'
  have e2 : s.pupilFn N r ((n / w : ℚ) : ℝ) i' j' = P.get [i', j'] := by simp only [HSpec.pupilFn, hP]
  rw [e2, hPQ i' hi j' hj]
  ring

/-- C81: so do the intensities. -/
theorem C81_intensity (s s' : HSpec) (hf : s.Fits) (hf' : s'.Fits) {w n i r : ℚ} {N : ℕ} {zs : List ℚ} {v : VecCorr} {cd : Condition}
    (ho : Optics s.params w n i r N zs v cd) (ho' : Optics s'.params w n i r N zs v cd) (sy sx : ℤ)
    (P : Arr ℂ) (hP : s.pupil = some P)
    (hPQ : ∀ y < N, ∀ x < N, P.get [y, x] = s'.pupilFn N r ((n / w : ℚ) : ℝ) y x *
      Complex.exp (-(2 * Real.pi * Complex.I * ((sy : ℂ) * y / N + (sx : ℂ) * x / N))))
    (b b' : Arr ℝ) (hb : s.PSFi = .ok b) (hb' : s'.PSFi = .ok b') :
    b.shape = b'.shape ∧ ∀ iz (y x y' x' : ℕ), (y' : ℤ) ≡ y + sy [ZMOD N] → (x' : ℤ) ≡ x + sx [ZMOD N] →
      b.get [iz, y', x'] = b'.get [iz, y, x] := by
  obtain ⟨a, ha, rfl⟩ := PSFi_ok hb
  obtain ⟨a', ha', rfl⟩ := PSFi_ok hb'
  obtain ⟨h1, h2⟩ := C81_tilted_pupil s s' hf hf' ho ho' sy sx P hP hPQ a a' ha ha'
  have hs := (C76_diffraction_integral s hf ho a ha).1
  have hs' := (C76_diffraction_integral s' hf' ho' a' ha').1
  refine ⟨by rw [psfiOf_shape a _ _ _ _ hs, psfiOf_shape a' _ _ _ _ hs'], fun iz y x y' x' hy hx => ?_⟩
  rw [psfiOf_get a _ _ _ _ hs, psfiOf_get a' _ _ _ _ hs']
  refine Finset.sum_congr rfl fun c _ => ?_
  rw [h2 c iz y x y' x' hy hx]

/-- Non-vacuity of C80 and C81: for the demo model there are pupils differing by any phase `f` from the ideal one, accepted by the model. -/
theorem demo_phase (f : ℕ → ℕ → ℂ) : ∃ (s s' : HSpec) (P a a' : Arr ℂ), s.Fits ∧ s'.Fits ∧
    Optics s.params 520 (17/20) 1 130 64 ((List.range 64).map (plane 64 130)) .none .sine ∧
    Optics s'.params 520 (17/20) 1 130 64 ((List.range 64).map (plane 64 130)) .none .sine ∧
    s.pupil = some P ∧ (∀ y x, P.get [y, x] = s'.pupilFn 64 130 ((17 / 20 / 520 : ℚ) : ℝ) y x * f y x) ∧
    s.PSFa = .ok a ∧ s'.PSFa = .ok a' := by
  obtain ⟨o, a', -, hf, h3, ha'⟩ := demo_optics
  obtain ⟨u, hu, hu'⟩ := h3.size
  let P : Arr ℂ := ⟨[64, 64], fun idx => (⟨o.params, none⟩ : HSpec).pupilFn 64 130 ((17 / 20 / 520 : ℚ) : ℝ) (idx.getD 0 0) (idx.getD 1 0) *
    f (idx.getD 0 0) (idx.getD 1 0)⟩
  have hfP : (⟨o.params, some P⟩ : HSpec).Fits := by
    intro Q v h hv
    cases h
    rw [hu] at hv
    cases hv
    rw [hu']
  obtain ⟨a, ha⟩ := (C76_computable ⟨o.params, some P⟩ hfP h3).mpr ⟨by norm_num, by norm_num, by norm_num, by norm_num⟩
  exact ⟨⟨o.params, some P⟩, ⟨o.params, none⟩, P, a, a', hfP, hf, h3, h3, rfl, fun y x => rfl, ha, ha'⟩

/-- Non-vacuity of C80: the demo model refocused by 500 nm with its planes moved, or with a defocused pupil. -/
example : ∃ (s s' : HSpec) (P a a' : Arr ℂ), s.Fits ∧ s'.Fits ∧
    Optics s.params 520 (17/20) 1 130 64 ((List.range 64).map (plane 64 130)) .none .sine ∧
    Optics s'.params 520 (17/20) 1 130 64 (((List.range 64).map (plane 64 130)).map fun z => z + 500) .none .sine ∧
    s.pupil = some P ∧ s.PSFa = .ok a ∧ s'.PSFa = .ok a' ∧
    ∀ c, ∀ iz < 64, ∀ y x, a.get [c, iz, y, x] = a'.get [c, iz, y, x] := by
  obtain ⟨s, s0, P, a, a0, hf, hf0, ho, ho0, hP, hPQ, ha, ha0⟩ := demo_phase fun y x =>
    Complex.exp (2 * Real.pi * axial 64 130 ((1 / 520 : ℚ) : ℝ) y x * ((500 : ℚ) : ℝ) * Complex.I)
  let s' : HSpec := ⟨{ s0.params with zrange := some ((((List.range 64).map (plane 64 130)).map fun z => z + 500).map PyFloat.fin) }, s0.pupil⟩
  have ho' : Optics s'.params 520 (17/20) 1 130 64 (((List.range 64).map (plane 64 130)).map fun z => z + 500) .none .sine :=
    ⟨ho0.wl, ho0.na, ho0.ni, ho0.res, ho0.size, rfl, ho0.vecCorr, ho0.condition⟩
  have hf' : s'.Fits := hf0
  obtain ⟨a', ha'⟩ := (C76_computable s' hf' ho').mpr ⟨by norm_num, by norm_num, by norm_num, by norm_num⟩
  have h := (C80_defocused_pupil s s' hf hf' 500 ho ho' P hP (fun y _ x _ => by rw [hPQ]; push_cast; rfl) a a' ha ha').2
  rw [List.length_map, List.length_range] at h
  exact ⟨s, s', P, a, a', hf, hf', ho, ho', hP, ha, ha', h⟩

end PyOTF
