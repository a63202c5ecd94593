import Verif.Props.C32_C33_Sheppard

/-!
# C34-C37: constructor acceptance, sampling limit, z planes, applied pupils
-/

namespace PyOTF

/-! ## C34 -/

/-- The value is a Python number denoting the rational `q`. -/
def Denotes (v : PyVal) (q : ℚ) : Prop := v.num? = some (.fin q)

/-- Not one of `nan`, `inf`, `-inf`. -/
def NotSpecial (v : PyVal) : Prop := v ≠ .float .nan ∧ v ≠ .float (.inf true) ∧ v ≠ .float (.inf false)

/-- A Python `int` (or `bool`) denoting the natural number `n`. -/
def DenotesNat (v : PyVal) (n : ℕ) : Prop := v = .int n ∨ (v = .bool true ∧ n = 1) ∨ (v = .bool false ∧ n = 0)

theorem accepts_float_iff {v : PyVal} (hs : NotSpecial v) :
    Accepts PyVal.isFloatOrInt v ↔ ∃ q, Denotes v q ∧ 0 ≤ q := by
  obtain ⟨h1, h2, h3⟩ := hs
  cases v with
  | int z => simp [Accepts, PyVal.isFloatOrInt, IsNegative, Denotes, PyVal.num?]
  | bool b => cases b <;> simp [Accepts, PyVal.isFloatOrInt, IsNegative, Denotes, PyVal.num?]
  | float x =>
    rcases x with q | _ | n
    · simp [Accepts, PyVal.isFloatOrInt, IsNegative, Denotes, PyVal.num?]
    · exact absurd rfl h1
    · cases n
      · exact absurd rfl h3
      · exact absurd rfl h2
  | _ => simp [Accepts, PyVal.isFloatOrInt, Denotes, PyVal.num?]

theorem accepts_int_iff {v : PyVal} : Accepts PyVal.isInt v ↔ ∃ n, DenotesNat v n := by
  cases v with
  | int z =>
    simp only [Accepts, PyVal.isInt, IsNegative, PyVal.num?, DenotesNat]
    constructor
    · rintro ⟨-, h⟩
      simp at h
      obtain ⟨n, rfl⟩ := Int.eq_ofNat_of_zero_le h
      exact ⟨n, Or.inl rfl⟩
    · rintro ⟨n, h | h | h⟩
      · cases h; simp
      · simp at h
      · simp at h
  | bool b =>
    cases b
    · simp [Accepts, PyVal.isInt, IsNegative, PyVal.num?, DenotesNat]
    · simp [Accepts, PyVal.isInt, IsNegative, PyVal.num?, DenotesNat]
  | _ => simp [Accepts, PyVal.isInt, DenotesNat]

theorem num_of_denotesNat {v : PyVal} {n : ℕ} (h : DenotesNat v n) : pyNat v = n := by
  rcases h with rfl | ⟨rfl, rfl⟩ | ⟨rfl, rfl⟩ <;> simp [pyNat]

theorem num_iff {v : PyVal} (hs : NotSpecial v) (x : PyFloat) : v.num? = some x ↔ ∃ q, x = .fin q ∧ Denotes v q := by
  obtain ⟨h1, h2, h3⟩ := hs
  cases v with
  | int z => simp [Denotes, PyVal.num?]; exact eq_comm
  | bool b => cases b <;> simp [Denotes, PyVal.num?] <;> exact eq_comm
  | float x =>
    rcases x with q | _ | n
    · simp [Denotes, PyVal.num?]; exact eq_comm
    · exact absurd rfl h1
    · cases n
      · exact absurd rfl h3
      · exact absurd rfl h2
  | _ => simp [Denotes, PyVal.num?]

theorem keyword_vec {v : PyVal} : (∃ w, keyword VecCorr.ofString v = .ok w) ↔
    v ∈ [PyVal.str "none", .str "x", .str "y", .str "z", .str "total"] := by
  cases v with
  | str s =>
    simp only [List.mem_cons, PyVal.str.injEq, List.not_mem_nil, or_false]
    have key : (VecCorr.ofString s).isSome = true ↔ s = "none" ∨ s = "x" ∨ s = "y" ∨ s = "z" ∨ s = "total" := by
      unfold VecCorr.ofString
      split <;> simp_all
    rw [← key, keyword]
    cases VecCorr.ofString s <;> simp
  | other h => cases h <;> simp [keyword]
  | _ => simp [keyword]

theorem keyword_cond {v : PyVal} : (∃ w, keyword Condition.ofString v = .ok w) ↔
    v ∈ [PyVal.str "none", .str "sine", .str "herschel"] := by
  cases v with
  | str s =>
    simp only [List.mem_cons, PyVal.str.injEq, List.not_mem_nil, or_false]
    have key : (Condition.ofString s).isSome = true ↔ s = "none" ∨ s = "sine" ∨ s = "herschel" := by
      unfold Condition.ofString
      split <;> simp_all
    rw [← key, keyword]
    cases Condition.ofString s <;> simp
  | other h => cases h <;> simp [keyword]
  | _ => simp [keyword]

/-- The Abbe limit as a rational number. -/
theorem isAbbe_iff {wl na : PyVal} {w n : ℚ} (hw : Denotes wl w) (hn : Denotes na n) (l : PyFloat) :
    IsAbbe wl na l ↔ w ≠ 0 ∧ n ≠ 0 ∧ l = .fin (w / (2 * n)) := by
  unfold Denotes at hw hn
  constructor
  · rintro ⟨w', n', q, h1, h2, h3, h4⟩
    rw [hw] at h1; rw [hn] at h2
    cases h1; cases h2
    simp only [PyFloat.mul, PyFloat.div] at h3
    split_ifs at h3 with hw0
    cases h3
    simp only [PyFloat.div] at h4
    split_ifs at h4 with hq0
    cases h4
    have hn0 : n ≠ 0 := by rintro rfl; simp at hq0
    refine ⟨hw0, hn0, ?_⟩
    congr 1
    field_simp
  · rintro ⟨hw0, hn0, rfl⟩
    refine ⟨.fin w, .fin n, .fin (2 * n / w), hw, hn, by simp [PyFloat.mul, PyFloat.div, hw0], ?_⟩
    have : 2 * n / w ≠ 0 := by positivity
    simp only [PyFloat.div, if_neg this]
    congr 2
    field_simp

/-- What `HanserPSF(...)` and `SheppardPSF(...)` both require of their arguments (numbers other than
`nan` and the infinities): `w`, `n`, `i` are the wavelength, numerical aperture and refractive index,
`r` and `z` the lateral and axial pixel sizes, `s` and `sz` the numbers of pixels. -/
structure GoodArgs (a : InitArgs) (w n i r z : ℚ) (s sz : ℕ) : Prop where
  wl : Denotes a.wl w ∧ 0 < w
  na : Denotes a.na n ∧ 0 < n
  ni : Denotes a.ni i ∧ 0 ≤ i
  res : Denotes a.res r ∧ r < w / (2 * n)
  size : DenotesNat a.size s
  zres : (if a.zres = .none then Denotes a.res z else Denotes a.zres z) ∧ 0 < z
  zsize : if a.zsize = .none then DenotesNat a.size sz else DenotesNat a.zsize sz
  vecCorr : a.vecCorr ∈ [PyVal.str "none", .str "x", .str "y", .str "z", .str "total"]
  condition : a.condition ∈ [PyVal.str "none", .str "sine", .str "herschel"]

/-- No argument is `nan` or infinite. -/
structure NoSpecialArgs (a : InitArgs) : Prop where
  wl : NotSpecial a.wl
  na : NotSpecial a.na
  ni : NotSpecial a.ni
  res : NotSpecial a.res
  zres : NotSpecial a.zres

theorem zresEff_notSpecial {a : InitArgs} (h : NoSpecialArgs a) : NotSpecial a.zresEff := by
  unfold InitArgs.zresEff; split_ifs
  · exact h.res
  · exact h.zres

theorem zresEff_denotes {a : InitArgs} {z : ℚ} : Denotes a.zresEff z ↔
    (if a.zres = .none then Denotes a.res z else Denotes a.zres z) := by
  unfold InitArgs.zresEff; split_ifs <;> rfl

theorem zsizeEff_denotes {a : InitArgs} {n : ℕ} : DenotesNat a.zsizeEff n ↔
    (if a.zsize = .none then DenotesNat a.size n else DenotesNat a.zsize n) := by
  unfold InitArgs.zsizeEff; split_ifs <;> rfl

theorem ge_fin (x y : ℚ) : PyFloat.ge (.fin x) (.fin y) = false ↔ x < y := by
  simp only [PyFloat.ge, PyFloat.lt, PyFloat.eq, Bool.or_eq_false_iff, decide_eq_false_iff_not, not_lt]
  constructor
  · rintro ⟨h1, h2⟩; exact lt_of_le_of_ne h1 h2
  · intro h; exact ⟨h.le, h.ne⟩

theorem lt_fin (x y : ℚ) : PyFloat.lt (.fin x) (.fin y) = true ↔ x < y := by simp [PyFloat.lt]

/-- The arguments accepted by both constructors, in terms of the setters. -/
theorem goodArgs_iff {a : InitArgs} (h : NoSpecialArgs a) :
    (∃ w n i r z s sz, GoodArgs a w n i r z s sz) ↔
    (∃ l x z vc cd, Accepts PyVal.isFloatOrInt a.wl ∧ Accepts PyVal.isFloatOrInt a.na ∧
      Accepts PyVal.isFloatOrInt a.ni ∧ IsAbbe a.wl a.na l ∧ a.res.num? = some x ∧ PyFloat.ge x l = false ∧
      Accepts PyVal.isInt a.size ∧ a.zresEff.num? = some z ∧ PyFloat.lt (.fin 0) z = true ∧
      Accepts PyVal.isInt a.zsizeEff ∧ keyword VecCorr.ofString a.vecCorr = .ok vc ∧
      keyword Condition.ofString a.condition = .ok cd) := by
  constructor
  · rintro ⟨w, n, i, r, z, s, sz, hg⟩
    obtain ⟨vc, hvc⟩ := keyword_vec.mpr hg.vecCorr
    obtain ⟨cd, hcd⟩ := keyword_cond.mpr hg.condition
    refine ⟨.fin (w / (2 * n)), .fin r, .fin z, vc, cd, (accepts_float_iff h.wl).mpr ⟨w, hg.wl.1, hg.wl.2.le⟩,
      (accepts_float_iff h.na).mpr ⟨n, hg.na.1, hg.na.2.le⟩, (accepts_float_iff h.ni).mpr ⟨i, hg.ni⟩,
      (isAbbe_iff hg.wl.1 hg.na.1 _).mpr ⟨hg.wl.2.ne', hg.na.2.ne', rfl⟩, hg.res.1, (ge_fin _ _).mpr hg.res.2,
      accepts_int_iff.mpr ⟨s, hg.size⟩, zresEff_denotes.mpr hg.zres.1, (lt_fin _ _).mpr hg.zres.2,
      accepts_int_iff.mpr ⟨sz, zsizeEff_denotes.mpr hg.zsize⟩, hvc, hcd⟩
  · rintro ⟨l, x, z, vc, cd, h1, h2, h3, h4, h5, h6, h7, h8, h9, h10, h11, h12⟩
    obtain ⟨w, hw, hw0⟩ := (accepts_float_iff h.wl).mp h1
    obtain ⟨n, hn, hn0⟩ := (accepts_float_iff h.na).mp h2
    obtain ⟨i, hi⟩ := (accepts_float_iff h.ni).mp h3
    obtain ⟨hw1, hn1, rfl⟩ := (isAbbe_iff hw hn l).mp h4
    obtain ⟨r, rfl, hr⟩ := (num_iff h.res x).mp h5
    obtain ⟨s, hs⟩ := accepts_int_iff.mp h7
    obtain ⟨z', rfl, hz⟩ := (num_iff (zresEff_notSpecial h) z).mp h8
    obtain ⟨sz, hsz⟩ := accepts_int_iff.mp h10
    exact ⟨w, n, i, r, z', s, sz, ⟨hw, lt_of_le_of_ne hw0 hw1.symm⟩, ⟨hn, lt_of_le_of_ne hn0 hn1.symm⟩, hi,
      ⟨hr, (ge_fin _ _).mp h6⟩, hs, ⟨zresEff_denotes.mp hz, (lt_fin _ _).mp h9⟩, zsizeEff_denotes.mp hsz,
      keyword_vec.mp ⟨vc, h11⟩, keyword_cond.mp ⟨cd, h12⟩⟩

/-- C34: for arguments of any type (other than `nan` and the infinities), `HanserPSF(...)` succeeds exactly
when the arguments are good, whatever `zrange` is; omitted `zres`, `zsize` are those of `res`, `size`. -/
theorem C34_hanser_accepts (a : InitArgs) (h : NoSpecialArgs a) (zr : Option ZArg) :
    (∃ o, HObj.new a zr = .ok o) ↔ ∃ w n i r z s sz, GoodArgs a w n i r z s sz := by
  rw [goodArgs_iff h]
  constructor
  · rintro ⟨o, ho⟩
    obtain ⟨l, x, z, vc, cd, hh⟩ := (hanser_new_iff a zr o).mp ho
    exact ⟨l, x, z, vc, cd, hh.1, hh.2.1, hh.2.2.1, hh.2.2.2.1, hh.2.2.2.2.1, hh.2.2.2.2.2.1, hh.2.2.2.2.2.2.1,
      hh.2.2.2.2.2.2.2.1, hh.2.2.2.2.2.2.2.2.1, hh.2.2.2.2.2.2.2.2.2.1, hh.2.2.2.2.2.2.2.2.2.2.1, hh.2.2.2.2.2.2.2.2.2.2.2.1⟩
  · rintro ⟨l, x, z, vc, cd, h1, h2, h3, h4, h5, h6, h7, h8, h9, h10, h11, h12⟩
    exact ⟨_, (hanser_new_iff a zr _).mpr ⟨l, x, z, vc, cd, h1, h2, h3, h4, h5, h6, h7, h8, h9, h10, h11, h12, rfl⟩⟩

/-- C34: `SheppardPSF(...)` in addition needs a positive refractive index, `zres` below `wl / (2 ni)` and a
`bool` for `dual`. -/
theorem C34_sheppard_accepts (a : InitArgs) (h : NoSpecialArgs a) (dual : PyVal) :
    (∃ o, SObj.new a dual = .ok o) ↔ (∃ w n i r z s sz, GoodArgs a w n i r z s sz ∧ 0 < i ∧ z < w / (2 * i)) ∧
      ∃ b, dual = .bool b := by
  constructor
  · rintro ⟨o, ho⟩
    obtain ⟨l, x, w, n, q, zl, z, vc, cd, b, a1, a2, a3, a4, a4', a4'', a5, hw, hn, b1, b2, a6, b3, a6', a7, a8, a9, a10, -⟩ :=
      (sheppard_new_iff a dual o).mp ho
    obtain ⟨w', n', i, r, z', s, sz, hg⟩ := (goodArgs_iff h).mpr ⟨l, x, z, vc, cd, a1, a2, a3, a4, a4', a4'', a5, a6, a6', a7, a8, a9⟩
    refine ⟨⟨w', n', i, r, z', s, sz, hg, ?_⟩, b, a10⟩
    have e1 : w = .fin w' := by have := hg.wl.1; unfold Denotes at this; rw [this] at hw; cases hw; rfl
    have e2 : n = .fin i := by have := hg.ni.1; unfold Denotes at this; rw [this] at hn; cases hn; rfl
    have e3 : z = .fin z' := by
      have := zresEff_denotes.mpr hg.zres.1; unfold Denotes at this; rw [this] at a6; cases a6; rfl
    subst e1 e2 e3
    simp only [PyFloat.div] at b1
    norm_num at b1
    cases b1
    simp only [PyFloat.div] at b2
    split_ifs at b2 with hi
    cases b2
    have hi' : 0 < i := lt_of_le_of_ne hg.ni.2 (Ne.symm hi)
    refine ⟨hi', ?_⟩
    have := (ge_fin _ _).mp b3
    rwa [div_div] at this
  · rintro ⟨⟨w, n, i, r, z, s, sz, hg, hi, hz⟩, b, rfl⟩
    obtain ⟨l, x, z', vc, cd, a1, a2, a3, a4, a4', a4'', a5, a6, a6', a7, a8, a9⟩ := (goodArgs_iff h).mp ⟨w, n, i, r, z, s, sz, hg⟩
    have e3 : z' = .fin z := by
      have := zresEff_denotes.mpr hg.zres.1; unfold Denotes at this; rw [this] at a6; cases a6; rfl
    subst e3
    refine ⟨_, (sheppard_new_iff a _ _).mpr ⟨l, x, .fin w, .fin i, .fin (w / 2), .fin (w / 2 / i), .fin z, vc, cd, b, a1, a2, a3, a4, a4', a4'', a5,
      hg.wl.1, hg.ni.1, ?_, ?_, a6, ?_, a6', a7, a8, a9, rfl, rfl⟩⟩
    · simp [PyFloat.div]
    · simp [PyFloat.div, hi.ne']
    · rw [ge_fin, div_div]; exact hz

/-- C34: what a successful construction stores. -/
theorem C34_hanser_attributes (a : InitArgs) (zr : Option ZArg) (o : HObj) (ho : HObj.new a zr = .ok o) :
    o.params.wl = some a.wl ∧ o.params.na = some a.na ∧ o.params.ni = some a.ni ∧ o.params.res = some a.res ∧
    o.params.size = some a.size ∧
    o.params.zres = some (if a.zres = .none then a.res else a.zres) ∧
    o.params.zsize = some (if a.zsize = .none then a.size else a.zsize) := by
  obtain ⟨l, x, z, vc, cd, a1, a2, a3, a4, a4', a4'', a5, a6, a6', a7, a8, a9, rfl⟩ := (hanser_new_iff a zr o).mp ho
  exact ⟨rfl, rfl, rfl, rfl, rfl, rfl, rfl⟩

/-- Non-vacuity: the arguments `HanserPSF(wl=520, na=0.85, ni=1.0, res=130, size=64)`. -/
def demoArgs : InitArgs := { wl := .int 520, na := .float (.fin (17/20)), ni := .float (.fin 1), res := .int 130, size := .int 64 }

theorem demoArgs_good : NoSpecialArgs demoArgs ∧ GoodArgs demoArgs 520 (17/20) 1 130 130 64 64 := by
  refine ⟨by constructor <;> simp [demoArgs, NotSpecial], ?_⟩
  constructor <;> norm_num [demoArgs, Denotes, DenotesNat, PyVal.num?]

theorem demoObj : ∃ o, HObj.new demoArgs none = .ok o :=
  (C34_hanser_accepts demoArgs demoArgs_good.1 none).mpr ⟨_, _, _, _, _, _, _, demoArgs_good.2⟩

theorem demoSheppard : ∃ o, SObj.new demoArgs (.bool false) = .ok o :=
  (C34_sheppard_accepts demoArgs demoArgs_good.1 _).mpr ⟨⟨_, _, _, _, _, _, _, demoArgs_good.2, by norm_num⟩, _, rfl⟩

/-- Non-vacuity of C31: a history exists and a read in it succeeds or raises as specified. -/
example : ∃ o, HObj.new demoArgs none = .ok o ∧
    (runHistory HObj.step o [.readPSFi, .set .wl (.int 500), .set .size (.str "x"), .readOTFi]).1 =
    (runHistory HSpec.step ⟨o.params, none⟩ [.readPSFi, .set .wl (.int 500), .set .size (.str "x"), .readOTFi]).1 := by
  obtain ⟨o, ho⟩ := demoObj
  exact ⟨o, ho, (C31_hanser_coherent _ _ o ho _).1⟩

/-! ## C35 -/

/-- C35: right after construction the pixel size is below the Abbe limit. -/
theorem C35_limit_after_construction (a : InitArgs) (h : NoSpecialArgs a) (zr : Option ZArg) (o : HObj)
    (ho : HObj.new a zr = .ok o) :
    ∃ w n r wl na res, o.params.wl = some wl ∧ Denotes wl w ∧ o.params.na = some na ∧ Denotes na n ∧
      o.params.res = some res ∧ Denotes res r ∧ r < w / (2 * n) := by
  obtain ⟨w, n, i, r, z, s, sz, hg⟩ := (C34_hanser_accepts a h zr).mp ⟨o, ho⟩
  obtain ⟨h1, h2, -, h4, -⟩ := C34_hanser_attributes a zr o ho
  exact ⟨w, n, r, _, _, _, h1, hg.wl.1, h2, hg.na.1, h4, hg.res.1, hg.res.2⟩

/-- C35: an assignment of `res` on a model whose wavelength and aperture are positive numbers is accepted
exactly for numbers below the Abbe limit - zero and negative ones included.  (Both classes.) -/
theorem C35_res_assignment (A I : Type) (c : Cls) (o : Obj A I) (wl na v : PyVal) (w n r : ℚ)
    (hwl : o.params.wl = some wl) (hna : o.params.na = some na) (hw : Denotes wl w) (hn : Denotes na n)
    (hw0 : 0 < w) (hn0 : 0 < n) (hv : Denotes v r) :
    (r < w / (2 * n) → setAttr c .res v o = (.ok (), { params := { o.params with res := some v } })) ∧
    (w / (2 * n) ≤ r → setAttr c .res v o = (.error .valueError, o)) := by
  have e : setAttr c .res v o = setRes v o := by cases c <;> rfl
  rw [e, setRes_run v wl na (.fin w) (.fin n) o hwl hna hw hn]
  have h1 : PyFloat.div (PyFloat.mul (.fin 2) (.fin n)) (.fin w) = .ok (.fin (2 * n / w)) := by
    simp [PyFloat.mul, PyFloat.div, hw0.ne']
  have h2 : PyFloat.div (.fin 1) (.fin (2 * n / w)) = .ok (.fin (w / (2 * n))) := by
    have : 2 * n / w ≠ 0 := by positivity
    simp only [PyFloat.div, if_neg this]
    congr 2
    field_simp
  unfold Denotes at hv
  simp only [h1, h2, hv]
  constructor
  · intro hr
    have := (ge_fin r (w / (2 * n))).mpr hr
    simp [this]
  · intro hr
    have : PyFloat.ge (.fin r) (.fin (w / (2 * n))) = true := by
      by_contra hc
      exact absurd ((ge_fin _ _).mp (by simpa using hc)) (not_lt.mpr hr)
    simp [this]

/-- C35: the limit is not re-validated: on every constructed model with a positive pixel size `r`, assigning a
wavelength below `2 na r` is accepted and leaves `res` alone, so the limit is violated silently. -/
theorem C35_not_revalidated (a : InitArgs) (h : NoSpecialArgs a) (zr : Option ZArg) (o : HObj)
    (ho : HObj.new a zr = .ok o) (n r w' : ℚ) (hn : Denotes a.na n) (hr : Denotes a.res r) (hw' : 0 ≤ w')
    (hlt : w' ≤ 2 * n * r) :
    ∃ o', setAttr .hanser .wl (.float (.fin w')) o = (.ok (), o') ∧ o'.params.res = some a.res ∧
      o'.params.na = some a.na ∧ (∃ wl, o'.params.wl = some wl ∧ Denotes wl w') ∧ w' / (2 * n) ≤ r := by
  obtain ⟨w, n', i, r', z, s, sz, hg⟩ := (C34_hanser_accepts a h zr).mp ⟨o, ho⟩
  have en : n' = n := by have := hg.na.1; unfold Denotes at this hn; rw [this] at hn; injection hn with hn; injection hn
  have er : r' = r := by have := hg.res.1; unfold Denotes at this hr; rw [this] at hr; injection hr with hr; injection hr
  subst en er
  obtain ⟨h1, h2, -, h4, -⟩ := C34_hanser_attributes a zr o ho
  have hn0 := hg.na.2
  have hle : w' / (2 * n') ≤ r' := by rw [div_le_iff₀ (by positivity)]; linarith
  have hlt2 : w' < w := by
    have := hg.res.2
    rw [lt_div_iff₀ (by positivity)] at this
    linarith
  have hne : numericSet PyVal.isFloatOrInt (some a.wl) (.float (.fin w')) = .ok (some (.float (.fin w'))) := by
    have hq := hg.wl.1
    unfold Denotes at hq
    have : ¬ w' < 0 := not_lt.mpr hw'
    have hne0 : a.wl.ne (.float (.fin w')) = true := by
      simp only [PyVal.ne, hq]
      simp [PyVal.num?, PyFloat.eq, hlt2.ne']
    simp [numericSet, PyVal.isFloatOrInt, PyVal.ltZero, PyVal.num?, PyFloat.lt, this, bind, Except.bind, hne0,
      pure, Except.pure]
  refine ⟨{ params := { o.params with wl := some (.float (.fin w')) } }, ?_, h4, h2, ⟨_, rfl, rfl⟩, hle⟩
  show setNumeric _ _ _ _ o = _
  rw [setNumeric_run, h1, hne]

/-- C35: the axial limit of a `SheppardPSF`: an assignment of `zres` is accepted exactly for positive numbers
below `wl / (2 ni)` with the current `wl` and `ni`. -/
theorem C35_sheppard_zres_assignment (o : SObj) (wl ni v : PyVal) (w n z : ℚ)
    (hwl : o.params.wl = some wl) (hni : o.params.ni = some ni) (hw : Denotes wl w) (hn : Denotes ni n)
    (hn0 : 0 < n) (hv : Denotes v z) :
    (∃ o', setAttr .sheppard .zres v o = (.ok (), o')) ↔ 0 < z ∧ z < w / (2 * n) := by
  have key := fun o' => succ_setZresSheppard v wl ni (.fin w) (.fin n) o o' hwl hni hw hn
  simp only [Succ] at key
  show (∃ o', setZresSheppard v o = (.ok (), o')) ↔ _
  simp only [key]
  unfold Denotes at hv
  constructor
  · rintro ⟨o', h, l, x, h1, h2, h3, h4, h5, -⟩
    rw [hv] at h3; cases h3
    simp only [PyFloat.div] at h1
    norm_num at h1
    cases h1
    simp only [PyFloat.div, if_neg hn0.ne'] at h2
    cases h2
    exact ⟨(lt_fin _ _).mp h5, by have := (ge_fin _ _).mp h4; rwa [div_div] at this⟩
  · rintro ⟨h1, h2⟩
    refine ⟨_, .fin (w / 2), .fin (w / 2 / n), .fin z, by simp [PyFloat.div], by simp [PyFloat.div, hn0.ne'], hv, ?_,
      (lt_fin _ _).mpr h1, rfl⟩
    rw [ge_fin, div_div]; exact h2

/-! ## C36 -/

/-- The `i`-th default plane of `n` planes spaced by `z`: the focal plane has index `(n + 1) // 2`. -/
def plane (n : ℕ) (z : ℚ) (i : ℕ) : ℚ := ((i : ℚ) - ((n + 1) / 2 : ℕ)) * z

theorem defaultZrange_fin (n : ℕ) (z : ℚ) :
    defaultZrange n (.fin z) = (List.range n).map fun i => PyFloat.fin (plane n z i) := rfl

/-- C36: planes of a freshly constructed model without `zrange`. -/
theorem C36_default_planes (a : InitArgs) (h : NoSpecialArgs a) (o : HObj) (ho : HObj.new a none = .ok o) :
    ∃ (n : ℕ) (z : ℚ) (zsize zres : PyVal), o.params.zsize = some zsize ∧ DenotesNat zsize n ∧
      o.params.zres = some zres ∧ Denotes zres z ∧ 0 < z ∧
      o.params.zrange = some ((List.range n).map fun i => PyFloat.fin (plane n z i)) := by
  obtain ⟨w, na, i, r, z, s, sz, hg⟩ := (C34_hanser_accepts a h none).mp ⟨o, ho⟩
  obtain ⟨l, x, z', vc, cd, a1, a2, a3, a4, a4', a4'', a5, a6, a6', a7, a8, a9, rfl⟩ := (hanser_new_iff a none o).mp ho
  have hz := zresEff_denotes.mpr hg.zres.1
  have hs := zsizeEff_denotes.mpr hg.zsize
  have e : z' = .fin z := by have := hz; unfold Denotes at this; rw [this] at a6; cases a6; rfl
  subst e
  refine ⟨sz, z, _, _, rfl, hs, rfl, hz, hg.zres.2, ?_⟩
  simp only [Option.map_none, Option.getD_none, num_of_denotesNat hs, defaultZrange_fin]

/-- C36: consecutive planes are `z` apart. -/
theorem C36_spacing (n : ℕ) (z : ℚ) (i : ℕ) : plane n z (i + 1) - plane n z i = z := by
  simp only [plane]; push_cast; ring

/-- C36: the focal plane is among the planes iff there are at least two of them, and then it is plane
`(n + 1) // 2`. -/
theorem C36_focal_plane (n : ℕ) (z : ℚ) (hz : 0 < z) :
    ((∃ i < n, plane n z i = 0) ↔ 2 ≤ n) ∧ ∀ i < n, (plane n z i = 0 ↔ i = (n + 1) / 2) := by
  have key : ∀ i, plane n z i = 0 ↔ i = (n + 1) / 2 := by
    intro i
    simp only [plane, mul_eq_zero, hz.ne', or_false, sub_eq_zero]
    exact_mod_cast Iff.rfl
  refine ⟨?_, fun i _ => key i⟩
  constructor
  · rintro ⟨i, hi, hp⟩
    have := (key i).mp hp
    omega
  · intro h
    exact ⟨(n + 1) / 2, by omega, (key _).mpr rfl⟩

/-- C36: the first and last plane: `-n/2 … n/2 - 1` for even `n`, `-(n+1)/2 … (n-3)/2` for odd `n` (not
symmetric about the focus). -/
theorem C36_extent (m : ℕ) (z : ℚ) :
    (plane (2 * m) z 0 = -(m : ℚ) * z ∧ plane (2 * m) z (2 * m - 1) = ((2 * m - 1 : ℕ) - m : ℚ) * z) ∧
    (plane (2 * m + 1) z 0 = -((m : ℚ) + 1) * z ∧ plane (2 * m + 1) z (2 * m) = ((m : ℚ) - 1) * z) := by
  have e1 : (2 * m + 1) / 2 = m := by omega
  have e2 : (2 * m + 1 + 1) / 2 = m + 1 := by omega
  simp only [plane, e1, e2]
  refine ⟨⟨?_, ?_⟩, ?_, ?_⟩ <;> push_cast <;> ring

/-- C36: an accepted assignment of `zsize` regenerates the planes from the current `zres` - also when the value
does not change, so a custom `zrange` is lost. -/
theorem C36_zsize_regenerates (o : HObj) (m v zres : PyVal) (n : ℕ) (z : ℚ)
    (hm1 : o.params.zsize = some m) (hm2 : m.isInt = true) (hv : DenotesNat v n) (hz : o.params.zres = some zres) (hz' : Denotes zres z) :
    ∃ o', setAttr .hanser .zsize v o = (.ok (), o') ∧
      o'.params.zrange = some ((List.range n).map fun i => PyFloat.fin (plane n z i)) ∧
      (∃ zsize, o'.params.zsize = some zsize ∧ DenotesNat zsize n) ∧ o'.params.zres = o.params.zres := by
  have hacc := accepts_int_iff.mpr ⟨n, hv⟩
  have h := C21_numeric_property PyVal.isInt numericType_int ⟨o.params.zsize, 0⟩ v
  simp only [NumAttr.assign] at h
  show ∃ o', setZsizeHanser v o = (.ok (), o') ∧ _
  simp only [setZsizeHanser, PyM.bind_apply, setZsizeBase, setNumeric_run]
  unfold Denotes at hz'
  rcases hn : numericSet PyVal.isInt o.params.zsize v with e | _ | w
  · rw [hn] at h
    by_cases hs : ∃ w, o.params.zsize = some w ∧ SameNumber w v
    · have := h.2.2.1 hacc.1 hacc.2 hs; simp at this
    · have := h.2.2.2 hacc.1 hacc.2 hs; simp at this
  · rw [hn] at h
    have hsame : ∃ w, o.params.zsize = some w ∧ SameNumber w v := by
      by_contra hs
      have := h.2.2.2 hacc.1 hacc.2 hs; simp at this
    obtain ⟨w, hw1, hw2⟩ := hsame
    rw [hm1] at hw1; cases hw1
    have hmn : DenotesNat m n := by
      have e1 : m.num? = some (.fin n) := by
        have hvn : v.num? = some (.fin n) := by
          rcases hv with rfl | ⟨rfl, rfl⟩ | ⟨rfl, rfl⟩ <;> simp [PyVal.num?]
        rcases hw2 with ⟨q, hq1, hq2⟩ | ⟨q, hq1, hq2⟩
        · rw [hvn] at hq2; cases hq2; exact hq1
        · rw [hvn] at hq2; cases hq2
      cases m with
      | int k => simp [PyVal.num?] at e1; left; congr 1; exact_mod_cast e1
      | bool b => cases b <;> simp [PyVal.num?] at e1 <;> simp [DenotesNat] <;> exact_mod_cast e1.symm
      | _ => simp [PyVal.isInt] at hm2
    simp only [PyM.ignore, genZrange_run, hm1, hz, pyNum_of_num hz', num_of_denotesNat hmn, defaultZrange_fin]
    exact ⟨_, rfl, rfl, ⟨m, by simp only, hmn⟩, by simp only⟩
  · obtain ⟨rfl, h1, h2⟩ := numericSet_some hn
    simp only [PyM.ignore, genZrange_run, hz, pyNum_of_num hz', num_of_denotesNat hv, defaultZrange_fin]
    exact ⟨_, rfl, rfl, ⟨w, rfl, hv⟩, by simp only⟩

/-- C36: an accepted assignment of `zres` regenerates the planes from the current `zsize`. -/
theorem C36_zres_regenerates (o : HObj) (v zsize : PyVal) (n : ℕ) (z : ℚ) (hz : Denotes v z) (hz0 : 0 < z)
    (hs : o.params.zsize = some zsize) (hs' : DenotesNat zsize n) :
    setAttr .hanser .zres v o = (.ok (), { params := { o.params with
      zres := some v, zrange := some ((List.range n).map fun i => PyFloat.fin (plane n z i)) } }) := by
  show setZresHanser v o = _
  unfold Denotes at hz
  simp only [setZresHanser, PyM.bind_apply, setZresBase_run, pyNum_of_num hz, (lt_fin 0 z).mpr hz0, if_true]
  simp only [PyM.ignore, genZrange_run, hs, pyNum_of_num hz, num_of_denotesNat hs', defaultZrange_fin]

/-- C36: assigning `zrange` (a number becomes one plane) stores exactly these planes and leaves every other
parameter alone. -/
theorem C36_zrange_assignment (o : HObj) (xs : List PyFloat) (x : PyFloat) :
    setZrange (.seq xs) o = (.ok (), { params := { o.params with zrange := some xs } }) ∧
    setZrange (.scalar x) o = (.ok (), { params := { o.params with zrange := some [x] } }) := ⟨rfl, rfl⟩

/-! ## C37 -/

/-- Operations that do not change a model with parameters `p`: reads, rejected assignments and giving `wl`, `na`,
`ni`, `size` the value it has. -/
def Harmless (p : Params) : HOp → Prop
  | .readPSFa | .readOTFa | .readPSFi | .readOTFi => True
  | .set a v => (∃ e, (setAttr .hanser a v ({ params := p } : HObj)).1 = .error e) ∨ a = .dual ∨
      (a = .wl ∧ SameNumber (p.wl.getD .none) v) ∨ (a = .na ∧ SameNumber (p.na.getD .none) v) ∨
      (a = .ni ∧ SameNumber (p.ni.getD .none) v) ∨ (a = .size ∧ SameNumber (p.size.getD .none) v)
  | .setZrange _ => False
  | .applyPupil _ => False

theorem hrel_reachable {a : InitArgs} {zr : Option ZArg} {o : HObj} (ho : HObj.new a zr = .ok o) (ops : List HOp) :
    HRel (runHistory HObj.step o ops).2 (runHistory HSpec.step ⟨o.params, none⟩ ops).2 := by
  obtain ⟨h1, h2⟩ := hanser_ready ho
  have hrel : HRel o ⟨o.params, none⟩ := by rw [h2]; exact HRel.cleared h1
  exact (run_rel hrel ops).2

/-- Harmless operations keep the parameters and the pupil. -/
theorem harmless_step {o : HObj} {s : HSpec} (h : HRel o s) (op : HOp) (hop : Harmless s.params op) :
    (s.step op).2 = s := by
  cases op with
  | set a v =>
    obtain ⟨q, hq, hk, hc⟩ := setAttr_run (Arr ℂ) (Arr ℝ) .hanser a v s.params h.ready
    have e2 := hq { params := s.params } rfl
    simp only [HSpec.step, outAs, HSpec.set]
    simp only [Harmless, e2] at hop
    rcases q with er | _ | p'
    · rw [e2]
    · rw [e2]
      rcases hop with ⟨e, he⟩ | hop
      · simp at he
      · simp only [if_pos hop]
    · exfalso
      rcases hop with ⟨e, he⟩ | hop
      · simp at he
      · apply (hc p' rfl).1
        refine (keeps_iff ?_).mpr hop
        rcases hop with rfl | ⟨rfl, hs⟩ | ⟨rfl, hs⟩ | ⟨rfl, hs⟩ | ⟨rfl, hs⟩
        · exact Or.inr rfl
        all_goals
          left
          rcases hs with ⟨q, _, hq⟩ | ⟨q, _, hq⟩ <;> rw [hq] <;> rfl
  | setZrange z => exact absurd hop (by simp [Harmless])
  | applyPupil P => exact absurd hop (by simp [Harmless])
  | _ => rfl

theorem harmless_run (ops : List HOp) : ∀ {o : HObj} {s : HSpec}, HRel o s → (∀ op ∈ ops, Harmless s.params op) →
    (runHistory HSpec.step s ops).2 = s := by
  induction ops with
  | nil => intro o s _ _; rfl
  | cons op ops ih =>
    intro o s h hop
    have e := harmless_step h op (hop op (by simp))
    obtain ⟨-, h2⟩ := step_rel h op
    simp only [runHistory]
    rw [e] at h2 ⊢
    exact ih h2 fun op' h' => hop op' (by simp [h'])

/-- C37: a successfully applied pupil determines all outputs, through any number of reads, rejected assignments
and assignments that do not change `wl`, `na`, `ni`, `size`, whatever happened to the model before. -/
theorem C37_pupil_in_force (a : InitArgs) (zr : Option ZArg) (o : HObj) (ho : HObj.new a zr = .ok o)
    (before after : List HOp) (P : Arr ℂ) (o1 o2 o3 : HObj) (h1 : o1 = (runHistory HObj.step o before).2)
    (h2 : HObj.applyPupil P o1 = (.ok (), o2)) (h3 : o3 = (runHistory HObj.step o2 after).2)
    (hafter : ∀ op ∈ after, Harmless o1.params op) :
    o3.params = o1.params ∧ (HObj.getPSFa o3).1 = hanserGenPsf o1.params (some P) ∧
      (HObj.getPSFi o3).1 = (do return psfiOf (← hanserGenPsf o1.params (some P))) ∧
      (HObj.getOTFa o3).1 = (do hanserOTFa (← hanserGenPsf o1.params (some P))) ∧
      (HObj.getOTFi o3).1 = (do otfiOf (psfiOf (← hanserGenPsf o1.params (some P)))) := by
  have r1 := hrel_reachable ho before
  rw [← h1] at r1
  obtain ⟨e2, r2⟩ := applyPupil_rel r1 P
  rw [h2] at e2 r2
  have hs2 : (HSpec.applyPupil P (runHistory HSpec.step ⟨o.params, none⟩ before).2).2 = ⟨o1.params, some P⟩ := by
    rw [HSpec.applyPupil] at e2 ⊢
    rw [r1.params]
    split at e2
    · simp only
    · cases e2
  rw [hs2] at r2
  have e3 := harmless_run after r2 hafter
  obtain ⟨-, r3⟩ := run_rel r2 after
  rw [e3, ← h3] at r3
  refine ⟨r3.params, ?_⟩
  rw [(getPSFa_rel r3).1, (getOTFa_rel r3).1, (getPSFi_rel r3).1, (getOTFi_rel r3).1]
  refine ⟨rfl, rfl, rfl, ?_⟩
  simp only [HSpec.OTFi, HSpec.PSFi, HSpec.PSFa]
  rcases hanserGenPsf _ _ with e | a <;> rfl

/-- An operation that does change a model with parameters `p`: an accepted assignment other than giving `wl`, `na`,
`ni`, `size` the value it has - giving `res`, `zres`, `zsize`, `vec_corr`, `condition`, `zrange` any value counts - or
a failed `apply_pupil`. -/
def Forgets (p : Params) : HOp → Prop
  | .set a v => (setAttr .hanser a v ({ params := p } : HObj)).1 = .ok () ∧ a ≠ .dual ∧
      ¬ (a = .wl ∧ SameNumber (p.wl.getD .none) v) ∧ ¬ (a = .na ∧ SameNumber (p.na.getD .none) v) ∧
      ¬ (a = .ni ∧ SameNumber (p.ni.getD .none) v) ∧ ¬ (a = .size ∧ SameNumber (p.size.getD .none) v)
  | .setZrange _ => True
  | .applyPupil P => ∃ e, hanserGenPsf p (some P) = .error e
  | _ => False

/-- C37: such an operation forgets every pupil applied before: until the next `apply_pupil` all outputs are those
of the ideal pupil for the then current parameters. -/
theorem C37_pupil_forgotten (a : InitArgs) (zr : Option ZArg) (o : HObj) (ho : HObj.new a zr = .ok o)
    (before after : List HOp) (op : HOp) (o1 o3 : HObj) (h1 : o1 = (runHistory HObj.step o before).2)
    (hop : Forgets o1.params op) (h3 : o3 = (runHistory HObj.step (o1.step op).2 after).2)
    (hafter : ∀ op ∈ after, ∀ P, op ≠ .applyPupil P) :
    (HObj.getPSFa o3).1 = hanserGenPsf o3.params none ∧
      (HObj.getPSFi o3).1 = (do return psfiOf (← hanserGenPsf o3.params none)) := by
  have r1 := hrel_reachable ho before
  rw [← h1] at r1
  have hnone : ((runHistory HSpec.step ⟨o.params, none⟩ before).2.step op).2.pupil = none := by
    rw [r1.params] at hop
    generalize (runHistory HSpec.step ⟨o.params, none⟩ before).2 = s at hop
    cases op with
    | set a v =>
      simp only [Forgets] at hop
      simp only [HSpec.step, outAs, HSpec.set, hop.1]
      rw [if_neg (by tauto)]
    | setZrange z => rfl
    | applyPupil P =>
      obtain ⟨e, he⟩ := hop
      simp only [HSpec.step, outAs, HSpec.applyPupil, he]
    | _ => exact absurd hop (by simp [Forgets])
  obtain ⟨-, r2⟩ := step_rel r1 op
  generalize ((runHistory HSpec.step ⟨o.params, none⟩ before).2.step op).2 = s2 at hnone r2
  obtain ⟨-, r3⟩ := run_rel r2 after
  rw [← h3] at r3
  have key : ∀ (ops : List HOp) (s : HSpec), s.pupil = none → (∀ op ∈ ops, ∀ P, op ≠ .applyPupil P) →
      (runHistory HSpec.step s ops).2.pupil = none := by
    intro ops
    induction ops with
    | nil => exact fun s h _ => h
    | cons op ops ih =>
      intro s hs hops
      refine ih _ ?_ fun op' h' => hops op' (by simp [h'])
      cases op with
      | set a v =>
        simp only [HSpec.step, outAs, HSpec.set]
        split
        · exact hs
        · simp only []; split_ifs <;> simp [hs]
      | applyPupil P => exact absurd rfl (hops _ (by simp) P)
      | setZrange z => rfl
      | _ => exact hs
  have hp := key after s2 hnone hafter
  rw [(getPSFa_rel r3).1, (getPSFi_rel r3).1, r3.params, HSpec.PSFi, HSpec.PSFa, hp]
  exact ⟨rfl, rfl⟩

/-- Non-vacuity of C37: on the demo model, reading is harmless, `wl = 520` again is harmless, `wl = 500` forgets. -/
example : ∃ o, HObj.new demoArgs none = .ok o ∧ Harmless o.params .readPSFi ∧
    Harmless o.params (.set .wl (.float (.fin 520))) ∧ Forgets o.params (.set .wl (.int 500)) := by
  obtain ⟨o, ho⟩ := demoObj
  obtain ⟨h1, -⟩ := C34_hanser_attributes _ _ _ ho
  have e : numericSet PyVal.isFloatOrInt (some demoArgs.wl) (.int 500) = .ok (some (.int 500)) := by rfl
  refine ⟨o, ho, trivial, Or.inr (Or.inr (Or.inl ⟨rfl, Or.inl ⟨520, ?_, rfl⟩⟩)), ?_, by simp, ?_, by simp, by simp, by simp⟩
  · rw [h1]; simp [demoArgs, PyVal.num?]
  · show (setNumeric _ _ _ _ _).1 = _
    rw [setNumeric_run]
    simp only [h1, e]
  · rintro ⟨-, ⟨q, hq, hq'⟩ | ⟨q, hq, hq'⟩⟩
    · rw [h1] at hq
      simp [demoArgs, PyVal.num?] at hq hq'
      rw [← hq] at hq'
      norm_num at hq'
    · simp [PyVal.num?] at hq'

end PyOTF
