import Verif.Props.C34_C37_Params

/-!
# C34: NaN and infinities as constructor arguments

The acceptance table of `HanserPSF(...)` when the wavelength, the aperture or the pixel size is NaN or infinite.
-/

namespace PyOTF

/-- The arguments other than `wl`, `na`, `res` are acceptable; `zres` is given explicitly. -/
structure OthersGood (a : InitArgs) : Prop where
  ni : ∃ i, Denotes a.ni i ∧ 0 ≤ i
  size : ∃ s, DenotesNat a.size s
  zres : ∃ z, Denotes a.zres z ∧ 0 < z
  zsize : ∃ sz, if a.zsize = .none then DenotesNat a.size sz else DenotesNat a.zsize sz
  vecCorr : a.vecCorr ∈ [PyVal.str "none", .str "x", .str "y", .str "z", .str "total"]
  condition : a.condition ∈ [PyVal.str "none", .str "sine", .str "herschel"]

theorem accepts_denotes {v : PyVal} {q : ℚ} (h : Denotes v q) : Accepts PyVal.isFloatOrInt v ↔ 0 ≤ q := by
  unfold Denotes at h
  cases v with
  | none => cases h
  | str s => cases h
  | other b => cases h
  | int z => simp only [PyVal.num?] at h; cases h; simp [Accepts, PyVal.isFloatOrInt, IsNegative, PyVal.num?]
  | bool b => cases b <;> simp only [PyVal.num?] at h <;> cases h <;> simp [Accepts, PyVal.isFloatOrInt, IsNegative, PyVal.num?]
  | float x => simp only [PyVal.num?] at h; cases h; simp [Accepts, PyVal.isFloatOrInt, IsNegative, PyVal.num?]

theorem accepts_denotesNat {v : PyVal} {n : ℕ} (h : DenotesNat v n) : Accepts PyVal.isInt v := by
  rcases h with rfl | ⟨rfl, rfl⟩ | ⟨rfl, rfl⟩ <;> simp [Accepts, PyVal.isInt, IsNegative, PyVal.num?]

/-- With the other arguments acceptable, only `wl`, `na` and `res` decide. -/
theorem new_iff_others {a : InitArgs} (h : OthersGood a) (zr : Option ZArg) :
    (∃ o, HObj.new a zr = .ok o) ↔ Accepts PyVal.isFloatOrInt a.wl ∧ Accepts PyVal.isFloatOrInt a.na ∧
      ∃ l x, IsAbbe a.wl a.na l ∧ a.res.num? = some x ∧ PyFloat.ge x l = false := by
  obtain ⟨i, hi, hi0⟩ := h.ni
  obtain ⟨s, hs⟩ := h.size
  obtain ⟨z, hz, hz0⟩ := h.zres
  obtain ⟨sz, hsz⟩ := h.zsize
  obtain ⟨vc, hvc⟩ := keyword_vec.mpr h.vecCorr
  obtain ⟨cd, hcd⟩ := keyword_cond.mpr h.condition
  have hzr : a.zresEff = a.zres := by
    unfold InitArgs.zresEff
    rw [if_neg]
    intro e; rw [e] at hz; cases hz
  constructor
  · rintro ⟨o, ho⟩
    obtain ⟨l, x, z, vc, cd, h1, h2, h3, h4, h5, h6, -⟩ := (hanser_new_iff a zr o).mp ho
    exact ⟨h1, h2, l, x, h4, h5, h6⟩
  · rintro ⟨h1, h2, l, x, h4, h5, h6⟩
    refine ⟨_, (hanser_new_iff a zr _).mpr ⟨l, x, .fin z, vc, cd, h1, h2, (accepts_denotes hi).mpr hi0, h4, h5, h6,
      accepts_denotesNat hs, ?_, ?_, accepts_denotesNat (zsizeEff_denotes.mpr hsz), hvc, hcd, rfl⟩⟩
    · rw [hzr]; exact hz
    · simpa [PyFloat.lt] using hz0

/-- C34: an infinite wavelength is rejected whatever the (finite) aperture and pixel size: its Abbe limit divides
by zero. -/
theorem C34_infinite_wl (a : InitArgs) (zr : Option ZArg) (n : ℚ) (hw : a.wl = .float (.inf false))
    (hn : Denotes a.na n) : ∀ o, HObj.new a zr ≠ .ok o := by
  intro o ho
  obtain ⟨l, x, z, vc, cd, -, -, -, ⟨w, n', q, e1, e2, e3, e4⟩, -⟩ := (hanser_new_iff a zr o).mp ho
  rw [hw] at e1
  cases e1
  rw [hn] at e2
  cases e2
  simp only [PyFloat.mul, PyFloat.div] at e3
  cases e3
  simp [PyFloat.div] at e4

/-- C34: the exception is `ZeroDivisionError`, raised when `res` is assigned - before `res`, `size` and the later
arguments are looked at. -/
theorem C34_infinite_wl_error (a : InitArgs) (zr : Option ZArg) (n i : ℚ) (hw : a.wl = .float (.inf false))
    (hn : Denotes a.na n) (hn0 : 0 ≤ n) (hi : Denotes a.ni i) (hi0 : 0 ≤ i) :
    HObj.new a zr = .error .zeroDivisionError := by
  have aw : Accepts PyVal.isFloatOrInt a.wl := by rw [hw]; simp [Accepts, PyVal.isFloatOrInt, IsNegative, PyVal.num?]
  have an := (accepts_denotes hn).mpr hn0
  have ai := (accepts_denotes hi).mpr hi0
  have nw := (numericSet_fresh numericType_float a.wl).resolve_right (fun h => h.1 aw)
  have nn := (numericSet_fresh numericType_float a.na).resolve_right (fun h => h.1 an)
  have nni := (numericSet_fresh numericType_float a.ni).resolve_right (fun h => h.1 ai)
  have key : ∀ (k : Unit → PyM HObj Unit), (baseInit .hanser a >>= k) { params := {} } =
      (.error .zeroDivisionError, { params := { wl := some a.wl, na := some a.na, ni := some a.ni } }) := by
    intro k
    simp only [baseInit, setAttr, PyM.bind_apply, setWl, setNa, setNi, setNumeric_run, nw.2, nn.2, nni.2]
    rw [setRes_run a.res a.wl a.na (.inf false) (.fin n) _ rfl rfl (by rw [hw]; rfl) hn]
    simp [PyFloat.mul, PyFloat.div]
  simp only [HObj.new, construct, hanserInit]
  rw [key]

/-- C34: a NaN wavelength or aperture is accepted, and then any number is accepted as the pixel size: NaN, the
infinities, and pixels beyond every Abbe limit.  (A NaN aperture needs a non-zero wavelength.) -/
theorem C34_nan_accepted (a : InitArgs) (h : OthersGood a) (zr : Option ZArg) (r : PyFloat) (hr : a.res.num? = some r)
    (hnan : (a.wl = .float .nan ∧ ((∃ n, Denotes a.na n ∧ 0 ≤ n) ∨ a.na = .float .nan ∨ a.na = .float (.inf false))) ∨
      (a.na = .float .nan ∧ ((∃ w, Denotes a.wl w ∧ 0 < w) ∨ a.wl = .float (.inf false)))) :
    ∃ o, HObj.new a zr = .ok o := by
  rw [new_iff_others h]
  have hge : PyFloat.ge r .nan = false := by rcases r with q | _ | n <;> rfl
  have accn : Accepts PyVal.isFloatOrInt (.float .nan) := by simp [Accepts, PyVal.isFloatOrInt, IsNegative, PyVal.num?]
  have acci : Accepts PyVal.isFloatOrInt (.float (.inf false)) := by
    simp [Accepts, PyVal.isFloatOrInt, IsNegative, PyVal.num?]
  rcases hnan with ⟨hw, ⟨n, hn, hn0⟩ | hn | hn⟩ | ⟨hn, ⟨w, hw, hw0⟩ | hw⟩
  · refine ⟨by rw [hw]; exact accn, (accepts_denotes hn).mpr hn0, .nan, r, ⟨.nan, .fin n, .nan, by rw [hw]; rfl, hn, ?_, rfl⟩, hr, hge⟩
    simp [PyFloat.mul, PyFloat.div]
  · refine ⟨by rw [hw]; exact accn, by rw [hn]; exact accn, .nan, r, ⟨.nan, .nan, .nan, by rw [hw]; rfl, by rw [hn]; rfl, ?_, rfl⟩, hr, hge⟩
    simp [PyFloat.mul, PyFloat.div]
  · refine ⟨by rw [hw]; exact accn, by rw [hn]; exact acci, .nan, r, ⟨.nan, .inf false, .nan, by rw [hw]; rfl, by rw [hn]; rfl, ?_, rfl⟩, hr, hge⟩
    simp [PyFloat.mul, PyFloat.div]
  · refine ⟨(accepts_denotes hw).mpr hw0.le, by rw [hn]; exact accn, .nan, r, ⟨.fin w, .nan, .nan, hw, by rw [hn]; rfl, ?_, rfl⟩, hr, hge⟩
    simp [PyFloat.mul, PyFloat.div, hw0.ne']
  · refine ⟨by rw [hw]; exact acci, by rw [hn]; exact accn, .nan, r, ⟨.inf false, .nan, .nan, by rw [hw]; rfl, by rw [hn]; rfl, ?_, rfl⟩, hr, hge⟩
    simp [PyFloat.mul, PyFloat.div]

/-- C34: with an infinite aperture (and a positive wavelength) the limit is zero: exactly the negative pixel sizes
pass. -/
theorem C34_infinite_na (a : InitArgs) (h : OthersGood a) (zr : Option ZArg) (w r : ℚ) (hw : Denotes a.wl w)
    (hw0 : 0 < w) (hn : a.na = .float (.inf false)) (hr : Denotes a.res r) :
    (∃ o, HObj.new a zr = .ok o) ↔ r < 0 := by
  rw [new_iff_others h]
  have acci : Accepts PyVal.isFloatOrInt (.float (.inf false)) := by
    simp [Accepts, PyVal.isFloatOrInt, IsNegative, PyVal.num?]
  constructor
  · rintro ⟨-, -, l, x, ⟨w', n', q, e1, e2, e3, e4⟩, e5, e6⟩
    rw [hw] at e1; rw [hn] at e2; rw [hr] at e5
    cases e1; cases e2; cases e5
    simp [PyFloat.mul, PyFloat.div, hw0.ne'] at e3
    subst e3
    simp only [PyFloat.div] at e4
    cases e4
    exact (ge_fin _ _).mp e6
  · intro hr0
    refine ⟨(accepts_denotes hw).mpr hw0.le, by rw [hn]; exact acci, .fin 0, .fin r,
      ⟨.fin w, .inf false, .inf false, hw, by rw [hn]; rfl, ?_, rfl⟩, hr, (ge_fin _ _).mpr hr0⟩
    have h2 : ¬ (2 : ℚ) < 0 := by norm_num
    simp [PyFloat.mul, PyFloat.div, hw0.ne', h2, not_lt.mpr hw0.le]

/-- C34: with ordinary wavelength and aperture a NaN pixel size is accepted, an infinite one exactly if it is
negative. -/
theorem C34_special_res (a : InitArgs) (h : OthersGood a) (zr : Option ZArg) (w n : ℚ) (hw : Denotes a.wl w)
    (hw0 : 0 < w) (hn : Denotes a.na n) (hn0 : 0 < n) :
    (a.res = .float .nan → ∃ o, HObj.new a zr = .ok o) ∧
    (∀ s, a.res = .float (.inf s) → ((∃ o, HObj.new a zr = .ok o) ↔ s = true)) := by
  have habbe : ∀ l, IsAbbe a.wl a.na l ↔ l = .fin (1 / (2 * n / w)) := by
    intro l
    constructor
    · rintro ⟨w', n', q, e1, e2, e3, e4⟩
      rw [hw] at e1; rw [hn] at e2
      cases e1; cases e2
      simp only [PyFloat.mul, PyFloat.div, hw0.ne', if_false] at e3
      cases e3
      have : 2 * n / w ≠ 0 := by positivity
      simp only [PyFloat.div, this, if_false] at e4
      cases e4; rfl
    · rintro rfl
      have : 2 * n / w ≠ 0 := by positivity
      refine ⟨.fin w, .fin n, .fin (2 * n / w), hw, hn, ?_, ?_⟩
      · simp only [PyFloat.mul, PyFloat.div, hw0.ne', if_false]
      · simp only [PyFloat.div, this, if_false]
  constructor
  · intro hr
    rw [new_iff_others h]
    exact ⟨(accepts_denotes hw).mpr hw0.le, (accepts_denotes hn).mpr hn0.le, _, .nan, (habbe _).mpr rfl,
      by rw [hr]; rfl, rfl⟩
  · intro s hr
    rw [new_iff_others h]
    constructor
    · rintro ⟨-, -, l, x, e1, e2, e3⟩
      rw [(habbe l).mp e1] at e3
      rw [hr] at e2
      cases e2
      simpa [PyFloat.ge, PyFloat.lt, PyFloat.eq] using e3
    · rintro rfl
      exact ⟨(accepts_denotes hw).mpr hw0.le, (accepts_denotes hn).mpr hn0.le, _, .inf true, (habbe _).mpr rfl,
        by rw [hr]; rfl, rfl⟩

/-- Non-vacuity: `HanserPSF(wl=nan, na=0.85, ni=1.0, res=1e9, size=64, zres=100)` constructs, with `wl=inf` it
does not. -/
example : (∃ o, HObj.new { demoArgs with wl := .float .nan, res := .int 1000000000, zres := .int 100 } none = .ok o) ∧
    ∀ o, HObj.new { demoArgs with wl := .float (.inf false), res := .int 100, zres := .int 100 } none ≠ .ok o := by
  refine ⟨C34_nan_accepted _ ?_ none (.fin 1000000000) rfl (Or.inl ⟨rfl, Or.inl ⟨17/20, rfl, by norm_num⟩⟩),
    C34_infinite_wl _ none (17/20) rfl rfl⟩
  constructor
  · exact ⟨1, rfl, by norm_num⟩
  · exact ⟨64, Or.inl rfl⟩
  · exact ⟨100, rfl, by norm_num⟩
  · exact ⟨64, by simp [demoArgs, DenotesNat]⟩
  · simp [demoArgs]
  · simp [demoArgs]

end PyOTF
