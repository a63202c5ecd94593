import Verif.Props.C59_Sim

/-!
# C60, C61, C77: constructor quirks of the SIM microscopes, `repr`, alignment of pattern and PSF
-/

namespace PyOTF

/-! ## C60 -/

/-- C60: `wiener=None`, documented as "no deconvolution", raises `TypeError` in every constructor call that would succeed with some
other value of `wiener` ... -/
theorem C60_wiener_none (a : MicroArgs) (na wl w co dc ds : PyVal) (os : List ℝ) (m : Micro)
    (h : Micro.newSIM a na wl w co dc ds os = .ok m) : Micro.newSIM a na wl .none co dc ds os = .error .typeError := by
  unfold Micro.newSIM at h ⊢
  obtain ⟨m', h', h⟩ := py_bind_ok h
  obtain ⟨x1, k1, h⟩ := py_bind_ok h
  obtain ⟨x2, k2, h⟩ := py_bind_ok h
  obtain ⟨x3, k3, h⟩ := py_bind_ok h
  obtain ⟨x4, k4, h⟩ := py_bind_ok h
  obtain ⟨x5, k5, h⟩ := py_bind_ok h
  simp only [h', k1, k2, k3, k4, k5, bind, Except.bind, PyVal.ltZero, PyVal.num?]

/-- ... and so never succeeds. -/
theorem C60_wiener_none_never (a : MicroArgs) (na wl co dc ds : PyVal) (os : List ℝ) (m : Micro) :
    Micro.newSIM a na wl .none co dc ds os ≠ .ok m := by
  intro h
  have := C60_wiener_none a na wl .none co dc ds os m h
  rw [h] at this; cases this

/-- C60: assigning `m.wiener = None` afterwards does switch the filter off: the pattern is applied to the plain PSF of the model. -/
theorem C60_wiener_none_later (m : Micro) (na wl w co dc ds : PyVal) (os : List ℝ) (hk : m.kind = .sim na wl co dc ds os w) :
    (m.ustep (.wiener .none)).2.kind = .sim na wl co dc ds os .none ∧
    (Micro.simFiltered .none (m.ustep (.wiener .none)).2).1 = (Inner.getPSFi m.model).1 := by
  refine ⟨?_, rfl⟩
  show Micro.withWiener .none m.kind = _
  rw [hk]; rfl

/-- C60: with `na_exc` omitted, the emission `na` is used; it has to be a `float`: if it was given as an `int` (which a widefield
microscope accepts) `TypeError` is raised. -/
theorem C60_int_na (a : MicroArgs) (wl w co dc ds : PyVal) (os : List ℝ) (m : Micro) (hm : Micro.newWidefield a = .ok m)
    (k : ℤ) (hna : a.na = .int k) : Micro.newSIM a .none wl w co dc ds os = .error .typeError := by
  have hp : m.psfParams.na = a.na := by
    unfold Micro.newWidefield at hm
    obtain ⟨o, -, hm⟩ := py_bind_ok hm
    obtain ⟨sr, -, hm⟩ := py_bind_ok hm
    obtain ⟨mo, hmo, hm⟩ := py_bind_ok hm
    cases hm; rfl
  have hn : numericSet Micro.isFloat none (.int k) = .error .typeError := rfl
  unfold Micro.newSIM
  simp only [hm, bind, Except.bind, if_true, hp, hna, hn]

/-- C60: the same for `wl_exc` and an `int` emission wavelength. -/
theorem C60_int_wl (a : MicroArgs) (q : ℚ) (hq : 0 ≤ q) (w co dc ds : PyVal) (os : List ℝ) (m : Micro)
    (hm : Micro.newWidefield a = .ok m) (k : ℤ) (hwl : a.wl = .int k) :
    Micro.newSIM a (.float (.fin q)) .none w co dc ds os = .error .typeError := by
  have hp : m.psfParams.wl = a.wl := by
    unfold Micro.newWidefield at hm
    obtain ⟨o, -, hm⟩ := py_bind_ok hm
    obtain ⟨sr, -, hm⟩ := py_bind_ok hm
    obtain ⟨mo, hmo, hm⟩ := py_bind_ok hm
    cases hm; rfl
  have hn : numericSet Micro.isFloat none (.int k) = .error .typeError := rfl
  have hn' : ∃ x, numericSet Micro.isFloat none (.float (.fin q)) = .ok x := by
    have h0 : PyVal.ltZero (.float (.fin q)) = .ok false := by
      simp only [PyVal.ltZero, PyVal.num?]
      congr 1
      rw [Bool.eq_false_iff]
      exact fun h => absurd ((lt_fin _ _).mp h) (not_lt.mpr hq)
    unfold numericSet
    simp only [Micro.isFloat, h0, bind, Except.bind]
    simp only [Bool.not_true, Bool.false_eq_true, if_false]
    split <;> exact ⟨_, rfl⟩
  obtain ⟨x, hx⟩ := hn'
  unfold Micro.newSIM
  simp only [hm, bind, Except.bind, if_true, hp, hwl, hn, hx, reduceCtorEq, if_false]

/-- C60: a negative Wiener parameter raises `ValueError` in every constructor call that would succeed with another one. -/
theorem C60_wiener_negative (a : MicroArgs) (na wl w co dc ds : PyVal) (os : List ℝ) (m : Micro) (q : ℚ) (hq : q < 0)
    (h : Micro.newSIM a na wl w co dc ds os = .ok m) :
    Micro.newSIM a na wl (.float (.fin q)) co dc ds os = .error .valueError := by
  unfold Micro.newSIM at h ⊢
  obtain ⟨m', h', h⟩ := py_bind_ok h
  obtain ⟨x1, k1, h⟩ := py_bind_ok h
  obtain ⟨x2, k2, h⟩ := py_bind_ok h
  obtain ⟨x3, k3, h⟩ := py_bind_ok h
  obtain ⟨x4, k4, h⟩ := py_bind_ok h
  obtain ⟨x5, k5, h⟩ := py_bind_ok h
  have h0 : PyVal.ltZero (.float (.fin q)) = .ok true := by
    simp only [PyVal.ltZero, PyVal.num?]
    congr 1
    exact (lt_fin _ _).mpr hq
  simp only [h', k1, k2, k3, k4, k5, bind, Except.bind, h0, if_true, throw, throwThe, MonadExceptOf.throw]

/-- Non-vacuity of C60. -/
example (os : List ℝ) : Micro.newSIM3D demoMicroArgs (.float (.fin (4/5))) (.float (.fin 488)) .none (.bool false) os =
    .error .typeError ∧
    Micro.newSIM3D demoMicroArgs (.float (.fin (4/5))) .none (.float (.fin (1/2))) (.bool false) os = .error .typeError := by
  obtain ⟨m₀, m, p, h, -, -⟩ := demoSim os
  constructor
  · exact C60_wiener_none _ _ _ _ _ _ _ _ m₀ h
  · obtain ⟨m', h', -⟩ := newSIM_kind h
    exact C60_int_wl demoMicroArgs (4/5) (by norm_num) _ _ _ _ _ m' h' 520 rfl

/-! ## C61 -/

/-- Which parameters `_choose_model(model)(**psf_params)` stores. -/
theorem chooseModel_params {v : PyVal} {p : PsfParams} {i : Inner} (h : chooseModel v p = .ok i) :
    i.params.size = some p.size ∧ i.params.res = some p.res ∧ i.params.wl = some p.wl ∧ i.params.na = some p.na ∧
    i.params.ni = some p.ni ∧ i.params.zres = some p.initArgs.zresEff ∧ i.params.zsize = some p.initArgs.zsizeEff := by
  unfold chooseModel at h
  cases v with
  | str s =>
    simp only at h
    by_cases h1 : s.toLower = "hanser"
    · simp only [h1, if_true] at h
      by_cases h2 : p.kw.dual.isSome
      · simp only [h2, if_true] at h; cases h
      · simp only [h2] at h
        obtain ⟨o, ho, h⟩ := py_bind_ok h
        cases h
        obtain ⟨_, _, _, _, _, -, -, -, -, -, -, -, -, -, -, -, -, rfl⟩ := (hanser_new_iff _ _ _).mp ho
        exact ⟨rfl, rfl, rfl, rfl, rfl, rfl, rfl⟩
    · simp only [h1, if_false] at h
      by_cases h3 : s.toLower = "sheppard"
      · simp only [h3, if_true] at h
        by_cases h2 : p.kw.zrange.isSome
        · simp only [h2, if_true] at h; cases h
        · simp only [h2] at h
          obtain ⟨o, ho, h⟩ := py_bind_ok h
          cases h
          obtain ⟨_, _, _, _, _, _, _, _, _, _, -, -, -, -, -, -, -, -, -, -, -, -, -, -, -, -, -, -, rfl⟩ :=
            (sheppard_new_iff _ _ _).mp ho
          exact ⟨rfl, rfl, rfl, rfl, rfl, rfl, rfl⟩
      · simp only [h3, if_false] at h; cases h
  | _ => cases h

/-- Enlarging `size` to another natural number does not change whether the model can be constructed, nor (unless `zsize=None` was
given explicitly) any of its other parameters. -/
theorem chooseModel_resize {v : PyVal} {p p' : PsfParams} {i : Inner} (n : ℕ) (h : chooseModel v p = .ok i)
    (hp' : p'.initArgs = { p.initArgs with size := .int n }) (hd : p'.kw.dual = p.kw.dual) (hz : p'.kw.zrange = p.kw.zrange)
    (hzs : p.zsize ≠ .none) :
    ∃ i', chooseModel (.str (Micro.modelName i)) p' = .ok i' ∧ i'.params = { i.params with size := some (.int n) } ∧
      Micro.modelName i' = Micro.modelName i := by
  have hacc : Accepts PyVal.isInt (.int n) := ⟨rfl, by simp [IsNegative, PyVal.num?]⟩
  have hi : ∀ q : PsfParams, InitArgs.mk q.wl q.na q.ni q.res q.size q.zres q.zsize (q.kw.vecCorr.getD (.str "none"))
      (q.kw.condition.getD (.str "sine")) = q.initArgs :=
    fun _ => rfl
  have ez : p'.initArgs.zsizeEff = p.initArgs.zsizeEff := by
    rw [hp']
    have : p.initArgs.zsize ≠ .none := hzs
    simp only [InitArgs.zsizeEff, this, if_false]
  have er : p'.initArgs.zresEff = p.initArgs.zresEff := by rw [hp']; rfl
  unfold chooseModel at h
  cases v with
  | str s =>
    simp only [hi] at h
    by_cases h1 : s.toLower = "hanser"
    · simp only [h1, if_true] at h
      by_cases h2 : p.kw.dual.isSome
      · simp only [h2, if_true] at h; cases h
      · simp only [h2] at h
        obtain ⟨o, ho, h⟩ := py_bind_ok h
        cases h
        obtain ⟨l, x, z, vc, cd, a1, a2, a3, a4, a5, a6, a7, a8, a9, a10, a11, a12, rfl⟩ := (hanser_new_iff _ _ _).mp ho
        have := (hanser_new_iff p'.initArgs p'.kw.zrange _).mpr ⟨l, x, z, vc, cd, by rw [hp']; exact a1, by rw [hp']; exact a2,
          by rw [hp']; exact a3, by rw [hp']; exact a4, by rw [hp']; exact a5, a6, by rw [hp']; exact hacc, by rw [er]; exact a8, a9,
          by rw [ez]; exact a10, by rw [hp']; exact a11, by rw [hp']; exact a12, rfl⟩
        refine ⟨.hanser ?_, ?c, ?_, ?_⟩
        case c =>
          unfold chooseModel
          simp only [hi, Micro.modelName, hd, h2]
          have e1 : "hanser".toLower = "hanser" := by decide +kernel
          simp only [e1, if_true]
          rw [this]; rfl
        · simp only [Inner.params, ez, er, hz]
          rw [hp']
        · rfl
    · simp only [h1, if_false] at h
      by_cases h3 : s.toLower = "sheppard"
      · simp only [h3, if_true] at h
        by_cases h2 : p.kw.zrange.isSome
        · simp only [h2, if_true] at h; cases h
        · simp only [h2] at h
          obtain ⟨o, ho, h⟩ := py_bind_ok h
          cases h
          obtain ⟨l, x, w, k, hh, zl, z, vc, cd, b, a1, a2, a3, a4, a5, a6, a7, a8, a9, a10, a11, a12, a13, a14, a15, a16, a17, a18,
            rfl⟩ := (sheppard_new_iff _ _ _).mp ho
          have := (sheppard_new_iff p'.initArgs (p'.kw.dual.getD (.bool false)) _).mpr ⟨l, x, w, k, hh, zl, z, vc, cd, b,
            by rw [hp']; exact a1, by rw [hp']; exact a2, by rw [hp']; exact a3, by rw [hp']; exact a4, by rw [hp']; exact a5, a6,
            by rw [hp']; exact hacc, by rw [hp']; exact a8, by rw [hp']; exact a9, a10, a11, by rw [er]; exact a12, a13, a14,
            by rw [ez]; exact a15, by rw [hp']; exact a16, by rw [hp']; exact a17, by rw [hd]; exact a18, rfl⟩
          refine ⟨.sheppard ?_, ?c, ?_, ?_⟩
          case c =>
            unfold chooseModel
            have e1 : "sheppard".toLower = "sheppard" := by decide +kernel
            have e2 : ¬ ("sheppard" = "hanser") := by decide
            simp only [hi, Micro.modelName, hz, h2, e1, e2, if_false, if_true]
            rw [this]; rfl
          · simp only [Inner.params, ez, er]
            rw [hp']
          · rfl
      · simp only [h3, if_false] at h; cases h
  | _ => cases h

/-- C61: the arguments shown by `repr` can always be used to build a microscope, whose model has the same pixel size and planes but
`size * oversample_factor ** 2` pixels: it is the same model iff the factor is 1. -/
theorem C61_repr (a : MicroArgs) (m : Micro) (h : Micro.newWidefield a = .ok m) (n : ℕ) (o : ℤ) (p : PyFloat) (hn : 0 < n)
    (hs : a.size = .int n) (ho : a.oversample = .int o) (hp : a.pixelSize = .float p) (hz : a.kw.zsize ≠ some .none) :
    m.model.params.size = some (.int (n * o)) ∧
    ∃ m', Micro.newWidefield m.reprArgs = .ok m' ∧ m'.model.params = { m.model.params with size := some (.int (n * o * o)) } ∧
      m'.oversample = m.oversample ∧ m'.pixelSize = m.pixelSize ∧ m'.kind = m.kind ∧
      (m'.model.params = m.model.params ↔ o = 1) := by
  have ho0 : 0 ≤ o := by
    by_contra hc
    rw [(C55_oversample a).2.1 o ho (by omega)] at h; cases h
  have ho1 : o % 2 = 1 := by
    by_contra hc
    rw [(C55_oversample a).2.2.1 o ho ho0 (by omega)] at h; cases h
  rw [C55_accepted a o ho0 ho1 ho n p hs hp] at h
  obtain ⟨i, hi, h⟩ := py_bind_ok h
  cases h
  obtain ⟨k1, k2, -⟩ := chooseModel_params hi
  refine ⟨k1, ?_⟩
  obtain ⟨on, rfl⟩ := Int.eq_ofNat_of_zero_le ho0
  generalize hm : (Micro.mk a.oversample _ a.pixelSize i .widefield none none) = m0
  have hr := C55_accepted (Micro.reprArgs m0) on ho0 ho1 (by rw [← hm]; exact ho) (n * on) p (by rw [← hm]; rfl) (by rw [← hm]; exact hp)
  have hz' : a.kw.zsize.getD a.size ≠ .none := by
    rcases hk : a.kw.zsize with _ | v
    · simp [hs]
    · rw [hk] at hz; simpa using hz
  obtain ⟨i', g1, g2, g3⟩ := chooseModel_resize (p' := ⟨a.na, a.ni, a.wl, a.kw.zres.getD a.pixelSize, a.kw.zsize.getD a.size,
    .int (n * on * on), .float (if (on : ℤ) = 1 then p else (PyFloat.div p (.fin (on : ℤ))).toOption.getD .nan),
    { a.kw with zres := some (a.kw.zres.getD a.pixelSize), zsize := some (a.kw.zsize.getD a.size) }⟩) (n * on * on) hi (by simp [PsfParams.initArgs]) rfl rfl hz'
  refine ⟨Micro.mk a.oversample ?_ a.pixelSize i' .widefield none none, ?c, ?_, ?_, ?_, ?_, ?_⟩
  case c =>
    rw [hr, ← hm]
    simp only [Micro.reprArgs, Option.getD_some]
    rw [g1]; rfl
  · rw [← hm, g2]; simp
  · rw [← hm]
  · rw [← hm]
  · rw [← hm]
  · rw [← hm, g2]
    constructor
    · intro e
      have e2 := congrArg Params.size e
      rw [k1] at e2
      simp only [Option.some.injEq, PyVal.int.injEq] at e2
      push_cast at e2
      have hno : (n * on : ℤ) ≠ 0 := by
        have : (on : ℤ) ≠ 0 := by omega
        have : (n : ℤ) ≠ 0 := by omega
        positivity
      have : (n * on : ℤ) * on = (n * on : ℤ) * 1 := by rw [e2, mul_one]
      exact mul_left_cancel₀ hno this
    · intro e
      have : (((n * on * on : ℕ) : ℤ)) = n * on := by push_cast; rw [e]; ring
      rw [this, ← k1]

/-- Non-vacuity of C61: `repr` of a 64-pixel microscope with factor 3 describes a 192-pixel one, whose model has 576 pixels. -/
example : ∃ m m', Micro.newWidefield demoMicroArgs = .ok m ∧ Micro.newWidefield m.reprArgs = .ok m' ∧
    m.reprArgs.size = .int 192 ∧ m'.model.params.size = some (.int 576) := by
  obtain ⟨m, _, _, _, h, -⟩ := demoMicro
  obtain ⟨h1, m', h2, h3, -⟩ := C61_repr demoMicroArgs m h 64 3 (.fin 130) (by norm_num) rfl rfl rfl (by simp [demoMicroArgs])
  refine ⟨m, m', h, h2, ?_, ?_⟩
  · rw [C55_accepted demoMicroArgs 3 (by norm_num) (by norm_num) rfl 64 (.fin 130) rfl rfl] at h
    obtain ⟨i, hi, h⟩ := py_bind_ok h
    cases h; rfl
  · rw [h3]; rfl

/-! ## C77 -/

/-- C77: the origin of the pattern is pixel `(N + 1) // 2`.  It is the centre `N // 2` of the PSF on an even grid and one pixel beyond
it on an odd grid. -/
theorem C77_origin (N : ℕ) (d : ℝ) (hd : d ≠ 0) : (∀ i, position N d i = 0 ↔ i = (N + 1) / 2) ∧
    (N % 2 = 0 → position N d (N / 2) = 0) ∧ (N % 2 = 1 → position N d (N / 2) = -d) := by
  refine ⟨fun i => ?_, fun h => ?_, fun h => ?_⟩
  · simp only [position, mul_eq_zero, hd, or_false, sub_eq_zero, Nat.cast_inj]
  · have : (N + 1) / 2 = N / 2 := by omega
    rw [position, this, sub_self, zero_mul]
  · have : (N + 1) / 2 = N / 2 + 1 := by omega
    rw [position, this]; push_cast; ring

/-- C77: at the origin of the pattern all beams are in phase: there the effective PSF of an incoherent SIM microscope is
4 (two beams) or 9 (three beams) times the model PSF per orientation. -/
theorem C77_bright (m : Micro) (dc : Bool) (os : List ℝ) (N Z : ℕ) (d dz n a l : ℚ) (p : Arr ℝ)
    (h : SimSetting m false dc false os N Z d dz n a l p) : ∃ c, (Micro.modelPsf m).1 = .ok c ∧
    c.get [(Z + 1) / 2, (N + 1) / 2, (N + 1) / 2] =
      p.get [(Z + 1) / 2, (N + 1) / 2, (N + 1) / 2] * (os.length * (if dc then 9 else 4)) ∧
    ∀ iz iy ix, 0 ≤ p.get [iz, iy, ix] → 0 ≤ c.get [iz, iy, ix] ∧
      c.get [iz, iy, ix] ≤ p.get [iz, iy, ix] * (os.length * (if dc then 9 else 4)) := by
  obtain ⟨c, h1, h2, h3⟩ := C59_incoherent m dc false os N Z d dz n a l p h
  have p0 : ∀ (N : ℕ) (d : ℝ), position N d ((N + 1) / 2) = 0 := fun N d => by rw [position, sub_self, zero_mul]
  have two : ∀ φ, 0 ≤ twoBeam φ ∧ twoBeam φ ≤ 4 := fun φ => by
    unfold twoBeam; constructor <;> linarith [Real.neg_one_le_cos (2 * φ), Real.cos_le_one (2 * φ)]
  have three : ∀ φ ψ, 0 ≤ threeBeam φ ψ ∧ threeBeam φ ψ ≤ 9 := fun φ ψ => by
    constructor
    · rw [← (beams_spec φ 0 ψ).2.1]; positivity
    · unfold threeBeam
      have h1 := Real.cos_le_one (2 * φ)
      have h2 : Real.cos φ * Real.cos ψ ≤ 1 := by
        have a1 := Real.abs_cos_le_one φ
        have a2 := Real.abs_cos_le_one ψ
        calc _ ≤ |Real.cos φ * Real.cos ψ| := le_abs_self _
          _ = |Real.cos φ| * |Real.cos ψ| := abs_mul _ _
          _ ≤ 1 * 1 := mul_le_mul a1 a2 (abs_nonneg _) zero_le_one
          _ = 1 := one_mul 1
      linarith
  refine ⟨c, h1, ?_, fun iz iy ix hp => ?_⟩
  · rw [h3]
    simp only [p0, lateralPhase, axialPhase, zero_mul, add_zero, mul_zero, Bool.false_eq_true, if_false, sub_zero]
    congr 1
    rw [List.map_const', List.sum_replicate, nsmul_eq_mul]
    cases dc <;> norm_num [twoBeam, threeBeam]
  · rw [h3]
    simp only [Bool.false_eq_true, if_false, sub_zero]
    have key : ∀ (os : List ℝ) (f : ℝ → ℝ) (b : ℝ), (∀ o, 0 ≤ f o ∧ f o ≤ b) → 0 ≤ (os.map f).sum ∧ (os.map f).sum ≤ os.length * b := by
      intro os f b hb
      induction os with
      | nil => simp
      | cons o os ih =>
        simp only [List.map_cons, List.sum_cons, List.length_cons]
        push_cast
        constructor
        · linarith [ih.1, (hb o).1]
        · linarith [ih.2, (hb o).2]
    have := key os (fun o => if dc then threeBeam (lateralPhase a l o (position N d ix) (position N d iy))
      (axialPhase n a l (position Z dz iz)) else twoBeam (lateralPhase a l o (position N d ix) (position N d iy)))
      (if dc then 9 else 4) (fun o => by cases dc <;> simp [two, three])
    exact ⟨mul_nonneg hp this.1, mul_le_mul_of_nonneg_left this.2 hp⟩

end PyOTF
