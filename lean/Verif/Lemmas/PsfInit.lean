import Verif.Lemmas.Psf
import Verif.Props.C21_NumericProperty

/-!
# Running the constructors of the PSF classes
-/

namespace PyOTF

variable {A I : Type}

/-- The statement runs to completion and takes the object from `o` to `o'`. -/
def Succ (m : PyM (Obj A I) Unit) (o o' : Obj A I) : Prop := m o = (.ok (), o')

theorem succ_bind (m k : PyM (Obj A I) Unit) (o o' : Obj A I) :
    Succ (m >>= fun _ => k) o o' ↔ ∃ o1, Succ m o o1 ∧ Succ k o1 o' := by
  simp only [Succ, PyM.bind_apply]
  rcases h : m o with ⟨e | u, s⟩
  · simp
  · cases u
    constructor
    · intro hk; exact ⟨s, rfl, hk⟩
    · rintro ⟨o1, h1, h2⟩
      cases h1
      exact h2

/-- A value of the right type denoting a non-negative number (or NaN). -/
def Accepts (t : PyVal → Bool) (v : PyVal) : Prop := t v = true ∧ ¬ IsNegative v

theorem numericSet_fresh {t : PyVal → Bool} (ht : NumericType t) (v : PyVal) :
    (Accepts t v ∧ numericSet t none v = .ok (some v)) ∨ (¬ Accepts t v ∧ ∃ e, numericSet t none v = .error e) := by
  have h := C21_numeric_property t ht ⟨none, 0⟩ v
  simp only [NumAttr.assign] at h
  by_cases h1 : t v = true
  · by_cases h2 : IsNegative v
    · right
      refine ⟨fun hh => hh.2 h2, ?_⟩
      have := h.2.1 h1 h2
      rcases hn : numericSet t none v with e | _ | w
      · exact ⟨e, rfl⟩
      · rw [hn] at this; simp at this
      · rw [hn] at this; simp at this
    · left
      refine ⟨⟨h1, h2⟩, ?_⟩
      have := h.2.2.2 h1 h2 (by simp)
      rcases hn : numericSet t none v with e | _ | w
      · rw [hn] at this; simp at this
      · rw [hn] at this; simp at this
      · rw [hn] at this; simp at this; rw [this]
  · right
    refine ⟨fun hh => h1 hh.1, ?_⟩
    have := h.1 (by simpa using h1)
    rcases hn : numericSet t none v with e | _ | w
    · exact ⟨e, rfl⟩
    · rw [hn] at this; simp at this
    · rw [hn] at this; simp at this

theorem succ_setNumeric {t : PyVal → Bool} (ht : NumericType t) (rd : Params → Option PyVal)
    (wr : PyVal → Params → Params) (v : PyVal) (o o' : Obj A I) (hf : rd o.params = none) :
    Succ (setNumeric t rd wr v) o o' ↔ Accepts t v ∧ o' = { params := wr v o.params } := by
  rw [Succ, setNumeric_run, hf]
  rcases numericSet_fresh ht v with ⟨h1, h2⟩ | ⟨h1, e, h2⟩
  · rw [h2]; simp only [Prod.mk.injEq, true_and, h1]; exact eq_comm
  · rw [h2]; simp [h1]

/-- The sampling limit of `res` as the code computes it, when the divisions succeed. -/
def IsAbbe (wl na : PyVal) (l : PyFloat) : Prop :=
  ∃ w n q, wl.num? = some w ∧ na.num? = some n ∧ PyFloat.div (PyFloat.mul (.fin 2) n) w = .ok q ∧
    PyFloat.div (.fin 1) q = .ok l

theorem setRes_run (v wl na : PyVal) (w n : PyFloat) (o : Obj A I) (h1 : o.params.wl = some wl)
    (h2 : o.params.na = some na) (h3 : wl.num? = some w) (h4 : na.num? = some n) :
    setRes v o =
      match PyFloat.div (PyFloat.mul (.fin 2) n) w with
      | .error e => (.error e, o)
      | .ok q => match PyFloat.div (.fin 1) q with
        | .error e => (.error e, o)
        | .ok l => match v.num? with
          | none => (.error .typeError, o)
          | some x => if PyFloat.ge x l = true then (.error .valueError, o)
            else (.ok (), { params := { o.params with res := some v } }) := by
  have e1 : attr o.params.na = .ok na := by rw [h2]; rfl
  have e2 : attr o.params.wl = .ok wl := by rw [h1]; rfl
  simp only [setRes, PyM.bind_apply, self, PyM.lift_apply, e1, e2, pyNum_of_num h3, pyNum_of_num h4]
  rcases PyFloat.div (PyFloat.mul (.fin 2) n) w with er | q
  · rfl
  · simp only []
    rcases PyFloat.div (.fin 1) q with er | l
    · rfl
    · simp only []
      rcases hx : v.num? with _ | x
      · simp only [pyNum_none hx]
      · simp only [pyNum_of_num hx]
        by_cases hg : PyFloat.ge x l = true
        · simp only [if_pos hg, PyM.raise_apply]
        · simp only [if_neg hg]; rfl

theorem succ_setRes (v wl na : PyVal) (o o' : Obj A I) (h1 : o.params.wl = some wl) (h2 : o.params.na = some na)
    (h3 : wl.num?.isSome = true) (h4 : na.num?.isSome = true) :
    Succ (setRes v) o o' ↔ ∃ l x, IsAbbe wl na l ∧ v.num? = some x ∧ PyFloat.ge x l = false ∧
      o' = { params := { o.params with res := some v } } := by
  obtain ⟨w, hw⟩ := Option.isSome_iff_exists.mp h3
  obtain ⟨n, hn⟩ := Option.isSome_iff_exists.mp h4
  rw [Succ, setRes_run v wl na w n o h1 h2 hw hn]
  have hab : ∀ l, IsAbbe wl na l ↔ ∃ q, PyFloat.div (PyFloat.mul (.fin 2) n) w = .ok q ∧ PyFloat.div (.fin 1) q = .ok l := by
    intro l
    constructor
    · rintro ⟨w', n', q, hw', hn', hq, hl⟩
      rw [hw] at hw'; rw [hn] at hn'
      cases hw'; cases hn'
      exact ⟨q, hq, hl⟩
    · rintro ⟨q, hq, hl⟩
      exact ⟨w, n, q, hw, hn, hq, hl⟩
  simp only [hab]
  rcases PyFloat.div (PyFloat.mul (.fin 2) n) w with er | q
  · simp
  · simp only [Except.ok.injEq, exists_eq_left']
    rcases PyFloat.div (.fin 1) q with er | l
    · simp
    · rcases v.num? with _ | x
      · simp
      · by_cases hg : PyFloat.ge x l = true
        · simp [hg]
        · simp only [hg, Except.ok.injEq, Option.some.injEq]
          simp only [Bool.not_eq_true] at hg
          constructor
          · intro hh; exact ⟨l, x, rfl, rfl, hg, (congrArg Prod.snd hh).symm⟩
          · rintro ⟨l', x', _, _, _, rfl⟩; simp

theorem succ_setZresBase (v : PyVal) (o o' : Obj A I) :
    Succ (setZresBase v) o o' ↔ ∃ x, v.num? = some x ∧ PyFloat.lt (.fin 0) x = true ∧
      o' = { params := { o.params with zres := some v } } := by
  rw [Succ, setZresBase_run]
  rcases hx : v.num? with _ | x
  · simp [pyNum_none hx]
  · rw [pyNum_of_num hx]
    by_cases hg : PyFloat.lt (.fin 0) x = true
    · simp only [hg, if_true, Prod.mk.injEq, true_and, Option.some.injEq, exists_eq_left']; exact eq_comm
    · simp [hg]

theorem succ_setZresHanser (v : PyVal) (o o' : Obj A I) (hf : o.params.zsize = none) :
    Succ (setZresHanser v) o o' ↔ ∃ x, v.num? = some x ∧ PyFloat.lt (.fin 0) x = true ∧
      o' = { params := { o.params with zres := some v } } := by
  rw [setZresHanser, succ_bind]
  have : ∀ o1 o2 : Obj A I, o1.params.zsize = none →
      (Succ (PyM.ignore .attributeError genZrange) o1 o2 ↔ o2 = o1) := by
    intro o1 o2 h1
    simp only [Succ, PyM.ignore, genZrange_run, h1, if_true, Prod.mk.injEq, true_and]
    exact eq_comm
  constructor
  · rintro ⟨o1, h1, h2⟩
    obtain ⟨x, hx, hg, rfl⟩ := (succ_setZresBase v o o1).mp h1
    refine ⟨x, hx, hg, (this _ _ ?_).mp h2⟩
    exact hf
  · rintro ⟨x, hx, hg, rfl⟩
    exact ⟨_, (succ_setZresBase v o _).mpr ⟨x, hx, hg, rfl⟩, (this _ _ (by exact hf)).mpr rfl⟩

theorem succ_setZsizeHanser (v z : PyVal) (x : PyFloat) (o o' : Obj A I) (hf : o.params.zsize = none)
    (hz : o.params.zres = some z) (hx : z.num? = some x) :
    Succ (setZsizeHanser v) o o' ↔ Accepts PyVal.isInt v ∧
      o' = { params := { o.params with zsize := some v, zrange := some (defaultZrange (pyNat v) x) } } := by
  rw [setZsizeHanser, succ_bind]
  constructor
  · rintro ⟨o1, h1, h2⟩
    obtain ⟨ha, rfl⟩ := (succ_setNumeric numericType_int _ _ v o o1 hf).mp h1
    refine ⟨ha, ?_⟩
    simp only [Succ, PyM.ignore, genZrange_run, hz, pyNum_of_num hx, Prod.mk.injEq, true_and] at h2
    simp only [← hz] at h2
    exact h2.symm
  · rintro ⟨h1, rfl⟩
    refine ⟨_, (succ_setNumeric numericType_int _ _ v o _ hf).mpr ⟨h1, rfl⟩, ?_⟩
    simp only [Succ, PyM.ignore, genZrange_run, hz, pyNum_of_num hx]

theorem succ_setZresSheppard (v wl ni : PyVal) (w n : PyFloat) (o o' : Obj A I) (h1 : o.params.wl = some wl)
    (h2 : o.params.ni = some ni) (h3 : wl.num? = some w) (h4 : ni.num? = some n) :
    Succ (setZresSheppard v) o o' ↔ ∃ h l x, PyFloat.div w (.fin 2) = .ok h ∧ PyFloat.div h n = .ok l ∧
      v.num? = some x ∧ PyFloat.ge x l = false ∧ PyFloat.lt (.fin 0) x = true ∧
      o' = { params := { o.params with zres := some v } } := by
  have e1 : attr o.params.ni = .ok ni := by rw [h2]; rfl
  have e2 : attr o.params.wl = .ok wl := by rw [h1]; rfl
  have hb := succ_setZresBase v o o'
  rw [Succ] at hb
  simp only [Succ, setZresSheppard, PyM.bind_apply, self, PyM.lift_apply, e2, pyNum_of_num h3]
  rcases PyFloat.div w (.fin 2) with er | q
  · simp
  · simp only [Except.ok.injEq, e1, pyNum_of_num h4]
    rcases hl : PyFloat.div q n with er | l
    · simp [hl]
    · rcases hx : v.num? with _ | x
      · simp [pyNum_none hx]
      · simp only [pyNum_of_num hx]
        by_cases hg : PyFloat.ge x l = true
        · simp [hg, hl]
        · rw [if_neg hg, hb, hx]
          simp [hl, hg]

theorem succ_setVecCorr (v : PyVal) (o o' : Obj A I) :
    Succ (setVecCorr v) o o' ↔ ∃ w, keyword VecCorr.ofString v = .ok w ∧
      o' = { params := { o.params with vecCorr := some w } } := by
  simp only [Succ, setVecCorr, PyM.bind_apply, PyM.lift_apply]
  rcases keyword VecCorr.ofString v with e | w
  · simp
  · simp only [Except.ok.injEq, exists_eq_left']
    exact ⟨fun h => (congrArg Prod.snd h).symm, fun h => h ▸ rfl⟩

theorem succ_setCondition (v : PyVal) (o o' : Obj A I) :
    Succ (setCondition v) o o' ↔ ∃ w, keyword Condition.ofString v = .ok w ∧
      o' = { params := { o.params with condition := some w } } := by
  simp only [Succ, setCondition, PyM.bind_apply, PyM.lift_apply]
  rcases keyword Condition.ofString v with e | w
  · simp
  · simp only [Except.ok.injEq, exists_eq_left']
    exact ⟨fun h => (congrArg Prod.snd h).symm, fun h => h ▸ rfl⟩

theorem succ_setDual (v : PyVal) (o o' : Obj A I) :
    Succ (setDual v) o o' ↔ ∃ b, v = .bool b ∧ o' = { params := { o.params with dual := some b } } := by
  cases v with
  | bool b =>
    simp only [PyVal.bool.injEq, exists_eq_left']
    exact ⟨fun h => (congrArg Prod.snd h).symm, fun h => h ▸ rfl⟩
  | _ => simp [Succ, setDual]

/-- Effective `zres` / `zsize` arguments. -/
def InitArgs.zresEff (a : InitArgs) : PyVal := if a.zres = .none then a.res else a.zres
@[inherit_doc InitArgs.zresEff]
def InitArgs.zsizeEff (a : InitArgs) : PyVal := if a.zsize = .none then a.size else a.zsize

theorem accepts_num {v : PyVal} (h : Accepts PyVal.isFloatOrInt v) : v.num?.isSome = true :=
  numericType_float v h.1

/-- Complete description of `HanserPSF(...)`. -/
theorem hanser_new_iff (a : InitArgs) (zr : Option ZArg) (o : HObj) : HObj.new a zr = .ok o ↔
    ∃ l x z vc cd, Accepts PyVal.isFloatOrInt a.wl ∧ Accepts PyVal.isFloatOrInt a.na ∧
      Accepts PyVal.isFloatOrInt a.ni ∧ IsAbbe a.wl a.na l ∧ a.res.num? = some x ∧ PyFloat.ge x l = false ∧
      Accepts PyVal.isInt a.size ∧ a.zresEff.num? = some z ∧ PyFloat.lt (.fin 0) z = true ∧
      Accepts PyVal.isInt a.zsizeEff ∧ keyword VecCorr.ofString a.vecCorr = .ok vc ∧
      keyword Condition.ofString a.condition = .ok cd ∧
      o = { params :=
        { wl := some a.wl, na := some a.na, ni := some a.ni, res := some a.res, size := some a.size,
          zres := some a.zresEff, zsize := some a.zsizeEff, vecCorr := some vc, condition := some cd,
          zrange := some ((zr.map ZArg.toList).getD (defaultZrange (pyNat a.zsizeEff) z)) } } := by
  have h0 : HObj.new a zr = .ok o ↔ Succ (hanserInit a zr) { params := {} } o := by
    simp only [HObj.new, construct, Succ]
    rcases hanserInit a zr { params := {} } with ⟨e | u, s⟩
    · simp
    · cases u; simp
  rw [h0]
  have hlast : ∀ (o1 o2 : HObj) (n z : PyVal) (x : PyFloat), o1.params.zsize = some n → o1.params.zres = some z →
      z.num? = some x → (Succ (match zr with | none => genZrange | some z => setZrange z) o1 o2 ↔
        o2 = { params := { o1.params with zrange := some ((zr.map ZArg.toList).getD (defaultZrange (pyNat n) x)) } }) := by
    intro o1 o2 n z x h1 h2 h3
    cases zr with
    | none => simp only [Succ, genZrange_run, h1, h2, pyNum_of_num h3, Prod.mk.injEq, true_and, Option.map_none, Option.getD_none]; exact eq_comm
    | some zr => simp only [Succ, setZrange_run, Prod.mk.injEq, true_and, Option.map_some, Option.getD_some]; exact eq_comm
  unfold hanserInit
  rw [succ_bind]
  simp only [baseInit]
  constructor
  · rintro ⟨o10, hb, hl⟩
    rw [succ_bind] at hb; obtain ⟨o1, h1, hb⟩ := hb
    rw [succ_bind] at hb; obtain ⟨o2, h2, hb⟩ := hb
    rw [succ_bind] at hb; obtain ⟨o3, h3, hb⟩ := hb
    rw [succ_bind] at hb; obtain ⟨o4, h4, hb⟩ := hb
    rw [succ_bind] at hb; obtain ⟨o5, h5, hb⟩ := hb
    rw [succ_bind] at hb; obtain ⟨o6, h6, hb⟩ := hb
    rw [succ_bind] at hb; obtain ⟨o7, h7, hb⟩ := hb
    rw [succ_bind] at hb; obtain ⟨o8, h8, h9⟩ := hb
    obtain ⟨a1, rfl⟩ := (succ_setNumeric numericType_float _ _ _ _ _ rfl).mp h1
    obtain ⟨a2, rfl⟩ := (succ_setNumeric numericType_float _ _ _ _ _ rfl).mp h2
    obtain ⟨a3, rfl⟩ := (succ_setNumeric numericType_float _ _ _ _ _ rfl).mp h3
    obtain ⟨l, x, a4, a4', a4'', rfl⟩ := (succ_setRes _ _ _ _ _ rfl rfl (accepts_num a1) (accepts_num a2)).mp h4
    obtain ⟨a5, rfl⟩ := (succ_setNumeric numericType_int _ _ _ _ _ rfl).mp h5
    obtain ⟨z, a6, a6', rfl⟩ := (succ_setZresHanser _ _ _ rfl).mp h6
    obtain ⟨a7, rfl⟩ := (succ_setZsizeHanser _ _ z _ _ rfl rfl a6).mp h7
    obtain ⟨vc, a8, rfl⟩ := (succ_setVecCorr _ _ _).mp h8
    obtain ⟨cd, a9, rfl⟩ := (succ_setCondition _ _ _).mp h9
    have := (hlast _ _ _ _ z rfl rfl a6).mp hl
    exact ⟨l, x, z, vc, cd, a1, a2, a3, a4, a4', a4'', a5, a6, a6', a7, a8, a9, this⟩
  · rintro ⟨l, x, z, vc, cd, a1, a2, a3, a4, a4', a4'', a5, a6, a6', a7, a8, a9, rfl⟩
    refine ⟨_, ?_, (hlast { params :=
        { wl := some a.wl, na := some a.na, ni := some a.ni, res := some a.res, size := some a.size,
          zres := some a.zresEff, zsize := some a.zsizeEff, vecCorr := some vc, condition := some cd,
          zrange := some (defaultZrange (pyNat a.zsizeEff) z) } } _ _ _ z rfl rfl a6).mpr rfl⟩
    rw [succ_bind]; refine ⟨_, (succ_setNumeric numericType_float _ _ _ _ _ rfl).mpr ⟨a1, rfl⟩, ?_⟩
    rw [succ_bind]; refine ⟨_, (succ_setNumeric numericType_float _ _ _ _ _ rfl).mpr ⟨a2, rfl⟩, ?_⟩
    rw [succ_bind]; refine ⟨_, (succ_setNumeric numericType_float _ _ _ _ _ rfl).mpr ⟨a3, rfl⟩, ?_⟩
    rw [succ_bind]; refine ⟨_, (succ_setRes _ _ _ _ _ rfl rfl (accepts_num a1) (accepts_num a2)).mpr ⟨l, x, a4, a4', a4'', rfl⟩, ?_⟩
    rw [succ_bind]; refine ⟨_, (succ_setNumeric numericType_int _ _ _ _ _ rfl).mpr ⟨a5, rfl⟩, ?_⟩
    rw [succ_bind]; refine ⟨_, (succ_setZresHanser _ _ _ rfl).mpr ⟨z, a6, a6', rfl⟩, ?_⟩
    rw [succ_bind]; refine ⟨_, (succ_setZsizeHanser _ _ z _ _ rfl rfl a6).mpr ⟨a7, rfl⟩, ?_⟩
    rw [succ_bind]; refine ⟨_, (succ_setVecCorr _ _ _).mpr ⟨vc, a8, rfl⟩, ?_⟩
    exact (succ_setCondition _ _ _).mpr ⟨cd, a9, rfl⟩

/-- Complete description of `SheppardPSF(...)`. -/
theorem sheppard_new_iff (a : InitArgs) (dual : PyVal) (o : SObj) : SObj.new a dual = .ok o ↔
    ∃ l x w n h zl z vc cd b, Accepts PyVal.isFloatOrInt a.wl ∧ Accepts PyVal.isFloatOrInt a.na ∧
      Accepts PyVal.isFloatOrInt a.ni ∧ IsAbbe a.wl a.na l ∧ a.res.num? = some x ∧ PyFloat.ge x l = false ∧
      Accepts PyVal.isInt a.size ∧ a.wl.num? = some w ∧ a.ni.num? = some n ∧
      PyFloat.div w (.fin 2) = .ok h ∧ PyFloat.div h n = .ok zl ∧
      a.zresEff.num? = some z ∧ PyFloat.ge z zl = false ∧ PyFloat.lt (.fin 0) z = true ∧
      Accepts PyVal.isInt a.zsizeEff ∧ keyword VecCorr.ofString a.vecCorr = .ok vc ∧
      keyword Condition.ofString a.condition = .ok cd ∧ dual = .bool b ∧
      o = { params :=
        { wl := some a.wl, na := some a.na, ni := some a.ni, res := some a.res, size := some a.size,
          zres := some a.zresEff, zsize := some a.zsizeEff, vecCorr := some vc, condition := some cd,
          dual := some b } } := by
  have h0 : SObj.new a dual = .ok o ↔ Succ (sheppardInit a dual) { params := {} } o := by
    simp only [SObj.new, construct, Succ]
    rcases sheppardInit a dual { params := {} } with ⟨e | u, s⟩
    · simp
    · cases u; simp
  rw [h0, sheppardInit, succ_bind]
  simp only [baseInit]
  constructor
  · rintro ⟨o10, hb, hl⟩
    rw [succ_bind] at hb; obtain ⟨o1, h1, hb⟩ := hb
    rw [succ_bind] at hb; obtain ⟨o2, h2, hb⟩ := hb
    rw [succ_bind] at hb; obtain ⟨o3, h3, hb⟩ := hb
    rw [succ_bind] at hb; obtain ⟨o4, h4, hb⟩ := hb
    rw [succ_bind] at hb; obtain ⟨o5, h5, hb⟩ := hb
    rw [succ_bind] at hb; obtain ⟨o6, h6, hb⟩ := hb
    rw [succ_bind] at hb; obtain ⟨o7, h7, hb⟩ := hb
    rw [succ_bind] at hb; obtain ⟨o8, h8, h9⟩ := hb
    obtain ⟨a1, rfl⟩ := (succ_setNumeric numericType_float _ _ _ _ _ rfl).mp h1
    obtain ⟨a2, rfl⟩ := (succ_setNumeric numericType_float _ _ _ _ _ rfl).mp h2
    obtain ⟨a3, rfl⟩ := (succ_setNumeric numericType_float _ _ _ _ _ rfl).mp h3
    obtain ⟨w, hw⟩ := Option.isSome_iff_exists.mp (accepts_num a1)
    obtain ⟨n, hn⟩ := Option.isSome_iff_exists.mp (accepts_num a3)
    obtain ⟨l, x, a4, a4', a4'', rfl⟩ := (succ_setRes _ _ _ _ _ rfl rfl (accepts_num a1) (accepts_num a2)).mp h4
    obtain ⟨a5, rfl⟩ := (succ_setNumeric numericType_int _ _ _ _ _ rfl).mp h5
    obtain ⟨h, zl, z, b1, b2, a6, b3, a6', rfl⟩ := (succ_setZresSheppard _ _ _ w n _ _ rfl rfl hw hn).mp h6
    obtain ⟨a7, rfl⟩ := (succ_setNumeric numericType_int _ _ _ _ _ rfl).mp h7
    obtain ⟨vc, a8, rfl⟩ := (succ_setVecCorr _ _ _).mp h8
    obtain ⟨cd, a9, rfl⟩ := (succ_setCondition _ _ _).mp h9
    obtain ⟨b, a10, rfl⟩ := (succ_setDual _ _ _).mp hl
    exact ⟨l, x, w, n, h, zl, z, vc, cd, b, a1, a2, a3, a4, a4', a4'', a5, hw, hn, b1, b2, a6, b3, a6', a7, a8, a9, a10, rfl⟩
  · rintro ⟨l, x, w, n, h, zl, z, vc, cd, b, a1, a2, a3, a4, a4', a4'', a5, hw, hn, b1, b2, a6, b3, a6', a7, a8, a9, a10, rfl⟩
    refine ⟨_, ?_, (succ_setDual dual { params :=
        { wl := some a.wl, na := some a.na, ni := some a.ni, res := some a.res, size := some a.size,
          zres := some a.zresEff, zsize := some a.zsizeEff, vecCorr := some vc, condition := some cd } } _).mpr ⟨b, a10, rfl⟩⟩
    rw [succ_bind]; refine ⟨_, (succ_setNumeric numericType_float _ _ _ _ _ rfl).mpr ⟨a1, rfl⟩, ?_⟩
    rw [succ_bind]; refine ⟨_, (succ_setNumeric numericType_float _ _ _ _ _ rfl).mpr ⟨a2, rfl⟩, ?_⟩
    rw [succ_bind]; refine ⟨_, (succ_setNumeric numericType_float _ _ _ _ _ rfl).mpr ⟨a3, rfl⟩, ?_⟩
    rw [succ_bind]; refine ⟨_, (succ_setRes _ _ _ _ _ rfl rfl (accepts_num a1) (accepts_num a2)).mpr ⟨l, x, a4, a4', a4'', rfl⟩, ?_⟩
    rw [succ_bind]; refine ⟨_, (succ_setNumeric numericType_int _ _ _ _ _ rfl).mpr ⟨a5, rfl⟩, ?_⟩
    rw [succ_bind]; refine ⟨_, (succ_setZresSheppard _ _ _ w n _ _ rfl rfl hw hn).mpr ⟨h, zl, z, b1, b2, a6, b3, a6', rfl⟩, ?_⟩
    rw [succ_bind]; refine ⟨_, (succ_setNumeric numericType_int _ _ _ _ _ rfl).mpr ⟨a7, rfl⟩, ?_⟩
    rw [succ_bind]; refine ⟨_, (succ_setVecCorr _ _ _).mpr ⟨vc, a8, rfl⟩, ?_⟩
    exact (succ_setCondition _ _ _).mpr ⟨cd, a9, rfl⟩

/-- A constructed `HanserPSF` has all its attributes. -/
theorem hanser_ready {a : InitArgs} {zr : Option ZArg} {o : HObj} (h : HObj.new a zr = .ok o) :
    Ready .hanser o.params ∧ o = { params := o.params } := by
  obtain ⟨l, x, z, vc, cd, a1, a2, a3, a4, a4', a4'', a5, a6, a6', a7, a8, a9, rfl⟩ := (hanser_new_iff a zr o).mp h
  obtain ⟨w, hw⟩ := Option.isSome_iff_exists.mp (accepts_num a1)
  obtain ⟨n, hn⟩ := Option.isSome_iff_exists.mp (accepts_num a2)
  obtain ⟨m, hm⟩ := Option.isSome_iff_exists.mp (accepts_num a3)
  exact ⟨⟨⟨_, _, rfl, hw⟩, ⟨_, _, rfl, hn⟩, ⟨_, _, rfl, hm⟩, ⟨_, _, rfl, a4'⟩, ⟨_, _, rfl, a6⟩, ⟨_, rfl, a5.1⟩,
    ⟨_, rfl, a7.1⟩, rfl, rfl, fun _ => rfl, by simp⟩, rfl⟩

/-- A constructed `SheppardPSF` has all its attributes. -/
theorem sheppard_ready {a : InitArgs} {dual : PyVal} {o : SObj} (h : SObj.new a dual = .ok o) :
    Ready .sheppard o.params ∧ o = { params := o.params } := by
  obtain ⟨l, x, w, n, h, zl, z, vc, cd, b, a1, a2, a3, a4, a4', a4'', a5, hw, hn, b1, b2, a6, b3, a6', a7, a8, a9, a10, rfl⟩ :=
    (sheppard_new_iff a dual o).mp h
  obtain ⟨m, hm⟩ := Option.isSome_iff_exists.mp (accepts_num a2)
  exact ⟨⟨⟨_, _, rfl, hw⟩, ⟨_, _, rfl, hm⟩, ⟨_, _, rfl, hn⟩, ⟨_, _, rfl, a4'⟩, ⟨_, _, rfl, a6⟩, ⟨_, rfl, a5.1⟩,
    ⟨_, rfl, a7.1⟩, rfl, rfl, by simp, fun _ => rfl⟩, rfl⟩

end PyOTF
