import Verif.Model.Repr
import Verif.Props.C34_C37_Params

/-!
# C87: the attributes of a PSF model are always valid.  C88: `repr`
-/

namespace PyOTF

/-! ## C87 -/

/-- The attributes have the documented types and ranges: `wl`, `na`, `ni` numbers that are not negative, `size` and `zsize` integers that
are not negative, `res` a number, `zres` a positive number, keywords of `vec_corr` and `condition`, and what the class adds. -/
structure ValidAttrs (c : Cls) (p : Params) : Prop where
  wl : ∃ v, p.wl = some v ∧ v.isFloatOrInt = true ∧ ¬ IsNegative v
  na : ∃ v, p.na = some v ∧ v.isFloatOrInt = true ∧ ¬ IsNegative v
  ni : ∃ v, p.ni = some v ∧ v.isFloatOrInt = true ∧ ¬ IsNegative v
  size : ∃ v n, p.size = some v ∧ DenotesNat v n
  zsize : ∃ v n, p.zsize = some v ∧ DenotesNat v n
  res : ∃ v x, p.res = some v ∧ v.num? = some x
  zres : ∃ v x, p.zres = some v ∧ v.num? = some x ∧ (x = .inf false ∨ ∃ q, x = .fin q ∧ 0 < q)
  vecCorr : ∃ v, p.vecCorr = some v
  condition : ∃ v, p.condition = some v
  zrange : c = .hanser → ∃ z, p.zrange = some z
  dual : c = .sheppard → ∃ b, p.dual = some b
  noDual : c = .hanser → p.dual = none
  noZrange : c = .sheppard → p.zrange = none

theorem zero_lt_iff (x : PyFloat) : PyFloat.lt (.fin 0) x = true ↔ x = .inf false ∨ ∃ q, x = .fin q ∧ 0 < q := by
  rcases x with q | _ | b
  · simp [PyFloat.lt]
  · simp [PyFloat.lt]
  · cases b <;> simp [PyFloat.lt]

/-- The statement keeps the property of the parameters, whether it raises or not. -/
def Pres {α A I : Type} (P : Params → Prop) (m : PyM (Obj A I) α) : Prop := ∀ o, P o.params → P (m o).2.params

section
variable {α β A I : Type} {P : Params → Prop}

theorem Pres.bind {m : PyM (Obj A I) α} {f : α → PyM (Obj A I) β} (h1 : Pres P m) (h2 : ∀ a, Pres P (f a)) : Pres P (m >>= f) := by
  intro o ho
  rw [PyM.bind_apply]
  have := h1 o ho
  rcases h : m o with ⟨e | a, s⟩
  · rw [h] at this; exact this
  · rw [h] at this; exact h2 a s this

theorem Pres.lift (x : Py α) : Pres P (PyM.lift x : PyM (Obj A I) α) := fun _ h => h
theorem Pres.raise (e : Err) : Pres P (PyM.raise e : PyM (Obj A I) α) := fun _ h => h
theorem Pres.pure (a : α) : Pres P (pure a : PyM (Obj A I) α) := fun _ h => h
theorem Pres.self (f : Params → Option α) : Pres P (self f : PyM (Obj A I) α) := fun _ h => h
theorem Pres.changed : Pres P (attributeChanged : PyM (Obj A I) Unit) := fun _ h => h
theorem Pres.store (f : Params → Params) (h : ∀ p, P p → P (f p)) : Pres P (store f : PyM (Obj A I) Unit) := fun _ hp => h _ hp
theorem Pres.ignore (e : Err) {m : PyM (Obj A I) Unit} (h : Pres P m) : Pres P (PyM.ignore e m) := by
  intro o ho
  have := h o ho
  unfold PyM.ignore
  rcases hm : m o with ⟨e' | a, s⟩
  · rw [hm] at this
    by_cases he : e' = e
    · simpa [he] using this
    · simpa [he] using this
  · rw [hm] at this; simpa using this

theorem Pres.numeric {t : PyVal → Bool} (ht : NumericType t) (rd : Params → Option PyVal) (wr : PyVal → Params → Params) (v : PyVal)
    (h : t v = true → ¬ IsNegative v → ∀ p, P p → P (wr v p)) : Pres P (setNumeric t rd wr v : PyM (Obj A I) Unit) := by
  intro o ho
  rw [setNumeric_run]
  rcases hn : numericSet t (rd o.params) v with e | _ | w
  · exact ho
  · exact ho
  · obtain ⟨rfl, h1, -⟩ := numericSet_some hn
    refine h h1 ?_ _ ho
    intro hneg
    rcases ltZero_iff (ht w h1) with h2 | h2
    · unfold numericSet at hn
      simp only [Bind.bind, Except.bind, h1, h2.1] at hn
      simp [throw, throwThe, MonadExceptOf.throw] at hn
    · exact h2.2 hneg

theorem Pres.zresBase (v : PyVal) (h : ∀ x, v.num? = some x → PyFloat.lt (.fin 0) x = true → ∀ p, P p → P { p with zres := some v }) :
    Pres P (setZresBase v : PyM (Obj A I) Unit) := by
  intro o ho
  rw [setZresBase_run]
  rcases hx : v.num? with _ | x
  · simp only [pyNum_none hx]; exact ho
  · simp only [pyNum_of_num hx]
    split_ifs with h1
    · exact h x hx h1 _ ho
    · exact ho

theorem Pres.genZrange (h : ∀ z p, P p → P { p with zrange := some z }) : Pres P (genZrange : PyM (Obj A I) Unit) :=
  .bind (.self _) fun _ => .bind (.self _) fun _ => .bind (.lift _) fun _ => .bind (.store _ (h _)) fun _ => .changed

end

/-- Every assignment keeps the attributes valid. -/
theorem valid_setAttr (A I : Type) (c : Cls) (a : Attr) (v : PyVal) : Pres (ValidAttrs c) (setAttr c a v : PyM (Obj A I) Unit) := by
  have hz : ∀ z p, ValidAttrs .hanser p → ValidAttrs .hanser { p with zrange := some z } := fun z p h =>
    { h with zrange := fun _ => ⟨z, rfl⟩, noZrange := by simp }
  have hzres : Pres (ValidAttrs c) (setZresBase v : PyM (Obj A I) Unit) :=
    .zresBase v fun x hx h1 p h => { h with zres := ⟨v, x, rfl, hx, (zero_lt_iff x).mp h1⟩ }
  have hzsize : Pres (ValidAttrs c) (setZsizeBase v : PyM (Obj A I) Unit) := by
    refine .numeric numericType_int _ _ v fun h1 h2 p h => ?_
    obtain ⟨n, hn⟩ := accepts_int_iff.mp ⟨h1, h2⟩
    exact { h with zsize := ⟨v, n, rfl, hn⟩ }
  have hres : Pres (ValidAttrs c) (setRes v : PyM (Obj A I) Unit) := by
    refine .bind (.self _) fun _ => .bind (.lift _) fun _ => .bind (.self _) fun _ => .bind (.lift _) fun _ => .bind (.lift _) fun _ =>
      .bind (.lift _) fun _ => ?_
    intro o ho
    rw [PyM.bind_apply, PyM.lift_apply]
    rcases hx : v.num? with _ | x
    · simp only [pyNum_none hx]; exact ho
    · simp only [pyNum_of_num hx]
      split_ifs with h1
      · exact ho
      · exact { ho with res := ⟨v, x, rfl, hx⟩ }
  cases a with
  | wl => exact .numeric numericType_float _ _ v fun h1 h2 p h => { h with wl := ⟨v, rfl, h1, h2⟩ }
  | na => exact .numeric numericType_float _ _ v fun h1 h2 p h => { h with na := ⟨v, rfl, h1, h2⟩ }
  | ni => exact .numeric numericType_float _ _ v fun h1 h2 p h => { h with ni := ⟨v, rfl, h1, h2⟩ }
  | size =>
    refine .numeric numericType_int _ _ v fun h1 h2 p h => ?_
    obtain ⟨n, hn⟩ := accepts_int_iff.mp ⟨h1, h2⟩
    exact { h with size := ⟨v, n, rfl, hn⟩ }
  | zsize =>
    cases c with
    | hanser => exact .bind hzsize fun _ => .ignore _ (.genZrange hz)
    | sheppard => exact hzsize
  | res => exact hres
  | zres =>
    cases c with
    | hanser => exact .bind hzres fun _ => .ignore _ (.genZrange hz)
    | sheppard =>
      refine .bind (.self _) fun _ => .bind (.lift _) fun _ => .bind (.lift _) fun _ => .bind (.self _) fun _ => .bind (.lift _) fun _ =>
        .bind (.lift _) fun _ => .bind (.lift _) fun _ => ?_
      intro o ho
      split_ifs
      · exact ho
      · exact hzres o ho
  | vecCorr => exact .bind (.lift _) fun w => .bind (.store _ fun p h => { h with vecCorr := ⟨w, rfl⟩ }) fun _ => .changed
  | condition => exact .bind (.lift _) fun w => .bind (.store _ fun p h => { h with condition := ⟨w, rfl⟩ }) fun _ => .changed
  | dual =>
    cases c with
    | hanser => exact .pure _
    | sheppard =>
      cases v with
      | bool b => exact .bind (.store _ fun p h => { h with dual := fun _ => ⟨b, rfl⟩, noDual := by simp }) fun _ => .changed
      | _ => exact .raise _

/-- C87: after every successful constructor call and every history of assignments (accepted or rejected), pupils and reads, the attributes of
a `HanserPSF` are valid. -/
theorem C87_hanser_valid (a : InitArgs) (zr : Option ZArg) (o : HObj) (ho : HObj.new a zr = .ok o) (ops : List HOp) :
    ValidAttrs .hanser (runHistory HObj.step o ops).2.params := by
  have h0 : ValidAttrs .hanser o.params := by
    obtain ⟨l, x, z, vc, cd, a1, a2, a3, -, a4', -, a5, a6, a6', a7, -, -, rfl⟩ := (hanser_new_iff a zr o).mp ho
    obtain ⟨n, hn⟩ := accepts_int_iff.mp a5
    obtain ⟨m, hm⟩ := accepts_int_iff.mp a7
    exact ⟨⟨_, rfl, a1⟩, ⟨_, rfl, a2⟩, ⟨_, rfl, a3⟩, ⟨_, n, rfl, hn⟩, ⟨_, m, rfl, hm⟩, ⟨_, x, rfl, a4'⟩,
      ⟨_, z, rfl, a6, (zero_lt_iff z).mp a6'⟩, ⟨_, rfl⟩, ⟨_, rfl⟩, fun _ => ⟨_, rfl⟩, by simp, fun _ => rfl, by simp⟩
  rw [(hrel_reachable ho ops).params]
  have key : ∀ (ops : List HOp) (s : HSpec), ValidAttrs .hanser s.params → ValidAttrs .hanser (runHistory HSpec.step s ops).2.params := by
    intro ops
    induction ops with
    | nil => exact fun s h => h
    | cons op ops ih =>
      intro s hs
      refine ih _ ?_
      cases op with
      | set at' v =>
        simp only [outAs, HSpec.set]
        have := valid_setAttr (Arr ℂ) (Arr ℝ) .hanser at' v { params := s.params } hs
        split
        · exact hs
        · exact this
      | applyPupil P =>
        simp only [outAs, HSpec.applyPupil]
        split <;> exact hs
      | setZrange z => exact { hs with zrange := fun _ => ⟨_, rfl⟩, noZrange := by simp }
      | _ => exact hs
  exact key ops _ h0

/-- C87: the same for a `SheppardPSF`. -/
theorem C87_sheppard_valid (a : InitArgs) (dual : PyVal) (o : SObj) (ho : SObj.new a dual = .ok o) (ops : List SOp) :
    ValidAttrs .sheppard (runHistory SObj.step o ops).2.params := by
  have h0 : ValidAttrs .sheppard o.params := by
    obtain ⟨l, x, w, n, h, zl, z, vc, cd, b, a1, a2, a3, a4, a4', a4'', a5, hw, hn, b1, b2, a6, b3, a6', a7, a8, a9, a10, rfl⟩ :=
      (sheppard_new_iff a dual o).mp ho
    obtain ⟨n, hn⟩ := accepts_int_iff.mp a5
    obtain ⟨m, hm⟩ := accepts_int_iff.mp a7
    exact ⟨⟨_, rfl, a1⟩, ⟨_, rfl, a2⟩, ⟨_, rfl, a3⟩, ⟨_, n, rfl, hn⟩, ⟨_, m, rfl, hm⟩, ⟨_, x, rfl, a4'⟩,
      ⟨_, z, rfl, a6, (zero_lt_iff z).mp a6'⟩, ⟨_, rfl⟩, ⟨_, rfl⟩, by simp, fun _ => ⟨_, rfl⟩, by simp, fun _ => rfl⟩
  rw [(C32_sheppard_coherent a dual o ho ops).2]
  have key : ∀ (ops : List SOp) (p : Params), ValidAttrs .sheppard p → ValidAttrs .sheppard (runHistory SSpec.step p ops).2 := by
    intro ops
    induction ops with
    | nil => exact fun s h => h
    | cons op ops ih =>
      intro p hp
      refine ih _ ?_
      cases op with
      | set at' v =>
        have := valid_setAttr (Arr (Option ℂ)) (Arr (Option ℝ)) .sheppard at' v { params := p } hp
        simp only [SSpec.step]
        split
        · exact hp
        · exact this
      | _ => exact hp
  exact key ops _ h0

/-! ## C88 -/

theorem keyword_vec_str (v : VecCorr) : keyword VecCorr.ofString (.str v.str) = .ok v := by cases v <;> rfl
theorem keyword_cond_str (v : Condition) : keyword Condition.ofString (.str v.str) = .ok v := by cases v <;> rfl

/-- Which pupil is in force is not part of the parameters: no pupil was applied in the history. -/
def NoPupil (ops : List HOp) : Prop := ∀ op ∈ ops, ∀ P, op ≠ .applyPupil P

theorem noPupil_run (ops : List HOp) : ∀ s : HSpec, s.pupil = none → NoPupil ops → (runHistory HSpec.step s ops).2.pupil = none := by
  induction ops with
  | nil => exact fun s h _ => h
  | cons op ops ih =>
    intro s hs hops
    refine ih _ ?_ fun op' h' => hops op' (by simp [h'])
    cases op with
    | set a v =>
      simp only [HSpec.step, outAs, HSpec.set]
      split
      · exact hs
      · simp only []; split_ifs <;> simp [hs]
    | applyPupil P => exact absurd rfl (hops _ (by simp) P)
    | setZrange z => rfl
    | _ => exact hs

theorem baseRepr_valid {c : Cls} {p : Params} (h : ValidAttrs c p) : ∃ a wl na ni size zsize res zres vc cd, baseRepr p = .ok a ∧
    a = ⟨wl, na, ni, res, size, zres, zsize, .str vc.str, .str cd.str⟩ ∧ p = { p with
      wl := some wl, na := some na, ni := some ni, size := some size, zsize := some zsize, res := some res, zres := some zres
      vecCorr := some vc, condition := some cd } := by
  obtain ⟨wl, h1, -⟩ := h.wl
  obtain ⟨na, h2, -⟩ := h.na
  obtain ⟨ni, h3, -⟩ := h.ni
  obtain ⟨size, -, h4, -⟩ := h.size
  obtain ⟨zsize, -, h5, -⟩ := h.zsize
  obtain ⟨res, -, h6, -⟩ := h.res
  obtain ⟨zres, -, h7, -⟩ := h.zres
  obtain ⟨vc, h8⟩ := h.vecCorr
  obtain ⟨cd, h9⟩ := h.condition
  refine ⟨_, wl, na, ni, size, zsize, res, zres, vc, cd, ?_, rfl, ?_⟩
  · simp only [baseRepr, h1, h2, h3, h4, h5, h6, h7, h8, h9, attr]; rfl
  · cases p; simp_all

theorem nonneg_of_not_negative {v : PyVal} {q : ℚ} (h : Denotes v q) (hn : ¬ IsNegative v) : 0 ≤ q := by
  by_contra hc
  exact hn (Or.inr ⟨q, h, not_le.mp hc⟩)

theorem eff_of_num {v w : PyVal} (h : v.num?.isSome = true) : (if v = .none then w else v) = v := by
  rw [if_neg]; rintro rfl; simp [PyVal.num?] at h

/-- C88: after any history, evaluating `repr(model)` of a `HanserPSF` succeeds exactly when the current `res` is below the Abbe limit of the
current `wl` and `na` (the constructor re-validates what the `wl` and `na` setters do not), and the new model then has exactly the same
parameters, custom planes included.  (Values other than `nan` and the infinities for `wl`, `na`, `res`.) -/
theorem C88_hanser_repr (a : InitArgs) (zr : Option ZArg) (o : HObj) (ho : HObj.new a zr = .ok o) (ops : List HOp) (o' : HObj)
    (ho' : o' = (runHistory HObj.step o ops).2) : ∃ b z, hanserRepr o'.params = .ok (b, z) ∧
    (∀ o2, HObj.new b z = .ok o2 → o2.params = o'.params) ∧
    ∀ w n r, (∃ v, o'.params.wl = some v ∧ Denotes v w) → (∃ v, o'.params.na = some v ∧ Denotes v n) →
      (∃ v, o'.params.res = some v ∧ Denotes v r) → ((∃ o2, HObj.new b z = .ok o2) ↔ 0 < w ∧ 0 < n ∧ r < w / (2 * n)) := by
  have hv := C87_hanser_valid a zr o ho ops
  rw [← ho'] at hv
  generalize o'.params = p at hv
  obtain ⟨b, wl, na, ni, size, zsize, res, zres, vc, cd, hb, rfl, hp⟩ := baseRepr_valid hv
  obtain ⟨z, hz⟩ := hv.zrange rfl
  have hw := hv.wl; have hn := hv.na; have hi := hv.ni; have hs := hv.size; have hzs := hv.zsize; have hr := hv.res; have hzr := hv.zres
  rw [hp] at hw hn hi hs hzs hr hzr
  obtain ⟨_, ⟨⟩, hw⟩ := hw
  obtain ⟨_, ⟨⟩, hn⟩ := hn
  obtain ⟨_, ⟨⟩, hi⟩ := hi
  obtain ⟨_, _, ⟨⟩, hs⟩ := hs
  obtain ⟨_, _, ⟨⟩, hzs⟩ := hzs
  obtain ⟨_, x, ⟨⟩, hr⟩ := hr
  obtain ⟨_, y, ⟨⟩, hzr, hzr'⟩ := hzr
  have hzres : (InitArgs.zresEff ⟨wl, na, ni, res, size, zres, zsize, .str vc.str, .str cd.str⟩) = zres := eff_of_num (by rw [hzr]; rfl)
  have hzsize : (InitArgs.zsizeEff ⟨wl, na, ni, res, size, zres, zsize, .str vc.str, .str cd.str⟩) = zsize :=
    eff_of_num (by rcases hzs with rfl | ⟨rfl, -⟩ | ⟨rfl, -⟩ <;> rfl)
  refine ⟨⟨wl, na, ni, res, size, zres, zsize, .str vc.str, .str cd.str⟩, some (.seq z), ?_, ?_, ?_⟩
  · simp only [hanserRepr, hb, hz, attr]; rfl
  · intro o2 h2
    obtain ⟨l, x', z', vc', cd', -, -, -, -, -, -, -, -, -, -, k1, k2, rfl⟩ := (hanser_new_iff _ _ o2).mp h2
    rw [keyword_vec_str] at k1; cases k1
    rw [keyword_cond_str] at k2; cases k2
    rw [hzres, hzsize]
    have hdual : p.dual = none := hv.noDual rfl
    rw [hp, hz, hdual]
    rfl
  · rintro w n r ⟨_, e1, d1⟩ ⟨_, e2, d2⟩ ⟨_, e3, d3⟩
    rw [hp] at e1 e2 e3
    cases e1; cases e2; cases e3
    constructor
    · rintro ⟨o2, h2⟩
      obtain ⟨l, x', z', vc', cd', g1, g2, -, g4, g5, g6, -⟩ := (hanser_new_iff _ _ o2).mp h2
      obtain ⟨hw0, hn0, rfl⟩ := (isAbbe_iff d1 d2 l).mp g4
      have e : x' = .fin r := by unfold Denotes at d3; simp only [d3] at g5; cases g5; rfl
      subst e
      exact ⟨lt_of_le_of_ne (nonneg_of_not_negative d1 hw.2) (Ne.symm hw0), lt_of_le_of_ne (nonneg_of_not_negative d2 hn.2) (Ne.symm hn0),
        (ge_fin _ _).mp g6⟩
    · rintro ⟨hw0, hn0, hlt⟩
      exact ⟨_, (hanser_new_iff _ _ _).mpr ⟨.fin (w / (2 * n)), .fin r, y, vc, cd, hw, hn, hi, (isAbbe_iff d1 d2 _).mpr ⟨hw0.ne', hn0.ne', rfl⟩,
        d3, (ge_fin _ _).mpr hlt, accepts_int_iff.mpr ⟨_, hs⟩, by rw [hzres]; exact hzr, (zero_lt_iff y).mpr hzr',
        by rw [hzsize]; exact accepts_int_iff.mpr ⟨_, hzs⟩, keyword_vec_str vc, keyword_cond_str cd, rfl⟩⟩

/-- C88: the outputs of the rebuilt model are those of the original if no pupil was applied to it, and those of the unaberrated model
otherwise: `repr` does not show a pupil. -/
theorem C88_hanser_outputs (a : InitArgs) (zr : Option ZArg) (o : HObj) (ho : HObj.new a zr = .ok o) (ops : List HOp) (o' : HObj)
    (ho' : o' = (runHistory HObj.step o ops).2) (b : InitArgs) (z : Option ZArg) (hb : hanserRepr o'.params = .ok (b, z)) (o2 : HObj)
    (h2 : HObj.new b z = .ok o2) :
    (HObj.getPSFa o2).1 = hanserGenPsf o'.params none ∧
    (NoPupil ops → (HObj.getPSFa o2).1 = (HObj.getPSFa o').1 ∧ (HObj.getOTFa o2).1 = (HObj.getOTFa o').1 ∧
      (HObj.getPSFi o2).1 = (HObj.getPSFi o').1 ∧ (HObj.getOTFi o2).1 = (HObj.getOTFi o').1) := by
  obtain ⟨b', z', hb', hp, -⟩ := C88_hanser_repr a zr o ho ops o' ho'
  rw [hb] at hb'; cases hb'
  have hp := hp o2 h2
  have r1 := hrel_reachable ho ops
  rw [← ho'] at r1
  have r2 := hrel_reachable h2 []
  simp only [runHistory] at r2
  refine ⟨?_, fun hno => ?_⟩
  · rw [(getPSFa_rel r2).1, ← hp]; rfl
  · have e : (runHistory HSpec.step ⟨o.params, none⟩ ops).2 = ⟨o2.params, none⟩ := by
      have e1 := noPupil_run ops ⟨o.params, none⟩ rfl hno
      have e2 := r1.params
      rw [hp, e2]
      rcases h : (runHistory HSpec.step ⟨o.params, none⟩ ops).2 with ⟨q, u⟩
      rw [h] at e1; simp only at e1; rw [e1]
    rw [e] at r1
    exact ⟨(getPSFa_rel r2).1.trans (getPSFa_rel r1).1.symm, (getOTFa_rel r2).1.trans (getOTFa_rel r1).1.symm,
      (getPSFi_rel r2).1.trans (getPSFi_rel r1).1.symm, (getOTFi_rel r2).1.trans (getOTFi_rel r1).1.symm⟩

/-- C88: for a `SheppardPSF`, evaluating `repr(model)` in addition needs the current `zres` to be below `wl / (2 ni)`; the new model has the
same parameters and outputs. -/
theorem C88_sheppard_repr (a : InitArgs) (dual : PyVal) (o : SObj) (ho : SObj.new a dual = .ok o) (ops : List SOp) (o' : SObj)
    (ho' : o' = (runHistory SObj.step o ops).2) : ∃ b d, sheppardRepr o'.params = .ok (b, d) ∧
    (∀ o2, SObj.new b d = .ok o2 → o2.params = o'.params ∧ (SObj.getPSFa o2).1 = (SObj.getPSFa o').1 ∧
      (SObj.getOTFa o2).1 = (SObj.getOTFa o').1 ∧ (SObj.getPSFi o2).1 = (SObj.getPSFi o').1 ∧ (SObj.getOTFi o2).1 = (SObj.getOTFi o').1) ∧
    ∀ w n i r z, (∃ v, o'.params.wl = some v ∧ Denotes v w) → (∃ v, o'.params.na = some v ∧ Denotes v n) →
      (∃ v, o'.params.ni = some v ∧ Denotes v i) → (∃ v, o'.params.res = some v ∧ Denotes v r) →
      (∃ v, o'.params.zres = some v ∧ Denotes v z) →
      ((∃ o2, SObj.new b d = .ok o2) ↔ 0 < w ∧ 0 < n ∧ r < w / (2 * n) ∧ 0 < i ∧ z < w / (2 * i)) := by
  have hv := C87_sheppard_valid a dual o ho ops
  rw [← ho'] at hv
  have out : ∀ o2 : SObj, ∀ b d, SObj.new b d = .ok o2 → o2.params = o'.params → o2.params = o'.params ∧
      (SObj.getPSFa o2).1 = (SObj.getPSFa o').1 ∧
      (SObj.getOTFa o2).1 = (SObj.getOTFa o').1 ∧ (SObj.getPSFi o2).1 = (SObj.getPSFi o').1 ∧ (SObj.getOTFi o2).1 = (SObj.getOTFi o').1 := by
    intro o2 b d h2 hp
    obtain ⟨g1, g2, g3, g4⟩ := C32_outputs_from_params a dual o ho ops o' ho'
    obtain ⟨k1, k2, k3, k4⟩ := C32_outputs_from_params b d o2 h2 [] o2 rfl
    rw [hp] at k1 k2 k3 k4
    exact ⟨hp, k2.trans g2.symm, k1.trans g1.symm, k3.trans g3.symm, k4.trans g4.symm⟩
  generalize o'.params = p at hv out
  obtain ⟨b, wl, na, ni, size, zsize, res, zres, vc, cd, hb, rfl, hp⟩ := baseRepr_valid hv
  obtain ⟨dd, hd⟩ := hv.dual rfl
  have hw := hv.wl; have hn := hv.na; have hi := hv.ni; have hs := hv.size; have hzs := hv.zsize; have hr := hv.res; have hzr := hv.zres
  rw [hp] at hw hn hi hs hzs hr hzr
  obtain ⟨_, ⟨⟩, hw⟩ := hw
  obtain ⟨_, ⟨⟩, hn⟩ := hn
  obtain ⟨_, ⟨⟩, hi⟩ := hi
  obtain ⟨_, _, ⟨⟩, hs⟩ := hs
  obtain ⟨_, _, ⟨⟩, hzs⟩ := hzs
  obtain ⟨_, x, ⟨⟩, hr⟩ := hr
  obtain ⟨_, y, ⟨⟩, hzr, hzr'⟩ := hzr
  have hzres : (InitArgs.zresEff ⟨wl, na, ni, res, size, zres, zsize, .str vc.str, .str cd.str⟩) = zres := eff_of_num (by rw [hzr]; rfl)
  have hzsize : (InitArgs.zsizeEff ⟨wl, na, ni, res, size, zres, zsize, .str vc.str, .str cd.str⟩) = zsize :=
    eff_of_num (by rcases hzs with rfl | ⟨rfl, -⟩ | ⟨rfl, -⟩ <;> rfl)
  refine ⟨⟨wl, na, ni, res, size, zres, zsize, .str vc.str, .str cd.str⟩, .bool dd, ?_, ?_, ?_⟩
  · simp only [sheppardRepr, hb, hd, attr]; rfl
  · intro o2 h2
    refine out o2 _ _ h2 ?_
    obtain ⟨_, _, _, _, _, _, _, vc', cd', b', -, -, -, -, -, -, -, -, -, -, -, -, -, -, -, k1, k2, k3, rfl⟩ := (sheppard_new_iff _ _ o2).mp h2
    rw [keyword_vec_str] at k1; cases k1
    rw [keyword_cond_str] at k2; cases k2
    cases k3
    rw [hzres, hzsize, hp, hd, hv.noZrange rfl]
  · rintro w n i r z ⟨_, e1, d1⟩ ⟨_, e2, d2⟩ ⟨_, e4, d4⟩ ⟨_, e3, d3⟩ ⟨_, e5, d5⟩
    rw [hp] at e1 e2 e3 e4 e5
    cases e1; cases e2; cases e3; cases e4; cases e5
    have ey : y = .fin z := by unfold Denotes at d5; rw [d5] at hzr; cases hzr; rfl
    subst ey
    constructor
    · rintro ⟨o2, h2⟩
      obtain ⟨l, x', w', n', q, zl, z', vc', cd', b', g1, g2, -, g4, g5, g6, -, hw', hn', b1, b2, g7, b3, -⟩ := (sheppard_new_iff _ _ o2).mp h2
      obtain ⟨hw0, hn0, rfl⟩ := (isAbbe_iff d1 d2 l).mp g4
      have e : x' = .fin r := by unfold Denotes at d3; simp only [d3] at g5; cases g5; rfl
      have e' : w' = .fin w := by unfold Denotes at d1; simp only [d1] at hw'; cases hw'; rfl
      have e'' : n' = .fin i := by unfold Denotes at d4; simp only [d4] at hn'; cases hn'; rfl
      have e3 : z' = .fin z := by rw [hzres] at g7; unfold Denotes at d5; rw [d5] at g7; cases g7; rfl
      subst e e' e'' e3
      simp only [PyFloat.div] at b1
      norm_num at b1
      cases b1
      simp only [PyFloat.div] at b2
      split_ifs at b2 with hi0
      cases b2
      have h3 := (ge_fin _ _).mp b3
      rw [div_div] at h3
      exact ⟨lt_of_le_of_ne (nonneg_of_not_negative d1 hw.2) (Ne.symm hw0), lt_of_le_of_ne (nonneg_of_not_negative d2 hn.2) (Ne.symm hn0),
        (ge_fin _ _).mp g6, lt_of_le_of_ne (nonneg_of_not_negative d4 hi.2) (Ne.symm hi0), h3⟩
    · rintro ⟨hw0, hn0, hlt, hi0, hz⟩
      refine ⟨_, (sheppard_new_iff _ _ _).mpr ⟨.fin (w / (2 * n)), .fin r, .fin w, .fin i, .fin (w / 2), .fin (w / 2 / i), .fin z, vc, cd, dd,
        hw, hn, hi, (isAbbe_iff d1 d2 _).mpr ⟨hw0.ne', hn0.ne', rfl⟩,
        d3, (ge_fin _ _).mpr hlt, accepts_int_iff.mpr ⟨_, hs⟩, d1, d4, by simp [PyFloat.div], by simp [PyFloat.div, hi0.ne'],
        by rw [hzres]; exact d5, (ge_fin _ _).mpr (by rw [div_div]; exact hz), (zero_lt_iff _).mpr hzr',
        by rw [hzsize]; exact accepts_int_iff.mpr ⟨_, hzs⟩, keyword_vec_str vc, keyword_cond_str cd, rfl, rfl⟩⟩

/-- Non-vacuity: the demo model and its attributes; a history after which `repr` cannot be evaluated exists (`wl = 100`). -/
example : ∃ o, HObj.new demoArgs none = .ok o ∧ (∃ b z o2, hanserRepr o.params = .ok (b, z) ∧ HObj.new b z = .ok o2) ∧
    ∃ o' b z, o' = (runHistory HObj.step o [.set .wl (.int 100)]).2 ∧ hanserRepr o'.params = .ok (b, z) ∧ ¬ ∃ o2, HObj.new b z = .ok o2 := by
  obtain ⟨o, ho⟩ := demoObj
  obtain ⟨h1, h2, -, h4, -⟩ := C34_hanser_attributes _ _ _ ho
  refine ⟨o, ho, ?_, ?_⟩
  · obtain ⟨b, z, hb, -, hiff⟩ := C88_hanser_repr _ _ _ ho [] o rfl
    obtain ⟨o2, h⟩ := (hiff 520 (17/20) 130 ⟨_, h1, by simp [demoArgs, Denotes, PyVal.num?]⟩ ⟨_, h2, by simp [demoArgs, Denotes, PyVal.num?]⟩
      ⟨_, h4, by simp [demoArgs, Denotes, PyVal.num?]⟩).mpr (by norm_num)
    exact ⟨b, z, o2, hb, h⟩
  · obtain ⟨b, z, hb, -, hiff⟩ := C88_hanser_repr _ _ _ ho [.set .wl (.int 100)] _ rfl
    refine ⟨_, b, z, rfl, hb, ?_⟩
    have e : (runHistory HObj.step o [.set .wl (.int 100)]).2 = { params := { o.params with wl := some (.int 100) } } := by
      show (setNumeric _ _ _ _ o).2 = _
      rw [setNumeric_run, h1]
      rfl
    rw [hiff 100 (17/20) 130 ⟨.int 100, by rw [e], by simp [Denotes, PyVal.num?]⟩
      ⟨demoArgs.na, by rw [e]; exact h2, by simp [demoArgs, Denotes, PyVal.num?]⟩
      ⟨demoArgs.res, by rw [e]; exact h4, by simp [demoArgs, Denotes, PyVal.num?]⟩]
    norm_num

end PyOTF
