import Verif.Lemmas.MicroStep

/-!
# Microscopes by reference and with values: constructors
-/

namespace PyOTF

theorem copyArr_spec {α : Type} (l : List α) (x : Option ℕ) (hx : ∀ r, x = some r → ∃ a, l[r]? = some a) :
    (∀ (r : ℕ) (a : α), l[r]? = some a → (World.copyArr l x).2[r]? = some a) ∧ (World.copyArr l x).1.bind ((World.copyArr l x).2[·]?) = x.bind (l[·]?) ∧
      (∀ r, (World.copyArr l x).1 = some r → l.length ≤ r ∧ r < (World.copyArr l x).2.length) := by
  rcases x with _ | r
  · exact ⟨fun _ _ h => h, rfl, by simp [World.copyArr]⟩
  · obtain ⟨a, ha⟩ := hx r rfl
    simp only [World.copyArr, ha]
    refine ⟨fun q b hq => append_ext _ _ _ _ hq, by simp [ha], fun q hq => ?_⟩
    obtain rfl := Option.some.inj hq
    simp

theorem bind_ext {α : Type} {l l' : List α} (h : ∀ (r : ℕ) (a : α), l[r]? = some a → l'[r]? = some a) (x : Option ℕ) (hx : ∀ r, x = some r → r < l.length) :
    x.bind (l'[·]?) = x.bind (l[·]?) := by
  rcases x with _ | r
  · rfl
  · have := h r _ (List.getElem?_eq_getElem (hx r rfl))
    simp only [Option.bind_some, this, List.getElem?_eq_getElem (hx r rfl)]

/-- `copy.deepcopy`: a model with the same attributes and the same contents of caches, in new arrays. -/
theorem deepcopy_spec {w : World} {h : Heap} (hw : RelW w h) {k : ℕ} {o : RObj} (ho : w.objs[k]? = some o) :
    ∃ w' o', World.deepcopy k w = (.ok w.objs.length, w') ∧ w'.objs = w.objs ++ [o'] ∧ RelW w' (h ++ [o.view w.mem]) ∧ w.mem.Ext w'.mem ∧
      w.mem.axis.length ≤ o'.zref ∧ (∀ r, o'.obj.psfi = some r → w.mem.real.length ≤ r) ∧ (∀ r, o'.HoldsC r → w.mem.cplx.length ≤ r) := by
  have hv := hw.valid o (List.mem_of_getElem? ho)
  obtain ⟨z, hz⟩ := hv.zref
  obtain ⟨a1, a2, a3⟩ := copyArr_spec w.mem.cplx o.obj.psfa hv.psfa
  obtain ⟨b1, b2, b3⟩ := copyArr_spec (World.copyArr w.mem.cplx o.obj.psfa).2 o.obj.otfa fun r hr => (hv.otfa r hr).imp fun a ha => a1 _ _ ha
  obtain ⟨c1, c2, c3⟩ := copyArr_spec (World.copyArr (World.copyArr w.mem.cplx o.obj.psfa).2 o.obj.otfa).2 o.obj.otfi fun r hr => (hv.otfi r hr).imp fun a ha => b1 _ _ (a1 _ _ ha)
  obtain ⟨d1, d2, d3⟩ := copyArr_spec w.mem.real o.obj.psfi hv.psfi
  set P := World.copyArr w.mem.cplx o.obj.psfa
  set Q := World.copyArr P.2 o.obj.otfa
  set R := World.copyArr Q.2 o.obj.otfi
  set S := World.copyArr w.mem.real o.obj.psfi
  have hlt : ∀ {α : Type} {l l' : List α}, (∀ (r : ℕ) (a : α), l[r]? = some a → l'[r]? = some a) → l.length ≤ l'.length := by
    intro α l l' hl
    by_contra hc
    push Not at hc
    have := hl l'.length _ (List.getElem?_eq_getElem hc)
    simp at this
  have he : w.mem.Ext ⟨R.2, S.2, w.mem.axis ++ [z]⟩ := ⟨fun r a x => c1 _ _ (b1 _ _ (a1 _ _ x)), d1, fun _ _ => append_ext _ _ _ _⟩
  set o' : RObj := ⟨{ o.obj with psfa := P.1, otfa := Q.1, psfi := S.1, otfi := R.1 }, w.mem.axis.length⟩ with ho'
  have e1 : P.1.bind (R.2[·]?) = o.obj.psfa.bind (w.mem.cplx[·]?) := by
    rw [← a2]; exact bind_ext (fun r a x => c1 _ _ (b1 _ _ x)) _ fun r hr => (a3 r hr).2
  have e2 : Q.1.bind (R.2[·]?) = o.obj.otfa.bind (w.mem.cplx[·]?) := by
    rw [bind_ext c1 Q.1 fun r hr => (b3 r hr).2, b2]
    refine bind_ext a1 _ fun r hr => ?_
    obtain ⟨a, ha⟩ := hv.otfa r hr
    exact (List.getElem?_eq_some_iff.mp ha).1
  have e3 : R.1.bind (R.2[·]?) = o.obj.otfi.bind (w.mem.cplx[·]?) := by
    rw [c2]
    refine bind_ext (fun r a x => b1 _ _ (a1 _ _ x)) _ fun r hr => ?_
    obtain ⟨a, ha⟩ := hv.otfi r hr
    exact (List.getElem?_eq_some_iff.mp ha).1
  have hval : o'.Valid ⟨R.2, S.2, w.mem.axis ++ [z]⟩ := by
    refine ⟨⟨z, by simp [ho']⟩, fun r hr => ?_, fun r hr => ?_, fun r hr => ?_, fun r hr => ?_⟩
    · exact ⟨_, List.getElem?_eq_getElem ((a3 r hr).2.trans_le (hlt fun r a x => c1 _ _ (b1 _ _ x)))⟩
    · exact ⟨_, List.getElem?_eq_getElem ((b3 r hr).2.trans_le (hlt c1))⟩
    · exact ⟨_, List.getElem?_eq_getElem (d3 r hr).2⟩
    · exact ⟨_, List.getElem?_eq_getElem (c3 r hr).2⟩
  have hview : o'.view ⟨R.2, S.2, w.mem.axis ++ [z]⟩ = o.view w.mem := by
    simp [ho', RObj.view, e1, e2, e3, d2, hz]
  refine ⟨{ mem := ⟨R.2, S.2, w.mem.axis ++ [z]⟩, objs := w.objs ++ [o'] }, o', ?_, rfl, ?_, he, le_rfl, fun r hr => (d3 r hr).1, fun r hr => ?_⟩
  · simp only [World.deepcopy, ho, World.copyArr, hz]
    rfl
  · rw [← hview]; exact (hw.alloc he).push hval
  · rcases hr with hr | hr | hr
    · exact (a3 r hr).1
    · exact (hlt a1).trans (b3 r hr).1
    · exact (hlt fun r a x => b1 _ _ (a1 _ _ x)).trans (c3 r hr).1

theorem keptW_push {w w' : World} {o : RObj} (h : w'.objs = w.objs ++ [o]) (h1 : ∀ r, o.obj.psfi = some r → w.mem.real.length ≤ r) (h2 : ∀ r, o.HoldsC r → w.mem.cplx.length ≤ r) :
    KeptW w w' := by
  constructor <;>
  · rintro p ⟨x, hx, hp⟩
    rw [h] at hx
    rcases List.mem_append.mp hx with hx | hx
    · exact .inl ⟨x, hx, hp⟩
    · obtain rfl : x = o := by simpa using hx
      exact .inr (by first | exact h1 p hp | exact h2 p hp)

/-- The keyword `zrange` with references and with values. -/
def ZRel (w : Mem) (z : ZGiven) (v : Option ZArg) : Prop := (z = .ofOption v) ∨ ∃ p l, z = .array p ∧ v = some (.seq l) ∧ w.axis[p]? = some l

theorem ZRel.content {w : Mem} {z : ZGiven} {v : Option ZArg} (h : ZRel w z v) : z.content w = v := by
  rcases h with rfl | ⟨p, l, rfl, rfl, hp⟩
  · cases v <;> rfl
  · simp [ZGiven.content, List.getD_eq_getElem?_getD, hp]

theorem ZRel.new {w : World} {h : Heap} (hw : RelW w h) {z : ZGiven} {v : Option ZArg} (hz : ZRel w.mem z v) (a : InitArgs) :
    SimW w h (fun _ a b => a = b) (World.new a z) (VProg.newObj a v) := by
  rcases hz with rfl | ⟨p, l, rfl, rfl, hp⟩
  · exact SimW.new hw a v
  · exact SimW.newWith hw a hp

theorem hanser_lower : "hanser".toLower = "hanser" := by decide +kernel

/-- The arguments of the model. -/
def microInit (a : MicroArgs) (size res : PyVal) : InitArgs :=
  { wl := a.wl, na := a.na, ni := a.ni, res := res, size := size, zres := a.kw.zres.getD a.pixelSize, zsize := a.kw.zsize.getD a.size
    vecCorr := a.kw.vecCorr.getD (.str "none"), condition := a.kw.condition.getD (.str "sine") }

theorem newBase_run (a : MicroArgs) (z : ZGiven) (w : World) : World.newBase a z w =
    match numericSet PyVal.isInt none a.oversample with
    | .error e => (.error e, w)
    | .ok x => match oversampled (x.getD a.oversample) a.size a.pixelSize with
      | .error e => (.error e, w)
      | .ok (size, res) => if a.kw.dual.isSome = true then (.error .typeError, w) else
        match World.new (microInit a size res) z w with
        | (.error e, w') => (.error e, w')
        | (.ok k, w') => (.ok ⟨x.getD a.oversample, ⟨a.na, a.ni, a.wl, a.kw.zres.getD a.pixelSize, a.kw.zsize.getD a.size, size, res, { a.kw with zrange := z.content w.mem }⟩,
            a.pixelSize, k, .widefield, none, none⟩, w') := by
  simp only [World.newBase, PyM.bind_apply, PyM.lift_apply, PyM.get_apply]
  rcases numericSet PyVal.isInt none a.oversample with e | x
  · rfl
  simp only
  rcases oversampled (x.getD a.oversample) a.size a.pixelSize with e | ⟨size, res⟩
  · rfl
  simp only
  by_cases hd : a.kw.dual.isSome = true
  · rw [if_pos hd, if_pos hd]; rfl
  · rw [if_neg hd, if_neg hd, PyM.bind_apply]
    unfold microInit
    generalize World.new _ z w = q
    rcases q with ⟨e | k, w'⟩ <;> rfl

/-- The constructor of the base class. -/
theorem newBase_spec {w : World} {h : Heap} (hw : RelW w h) {z : ZGiven} {v : Option ZArg} (hz : ZRel w.mem z v) (a : MicroArgs) :
    match Micro.newWidefield { a with model := .str "hanser", kw := { a.kw with zrange := v } } with
    | .error e => (World.newBase a z w).1 = .error e
    | .ok m => ∃ r w' o, World.newBase a z w = (.ok r, w') ∧ m.model = .hanser o ∧ m.kind = .widefield ∧ m.psf = none ∧ m.otf = none ∧
        r = ⟨m.oversample, m.psfParams, m.pixelSize, w.objs.length, .widefield, none, none⟩ ∧ RelW w' (h ++ [o]) ∧ w.mem.Ext w'.mem ∧
        KeptW w w' := by
  have hc := hz.content
  rw [newBase_run, hc]
  simp only [Micro.newWidefield, bind, Except.bind]
  rcases numericSet PyVal.isInt none a.oversample with e | x
  · rfl
  simp only
  rcases oversampled (x.getD a.oversample) a.size a.pixelSize with e | ⟨size, res⟩
  · rfl
  simp only [chooseModel, hanser_lower, if_true, bind, Except.bind]
  by_cases hd : a.kw.dual.isSome = true
  · rw [if_pos hd, if_pos hd]; rfl
  · rw [if_neg hd, if_neg hd]
    simp only [pure, Except.pure]
    obtain ⟨s1, s2, s3, s4⟩ := hz.new hw (microInit a size res)
    rw [show ({ wl := a.wl, na := a.na, ni := a.ni, res := res, size := size, zres := a.kw.zres.getD a.pixelSize, zsize := a.kw.zsize.getD a.size
                vecCorr := a.kw.vecCorr.getD (.str "none"), condition := a.kw.condition.getD (.str "sine") } : InitArgs) = microInit a size res from rfl]
    rcases e : HObj.new (microInit a size res) v with x | o
    · rw [show VProg.newObj (microInit a size res) v h = (.error x, h) by simp only [VProg.newObj, e]] at s4
      rcases e' : World.new (microInit a size res) z w with ⟨r, w'⟩
      rw [e'] at s4
      rcases r with y | y
      · obtain rfl : y = x := s4
        rfl
      · exact s4.elim
    · rw [show VProg.newObj (microInit a size res) v h = (.ok h.length, h ++ [o]) by simp only [VProg.newObj, e]] at s4 s1
      rcases e' : World.new (microInit a size res) z w with ⟨r, w'⟩
      rw [e'] at s4 s1 s2 s3
      rcases r with y | y
      · exact s4.elim
      · obtain rfl : y = h.length := s4
        refine ⟨_, w', o, rfl, rfl, rfl, rfl, rfl, ?_, s1, s2, s3⟩
        rw [hw.length]

/-- The constructors. -/
theorem newMicro_spec {w : World} {h : Heap} (hw : RelW w h) {z : ZGiven} {v : Option ZArg} (hz : ZRel w.mem z v) (a : MicroArgs) (c : MClass) :
    match c.build { a with model := .str "hanser", kw := { a.kw with zrange := v } } with
    | .error e => (World.newMicro a z c w).1 = .error e
    | .ok m => ∃ r w' v h', World.newMicro a z c w = (.ok r, w') ∧ VMicro.keep h m = some (v, h') ∧ RelW w' h' ∧ w.mem.Ext w'.mem ∧
        RelMicro w'.mem r v ∧ r.Models w'.objs.length ∧ r.psf = none ∧ r.otf = none ∧ r.model = w.objs.length ∧ KeptW w w' := by
  have hb := newBase_spec hw hz a
  rcases e : Micro.newWidefield { a with model := .str "hanser", kw := { a.kw with zrange := v } } with x | m
  · rw [e] at hb
    have q : ∃ w', World.newBase a z w = (.error x, w') := ⟨_, Prod.ext hb rfl⟩
    obtain ⟨w', q⟩ := q
    have q2 : World.newMicro a z c w = (.error x, w') := by simp only [World.newMicro, PyM.bind_apply, q]
    cases c <;> simp only [MClass.build, Micro.newApotome, Micro.newConfocal, Micro.newSIM, e, bind, Except.bind, q2]
  · rw [e] at hb
    obtain ⟨r, w', o, h1, h2, h3, h4, h5, h6, h7, h8, h9⟩ := hb
    have hl := hw.length
    have hl' : w'.objs.length = w.objs.length + 1 := by rw [← h7.length]; simp [hl]
    have keep : ∀ k : Kind Inner, k.exc = none → ∃ v h', VMicro.keep h { m with kind := k } = some (v, h') ∧ RelW w' h' ∧ RelMicro w'.mem { r with kind := k.map fun _ => 0 } v ∧
        ({ r with kind := k.map fun _ => 0 } : RMicro).Models w'.objs.length := by
      intro k hk
      refine ⟨⟨m.oversample, m.psfParams, m.pixelSize, h.length, k.map fun _ => 0, m.psf, m.otf⟩, h ++ [o], by simp only [VMicro.keep, h2, hk], h7, ⟨?_, ?_, ?_, ?_, rfl, ?_, ?_⟩, ?_, fun j hj => ?_, ?_⟩
      · rw [h6]
      · rw [h6]
      · rw [h6]
      · rw [h6]; exact hl
      · rw [h6, h4]; exact .none
      · rw [h6, h5]; exact .none
      · rw [h6, hl']; simp
      · simp only [Kind.exc_map, hk] at hj; cases hj
      · simp only [Kind.exc_map, hk]; simp
    cases c with
    | widefield =>
      simp only [MClass.build, e]
      obtain ⟨v, h', k1, k2, k3, k4⟩ := keep .widefield rfl
      have em : { m with kind := .widefield } = m := by rw [← h3]
      have er : { r with kind := Kind.map (fun _ => 0) (.widefield : Kind Inner) } = r := by rw [h6]; rfl
      rw [em] at k1
      rw [er] at k3 k4
      exact ⟨r, w', v, h', by simp only [World.newMicro, PyM.bind_apply, h1]; rfl, k1, k2, h8, k3, k4, by rw [h6], by rw [h6], by rw [h6], h9⟩
    | apotome =>
      simp only [MClass.build, Micro.newApotome, e, bind, Except.bind, pure, Except.pure]
      obtain ⟨v, h', k1, k2, k3, k4⟩ := keep .apotome rfl
      exact ⟨_, w', v, h', by simp only [World.newMicro, PyM.bind_apply, h1]; rfl, k1, k2, h8, k3, k4, by rw [h6], by rw [h6], by rw [h6], h9⟩
    | confocal wl ph =>
      simp only [MClass.build, Micro.newConfocal, e, bind, Except.bind, pure, Except.pure]
      rcases e2 : numericSet PyVal.isFloatOrInt none ph with x | y
      · simp only [World.newMicro, PyM.bind_apply, h1, PyM.lift_apply, e2]
      · simp only [h2, Inner.set]
        have hr : r.model = w.objs.length := by rw [h6]
        obtain ⟨o1, ho1⟩ : ∃ o1, w'.objs[r.model]? = some o1 := ⟨_, List.getElem?_eq_getElem (by rw [hr, hl']; omega)⟩
        have hview : o1.view w'.mem = o := by
          have := h7.get r.model
          rw [ho1, hr, ← hl] at this
          simpa using this.symm
        obtain ⟨w1, o2, d1, d2, d3, d4, -, d5, d6⟩ := deepcopy_spec h7 ho1
        rw [hview] at d3
        have hsim := SimW.onObj (c := fun _ _ _ => True) d3 w'.objs.length (m := RState.set .wl wl) (m' := setAttr .hanser .wl wl) fun x hx => sim_set (d3.valid x (List.mem_of_getElem? hx)) _ _
        have hon : onRef w'.objs.length (setAttr .hanser .wl wl) (h ++ [o] ++ [o]) = ((setAttr .hanser .wl wl o).1, h ++ [o, (setAttr .hanser .wl wl o).2]) := by
          have hlen : w'.objs.length = (h ++ [o]).length := h7.length.symm
          have : (h ++ [o] ++ [o])[w'.objs.length]? = some o := by rw [hlen]; simp
          simp only [onRef, this]
          rw [hlen]
          simp
        obtain ⟨g1, g2, g3, g4⟩ := hsim
        rw [hon] at g1 g4
        have hnew : World.newMicro a z (.confocal wl ph) w = match World.onObj w'.objs.length (RState.set .wl wl) w1 with
          | (.ok _, w2) => (.ok { r with kind := .confocal w'.objs.length (y.getD ph) none }, w2)
          | (.error x, w2) => (.error x, w2) := by
          simp only [World.newMicro, PyM.bind_apply, h1, PyM.lift_apply, e2, d1]
          generalize World.onObj w'.objs.length (RState.set .wl wl) w1 = q
          rcases q with ⟨e | u, w2⟩ <;> rfl
        rcases es : setAttr .hanser .wl wl o with ⟨r1, o3⟩
        rw [es] at g1 g4
        rcases e3 : World.onObj w'.objs.length (RState.set .wl wl) w1 with ⟨r2, w2⟩
        rw [e3] at hnew g1 g2 g3 g4
        match r1, r2, g4 with
        | .error x, .error y, g4 =>
          obtain rfl : y = x := g4
          simp only [throw, throwThe, MonadExceptOf.throw]
          rw [hnew]
        | .ok _, .ok _, g4 =>
          simp only
          have hl2 : w2.objs.length = w.objs.length + 2 := by rw [← g1.length]; simp [hl]
          refine ⟨_, w2, ⟨m.oversample, m.psfParams, m.pixelSize, h.length, .confocal (h.length + 1) (y.getD ph) none, m.psf, m.otf⟩, h ++ [o, o3], hnew, by simp only [VMicro.keep, Kind.exc, Kind.map], g1, h8.trans (d4.trans g2), ⟨?_, ?_, ?_, ?_, ?_, ?_, ?_⟩, ⟨?_, fun j hj => ?_, ?_⟩, ?_, ?_, ?_, ?_⟩
          · rw [h6]
          · rw [h6]
          · rw [h6]
          · rw [h6]; exact hl
          · simp only [hl, hl']
          · rw [h6, h4]; exact .none
          · rw [h6, h5]; exact .none
          · rw [hl2]; simp only [hr]; omega
          · obtain rfl : w'.objs.length = j := Option.some.inj hj
            rw [hl2, hl']; omega
          · intro q
            have := Option.some.inj q
            simp only [hr] at this
            omega
          · rw [h6]
          · rw [h6]
          · rw [h6]
          · exact h9.trans ((keptW_push d2 d5 d6).trans g3 d4) h8
    | sim na wl wi co dc ds os =>
      simp only [MClass.build, Micro.newSIM, e, bind, Except.bind, pure, Except.pure, World.newMicro, h1, PyM.lift_apply]
      have hpp : r.psfParams = m.psfParams := by rw [h6]
      rw [hpp]
      rcases numericSet Micro.isFloat none (if na = .none then m.psfParams.na else na) with x | y1
      · rfl
      simp only
      rcases numericSet Micro.isFloat none (if wl = .none then m.psfParams.wl else wl) with x | y2
      · rfl
      simp only
      rcases numericSet Micro.isBool none co with x | y3
      · rfl
      simp only
      rcases numericSet Micro.isBool none dc with x | y4
      · rfl
      simp only
      rcases numericSet Micro.isBool none ds with x | y5
      · rfl
      simp only
      rcases wi.ltZero with x | b
      · rfl
      simp only
      rcases b with _ | _
      · simp only [Bool.false_eq_true, if_false]
        obtain ⟨v, h', k1, k2, k3, k4⟩ := keep (.sim (y1.getD (if na = .none then m.psfParams.na else na)) (y2.getD (if wl = .none then m.psfParams.wl else wl)) (y3.getD co) (y4.getD dc) (y5.getD ds) os wi) rfl
        rw [hpp] at k3 k4
        exact ⟨_, w', v, h', rfl, k1, k2, h8, k3, k4, by rw [h6], by rw [h6], by rw [h6], h9⟩
      · rfl

end PyOTF
