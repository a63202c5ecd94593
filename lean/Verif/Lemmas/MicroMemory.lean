import Verif.Lemmas.MemoryStep
import Verif.Spec.MicroAliasing

/-!
# Microscopes by reference and with values: methods
-/

namespace PyOTF

theorem Kind.exc_map {I J : Type} (f : I → J) (k : Kind I) : (k.map f).exc = k.exc.map f := by cases k <;> rfl

theorem Kind.map_map {I J K : Type} (f : I → J) (g : J → K) (k : Kind I) : (k.map f).map g = k.map (g ∘ f) := by cases k <;> rfl

theorem Kind.map_id {I : Type} (f : I → I) (k : Kind I) (h : ∀ e, k.exc = some e → f e = e) : k.map f = k := by
  cases k <;> simp_all [Kind.map, Kind.exc]

/-- The state of a call on a microscope corresponds to the microscope as a value, whose models are those of heap `h`. -/
structure RelMS (s : MState) (h : Heap) (m : Micro) : Prop where
  world : RelW s.world h
  over : m.oversample = s.self.oversample
  par : m.psfParams = s.self.psfParams
  pix : m.pixelSize = s.self.pixelSize
  model : ∃ o, h[s.self.model]? = some o ∧ m.model = .hanser o
  kind : m.kind.map (fun _ => ()) = s.self.kind.map fun _ => ()
  exc : ∀ j, s.self.kind.exc = some j → ∃ e, h[j]? = some e ∧ m.kind.exc = some (.hanser e)
  ne : s.self.kind.exc ≠ some s.self.model
  psf : Option.Rel (fun r a => s.world.mem.real[r]? = some a) s.self.psf m.psf
  otf : Option.Rel (fun r a => s.world.mem.cplx[r]? = some a) s.self.otf m.otf

/-- Only the models of the microscope change. -/
def MSlot.Same {P O : Type} (m : MSlot P O) (h h' : Heap) : Prop := h'.length = h.length ∧ ∀ i, i ≠ m.model → m.kind.exc ≠ some i → h'[i]? = h[i]?

/-- From state `s`, the method `f` does with references what `g` does with values, and changes no existing array. -/
structure SimM {α β : Type} (s : MState) (h : Heap) (m : Micro) (c : Mem → α → β → Prop) (f : PyM MState α) (g : PyM Micro β) : Prop where
  rel : ∃ h', RelMS (f s).2 h' (g m).2 ∧ s.self.Same h h'
  ext : s.world.mem.Ext (f s).2.world.mem
  slot : (f s).2.self.model = s.self.model ∧ (f s).2.self.kind.exc = s.self.kind.exc
  out : Match (c (f s).2.world.mem) (f s).1 (g m).1

theorem optRel_mono {α β : Type} {R S : α → β → Prop} (h : ∀ a b, R a b → S a b) {x : Option α} {y : Option β} (hx : Option.Rel R x y) : Option.Rel S x y := by
  cases hx with
  | some hab => exact .some (h _ _ hab)
  | none => exact .none

section

variable {α β α' β' : Type} {s : MState} {h : Heap} {m : Micro}

theorem SimM.bind {c : Mem → α → β → Prop} {d : Mem → α' → β' → Prop} {f : PyM MState α} {g : PyM Micro β} {k : α → PyM MState α'} {k' : β → PyM Micro β'}
    (hm : SimM s h m c f g)
    (hk : ∀ a b h', (f s).1 = .ok a → (g m).1 = .ok b → c (f s).2.world.mem a b → RelMS (f s).2 h' (g m).2 → SimM (f s).2 h' (g m).2 d (k a) (k' b)) :
    SimM s h m d (f >>= k) (g >>= k') := by
  obtain ⟨⟨h', h1, h2⟩, h3, h4, h5⟩ := hm
  rcases e : f s with ⟨r, s'⟩
  rcases e' : g m with ⟨r', m'⟩
  rw [e, e'] at h1 h5 hk
  rw [e] at h3 h4
  simp only at h1 h3 h4 h5 hk
  match r, r', h5 with
  | .error x, .error y, h5 =>
    obtain rfl : x = y := h5
    have q : (f >>= k) s = (.error x, s') := by rw [PyM.bind_apply, e]
    have q' : (g >>= k') m = (.error x, m') := by rw [PyM.bind_apply, e']
    exact ⟨by rw [q, q']; exact ⟨h', h1, h2⟩, by rw [q]; exact h3, by rw [q]; exact h4, by rw [q, q']; exact rfl⟩
  | .ok a, .ok b, h5 =>
    have q : (f >>= k) s = k a s' := by rw [PyM.bind_apply, e]
    have q' : (g >>= k') m = k' b m' := by rw [PyM.bind_apply, e']
    obtain ⟨⟨h'', g1, g2⟩, g3, g4, g5⟩ := hk a b h' rfl rfl h5 h1
    have hs : s.self.Same h h'' := ⟨g2.1.trans h2.1, fun i hi hi' => (g2.2 i (by rw [h4.1]; exact hi) (by rw [h4.2]; exact hi')).trans (h2.2 i hi hi')⟩
    exact ⟨by rw [q, q']; exact ⟨h'', g1, hs⟩, by rw [q]; exact h3.trans g3, by rw [q]; exact ⟨g4.1.trans h4.1, g4.2.trans h4.2⟩, by rw [q, q']; exact g5⟩

theorem SimM.congr {c : Mem → α → β → Prop} {f f' : PyM MState α} {g g' : PyM Micro β} (hm : SimM s h m c f g) (e : f' s = f s) (e' : g' m = g m) : SimM s h m c f' g' := by
  obtain ⟨h1, h2, h3, h4⟩ := hm
  exact ⟨by rw [e, e']; exact h1, by rw [e]; exact h2, by rw [e]; exact h3, by rw [e, e']; exact h4⟩

theorem SimM.weaken {c d : Mem → α → β → Prop} {f : PyM MState α} {g : PyM Micro β} (hm : SimM s h m c f g) (hcd : ∀ x a b, c x a b → d x a b) : SimM s h m d f g := by
  obtain ⟨h1, h2, h3, h4⟩ := hm
  refine ⟨h1, h2, h3, ?_⟩
  rcases q : (f s).1 with x | a <;> rcases q' : (g m).1 with y | b <;> rw [q, q'] at h4
  · exact h4
  · exact h4
  · exact h4
  · exact hcd _ _ _ h4

theorem MSlot.Same.refl {P O : Type} (x : MSlot P O) (h : Heap) : x.Same h h := ⟨rfl, fun _ _ _ => rfl⟩

theorem SimM.pure (hr : RelMS s h m) {c : Mem → α → β → Prop} {a : α} {b : β} (hc : c s.world.mem a b) : SimM s h m c (pure a) (pure b) :=
  ⟨⟨h, hr, .refl _ _⟩, Mem.Ext.refl _, ⟨rfl, rfl⟩, hc⟩

theorem SimM.lift (hr : RelMS s h m) {c : Mem → α → α → Prop} (x : Py α) (hc : ∀ a, c s.world.mem a a) : SimM s h m c (PyM.lift x) (PyM.lift x) := by
  refine ⟨⟨h, hr, .refl _ _⟩, Mem.Ext.refl _, ⟨rfl, rfl⟩, ?_⟩
  rcases x with e | a
  · exact rfl
  · exact hc a

theorem SimM.raise (hr : RelMS s h m) {c : Mem → α → β → Prop} (e : Err) : SimM s h m c (PyM.raise e) (PyM.raise e) :=
  ⟨⟨h, hr, .refl _ _⟩, Mem.Ext.refl _, ⟨rfl, rfl⟩, rfl⟩

/-- A method of a model. -/
theorem RelMS.onObj (hr : RelMS s h m) (k : ℕ) {c : Mem → α → β → Prop} {f : PyM RState α} {g : PyM HObj β}
    (hf : ∀ o, s.world.objs[k]? = some o → SimAt ⟨s.world.mem, o⟩ c f g) : SimW s.world h (fun v => c v.mem) (World.onObj k f) (onRef k g) :=
  SimW.onObj hr.world k hf

theorem SimM.onModel (hr : RelMS s h m) {c : Mem → α → β → Prop} {f : PyM RState α} {g : PyM HObj β} {φ : PyM Inner β}
    (hφ : ∀ o, φ (.hanser o) = ((g o).1, .hanser (g o).2))
    (hf : ∀ o, s.world.objs[s.self.model]? = some o → SimAt ⟨s.world.mem, o⟩ c f g) : SimM s h m c (MState.onModel f) (Micro.onModel φ) := by
  obtain ⟨o, ho, hm⟩ := hr.model
  obtain ⟨w1, w2, -, w4⟩ := hr.onObj s.self.model hf
  have e : onRef s.self.model g h = ((g o).1, h.set s.self.model (g o).2) := by simp only [onRef, ho]
  rw [e] at w1 w4
  have hlt := (List.getElem?_eq_some_iff.mp ho).1
  have em : (Micro.onModel φ m) = ((g o).1, { m with model := .hanser (g o).2 }) := by simp only [Micro.onModel, hm, hφ]
  have oth : ∀ i, i ≠ s.self.model → (h.set s.self.model (g o).2)[i]? = h[i]? := fun i hi => List.getElem?_set_ne (Ne.symm hi)
  refine ⟨⟨_, ⟨w1, ?_, ?_, ?_, ⟨(g o).2, ?_, ?_⟩, ?_, fun j hj => ?_, hr.ne, ?_, ?_⟩, ⟨by simp, fun i hi _ => oth i hi⟩⟩, w2, ⟨rfl, rfl⟩, by rw [em]; exact w4⟩
  · rw [em]; exact hr.over
  · rw [em]; exact hr.par
  · rw [em]; exact hr.pix
  · exact List.getElem?_set_self hlt
  · rw [em]
  · rw [em]; exact hr.kind
  · obtain ⟨e1, h1, h2⟩ := hr.exc j hj
    refine ⟨e1, ?_, by rw [em]; exact h2⟩
    rw [oth j fun q => hr.ne (by rw [← q]; exact hj)]; exact h1
  · rw [em]; exact optRel_mono (fun r a x => w2.real _ _ x) hr.psf
  · rw [em]; exact optRel_mono (fun r a x => w2.cplx _ _ x) hr.otf

theorem SimM.onExc (hr : RelMS s h m) {c : Mem → α → β → Prop} {f : PyM RState α} {g : PyM HObj β} {φ : PyM Inner β}
    (hφ : ∀ o, φ (.hanser o) = ((g o).1, .hanser (g o).2))
    (hf : ∀ (k : ℕ) o, s.world.objs[k]? = some o → SimAt ⟨s.world.mem, o⟩ c f g) : SimM s h m c (MState.onExc f) (Micro.onExc φ) := by
  rcases ek : s.self.kind with _ | _ | ⟨j, ph, w⟩ | ⟨a1, a2, a3, a4, a5, a6, a7⟩
  · have hk := hr.kind
    rw [ek] at hk
    rcases ek' : m.kind with _ | _ | ⟨j', ph', w'⟩ | ⟨b1, b2, b3, b4, b5, b6, b7⟩ <;> rw [ek'] at hk <;> simp only [Kind.map, reduceCtorEq] at hk
    exact (SimM.raise hr .attributeError).congr (by simp only [MState.onExc, ek]; rfl) (by simp only [Micro.onExc, ek']; rfl)
  · have hk := hr.kind
    rw [ek] at hk
    rcases ek' : m.kind with _ | _ | ⟨j', ph', w'⟩ | ⟨b1, b2, b3, b4, b5, b6, b7⟩ <;> rw [ek'] at hk <;> simp only [Kind.map, reduceCtorEq] at hk
    exact (SimM.raise hr .attributeError).congr (by simp only [MState.onExc, ek]; rfl) (by simp only [Micro.onExc, ek']; rfl)
  · have hx : s.self.kind.exc = some j := by rw [ek]; rfl
    obtain ⟨o, ho, hm⟩ := hr.exc j hx
    have hk := hr.kind
    rw [ek] at hk
    rcases ek' : m.kind with _ | _ | ⟨j', ph', w'⟩ | ⟨b1, b2, b3, b4, b5, b6, b7⟩ <;> rw [ek'] at hk hm <;> simp only [Kind.map, reduceCtorEq, Kind.confocal.injEq] at hk
    simp only [Kind.exc, Option.some.injEq] at hm
    subst hm
    obtain ⟨-, rfl, rfl⟩ := hk
    obtain ⟨w1, w2, -, w4⟩ := hr.onObj j (hf j)
    have e : onRef j g h = ((g o).1, h.set j (g o).2) := by simp only [onRef, ho]
    rw [e] at w1 w4
    have hlt := (List.getElem?_eq_some_iff.mp ho).1
    have em : (Micro.onExc φ m) = ((g o).1, { m with kind := .confocal (.hanser (g o).2) ph' w' }) := by simp only [Micro.onExc, ek', hφ]
    have es : MState.onExc f s = ((World.onObj j f s.world).1, { s with world := (World.onObj j f s.world).2 }) := by simp only [MState.onExc, ek]
    have oth : ∀ i, i ≠ j → (h.set j (g o).2)[i]? = h[i]? := fun i hi => List.getElem?_set_ne (Ne.symm hi)
    have hne : s.self.model ≠ j := fun q => hr.ne (by rw [hx, q])
    refine ⟨⟨h.set j (g o).2, ⟨by rw [es]; exact w1, ?_, ?_, ?_, ?_, ?_, fun i hi => ?_, ?_, ?_, ?_⟩, ⟨by simp, fun i _ hi => oth i ?_⟩⟩, by rw [es]; exact w2, by rw [es]; exact ⟨rfl, rfl⟩, by rw [es, em]; exact w4⟩
    · rw [em, es]; exact hr.over
    · rw [em, es]; exact hr.par
    · rw [em, es]; exact hr.pix
    · rw [em, es]
      obtain ⟨o', h1, h2⟩ := hr.model
      exact ⟨o', by rw [oth _ hne]; exact h1, h2⟩
    · rw [em, es]; simp only [ek]; rfl
    · rw [em]
      rw [es] at hi
      obtain rfl : j = i := by rw [hx] at hi; exact Option.some.inj hi
      exact ⟨_, List.getElem?_set_self hlt, rfl⟩
    · rw [es]; exact hr.ne
    · rw [em, es]; exact optRel_mono (fun r a x => w2.real _ _ x) hr.psf
    · rw [em, es]; exact optRel_mono (fun r a x => w2.cplx _ _ x) hr.otf
    · rintro rfl; exact hi hx
  · have hk := hr.kind
    rw [ek] at hk
    rcases ek' : m.kind with _ | _ | ⟨j', ph', w'⟩ | ⟨b1, b2, b3, b4, b5, b6, b7⟩ <;> rw [ek'] at hk <;> simp only [Kind.map, reduceCtorEq] at hk
    exact (SimM.raise hr .attributeError).congr (by simp only [MState.onExc, ek]; rfl) (by simp only [Micro.onExc, ek']; rfl)

theorem RelMS.ext (hr : RelMS s h m) {w : Mem} (he : s.world.mem.Ext w) : RelMS { s with world := { s.world with mem := w } } h m :=
  ⟨hr.world.alloc he, hr.over, hr.par, hr.pix, hr.model, hr.kind, hr.exc, hr.ne, optRel_mono (fun _ _ x => he.real _ _ x) hr.psf, optRel_mono (fun _ _ x => he.cplx _ _ x) hr.otf⟩

theorem SimM.allocR (hr : RelMS s h m) (a : Arr ℝ) : SimM s h m (fun w r b => w.real[r]? = some b ∧ b = a) (MState.allocR a) (PyM.lift (.ok a)) :=
  ⟨⟨h, hr.ext (ext_allocR _ _), .refl _ _⟩, ext_allocR _ _, ⟨rfl, rfl⟩, by simp [MState.allocR, Match]⟩

theorem SimM.allocC (hr : RelMS s h m) (a : Arr ℂ) : SimM s h m (fun w r b => w.cplx[r]? = some b ∧ b = a) (MState.allocC a) (PyM.lift (.ok a)) :=
  ⟨⟨h, hr.ext (ext_allocC _ _), .refl _ _⟩, ext_allocC _ _, ⟨rfl, rfl⟩, by simp [MState.allocC, Match]⟩

/-- A read followed by `deref`. -/
theorem SimM.derefR {c : Mem → α → β → Prop} {r : ℕ} {a : Arr ℝ} (hr : s.world.mem.real[r]? = some a) {k : Arr ℝ → PyM MState α} {g : PyM Micro β} (hk : SimM s h m c (k a) g) :
    SimM s h m c (MState.derefR r >>= k) g :=
  hk.congr (by rw [PyM.bind_apply]; simp only [MState.derefR, hr]) rfl

theorem SimM.derefC {c : Mem → α → β → Prop} {r : ℕ} {a : Arr ℂ} (hr : s.world.mem.cplx[r]? = some a) {k : Arr ℂ → PyM MState α} {g : PyM Micro β} (hk : SimM s h m c (k a) g) :
    SimM s h m c (MState.derefC r >>= k) g :=
  hk.congr (by rw [PyM.bind_apply]; simp only [MState.derefC, hr]) rfl

theorem SimM.lift_allocR (hr : RelMS s h m) (x : Py (Arr ℝ)) : SimM s h m (fun w r b => w.real[r]? = some b) (PyM.lift x >>= MState.allocR) (PyM.lift x) := by
  rcases x with e | a
  · exact SimM.raise hr e
  · exact (SimM.allocR hr a).weaken fun _ _ _ hx => hx.1

theorem RelMS.valid (hr : RelMS s h m) {k : ℕ} {o : RObj} (ho : s.world.objs[k]? = some o) : o.Valid s.world.mem := hr.world.valid o (List.mem_of_getElem? ho)

theorem sim_modelPSFi (hr : RelMS s h m) : SimM s h m (fun w r b => w.real[r]? = some b) (MState.onModel RState.getPSFi) (Micro.onModel Inner.getPSFi) :=
  SimM.onModel hr (g := HObj.getPSFi) (fun _ => rfl) fun _ ho => sim_getPSFi (hr.valid ho)

theorem sim_modelOTFi (hr : RelMS s h m) : SimM s h m (fun w r b => w.cplx[r]? = some b) (MState.onModel RState.getOTFi) (Micro.onModel Inner.getOTFi) :=
  SimM.onModel hr (g := HObj.getOTFi) (fun _ => rfl) fun _ ho => sim_getOTFi (hr.valid ho)

theorem sim_excPSFi (hr : RelMS s h m) : SimM s h m (fun w r b => w.real[r]? = some b) (MState.onExc RState.getPSFi) (Micro.onExc Inner.getPSFi) :=
  SimM.onExc hr (g := HObj.getPSFi) (fun _ => rfl) fun _ _ ho => sim_getPSFi (hr.valid ho)

/-! ## The methods -/

theorem sim_simFiltered (hr : RelMS s h m) (wiener : PyVal) : SimM s h m (fun _ a b => a = b) (MState.simFiltered wiener) (Micro.simFiltered wiener) := by
  unfold MState.simFiltered Micro.simFiltered
  by_cases hw : wiener = .none
  · rw [if_pos hw, if_pos hw]
    refine SimM.congr (g := Micro.onModel Inner.getPSFi >>= fun a => (pure a : PyM Micro (Arr ℝ))) (SimM.bind (sim_modelPSFi hr) fun r a h' _ _ hra hr' => ?_) rfl ?_
    · refine ⟨⟨h', ?_, .refl _ _⟩, ?_, ?_, ?_⟩ <;> simp only [MState.derefR, hra]
      · exact hr'
      · exact Mem.Ext.refl _
      · simp
      · exact rfl
    · rw [PyM.bind_apply]
      rcases Micro.onModel Inner.getPSFi m with ⟨e | a, m'⟩ <;> rfl
  · rw [if_neg hw, if_neg hw]
    refine SimM.bind (SimM.lift (c := fun _ a b => a = b) hr _ fun _ => rfl) fun w w' h' _ _ (hww : w = w') hr' => ?_
    subst hww
    by_cases hge : PyFloat.ge w (.fin 0) = true
    · rw [if_pos hge, if_pos hge]
      refine SimM.bind (sim_modelOTFi hr') fun r a h'' _ _ hra hr'' => SimM.derefC hra ?_
      cases w with
      | fin q => exact SimM.lift hr'' _ fun _ => rfl
      | nan => exact SimM.raise hr'' _
      | inf b => exact SimM.raise hr'' _
    · rw [if_neg hge, if_neg hge]
      exact SimM.raise hr' _

theorem sim_modelPsf (hr : RelMS s h m) : SimM s h m (fun w r b => w.real[r]? = some b) MState.modelPsf Micro.modelPsf := by
  have hk := hr.kind
  have hpar := hr.par
  rcases ek : s.self.kind with _ | _ | ⟨j, ph, w⟩ | ⟨a1, a2, a3, a4, a5, a6, a7⟩ <;> rw [ek] at hk <;>
    rcases ek' : m.kind with _ | _ | ⟨j', ph', w'⟩ | ⟨b1, b2, b3, b4, b5, b6, b7⟩ <;> rw [ek'] at hk <;>
    simp only [Kind.map, reduceCtorEq, Kind.confocal.injEq, Kind.sim.injEq] at hk
  · exact (sim_modelPSFi hr).congr (by simp only [MState.modelPsf, PyM.bind_apply, PyM.get_apply, ek]) (by simp only [Micro.modelPsf, PyM.bind_apply, PyM.get_apply, ek'])
  · refine SimM.congr (f := MState.onModel RState.getPSFi >>= fun r => MState.derefR r >>= fun psfi => PyM.lift (apotomePsf psfi (abbeLimit s.self.psfParams.wl s.self.psfParams.na
        s.self.psfParams.size s.self.psfParams.res)) >>= MState.allocR)
      (g := Micro.onModel Inner.getPSFi >>= fun psfi => PyM.lift (apotomePsf psfi (abbeLimit s.self.psfParams.wl s.self.psfParams.na
        s.self.psfParams.size s.self.psfParams.res))) ?_ ?_ ?_
    · exact SimM.bind (sim_modelPSFi hr) fun r a h' _ _ hra hr' => SimM.derefR hra (SimM.lift_allocR hr' _)
    · simp only [MState.modelPsf, PyM.bind_apply, PyM.get_apply, ek]
    · simp only [Micro.modelPsf, PyM.bind_apply, PyM.get_apply, ek', hpar]
  · obtain ⟨-, rfl, rfl⟩ := hk
    obtain ⟨o, ho, hmod⟩ := hr.model
    refine SimM.congr (f := MState.onModel (PyM.get >>= fun x : RState => pure x.params) >>= fun p => PyM.lift (pinholeRadius p ph') >>= fun r => MState.onModel RState.getPSFi >>= fun q =>
        MState.derefR q >>= fun psfi => PyM.lift (pinholed r psfi) >>= fun det => MState.onExc RState.getPSFi >>= fun q => MState.derefR q >>= fun exc =>
        PyM.lift (det.mulB exc) >>= MState.allocR)
      (g := Micro.onModel (fun i => (.ok i.params, i)) >>= fun p => PyM.lift (pinholeRadius p ph') >>= fun r => Micro.onModel Inner.getPSFi >>= fun psfi =>
        PyM.lift (pinholed r psfi) >>= fun det => Micro.onExc Inner.getPSFi >>= fun exc => PyM.lift (det.mulB exc)) ?_ ?_ ?_
    · refine SimM.bind (SimM.onModel hr (c := fun _ a b => a = b) (g := fun o : HObj => (.ok o.params, o)) (fun _ => rfl) fun x hx => ?_) fun p p' h1 _ _ (hp : p = p') hr1 => ?_
      · exact ⟨hr.valid hx, Mem.Ext.refl _, rfl, Kept.refl _, rfl⟩
      subst hp
      refine SimM.bind (SimM.lift (c := fun _ a b => a = b) hr1 _ fun _ => rfl) fun r r' h2 _ _ (hrr : r = r') hr2 => ?_
      subst hrr
      refine SimM.bind (sim_modelPSFi hr2) fun q a h3 _ _ hqa hr3 => SimM.derefR hqa ?_
      refine SimM.bind (SimM.lift (c := fun _ a b => a = b) hr3 _ fun _ => rfl) fun d d' h4 _ _ (hdd : d = d') hr4 => ?_
      subst hdd
      exact SimM.bind (sim_excPSFi hr4) fun q' b h5 _ _ hqb hr5 => SimM.derefR hqb (SimM.lift_allocR hr5 _)
    · simp only [MState.modelPsf, PyM.bind_apply, PyM.get_apply, ek]
    · have e0 : Micro.onModel (fun i => (.ok i.params, i)) m = (.ok m.model.params, m) := rfl
      rw [PyM.bind_apply, e0]
      simp only [Micro.modelPsf, PyM.bind_apply, PyM.get_apply, ek']
  · obtain ⟨rfl, rfl, rfl, rfl, rfl, rfl, rfl⟩ := hk
    refine SimM.congr (f := PyM.lift (Micro.simNum s.self.psfParams b1 b2) >>= fun n => MState.simFiltered b7 >>= fun psf =>
        PyM.lift (simPsf n (decide (b3 = .bool true)) (decide (b4 = .bool true)) (decide (b5 = .bool true)) b6 psf) >>= MState.allocR)
      (g := PyM.lift (Micro.simNum s.self.psfParams b1 b2) >>= fun n => Micro.simFiltered b7 >>= fun psf =>
        PyM.lift (simPsf n (decide (b3 = .bool true)) (decide (b4 = .bool true)) (decide (b5 = .bool true)) b6 psf)) ?_ ?_ ?_
    · refine SimM.bind (SimM.lift (c := fun _ a b => a = b) hr _ fun _ => rfl) fun n n' h1 _ _ (hn : n = n') hr1 => ?_
      subst hn
      refine SimM.bind (sim_simFiltered hr1 _) fun a a' h2 _ _ (ha : a = a') hr2 => ?_
      subst ha
      exact SimM.lift_allocR hr2 _
    · simp only [MState.modelPsf, PyM.bind_apply, PyM.get_apply, ek]
    · simp only [Micro.modelPsf, PyM.bind_apply, PyM.get_apply, ek', hpar]

/-- A new array is cached as `PSF`. -/
theorem sim_store_psf (hr : RelMS s h m) (a : Arr ℝ) : SimM s h m (fun w r b => w.real[r]? = some b)
    (do let r ← MState.allocR a; PyM.modify fun s => { s with self := { s.self with psf := some r } }; pure r)
    (do PyM.modify fun m => { m with psf := some a }; pure a) := by
  refine ⟨⟨h, ?_, .refl _ _⟩, ext_allocR _ a, ⟨rfl, rfl⟩, ?_⟩
  · have := hr.ext (ext_allocR s.world.mem a)
    refine ⟨this.world, this.over, this.par, this.pix, this.model, this.kind, this.exc, this.ne, .some ?_, this.otf⟩
    simp [MState.allocR, PyM.bind_apply]
  · simp [MState.allocR, PyM.bind_apply, Match]

/-- A new array is cached as `OTF`. -/
theorem sim_store_otf (hr : RelMS s h m) (a : Arr ℂ) : SimM s h m (fun w r b => w.cplx[r]? = some b)
    (do let r ← MState.allocC a; PyM.modify fun s => { s with self := { s.self with otf := some r } }; pure r)
    (do PyM.modify fun m => { m with otf := some a }; pure a) := by
  refine ⟨⟨h, ?_, .refl _ _⟩, ext_allocC _ a, ⟨rfl, rfl⟩, ?_⟩
  · have := hr.ext (ext_allocC s.world.mem a)
    refine ⟨this.world, this.over, this.par, this.pix, this.model, this.kind, this.exc, this.ne, this.psf, .some ?_⟩
    simp [MState.allocC, PyM.bind_apply]
  · simp [MState.allocC, PyM.bind_apply, Match]

theorem sim_getPSF (hr : RelMS s h m) : SimM s h m (fun w r b => w.real[r]? = some b) MState.getPSF Micro.getPSF := by
  have hp := hr.psf
  rcases e : s.self.psf with _ | r
  · rw [e] at hp
    rcases e' : m.psf with _ | a
    swap
    · rw [e'] at hp; cases hp
    refine SimM.congr (f := MState.modelPsf >>= fun r => MState.derefR r >>= fun a => PyM.get >>= fun s : MState =>
        PyM.lift (microPsf (pyInt s.self.oversample) (pyInt s.self.psfParams.size).toNat a) >>= fun b =>
        (do let r ← MState.allocR b; PyM.modify fun s => { s with self := { s.self with psf := some r } }; pure r))
      (g := Micro.modelPsf >>= fun a => PyM.get >>= fun m : Micro => PyM.lift (microPsf (pyInt m.oversample) (pyInt m.psfParams.size).toNat a) >>= fun b =>
        (do PyM.modify fun m => { m with psf := some b }; pure b)) ?_ ?_ ?_
    · refine SimM.bind (sim_modelPsf hr) fun r a h1 _ _ hra hr1 => SimM.derefR hra ?_
      generalize (MState.modelPsf s).2 = s1 at *
      generalize (Micro.modelPsf m).2 = m1 at *
      refine SimM.congr (f := PyM.lift (microPsf (pyInt s1.self.oversample) (pyInt s1.self.psfParams.size).toNat a) >>= fun b =>
        (do let r ← MState.allocR b; PyM.modify fun s => { s with self := { s.self with psf := some r } }; pure r))
        (g := PyM.lift (microPsf (pyInt s1.self.oversample) (pyInt s1.self.psfParams.size).toNat a) >>= fun b =>
        (do PyM.modify fun m => { m with psf := some b }; pure b)) ?_ ?_ ?_
      · refine SimM.bind (SimM.lift (c := fun _ a b => a = b) hr1 _ fun _ => rfl) fun b b' h2 _ _ (hb : b = b') hr2 => ?_
        subst hb
        exact sim_store_psf hr2 b
      · rfl
      · rw [← hr1.over, ← hr1.par]; rfl
    · simp only [MState.getPSF, PyM.bind_apply, PyM.get_apply, e]
    · simp only [Micro.getPSF, PyM.bind_apply, PyM.get_apply, e']
  · rw [e] at hp
    rcases e' : m.psf with _ | a
    · rw [e'] at hp; cases hp
    rw [e'] at hp
    cases hp with
    | some hra =>
      exact (SimM.pure hr (a := r) (b := a) hra).congr (by simp only [MState.getPSF, PyM.bind_apply, PyM.get_apply, e]) (by simp only [Micro.getPSF, PyM.bind_apply, PyM.get_apply, e'])

theorem sim_getOTF (hr : RelMS s h m) : SimM s h m (fun w r b => w.cplx[r]? = some b) MState.getOTF Micro.getOTF := by
  have hp := hr.otf
  rcases e : s.self.otf with _ | r
  · rw [e] at hp
    rcases e' : m.otf with _ | a
    swap
    · rw [e'] at hp; cases hp
    refine SimM.congr (f := MState.getPSF >>= fun r => MState.derefR r >>= fun a =>
        (do let r ← MState.allocC (easyFft none (a.map fun (v : ℝ) => (v : ℂ))); PyM.modify fun s => { s with self := { s.self with otf := some r } }; pure r))
      (g := Micro.getPSF >>= fun a =>
        (do PyM.modify fun m => { m with otf := some (easyFft none (a.map fun (v : ℝ) => (v : ℂ))) }; pure (easyFft none (a.map fun (v : ℝ) => (v : ℂ))))) ?_ ?_ ?_
    · exact SimM.bind (sim_getPSF hr) fun r a h1 _ _ hra hr1 => SimM.derefR hra (sim_store_otf hr1 _)
    · simp only [MState.getOTF, PyM.bind_apply, PyM.get_apply, e]
    · simp only [Micro.getOTF, PyM.bind_apply, PyM.get_apply, e']
  · rw [e] at hp
    rcases e' : m.otf with _ | a
    · rw [e'] at hp; cases hp
    rw [e'] at hp
    cases hp with
    | some hra =>
      exact (SimM.pure hr (a := r) (b := a) hra).congr (by simp only [MState.getOTF, PyM.bind_apply, PyM.get_apply, e]) (by simp only [Micro.getOTF, PyM.bind_apply, PyM.get_apply, e'])

theorem readAttr_map {I J : Type} (f : I → J) (a : Micro.MAttr) (o : PyVal) (k : Kind I) : Micro.readAttr a o (k.map f) = Micro.readAttr a o k := by
  cases a <;> cases k <;> rfl

theorem writeAttr_map {I J : Type} (f : I → J) (a : Micro.MAttr) (v o : PyVal) (k : Kind I) :
    Micro.writeAttr a v o (k.map f) = ((Micro.writeAttr a v o k).1, (Micro.writeAttr a v o k).2.map f) := by
  cases a <;> cases k <;> rfl

theorem writeAttr_exc {I : Type} (a : Micro.MAttr) (v o : PyVal) (k : Kind I) : (Micro.writeAttr a v o k).2.exc = k.exc := by
  cases a <;> cases k <;> rfl

theorem withWiener_map {I J : Type} (f : I → J) (w : PyVal) (k : Kind I) : Micro.withWiener w (k.map f) = (Micro.withWiener w k).map f := by cases k <;> rfl
theorem withWiener_exc {I : Type} (w : PyVal) (k : Kind I) : (Micro.withWiener w k).exc = k.exc := by cases k <;> rfl
theorem withOrientations_map {I J : Type} (f : I → J) (w : List ℝ) (k : Kind I) : Micro.withOrientations w (k.map f) = (Micro.withOrientations w k).map f := by cases k <;> rfl
theorem withOrientations_exc {I : Type} (w : List ℝ) (k : Kind I) : (Micro.withOrientations w k).exc = k.exc := by cases k <;> rfl

theorem sim_setM (hr : RelMS s h m) (a : Micro.MAttr) (v : PyVal) : SimM s h m (fun _ _ _ => True) (MState.set a v) (Micro.set a v) := by
  have hread : Micro.readAttr a m.oversample m.kind = Micro.readAttr a s.self.oversample s.self.kind := by
    rw [← readAttr_map (fun _ => ()) a _ m.kind, hr.kind, readAttr_map, hr.over]
  rcases e : Micro.readAttr a s.self.oversample s.self.kind with _ | old
  · refine (SimM.pure hr (c := fun _ _ _ => True) (a := ()) (b := ()) trivial).congr ?_ ?_
    · simp only [MState.set, PyM.bind_apply, PyM.get_apply, e]
    · simp only [Micro.set, PyM.bind_apply, PyM.get_apply, Micro.read, hread, e]
  · rcases e2 : numericSet (Micro.vartype a) old v with x | _ | w
    · refine (SimM.raise hr (c := fun _ (_ : Unit) (_ : Unit) => True) x).congr ?_ ?_
      · simp only [MState.set, PyM.bind_apply, PyM.get_apply, e, PyM.lift_apply, e2]; rfl
      · simp only [Micro.set, PyM.bind_apply, PyM.get_apply, Micro.read, hread, e, PyM.lift_apply, e2]; rfl
    · refine (SimM.pure hr (c := fun _ _ _ => True) (a := ()) (b := ()) trivial).congr ?_ ?_
      · simp only [MState.set, PyM.bind_apply, PyM.get_apply, e, PyM.lift_apply, e2]
      · simp only [Micro.set, PyM.bind_apply, PyM.get_apply, Micro.read, hread, e, PyM.lift_apply, e2]
    · have q : MState.set a v s = (.ok (), { s with self := { s.self with oversample := (Micro.writeAttr a w s.self.oversample s.self.kind).1, kind := (Micro.writeAttr a w s.self.oversample s.self.kind).2, psf := none, otf := none } }) := by
        simp only [MState.set, PyM.bind_apply, PyM.get_apply, e, PyM.lift_apply, e2]; rfl
      have q' : Micro.set a v m = (.ok (), { m.write a w with psf := none, otf := none }) := by
        simp only [Micro.set, PyM.bind_apply, PyM.get_apply, Micro.read, hread, e, PyM.lift_apply, e2]; rfl
      have hw : Micro.writeAttr a w m.oversample (m.kind.map fun _ => ()) = Micro.writeAttr a w s.self.oversample (s.self.kind.map fun _ => ()) := by rw [hr.kind, hr.over]
      rw [writeAttr_map, writeAttr_map, Prod.mk.injEq] at hw
      refine ⟨⟨h, ?_, .refl _ _⟩, by rw [q]; exact Mem.Ext.refl _, by rw [q]; exact ⟨rfl, writeAttr_exc _ _ _ _⟩, by rw [q, q']; trivial⟩
      rw [q, q']
      refine ⟨hr.world, hw.1, hr.par, hr.pix, hr.model, hw.2, fun j hj => ?_, ?_, .none, .none⟩
      · simp only [writeAttr_exc] at hj
        obtain ⟨x, h1, h2⟩ := hr.exc j hj
        exact ⟨x, h1, by simp only [Micro.write, writeAttr_exc]; exact h2⟩
      · simp only [writeAttr_exc]; exact hr.ne

theorem sim_setWiener (hr : RelMS s h m) (w : PyVal) : SimM s h m (fun _ _ _ => True) (MState.setWiener w) (Micro.setWiener w) := by
  refine ⟨⟨h, ⟨hr.world, hr.over, hr.par, hr.pix, hr.model, ?_, fun j hj => ?_, ?_, hr.psf, hr.otf⟩, .refl _ _⟩, Mem.Ext.refl _, ⟨rfl, withWiener_exc _ _⟩, trivial⟩
  · show (Micro.withWiener w m.kind).map _ = (Micro.withWiener w s.self.kind).map _
    rw [← withWiener_map, ← withWiener_map, hr.kind]
  · have hj : (Micro.withWiener w s.self.kind).exc = some j := hj
    rw [withWiener_exc] at hj
    obtain ⟨x, h1, h2⟩ := hr.exc j hj
    exact ⟨x, h1, by show (Micro.withWiener w m.kind).exc = _; rw [withWiener_exc]; exact h2⟩
  · show (Micro.withWiener w s.self.kind).exc ≠ _
    rw [withWiener_exc]; exact hr.ne

theorem sim_setOrientations (hr : RelMS s h m) (w : List ℝ) : SimM s h m (fun _ _ _ => True) (MState.setOrientations w) (Micro.setOrientations w) := by
  refine ⟨⟨h, ⟨hr.world, hr.over, hr.par, hr.pix, hr.model, ?_, fun j hj => ?_, ?_, hr.psf, hr.otf⟩, .refl _ _⟩, Mem.Ext.refl _, ⟨rfl, withOrientations_exc _ _⟩, trivial⟩
  · show (Micro.withOrientations w m.kind).map _ = (Micro.withOrientations w s.self.kind).map _
    rw [← withOrientations_map, ← withOrientations_map, hr.kind]
  · have hj : (Micro.withOrientations w s.self.kind).exc = some j := hj
    rw [withOrientations_exc] at hj
    obtain ⟨x, h1, h2⟩ := hr.exc j hj
    exact ⟨x, h1, by show (Micro.withOrientations w m.kind).exc = _; rw [withOrientations_exc]; exact h2⟩
  · show (Micro.withOrientations w s.self.kind).exc ≠ _
    rw [withOrientations_exc]; exact hr.ne

end

end PyOTF
