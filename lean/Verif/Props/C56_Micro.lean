import Verif.Props.C53_C55_Micro
import Verif.Props.C32_C33_Sheppard

/-!
# C56: when the `PSF`, `OTF` of a microscope reflect its current state, and when not

The specification machine has no caches, neither in the microscope nor in its PSF models.
-/

namespace PyOTF

/-! ## The cache-free machine -/

/-- A PSF model without caches. -/
inductive ISpec
  | hanser (s : HSpec)
  | sheppard (p : Params)

namespace ISpec

/-- The instance attributes. -/
def params : ISpec → Params
  | .hanser s => s.params
  | .sheppard p => p

/-- `PSFi`, recomputed. -/
noncomputable def PSFi : ISpec → Py (Arr ℝ)
  | .hanser s => s.PSFi
  | .sheppard p => (SSpec.PSFi p).bind nanFree

/-- `OTFi`, recomputed. -/
noncomputable def OTFi : ISpec → Py (Arr ℂ)
  | .hanser s => s.OTFi
  | .sheppard p => (SSpec.OTFi p).bind nanFree

end ISpec

/-- A microscope without caches. -/
structure MSpec where
  oversample : PyVal
  psfParams : PsfParams
  pixelSize : PyVal
  model : ISpec
  kind : Kind ISpec

namespace MSpec

/-- The PSF of the model, filtered if `wiener` is a number. -/
noncomputable def filtered (s : MSpec) (wiener : PyVal) : Py (Arr ℝ) :=
  if wiener = .none then s.model.PSFi
  else do
    let w ← pyNum wiener
    if PyFloat.ge w (.fin 0) then do
      let otfi ← s.model.OTFi
      match w with
      | .fin q => wienerPsf q otfi
      | _ => throw .nan
    else throw .valueError

/-- `model_psf`, recomputed. -/
noncomputable def modelPsf (s : MSpec) : Py (Arr ℝ) :=
  match s.kind with
  | .widefield => s.model.PSFi
  | .apotome => do
    apotomePsf (← s.model.PSFi) (abbeLimit s.psfParams.wl s.psfParams.na s.psfParams.size s.psfParams.res)
  | .confocal e pinhole _ => do
    let r ← pinholeRadius s.model.params pinhole
    let det ← pinholed r (← s.model.PSFi)
    det.mulB (← e.PSFi)
  | .sim naExc wlExc coherent dc dcSuppress orientations wiener => do
    let n ← Micro.simNum s.psfParams naExc wlExc
    simPsf n (decide (coherent = .bool true)) (decide (dc = .bool true)) (decide (dcSuppress = .bool true)) orientations
      (← s.filtered wiener)

/-- `PSF`, recomputed. -/
noncomputable def PSF (s : MSpec) : Py (Arr ℝ) := do
  microPsf (pyInt s.oversample) (pyInt s.psfParams.size).toNat (← s.modelPsf)

/-- `OTF`, recomputed. -/
noncomputable def OTF (s : MSpec) : Py (Arr ℂ) := do return spectrum (← s.PSF)

/-- An assignment to a numeric property. -/
def set (a : Micro.MAttr) (v : PyVal) (s : MSpec) : Py Unit × MSpec :=
  match Micro.readAttr a s.oversample s.kind with
  | none => (.ok (), s)
  | some old =>
    match numericSet (Micro.vartype a) old v with
    | .error e => (.error e, s)
    | .ok none => (.ok (), s)
    | .ok (some w) => (.ok (), { s with
        oversample := (Micro.writeAttr a w s.oversample s.kind).1, kind := (Micro.writeAttr a w s.oversample s.kind).2 })

end MSpec

/-- An operation on a PSF model: one of a `HanserPSF` or one of a `SheppardPSF`. -/
inductive IOp
  | h (op : HOp)
  | s (op : SOp)

/-- What happens to the PSF model; an operation of the other class does nothing. -/
noncomputable def Inner.after (i : Inner) (op : IOp) : Inner :=
  match i, op with
  | .hanser o, .h op => .hanser (o.step op).2
  | .sheppard o, .s op => .sheppard (o.step op).2
  | i, _ => i

@[inherit_doc Inner.after] noncomputable def ISpec.after (i : ISpec) (op : IOp) : ISpec :=
  match i, op with
  | .hanser s, .h op => .hanser (s.step op).2
  | .sheppard p, .s op => .sheppard (SSpec.step p op).2
  | i, _ => i

/-- Change of the excitation model. -/
def Kind.mapExc {I : Type} (f : I → I) : Kind I → Kind I
  | .confocal e ph w => .confocal (f e) ph w
  | k => k

/-- What a user can do to a microscope: assign numeric properties and read arrays ... -/
inductive POp
  | set (a : Micro.MAttr) (v : PyVal)
  | readPSF
  | readOTF
  | readModelPsf

/-- ... and change plain attributes and the PSF models. -/
inductive UOp
  | p (op : POp)
  | wiener (w : PyVal)
  | orientations (o : List ℝ)
  | model (op : IOp)
  | excModel (op : IOp)

/-- One operation on the microscope. -/
noncomputable def Micro.pstep (m : Micro) : POp → Py (Out (Arr ℂ) (Arr ℝ)) × Micro
  | .set a v => outAs (fun _ => .done) (Micro.set a v m)
  | .readPSF => outAs .real (Micro.getPSF m)
  | .readOTF => outAs .cplx (Micro.getOTF m)
  | .readModelPsf => outAs .real (Micro.modelPsf m)

/-- One operation on the cache-free machine. -/
noncomputable def MSpec.pstep (s : MSpec) : POp → Py (Out (Arr ℂ) (Arr ℝ)) × MSpec
  | .set a v => outAs (fun _ => .done) (s.set a v)
  | .readPSF => (s.PSF.map .real, s)
  | .readOTF => (s.OTF.map .cplx, s)
  | .readModelPsf => (s.modelPsf.map .real, s)

/-- One operation on the microscope. -/
noncomputable def Micro.ustep (m : Micro) : UOp → Py (Out (Arr ℂ) (Arr ℝ)) × Micro
  | .p op => m.pstep op
  | .wiener w => (.ok .done, (Micro.setWiener w m).2)
  | .orientations o => (.ok .done, (Micro.setOrientations o m).2)
  | .model op => (.ok .done, { m with model := m.model.after op })
  | .excModel op => (.ok .done, { m with kind := m.kind.mapExc fun i => i.after op })

/-- One operation on the cache-free machine. -/
noncomputable def MSpec.ustep (s : MSpec) : UOp → Py (Out (Arr ℂ) (Arr ℝ)) × MSpec
  | .p op => s.pstep op
  | .wiener w => (.ok .done, { s with kind := Micro.withWiener w s.kind })
  | .orientations o => (.ok .done, { s with kind := Micro.withOrientations o s.kind })
  | .model op => (.ok .done, { s with model := s.model.after op })
  | .excModel op => (.ok .done, { s with kind := s.kind.mapExc fun i => i.after op })

/-! ## The simulation -/

/-- The PSF model `i` represents `s`. -/
def IRel : Inner → ISpec → Prop
  | .hanser o, .hanser s => HRel o s
  | .sheppard o, .sheppard p => SRel o p
  | _, _ => False

/-- The same kind of microscope with the same attributes. -/
def KRel : Kind Inner → Kind ISpec → Prop
  | .widefield, .widefield => True
  | .apotome, .apotome => True
  | .confocal e ph w, .confocal e' ph' w' => IRel e e' ∧ ph = ph' ∧ w = w'
  | .sim n l c d s o w, .sim n' l' c' d' s' o' w' => n = n' ∧ l = l' ∧ c = c' ∧ d = d' ∧ s = s' ∧ o = o' ∧ w = w'
  | _, _ => False

/-- The microscope `m` has the configuration `s`. -/
structure MLive (m : Micro) (s : MSpec) : Prop where
  oversample : m.oversample = s.oversample
  psfParams : m.psfParams = s.psfParams
  pixelSize : m.pixelSize = s.pixelSize
  model : IRel m.model s.model
  kind : KRel m.kind s.kind

/-- The caches of `m` hold the arrays of configuration `s`. -/
structure CacheOK (m : Micro) (s : MSpec) : Prop where
  psf : ∀ a, m.psf = some a → s.PSF = .ok a
  otf : ∀ t, m.otf = some t → s.OTF = .ok t

theorem IRel.params {i : Inner} {s : ISpec} (h : IRel i s) : i.params = s.params := by
  cases i <;> cases s <;> simp only [IRel] at h
  · exact h.params
  · exact h.params

theorem inner_PSFi {i : Inner} {s : ISpec} (h : IRel i s) : (Inner.getPSFi i).1 = s.PSFi ∧ IRel (Inner.getPSFi i).2 s := by
  cases i <;> cases s <;> simp only [IRel] at h
  · exact getPSFi_rel h
  · obtain ⟨h1, h2⟩ := SObj.getPSFi_rel h
    exact ⟨by simp only [Inner.getPSFi, ISpec.PSFi, h1], h2⟩

theorem inner_OTFi {i : Inner} {s : ISpec} (h : IRel i s) : (Inner.getOTFi i).1 = s.OTFi ∧ IRel (Inner.getOTFi i).2 s := by
  cases i <;> cases s <;> simp only [IRel] at h
  · exact getOTFi_rel h
  · obtain ⟨h1, h2⟩ := SObj.getOTFi_rel h
    exact ⟨by simp only [Inner.getOTFi, ISpec.OTFi, h1], h2⟩

theorem inner_after {i : Inner} {s : ISpec} (h : IRel i s) (op : IOp) : IRel (i.after op) (s.after op) := by
  cases i <;> cases s <;> simp only [IRel] at h <;> cases op <;> simp only [Inner.after, ISpec.after, IRel]
  · exact (step_rel h _).2
  · exact h
  · exact h
  · exact (SObj.step_rel h _).2

/-- `f` computes `v` in configuration `s`, without disturbing it. -/
def Computes {α : Type} (s : MSpec) (f : PyM Micro α) (v : Py α) : Prop :=
  ∀ m, MLive m s → (f m).1 = v ∧ MLive (f m).2 s

theorem computes_bind {α β : Type} {s : MSpec} {f : PyM Micro α} {v : Py α} {g : α → PyM Micro β} {w : α → Py β}
    (hf : Computes s f v) (hg : ∀ a, Computes s (g a) (w a)) : Computes s (f >>= g) (v >>= w) := by
  intro m hm
  obtain ⟨h1, h2⟩ := hf m hm
  rw [PyM.bind_apply]
  rcases hfm : f m with ⟨e | a, m'⟩
  · rw [hfm] at h1 h2
    rw [← h1]; exact ⟨rfl, h2⟩
  · rw [hfm] at h1 h2
    rw [← h1]; exact hg a m' h2

theorem computes_lift {α : Type} {s : MSpec} (x : Py α) : Computes s (PyM.lift x) x := fun _ h => ⟨rfl, h⟩

theorem computes_raise {α : Type} {s : MSpec} (e : Err) : Computes s (PyM.raise e : PyM Micro α) (throw e) :=
  fun _ h => ⟨rfl, h⟩

theorem computes_PSFi (s : MSpec) : Computes s (Micro.onModel Inner.getPSFi) s.model.PSFi := by
  intro m h
  obtain ⟨h1, h2⟩ := inner_PSFi h.model
  exact ⟨h1, ⟨h.oversample, h.psfParams, h.pixelSize, h2, h.kind⟩⟩

theorem computes_OTFi (s : MSpec) : Computes s (Micro.onModel Inner.getOTFi) s.model.OTFi := by
  intro m h
  obtain ⟨h1, h2⟩ := inner_OTFi h.model
  exact ⟨h1, ⟨h.oversample, h.psfParams, h.pixelSize, h2, h.kind⟩⟩

theorem computes_exc (s : MSpec) (e : ISpec) (ph : PyVal) (w : Option PyVal) (hk : s.kind = .confocal e ph w) :
    Computes s (Micro.onExc Inner.getPSFi) e.PSFi := by
  intro m h
  have hkm := h.kind
  rw [hk] at hkm
  rcases hm : m.kind with _ | _ | ⟨e', ph', w'⟩ | _ <;> rw [hm] at hkm <;> simp only [KRel] at hkm
  obtain ⟨k1, k2, k3⟩ := hkm
  obtain ⟨h1, h2⟩ := inner_PSFi k1
  simp only [Micro.onExc, hm]
  refine ⟨h1, ⟨h.oversample, h.psfParams, h.pixelSize, h.model, ?_⟩⟩
  rw [hk]
  exact ⟨h2, k2, k3⟩

theorem computes_filtered (s : MSpec) (w : PyVal) : Computes s (Micro.simFiltered w) (s.filtered w) := by
  unfold Micro.simFiltered MSpec.filtered
  split_ifs
  · exact computes_PSFi s
  · refine computes_bind (computes_lift _) fun x => ?_
    split_ifs
    · refine computes_bind (computes_OTFi s) fun t => ?_
      cases x
      · exact computes_lift _
      · exact computes_raise _
      · exact computes_raise _
    · exact computes_raise _

theorem computes_modelPsf (s : MSpec) : Computes s Micro.modelPsf s.modelPsf := by
  intro m h
  have hkm := h.kind
  have e : Micro.modelPsf m = (match m.kind with
      | .widefield => Micro.onModel Inner.getPSFi
      | .apotome => do
        let psfi ← Micro.onModel Inner.getPSFi
        PyM.lift (apotomePsf psfi (abbeLimit m.psfParams.wl m.psfParams.na m.psfParams.size m.psfParams.res))
      | .confocal _ pinhole _ => do
        let r ← PyM.lift (pinholeRadius m.model.params pinhole)
        let psfi ← Micro.onModel Inner.getPSFi
        let det ← PyM.lift (pinholed r psfi)
        let exc ← Micro.onExc Inner.getPSFi
        PyM.lift (det.mulB exc)
      | .sim naExc wlExc coherent dc dcSuppress orientations wiener => do
        let s ← PyM.lift (Micro.simNum m.psfParams naExc wlExc)
        let psf ← Micro.simFiltered wiener
        PyM.lift (simPsf s (decide (coherent = .bool true)) (decide (dc = .bool true)) (decide (dcSuppress = .bool true))
          orientations psf) : PyM Micro (Arr ℝ)) m := rfl
  rw [e]
  unfold MSpec.modelPsf
  rcases hk : m.kind with _ | _ | ⟨e', ph', w'⟩ | ⟨n, l, c, d, ds, o, w⟩ <;> rcases hs : s.kind with _ | _ | ⟨e'', ph'', w''⟩ | _ <;>
    rw [hk, hs] at hkm <;> simp only [KRel] at hkm
  · exact computes_PSFi s m h
  · rw [h.psfParams]
    exact computes_bind (computes_PSFi s) (fun _ => computes_lift _) m h
  · obtain ⟨-, rfl, -⟩ := hkm
    rw [h.model.params]
    exact computes_bind (computes_lift _) (fun r => computes_bind (computes_PSFi s) fun p => computes_bind (computes_lift _)
      fun det => computes_bind (computes_exc s _ _ _ hs) fun _ => computes_lift _) m h
  · obtain ⟨rfl, rfl, rfl, rfl, rfl, rfl, rfl⟩ := hkm
    rw [h.psfParams]
    exact computes_bind (computes_lift _) (fun r => computes_bind (computes_filtered s _) fun p => computes_lift _) m h

theorem pget_PSF {m : Micro} {s : MSpec} (h : MLive m s) (hc : CacheOK m s) :
    (Micro.getPSF m).1 = s.PSF ∧ MLive (Micro.getPSF m).2 s ∧ CacheOK (Micro.getPSF m).2 s := by
  rw [getPSF_run]
  rcases hp : m.psf with _ | a
  · obtain ⟨h1, h2⟩ := computes_modelPsf s m h
    have hk := keeps_modelPsf m
    have es : s.PSF = s.modelPsf.bind fun a => microPsf (pyInt m.oversample) (pyInt m.psfParams.size).toNat a := by
      rw [h.oversample, h.psfParams]; rfl
    rcases hm : Micro.modelPsf m with ⟨e | a, m'⟩
    · rw [hm] at h1 h2 hk
      have k1 : m'.psf = m.psf := hk.1
      have k2 : m'.otf = m.otf := hk.2.1
      refine ⟨by rw [es, ← h1]; rfl, h2, ⟨?_, ?_⟩⟩
      · simp only [k1, hp]; simp
      · intro t ht; exact hc.otf t (k2 ▸ ht)
    · rw [hm] at h1 h2 hk
      have k1 : m'.psf = m.psf := hk.1
      have k2 : m'.otf = m.otf := hk.2.1
      have es' : s.PSF = microPsf (pyInt m.oversample) (pyInt m.psfParams.size).toNat a := by rw [es, ← h1]; rfl
      simp only []
      rcases hb : microPsf (pyInt m.oversample) (pyInt m.psfParams.size).toNat a with e | b
      · refine ⟨by rw [es', hb], h2, ⟨?_, ?_⟩⟩
        · simp only [k1, hp]; simp
        · intro t ht; exact hc.otf t (k2 ▸ ht)
      · refine ⟨by rw [es', hb], ⟨h2.oversample, h2.psfParams, h2.pixelSize, h2.model, h2.kind⟩, ⟨?_, ?_⟩⟩
        · intro b' hb'; cases hb'; rw [es', hb]
        · intro t ht; exact hc.otf t (k2 ▸ ht)
  · exact ⟨(hc.psf a hp).symm, h, hc⟩

theorem pget_OTF {m : Micro} {s : MSpec} (h : MLive m s) (hc : CacheOK m s) :
    (Micro.getOTF m).1 = s.OTF ∧ MLive (Micro.getOTF m).2 s ∧ CacheOK (Micro.getOTF m).2 s := by
  rw [getOTF_run]
  rcases hp : m.otf with _ | t
  · obtain ⟨h1, h2, h3⟩ := pget_PSF h hc
    have es : s.OTF = s.PSF.bind fun a => .ok (spectrum a) := rfl
    rcases hm : Micro.getPSF m with ⟨e | a, m'⟩
    · rw [hm] at h1 h2 h3
      exact ⟨by rw [es, ← h1]; rfl, h2, h3⟩
    · rw [hm] at h1 h2 h3
      have es' : s.OTF = .ok (spectrum a) := by rw [es, ← h1]; rfl
      refine ⟨by rw [es'], ⟨h2.oversample, h2.psfParams, h2.pixelSize, h2.model, h2.kind⟩, ⟨h3.psf, ?_⟩⟩
      intro t ht; cases ht; exact es'
  · exact ⟨(hc.otf t hp).symm, h, hc⟩

theorem krel_read {k : Kind Inner} {k' : Kind ISpec} (h : KRel k k') (a : Micro.MAttr) (o : PyVal) :
    Micro.readAttr a o k = Micro.readAttr a o k' := by
  cases k <;> cases k' <;> simp only [KRel] at h
  · cases a <;> rfl
  · cases a <;> rfl
  · obtain ⟨-, rfl, rfl⟩ := h
    cases a <;> rfl
  · obtain ⟨rfl, rfl, rfl, rfl, rfl, rfl, rfl⟩ := h
    cases a <;> rfl

theorem krel_write {k : Kind Inner} {k' : Kind ISpec} (h : KRel k k') (a : Micro.MAttr) (v o : PyVal) :
    (Micro.writeAttr a v o k).1 = (Micro.writeAttr a v o k').1 ∧ KRel (Micro.writeAttr a v o k).2 (Micro.writeAttr a v o k').2 := by
  cases k <;> cases k' <;> simp only [KRel] at h
  · cases a <;> exact ⟨rfl, trivial⟩
  · cases a <;> exact ⟨rfl, trivial⟩
  · obtain ⟨h, rfl, rfl⟩ := h
    cases a <;> exact ⟨rfl, h, rfl, rfl⟩
  · obtain ⟨rfl, rfl, rfl, rfl, rfl, rfl, rfl⟩ := h
    cases a <;> exact ⟨rfl, rfl, rfl, rfl, rfl, rfl, rfl, rfl⟩

theorem pset {m : Micro} {s : MSpec} (h : MLive m s) (a : Micro.MAttr) (v : PyVal) :
    (Micro.set a v m).1 = (s.set a v).1 ∧ MLive (Micro.set a v m).2 (s.set a v).2 ∧
    (CacheOK m s → CacheOK (Micro.set a v m).2 (s.set a v).2) := by
  have hr : m.read a = Micro.readAttr a s.oversample s.kind := by
    rw [Micro.read, h.oversample]; exact krel_read h.kind a _
  rw [set_run, hr, MSpec.set]
  rcases Micro.readAttr a s.oversample s.kind with _ | old
  · exact ⟨rfl, h, id⟩
  · simp only []
    rcases numericSet (Micro.vartype a) old v with e | _ | w
    · exact ⟨rfl, h, id⟩
    · exact ⟨rfl, h, id⟩
    · obtain ⟨k1, k2⟩ := krel_write h.kind a w m.oversample
      rw [h.oversample] at k1 k2
      refine ⟨rfl, ⟨?_, h.psfParams, h.pixelSize, h.model, ?_⟩, fun _ => ⟨by simp, by simp⟩⟩
      · simp only [Micro.write, h.oversample, k1]
      · simp only [Micro.write, h.oversample]; exact k2

theorem pstep_rel {m : Micro} {s : MSpec} (h : MLive m s) (hc : CacheOK m s) (op : POp) :
    (m.pstep op).1 = (s.pstep op).1 ∧ MLive (m.pstep op).2 (s.pstep op).2 ∧ CacheOK (m.pstep op).2 (s.pstep op).2 := by
  cases op with
  | set a v =>
    obtain ⟨h1, h2, h3⟩ := pset h a v
    exact ⟨by simp only [Micro.pstep, MSpec.pstep, outAs, h1], h2, h3 hc⟩
  | readPSF =>
    obtain ⟨h1, h2, h3⟩ := pget_PSF h hc
    exact ⟨by simp only [Micro.pstep, MSpec.pstep, outAs, h1], h2, h3⟩
  | readOTF =>
    obtain ⟨h1, h2, h3⟩ := pget_OTF h hc
    exact ⟨by simp only [Micro.pstep, MSpec.pstep, outAs, h1], h2, h3⟩
  | readModelPsf =>
    obtain ⟨h1, h2⟩ := computes_modelPsf s m h
    have hk := keeps_modelPsf m
    exact ⟨by simp only [Micro.pstep, MSpec.pstep, outAs, h1], h2, fun a ha => hc.psf a (hk.1 ▸ ha),
      fun a ha => hc.otf a (hk.2.1 ▸ ha)⟩

/-- Reads do not change the configuration, whatever the caches hold. -/
theorem live_of_read {m : Micro} {s : MSpec} (h : MLive m s) : MLive (Micro.getPSF m).2 s ∧ MLive (Micro.getOTF m).2 s := by
  have hpsf : MLive (Micro.getPSF m).2 s := by
    rw [getPSF_run]
    rcases hp : m.psf with _ | a
    · obtain ⟨h1, h2⟩ := computes_modelPsf s m h
      rcases hm : Micro.modelPsf m with ⟨e | a, m'⟩
      · rw [hm] at h2; exact h2
      · rw [hm] at h2
        simp only []
        rcases hb : microPsf (pyInt m.oversample) (pyInt m.psfParams.size).toNat a with e | b
        · exact h2
        · exact ⟨h2.oversample, h2.psfParams, h2.pixelSize, h2.model, h2.kind⟩
    · exact h
  refine ⟨hpsf, ?_⟩
  rw [getOTF_run]
  rcases hp : m.otf with _ | a
  · rcases hm : Micro.getPSF m with ⟨e | a, m'⟩
    · rw [hm] at hpsf; exact hpsf
    · rw [hm] at hpsf
      exact ⟨hpsf.oversample, hpsf.psfParams, hpsf.pixelSize, hpsf.model, hpsf.kind⟩
  · exact h

theorem ustep_live {m : Micro} {s : MSpec} (h : MLive m s) (op : UOp) : MLive (m.ustep op).2 (s.ustep op).2 := by
  cases op with
  | p op =>
    cases op with
    | set a v => exact (pset h a v).2.1
    | readPSF => exact (live_of_read h).1
    | readOTF => exact (live_of_read h).2
    | readModelPsf => exact (computes_modelPsf s m h).2
  | wiener w =>
    refine ⟨h.oversample, h.psfParams, h.pixelSize, h.model, ?_⟩
    have := h.kind
    simp only [Micro.ustep, Micro.setWiener, PyM.modify_apply, MSpec.ustep]
    revert this
    cases m.kind <;> cases s.kind <;> simp only [KRel, Micro.withWiener] <;> tauto
  | orientations o =>
    refine ⟨h.oversample, h.psfParams, h.pixelSize, h.model, ?_⟩
    have := h.kind
    simp only [Micro.ustep, Micro.setOrientations, PyM.modify_apply, MSpec.ustep]
    revert this
    cases m.kind <;> cases s.kind <;> simp only [KRel, Micro.withOrientations] <;> tauto
  | model op => exact ⟨h.oversample, h.psfParams, h.pixelSize, inner_after h.model op, h.kind⟩
  | excModel op =>
    refine ⟨h.oversample, h.psfParams, h.pixelSize, h.model, ?_⟩
    have := h.kind
    simp only [Micro.ustep, MSpec.ustep]
    revert this
    cases m.kind <;> cases s.kind <;> simp only [KRel, Kind.mapExc] <;> try tauto
    rintro ⟨h1, h2, h3⟩
    exact ⟨inner_after h1 op, h2, h3⟩

theorem urun_live {m : Micro} {s : MSpec} (h : MLive m s) (ops : List UOp) :
    MLive (runHistory Micro.ustep m ops).2 (runHistory MSpec.ustep s ops).2 := by
  induction ops generalizing m s with
  | nil => exact h
  | cons op ops ih => exact ih (ustep_live h op)

theorem prun_rel {m : Micro} {s : MSpec} (h : MLive m s) (hc : CacheOK m s) (ops : List POp) :
    (runHistory Micro.pstep m ops).1 = (runHistory MSpec.pstep s ops).1 := by
  induction ops generalizing m s with
  | nil => rfl
  | cons op ops ih =>
    obtain ⟨h1, h2, h3⟩ := pstep_rel h hc op
    simp only [runHistory]
    rw [h1, ih h2 h3]

/-! ## Construction -/

/-- The cache-free view of a PSF model to which no pupil has been applied. -/
def Inner.spec : Inner → ISpec
  | .hanser o => .hanser ⟨o.params, none⟩
  | .sheppard o => .sheppard o.params

/-- The cache-free view of a newly constructed microscope. -/
def Micro.spec (m : Micro) : MSpec :=
  { oversample := m.oversample, psfParams := m.psfParams, pixelSize := m.pixelSize, model := m.model.spec
    kind := match m.kind with
      | .widefield => .widefield
      | .apotome => .apotome
      | .confocal e ph w => .confocal e.spec ph w
      | .sim n l c d s o w => .sim n l c d s o w }

theorem chooseModel_rel {v : PyVal} {p : PsfParams} {i : Inner} (h : chooseModel v p = .ok i) : IRel i i.spec := by
  cases v with
  | str s =>
    simp only [chooseModel] at h
    by_cases h1 : s.toLower = "hanser"
    · rw [if_pos h1] at h
      by_cases h2 : p.kw.dual.isSome = true
      · rw [if_pos h2] at h; cases h
      · rw [if_neg h2] at h
        obtain ⟨o, ho, h⟩ := py_bind_ok h
        cases h
        obtain ⟨k1, k2⟩ := hanser_ready ho
        show HRel o ⟨o.params, none⟩
        rw [k2]; exact HRel.cleared k1
    · rw [if_neg h1] at h
      by_cases h3 : s.toLower = "sheppard"
      · rw [if_pos h3] at h
        by_cases h2 : p.kw.zrange.isSome = true
        · rw [if_pos h2] at h; cases h
        · rw [if_neg h2] at h
          obtain ⟨o, ho, h⟩ := py_bind_ok h
          cases h
          obtain ⟨k1, k2⟩ := sheppard_ready ho
          show SRel o o.params
          rw [k2]; exact SObj.rel_cleared k1
      · rw [if_neg h3] at h; cases h
  | _ => cases h

theorem inner_set_rel {i : Inner} (h : IRel i i.spec) (a : Attr) (v : PyVal) :
    IRel (Inner.set a v i).2 (Inner.set a v i).2.spec := by
  cases i with
  | hanser o =>
    have h' : HRel o ⟨o.params, none⟩ := h
    have := (set_rel h' a v).2
    show HRel (setAttr .hanser a v o).2 ⟨(setAttr .hanser a v o).2.params, none⟩
    have e : (HSpec.set a v ⟨o.params, none⟩).2 = ⟨(setAttr .hanser a v o).2.params, none⟩ := by
      have e1 : (HSpec.set a v ⟨o.params, none⟩).2.params = (setAttr .hanser a v o).2.params := this.params.symm
      have e2 : (HSpec.set a v ⟨o.params, none⟩).2.pupil = none := by
        unfold HSpec.set
        simp only []
        split
        · rfl
        · simp
      cases hh : (HSpec.set a v ⟨o.params, none⟩).2
      rw [hh] at e1 e2
      simp only at e1 e2
      rw [e1, e2]
    rw [← e]
    exact this
  | sheppard o =>
    have h' : SRel o o.params := h
    have := (SObj.step_rel h' (.set a v)).2
    show SRel (setAttr .sheppard a v o).2 (setAttr .sheppard a v o).2.params
    have e : (SSpec.step o.params (.set a v)).2 = (setAttr .sheppard a v o).2.params := this.params.symm
    rw [← e]
    exact this

theorem newWidefield_rel {a : MicroArgs} {m : Micro} (h : Micro.newWidefield a = .ok m) : IRel m.model m.model.spec ∧
    m.kind = .widefield := by
  unfold Micro.newWidefield at h
  obtain ⟨o, -, h⟩ := py_bind_ok h
  obtain ⟨sr, -, h⟩ := py_bind_ok h
  obtain ⟨mo, hmo, h⟩ := py_bind_ok h
  cases h
  exact ⟨chooseModel_rel hmo, rfl⟩

theorem constructed_live {m : Micro} (h : Constructed m) : MLive m m.spec := by
  rcases h with ⟨a, h⟩ | ⟨a, h⟩ | ⟨a, wl, ph, h⟩ | ⟨a, na, wl, w, co, dc, ds, os, h⟩
  · obtain ⟨h1, h2⟩ := newWidefield_rel h
    exact ⟨rfl, rfl, rfl, h1, by simp only [Micro.spec, h2, KRel]⟩
  · unfold Micro.newApotome at h
    obtain ⟨m', h', h⟩ := py_bind_ok h
    obtain ⟨h1, h2⟩ := newWidefield_rel h'
    cases h
    exact ⟨rfl, rfl, rfl, h1, trivial⟩
  · unfold Micro.newConfocal at h
    obtain ⟨m', h', h⟩ := py_bind_ok h
    obtain ⟨p, -, h⟩ := py_bind_ok h
    obtain ⟨h1, h2⟩ := newWidefield_rel h'
    have h3 := inner_set_rel h1 .wl wl
    rcases hs : Inner.set .wl wl m'.model with ⟨e | u, exc⟩
    · rw [hs] at h; cases h
    · rw [hs] at h h3; cases h
      exact ⟨rfl, rfl, rfl, h1, h3, rfl, rfl⟩
  · unfold Micro.newSIM at h
    obtain ⟨m', h', h⟩ := py_bind_ok h
    obtain ⟨x1, -, h⟩ := py_bind_ok h
    obtain ⟨x2, -, h⟩ := py_bind_ok h
    obtain ⟨x3, -, h⟩ := py_bind_ok h
    obtain ⟨x4, -, h⟩ := py_bind_ok h
    obtain ⟨x5, -, h⟩ := py_bind_ok h
    obtain ⟨x6, -, h⟩ := py_bind_ok h
    obtain ⟨h1, h2⟩ := newWidefield_rel h'
    cases x6
    · cases h
      exact ⟨rfl, rfl, rfl, h1, rfl, rfl, rfl, rfl, rfl, rfl, rfl⟩
    · cases h

/-! ## C56 -/

/-- C56: for a new microscope of any kind and any history of assignments to its numeric properties (accepted or rejected)
and reads, every operation returns or raises what the cache-free microscope does. -/
theorem C56_coherent (m : Micro) (hm : Constructed m) (ops : List POp) :
    (runHistory Micro.pstep m ops).1 = (runHistory MSpec.pstep m.spec ops).1 := by
  obtain ⟨h1, h2⟩ := constructed_fresh hm
  exact prun_rel (constructed_live hm) ⟨by rw [h1]; simp, by rw [h2]; simp⟩ ops

/-- An assignment that stores something: the property exists, the value is accepted and differs from the stored one. -/
def Effective (m : Micro) (a : Micro.MAttr) (v : PyVal) : Prop :=
  ∃ old w, m.read a = some old ∧ numericSet (Micro.vartype a) old v = .ok (some w)

/-- C56: after an arbitrary history, changes of `wiener`, `orientations` and of the PSF models included, any assignment to a
numeric property that stores a new value brings the microscope up to date: every later operation (of the first kind)
returns or raises what the cache-free microscope with the current configuration does. -/
theorem C56_refresh (m : Micro) (hm : Constructed m) (ops : List UOp) (a : Micro.MAttr) (v : PyVal) (ops' : List POp)
    (he : Effective (runHistory Micro.ustep m ops).2 a v) :
    (runHistory Micro.pstep (Micro.set a v (runHistory Micro.ustep m ops).2).2 ops').1 =
    (runHistory MSpec.pstep (MSpec.set a v (runHistory MSpec.ustep m.spec ops).2).2 ops').1 := by
  have hl := urun_live (constructed_live hm) ops
  refine prun_rel (pset hl a v).2.1 ?_ ops'
  obtain ⟨old, w, h1, h2⟩ := he
  rw [set_run, h1]
  simp only [h2]
  exact ⟨by simp, by simp⟩

/-- A change that the microscope does not notice. -/
def Unnoticed : UOp → Prop
  | .p _ => False
  | _ => True

theorem unnoticed_step {m : Micro} {op : UOp} (h : Unnoticed op) : (m.ustep op).2.psf = m.psf ∧ (m.ustep op).2.otf = m.otf := by
  cases op with
  | p op => exact h.elim
  | wiener w => exact ⟨rfl, rfl⟩
  | orientations o => exact ⟨rfl, rfl⟩
  | model op => exact ⟨rfl, rfl⟩
  | excModel op => exact ⟨rfl, rfl⟩

theorem unnoticed_run {m : Micro} {ops : List UOp} (h : ∀ op ∈ ops, Unnoticed op) :
    (runHistory Micro.ustep m ops).2.psf = m.psf ∧ (runHistory Micro.ustep m ops).2.otf = m.otf := by
  induction ops generalizing m with
  | nil => exact ⟨rfl, rfl⟩
  | cons op ops ih =>
    obtain ⟨h1, h2⟩ := ih (m := (m.ustep op).2) fun op hop => h op (by simp [hop])
    obtain ⟨k1, k2⟩ := unnoticed_step (m := m) (h op (by simp))
    exact ⟨h1.trans k1, h2.trans k2⟩

/-- C56: once `PSF` has been read, no change of `wiener`, of `orientations` or of a PSF model has any effect on what `PSF`
reads, and the same for `OTF`. -/
theorem C56_stale (m : Micro) (ops : List UOp) (h : ∀ op ∈ ops, Unnoticed op) :
    (∀ a, (Micro.getPSF m).1 = .ok a → (Micro.getPSF (runHistory Micro.ustep (Micro.getPSF m).2 ops).2).1 = .ok a) ∧
    (∀ t, (Micro.getOTF m).1 = .ok t → (Micro.getOTF (runHistory Micro.ustep (Micro.getOTF m).2 ops).2).1 = .ok t) := by
  constructor
  · intro a ha
    have hp : (Micro.getPSF m).2.psf = some a := by
      rw [getPSF_run] at ha ⊢
      rcases hp : m.psf with _ | a'
      · rw [hp] at ha
        rcases hm : Micro.modelPsf m with ⟨e | p, m'⟩
        · rw [hm] at ha; cases ha
        · rw [hm] at ha
          simp only [] at ha ⊢
          rcases hb : microPsf (pyInt m.oversample) (pyInt m.psfParams.size).toNat p with e | b
          · rw [hb] at ha; cases ha
          · rw [hb] at ha; cases ha; rfl
      · rw [hp] at ha; cases ha; exact hp
    rw [getPSF_run, (unnoticed_run h).1, hp]
  · intro t ht
    have hp : (Micro.getOTF m).2.otf = some t := by
      rw [getOTF_run] at ht ⊢
      rcases hp : m.otf with _ | a'
      · rw [hp] at ht
        rcases hm : Micro.getPSF m with ⟨e | p, m'⟩
        · rw [hm] at ht; cases ht
        · rw [hm] at ht; cases ht; rfl
      · rw [hp] at ht; cases ht; exact hp
    rw [getOTF_run, (unnoticed_run h).2, hp]

/-- C56: assigning `oversample_factor` does not re-sample: the model, its grid and hence `model_psf` stay what they are, only
the binning changes. -/
theorem C56_oversample_assignment (m₀ : Micro) (h₀ : Constructed m₀) (ops : List UOp) (m : Micro)
    (hm : m = (runHistory Micro.ustep m₀ ops).2) (v : PyVal) :
    (Micro.set .oversample v m).2.psfParams = m.psfParams ∧ (Micro.set .oversample v m).2.model = m.model ∧
    (Micro.set .oversample v m).2.pixelSize = m.pixelSize ∧
    (Micro.modelPsf (Micro.set .oversample v m).2).1 = (Micro.modelPsf m).1 := by
  obtain ⟨s, h⟩ : ∃ s, MLive m s := ⟨_, hm ▸ urun_live (constructed_live h₀) ops⟩
  have e : (Micro.set .oversample v m).2 = m ∨ ∃ w, (Micro.set .oversample v m).2 = { m with oversample := w, psf := none, otf := none } := by
    rw [set_run]
    simp only [Micro.read, Micro.readAttr]
    rcases numericSet (Micro.vartype .oversample) (some m.oversample) v with e | _ | w
    · exact Or.inl rfl
    · exact Or.inl rfl
    · exact Or.inr ⟨w, rfl⟩
  rcases e with e | ⟨w, e⟩
  · rw [e]; exact ⟨rfl, rfl, rfl, rfl⟩
  · rw [e]
    refine ⟨rfl, rfl, rfl, ?_⟩
    have h' : MLive { m with oversample := w, psf := none, otf := none } { s with oversample := w } :=
      ⟨rfl, h.psfParams, h.pixelSize, h.model, h.kind⟩
    rw [(computes_modelPsf _ _ h').1, (computes_modelPsf s m h).1]
    rfl

end PyOTF
