import Verif.Lemmas.ThreadsLift
import Verif.Props.C56_Micro
import Verif.Props.C137_Clients

/-!
# Threads that read microscopes keep the microscopes as they are
-/

namespace PyOTF

open LTM

/-! ## Values -/

/-- What reading `PSF` gives: the cached array, or else the one computed from the configuration `s`. -/
noncomputable def psfValue (psf : Option (Arr ℝ)) (s : MSpec) : Py (Arr ℝ) :=
  match psf with
  | some a => .ok a
  | none => s.PSF

/-- What reading `OTF` gives. -/
noncomputable def otfValue (psf : Option (Arr ℝ)) (otf : Option (Arr ℂ)) (s : MSpec) : Py (Arr ℂ) :=
  match otf with
  | some t => .ok t
  | none => psfValue psf s >>= fun a => .ok (spectrum a)

/-- The configuration without caches. -/
def MConfig.spec (f : MRef → ISpec) (c : MConfig) : MSpec :=
  { oversample := c.oversample, psfParams := c.psfParams, pixelSize := c.pixelSize, model := f c.model, kind := c.kind.swap f }

/-- Everything that is fixed: the microscopes at the start, what their models represent, whose `PSF` and `OTF` may be
stored. -/
structure Frame where
  mics : ℕ → MCell
  hans : ℕ → HSpec
  shep : ℕ → Params
  mayPSF : ℕ → Prop
  mayOTF : ℕ → Prop

namespace Frame

variable (F : Frame)

/-- What a reference stands for. -/
def inner : MRef → ISpec
  | .hanser i => .hanser (F.hans i)
  | .sheppard i => .sheppard (F.shep i)

/-- The configuration of microscope `i`. -/
def spec (i : ℕ) : MSpec := (F.mics i).cfg.spec F.inner

/-- The values of the two outputs. -/
noncomputable def PSF (i : ℕ) : Py (Arr ℝ) := psfValue (F.mics i).psf (F.spec i)
@[inherit_doc PSF] noncomputable def OTF (i : ℕ) : Py (Arr ℂ) := otfValue (F.mics i).psf (F.mics i).otf (F.spec i)

end Frame

/-- The state of microscope `i` in frame `F`. -/
structure CellOK (F : Frame) (i : ℕ) (c : MCell) : Prop where
  cfg : c.cfg = (F.mics i).cfg
  psf : ∀ a, c.psf = some a → F.PSF i = .ok a
  otf : ∀ t, c.otf = some t → F.OTF i = .ok t
  psf0 : (F.mics i).psf.isSome → c.psf.isSome
  otf0 : (F.mics i).otf.isSome → c.otf.isSome
  mayPSF : c.psf.isSome → (F.mics i).psf.isSome ∨ F.mayPSF i
  mayOTF : c.otf.isSome → (F.mics i).otf.isSome ∨ F.mayOTF i
  both : c.otf.isSome → (F.mics i).otf.isSome ∨ c.psf.isSome

/-- What holds while threads read. -/
structure LabInv (F : Frame) (w : Lab) : Prop where
  hans : TInv F.hans w.hans
  shep : SInv F.shep (fun _ => False) w.shep
  mics : ∀ i, CellOK F i (w.mics i)

/-- What is cached in a microscope stays cached. -/
def CellLe (c d : MCell) : Prop := (c.psf.isSome → d.psf.isSome) ∧ (c.otf.isSome → d.otf.isSome)

/-- What the threads preserve in the whole memory. -/
structure LabLe (F : Frame) (w v : Lab) : Prop where
  hans : heapLe F.hans w.hans v.hans
  shep : sLe F.shep w.shep v.shep
  mics : ∀ i, CellLe (w.mics i) (v.mics i)

theorem labLe_refl (F : Frame) (w : Lab) : LabLe F w w := ⟨heapLe_refl _ _, sLe_refl _ _, fun _ => ⟨id, id⟩⟩

theorem labLe_trans (F : Frame) (a b c : Lab) (h : LabLe F a b) (h' : LabLe F b c) : LabLe F a c :=
  ⟨heapLe_trans _ _ _ _ h.hans h'.hans, sLe_trans _ _ _ _ h.shep h'.shep,
    fun i => ⟨fun hp => (h'.mics i).1 ((h.mics i).1 hp), fun hp => (h'.mics i).2 ((h.mics i).2 hp)⟩⟩

theorem LabInv.inner {F : Frame} {w : Lab} (h : LabInv F w) (r : MRef) : IRel (w.inner r) (F.inner r) := by
  cases r with
  | hanser i => exact h.hans i
  | sheppard i => exact (h.shep i).1

/-! ## The judgement -/

/-- The program is safe, returns or raises `x`, and `G` is true of the memory afterwards if it returns. -/
abbrev LSafeG (F : Frame) {α : Type} (x : Py α) (G : Lab → Prop) (p : LTM α) (w : Lab) : Prop :=
  Prog.Safe (LabInv F) (LabLe F) (fun v r => r = x ∧ ((∃ a, r = .ok a) → G v)) p w

/-- The same without `G`. -/
abbrev LSafe (F : Frame) {α : Type} (x : Py α) (p : LTM α) (w : Lab) : Prop :=
  Prog.Safe (LabInv F) (LabLe F) (fun _ r => r = x) p w

section

variable {F : Frame} {α β : Type}

theorem lsafe_bindG {x : Py α} {g : α → Py β} {G : Lab → Prop} {p : LTM α} {f : α → LTM β} {w : Lab} (hI : LabInv F w)
    (hp : LSafe F x p w) (hf : ∀ a v, x = .ok a → LabInv F v → LSafeG F (g a) G (f a) v) :
    LSafeG F (x >>= g) G (LTM.bind p f) w := by
  refine Prog.Safe.bind (labLe_trans F) (labLe_refl F) hp ?_ hI
  rintro r v rfl hv -
  rcases r with e | a
  · exact fun _ _ _ => ⟨rfl, fun ⟨a, ha⟩ => by cases ha⟩
  · exact hf a v rfl hv

theorem LSafeG.forget {x : Py α} {G : Lab → Prop} {p : LTM α} {w : Lab} (h : LSafeG F x G p w) : LSafe F x p w :=
  h.imp fun _ _ h => h.1

theorem LSafe.noG {x : Py α} {p : LTM α} {w : Lab} (h : LSafe F x p w) : LSafeG F x (fun _ => True) p w :=
  h.imp fun _ _ h => ⟨h, fun _ => trivial⟩

theorem lsafe_bind {x : Py α} {g : α → Py β} {p : LTM α} {f : α → LTM β} {w : Lab} (hI : LabInv F w)
    (hp : LSafe F x p w) (hf : ∀ a v, x = .ok a → LabInv F v → LSafe F (g a) (f a) v) :
    LSafe F (x >>= g) (LTM.bind p f) w :=
  (lsafe_bindG (G := fun _ => True) hI hp fun a v h hv => (hf a v h hv).noG).forget

/-- A step that cannot raise. -/
theorem lsafe_step {a : α} {y : Py β} {p : LTM α} {f : α → LTM β} {w : Lab} (hI : LabInv F w)
    (hp : LSafe F (.ok a) p w) (hf : ∀ v, LabInv F v → LSafe F y (f a) v) : LSafe F y (LTM.bind p f) w :=
  lsafe_bind (x := .ok a) (g := fun _ => y) hI hp fun b v h hv => by cases h; exact hf v hv

theorem lsafe_loc {x : Py α} {w : Lab} : LSafe F x (loc x) w := fun _ _ _ => rfl

theorem lsafe_rd {i : ℕ} {f : MConfig → Py α} {w : Lab} : LSafe F (f (F.mics i).cfg) (rd i f) w := by
  intro v _ hv
  exact ⟨hv, labLe_refl _ _, fun _ _ _ => by rw [(hv.mics i).cfg]⟩

theorem lsafe_rdModel {r : MRef} {f : Params → Py α} {w : Lab} : LSafe F (f (F.inner r).params) (rdModel r f) w := by
  intro v _ hv
  exact ⟨hv, labLe_refl _ _, fun _ _ _ => by rw [(hv.inner r).params]⟩

/-- An attribute that is there. -/
theorem lsafe_rd' {i : ℕ} {f : MConfig → Py α} {x : Py α} {w : Lab} (h : f (F.mics i).cfg = x) : LSafe F x (rd i f) w :=
  h ▸ lsafe_rd (f := f)

theorem lsafe_rdModel' {r : MRef} {f : Params → Py α} {x : Py α} {w : Lab} (h : f (F.inner r).params = x) : LSafe F x (rdModel r f) w :=
  h ▸ lsafe_rdModel (f := f)

theorem lsafe_withModel {i : ℕ} {f : MRef → LTM α} {x : Py α} {w : Lab} (hI : LabInv F w)
    (hf : ∀ v, LabInv F v → LSafe F x (f (F.mics i).cfg.model) v) : LSafe F x (withModel i f) w :=
  lsafe_step hI (lsafe_rd' rfl) hf

theorem lsafe_hanser {Q : Py α → Prop} {p : TM α} {w : Lab} (h : TSafe F.hans (fun _ r => Q r) p w.hans) :
    Prog.Safe (LabInv F) (LabLe F) (fun _ r => Q r) (hanser p) w :=
  Prog.Safe.lift (get := Lab.hans) (Q := fun _ r => Q r) (fun _ _ => rfl) (fun _ h => h.hans) (fun _ _ h => h.hans)
    (fun _ _ hI ha hle => ⟨⟨ha, hI.shep, hI.mics⟩, ⟨hle, sLe_refl _ _, fun _ => ⟨id, id⟩⟩⟩) h

theorem lsafe_sheppard {Q : Py α → Prop} {p : STM α} {w : Lab} (h : SSafe F.shep (fun _ => False) (fun _ r => Q r) p w.shep) :
    Prog.Safe (LabInv F) (LabLe F) (fun _ r => Q r) (sheppard p) w :=
  Prog.Safe.lift (get := Lab.shep) (Q := fun _ r => Q r) (fun _ _ => rfl) (fun _ h => h.shep) (fun _ _ h => h.shep)
    (fun _ _ hI ha hle => ⟨⟨hI.hans, ha, hI.mics⟩, ⟨heapLe_refl _ _, hle, fun _ => ⟨id, id⟩⟩⟩) h

theorem lsafe_modelPSFi (I : LabImpl) (r : MRef) {w : Lab} (hI : LabInv F w) : LSafe F (F.inner r).PSFi (modelPSFiT I r) w := by
  cases r with
  | hanser j => exact lsafe_hanser (tsafe_psfi I.h)
  | sheppard j =>
    exact lsafe_bind (x := SSpec.PSFi (F.shep j)) hI (lsafe_sheppard ((ssafe_psfi I.s).imp fun _ _ h => h.1)) fun _ _ _ _ => lsafe_loc

theorem lsafe_modelOTFi (I : LabImpl) (r : MRef) {w : Lab} (hI : LabInv F w) : LSafe F (F.inner r).OTFi (modelOTFiT I r) w := by
  cases r with
  | hanser j => exact lsafe_hanser (tsafe_otfi I.h)
  | sheppard j =>
    exact lsafe_bind (x := SSpec.OTFi (F.shep j)) hI (lsafe_sheppard ((ssafe_otfi I.s).imp fun _ _ h => h.1)) fun _ _ _ _ => lsafe_loc

theorem pinholeRadius_eq (p : Params) (ph : PyVal) : pinholeRadius p ph =
    (attr p.wl >>= pyNum) >>= fun wl => (attr p.na >>= pyNum) >>= fun na => (attr p.res >>= pyNum) >>= fun res =>
    (PyFloat.div (PyFloat.mul (.fin (61 / 50)) wl) na >>= fun x => PyFloat.div x res) >>= fun airy =>
    pyNum ph >>= fun ph => PyFloat.div (PyFloat.mul ph airy) (.fin 2) := by
  simp only [pinholeRadius, bind_assoc]

theorem lsafe_pinhole {i : ℕ} {w : Lab} (hI : LabInv F w) {e : MRef} {ph : PyVal} {wl : Option PyVal}
    (hk : (F.mics i).cfg.kind = .confocal e ph wl) :
    LSafe F (pinholeRadius (F.inner (F.mics i).cfg.model).params ph) (pinholeT i) w := by
  rw [pinholeRadius_eq]
  refine lsafe_bind hI (lsafe_withModel hI fun _ _ => lsafe_rdModel' rfl) fun wl v _ hv => ?_
  refine lsafe_bind hv (lsafe_withModel hv fun _ _ => lsafe_rdModel' rfl) fun na v _ hv => ?_
  refine lsafe_bind hv (lsafe_withModel hv fun _ _ => lsafe_rdModel' rfl) fun res v _ hv => ?_
  refine lsafe_bind hv lsafe_loc fun airy v _ hv => ?_
  exact lsafe_bind hv (lsafe_rd' (by simp only [hk])) fun ph v _ hv => lsafe_loc

theorem lsafe_rdSim {i : ℕ} {w : Lab} {n l c d s : PyVal} {o : List ℝ} {wi : PyVal} (hk : (F.mics i).cfg.kind = .sim n l c d s o wi)
    (f : PyVal → PyVal → PyVal → PyVal → PyVal → List ℝ → PyVal → α) : LSafe F (.ok (f n l c d s o wi)) (rdSim i f) w :=
  lsafe_rd' (by simp only [hk])

theorem lsafe_simFiltered (I : LabImpl) {i : ℕ} {w : Lab} (hI : LabInv F w) {n l c d s : PyVal} {o : List ℝ} {wi : PyVal}
    (hk : (F.mics i).cfg.kind = .sim n l c d s o wi) : LSafe F ((F.spec i).filtered wi) (simFilteredT I i) w := by
  unfold simFilteredT
  refine lsafe_step hI (lsafe_rdSim hk _) fun v hv => ?_
  unfold MSpec.filtered
  split_ifs
  · exact lsafe_withModel hv fun _ hv => lsafe_modelPSFi I _ hv
  · refine lsafe_bind hv lsafe_loc fun x v _ hv => ?_
    split_ifs
    · refine lsafe_bind hv (lsafe_withModel hv fun _ hv => lsafe_modelOTFi I _ hv) fun t v _ hv => ?_
      cases x <;> exact lsafe_loc
    · exact lsafe_loc

theorem lsafe_modelPsf (I : LabImpl) (i : ℕ) {w : Lab} (hI : LabInv F w) : LSafe F (F.spec i).modelPsf (microModelPsfT I i) w := by
  unfold microModelPsfT
  refine lsafe_step (a := (F.mics i).cfg.kind) hI (lsafe_rd' rfl) fun v hv => ?_
  have hspec : (F.spec i).kind = (F.mics i).cfg.kind.swap F.inner := rfl
  rcases hk : (F.mics i).cfg.kind with _ | _ | ⟨e, ph, wl⟩ | ⟨n, l, c, d, ds, o, wi⟩ <;> rw [hk] at hspec <;>
    simp only [Kind.swap] at hspec <;> simp only [MSpec.modelPsf, hspec]
  · exact lsafe_withModel hv fun _ hv => lsafe_modelPSFi I _ hv
  · refine lsafe_bind hv (lsafe_withModel hv fun _ hv => lsafe_modelPSFi I _ hv) fun p v _ hv => ?_
    exact lsafe_step hv (lsafe_rd' rfl) fun _ _ => lsafe_loc
  · refine lsafe_bind hv (lsafe_pinhole hv hk) fun r v _ hv => ?_
    refine lsafe_bind hv (lsafe_withModel hv fun _ hv => lsafe_modelPSFi I _ hv) fun p v _ hv => ?_
    refine lsafe_bind hv lsafe_loc fun det v _ hv => ?_
    refine lsafe_step hv (lsafe_rd' (x := .ok e) (by simp only [hk])) fun v hv => ?_
    exact lsafe_bind hv (lsafe_modelPSFi I e hv) fun _ _ _ _ => lsafe_loc
  · refine lsafe_step hv (lsafe_rd' rfl) fun v hv => ?_
    refine lsafe_step hv (lsafe_rdSim hk _) fun v hv => ?_
    refine lsafe_step hv (lsafe_rdSim hk _) fun v hv => ?_
    refine lsafe_bind hv lsafe_loc fun s v _ hv => ?_
    refine lsafe_bind hv (lsafe_simFiltered I hv hk) fun p v _ hv => ?_
    refine lsafe_step hv (lsafe_rdSim hk _) fun v hv => ?_
    refine lsafe_step hv (lsafe_rdSim hk _) fun v hv => ?_
    refine lsafe_step hv (lsafe_rdSim hk _) fun v hv => ?_
    exact lsafe_step hv (lsafe_rdSim hk _) fun v hv => lsafe_loc

/-! ## The cached properties -/

/-- Writing an entry of a microscope. -/
theorem lsafe_wr {i : ℕ} {f : MCell → MCell} {w : Lab} {G : MCell → Prop} (h1 : ∀ v, LabLe F w v → CellOK F i (v.mics i) → CellOK F i (f (v.mics i)))
    (h2 : ∀ c, CellLe c (f c)) (h3 : ∀ c d, CellLe (f c) d → G d) :
    LSafeG F (.ok ()) (fun v => G (v.mics i)) (wr i f) w := by
  intro v hwv hv
  refine ⟨⟨hv.hans, hv.shep, fun j => ?_⟩, ⟨heapLe_refl _ _, sLe_refl _ _, fun j => ?_⟩, fun u hu hIu => ⟨rfl, fun _ => ?_⟩⟩
  · by_cases hj : j = i
    · subst hj; simpa using h1 v hwv (hv.mics j)
    · simpa [Function.update_of_ne hj] using hv.mics j
  · by_cases hj : j = i
    · subst hj; simpa using h2 _
    · simp only [Function.update_of_ne hj]; exact ⟨id, id⟩
  · have := hu.mics i
    simp only [Function.update_self] at this
    exact h3 _ _ this

/-- A cached property: `H` is what the computation establishes, `G` what is true once the value is there. -/
theorem lsafe_cached {x : Py α} {G : MCell → Prop} (hG : ∀ c d, CellLe c d → G c → G d) {H : Lab → Prop} (hH : ∀ v v', LabLe F v v' → H v → H v')
    (I : LabImpl) {l : LabLock} {i : ℕ} {get : MCell → Option α}
    {put : α → MCell → MCell} {func : LTM α} {w : Lab} (hget : ∀ c a, CellOK F i c → get c = some a → x = .ok a ∧ G c)
    (hput : ∀ v a, H v → CellOK F i (v.mics i) → x = .ok a → CellOK F i (put a (v.mics i))) (hle : ∀ a c, CellLe c (put a c))
    (hgp : ∀ v a, H v → ∀ d, CellLe (put a (v.mics i)) d → G d)
    (hfunc : ∀ v, LabInv F v → (∃ c, CellOK F i c ∧ get c = none) → LSafeG F x H func v) :
    LSafeG F x (fun v => G (v.mics i)) (microCachedT I l i get put func) w := by
  have fill : ∀ v, LabInv F v → (∃ c, CellOK F i c ∧ get c = none) → LSafeG F x (fun v => G (v.mics i))
      (func.bind fun a => (wr i (put a)).bind fun _ => loc (.ok a)) v := by
    intro v hv hn
    refine Prog.Safe.bind (labLe_trans F) (labLe_refl F) (hfunc v hv hn) ?_ hv
    rintro r v1 ⟨rfl, hr⟩ hv1 -
    rcases r with e | a
    · exact fun _ _ _ => ⟨rfl, fun ⟨a, ha⟩ => by cases ha⟩
    · have hH1 := hr ⟨a, rfl⟩
      refine Prog.Safe.bind (Q := fun u (r : Py Unit) => r = .ok () ∧ G (u.mics i)) (labLe_trans F) (labLe_refl F) ?_ ?_ hv1
      · intro v2 hv2 hI2
        have hH2 := hH _ _ hv2 hH1
        refine ⟨⟨hI2.hans, hI2.shep, fun j => ?_⟩, ⟨heapLe_refl _ _, sLe_refl _ _, fun j => ?_⟩, fun u hu hIu => ⟨rfl, ?_⟩⟩
        · by_cases hj : j = i
          · subst hj; simpa using hput v2 a hH2 (hI2.mics j) rfl
          · simpa [Function.update_of_ne hj] using hI2.mics j
        · by_cases hj : j = i
          · subst hj; simpa using hle _ _
          · simp only [Function.update_of_ne hj]; exact ⟨id, id⟩
        · have := hu.mics i
          simp only [Function.update_self] at this
          exact hgp v2 a hH2 _ this
      · rintro r v2 ⟨rfl, h2⟩ hI2 -
        exact fun u hu _ => ⟨rfl, fun _ => hG _ _ (hu.mics i) h2⟩
  have look : ∀ (k : LTM α) (v : Lab),
      (∀ v', LabInv F v' → (∃ c, CellOK F i c ∧ get c = none) → LSafeG F x (fun v => G (v.mics i)) k v') →
      LSafeG F x (fun v => G (v.mics i)) (.act id fun w =>
        match get (w.mics i) with
        | some a => .ret (.ok a)
        | none => k) v := by
    intro k v hk v' _ hv'
    refine ⟨hv', labLe_refl _ _, ?_⟩
    rcases hg : get (v'.mics i) with _ | a
    · simp only [hg]; exact hk v' hv' ⟨_, hv'.mics i, hg⟩
    · obtain ⟨h1, h2⟩ := hget _ _ (hv'.mics i) hg
      simp only [hg]
      exact fun u hu _ => ⟨h1.symm, fun _ => hG _ _ (hu.mics i) h2⟩
  unfold microCachedT
  refine look _ _ fun v hv hn => look _ _ fun v1 hv1 hn1 => ?_
  split_ifs
  · refine Prog.Safe.bind (labLe_trans F) (labLe_refl F) (look _ v1 fill) ?_ hv1
    intro r v2 hr _ _
    exact fun u hu _ => ⟨hr.1, fun h => hG _ _ (hu.mics i) (hr.2 h)⟩
  · exact fill v1 hv1 hn1

theorem Frame.PSF_none {i : ℕ} (h : (F.mics i).psf = none) : F.PSF i = (F.spec i).PSF := by
  simp only [Frame.PSF, psfValue, h]

theorem isNone_of {α : Type} {x y : Option α} (h : x.isSome → y.isSome) (hy : y = none) : x = none := by
  subst hy
  rcases x with _ | a
  · rfl
  · simp at h

theorem lsafe_psf (I : LabImpl) (i : ℕ) {w : Lab} (hi : F.mayPSF i) :
    LSafeG F (F.PSF i) (fun v => (v.mics i).psf.isSome) (microPSFT I i) w := by
  refine lsafe_cached (G := fun c => c.psf.isSome) (H := fun _ => True) (fun c d h => h.1) (fun _ _ _ => id) I
    (fun c a hc ha => ⟨hc.psf a ha, by simp [ha]⟩) (fun v a _ hc ha => ?_) (fun a c => ⟨fun _ => rfl, id⟩)
    (fun v a _ d h => h.1 rfl) ?_
  · exact ⟨hc.cfg, by rintro b hb; cases hb; exact ha, hc.otf, fun _ => rfl, hc.otf0, fun _ => .inr hi, hc.mayOTF, fun _ => .inr rfl⟩
  · rintro v hv ⟨c, hc, hn⟩
    rw [Frame.PSF_none (isNone_of hc.psf0 hn)]
    refine LSafe.noG ?_
    refine lsafe_bind hv (lsafe_modelPsf I i hv) fun a v _ hv => ?_
    refine lsafe_step hv (lsafe_rd' rfl) fun v hv => ?_
    exact lsafe_step hv (lsafe_rd' rfl) fun v hv => lsafe_loc

theorem lsafe_otf (I : LabImpl) (i : ℕ) {w : Lab} (hi : F.mayOTF i) (hi' : (F.mics i).otf = none → F.mayPSF i) :
    LSafeG F (F.OTF i) (fun v => (v.mics i).otf.isSome) (microOTFT I i) w := by
  refine lsafe_cached (G := fun c => c.otf.isSome) (H := fun v => (v.mics i).psf.isSome) (fun c d h => h.2) (fun _ _ h => (h.mics i).1) I
    (fun c a hc ha => ⟨hc.otf a ha, by simp [ha]⟩) (fun v a hH hc ha => ?_) (fun a c => ⟨id, fun _ => rfl⟩)
    (fun v a _ d h => h.2 rfl) ?_
  · exact ⟨hc.cfg, hc.psf, by rintro b hb; cases hb; exact ha, hc.psf0, fun _ => rfl, hc.mayPSF, fun _ => .inr hi, fun _ => .inr hH⟩
  · rintro v hv ⟨c, hc, hn⟩
    have h0 := isNone_of hc.otf0 hn
    have e : F.OTF i = F.PSF i >>= fun a => .ok (spectrum a) := by simp only [Frame.OTF, otfValue, h0]; rfl
    rw [e]
    refine Prog.Safe.bind (labLe_trans F) (labLe_refl F) (lsafe_psf I i (hi' h0)) ?_ hv
    rintro r v1 ⟨hx, hr⟩ hv1 -
    rw [← hx]
    rcases r with e | a
    · exact fun _ _ _ => ⟨rfl, fun ⟨a, ha⟩ => by cases ha⟩
    · exact fun u hu _ => ⟨rfl, fun _ => (hu.mics i).1 (hr ⟨a, rfl⟩)⟩

end

end PyOTF
