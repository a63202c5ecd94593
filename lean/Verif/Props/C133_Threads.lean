import Verif.Lemmas.Threads
import Verif.Props.C31_Hanser

/-!
# C133: reading `HanserPSF` objects from several threads
-/

namespace PyOTF

open TM

/-! ## Sequential values -/

/-- The grid of the current parameters (otf.py:331). -/
def gridAt (p : Params) : Py Grid := do
  let size ← attr p.size
  let res ← attr p.res >>= pyNum
  gridOf size res

/-- `ni / wl`. -/
def kmagAt (p : Params) : Py PyFloat := do
  let ni ← attr p.ni >>= pyNum
  let wl ← attr p.wl >>= pyNum
  PyFloat.div ni wl

/-- `na / wl`. -/
def limitAt (p : Params) : Py PyFloat := do
  let na ← attr p.na >>= pyNum
  let wl ← attr p.wl >>= pyNum
  PyFloat.div na wl

theorem hanserGenKr_eq (p : Params) : hanserGenKr p = (do
    let g ← gridAt p
    let m ← kmagAt p
    let l ← limitAt p
    return (g.size, g.res, m, l)) := by
  unfold hanserGenKr gridAt kmagAt limitAt gridOf
  rcases attr p.size with e | size
  · rfl
  rcases h : attr p.res with e | res
  · rfl
  rcases h : pyNum res with e | res
  · simp [Bind.bind, Except.bind, h]
  simp only [Bind.bind, Except.bind, h]
  rcases PyFloat.div (.fin 1) (PyFloat.mul (.fin (pyNat size : ℚ)) res) with e | _
  · rfl
  simp only [Pure.pure, Except.pure]
  rcases attr p.ni with e | ni
  · rfl
  simp only []
  rcases pyNum ni with e | ni
  · rfl
  simp only []
  rcases attr p.wl with e | wl
  · rfl
  simp only []
  rcases pyNum wl with e | wl
  · rfl
  simp only []
  rcases PyFloat.div ni wl with e | kmag
  · rfl
  simp only []
  rcases attr p.na with e | na
  · rfl
  simp only []
  rcases pyNum na with e | na
  · rfl
  rfl

theorem hanserGenPsf_eq (p : Params) (base : Option (Arr ℂ)) :
    hanserGenPsf p base = hanserGenKr p >>= fun q => hanserTail p base q.1 q.2.1 q.2.2.1 q.2.2.2 := by
  unfold hanserGenPsf hanserTail
  rcases hanserGenKr p with e | ⟨size, res, kmag, limit⟩
  · rfl
  · cases base <;> rfl

theorem hanserTail_congr {p q : Params} (h1 : p.zrange = q.zrange) (h2 : p.vecCorr = q.vecCorr)
    (h3 : p.condition = q.condition) (base : Option (Arr ℂ)) (size : ℕ) (res kmag limit : PyFloat) :
    hanserTail p base size res kmag limit = hanserTail q base size res kmag limit := by
  unfold hanserTail hanserNum
  rw [h1, h2, h3]

/-! ## What holds while threads read -/

variable (spec : ℕ → HSpec)

/-- The objects represent the specification states: nobody changes parameters or pupil. -/
def TInv (s : Dicts) : Prop := ∀ i, HRel (s i).obj (spec i)

/-- Scratch entries that are up to date. -/
structure Fresh (g : Grid) (m : PyFloat) (c : HCell) : Prop where
  kr : c.scr.kr = some g
  phi : c.scr.phi = some g
  kmag : c.scr.kmag = some m
  kz : c.scr.kz = some (m, g)

/-- Up to date entries stay up to date. -/
def cellLe (p : Params) (c d : HCell) : Prop :=
  (∀ g, gridAt p = .ok g → c.scr.kr = some g → d.scr.kr = some g) ∧
  (∀ g, gridAt p = .ok g → c.scr.phi = some g → d.scr.phi = some g) ∧
  (∀ m, kmagAt p = .ok m → c.scr.kmag = some m → d.scr.kmag = some m) ∧
  (∀ g m, gridAt p = .ok g → kmagAt p = .ok m → c.scr.kz = some (m, g) → d.scr.kz = some (m, g))

@[inherit_doc cellLe]
def heapLe (s t : Dicts) : Prop := ∀ i, cellLe (spec i).params (s i) (t i)

theorem cellLe_refl (p : Params) (c : HCell) : cellLe p c c := ⟨fun _ _ h => h, fun _ _ h => h, fun _ _ h => h, fun _ _ _ _ h => h⟩

theorem heapLe_refl (s : Dicts) : heapLe spec s s := fun _ => cellLe_refl _ _

theorem heapLe_trans (a b c : Dicts) (h1 : heapLe spec a b) (h2 : heapLe spec b c) : heapLe spec a c := fun i =>
  ⟨fun g hg h => (h2 i).1 g hg ((h1 i).1 g hg h), fun g hg h => (h2 i).2.1 g hg ((h1 i).2.1 g hg h),
    fun m hm h => (h2 i).2.2.1 m hm ((h1 i).2.2.1 m hm h),
    fun g m hg hm h => (h2 i).2.2.2 g m hg hm ((h1 i).2.2.2 g m hg hm h)⟩

variable {spec}

/-- The judgement for programs that may raise. -/
abbrev TSafe (spec : ℕ → HSpec) {α : Type} (Q : Dicts → Py α → Prop) (p : TM α) (s0 : Dicts) : Prop :=
  Prog.Safe (TInv spec) (heapLe spec) Q p s0

theorem tsafe_bind {α β : Type} {Q : Dicts → Py α → Prop} {R : Dicts → Py β → Prop} {p : TM α} {f : α → TM β} {s0 : Dicts}
    (hI : TInv spec s0) (hp : TSafe spec Q p s0)
    (hok : ∀ a s1, Q s1 (.ok a) → TInv spec s1 → heapLe spec s0 s1 → TSafe spec R (f a) s1)
    (herr : ∀ e s1, Q s1 (.error e) → TInv spec s1 → heapLe spec s0 s1 → R s1 (.error e))
    (hmono : ∀ e s1 s2, R s1 (.error e) → heapLe spec s1 s2 → TInv spec s2 → R s2 (.error e)) :
    TSafe spec R (TM.bind p f) s0 := by
  refine Prog.Safe.bind (heapLe_trans spec) (heapLe_refl spec) hp ?_ hI
  intro r s1 hQ hI1 hle
  rcases r with e | a
  · exact fun s hs hIs => hmono e s1 s (herr e s1 hQ hI1 hle) hs hIs
  · exact hok a s1 hQ hI1 hle

/-- Binding when the first part has a known result. -/
theorem tsafe_bind_val {α β : Type} {x : Py α} {y : Py β} {p : TM α} {f : α → TM β} {s0 : Dicts} {F : Dicts → Prop}
    (hI : TInv spec s0) (hp : TSafe spec (fun s r => r = x ∧ (∀ a, r = .ok a → F s)) p s0)
    (hok : ∀ a s1, x = .ok a → F s1 → TInv spec s1 → heapLe spec s0 s1 → TSafe spec (fun _ r => r = y) (f a) s1)
    (herr : ∀ e, x = .error e → y = .error e) :
    TSafe spec (fun _ r => r = y) (TM.bind p f) s0 := by
  refine tsafe_bind hI hp ?_ ?_ ?_
  · rintro a s1 ⟨h1, h2⟩ hI1 hle; exact hok a s1 h1.symm (h2 a rfl) hI1 hle
  · rintro e s1 ⟨h1, h2⟩ _ _; exact (herr e h1.symm).symm
  · intro e s1 s2 h _ _; exact h

theorem tsafe_rd {α : Type} {i : ℕ} {f : HCell → Py α} {x : Py α} {s0 : Dicts}
    (h : ∀ s, heapLe spec s0 s → TInv spec s → f (s i) = x) : TSafe spec (fun _ r => r = x ∧ ∀ a, r = .ok a → True) (rd i f) s0 := by
  intro s hs hI
  refine ⟨hI, heapLe_refl _ _, fun t ht hIt => ⟨h s hs hI, fun _ _ => trivial⟩⟩

theorem tsafe_loc {α : Type} {x : Py α} {s0 : Dicts} :
    TSafe spec (fun _ r => r = x ∧ ∀ a, r = .ok a → True) (loc x) s0 := fun _ _ _ => ⟨rfl, fun _ _ => trivial⟩

theorem tsafe_wr {i : ℕ} {f : HCell → HCell} {s0 : Dicts} {F : HCell → Prop}
    (h1 : ∀ c, HRel c.obj (spec i) → HRel (f c).obj (spec i))
    (h2 : ∀ s, heapLe spec s0 s → cellLe (spec i).params (s i) (f (s i)))
    (h3 : ∀ c d, cellLe (spec i).params (f c) d → F d) :
    TSafe spec (fun s r => r = .ok () ∧ ∀ a, r = .ok a → F (s i)) (wr i f) s0 := by
  intro s hs hI
  refine ⟨fun j => ?_, fun j => ?_, fun t ht hIt => ⟨rfl, fun _ _ => ?_⟩⟩
  · by_cases hj : j = i
    · subst hj; simpa using h1 _ (hI j)
    · simpa [Function.update_of_ne hj] using hI j
  · by_cases hj : j = i
    · subst hj; simpa using h2 s hs
    · simpa [Function.update_of_ne hj] using cellLe_refl _ _
  · have := ht i
    simp only [Function.update_self] at this
    exact h3 (s i) (t i) this

/-! ## The pieces of `_gen_psf` -/

theorem HRel.drop {o : HObj} {s : HSpec} (h : HRel o s) (hp : s.pupil = none) :
    HRel { o with psfa := none } s ∧ HRel { o with otfa := none } s ∧ HRel { o with psfi := none } s ∧
    HRel { o with otfi := none } s := by
  refine ⟨⟨h.params, h.ready, fun _ => hp, by simp, h.otfa, h.psfi, h.otfi⟩,
    ⟨h.params, h.ready, h.pupil, h.psfa, by simp, h.psfi, h.otfi⟩,
    ⟨h.params, h.ready, h.pupil, h.psfa, h.otfa, by simp, h.otfi⟩,
    ⟨h.params, h.ready, h.pupil, h.psfa, h.otfa, h.psfi, by simp⟩⟩

theorem tsafe_attributeChanged {i : ℕ} {s0 : Dicts} (hI : TInv spec s0) (hp : (spec i).pupil = none) :
    TSafe spec (fun _ r => r = .ok ()) (attributeChangedT i) s0 := by
  have key : ∀ (f : HCell → HCell) (s1 : Dicts), (∀ c, HRel c.obj (spec i) → HRel (f c).obj (spec i)) →
      (∀ c, (f c).scr = c.scr) → TSafe spec (fun s r => r = .ok () ∧ ∀ a, r = .ok a → True) (wr i f) s1 := by
    intro f s1 h1 h2
    refine tsafe_wr (F := fun _ => True) h1 (fun s _ => ?_) (fun _ _ _ => trivial)
    unfold cellLe; rw [h2]; exact cellLe_refl (spec i).params (s i)
  unfold attributeChangedT
  refine tsafe_bind_val hI (key _ _ (fun c h => (h.drop hp).1) (fun _ => rfl)) ?_ (by simp)
  intro _ s1 _ _ hI1 _
  refine tsafe_bind_val hI1 (key _ _ (fun c h => (h.drop hp).2.1) (fun _ => rfl)) ?_ (by simp)
  intro _ s2 _ _ hI2 _
  refine tsafe_bind_val hI2 (key _ _ (fun c h => (h.drop hp).2.2.1) (fun _ => rfl)) ?_ (by simp)
  intro _ s3 _ _ hI3 _
  exact (key (fun c => { c with obj := { c.obj with otfi := none } }) s3 (fun c h => (h.drop hp).2.2.2)
    (fun _ => rfl)).imp (fun _ _ h => h.1)

/-- `_gen_kr` raises what the arithmetic raises, or leaves all scratch entries up to date. -/
theorem tsafe_genKr {i : ℕ} {s0 : Dicts} (hI : TInv spec s0) :
    TSafe spec (fun s r => r = (do let _ ← gridAt (spec i).params; let _ ← kmagAt (spec i).params; return ()) ∧
      ∀ g m, gridAt (spec i).params = .ok g → kmagAt (spec i).params = .ok m → Fresh g m (s i)) (genKrT i) s0 := by
  set p := (spec i).params with hp
  have hpar : ∀ s, TInv spec s → (s i).obj.params = p := fun s hs => (hs i).params
  have scr : ∀ (f : HCell → HCell) (s1 : Dicts) (F : HCell → Prop), (∀ c, (f c).obj = c.obj) →
      (∀ s, heapLe spec s1 s → cellLe p (s i) (f (s i))) → (∀ c d, cellLe p (f c) d → F d) →
      TSafe spec (fun s r => r = .ok () ∧ ∀ a, r = .ok a → F (s i)) (wr i f) s1 := by
    intro f s1 F h1 h2 h3
    exact tsafe_wr (fun c hc => by rw [h1]; exact hc) h2 h3
  have gen : ∀ (x : Py Unit), x = (do let _ ← gridAt p; let _ ← kmagAt p; return ()) →
      TSafe spec (fun s r => r = x ∧ ∀ g m, gridAt p = .ok g → kmagAt p = .ok m → Fresh g m (s i)) (genKrT i) s0 := by
    intro x hx
    unfold genKrT
    have err : ∀ (e : Err) (s1 s2 : Dicts), (Except.error e = x ∧ ∀ g m, gridAt p = .ok g → kmagAt p = .ok m → Fresh g m (s1 i)) →
        heapLe spec s1 s2 → TInv spec s2 → (Except.error e = x ∧ ∀ g m, gridAt p = .ok g → kmagAt p = .ok m → Fresh g m (s2 i)) := by
      rintro e s1 s2 ⟨h1, h2⟩ _ _
      refine ⟨h1, fun g m hg hm => ?_⟩
      rw [hx, hg, hm] at h1; cases h1
    refine tsafe_bind hI (tsafe_rd (x := attr p.size) (fun s _ hs => by rw [hpar s hs])) ?_ ?_ err
    swap
    · rintro e s1 ⟨h1, -⟩ _ _
      have : gridAt p = .error e := by rw [gridAt, ← h1]; rfl
      rw [hx, this]
      exact ⟨rfl, fun g m hg => by cases hg⟩
    rintro size s1 ⟨hsize, -⟩ hI1 -
    refine tsafe_bind hI1 (tsafe_rd (x := attr p.res >>= pyNum) (fun s _ hs => by rw [hpar s hs])) ?_ ?_ err
    swap
    · rintro e s1 ⟨h1, -⟩ _ _
      have : gridAt p = .error e := by rw [gridAt, ← hsize, ← h1]; rfl
      rw [hx, this]
      exact ⟨rfl, fun g m hg => by cases hg⟩
    rintro res s2 ⟨hres, -⟩ hI2 -
    have hgr : gridAt p = gridOf size res := by rw [gridAt, ← hsize, ← hres]; rfl
    refine tsafe_bind hI2 (tsafe_loc (x := gridOf size res)) ?_ ?_ err
    swap
    · rintro e s1 ⟨h1, -⟩ _ _
      rw [hx, hgr, ← h1]
      exact ⟨rfl, fun g m hg => by cases hg⟩
    rintro g s3 ⟨hg, -⟩ hI3 -
    rw [← hg] at hgr
    refine tsafe_bind hI3 (scr _ s3 (fun _ => True) (fun _ => rfl) (fun _ _ => cellLe_refl _ _) (fun _ _ _ => trivial))
      ?_ (by rintro e s1 ⟨h, -⟩; cases h) err
    rintro _ s4 - hI4 -
    refine tsafe_bind hI4 (scr _ s4 (fun c => c.scr.kr = some g) (fun _ => rfl) (fun s _ => ?_) (fun c d h => h.1 g hgr rfl))
      ?_ (by rintro e s1 ⟨h, -⟩; cases h) err
    · refine ⟨fun g' hg' _ => ?_, fun _ _ h => h, fun _ _ h => h, fun _ _ _ _ h => h⟩
      rw [hgr] at hg'; cases hg'; rfl
    rintro _ s5 ⟨-, hkr⟩ hI5 -
    replace hkr := hkr () rfl
    refine tsafe_bind hI5 (scr _ s5 (fun c => c.scr.phi = some g) (fun _ => rfl) (fun s _ => ?_) (fun c d h => h.2.1 g hgr rfl))
      ?_ (by rintro e s1 ⟨h, -⟩; cases h) err
    · refine ⟨fun _ _ h => h, fun g' hg' _ => ?_, fun _ _ h => h, fun _ _ _ _ h => h⟩
      rw [hgr] at hg'; cases hg'; rfl
    rintro _ s6 ⟨-, hphi⟩ hI6 hle6
    replace hphi := hphi () rfl
    replace hkr := (hle6 i).1 g hgr hkr
    refine tsafe_bind hI6 (tsafe_rd (x := attr p.ni >>= pyNum) (fun s _ hs => by rw [hpar s hs])) ?_ ?_ err
    swap
    · rintro e s1 ⟨h1, -⟩ _ _
      have : kmagAt p = .error e := by rw [kmagAt, ← h1]; rfl
      rw [hx, hgr, this]
      exact ⟨rfl, fun g m hg hm => by cases hm⟩
    rintro ni s7 ⟨hni, -⟩ hI7 hle7
    refine tsafe_bind hI7 (tsafe_rd (x := attr p.wl >>= pyNum) (fun s _ hs => by rw [hpar s hs])) ?_ ?_ err
    swap
    · rintro e s1 ⟨h1, -⟩ _ _
      have : kmagAt p = .error e := by rw [kmagAt, ← hni, ← h1]; rfl
      rw [hx, hgr, this]
      exact ⟨rfl, fun g m hg hm => by cases hm⟩
    rintro wl s8 ⟨hwl, -⟩ hI8 hle8
    have hkm : kmagAt p = PyFloat.div ni wl := by rw [kmagAt, ← hni, ← hwl]; rfl
    refine tsafe_bind hI8 (tsafe_loc (x := PyFloat.div ni wl)) ?_ ?_ err
    swap
    · rintro e s1 ⟨h1, -⟩ _ _
      rw [hx, hgr, hkm, ← h1]
      exact ⟨rfl, fun g m hg hm => by cases hm⟩
    rintro m s9 ⟨hm, -⟩ hI9 hle9
    rw [← hm] at hkm
    have up : heapLe spec s6 s9 := heapLe_trans spec _ _ _ hle7 (heapLe_trans spec _ _ _ hle8 hle9)
    replace hkr := (up i).1 g hgr hkr
    replace hphi := (up i).2.1 g hgr hphi
    refine tsafe_bind hI9 (scr _ s9 (fun c => c.scr.kmag = some m) (fun _ => rfl) (fun s _ => ?_) (fun c d h => h.2.2.1 m hkm rfl))
      ?_ (by rintro e s1 ⟨h, -⟩; cases h) err
    · refine ⟨fun _ _ h => h, fun _ _ h => h, fun m' hm' _ => ?_, fun _ _ _ _ h => h⟩
      rw [hkm] at hm'; cases hm'; rfl
    rintro _ s10 ⟨-, hkmag⟩ hI10 hle10
    replace hkmag := hkmag () rfl
    replace hkr := (hle10 i).1 g hgr hkr
    replace hphi := (hle10 i).2.1 g hgr hphi
    refine tsafe_bind hI10 (tsafe_rd (x := .ok m) (fun s hle _ => by rw [(hle i).2.2.1 m hkm hkmag]; rfl)) ?_
      (by rintro e s1 ⟨h, -⟩; cases h) err
    rintro m' s11 ⟨hm', -⟩ hI11 hle11
    cases hm'
    replace hkr := (hle11 i).1 g hgr hkr
    replace hphi := (hle11 i).2.1 g hgr hphi
    replace hkmag := (hle11 i).2.2.1 m hkm hkmag
    refine tsafe_bind hI11 (tsafe_rd (x := .ok g) (fun s hle _ => by rw [(hle i).1 g hgr hkr]; rfl)) ?_
      (by rintro e s1 ⟨h, -⟩; cases h) err
    rintro g' s12 ⟨hg', -⟩ hI12 hle12
    cases hg'
    replace hkr := (hle12 i).1 g hgr hkr
    replace hphi := (hle12 i).2.1 g hgr hphi
    replace hkmag := (hle12 i).2.2.1 m hkm hkmag
    have last := scr (fun c => { c with scr := { c.scr with kz := some (m, g) } }) s12 (fun c => c.scr.kz = some (m, g))
      (fun _ => rfl) (fun s _ => ?_) (fun c d h => h.2.2.2 g m hgr hkm rfl)
    · intro s hs hIs
      obtain ⟨l1, l2, l3⟩ := last s hs hIs
      refine ⟨l1, l2, fun t ht hIt => ⟨?_, fun g' m' hg' hm' => ?_⟩⟩
      · rw [hx, hgr, hkm]; rfl
      · rw [hgr] at hg'; rw [hkm] at hm'
        cases hg'; cases hm'
        have l4 := (l3 t ht hIt).2 () rfl
        have hle := heapLe_trans spec _ _ _ hs (heapLe_trans spec _ _ _ l2 ht) i
        exact ⟨hle.1 g hgr hkr, hle.2.1 g hgr hphi, hle.2.2.1 m hkm hkmag, l4⟩
    · refine ⟨fun _ _ h => h, fun _ _ h => h, fun _ _ h => h, fun g' m' hg' hm' _ => ?_⟩
      rw [hgr] at hg'; rw [hkm] at hm'
      cases hg'; cases hm'; rfl
  exact gen _ rfl

/-- The values `self.condition` is read as when nobody assigns it. -/
def condsOf : Condition → List Condition
  | .none => [.none]
  | .sine => [.sine, .sine]
  | .herschel => [.herschel, .herschel, .herschel]

theorem tsafe_conds {i : ℕ} {s0 : Dicts} (hI : TInv spec s0) {c : Condition} (hc : (spec i).params.condition = some c) :
    TSafe spec (fun _ r => r = .ok (condsOf c)) (condsT i) s0 := by
  have rdc : ∀ s1, TSafe spec (fun _ r => r = .ok c ∧ ∀ a, r = .ok a → True) (rd i fun c => attr c.obj.params.condition) s1 :=
    fun s1 => tsafe_rd (fun s _ hs => by rw [(hs i).params, hc]; rfl)
  unfold condsT
  refine tsafe_bind_val hI (rdc _) ?_ (by simp)
  rintro c1 s1 h1 - hI1 -
  cases h1
  split_ifs with h
  · subst h; exact fun _ _ _ => rfl
  refine tsafe_bind_val hI1 (rdc _) ?_ (by simp)
  rintro c2 s2 h2 - hI2 -
  cases h2
  split_ifs with h'
  · subst h'; exact fun _ _ _ => rfl
  refine tsafe_bind_val hI2 (rdc _) ?_ (by simp)
  rintro c3 s3 h3 - hI3 -
  cases h3
  cases c
  · exact absurd rfl h
  · exact absurd rfl h'
  · exact fun _ _ _ => rfl

/-- The values `self.vec_corr` is read as when nobody assigns it. -/
def vecsOf : VecCorr → List VecCorr
  | .none => [.none]
  | .z => List.replicate 6 .z
  | .y => List.replicate 6 .y
  | .x => List.replicate 6 .x
  | .total => List.replicate 7 .total

theorem tsafe_vecTest {i : ℕ} {s0 : Dicts} (hI : TInv spec s0) {v : VecCorr} (hv : (spec i).params.vecCorr = some v)
    (a : VecCorr) : TSafe spec (fun _ r => r = .ok (if v = a then [v] else [v, v])) (vecTestT i a) s0 := by
  have rdv : ∀ s1, TSafe spec (fun _ r => r = .ok v ∧ ∀ a, r = .ok a → True) (rd i fun c => attr c.obj.params.vecCorr) s1 :=
    fun s1 => tsafe_rd (fun s _ hs => by rw [(hs i).params, hv]; rfl)
  unfold vecTestT
  refine tsafe_bind_val hI (rdv _) ?_ (by simp)
  rintro v1 s1 h1 - hI1 -
  cases h1
  split_ifs with h
  · exact fun _ _ _ => rfl
  refine tsafe_bind_val hI1 (rdv _) ?_ (by simp)
  rintro v2 s2 h2 - hI2 -
  cases h2
  exact fun _ _ _ => rfl

theorem tsafe_vecs {i : ℕ} {s0 : Dicts} (hI : TInv spec s0) {v : VecCorr} (hv : (spec i).params.vecCorr = some v) :
    TSafe spec (fun _ r => r = .ok (vecsOf v)) (vecsT i) s0 := by
  have tst : ∀ s1 a, TInv spec s1 → TSafe spec (fun _ r => r = .ok (if v = a then [v] else [v, v]) ∧ ∀ a, r = .ok a → True) (vecTestT i a) s1 :=
    fun s1 a h1 => (tsafe_vecTest h1 hv a).imp (fun _ _ h => ⟨h, fun _ _ => trivial⟩)
  unfold vecsT
  refine tsafe_bind_val hI (tsafe_rd (x := .ok v) (fun s _ hs => by rw [(hs i).params, hv]; rfl)) ?_ (by simp)
  rintro v0 s1 h1 - hI1 -
  cases h1
  split_ifs with h
  · subst h; exact fun _ _ _ => rfl
  refine tsafe_bind_val hI1 (tst _ _ hI1) ?_ (by simp)
  rintro lz s2 h2 - hI2 -
  refine tsafe_bind_val hI2 (tst _ _ hI2) ?_ (by simp)
  rintro ly s3 h3 - hI3 -
  refine tsafe_bind_val hI3 (tst _ _ hI3) ?_ (by simp)
  rintro lx s4 h4 - hI4 -
  cases h2; cases h3; cases h4
  cases v
  · exact absurd rfl h
  all_goals exact fun _ _ _ => rfl

theorem tsafe_pupil {i : ℕ} {s0 : Dicts} (hI : TInv spec s0) {g : Grid} (hg : gridAt (spec i).params = .ok g)
    (hkr : (s0 i).scr.kr = some g) :
    TSafe spec (fun _ r => r = (do let l ← limitAt (spec i).params; return some (g, l))) (pupilT i none) s0 := by
  unfold pupilT
  refine tsafe_bind_val hI (tsafe_rd (x := .ok g) (fun s hle _ => by rw [(hle i).1 g hg hkr]; rfl)) ?_ (by simp)
  rintro g' s1 h1 - hI1 -
  cases h1
  refine tsafe_bind_val hI1 (tsafe_rd (x := attr (spec i).params.na >>= pyNum) (fun s _ hs => by rw [(hs i).params])) ?_ ?_
  swap
  · intro e he; rw [limitAt, he]; rfl
  rintro na s2 h2 - hI2 -
  refine tsafe_bind_val hI2 (tsafe_rd (x := attr (spec i).params.wl >>= pyNum) (fun s _ hs => by rw [(hs i).params])) ?_ ?_
  swap
  · intro e he; rw [limitAt, h2, he]; rfl
  rintro wl s3 h3 - hI3 -
  have hl : limitAt (spec i).params = PyFloat.div na wl := by rw [limitAt, h2, h3]; rfl
  rw [hl]
  refine tsafe_bind_val hI3 (tsafe_loc (x := PyFloat.div na wl)) ?_ ?_
  swap
  · intro e he; rw [he]; rfl
  rintro l s4 h4 - hI4 -
  rw [h4]
  exact fun _ _ _ => rfl

theorem tsafe_reads {i : ℕ} {s0 : Dicts} (hI : TInv spec s0) {g : Grid} {m : PyFloat} {z : List PyFloat} {c : Condition}
    {v : VecCorr} (hg : gridAt (spec i).params = .ok g) (hm : kmagAt (spec i).params = .ok m)
    (hz : (spec i).params.zrange = some z) (hc : (spec i).params.condition = some c)
    (hv : (spec i).params.vecCorr = some v) (hf : Fresh g m (s0 i)) :
    TSafe spec (fun _ r => r = (do
      let l ← limitAt (spec i).params
      return ⟨some (g, l), g, g, m, (m, g), z, condsOf c, vecsOf v⟩)) (readsT i none) s0 := by
  unfold readsT
  refine tsafe_bind_val (F := fun _ => True) hI ((tsafe_pupil hI hg hf.kr).imp (fun _ _ h => ⟨h, fun _ _ => trivial⟩)) ?_ ?_
  swap
  · intro e he
    rcases hl : limitAt (spec i).params with e' | l
    · rw [hl] at he; cases he; rfl
    · rw [hl] at he; cases he
  rintro q s1 h1 - hI1 hle1
  rcases hl : limitAt (spec i).params with e' | l
  · rw [hl] at h1; cases h1
  rw [hl] at h1
  cases h1
  have hf1 : Fresh g m (s1 i) :=
    ⟨(hle1 i).1 g hg hf.kr, (hle1 i).2.1 g hg hf.phi, (hle1 i).2.2.1 m hm hf.kmag, (hle1 i).2.2.2 g m hg hm hf.kz⟩
  refine tsafe_bind_val hI1 (tsafe_rd (x := .ok g) (fun s hle _ => by rw [(hle i).1 g hg hf1.kr]; rfl)) ?_ (by simp)
  rintro g' s2 h2 - hI2 hle2
  cases h2
  have hf2 : Fresh g m (s2 i) :=
    ⟨(hle2 i).1 g hg hf1.kr, (hle2 i).2.1 g hg hf1.phi, (hle2 i).2.2.1 m hm hf1.kmag, (hle2 i).2.2.2 g m hg hm hf1.kz⟩
  refine tsafe_bind_val hI2 (tsafe_rd (x := .ok g) (fun s hle _ => by rw [(hle i).2.1 g hg hf2.phi]; rfl)) ?_ (by simp)
  rintro g' s3 h3 - hI3 hle3
  cases h3
  have hf3 : Fresh g m (s3 i) :=
    ⟨(hle3 i).1 g hg hf2.kr, (hle3 i).2.1 g hg hf2.phi, (hle3 i).2.2.1 m hm hf2.kmag, (hle3 i).2.2.2 g m hg hm hf2.kz⟩
  refine tsafe_bind_val hI3 (tsafe_rd (x := .ok m) (fun s hle _ => by rw [(hle i).2.2.1 m hm hf3.kmag]; rfl)) ?_ (by simp)
  rintro m' s4 h4 - hI4 hle4
  cases h4
  have hf4 : Fresh g m (s4 i) :=
    ⟨(hle4 i).1 g hg hf3.kr, (hle4 i).2.1 g hg hf3.phi, (hle4 i).2.2.1 m hm hf3.kmag, (hle4 i).2.2.2 g m hg hm hf3.kz⟩
  refine tsafe_bind_val hI4 (tsafe_rd (x := .ok (m, g)) (fun s hle _ => by rw [(hle i).2.2.2 g m hg hm hf4.kz]; rfl)) ?_ (by simp)
  rintro kz s5 h5 - hI5 hle5
  cases h5
  refine tsafe_bind_val hI5 (tsafe_rd (x := .ok z) (fun s _ hs => by rw [(hs i).params, hz]; rfl)) ?_ (by simp)
  rintro z' s6 h6 - hI6 hle6
  cases h6
  refine tsafe_bind_val (F := fun _ => True) hI6 ((tsafe_conds hI6 hc).imp (fun _ _ h => ⟨h, fun _ _ => trivial⟩)) ?_ (by simp)
  rintro cs s7 h7 - hI7 hle7
  cases h7
  refine tsafe_bind_val (F := fun _ => True) hI7 ((tsafe_vecs hI7 hv).imp (fun _ _ h => ⟨h, fun _ _ => trivial⟩)) ?_ (by simp)
  rintro vs s8 h8 - hI8 hle8
  cases h8
  exact fun _ _ _ => rfl

theorem head_condsOf (c : Condition) : (condsOf c).head? = some c ∧ ∀ d ∈ condsOf c, some d = (condsOf c).head? := by
  cases c <;> simp [condsOf]

theorem head_vecsOf (v : VecCorr) : (vecsOf v).head? = some v ∧ ∀ d ∈ vecsOf v, some d = (vecsOf v).head? := by
  cases v <;> simp [vecsOf, List.replicate]

/-- In every interleaving with other readers `_gen_psf` computes what it computes alone. -/
theorem tsafe_genPsf (I : Impl) {i : ℕ} {s0 : Dicts} (hI : TInv spec s0) (hp : (spec i).pupil = none) :
    TSafe spec (fun _ r => r = (spec i).PSFa) (genPsfT I i none) s0 := by
  have hready := (hI i).ready
  obtain ⟨z, hz⟩ := Option.isSome_iff_exists.mp (hready.zrange rfl)
  obtain ⟨c, hc⟩ := Option.isSome_iff_exists.mp hready.condition
  obtain ⟨v, hv⟩ := Option.isSome_iff_exists.mp hready.vecCorr
  have hspec : (spec i).PSFa = hanserGenPsf (spec i).params none := by rw [HSpec.PSFa, hp]
  rw [hspec, hanserGenPsf_eq, hanserGenKr_eq]
  unfold genPsfT
  refine tsafe_bind_val (F := fun _ => True) hI ((tsafe_attributeChanged hI hp).imp (fun _ _ h => ⟨h, fun _ _ => trivial⟩)) ?_ (by simp)
  rintro _ s1 - - hI1 -
  refine tsafe_bind hI1 (tsafe_genKr hI1) ?_ ?_ (fun _ _ _ h _ _ => h)
  swap
  · rintro e s2 ⟨h, -⟩ - -
    rcases hg : gridAt (spec i).params with e' | g
    · rw [hg] at h; cases h; rfl
    · rw [hg] at h
      rcases hm : kmagAt (spec i).params with e' | m
      · rw [hm] at h; cases h; rfl
      · rw [hm] at h; cases h
  rintro _ s2 ⟨h, hfresh⟩ hI2 -
  rcases hg : gridAt (spec i).params with e' | g
  · rw [hg] at h; cases h
  rcases hm : kmagAt (spec i).params with e' | m
  · rw [hg, hm] at h; cases h
  refine tsafe_bind_val (F := fun _ => True) hI2 ((tsafe_reads hI2 hg hm hz hc hv (hfresh g m hg hm)).imp
    (fun _ _ h => ⟨h, fun _ _ => trivial⟩)) ?_ ?_
  swap
  · intro e he
    rcases hl : limitAt (spec i).params with e' | l
    · rw [hl] at he; cases he; rfl
    · rw [hl] at he; cases he
  rintro r s3 hr - hI3 -
  rcases hl : limitAt (spec i).params with e' | l
  · rw [hl] at hr; cases hr
  rw [hl] at hr
  cases hr
  have hcons : Reads.Consistent ⟨some (g, l), g, g, m, (m, g), z, condsOf c, vecsOf v⟩ :=
    ⟨by rintro q hq; cases hq; rfl, rfl, rfl, (head_condsOf c).2, (head_vecsOf v).2⟩
  intro s hs hIs
  rw [finishPsf, if_pos hcons]
  refine (hanserTail_congr ?_ ?_ ?_ _ _ _ _ _).trans rfl
  · exact hz.symm
  · rw [hv]; exact (head_vecsOf v).1
  · rw [hc]; exact (head_condsOf c).1

/-! ## The cached properties -/

theorem tsafe_cached {α : Type} (I : Impl) {l : Slot} {i : ℕ} {get : HObj → Option α} {put : α → HObj → HObj}
    {func : TM α} {x : Py α} {s0 : Dicts}
    (hget : ∀ o a, HRel o (spec i) → get o = some a → x = .ok a)
    (hput : ∀ o a, HRel o (spec i) → x = .ok a → HRel (put a o) (spec i))
    (hfunc : ∀ s1, TInv spec s1 → (∃ o, HRel o (spec i) ∧ get o = none) → TSafe spec (fun _ r => r = x) func s1) :
    TSafe spec (fun _ r => r = x) (cachedT I l i get put func) s0 := by
  have fill : ∀ s1, TInv spec s1 → (∃ o, HRel o (spec i) ∧ get o = none) → TSafe spec (fun _ r => r = x)
      (func.bind fun a => (wr i fun c => { c with obj := put a c.obj }).bind fun _ => loc (.ok a)) s1 := by
    intro s1 hI1 hn
    refine tsafe_bind_val (F := fun _ => True) hI1 ((hfunc s1 hI1 hn).imp (fun _ _ h => ⟨h, fun _ _ => trivial⟩)) ?_ (fun e he => he)
    rintro a s2 ha - hI2 -
    refine tsafe_bind_val (F := fun _ => True) hI2 (tsafe_wr (F := fun _ => True) (fun c hc => hput _ _ hc ha)
      (fun s _ => cellLe_refl (spec i).params (s i)) (fun _ _ _ => trivial)) ?_ (by simp)
    rintro _ s3 - - hI3 -
    exact fun _ _ _ => ha.symm
  have look : ∀ (k : TM α) (s1 : Dicts),
      (∀ s2, TInv spec s2 → (∃ o, HRel o (spec i) ∧ get o = none) → TSafe spec (fun _ r => r = x) k s2) →
      TSafe spec (fun _ r => r = x) (.act id fun s =>
        match get (s i).obj with
        | some a => .ret (.ok a)
        | none => k) s1 := by
    intro k s1 hk s hs hIs
    refine ⟨hIs, heapLe_refl _ _, ?_⟩
    rcases hg : get (s i).obj with _ | a
    · simp only [hg]; exact hk s hIs ⟨_, hIs i, hg⟩
    · simp only [hg]; exact fun _ _ _ => (hget _ _ (hIs i) hg).symm
  unfold cachedT
  refine look _ _ fun s1 hI1 hn => look _ _ fun s2 hI2 hn2 => ?_
  split_ifs
  · refine Prog.Safe.bind (heapLe_trans spec) (heapLe_refl spec) (look _ s2 fill) ?_ hI2
    intro r s3 hr _ _
    exact fun _ _ _ => hr
  · exact fill s2 hI2 hn2

theorem tsafe_psfa (I : Impl) {i : ℕ} {s0 : Dicts} :
    TSafe spec (fun _ r => r = (spec i).PSFa) (psfaT I i) s0 := by
  refine tsafe_cached I (fun o a h hg => h.psfa a hg) (fun o a h ha => ?_) ?_
  · exact ⟨h.params, h.ready, by simp, by rintro a' h'; cases h'; exact ha, h.otfa, h.psfi, h.otfi⟩
  · rintro s1 hI1 ⟨o, ho, hn⟩
    exact tsafe_genPsf I hI1 (ho.pupil hn)

theorem tsafe_otfa (I : Impl) {i : ℕ} {s0 : Dicts} :
    TSafe spec (fun _ r => r = (spec i).OTFa) (otfaT I i) s0 := by
  refine tsafe_cached I (fun o a h hg => h.otfa a hg) (fun o a h ha => ?_) ?_
  · exact ⟨h.params, h.ready, h.pupil, h.psfa, by rintro a' h'; cases h'; exact ha, h.psfi, h.otfi⟩
  · rintro s1 hI1 -
    refine tsafe_bind_val (F := fun _ => True) hI1 ((tsafe_psfa I).imp (fun _ _ h => ⟨h, fun _ _ => trivial⟩)) ?_ ?_
    · rintro a s2 ha - _ -
      intro _ _ _
      rw [HSpec.OTFa, ha]; rfl
    · intro e he; rw [HSpec.OTFa, he]; rfl

theorem tsafe_psfi (I : Impl) {i : ℕ} {s0 : Dicts} :
    TSafe spec (fun _ r => r = (spec i).PSFi) (psfiT I i) s0 := by
  refine tsafe_cached I (fun o a h hg => h.psfi a hg) (fun o a h ha => ?_) ?_
  · exact ⟨h.params, h.ready, h.pupil, h.psfa, h.otfa, by rintro a' h'; cases h'; exact ha, h.otfi⟩
  · rintro s1 hI1 -
    refine tsafe_bind_val (F := fun _ => True) hI1 ((tsafe_psfa I).imp (fun _ _ h => ⟨h, fun _ _ => trivial⟩)) ?_ ?_
    · rintro a s2 ha - _ -
      intro _ _ _
      rw [HSpec.PSFi, ha]; rfl
    · intro e he; rw [HSpec.PSFi, he]; rfl

theorem tsafe_otfi (I : Impl) {i : ℕ} {s0 : Dicts} :
    TSafe spec (fun _ r => r = (spec i).OTFi) (otfiT I i) s0 := by
  refine tsafe_cached I (fun o a h hg => h.otfi a hg) (fun o a h ha => ?_) ?_
  · exact ⟨h.params, h.ready, h.pupil, h.psfa, h.otfa, h.psfi, by rintro a' h'; cases h'; exact ha⟩
  · rintro s1 hI1 -
    refine tsafe_bind_val (F := fun _ => True) hI1 ((tsafe_psfi I).imp (fun _ _ h => ⟨h, fun _ _ => trivial⟩)) ?_ ?_
    · rintro a s2 ha - _ -
      intro _ _ _
      rw [HSpec.OTFi, ha]; rfl
    · intro e he; rw [HSpec.OTFi, he]; rfl

/-! ## Client threads -/

/-- The four outputs a thread can read. -/
inductive ROp
  | PSFa | OTFa | PSFi | OTFi
  deriving DecidableEq

/-- The same as an operation of a sequential history. -/
def ROp.toHOp : ROp → HOp
  | .PSFa => .readPSFa
  | .OTFa => .readOTFa
  | .PSFi => .readPSFi
  | .OTFi => .readOTFi

/-- Keep the result, whatever it is. -/
def keep {α : Type} (f : α → Out (Arr ℂ) (Arr ℝ)) (p : TM α) : TM (Out (Arr ℂ) (Arr ℝ)) :=
  Prog.bind p fun r => .ret (r.map f)

/-- One read of object `i`. -/
noncomputable def readT (I : Impl) (i : ℕ) : ROp → TM (Out (Arr ℂ) (Arr ℝ))
  | .PSFa => keep .cplx (psfaT I i)
  | .OTFa => keep .cplx (otfaT I i)
  | .PSFi => keep .real (psfiT I i)
  | .OTFi => keep .cplx (otfiT I i)

/-- A thread that makes a list of reads and records what each returned or raised. -/
noncomputable def threadT (I : Impl) : List (ℕ × ROp) → Prog Dicts Slot (List (Py (Out (Arr ℂ) (Arr ℝ))))
  | [] => .ret []
  | q :: qs => Prog.bind (readT I q.1 q.2) fun r => Prog.bind (threadT I qs) fun rs => .ret (r :: rs)

theorem tsafe_read (I : Impl) (i : ℕ) (op : ROp) {s0 : Dicts} (hI : TInv spec s0) :
    TSafe spec (fun _ r => r = ((spec i).step op.toHOp).1) (readT I i op) s0 := by
  have key : ∀ {α : Type} (f : α → Out (Arr ℂ) (Arr ℝ)) (p : TM α) (x : Py α), TSafe spec (fun _ r => r = x) p s0 →
      TSafe spec (fun _ r => r = x.map f) (keep f p) s0 := by
    intro α f p x hp
    refine Prog.Safe.bind (heapLe_trans spec) (heapLe_refl spec) hp ?_ hI
    rintro r s1 rfl _ _
    exact fun _ _ _ => rfl
  cases op
  · exact key _ _ _ (tsafe_psfa I)
  · exact key _ _ _ (tsafe_otfa I)
  · exact key _ _ _ (tsafe_psfi I)
  · exact key _ _ _ (tsafe_otfi I)

theorem tsafe_thread (I : Impl) (qs : List (ℕ × ROp)) {s0 : Dicts} (hI : TInv spec s0) :
    Prog.Safe (TInv spec) (heapLe spec) (fun _ rs => rs = qs.map fun q => ((spec q.1).step q.2.toHOp).1)
      (threadT I qs) s0 := by
  induction qs generalizing s0 with
  | nil => exact fun _ _ _ => rfl
  | cons q qs ih =>
    unfold threadT
    refine Prog.Safe.bind (heapLe_trans spec) (heapLe_refl spec) (tsafe_read I q.1 q.2 hI) ?_ hI
    rintro r s1 rfl hI1 _
    refine Prog.Safe.bind (heapLe_trans spec) (heapLe_refl spec) (ih hI1) ?_ hI1
    rintro rs s2 rfl _ _
    exact fun _ _ _ => rfl

/-! ## Locks -/

/-- The order in which the locks are taken: `OTFi`, then `PSFi` or `OTFa`, then `PSFa`. -/
def slotRank : Slot → ℕ
  | .psfa => 0
  | .otfa => 1
  | .psfi => 1
  | .otfi => 2

/-- A program that takes only locks of rank below `r`, and gives them back. -/
def LockBelow {α : Type} (r : ℕ) (p : Prog Dicts Slot α) : Prop :=
  ∀ held : List Slot, (∀ l ∈ held, r ≤ slotRank l) → p.DiscTo slotRank held held

theorem LockBelow.mono {α : Type} {r r' : ℕ} {p : Prog Dicts Slot α} (h : LockBelow r p) (hr : r ≤ r') :
    LockBelow r' p := fun held hh => h held fun l hl => hr.trans (hh l hl)

theorem LockBelow.bind {α β : Type} {r : ℕ} {p : Prog Dicts Slot α} {f : α → Prog Dicts Slot β} (hp : LockBelow r p)
    (hf : ∀ a, LockBelow r (f a)) : LockBelow r (Prog.bind p f) :=
  fun held hh => (hp held hh).bind fun a => hf a held hh

theorem lockBelow_ret {α : Type} (r : ℕ) (a : α) : LockBelow r (.ret a : Prog Dicts Slot α) := fun _ _ => rfl

theorem LockBelow.tbind {α β : Type} {r : ℕ} {p : TM α} {f : α → TM β} (hp : LockBelow r p)
    (hf : ∀ a, LockBelow r (f a)) : LockBelow r (TM.bind p f) :=
  LockBelow.bind hp fun x => by rcases x with e | a; exacts [lockBelow_ret _ _, hf a]

theorem lockBelow_rd {α : Type} (r i : ℕ) (f : HCell → Py α) : LockBelow r (rd i f) := fun _ _ _ => rfl
theorem lockBelow_wr (r i : ℕ) (f : HCell → HCell) : LockBelow r (wr i f) := fun _ _ _ => rfl
theorem lockBelow_loc {α : Type} (r : ℕ) (x : Py α) : LockBelow r (loc x) := fun _ _ => rfl

/-- Split a program into its steps. -/
macro "lock_steps" : tactic => `(tactic| repeat' (first
  | exact lockBelow_rd _ _ _ | exact lockBelow_wr _ _ _ | exact lockBelow_loc _ _ | exact lockBelow_ret _ _
  | refine LockBelow.tbind ?_ (fun _ => ?_) | split))

theorem lockBelow_genPsf (I : Impl) (i : ℕ) (base : Option (Arr ℂ)) : LockBelow 0 (genPsfT I i base) := by
  unfold genPsfT attributeChangedT genKrT readsT pupilT condsT vecsT vecTestT
  lock_steps

theorem lockBelow_cached {α : Type} (I : Impl) {l : Slot} {i : ℕ} {get : HObj → Option α} {put : α → HObj → HObj}
    {func : TM α} (h : LockBelow (slotRank l) func) : LockBelow (slotRank l + 1) (cachedT I l i get put func) := by
  have fill : LockBelow (slotRank l) (func.bind fun a => (wr i fun c => { c with obj := put a c.obj }).bind fun _ => loc (.ok a)) :=
    h.tbind fun a => by lock_steps
  have look : ∀ (r : ℕ) (k : TM α), LockBelow r k → LockBelow r (.act id fun s =>
        match get (s i).obj with
        | some a => .ret (.ok a)
        | none => k : TM α) := by
    intro r k hk held hh s
    rcases hg : get (s i).obj with _ | a
    · simp only [hg]; exact hk held hh
    · simp only [hg]; rfl
  unfold cachedT
  refine look _ _ (look _ _ ?_)
  split_ifs
  · intro held hh
    refine ⟨fun l' hl' => hh l' hl', ?_⟩
    refine (look _ _ fill (l :: held) ?_).bind fun r => ⟨held, rfl, rfl⟩
    intro l' hl'
    rcases List.mem_cons.mp hl' with rfl | hl'
    · exact le_refl _
    · exact (Nat.le_succ _).trans (hh l' hl')
  · exact fill.mono (Nat.le_succ _)

theorem lockBelow_psfa (I : Impl) (i : ℕ) : LockBelow 1 (psfaT I i) :=
  lockBelow_cached I (l := .psfa) (lockBelow_genPsf I i none)

theorem lockBelow_otfa (I : Impl) (i : ℕ) : LockBelow 2 (otfaT I i) :=
  lockBelow_cached I (l := .otfa) (LockBelow.tbind (lockBelow_psfa I i) fun _ => lockBelow_loc _ _)

theorem lockBelow_psfi (I : Impl) (i : ℕ) : LockBelow 2 (psfiT I i) :=
  lockBelow_cached I (l := .psfi) (LockBelow.tbind (lockBelow_psfa I i) fun _ => lockBelow_loc _ _)

theorem lockBelow_otfi (I : Impl) (i : ℕ) : LockBelow 3 (otfiT I i) :=
  lockBelow_cached I (l := .otfi) (LockBelow.tbind (lockBelow_psfi I i) fun _ => lockBelow_loc _ _)

theorem lockBelow_thread (I : Impl) (qs : List (ℕ × ROp)) : LockBelow 3 (threadT I qs) := by
  induction qs with
  | nil => exact lockBelow_ret _ _
  | cons q qs ih =>
    unfold threadT
    refine LockBelow.bind ?_ fun r => ih.bind fun rs => lockBelow_ret _ _
    obtain ⟨i, op⟩ := q
    cases op
    · exact ((lockBelow_psfa I i).mono (by omega)).bind fun _ => lockBelow_ret _ _
    · exact ((lockBelow_otfa I i).mono (by omega)).bind fun _ => lockBelow_ret _ _
    · exact ((lockBelow_psfi I i).mono (by omega)).bind fun _ => lockBelow_ret _ _
    · exact ((lockBelow_otfi I i).mono (by omega)).bind fun _ => lockBelow_ret _ _

/-! ## Number of steps -/

theorem within_tbind {α β : Type} {p : TM α} {f : α → TM β} {n m : ℕ} (hp : Prog.Within p n)
    (hf : ∀ a, Prog.Within (f a) m) : Prog.Within (TM.bind p f) (n + m) :=
  hp.bind fun x => by rcases x with e | a; exacts [trivial, hf a]

theorem within_rd {α : Type} (i : ℕ) (f : HCell → Py α) : Prog.Within (rd i f) 1 := ⟨0, rfl, fun _ => trivial⟩
theorem within_wr (i : ℕ) (f : HCell → HCell) : Prog.Within (wr i f) 1 := ⟨0, rfl, fun _ => trivial⟩
theorem within_loc {α : Type} (x : Py α) : Prog.Within (loc x) 0 := trivial

theorem within_attributeChanged (i : ℕ) : Prog.Within (attributeChangedT i) 4 := by
  unfold attributeChangedT
  exact within_tbind (n := 1) (within_wr _ _) fun _ => within_tbind (n := 1) (within_wr _ _) fun _ =>
    within_tbind (n := 1) (within_wr _ _) fun _ => within_wr _ _

theorem within_genKr (i : ℕ) : Prog.Within (genKrT i) 11 := by
  unfold genKrT
  refine within_tbind (n := 1) (m := 10) (within_rd _ _) fun _ => ?_
  refine within_tbind (n := 1) (m := 9) (within_rd _ _) fun _ => ?_
  refine (within_tbind (n := 0) (m := 9) (within_loc _) fun _ => ?_).mono (by omega)
  refine within_tbind (n := 1) (m := 8) (within_wr _ _) fun _ => ?_
  refine within_tbind (n := 1) (m := 7) (within_wr _ _) fun _ => ?_
  refine within_tbind (n := 1) (m := 6) (within_wr _ _) fun _ => ?_
  refine within_tbind (n := 1) (m := 5) (within_rd _ _) fun _ => ?_
  refine within_tbind (n := 1) (m := 4) (within_rd _ _) fun _ => ?_
  refine (within_tbind (n := 0) (m := 4) (within_loc _) fun _ => ?_).mono (by omega)
  refine within_tbind (n := 1) (m := 3) (within_wr _ _) fun _ => ?_
  refine within_tbind (n := 1) (m := 2) (within_rd _ _) fun _ => ?_
  refine within_tbind (n := 1) (m := 1) (within_rd _ _) fun _ => ?_
  exact within_wr _ _

theorem within_conds (i : ℕ) : Prog.Within (condsT i) 3 := by
  unfold condsT
  refine within_tbind (n := 1) (m := 2) (within_rd _ _) fun _ => ?_
  split
  · trivial
  refine within_tbind (n := 1) (m := 1) (within_rd _ _) fun _ => ?_
  split
  · trivial
  refine within_tbind (n := 1) (m := 0) (within_rd _ _) fun _ => ?_
  split <;> trivial

theorem within_vecTest (i : ℕ) (a : VecCorr) : Prog.Within (vecTestT i a) 2 := by
  unfold vecTestT
  refine within_tbind (n := 1) (m := 1) (within_rd _ _) fun _ => ?_
  split
  · trivial
  exact within_tbind (n := 1) (m := 0) (within_rd _ _) fun _ => within_loc _

theorem within_vecs (i : ℕ) : Prog.Within (vecsT i) 7 := by
  unfold vecsT
  refine within_tbind (n := 1) (m := 6) (within_rd _ _) fun _ => ?_
  split
  · trivial
  exact within_tbind (n := 2) (m := 4) (within_vecTest _ _) fun _ => within_tbind (n := 2) (m := 2) (within_vecTest _ _) fun _ =>
    within_tbind (n := 2) (m := 0) (within_vecTest _ _) fun _ => within_loc _

theorem within_reads (i : ℕ) (base : Option (Arr ℂ)) : Prog.Within (readsT i base) 18 := by
  unfold readsT
  refine within_tbind (n := 3) (m := 15) ?_ fun _ => ?_
  · unfold pupilT
    split
    · exact within_tbind (n := 1) (m := 2) (within_rd _ _) fun _ => within_tbind (n := 1) (m := 1) (within_rd _ _) fun _ =>
        within_tbind (n := 1) (m := 0) (within_rd _ _) fun _ => within_tbind (n := 0) (m := 0) (within_loc _) fun _ => within_loc _
    · split <;> trivial
  refine within_tbind (n := 1) (m := 14) (within_rd _ _) fun _ => ?_
  refine within_tbind (n := 1) (m := 13) (within_rd _ _) fun _ => ?_
  refine within_tbind (n := 1) (m := 12) (within_rd _ _) fun _ => ?_
  refine within_tbind (n := 1) (m := 11) (within_rd _ _) fun _ => ?_
  refine within_tbind (n := 1) (m := 10) (within_rd _ _) fun _ => ?_
  exact within_tbind (n := 3) (m := 7) (within_conds _) fun _ => within_tbind (n := 7) (m := 0) (within_vecs _) fun _ => within_loc _

theorem within_genPsf (I : Impl) (i : ℕ) (base : Option (Arr ℂ)) : Prog.Within (genPsfT I i base) 33 := by
  unfold genPsfT
  exact within_tbind (n := 4) (m := 29) (within_attributeChanged i) fun _ => within_tbind (n := 11) (m := 18) (within_genKr i) fun _ =>
    within_tbind (n := 18) (m := 0) (within_reads i base) fun _ => within_loc _

theorem within_cached {α : Type} (I : Impl) {l : Slot} {i : ℕ} {get : HObj → Option α} {put : α → HObj → HObj}
    {func : TM α} {n : ℕ} (h : Prog.Within func n) : Prog.Within (cachedT I l i get put func) (n + 6) := by
  have fill : Prog.Within (func.bind fun a => (wr i fun c => { c with obj := put a c.obj }).bind fun _ => loc (.ok a)) (n + 1) :=
    within_tbind h fun a => within_tbind (n := 1) (m := 0) (within_wr _ _) fun _ => within_loc _
  have look : ∀ (m : ℕ) (k : TM α), Prog.Within k m → Prog.Within (.act id fun s =>
        match get (s i).obj with
        | some a => .ret (.ok a)
        | none => k : TM α) (m + 1) := by
    intro m k hk
    refine ⟨m, rfl, fun s => ?_⟩
    rcases hg : get (s i).obj with _ | a
    · simp only [hg]; exact hk
    · simp only [hg]; trivial
  unfold cachedT
  refine look (n + 5) _ (look (n + 4) _ ?_)
  split_ifs
  · exact ⟨n + 3, rfl, (look _ _ fill).bind (m := 1) fun r => ⟨0, rfl, trivial⟩⟩
  · exact fill.mono (by omega)

theorem within_keep {α : Type} (f : α → Out (Arr ℂ) (Arr ℝ)) {p : TM α} {n : ℕ} (h : Prog.Within p n) :
    Prog.Within (keep f p) n := Prog.Within.bind (m := 0) h fun _ => trivial

/-- A read is at most 51 accesses. -/
theorem within_read (I : Impl) (i : ℕ) (op : ROp) : Prog.Within (readT I i op) 51 := by
  have h1 : Prog.Within (psfaT I i) 39 := within_cached I (within_genPsf I i none)
  have h2 : Prog.Within (otfaT I i) 45 := within_cached I (n := 39) (within_tbind (m := 0) h1 fun _ => within_loc _)
  have h3 : Prog.Within (psfiT I i) 45 := within_cached I (n := 39) (within_tbind (m := 0) h1 fun _ => within_loc _)
  have h4 : Prog.Within (otfiT I i) 51 := within_cached I (n := 45) (within_tbind (m := 0) h3 fun _ => within_loc _)
  cases op
  · exact (within_keep _ h1).mono (by omega)
  · exact (within_keep _ h2).mono (by omega)
  · exact (within_keep _ h3).mono (by omega)
  · exact (within_keep _ h4).mono (by omega)

theorem within_thread (I : Impl) (qs : List (ℕ × ROp)) : Prog.Within (threadT I qs) (51 * qs.length) := by
  induction qs with
  | nil => trivial
  | cons q qs ih =>
    unfold threadT
    refine ((within_read I q.1 q.2).bind (m := 51 * qs.length) fun r => ?_).mono (by simp; omega)
    exact ih.bind (m := 0) fun _ => trivial

/-! ## C133 -/

/-- A `HanserPSF` with any history behind it. -/
def Lived (o : HObj) : Prop := ∃ a zr o0 ops, HObj.new a zr = .ok o0 ∧ o = (runHistory HObj.step o0 ops).2

theorem Lived.rel {o : HObj} (h : Lived o) : ∃ s, HRel o s := by
  obtain ⟨a, zr, o0, ops, h1, rfl⟩ := h
  obtain ⟨h2, h3⟩ := hanser_ready h1
  have hrel : HRel o0 ⟨o0.params, none⟩ := by rw [h3]; exact HRel.cleared h2
  exact ⟨_, (run_rel hrel ops).2⟩

/-- C133: any number of threads read any outputs of any objects (each with any history behind it, and any leftovers
of earlier computations in its `__dict__`), in any interleaving of their accesses, with either version of
`cached_property`.  Every read returns or raises what the same read would have on the untouched object by a single
thread.  And at every moment - in the middle of everything - each object has its old parameters and will answer
every later history of operations as the untouched object would. -/
theorem C133_concurrent_reads (I : Impl) (heap : Dicts) (hh : ∀ i, Lived (heap i).obj)
    (threads : List (List (ℕ × ROp))) (sched : List ℕ) :
    let c := (Conf.start heap (threads.map (threadT I))).run sched
    (∀ (j : ℕ) (qs : List (ℕ × ROp)) rs, threads[j]? = some qs → c.thread[j]? = some (.ret rs) →
      rs = qs.map fun q => (HObj.step (heap q.1).obj q.2.toHOp).1) ∧
    (∀ i, (c.heap i).obj.params = (heap i).obj.params) ∧
    (∀ i ops, (runHistory HObj.step (c.heap i).obj ops).1 = (runHistory HObj.step (heap i).obj ops).1) := by
  intro c
  choose spec hspec using fun i => (hh i).rel
  have hI : TInv spec heap := hspec
  have hsafe : (Conf.start heap (threads.map (threadT I))).AllSafe (TInv spec) (heapLe spec)
      (fun j rs => ∀ qs, threads[j]? = some qs → rs = qs.map fun q => ((spec q.1).step q.2.toHOp).1) := by
    refine ⟨hI, fun j p hj => ?_⟩
    simp only [Conf.start, List.getElem?_map] at hj
    rcases hq : threads[j]? with _ | qs
    · rw [hq] at hj; cases hj
    · rw [hq] at hj
      cases hj
      refine (tsafe_thread I qs hI).imp ?_
      rintro s rs rfl qs' h'
      rw [hq] at h'; cases h'; rfl
  obtain ⟨h1, h2⟩ := hsafe.run (heapLe_trans spec) (heapLe_refl spec) sched
  refine ⟨fun j qs rs hq hr => ?_, fun i => ?_, fun i ops => ?_⟩
  · have := h2 j _ hr _ (heapLe_refl spec _) h1 qs hq
    rw [this]
    refine List.map_congr_left fun q _ => ?_
    exact (step_rel (hspec q.1) q.2.toHOp).1.symm
  · exact (h1 i).params.trans (hspec i).params.symm
  · rw [(run_rel (h1 i) ops).1, (run_rel (hspec i) ops).1]

/-- C133: the threads never wait for each other in a circle and never loop: there is no schedule with more than 51
steps per read in it, and when no thread can make a step all of them are finished. -/
theorem C133_terminates (I : Impl) (heap : Dicts) (threads : List (List (ℕ × ROp))) :
    (∀ sched, (Conf.start heap (threads.map (threadT I))).Live sched → sched.length ≤ 51 * (threads.map List.length).sum) ∧
    (∀ sched, (∀ i, ¬ ((Conf.start heap (threads.map (threadT I))).run sched).Enabled i) →
      ∀ (j : ℕ) p, ((Conf.start heap (threads.map (threadT I))).run sched).thread[j]? = some p → ∃ rs, p = Prog.ret rs) := by
  constructor
  · intro sched hl
    have := Conf.live_bounded (b := threads.map fun qs => 51 * qs.length) (by simp [Conf.start]) ?_ hl
    · refine this.trans (le_of_eq ?_)
      clear this hl
      induction threads with
      | nil => rfl
      | cons t ts ih => simp only [List.map_cons, List.sum_cons, ih, Nat.mul_add]
    · intro j p hj
      simp only [Conf.start, List.getElem?_map] at hj
      rcases hq : threads[j]? with _ | qs
      · rw [hq] at hj; cases hj
      · rw [hq] at hj
        cases hj
        simpa [List.getD_eq_getElem?_getD, hq] using within_thread I qs
  · intro sched hs j p hj
    have h0 : (Conf.start heap (threads.map (threadT I))).AllDisc slotRank (fun _ => []) := by
      refine Conf.start_disc fun p hp => ?_
      obtain ⟨qs, -, rfl⟩ := List.mem_map.mp hp
      exact Prog.disc_iff.mpr (lockBelow_thread I qs [] (by simp))
    obtain ⟨held, h1⟩ := h0.run sched
    exact h1.no_deadlock hs j p hj

end PyOTF
