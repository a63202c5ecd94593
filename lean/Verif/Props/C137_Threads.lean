import Verif.Model.SheppardThreads
import Verif.Lemmas.Threads
import Verif.Props.C32_C33_Sheppard
import Verif.Props.C133_Threads

/-!
# C137: reading `SheppardPSF` objects from several threads, and the attributes they save
-/

namespace PyOTF

open STM

/-! ## Sequential values -/

/-- The axis along z of the current parameters (otf.py:495). -/
def zgridAt (p : Params) : Py Grid := do
  let size ← attr p.zsize
  let res ← attr p.zres >>= pyNum
  gridOf size res

/-- All of `_gen_kr`, in the order of otf.py:494-526. -/
noncomputable def srcAt (p : Params) : Py SSrc :=
  attr p.size >>= fun size =>
  (attr p.res >>= pyNum) >>= fun res =>
  gridOf size res >>= fun xy =>
  attr p.zsize >>= fun zsize =>
  (attr p.zres >>= pyNum) >>= fun zres =>
  gridOf zsize zres >>= fun z =>
  (attr p.ni >>= pyNum) >>= fun ni =>
  (attr p.wl >>= pyNum) >>= fun wl =>
  PyFloat.div ni wl >>= fun kmag =>
  secondOf xy >>= fun _ =>
  secondOf z >>= fun _ =>
  (attr p.na >>= pyNum) >>= fun na =>
  (attr p.wl >>= pyNum) >>= fun wl' =>
  PyFloat.div na wl' >>= fun limit =>
  shellCheck xy z kmag limit >>= fun _ =>
  attr p.dual >>= fun dual =>
  .ok ⟨xy, z, kmag, limit, dual⟩

theorem bind_ok_shep {α β : Type} {x : Py α} {a : α} {f : α → Py β} {y : Py β} (h : x = .ok a) (h' : f a = y) :
    (x >>= f) = y := by rw [h]; exact h'

theorem peel {α β : Type} {x : Py α} {f : α → Py β} {b : β} (hx : (x >>= f) = .ok b) : ∃ a, x = .ok a ∧ f a = .ok b := by
  rcases x with e | a
  · cases hx
  · exact ⟨a, rfl, hx⟩

theorem gridOf_size {v : PyVal} {r : PyFloat} {g : Grid} (h : gridOf v r = .ok g) : pyNat v = g.size := by
  obtain ⟨_, -, h⟩ := peel h
  cases h; rfl

theorem srcAt_parts {p : Params} {q : SSrc} (h : srcAt p = .ok q) :
    gridAt p = .ok q.xy ∧ zgridAt p = .ok q.z ∧ kmagAt p = .ok q.kmag ∧ limitAt p = .ok q.limit ∧
    attr p.dual = .ok q.dual ∧ secondOf q.xy = .ok () ∧ secondOf q.z = .ok () ∧
    shellCheck q.xy q.z q.kmag q.limit = .ok () := by
  unfold srcAt at h
  obtain ⟨size, e1, h⟩ := peel h
  obtain ⟨res, e2, h⟩ := peel h
  obtain ⟨xy, e3, h⟩ := peel h
  obtain ⟨zsize, e4, h⟩ := peel h
  obtain ⟨zres, e5, h⟩ := peel h
  obtain ⟨z, e6, h⟩ := peel h
  obtain ⟨ni, e7, h⟩ := peel h
  obtain ⟨wl, e8, h⟩ := peel h
  obtain ⟨kmag, e9, h⟩ := peel h
  obtain ⟨_, e10, h⟩ := peel h
  obtain ⟨_, e11, h⟩ := peel h
  obtain ⟨na, e12, h⟩ := peel h
  obtain ⟨wl', e13, h⟩ := peel h
  obtain ⟨limit, e14, h⟩ := peel h
  obtain ⟨_, e15, h⟩ := peel h
  obtain ⟨dual, e16, h⟩ := peel h
  cases h
  refine ⟨?_, ?_, ?_, ?_, e16, e10, e11, e15⟩
  · rw [gridAt, e1, e2]; exact e3
  · rw [zgridAt, e4, e5]; exact e6
  · rw [kmagAt, e7, e8]; exact e9
  · rw [limitAt, e12, e13]; exact e14

/-- `_gen_otf` in terms of its two halves. -/
theorem sheppardGenOtf_eq {p : Params} {v : VecCorr} {c : Condition} (hr : Ready .sheppard p) (hv : p.vecCorr = some v)
    (hc : p.condition = some c) : sheppardGenOtf p = (do
      let q ← srcAt p
      let h ← q.num v c
      return fftshift (some [1, 2, 3]) h.otf) := by
  obtain ⟨d, hd⟩ := Option.isSome_iff_exists.mp (hr.dual rfl)
  unfold sheppardGenOtf srcAt gridOf secondOf shellCheck SSrc.num
  rw [hv, hc, hd]
  rcases attr p.size with e | size
  · rfl
  rcases hres : attr p.res with e | res
  · rfl
  rcases hres' : pyNum res with e | res
  · simp [Bind.bind, Except.bind, hres']
  simp only [Bind.bind, Except.bind, hres']
  rcases PyFloat.div (.fin 1) (PyFloat.mul (.fin (pyNat size : ℚ)) res) with e | _
  · rfl
  simp only [Pure.pure, Except.pure]
  rcases attr p.zsize with e | zsize
  · rfl
  rcases attr p.zres with e | zres
  · rfl
  simp only []
  rcases pyNum zres with e | zres
  · rfl
  simp only []
  rcases PyFloat.div (.fin 1) (PyFloat.mul (.fin (pyNat zsize : ℚ)) zres) with e | _
  · rfl
  simp only []
  rcases attr p.ni with e | ni
  · rfl
  simp only []
  rcases pyNum ni with e | ni
  · rfl
  simp only []
  rcases attr p.wl with e | wl
  · rfl
  simp only []
  rcases pyNum wl with e | wl
  · rfl
  simp only []
  rcases PyFloat.div ni wl with e | kmag
  · rfl
  simp only []
  by_cases h1 : pyNat size < 2
  · simp only [if_pos h1]; rfl
  simp only [if_neg h1]
  by_cases h2 : pyNat zsize < 2
  · simp only [if_pos h2]; rfl
  simp only [if_neg h2]
  rcases attr p.na with e | na
  · rfl
  simp only []
  rcases pyNum na with e | na
  · rfl
  simp only []
  rcases PyFloat.div na wl with e | limit
  · rfl
  simp only []
  rcases hfr : finReals [res, zres, kmag, limit] with e | f
  · rfl
  simp only [attr]
  split_ifs
  · rfl
  · simp only [hfr]

/-! ## What holds while threads read -/

/-- The attributes saved by `_gen_kr`. -/
inductive SField
  | kmag | dk | dkz | valid | kzz | kyy | kxx

/-- The attribute is there and is that of the parameters `p`. -/
def SGood (p : Params) : SField → SCell → Prop
  | .kmag, c => ∃ m, kmagAt p = .ok m ∧ c.scr.kmag = some m
  | .dk, c => ∃ g, gridAt p = .ok g ∧ c.scr.dk = some g
  | .dkz, c => ∃ g, zgridAt p = .ok g ∧ c.scr.dkz = some g
  | .valid, c => ∃ q, srcAt p = .ok q ∧ c.scr.valid = some q
  | .kzz, c => ∃ q, srcAt p = .ok q ∧ c.scr.kzz = some ⟨q.xy, q.z, q⟩
  | .kyy, c => ∃ q, srcAt p = .ok q ∧ c.scr.kyy = some ⟨q.xy, q.z, q⟩
  | .kxx, c => ∃ q, srcAt p = .ok q ∧ c.scr.kxx = some ⟨q.xy, q.z, q⟩

/-- All of them are there and up to date. -/
def AllGood (p : Params) (c : SCell) : Prop := ∀ f, SGood p f c

/-- Nothing is cached. -/
def Uncached (o : SObj) : Prop := o.psfa = none ∧ o.otfa = none ∧ o.psfi = none ∧ o.otfi = none

/-- As long as anything is cached the saved attributes are those of the parameters. -/
def Saved (c : SCell) : Prop := Uncached c.obj ∨ AllGood c.obj.params c

variable (spec : ℕ → Params) (coh : ℕ → Prop)

/-- The objects represent the specification states; the objects in `coh` have coherent saved attributes. -/
def SInv (s : SDicts) : Prop := ∀ i, SRel (s i).obj (spec i) ∧ (coh i → Saved (s i))

/-- Up to date entries stay up to date. -/
def sCellLe (p : Params) (c d : SCell) : Prop := ∀ f, SGood p f c → SGood p f d

@[inherit_doc sCellLe]
def sLe (s t : SDicts) : Prop := ∀ i, sCellLe (spec i) (s i) (t i)

theorem sLe_refl (s : SDicts) : sLe spec s s := fun _ _ h => h

theorem sLe_trans (a b c : SDicts) (h1 : sLe spec a b) (h2 : sLe spec b c) : sLe spec a c :=
  fun i f h => h2 i f (h1 i f h)

variable {spec coh}

/-- The judgement for programs that may raise. -/
abbrev SSafe (spec : ℕ → Params) (coh : ℕ → Prop) {α : Type} (Q : SDicts → Py α → Prop) (p : STM α) (s0 : SDicts) : Prop :=
  Prog.Safe (SInv spec coh) (sLe spec) Q p s0

/-- The result is `y`, and if that is no error `G` holds from now on. -/
def Post {α : Type} (y : Py α) (G : SDicts → Prop) (s : SDicts) (r : Py α) : Prop := r = y ∧ ((∃ a, r = .ok a) → G s)

/-- Nothing more is claimed. -/
abbrev NoG : SDicts → Prop := fun _ => True

/-- Claims that stay true. -/
def Stable (spec : ℕ → Params) (G : SDicts → Prop) : Prop := ∀ s t, sLe spec s t → G s → G t

theorem stable_noG : Stable spec NoG := fun _ _ _ _ => trivial

theorem stable_good (i : ℕ) : Stable spec (fun s => AllGood (spec i) (s i)) := fun _ _ h hg f => h i f (hg f)

theorem sstep {α β : Type} {x : Py α} {g : α → Py β} {G H : SDicts → Prop} (_hG : Stable spec G) {p : STM α} {f : α → STM β}
    {s0 : SDicts} (hI : SInv spec coh s0) (hp : SSafe spec coh (Post x H) p s0)
    (hf : ∀ a s1, x = .ok a → H s1 → SInv spec coh s1 → sLe spec s0 s1 → SSafe spec coh (Post (g a) G) (f a) s1) :
    SSafe spec coh (Post (x >>= g) G) (STM.bind p f) s0 := by
  refine Prog.Safe.bind (sLe_trans spec) (sLe_refl spec) hp ?_ hI
  rintro r s1 ⟨rfl, h2⟩ hI1 hle
  rcases r with e | a
  · intro s hs _
    exact ⟨rfl, fun ⟨a, ha⟩ => by cases ha⟩
  · exact hf a s1 rfl (h2 ⟨a, rfl⟩) hI1 hle

/-- A step whose value is known. -/
theorem sstep_ok {α β : Type} {a : α} {y : Py β} {G H : SDicts → Prop} (hG : Stable spec G) {p : STM α} {f : α → STM β}
    {s0 : SDicts} (hI : SInv spec coh s0) (hp : SSafe spec coh (Post (.ok a) H) p s0)
    (hf : ∀ s1, H s1 → SInv spec coh s1 → sLe spec s0 s1 → SSafe spec coh (Post y G) (f a) s1) :
    SSafe spec coh (Post y G) (STM.bind p f) s0 :=
  sstep (x := .ok a) (g := fun _ => y) hG hI hp fun a' s1 h hH hI1 hle => by cases h; exact hf s1 hH hI1 hle

theorem ssafe_rd {α : Type} {i : ℕ} {f : SCell → Py α} {x : Py α} {s0 : SDicts}
    (h : ∀ s, sLe spec s0 s → SInv spec coh s → f (s i) = x) : SSafe spec coh (Post x NoG) (rd i f) s0 := by
  intro s hs hI
  exact ⟨hI, sLe_refl _ _, fun t ht hIt => ⟨h s hs hI, fun _ => trivial⟩⟩

theorem ssafe_par {α : Type} {i : ℕ} {f : Params → Py α} {s0 : SDicts} :
    SSafe spec coh (Post (f (spec i)) NoG) (rd i fun c => f c.obj.params) s0 :=
  ssafe_rd fun s _ hs => by rw [(hs i).1.params]

theorem ssafe_loc {α : Type} {x : Py α} {s0 : SDicts} : SSafe spec coh (Post x NoG) (loc x) s0 :=
  fun _ _ _ => ⟨rfl, fun _ => trivial⟩

theorem ssafe_wr {i : ℕ} {w : SCell → SCell} {s0 : SDicts} {H : SCell → Prop}
    (h1 : ∀ s, sLe spec s0 s → SInv spec coh s → SRel (w (s i)).obj (spec i) ∧ (coh i → Saved (w (s i))))
    (h2 : ∀ c, sCellLe (spec i) c (w c)) (h3 : ∀ c d, sCellLe (spec i) (w c) d → H d) :
    SSafe spec coh (Post (.ok ()) (fun s => H (s i))) (wr i w) s0 := by
  intro s hs hI
  refine ⟨fun j => ?_, fun j => ?_, fun t ht hIt => ⟨rfl, fun _ => ?_⟩⟩
  · by_cases hj : j = i
    · subst hj; simpa using h1 s hs hI
    · simpa [Function.update_of_ne hj] using hI j
  · by_cases hj : j = i
    · subst hj; simpa using h2 (s j)
    · simp only [Function.update_of_ne hj]; exact fun f h => h
  · have := ht i
    simp only [Function.update_self] at this
    exact h3 (s i) (t i) this

/-- Saving an attribute. -/
theorem ssafe_save {i : ℕ} {w : SCell → SCell} {s0 : SDicts} (k : SField) (h1 : ∀ c, (w c).obj = c.obj)
    (h2 : ∀ c, SGood (spec i) k (w c)) (h3 : ∀ c, sCellLe (spec i) c (w c)) :
    SSafe spec coh (Post (.ok ()) (fun s => SGood (spec i) k (s i))) (wr i w) s0 := by
  refine ssafe_wr (H := SGood (spec i) k) (fun s _ hI => ⟨by rw [h1]; exact (hI i).1, fun hc => ?_⟩) h3 (fun c d h => h k (h2 c))
  unfold Saved
  rw [h1]
  refine ((hI i).2 hc).imp id fun hg f => ?_
  rw [(hI i).1.params] at hg ⊢
  exact h3 _ f (hg f)

/-! ## The pieces of `_gen_otf` -/

theorem SRel.drop {o : SObj} {p : Params} (h : SRel o p) :
    SRel { o with psfa := none } p ∧ SRel { o with otfa := none } p ∧ SRel { o with psfi := none } p ∧
    SRel { o with otfi := none } p :=
  ⟨⟨h.params, h.ready, h.otfa, by simp, h.psfi, h.otfi⟩, ⟨h.params, h.ready, by simp, h.psfa, h.psfi, h.otfi⟩,
    ⟨h.params, h.ready, h.otfa, h.psfa, by simp, h.otfi⟩, ⟨h.params, h.ready, h.otfa, h.psfa, h.psfi, by simp⟩⟩

theorem ssafe_attributeChanged {i : ℕ} {s0 : SDicts} (hI : SInv spec coh s0) :
    SSafe spec coh (Post (.ok ()) NoG) (sAttributeChangedT i) s0 := by
  have key : ∀ (w : SCell → SCell) (s1 : SDicts), (∀ c, SRel c.obj (spec i) → SRel (w c).obj (spec i)) →
      (∀ c, (w c).scr = c.scr) → (∀ c, (w c).obj.params = c.obj.params) → (∀ c, Uncached c.obj → Uncached (w c).obj) →
      SSafe spec coh (Post (.ok ()) (fun _ => True)) (wr i w) s1 := by
    intro w s1 h1 h2 h3 h4
    have hgood : ∀ p c, sCellLe p c (w c) := by
      intro p c f hf
      cases f <;> simpa only [SGood, h2] using hf
    refine ssafe_wr (H := fun _ => True) (fun s _ hs => ⟨h1 _ (hs i).1, fun hc => ?_⟩) (hgood _) (fun _ _ _ => trivial)
    unfold Saved
    rw [h3]
    exact ((hs i).2 hc).imp (h4 _) (fun hg f => hgood _ _ f (hg f))
  unfold sAttributeChangedT
  refine sstep_ok stable_noG hI (key _ _ (fun c h => h.drop.1) (fun _ => rfl) (fun _ => rfl) (fun c h => ⟨rfl, h.2⟩)) ?_
  intro s1 _ hI1 _
  refine sstep_ok stable_noG hI1 (key _ _ (fun c h => h.drop.2.1) (fun _ => rfl) (fun _ => rfl)
    (fun c h => ⟨h.1, rfl, h.2.2⟩)) ?_
  intro s2 _ hI2 _
  refine sstep_ok stable_noG hI2 (key _ _ (fun c h => h.drop.2.2.1) (fun _ => rfl) (fun _ => rfl)
    (fun c h => ⟨h.1, h.2.1, rfl, h.2.2.2⟩)) ?_
  intro s3 _ hI3 _
  exact key _ _ (fun c h => h.drop.2.2.2) (fun _ => rfl) (fun _ => rfl) (fun c h => ⟨h.1, h.2.1, h.2.2.1, rfl⟩)

theorem ssafe_select (I : SImpl) {i : ℕ} {s0 : SDicts} {q : SSrc} (hI : SInv spec coh s0) (hq : srcAt (spec i) = .ok q)
    (hg : SGood (spec i) .valid (s0 i)) : SSafe spec coh (Post (.ok ⟨q.xy, q.z, q⟩) NoG) (selectT I i q.xy q.z) s0 := by
  unfold selectT
  refine sstep_ok (a := q) stable_noG hI (ssafe_rd fun s hle _ => ?_) ?_
  · obtain ⟨q', h1, h2⟩ := hle i .valid hg
    rw [hq] at h1; cases h1
    rw [h2]; rfl
  intro s1 _ _ _
  rw [if_pos ⟨rfl, rfl⟩]
  exact ssafe_loc

/-- `_gen_kr` raises what the arithmetic raises, or leaves all saved attributes up to date. -/
theorem ssafe_genKr (I : SImpl) {i : ℕ} {s0 : SDicts} (hI : SInv spec coh s0) :
    SSafe spec coh (Post (srcAt (spec i) >>= fun _ => .ok ()) (fun s => AllGood (spec i) (s i))) (sGenKrT I i) s0 := by
  have hG := stable_good (spec := spec) i
  set p := spec i with hp
  have e : (srcAt p >>= fun _ => (.ok () : Py Unit)) =
      (attr p.size >>= fun size =>
      (attr p.res >>= pyNum) >>= fun res =>
      gridOf size res >>= fun xy =>
      attr p.zsize >>= fun zsize =>
      (attr p.zres >>= pyNum) >>= fun zres =>
      gridOf zsize zres >>= fun z =>
      (attr p.ni >>= pyNum) >>= fun ni =>
      (attr p.wl >>= pyNum) >>= fun wl =>
      PyFloat.div ni wl >>= fun kmag =>
      secondOf xy >>= fun _ =>
      secondOf z >>= fun _ =>
      (attr p.na >>= pyNum) >>= fun na =>
      (attr p.wl >>= pyNum) >>= fun wl' =>
      PyFloat.div na wl' >>= fun limit =>
      shellCheck xy z kmag limit >>= fun _ =>
      attr p.dual >>= fun _ =>
      .ok ()) := by
    unfold srcAt
    simp only [bind_assoc]
    rfl
  rw [e]
  unfold sGenKrT
  refine sstep hG hI (ssafe_par (f := fun p => attr p.size)) fun size s1 e1 _ hI1 _ => ?_
  refine sstep hG hI1 (ssafe_par (f := fun p => attr p.res >>= pyNum)) fun res s2 e2 _ hI2 _ => ?_
  refine sstep hG hI2 ssafe_loc fun xy s3 e3 _ hI3 _ => ?_
  refine sstep hG hI3 (ssafe_par (f := fun p => attr p.zsize)) fun zsize s4 e4 _ hI4 _ => ?_
  refine sstep hG hI4 (ssafe_par (f := fun p => attr p.zres >>= pyNum)) fun zres s5 e5 _ hI5 _ => ?_
  refine sstep hG hI5 ssafe_loc fun z s6 e6 _ hI6 _ => ?_
  refine sstep hG hI6 (ssafe_par (f := fun p => attr p.ni >>= pyNum)) fun ni s7 e7 _ hI7 _ => ?_
  refine sstep hG hI7 (ssafe_par (f := fun p => attr p.wl >>= pyNum)) fun wl s8 e8 _ hI8 _ => ?_
  refine sstep hG hI8 ssafe_loc fun kmag s9 e9 _ hI9 _ => ?_
  have hxy : gridAt p = .ok xy := by rw [gridAt, e1, e2]; exact e3
  have hz : zgridAt p = .ok z := by rw [zgridAt, e4, e5]; exact e6
  have hkm : kmagAt p = .ok kmag := by rw [kmagAt, e7, e8]; exact e9
  refine sstep_ok hG hI9 (ssafe_save .kmag (fun _ => rfl) (fun c => ⟨kmag, hkm, rfl⟩) (fun c f hf => ?_)) ?_
  · cases f <;> first | exact hf | exact ⟨kmag, hkm, rfl⟩
  intro s10 g10 hI10 _
  refine sstep hG hI10 ssafe_loc fun _ s11 e11 _ hI11 l11 => ?_
  refine sstep hG hI11 ssafe_loc fun _ s12 e12 _ hI12 l12 => ?_
  refine sstep_ok hG hI12 (ssafe_save .dk (fun _ => rfl) (fun c => ⟨xy, hxy, rfl⟩) (fun c f hf => ?_)) ?_
  · cases f <;> first | exact hf | exact ⟨xy, hxy, rfl⟩
  intro s13 g13 hI13 l13
  refine sstep_ok hG hI13 (ssafe_save .dkz (fun _ => rfl) (fun c => ⟨z, hz, rfl⟩) (fun c f hf => ?_)) ?_
  · cases f <;> first | exact hf | exact ⟨z, hz, rfl⟩
  intro s14 g14 hI14 l14
  refine sstep hG hI14 (ssafe_par (f := fun p => attr p.na >>= pyNum)) fun na s15 e15 _ hI15 l15 => ?_
  refine sstep hG hI15 (ssafe_par (f := fun p => attr p.wl >>= pyNum)) fun wl' s16 e16 _ hI16 l16 => ?_
  refine sstep hG hI16 ssafe_loc fun limit s17 e17 _ hI17 l17 => ?_
  refine sstep hG hI17 ssafe_loc fun _ s18 e18 _ hI18 l18 => ?_
  refine sstep hG hI18 (ssafe_par (f := fun p => attr p.dual)) fun dual s19 e19 _ hI19 l19 => ?_
  have hq : srcAt p = .ok ⟨xy, z, kmag, limit, dual⟩ := by
    unfold srcAt
    exact bind_ok_shep e1 (bind_ok_shep e2 (bind_ok_shep e3 (bind_ok_shep e4 (bind_ok_shep e5 (bind_ok_shep e6 (bind_ok_shep e7 (bind_ok_shep e8 (bind_ok_shep e9
      (bind_ok_shep e11 (bind_ok_shep e12 (bind_ok_shep e15 (bind_ok_shep e16 (bind_ok_shep e17 (bind_ok_shep e18 (bind_ok_shep e19 rfl)))))))))))))))
  refine sstep_ok hG hI19 (ssafe_save .valid (fun _ => rfl) (fun c => ⟨_, hq, rfl⟩) (fun c f hf => ?_)) ?_
  · cases f <;> first | exact hf | exact ⟨_, hq, rfl⟩
  intro s20 g20 hI20 l20
  refine sstep_ok hG hI20 (ssafe_select I hI20 hq g20) fun s21 _ hI21 l21 => ?_
  refine sstep_ok hG hI21 (ssafe_select I hI21 hq (l21 i _ g20)) fun s22 _ hI22 l22 => ?_
  refine sstep_ok hG hI22 (ssafe_select I hI22 hq (l22 i _ (l21 i _ g20))) fun s23 _ hI23 l23 => ?_
  refine sstep_ok hG hI23 (ssafe_save .kzz (fun _ => rfl) (fun c => ⟨_, hq, rfl⟩) (fun c f hf => ?_)) ?_
  · cases f <;> first | exact hf | exact ⟨_, hq, rfl⟩
  intro s24 g24 hI24 l24
  refine sstep_ok hG hI24 (ssafe_save .kyy (fun _ => rfl) (fun c => ⟨_, hq, rfl⟩) (fun c f hf => ?_)) ?_
  · cases f <;> first | exact hf | exact ⟨_, hq, rfl⟩
  intro s25 g25 hI25 l25
  have last := ssafe_save (spec := spec) (coh := coh) (i := i) (s0 := s25) .kxx
    (w := fun c => { c with scr := { c.scr with kxx := some ⟨xy, z, ⟨xy, z, kmag, limit, dual⟩⟩ } })
    (fun _ => rfl) (fun c => ⟨_, hq, rfl⟩) (fun c f hf => by cases f <;> first | exact hf | exact ⟨_, hq, rfl⟩)
  have up : ∀ t, sLe spec s25 t → SGood p .kxx (t i) → AllGood p (t i) := by
    intro t ht hk f
    have m24 := ht i
    have m23 := fun f h => m24 f (l25 i f h)
    have m20 := fun f h => m23 f (l24 i f (l23 i f (l22 i f (l21 i f h))))
    have m14 := fun f h => m20 f (l20 i f (l19 i f (l18 i f (l17 i f (l16 i f (l15 i f h))))))
    have m13 := fun f h => m14 f (l14 i f h)
    have m10 := fun f h => m13 f (l13 i f (l12 i f (l11 i f h)))
    cases f
    · exact m10 _ g10
    · exact m13 _ g13
    · exact m14 _ g14
    · exact m20 _ g20
    · exact m23 _ g24
    · exact m24 _ g25
    · exact hk
  intro s hs hIs
  obtain ⟨w1, w2, w3⟩ := last s hs hIs
  refine ⟨w1, w2, fun t ht hIt => ?_⟩
  obtain ⟨w4, w5⟩ := w3 t ht hIt
  exact ⟨w4, fun h => up t (sLe_trans spec _ _ _ hs (sLe_trans spec _ _ _ w2 ht)) (w5 h)⟩

/-- The values `self.condition` is read as when nobody assigns it. -/
def sCondsOf : Condition → List Condition
  | .sine => [.sine]
  | .herschel => [.herschel, .herschel]
  | .none => [.none, .none, .none]

theorem ssafe_conds {i : ℕ} {s0 : SDicts} (hI : SInv spec coh s0) {c : Condition} (hc : (spec i).condition = some c) :
    SSafe spec coh (Post (.ok (sCondsOf c)) NoG) (sCondsT i) s0 := by
  have rdc : ∀ s1, SSafe spec coh (Post (.ok c) NoG) (rd i fun c => attr c.obj.params.condition) s1 :=
    fun s1 => ssafe_rd (fun s _ hs => by rw [(hs i).1.params, hc]; rfl)
  unfold sCondsT
  refine sstep_ok stable_noG hI (rdc _) fun s1 _ hI1 _ => ?_
  split_ifs with h
  · subst h; exact ssafe_loc
  refine sstep_ok stable_noG hI1 (rdc _) fun s2 _ hI2 _ => ?_
  split_ifs with h'
  · subst h'; exact ssafe_loc
  refine sstep_ok stable_noG hI2 (rdc _) fun s3 _ hI3 _ => ?_
  cases c
  · exact ssafe_loc
  · exact absurd rfl h
  · exact absurd rfl h'

/-- What one test of `self.vec_corr` gives when nobody assigns it. -/
def sVecOf (v a : VecCorr) : List VecCorr × ℕ :=
  if v = a then ([v], 2) else ([v, v], if v = .total then 2 else 0)

theorem ssafe_vecTest {i : ℕ} {s0 : SDicts} (hI : SInv spec coh s0) {v : VecCorr} (hv : (spec i).vecCorr = some v)
    (a : VecCorr) : SSafe spec coh (Post (.ok (sVecOf v a)) NoG) (sVecTestT i a) s0 := by
  have rdv : ∀ s1, SSafe spec coh (Post (.ok v) NoG) (rd i fun c => attr c.obj.params.vecCorr) s1 :=
    fun s1 => ssafe_rd (fun s _ hs => by rw [(hs i).1.params, hv]; rfl)
  unfold sVecTestT sVecOf
  refine sstep_ok stable_noG hI (rdv _) fun s1 _ hI1 _ => ?_
  by_cases h : v = a
  · simp only [if_pos h]; exact ssafe_loc
  simp only [if_neg h]
  exact sstep_ok stable_noG hI1 (rdv _) fun s2 _ hI2 _ => ssafe_loc

theorem ssafe_masks {i : ℕ} {s0 : SDicts} (hI : SInv spec coh s0) {q : SSrc} (hq : srcAt (spec i) = .ok q)
    (hg : SGood (spec i) .valid (s0 i)) (n : ℕ) :
    SSafe spec coh (Post (.ok (List.replicate n q)) NoG) (sMasksT i n) s0 := by
  induction n generalizing s0 with
  | zero => exact ssafe_loc
  | succ n ih =>
    unfold sMasksT
    refine sstep_ok (a := q) stable_noG hI (ssafe_rd fun s hle _ => ?_) fun s1 _ hI1 l1 => ?_
    · obtain ⟨q', h1, h2⟩ := hle i .valid hg
      rw [hq] at h1; cases h1
      rw [h2]; rfl
    exact sstep_ok stable_noG hI1 (ih hI1 (l1 i _ hg)) fun s2 _ hI2 _ => ssafe_loc

theorem ssafe_sizes {i : ℕ} {s0 : SDicts} (hI : SInv spec coh s0) {q : SSrc} (hq : srcAt (spec i) = .ok q) :
    SSafe spec coh (Post (.ok [q.z.size, q.xy.size, q.xy.size]) NoG) (sSizesT i) s0 := by
  obtain ⟨h1, h2, -⟩ := srcAt_parts hq
  have size : ∃ v, attr (spec i).size = .ok v ∧ pyNat v = q.xy.size := by
    obtain ⟨v, h3, h1⟩ := peel h1
    obtain ⟨r, -, h1⟩ := peel h1
    exact ⟨v, h3, gridOf_size h1⟩
  have zsize : ∃ v, attr (spec i).zsize = .ok v ∧ pyNat v = q.z.size := by
    obtain ⟨v, h3, h2⟩ := peel h2
    obtain ⟨r, -, h2⟩ := peel h2
    exact ⟨v, h3, gridOf_size h2⟩
  obtain ⟨v, hv, hv'⟩ := size
  obtain ⟨w, hw, hw'⟩ := zsize
  unfold sSizesT
  refine sstep_ok (a := w) stable_noG hI (ssafe_rd fun s _ hs => by rw [(hs i).1.params, hw]) fun s1 _ hI1 _ => ?_
  refine sstep_ok (a := v) stable_noG hI1 (ssafe_rd fun s _ hs => by rw [(hs i).1.params, hv]) fun s2 _ hI2 _ => ?_
  refine sstep_ok (a := v) stable_noG hI2 (ssafe_rd fun s _ hs => by rw [(hs i).1.params, hv]) fun s3 _ hI3 _ => ?_
  rw [hv', hw']
  exact ssafe_loc

theorem sFinish_ok (I : SImpl) {q : SSrc} {v : VecCorr} {c : Condition} {vs : List VecCorr} (n : ℕ)
    (hvs : ∀ w ∈ vs, w = v) :
    sFinish I (⟨q.xy, q.z, q⟩, ⟨q.xy, q.z, q⟩, ⟨q.xy, q.z, q⟩) (sCondsOf c) (v :: vs) [q.z.size, q.xy.size, q.xy.size]
      (List.replicate n q) = q.num v c >>= fun h => .ok (fftshift (some [1, 2, 3]) h.otf) := by
  unfold sFinish
  rw [if_pos]
  · cases c <;> rfl
  · refine ⟨rfl, rfl, rfl, by cases c <;> simp [sCondsOf], ?_, rfl, fun m hm => List.eq_of_mem_replicate hm⟩
    intro w hw
    rcases List.mem_cons.mp hw with h | h
    · rw [h]; rfl
    · rw [hvs w h]; rfl

theorem sVecOf_mem {v a w : VecCorr} (h : w ∈ (sVecOf v a).1) : w = v := by
  unfold sVecOf at h
  split_ifs at h <;> simpa using h

/-- In every interleaving with other readers `_gen_otf` computes what it computes alone. -/
theorem ssafe_genOtf (I : SImpl) {i : ℕ} {s0 : SDicts} (hI : SInv spec coh s0) :
    SSafe spec coh (Post (SSpec.OTFa (spec i)) (fun s => AllGood (spec i) (s i))) (sGenOtfT I i) s0 := by
  have hG := stable_good (spec := spec) i
  have hready := (hI i).1.ready
  obtain ⟨c, hc⟩ := Option.isSome_iff_exists.mp hready.condition
  obtain ⟨v, hv⟩ := Option.isSome_iff_exists.mp hready.vecCorr
  rw [SSpec.OTFa, sheppardGenOtf_eq hready hv hc]
  have e : (srcAt (spec i) >>= fun q => q.num v c >>= fun h => (.ok (fftshift (some [1, 2, 3]) h.otf) : Py _)) =
      ((srcAt (spec i) >>= fun _ => (.ok () : Py Unit)) >>= fun _ =>
        srcAt (spec i) >>= fun q => q.num v c >>= fun h => .ok (fftshift (some [1, 2, 3]) h.otf)) := by
    rcases srcAt (spec i) with e | q <;> rfl
  refine (show SSafe spec coh (Post (srcAt (spec i) >>= fun q => q.num v c >>= fun h => (.ok (fftshift (some [1, 2, 3]) h.otf) : Py _))
    (fun s => AllGood (spec i) (s i))) (sGenOtfT I i) s0 from ?_)
  rw [e]
  unfold sGenOtfT
  refine sstep_ok hG hI (ssafe_attributeChanged hI) fun s1 _ hI1 _ => ?_
  refine sstep hG hI1 (ssafe_genKr I hI1) fun _ s2 h2 g2 hI2 _ => ?_
  rcases hq : srcAt (spec i) with e | q
  · rw [hq] at h2; cases h2
  have get : ∀ (f : SScratch → Option SSel) (k : SField) (s1 : SDicts), SGood (spec i) k (s1 i) →
      (∀ c, SGood (spec i) k c ↔ ∃ q, srcAt (spec i) = .ok q ∧ f c.scr = some ⟨q.xy, q.z, q⟩) →
      SSafe spec coh (Post (.ok ⟨q.xy, q.z, q⟩) NoG) (rd i fun c => attr (f c.scr)) s1 := by
    intro f k s1 hk hf
    refine ssafe_rd fun s hle _ => ?_
    obtain ⟨q', h1, h2⟩ := (hf _).mp (hle i k hk)
    rw [hq] at h1; cases h1
    rw [h2]; rfl
  refine sstep_ok hG hI2 (get (·.kxx) .kxx s2 (g2 _) (fun _ => Iff.rfl)) fun s3 _ hI3 l3 => ?_
  have g3 := hG _ _ l3 g2
  refine sstep_ok hG hI3 (get (·.kyy) .kyy s3 (g3 _) (fun _ => Iff.rfl)) fun s4 _ hI4 l4 => ?_
  have g4 := hG _ _ l4 g3
  refine sstep_ok hG hI4 (get (·.kzz) .kzz s4 (g4 _) (fun _ => Iff.rfl)) fun s5 _ hI5 l5 => ?_
  have g5 := hG _ _ l5 g4
  refine sstep_ok hG hI5 (ssafe_conds hI5 hc) fun s6 _ hI6 l6 => ?_
  have g6 := hG _ _ l6 g5
  refine sstep_ok (a := v) hG hI6 (ssafe_rd fun s _ hs => by rw [(hs i).1.params, hv]; rfl) fun s7 _ hI7 l7 => ?_
  have g7 := hG _ _ l7 g6
  have fin : ∀ (s : SDicts) (r : Py (Arr (Option ℂ))), r = (q.num v c >>= fun h => .ok (fftshift (some [1, 2, 3]) h.otf)) →
      AllGood (spec i) (s i) → SSafe spec coh (Post ((.ok q : Py SSrc) >>= fun q => q.num v c >>= fun h =>
        .ok (fftshift (some [1, 2, 3]) h.otf)) (fun s => AllGood (spec i) (s i))) (loc r) s := by
    rintro s r rfl hg t ht _
    exact ⟨rfl, fun _ => hG _ _ ht hg⟩
  split_ifs with h0
  · refine sstep_ok hG hI7 (ssafe_sizes hI7 hq) fun s8 _ hI8 l8 => ?_
    have g8 := hG _ _ l8 g7
    refine sstep_ok hG hI8 (ssafe_masks hI8 hq (g8 _) 1) fun s9 _ hI9 l9 => ?_
    have g9 := hG _ _ l9 g8
    exact fin _ _ (sFinish_ok I 1 (by simp)) g9
  · refine sstep_ok hG hI7 (ssafe_vecTest hI7 hv .z) fun s8 _ hI8 l8 => ?_
    refine sstep_ok hG hI8 (ssafe_vecTest hI8 hv .y) fun s9 _ hI9 l9 => ?_
    refine sstep_ok hG hI9 (ssafe_vecTest hI9 hv .x) fun s10 _ hI10 l10 => ?_
    refine sstep_ok hG hI10 (ssafe_sizes hI10 hq) fun s11 _ hI11 l11 => ?_
    have g11 := hG _ _ l11 (hG _ _ l10 (hG _ _ l9 (hG _ _ l8 g7)))
    refine sstep_ok hG hI11 (ssafe_masks hI11 hq (g11 _) _) fun s12 _ hI12 l12 => ?_
    refine fin _ _ (sFinish_ok I _ ?_) (hG _ _ l12 g11)
    intro w hw
    simp only [List.mem_append] at hw
    rcases hw with (hw | hw) | hw <;> exact sVecOf_mem hw

/-! ## The cached properties -/

theorem ssafe_cached {α : Type} (I : SImpl) {l : Slot} {i : ℕ} {get : SObj → Option α} {put : α → SObj → SObj}
    {func : STM α} {x : Py α} {s0 : SDicts}
    (hget : ∀ o a, SRel o (spec i) → get o = some a → x = .ok a ∧ ¬ Uncached o)
    (hput : ∀ o a, SRel o (spec i) → x = .ok a → SRel (put a o) (spec i))
    (hfunc : ∀ s1, SInv spec coh s1 → SSafe spec coh (Post x (fun s => coh i → AllGood (spec i) (s i))) func s1)  :
    SSafe spec coh (Post x (fun s => coh i → AllGood (spec i) (s i))) (sCachedT I l i get put func) s0 := by
  have hG : Stable spec (fun s => coh i → AllGood (spec i) (s i)) := fun s t h hg hc => stable_good i s t h (hg hc)
  have fill : ∀ s1, SInv spec coh s1 → SSafe spec coh (Post x (fun s => coh i → AllGood (spec i) (s i)))
      (func.bind fun a => (wr i fun c => { c with obj := put a c.obj }).bind fun _ => loc (.ok a)) s1 := by
    intro s1 hI1
    have ex : x = (x >>= fun a => .ok a) := by rcases x with e | a <;> rfl
    rw [ex]
    refine sstep hG hI1 (hfunc s1 hI1) fun a s2 ha g2 hI2 l2 => ?_
    refine sstep_ok (a := ()) (H := fun _ => True) hG hI2 (ssafe_wr (H := fun _ => True) (fun s hle hs => ⟨hput _ _ (hs i).1 ha, fun hc => ?_⟩)
      (fun c f hf => by cases f <;> exact hf) (fun _ _ _ => trivial)) fun s3 _ hI3 l3 => ?_
    · have hp : (put a (s i).obj).params = spec i := (hput _ _ (hs i).1 ha).params
      right
      rw [hp]
      have := hG _ _ hle g2 hc
      intro f
      have := this f
      cases f <;> exact this
    · exact fun t ht _ => ⟨rfl, fun _ => hG _ _ (sLe_trans spec _ _ _ l3 ht) g2⟩
  have look : ∀ (k : STM α) (s1 : SDicts),
      (∀ s2, SInv spec coh s2 → SSafe spec coh (Post x (fun s => coh i → AllGood (spec i) (s i))) k s2) →
      SSafe spec coh (Post x (fun s => coh i → AllGood (spec i) (s i))) (.act id fun s =>
        match get (s i).obj with
        | some a => .ret (.ok a)
        | none => k) s1 := by
    intro k s1 hk s hs hIs
    refine ⟨hIs, sLe_refl _ _, ?_⟩
    rcases hg : get (s i).obj with _ | a
    · simp only [hg]; exact hk s hIs
    · simp only [hg]
      obtain ⟨h1, h2⟩ := hget _ _ (hIs i).1 hg
      refine fun t ht _ => ⟨h1.symm, fun _ hc => ?_⟩
      refine stable_good i _ _ ht ?_
      have := ((hIs i).2 hc).resolve_left h2
      rw [(hIs i).1.params] at this
      exact this
  unfold sCachedT
  refine look _ _ fun s1 hI1 => look _ _ fun s2 hI2 => ?_
  split_ifs
  · refine Prog.Safe.bind (sLe_trans spec) (sLe_refl spec) (look _ s2 fill) ?_ hI2
    intro r s3 hr _ _
    exact fun t ht _ => ⟨hr.1, fun h => hG _ _ ht (hr.2 h)⟩
  · exact fill s2 hI2

theorem ssafe_otfa (I : SImpl) {i : ℕ} {s0 : SDicts} :
    SSafe spec coh (Post (SSpec.OTFa (spec i)) (fun s => coh i → AllGood (spec i) (s i))) (sOtfaT I i) s0 := by
  refine ssafe_cached I (fun o a h hg => ⟨h.otfa a hg, fun hu => by rw [hu.2.1] at hg; cases hg⟩) (fun o a h ha => ?_) ?_
  · exact ⟨h.params, h.ready, by rintro a' h'; cases h'; exact ha, h.psfa, h.psfi, h.otfi⟩
  · exact fun s1 hI1 => (ssafe_genOtf I hI1).imp fun s r h => ⟨h.1, fun h' _ => h.2 h'⟩

theorem ssafe_map {α β : Type} {i : ℕ} {s0 : SDicts} {x : Py α} (hI : SInv spec coh s0) {p : STM α} (f : α → β)
    (hp : SSafe spec coh (Post x (fun s => coh i → AllGood (spec i) (s i))) p s0) :
    SSafe spec coh (Post (x.map f) (fun s => coh i → AllGood (spec i) (s i))) (p.bind fun a => loc (.ok (f a))) s0 := by
  have hG : Stable spec (fun s => coh i → AllGood (spec i) (s i)) := fun s t h hg hc => stable_good i s t h (hg hc)
  have ex : x.map f = (x >>= fun a => .ok (f a)) := by rcases x with e | a <;> rfl
  rw [ex]
  exact sstep hG hI hp fun a s1 _ g1 _ _ => fun t ht _ => ⟨rfl, fun _ => hG _ _ ht g1⟩

theorem ssafe_psfa (I : SImpl) {i : ℕ} {s0 : SDicts} :
    SSafe spec coh (Post (SSpec.PSFa (spec i)) (fun s => coh i → AllGood (spec i) (s i))) (sPsfaT I i) s0 := by
  refine ssafe_cached I (fun o a h hg => ⟨h.psfa a hg, fun hu => by rw [hu.1] at hg; cases hg⟩) (fun o a h ha => ?_)
    (fun s1 hI1 => ssafe_map hI1 _ (ssafe_otfa I))
  exact ⟨h.params, h.ready, h.otfa, by rintro a' h'; cases h'; exact ha, h.psfi, h.otfi⟩

theorem ssafe_psfi (I : SImpl) {i : ℕ} {s0 : SDicts} :
    SSafe spec coh (Post (SSpec.PSFi (spec i)) (fun s => coh i → AllGood (spec i) (s i))) (sPsfiT I i) s0 := by
  refine ssafe_cached I (fun o a h hg => ⟨h.psfi a hg, fun hu => by rw [hu.2.2.1] at hg; cases hg⟩) (fun o a h ha => ?_)
    (fun s1 hI1 => ssafe_map hI1 _ (ssafe_psfa I))
  exact ⟨h.params, h.ready, h.otfa, h.psfa, by rintro a' h'; cases h'; exact ha, h.otfi⟩

theorem ssafe_otfi (I : SImpl) {i : ℕ} {s0 : SDicts} :
    SSafe spec coh (Post (SSpec.OTFi (spec i)) (fun s => coh i → AllGood (spec i) (s i))) (sOtfiT I i) s0 := by
  refine ssafe_cached I (fun o a h hg => ⟨h.otfi a hg, fun hu => by rw [hu.2.2.2] at hg; cases hg⟩) (fun o a h ha => ?_)
    (fun s1 hI1 => ssafe_map hI1 _ (ssafe_psfi I))
  exact ⟨h.params, h.ready, h.otfa, h.psfa, h.psfi, by rintro a' h'; cases h'; exact ha⟩

end PyOTF
