import Verif.Lemmas.MicroSep
import Verif.Props.C130_Aliasing
import Verif.Props.C115_C116_ConfocalOtf

/-!
# C139: shared arrays of microscopes

The outputs a microscope hands out are the arrays it keeps; `model_psf` of a widefield microscope is the array its model keeps.  Arrays are shared in no other way.
-/

namespace PyOTF

/-- The state after a program. -/
noncomputable def mafter (prog : List MStmt) : MRProg := (runHistory MRProg.step MRProg.empty prog).2

theorem sep_after (prog : List MStmt) : Sep (mafter prog) := sep_empty.run prog

/-! ## Arrays behave like values -/

theorem mrefines_from {s : MRProg} {t : MVProg} (h : RelM s t) (prog : List MStmt) (hu : MUnshared s prog) :
    (runHistory MRProg.step s prog).1 = (runHistory MVProg.step t prog).1 ∧ RelM (runHistory MRProg.step s prog).2 (runHistory MVProg.step t prog).2 := by
  induction prog generalizing s t with
  | nil => exact ⟨rfl, h⟩
  | cons st rest ih =>
    obtain ⟨h1, h2⟩ := hu
    have hs := mstep_sim h st h1
    obtain ⟨i1, i2⟩ := ih hs.rel h2
    exact ⟨by simp only [runHistory, hs.out, i1], i2⟩

/-- C139: a program that writes into no shared array sees the same whether arrays are references or values (`Model/Microscope.lean`), with any number of models and
microscopes: every statement returns or raises the same, and in the end every variable has the same contents. -/
theorem C139_refines (prog : List MStmt) (hu : MUnshared MRProg.empty prog) :
    (runHistory MRProg.step MRProg.empty prog).1 = (runHistory MVProg.step MVProg.empty prog).1 ∧
    List.Forall₂ (fun p a => (mafter prog).prog.world.mem.cplx[p]? = some a) (mafter prog).prog.c (runHistory MVProg.step MVProg.empty prog).2.prog.c ∧
    List.Forall₂ (fun p a => (mafter prog).prog.world.mem.real[p]? = some a) (mafter prog).prog.r (runHistory MVProg.step MVProg.empty prog).2.prog.r ∧
    List.Forall₂ (fun p a => (mafter prog).prog.world.mem.axis[p]? = some a) (mafter prog).prog.z (runHistory MVProg.step MVProg.empty prog).2.prog.z := by
  have h0 : RelM MRProg.empty MVProg.empty := ⟨⟨⟨rfl, by simp [MRProg.empty, RProg.empty]⟩, .nil, .nil, .nil⟩, .nil, by simp [MRProg.empty]⟩
  obtain ⟨h1, h2⟩ := mrefines_from h0 prog hu
  exact ⟨h1, h2.prog.c, h2.prog.r, h2.prog.z⟩

theorem mprivate_of_not_write {s : MRProg} {st : MStmt} (hw : ¬ st.IsWrite) : st.Private s := by
  cases st with
  | base st => exact ⟨private_of_not_write hw, by cases st <;> first | trivial | exact (hw trivial).elim⟩
  | _ => trivial

/-- C139: in particular a program that only creates, assigns and reads. -/
theorem C139_no_writes (prog : List MStmt) (h : ∀ st ∈ prog, ¬ st.IsWrite) :
    (runHistory MRProg.step MRProg.empty prog).1 = (runHistory MVProg.step MVProg.empty prog).1 := by
  refine (C139_refines prog ?_).1
  generalize MRProg.empty = s
  induction prog generalizing s with
  | nil => trivial
  | cons st rest ih => exact ⟨mprivate_of_not_write (h st (by simp)), ih (fun x hx => h x (by simp [hx])) _⟩

/-- C139: no statement other than a write - no constructor, assignment or read, of a model or a microscope - changes the contents of an array that exists,
whatever was done before. -/
theorem C139_frame (prog : List MStmt) (st : MStmt) (hw : ¬ st.IsWrite) (p : ℕ) :
    (∀ a, (mafter prog).prog.world.mem.cplx[p]? = some a → ((mafter prog).step st).2.prog.world.mem.cplx[p]? = some a) ∧
    (∀ a, (mafter prog).prog.world.mem.real[p]? = some a → ((mafter prog).step st).2.prog.world.mem.real[p]? = some a) ∧
    (∀ a, (mafter prog).prog.world.mem.axis[p]? = some a → ((mafter prog).step st).2.prog.world.mem.axis[p]? = some a) := by
  obtain ⟨t, ht⟩ := (sep_after prog).rel
  have he := (mstep_sim ht st (mprivate_of_not_write hw)).frame hw
  exact ⟨he.cplx p, he.real p, he.axis p⟩

/-! ## A widefield microscope and its model -/

theorem mset_same {s : MRProg} {i : ℕ} {m : RMicro} (h : s.micros[i]? = some m) : s.micros.set i m = s.micros := set_same h

/-- C139: `model_psf` of a widefield microscope is the array its model keeps: `m.model_psf is m.model.PSFi`. -/
theorem C139_model_psf_is_cache (s : MRProg) (i : ℕ) (m : RMicro) (hm : s.micros[i]? = some m) (hk : m.kind = .widefield) :
    s.step (.modelPsf i) = s.step (.base (.PSFi m.model)) := by
  have e : s.onMicro i MState.modelPsf = ((World.onObj m.model RState.getPSFi s.prog.world).1, (World.onObj m.model RState.getPSFi s.prog.world).2, s.micros) := by
    simp only [MRProg.onMicro, hm, MState.modelPsf, PyM.bind_apply, PyM.get_apply, hk, MState.onModel, mset_same hm]
  simp only [MRProg.step, e, MRProg.seeR, RProg.step]

theorem putR_micros {s : MRProg} {x r : ℕ} {a : Arr ℝ} (hx : s.prog.r[x]? = some r) (ha : s.prog.world.mem.real[r]? = some a) {idx : List ℕ} (hi : InShape idx a.shape) (v : ℝ)
    [DecidableEq (List ℕ)] : s.step (.base (.writeR x idx v)) = (.ok .done, ⟨s.prog.putR r ⟨a.shape, Function.update a.get idx v⟩, s.micros⟩) := by
  simp only [MRProg.step]
  rw [step_writeR hx ha hi v]
  congr!

open Classical in
/-- C139: so what the client writes into `m.model_psf` shows in `m.model.PSFi`, and in `m.PSF` if that has not been read before. -/
theorem C139_model_psf_poisons (s : MRProg) (i : ℕ) (m : RMicro) (hm : s.micros[i]? = some m) (hk : m.kind = .widefield) (a : Arr ℝ) (h : (s.step (.modelPsf i)).1 = .ok (.real a))
    (idx : List ℕ) (hi : InShape idx a.shape) (v : ℝ) :
    ∃ s' : MRProg, (s.step (.modelPsf i)).2.step (.base (.writeR s.prog.r.length idx v)) = (.ok .done, s') ∧
      (s'.step (.base (.PSFi m.model))).1 = .ok (.real ⟨a.shape, Function.update a.get idx v⟩) ∧
      (m.psf = none → (s'.step (.PSF i)).1 =
        (microPsf (pyInt m.oversample) (pyInt m.psfParams.size).toNat ⟨a.shape, Function.update a.get idx v⟩).map .real) := by
  rw [C139_model_psf_is_cache s i m hm hk] at h ⊢
  obtain ⟨o, r, h1, h2, h3, h4⟩ := seen_psfi (s := s.prog) h
  have hx : (s.prog.step (.PSFi m.model)).2.r[s.prog.r.length]? = some r := by rw [h4]; simp
  refine ⟨_, putR_micros (s := ⟨(s.prog.step (.PSFi m.model)).2, s.micros⟩) hx h3 hi v, ?_, fun hn => ?_⟩
  · simp only [MRProg.step]
    rw [read_psfi (s := (s.prog.step (.PSFi m.model)).2.putR r ⟨a.shape, Function.update a.get idx v⟩) h1 h2 (putR_self h3)]
  · have h5 := putR_self (b := (⟨a.shape, Function.update a.get idx v⟩ : Arr ℝ)) h3
    have h6 : ((s.prog.step (.PSFi m.model)).2.putR r ⟨a.shape, Function.update a.get idx v⟩).world.objs[m.model]? = some o := h1
    generalize (s.prog.step (.PSFi m.model)).2.putR r ⟨a.shape, Function.update a.get idx v⟩ = q at *
    have hq : World.onObj m.model RState.getPSFi q.world = (.ok r, q.world) := by
      simp only [World.onObj, h6, RState.getPSFi, PyM.bind_apply, PyM.get_apply, h2, PyM.pure_apply, set_same h6]
    simp only [MRProg.step, MRProg.onMicro, hm, MState.getPSF, PyM.bind_apply, PyM.get_apply, hn, MState.modelPsf, hk, MState.onModel, hq, MState.derefR, h5, PyM.lift_apply]
    rcases microPsf (pyInt m.oversample) (pyInt m.psfParams.size).toNat ⟨a.shape, Function.update a.get idx v⟩ with x | b
    · rfl
    · simp [MState.allocR, MRProg.seeR, RProg.seeR, PyM.modify_apply, Except.map]

/-- C139: `model_psf` of any other microscope is the client's own array: no model, no microscope and no other variable refers to it, so writing into it is harmless. -/
theorem C139_model_psf_private (prog : List MStmt) (i : ℕ) (m : RMicro) (hm : (mafter prog).micros[i]? = some m) (hk : m.kind ≠ .widefield) (a : Arr ℝ)
    (h : ((mafter prog).step (.modelPsf i)).1 = .ok (.real a)) (idx : List ℕ) (v : ℝ) :
    (MStmt.base (.writeR (mafter prog).prog.r.length idx v)).Private ((mafter prog).step (.modelPsf i)).2 := by
  have hs := sep_after prog
  generalize mafter prog = s at *
  have hf := fun r => fresh_modelPsf (s := ⟨s.prog.world, m⟩) hs.valid hk (r := r)
  have hself := still_modelPsf.2 ⟨s.prog.world, m⟩
  have e : s.onMicro i MState.modelPsf = ((MState.modelPsf ⟨s.prog.world, m⟩).1, (MState.modelPsf ⟨s.prog.world, m⟩).2.world, s.micros) := by
    simp only [MRProg.onMicro, hm, hself, mset_same hm]
  simp only [MRProg.step, e, MRProg.seeR] at h ⊢
  rcases e2 : MState.modelPsf ⟨s.prog.world, m⟩ with ⟨x | r, s'⟩
  · rw [e2] at h; cases h
  · rw [e2] at hf
    have hf : FreshReal s.prog.world s'.world r := hf r rfl
    have hv := ((good_iff _).mp hs.good).2.2.1
    refine ⟨fun p hp => ?_, fun p hp m' hm' hp' => ?_⟩
    · have hp : (s.prog.r ++ [r])[s.prog.r.length]? = some p := hp
      obtain rfl : r = p := by simpa using hp
      refine ⟨hf.out, fun y hy => ?_⟩
      have hy : (s.prog.r ++ [r])[y]? = some r := hy
      by_cases hyl : y < s.prog.r.length
      · rw [List.getElem?_append_left hyl] at hy
        obtain ⟨b, hb⟩ := hv r (List.mem_of_getElem? hy)
        have := (List.getElem?_eq_some_iff.mp hb).1
        have := hf.new
        omega
      · have := (List.getElem?_eq_some_iff.mp hy).1
        simp at this
        omega
    · have hp : (s.prog.r ++ [r])[s.prog.r.length]? = some p := hp
      obtain rfl : r = p := by simpa using hp
      have := (hs.psf m' hm' r hp').1
      have := hf.new
      omega

/-! ## `PSF` and `OTF` -/

theorem getPSF_holds {s : MState} {r : ℕ} (h : (MState.getPSF s).1 = .ok r) : (MState.getPSF s).2.self.psf = some r := by
  rcases e : s.self.psf with _ | q
  · simp only [MState.getPSF, PyM.bind_apply, PyM.get_apply, e] at h ⊢
    revert h
    rcases MState.modelPsf s with ⟨x | a, s1⟩
    · intro h; cases h
    · simp only
      rcases MState.derefR a s1 with ⟨x | b, s2⟩
      · intro h; cases h
      · simp only [PyM.lift_apply]
        rcases microPsf (pyInt s2.self.oversample) (pyInt s2.self.psfParams.size).toNat b with x | c
        · intro h; cases h
        · intro h; cases h; rfl
  · simp only [MState.getPSF, PyM.bind_apply, PyM.get_apply, e] at h ⊢
    cases h; exact e

theorem getOTF_holds {s : MState} {r : ℕ} (h : (MState.getOTF s).1 = .ok r) : (MState.getOTF s).2.self.otf = some r := by
  rcases e : s.self.otf with _ | q
  · simp only [MState.getOTF, PyM.bind_apply, PyM.get_apply, e] at h ⊢
    revert h
    rcases MState.getPSF s with ⟨x | a, s1⟩
    · intro h; cases h
    · simp only
      rcases MState.derefR a s1 with ⟨x | b, s2⟩
      · intro h; cases h
      · intro h; cases h; rfl
  · simp only [MState.getOTF, PyM.bind_apply, PyM.get_apply, e] at h ⊢
    cases h; exact e

theorem seen_PSF {s : MRProg} {i : ℕ} {a : Arr ℝ} (h : (s.step (.PSF i)).1 = .ok (.real a)) : ∃ m r, (s.step (.PSF i)).2.micros[i]? = some m ∧ m.psf = some r ∧
    (s.step (.PSF i)).2.prog.world.mem.real[r]? = some a ∧ (s.step (.PSF i)).2.prog.r = s.prog.r ++ [r] := by
  rcases e : s.micros[i]? with _ | m
  · simp only [MRProg.step, MRProg.onMicro, e, MRProg.seeR, RProg.seeR] at h; cases h
  · have hh := fun r => getPSF_holds (s := ⟨s.prog.world, m⟩) (r := r)
    simp only [MRProg.step, MRProg.onMicro, e, MRProg.seeR] at h ⊢
    rcases e2 : MState.getPSF ⟨s.prog.world, m⟩ with ⟨x | r, s'⟩
    · rw [e2] at h; cases h
    · rw [e2] at h hh
      simp only [RProg.seeR] at h ⊢
      rcases e4 : s'.world.mem.real[r]? with _ | b
      · rw [e4] at h; cases h
      · rw [e4] at h; cases h
        exact ⟨s'.self, r, by rw [List.getElem?_set_self (List.getElem?_eq_some_iff.mp e).1], hh r rfl, e4, rfl⟩

theorem seen_OTF {s : MRProg} {i : ℕ} {a : Arr ℂ} (h : (s.step (.OTF i)).1 = .ok (.cplx a)) : ∃ m r, (s.step (.OTF i)).2.micros[i]? = some m ∧ m.otf = some r ∧
    (s.step (.OTF i)).2.prog.world.mem.cplx[r]? = some a ∧ (s.step (.OTF i)).2.prog.c = s.prog.c ++ [r] := by
  rcases e : s.micros[i]? with _ | m
  · simp only [MRProg.step, MRProg.onMicro, e, MRProg.seeC, RProg.seeC] at h; cases h
  · have hh := fun r => getOTF_holds (s := ⟨s.prog.world, m⟩) (r := r)
    simp only [MRProg.step, MRProg.onMicro, e, MRProg.seeC] at h ⊢
    rcases e2 : MState.getOTF ⟨s.prog.world, m⟩ with ⟨x | r, s'⟩
    · rw [e2] at h; cases h
    · rw [e2] at h hh
      simp only [RProg.seeC] at h ⊢
      rcases e4 : s'.world.mem.cplx[r]? with _ | b
      · rw [e4] at h; cases h
      · rw [e4] at h; cases h
        exact ⟨s'.self, r, by rw [List.getElem?_set_self (List.getElem?_eq_some_iff.mp e).1], hh r rfl, e4, rfl⟩

theorem read_PSF {s : MRProg} {i : ℕ} {m : RMicro} {r : ℕ} {a : Arr ℝ} (hm : s.micros[i]? = some m) (hr : m.psf = some r) (ha : s.prog.world.mem.real[r]? = some a) :
    s.step (.PSF i) = (.ok (.real a), ⟨{ s.prog with r := s.prog.r ++ [r] }, s.micros⟩) := by
  simp only [MRProg.step, MRProg.onMicro, hm, MState.getPSF, PyM.bind_apply, PyM.get_apply, hr, PyM.pure_apply, mset_same hm, MRProg.seeR, RProg.seeR, ha]

theorem read_OTF {s : MRProg} {i : ℕ} {m : RMicro} {r : ℕ} {a : Arr ℂ} (hm : s.micros[i]? = some m) (hr : m.otf = some r) (ha : s.prog.world.mem.cplx[r]? = some a) :
    s.step (.OTF i) = (.ok (.cplx a), ⟨{ s.prog with c := s.prog.c ++ [r] }, s.micros⟩) := by
  simp only [MRProg.step, MRProg.onMicro, hm, MState.getOTF, PyM.bind_apply, PyM.get_apply, hr, PyM.pure_apply, mset_same hm, MRProg.seeC, RProg.seeC, ha]

/-- C139: reading `PSF` or `OTF` twice gives the same array (`m.PSF is m.PSF`), and the second read changes nothing. -/
theorem C139_same_array (s : MRProg) (i : ℕ) :
    (∀ a, (s.step (.PSF i)).1 = .ok (.real a) → ∃ r, (s.step (.PSF i)).2.prog.r = s.prog.r ++ [r] ∧
      (s.step (.PSF i)).2.step (.PSF i) = (.ok (.real a), ⟨{ (s.step (.PSF i)).2.prog with r := s.prog.r ++ [r, r] }, (s.step (.PSF i)).2.micros⟩)) ∧
    (∀ a, (s.step (.OTF i)).1 = .ok (.cplx a) → ∃ r, (s.step (.OTF i)).2.prog.c = s.prog.c ++ [r] ∧
      (s.step (.OTF i)).2.step (.OTF i) = (.ok (.cplx a), ⟨{ (s.step (.OTF i)).2.prog with c := s.prog.c ++ [r, r] }, (s.step (.OTF i)).2.micros⟩)) := by
  refine ⟨fun a h => ?_, fun a h => ?_⟩
  · obtain ⟨m, r, h1, h2, h3, h4⟩ := seen_PSF h
    exact ⟨r, h4, by rw [read_PSF h1 h2 h3, h4]; simp⟩
  · obtain ⟨m, r, h1, h2, h3, h4⟩ := seen_OTF h
    exact ⟨r, h4, by rw [read_OTF h1 h2 h3, h4]; simp⟩

open Classical in
/-- C139: what the client writes into `m.PSF` stays in `m.PSF`, and `m.OTF` is then the transform of the changed array if it has not been read before. -/
theorem C139_poisoned (s : MRProg) (i : ℕ) (a : Arr ℝ) (h : (s.step (.PSF i)).1 = .ok (.real a)) (idx : List ℕ) (hi : InShape idx a.shape) (v : ℝ) :
    ∃ s' : MRProg, (s.step (.PSF i)).2.step (.base (.writeR s.prog.r.length idx v)) = (.ok .done, s') ∧
    (s'.step (.PSF i)).1 = .ok (.real ⟨a.shape, Function.update a.get idx v⟩) ∧
    ((∀ m, s'.micros[i]? = some m → m.otf = none) →
      (s'.step (.OTF i)).1 = .ok (.cplx (easyFft none ((⟨a.shape, Function.update a.get idx v⟩ : Arr ℝ).map fun (x : ℝ) => (x : ℂ))))) := by
  obtain ⟨m, r, h1, h2, h3, h4⟩ := seen_PSF h
  have hx : (s.step (.PSF i)).2.prog.r[s.prog.r.length]? = some r := by rw [h4]; simp
  refine ⟨_, putR_micros hx h3 hi v, ?_, fun hn => ?_⟩
  · rw [read_PSF (s := ⟨(s.step (.PSF i)).2.prog.putR r ⟨a.shape, Function.update a.get idx v⟩, (s.step (.PSF i)).2.micros⟩) h1 h2 (putR_self h3)]
  · have hn := hn m h1
    have h5 := putR_self (b := (⟨a.shape, Function.update a.get idx v⟩ : Arr ℝ)) h3
    generalize (s.step (.PSF i)).2.prog.putR r ⟨a.shape, Function.update a.get idx v⟩ = q at *
    generalize (s.step (.PSF i)).2.micros = ms at *
    simp only [MRProg.step, MRProg.onMicro, h1, MState.getOTF, MState.getPSF, PyM.bind_apply, PyM.get_apply, hn, h2, PyM.pure_apply, MState.derefR, h5]
    simp [MState.allocC, MRProg.seeC, RProg.seeC, PyM.modify_apply]

/-! ## Nobody else refers to them -/

/-- What a client can see of the models, and of the microscopes other than `i`, is the same in both states. -/
def SameElsewhere (i : ℕ) (s s' : MRProg) : Prop :=
  (∀ k, (s'.step (.base (.PSFa k))).1 = (s.step (.base (.PSFa k))).1 ∧ (s'.step (.base (.OTFa k))).1 = (s.step (.base (.OTFa k))).1 ∧
    (s'.step (.base (.PSFi k))).1 = (s.step (.base (.PSFi k))).1 ∧ (s'.step (.base (.OTFi k))).1 = (s.step (.base (.OTFi k))).1 ∧
    (s'.step (.base (.zrange k))).1 = (s.step (.base (.zrange k))).1) ∧
  ∀ j ≠ i, (s'.step (.modelPsf j)).1 = (s.step (.modelPsf j)).1 ∧ (s'.step (.PSF j)).1 = (s.step (.PSF j)).1 ∧ (s'.step (.OTF j)).1 = (s.step (.OTF j)).1

theorem vseeR_out (s s' : VProg) (x : Py (Arr ℝ) × Heap) : (s.seeR x).1 = (s'.seeR x).1 := by rcases x with ⟨e | a, h⟩ <;> rfl
theorem vseeC_out (s s' : VProg) (x : Py (Arr ℂ) × Heap) : (s.seeC x).1 = (s'.seeC x).1 := by rcases x with ⟨e | a, h⟩ <;> rfl
theorem vseeZ_out (s s' : VProg) (x : Py (List PyFloat) × Heap) : (s.seeZ x).1 = (s'.seeZ x).1 := by rcases x with ⟨e | a, h⟩ <;> rfl

theorem sameElsewhere_of_values {s s' : MRProg} {t t' : MVProg} (h : RelM s t) (h' : RelM s' t') (ho : t'.prog.objs = t.prog.objs) {i : ℕ}
    (hm : ∀ j ≠ i, t'.micros[j]? = t.micros[j]?) : SameElsewhere i s s' := by
  have go : ∀ st : MStmt, ¬ st.IsWrite → (t'.step st).1 = (t.step st).1 → (s'.step st).1 = (s.step st).1 := fun st hw e => by
    rw [(mstep_sim h' st (mprivate_of_not_write hw)).out, (mstep_sim h st (mprivate_of_not_write hw)).out, e]
  refine ⟨fun k => ⟨go _ id ?_, go _ id ?_, go _ id ?_, go _ id ?_, go _ id ?_⟩, fun j hj => ⟨go _ id ?_, go _ id ?_, go _ id ?_⟩⟩
  · simp only [MVProg.step, VProg.step, ho]; exact vseeC_out _ _ _
  · simp only [MVProg.step, VProg.step, ho]; exact vseeC_out _ _ _
  · simp only [MVProg.step, VProg.step, ho]; exact vseeR_out _ _ _
  · simp only [MVProg.step, VProg.step, ho]; exact vseeC_out _ _ _
  · simp only [MVProg.step, VProg.step, ho]; exact vseeZ_out _ _ _
  all_goals
    simp only [MVProg.step, MVProg.seeR, MVProg.seeC, MVProg.onMicro, ho, hm j hj]
    rcases e : t.micros[j]? with _ | m
    · rfl
    · simp only
      rcases VMicro.load t.prog.objs m with _ | x
      · rfl
      · first | exact vseeR_out _ _ _ | exact vseeC_out _ _ _

theorem optRel_eq {α : Type} {R S : ℕ → α → Prop} {x : Option ℕ} {y y' : Option α} (h : Option.Rel R x y) (h' : Option.Rel S x y')
    (hrs : ∀ r a b, x = some r → R r a → S r b → b = a) : y' = y := by
  cases h with
  | none => cases h'; rfl
  | some hr => cases h' with | some hs => rw [hrs _ _ _ rfl hr hs]

theorem forall₂_micro {s s' : MRProg} {t t' : MVProg} (h : RelM s t) (h' : RelM s' t') (hms : s'.micros = s.micros) {j : ℕ}
    (hr : ∀ m r, s.micros[j]? = some m → m.psf = some r → s'.prog.world.mem.real[r]? = s.prog.world.mem.real[r]?)
    (hc : ∀ m r, s.micros[j]? = some m → m.otf = some r → s'.prog.world.mem.cplx[r]? = s.prog.world.mem.cplx[r]?) : t'.micros[j]? = t.micros[j]? := by
  rcases forall₂_get h.micros j with ⟨e, e'⟩ | ⟨r, v, e, e', hrv⟩
  · rcases forall₂_get h'.micros j with ⟨f, f'⟩ | ⟨r', v', f, f', hrv'⟩
    · rw [e', f']
    · rw [hms, e] at f; cases f
  · rcases forall₂_get h'.micros j with ⟨f, f'⟩ | ⟨r', v', f, f', hrv'⟩
    · rw [hms, e] at f; cases f
    · rw [hms, e] at f
      obtain rfl := Option.some.inj f
      rw [e', f']
      have p1 := optRel_eq hrv.psf hrv'.psf fun q a b hq ha hb => by rw [hr r q e hq, ha] at hb; exact (Option.some.inj hb).symm
      have p2 := optRel_eq hrv.otf hrv'.otf fun q a b hq ha hb => by rw [hc r q e hq, ha] at hb; exact (Option.some.inj hb).symm
      rcases v with ⟨v1, v2, v3, v4, v5, v6, v7⟩
      rcases v' with ⟨w1, w2, w3, w4, w5, w6, w7⟩
      obtain rfl : w1 = v1 := hrv'.over.trans hrv.over.symm
      obtain rfl : w2 = v2 := hrv'.par.trans hrv.par.symm
      obtain rfl : w3 = v3 := hrv'.pix.trans hrv.pix.symm
      obtain rfl : w4 = v4 := hrv'.model.trans hrv.model.symm
      obtain rfl : w5 = v5 := hrv'.kind.trans hrv.kind.symm
      obtain rfl : w6 = v6 := p1
      obtain rfl : w7 = v7 := p2
      rfl

theorem objs_of_views {w w' : World} {h h' : Heap} (hw : RelW w h) (hw' : RelW w' h') (ho : w'.objs = w.objs) (hv : ∀ o ∈ w.objs, o.view w'.mem = o.view w.mem) : h' = h := by
  rw [hw.objs, hw'.objs, ho]
  exact List.map_congr_left hv

/-- C139: `m.PSF` is kept by `m` only: what the client writes into it changes no output of any model (not even of `m.model`) and of no other microscope,
whatever was done before. -/
theorem C139_psf_own (prog : List MStmt) (i : ℕ) (a : Arr ℝ) (h : ((mafter prog).step (.PSF i)).1 = .ok (.real a)) (idx : List ℕ) (v : ℝ) :
    SameElsewhere i ((mafter prog).step (.PSF i)).2 (((mafter prog).step (.PSF i)).2.step (.base (.writeR (mafter prog).prog.r.length idx v))).2 := by
  have hs := (sep_after prog).step (.PSF i)
  obtain ⟨m, r, h1, h2, h3, h4⟩ := seen_PSF h
  have hx : ((mafter prog).step (.PSF i)).2.prog.r[(mafter prog).prog.r.length]? = some r := by rw [h4]; simp
  generalize ((mafter prog).step (.PSF i)).2 = s at *
  generalize (mafter prog).prog.r.length = x at *
  have hs' := hs.step (.base (.writeR x idx v))
  obtain ⟨t, ht⟩ := hs.rel
  obtain ⟨t', ht'⟩ := hs'.rel
  have hset : (s.step (.base (.writeR x idx v))).2 = s ∨ ∃ b, (s.step (.base (.writeR x idx v))).2 = ⟨s.prog.putR r b, s.micros⟩ := by
    simp only [MRProg.step, RProg.step, hx, RProg.ran, World.writeR, h3]
    by_cases hi : InShape idx a.shape
    · rw [if_pos hi]; exact .inr ⟨_, rfl⟩
    · rw [if_neg hi]; exact .inl rfl
  rcases hset with e | ⟨b, e⟩
  · rw [e]; exact sameElsewhere_of_values ht ht rfl fun _ _ => rfl
  · rw [e] at ht' ⊢
    refine sameElsewhere_of_values ht ht' ?_ fun j hj => ?_
    · refine objs_of_views ht.prog.world ht'.prog.world rfl fun o ho => ?_
      have hne := (hs.psf m (List.mem_of_getElem? h1) r h2).2 o ho
      have : o.obj.psfi.bind ((s.prog.world.mem.real.set r b)[·]?) = o.obj.psfi.bind (s.prog.world.mem.real[·]?) := by
        rcases e : o.obj.psfi with _ | q
        · rfl
        · simp only [Option.bind_some]
          rw [set_other _ _ _ _ fun hq => hne (by rw [e, hq])]
      simp only [RObj.view, RProg.putR, this]
    · refine forall₂_micro ht ht' rfl (fun m' q hm' hq => ?_) fun m' q hm' hq => rfl
      simp only [RProg.putR]
      rw [set_other _ _ _ _ fun hqr => hj (hs.psf_only j i m' m r hm' h1 (by rw [← hqr]; exact hq) h2)]

/-- C139: the same for `m.OTF`. -/
theorem C139_otf_own (prog : List MStmt) (i : ℕ) (a : Arr ℂ) (h : ((mafter prog).step (.OTF i)).1 = .ok (.cplx a)) (idx : List ℕ) (v : ℂ) :
    SameElsewhere i ((mafter prog).step (.OTF i)).2 (((mafter prog).step (.OTF i)).2.step (.base (.writeC (mafter prog).prog.c.length idx v))).2 := by
  have hs := (sep_after prog).step (.OTF i)
  obtain ⟨m, r, h1, h2, h3, h4⟩ := seen_OTF h
  have hx : ((mafter prog).step (.OTF i)).2.prog.c[(mafter prog).prog.c.length]? = some r := by rw [h4]; simp
  generalize ((mafter prog).step (.OTF i)).2 = s at *
  generalize (mafter prog).prog.c.length = x at *
  have hs' := hs.step (.base (.writeC x idx v))
  obtain ⟨t, ht⟩ := hs.rel
  obtain ⟨t', ht'⟩ := hs'.rel
  have hset : (s.step (.base (.writeC x idx v))).2 = s ∨
      ∃ b, (s.step (.base (.writeC x idx v))).2 = ⟨{ s.prog with world := { s.prog.world with mem := { s.prog.world.mem with cplx := s.prog.world.mem.cplx.set r b } } }, s.micros⟩ := by
    simp only [MRProg.step, RProg.step, hx, RProg.ran, World.writeC, h3]
    by_cases hi : InShape idx a.shape
    · rw [if_pos hi]; exact .inr ⟨_, rfl⟩
    · rw [if_neg hi]; exact .inl rfl
  rcases hset with e | ⟨b, e⟩
  · rw [e]; exact sameElsewhere_of_values ht ht rfl fun _ _ => rfl
  · rw [e] at ht' ⊢
    refine sameElsewhere_of_values ht ht' ?_ fun j hj => ?_
    · refine objs_of_views ht.prog.world ht'.prog.world rfl fun o ho => ?_
      have hne := (hs.otf m (List.mem_of_getElem? h1) r h2).2 o ho
      have key : ∀ x : Option ℕ, x ≠ some r → x.bind ((s.prog.world.mem.cplx.set r b)[·]?) = x.bind (s.prog.world.mem.cplx[·]?) := by
        intro x hx
        rcases x with _ | q
        · rfl
        · simp only [Option.bind_some]
          rw [set_other _ _ _ _ fun hq => hx (by rw [hq])]
      simp only [RObj.view, key _ fun hq => hne (.inl hq), key _ fun hq => hne (.inr (.inl hq)), key _ fun hq => hne (.inr (.inr hq))]
    · refine forall₂_micro ht ht' rfl (fun m' q hm' hq => rfl) fun m' q hm' hq => ?_
      simp only
      rw [set_other _ _ _ _ fun hqr => hj (hs.otf_only j i m' m r hm' h1 (by rw [← hqr]; exact hq) h2)]

/-! ## The planes -/

theorem newBase_array {a : MicroArgs} {p : ℕ} {w w' : World} {r : RMicro} (h : World.newBase a (.array p) w = (.ok r, w')) :
    r.model = w.objs.length ∧ ∃ o, w' = { w with objs := w.objs ++ [⟨o, p⟩] } := by
  rw [newBase_run] at h
  rcases e1 : numericSet PyVal.isInt none a.oversample with x | x
  · rw [e1] at h; cases h
  rw [e1] at h
  simp only at h
  rcases e2 : oversampled (x.getD a.oversample) a.size a.pixelSize with y | ⟨size, res⟩
  · rw [e2] at h; cases h
  rw [e2] at h
  simp only at h
  split at h
  · cases h
  · unfold World.new at h
    rcases e3 : construct (A := ℕ) (I := ℕ) (hanserInit (microInit a size res) (ZGiven.content w.mem (.array p))) with y | o
    · rw [e3] at h; cases h
    · rw [e3] at h
      simp only at h
      obtain ⟨h1, h2⟩ := Prod.mk.inj h
      obtain rfl := Except.ok.inj h1
      exact ⟨rfl, o, h2.symm⟩

/-- The planes of a confocal microscope made with an array. -/
theorem newConfocal_array {a : MicroArgs} {p : ℕ} {wl ph : PyVal} {w w' : World} {r : RMicro} {l : List PyFloat} (hp : w.mem.axis[p]? = some l)
    (h : World.newMicro a (.array p) (.confocal wl ph) w = (.ok r, w')) :
    ∃ e o o', r.kind.exc = some e ∧ w'.objs[r.model]? = some o ∧ o.zref = p ∧ w'.objs[e]? = some o' ∧ o'.zref = w.mem.axis.length ∧ w'.mem.axis = w.mem.axis ++ [l] := by
  simp only [World.newMicro, PyM.bind_apply] at h
  rcases e : World.newBase a (.array p) w with ⟨x | r0, w1⟩
  · rw [e] at h; cases h
  · rw [e] at h
    obtain ⟨hr0, o, rfl⟩ := newBase_array e
    simp only [PyM.lift_apply] at h
    rcases e2 : numericSet PyVal.isFloatOrInt none ph with x | y
    · rw [e2] at h; cases h
    · rw [e2] at h
      have ho : (w.objs ++ [⟨o, p⟩])[r0.model]? = some (⟨o, p⟩ : RObj) := by rw [hr0]; simp
      have hd : ∃ w2 o2, World.deepcopy r0.model { w with objs := w.objs ++ [⟨o, p⟩] } = (.ok (w.objs.length + 1), w2) ∧ w2.objs = w.objs ++ [⟨o, p⟩] ++ [o2] ∧
          o2.zref = w.mem.axis.length ∧ w2.mem.axis = w.mem.axis ++ [l] := by
        simp only [World.deepcopy, ho, World.copyArr, hp]
        exact ⟨_, _, Prod.ext (by simp) rfl, rfl, rfl, rfl⟩
      obtain ⟨w2, o2, d1, d2, d3, d4⟩ := hd
      have ho2 : w2.objs[w.objs.length + 1]? = some o2 := by rw [d2]; simp
      simp only [d1, World.onObj, ho2, RState.set, RState.onObj] at h
      rcases e3 : setAttr (A := ℕ) (I := ℕ) .hanser .wl wl o2.obj with ⟨x | u, o3⟩
      · rw [e3] at h; cases h
      · rw [e3] at h
        obtain ⟨h1, h2⟩ := Prod.mk.inj h
        obtain rfl := Except.ok.inj h1
        subst h2
        refine ⟨w.objs.length + 1, ⟨o, p⟩, ⟨o3, o2.zref⟩, rfl, ?_, rfl, ?_, d3, d4⟩
        · show (w2.objs.set _ _)[r0.model]? = _
          rw [List.getElem?_set_ne (by omega), d2, List.getElem?_append_left (by simp [hr0]), ho]
        · show (w2.objs.set _ _)[w.objs.length + 1]? = _
          rw [List.getElem?_set_self (by rw [d2]; simp)]

/-- C139: a confocal microscope keeps the client's array of planes without a copy for `m.model`, but `m.model_exc` has its own: a plane the client writes into the array
later moves in the one and not in the other. -/
theorem C139_confocal_planes (prog : List MStmt) (a : MicroArgs) (x i : ℕ) (wl ph : PyVal)
    (h : ((mafter prog).step (.new a (some x) (.confocal wl ph))).1 = .ok (.model i)) :
    ∃ k e l, let s := ((mafter prog).step (.new a (some x) (.confocal wl ph))).2
      (s.step (.model i)).1 = .ok (.model k) ∧ (s.step (.modelExc i)).1 = .ok (.model e) ∧
      (s.step (.base (.zrange k))).1 = .ok (.planes l) ∧ (s.step (.base (.zrange e))).1 = .ok (.planes l) ∧
      ∀ n < l.length, ∀ v, ∃ s', s.step (.base (.writeZ x n v)) = (.ok .done, s') ∧
        (s'.step (.base (.zrange k))).1 = .ok (.planes (l.set n v)) ∧ (s'.step (.base (.zrange e))).1 = .ok (.planes l) := by
  have hs := sep_after prog
  generalize mafter prog = s at *
  simp only [MRProg.step, MRProg.zarg] at h ⊢
  rcases ex : s.prog.z[x]? with _ | p
  · rw [ex] at h; cases h
  · rw [ex] at h
    obtain ⟨l, hl⟩ := ((good_iff _).mp hs.good).2.2.2 p (List.mem_of_getElem? ex)
    have hpl := (List.getElem?_eq_some_iff.mp hl).1
    simp only at h ⊢
    rcases en : World.newMicro a (.array p) (.confocal wl ph) s.prog.world with ⟨y | r, w'⟩
    · rw [en] at h; cases h
    · rw [en] at h
      obtain rfl : s.micros.length = i := by
        have := Except.ok.inj h
        exact Seen.model.inj this
      obtain ⟨e, o, o', q1, q2, q3, q4, q5, q6⟩ := newConfocal_array hl en
      have z1 : w'.mem.axis[o.zref]? = some l := by rw [q6, q3, List.getElem?_append_left hpl, hl]
      have z2 : w'.mem.axis[o'.zref]? = some l := by rw [q6, q5]; simp
      have hne : o'.zref ≠ o.zref := by rw [q3, q5]; omega
      refine ⟨r.model, e, l, by simp, by simp [q1], ?_, ?_, fun n hn v => ⟨⟨RProg.putZ { s.prog with world := w' } o.zref (l.set n v), s.micros ++ [r]⟩, ?_, ?_, ?_⟩⟩
      · simp only; rw [read_zrange (s := { s.prog with world := w' }) q2 z1]
      · simp only; rw [read_zrange (s := { s.prog with world := w' }) q4 z2]
      · simp only
        rw [step_writeZ (s := { s.prog with world := w' }) (x := x) (r := o.zref) (by rw [q3]; exact ex) z1 hn v]
      · simp only
        rw [read_zrange (s := RProg.putZ { s.prog with world := w' } o.zref (l.set n v)) q2 (putZ_self (s := { s.prog with world := w' }) z1)]
      · simp only
        rw [read_zrange (s := RProg.putZ { s.prog with world := w' } o.zref (l.set n v)) q4 (by simp only [RProg.putZ]; rw [set_other _ _ _ _ hne]; exact z2)]

/-! ## Non-vacuity -/

/-- `m = WidefieldMicroscope(...)`; `m.model_psf`; `m.PSF` succeed. -/
theorem demo_micro_run : ∃ m b p, (mafter [.new demoMicroArgs none .widefield]).micros[0]? = some m ∧ m.kind = .widefield ∧ m.psf = none ∧
    ((mafter [.new demoMicroArgs none .widefield]).step (.modelPsf 0)).1 = .ok (.real b) ∧ b.shape = [64, 192, 192] ∧
    ((mafter [.new demoMicroArgs none .widefield]).step (.PSF 0)).1 = .ok (.real p) ∧ p.shape = [64, 64, 64] := by
  obtain ⟨m, h, b, p, h1, h2, h3, h4, h5, h6⟩ := demoMicro
  have hz : ZRel MRProg.empty.prog.world.mem (.ofOption none) none := .inl rfl
  have hw : RelW MRProg.empty.prog.world [] := ⟨rfl, by simp [MRProg.empty, RProg.empty]⟩
  have hb := newBase_spec hw hz demoMicroArgs
  rw [show ({ demoMicroArgs with model := .str "hanser", kw := { demoMicroArgs.kw with zrange := none } } : MicroArgs) = demoMicroArgs from rfl, h1] at hb
  obtain ⟨r, w', o, b1, b2, b3, b4, b5, b6, -, -⟩ := hb
  obtain rfl : h = o := by rw [h2] at b2; exact Inner.hanser.inj b2
  have hnew : World.newMicro demoMicroArgs (.ofOption none) .widefield MRProg.empty.prog.world = (.ok r, w') := by
    simp only [World.newMicro, PyM.bind_apply, b1]; rfl
  have hs : mafter [.new demoMicroArgs none .widefield] = ⟨{ MRProg.empty.prog with world := w' }, [r]⟩ := by
    simp only [mafter, runHistory, MRProg.step, MRProg.zarg]
    rw [show demoMicroArgs.kw.zrange = none from rfl, hnew]
    rfl
  have hv : MVProg.empty.step (.new demoMicroArgs none .widefield) = (.ok (.model 0), ⟨{ VProg.empty with objs := [h] }, [⟨m.oversample, m.psfParams, m.pixelSize, 0, .widefield, none, none⟩]⟩) := by
    simp only [MVProg.step, MVProg.zarg, MClass.build]
    rw [show ({ demoMicroArgs with model := .str "hanser", kw := { demoMicroArgs.kw with zrange := demoMicroArgs.kw.zrange } } : MicroArgs) = demoMicroArgs from rfl, h1]
    simp only [VMicro.keep, h2, b3, Kind.exc, b4, b5]
    rfl
  have hload : VMicro.load [h] ⟨m.oversample, m.psfParams, m.pixelSize, 0, .widefield, none, none⟩ = some m := by
    rcases m with ⟨m1, m2, m3, m4, m5, m6, m7⟩
    obtain rfl : m4 = _ := h2
    obtain rfl : m5 = _ := b3
    obtain rfl : m6 = _ := b4
    obtain rfl : m7 = _ := b5
    rfl
  have see : ∀ (f : PyM Micro (Arr ℝ)) (st : MStmt) (c : Arr ℝ), ¬ st.IsWrite → (f m).1 = .ok c → (∀ t : MVProg, t.step st = t.seeR (t.onMicro 0 f)) →
      ((mafter [.new demoMicroArgs none .widefield]).step st).1 = .ok (.real c) := by
    intro f st c hst hf hstep
    have := C139_no_writes [.new demoMicroArgs none .widefield, st] (by
      intro x hx
      simp only [List.mem_cons, List.not_mem_nil, or_false] at hx
      rcases hx with rfl | rfl
      · exact id
      · exact hst)
    simp only [runHistory, hv, hstep, MVProg.onMicro, hload, List.getElem?_cons_zero, hf, MVProg.seeR, VProg.seeR] at this
    exact (List.cons.inj (List.cons.inj this).2).1
  refine ⟨r, b, p, by rw [hs]; rfl, by rw [b6], by rw [b6], ?_, h4, ?_, h6⟩
  · refine see Micro.modelPsf _ b id ?_ fun t => rfl
    have : Micro.modelPsf m = Micro.onModel Inner.getPSFi m := by simp only [Micro.modelPsf, PyM.bind_apply, PyM.get_apply, b3]
    rw [this]
    simp only [Micro.onModel, h2, Inner.getPSFi, h3]
  · exact see Micro.getPSF _ p id h5 fun t => rfl

/-- Non-vacuity of `C139_model_psf_poisons`, `C139_poisoned` and `C139_psf_own`; a pixel of the image. -/
example : ∃ m b p, (mafter [.new demoMicroArgs none .widefield]).micros[0]? = some m ∧ m.kind = .widefield ∧ m.psf = none ∧
    ((mafter [.new demoMicroArgs none .widefield]).step (.modelPsf 0)).1 = .ok (.real b) ∧ InShape [0, 0, 0] b.shape ∧
    ((mafter [.new demoMicroArgs none .widefield]).step (.PSF 0)).1 = .ok (.real p) ∧ InShape [0, 0, 0] p.shape := by
  obtain ⟨m, b, p, h1, h2, h3, h4, h5, h6, h7⟩ := demo_micro_run
  exact ⟨m, b, p, h1, h2, h3, h4, by rw [h5]; simp [InShape], h6, by rw [h7]; simp [InShape]⟩

/-- Non-vacuity of `C139_confocal_planes`: the planes `[0]` as an array. -/
example : ((mafter [.base (.planes [.fin 0])]).step (.new demoMicroArgs (some 0) (.confocal (.int 488) (.int 1)))).1 = .ok (.model 0) := by
  set P : PsfParams := ⟨demoMicroArgs.na, demoMicroArgs.ni, demoMicroArgs.wl, .float (.fin 130), .int 64, .int 192, .float (.fin (130 / 3)),
    { demoMicroArgs.kw with zrange := some (.seq [.fin 0]) }⟩ with hP
  have hg : GoodArgs P.initArgs 520 (17/20) 1 (130 / 3) 130 192 64 := by
    refine ⟨⟨by norm_num [hP, PsfParams.initArgs, demoMicroArgs, Denotes, PyVal.num?], by norm_num⟩, ⟨by norm_num [hP, PsfParams.initArgs, demoMicroArgs, Denotes, PyVal.num?], by norm_num⟩,
      ⟨by norm_num [hP, PsfParams.initArgs, demoMicroArgs, Denotes, PyVal.num?], by norm_num⟩, ⟨by norm_num [hP, PsfParams.initArgs, Denotes, PyVal.num?], by norm_num⟩,
      Or.inl rfl, ⟨rfl, by norm_num⟩, Or.inl rfl, ?_, ?_⟩
    · simp [hP, PsfParams.initArgs, demoMicroArgs]
    · simp [hP, PsfParams.initArgs, demoMicroArgs]
  obtain ⟨h, hh⟩ := (C34_hanser_accepts P.initArgs (by constructor <;> simp [hP, demoMicroArgs, NotSpecial, PsfParams.initArgs]) (some (.seq [.fin 0]))).mpr ⟨_, _, _, _, _, _, _, hg⟩
  have hcm : chooseModel (.str "hanser") P = .ok (.hanser h) := by
    have : chooseModel (.str "hanser") P = (do return .hanser (← HObj.new P.initArgs P.kw.zrange)) := by
      simp only [chooseModel, hanser_lower, if_true]
      rfl
    rw [this, show P.kw.zrange = some (.seq [.fin 0]) from rfl, hh]; rfl
  have hwl : h.params.wl = some (.int 520) := by
    obtain ⟨l, x, z', vc, cd', a1, a2, a3, a4, a4', a4'', a5, a6, a6', a7, a8, a9, rfl⟩ := (hanser_new_iff _ _ h).mp hh
    rfl
  set A : MicroArgs := { demoMicroArgs with kw := { demoMicroArgs.kw with zrange := some (.seq [.fin 0]) } } with hA
  have hnew : ∃ m, Micro.newWidefield A = .ok m ∧ m.model = .hanser h := by
    rw [C55_accepted A 3 (by omega) (by omega) rfl 64 _ rfl rfl]
    have : (⟨A.na, A.ni, A.wl, A.kw.zres.getD A.pixelSize, A.kw.zsize.getD A.size, .int (64 * 3),
        .float (if (3 : ℤ) = 1 then .fin 130 else ((PyFloat.fin 130).div (.fin ((3 : ℤ) : ℚ))).toOption.getD .nan), A.kw⟩ : PsfParams) = P := by
      simp [hP, hA, demoMicroArgs, PyFloat.div, Except.toOption]
    rw [this, show A.model = .str "hanser" from rfl]
    simp only [hcm]
    exact ⟨_, rfl, rfl⟩
  obtain ⟨m, hnew, hm⟩ := hnew
  have hs : ∃ e, Inner.set .wl (.int 488) (.hanser h) = (.ok (), e) := by
    have : Inner.set .wl (.int 488) (.hanser h) = ((setWl (.int 488) h).1, Inner.hanser (setWl (.int 488) h).2) := rfl
    rw [this, setWl, setNumeric_run, hwl]
    exact ⟨_, rfl⟩
  obtain ⟨e, hs⟩ := hs
  have hconf : ∃ m, Micro.newConfocal A (.int 488) (.int 1) = .ok m := by
    unfold Micro.newConfocal
    rw [hnew]
    have h1 : numericSet PyVal.isFloatOrInt none (.int 1) = .ok (some (.int 1)) := rfl
    simp only [bind, Except.bind, h1, hm, hs]
    exact ⟨_, rfl⟩
  obtain ⟨mc, hmc⟩ := hconf
  have hw : RelW (mafter [.base (.planes [.fin 0])]).prog.world [] := ⟨rfl, by simp [mafter, runHistory, MRProg.step, RProg.step, RProg.seeZ, MRProg.empty, RProg.empty]⟩
  have hb := newMicro_spec hw (z := .array 0) (v := some (.seq [.fin 0])) (.inr ⟨0, _, rfl, rfl, rfl⟩) demoMicroArgs (.confocal (.int 488) (.int 1))
  rw [show MClass.build { demoMicroArgs with model := .str "hanser", kw := { demoMicroArgs.kw with zrange := some (.seq [.fin 0]) } } (.confocal (.int 488) (.int 1)) =
    Micro.newConfocal A (.int 488) (.int 1) from rfl, hmc] at hb
  obtain ⟨r, w', -, -, h1, -⟩ := hb
  simp only [MRProg.step, MRProg.zarg]
  rw [show (mafter [.base (.planes [.fin 0])]).prog.z[0]? = some 0 from rfl]
  simp only [h1]
  rfl

end PyOTF
