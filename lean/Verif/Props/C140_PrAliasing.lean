import Verif.Lemmas.PrFresh
import Verif.Props.C130_Aliasing
import Verif.Props.C70_C71_Zernike

/-!
# C140: shared arrays of phase-retrieval results

`retrieve_phase` changes and keeps no array of the caller, except `params["zrange"]` if that is an array; a result and a decomposition hand out the arrays they compute from; what
the methods return is the caller's own.
-/

namespace PyOTF

variable {L : PrLib}

/-- The state after a program. -/
noncomputable def qafter (L : PrLib) (prog : List PStmt) : QRProg := (runHistory (QRProg.step L) QRProg.empty prog).2

theorem qgood_after (L : PrLib) (prog : List PStmt) : QGood (qafter L prog) := qgood_empty.run prog

/-! ## Arrays behave like values -/

theorem qrefines_from {s : QRProg} {t : QVProg} (h : RelQ s t) (prog : List PStmt) (hu : QUnshared L s prog) :
    (runHistory (QRProg.step L) s prog).1 = (runHistory (QVProg.step L) t prog).1 ∧ RelQ (runHistory (QRProg.step L) s prog).2 (runHistory (QVProg.step L) t prog).2 := by
  induction prog generalizing s t with
  | nil => exact ⟨rfl, h⟩
  | cons st rest ih =>
    obtain ⟨h1, h2⟩ := hu
    have hs := qstep_sim (L := L) h st h1
    obtain ⟨i1, i2⟩ := ih hs.rel h2
    exact ⟨by simp only [runHistory, hs.out, i1], i2⟩

theorem relQ_empty : RelQ QRProg.empty QVProg.empty := ⟨⟨⟨rfl, by simp [QRProg.empty, RProg.empty]⟩, .nil, .nil, .nil⟩, .nil, .nil⟩

/-- C140: a program that writes into no shared array sees the same whether arrays are references or values (`Model/PhaseRetrieval.lean`), with any number of models,
retrievals and decompositions: every statement returns or raises the same, and in the end every variable has the same contents. -/
theorem C140_refines (prog : List PStmt) (hu : QUnshared L QRProg.empty prog) :
    (runHistory (QRProg.step L) QRProg.empty prog).1 = (runHistory (QVProg.step L) QVProg.empty prog).1 ∧
    List.Forall₂ (fun p a => (qafter L prog).prog.world.mem.cplx[p]? = some a) (qafter L prog).prog.c (runHistory (QVProg.step L) QVProg.empty prog).2.prog.c ∧
    List.Forall₂ (fun p a => (qafter L prog).prog.world.mem.real[p]? = some a) (qafter L prog).prog.r (runHistory (QVProg.step L) QVProg.empty prog).2.prog.r ∧
    List.Forall₂ (fun p a => (qafter L prog).prog.world.mem.axis[p]? = some a) (qafter L prog).prog.z (runHistory (QVProg.step L) QVProg.empty prog).2.prog.z := by
  obtain ⟨h1, h2⟩ := qrefines_from relQ_empty prog hu
  exact ⟨h1, h2.prog.c, h2.prog.r, h2.prog.z⟩

/-- C140: in particular a program that only creates, assigns and reads. -/
theorem C140_no_writes (prog : List PStmt) (h : ∀ st ∈ prog, ¬ st.IsWrite) :
    (runHistory (QRProg.step L) QRProg.empty prog).1 = (runHistory (QVProg.step L) QVProg.empty prog).1 := by
  refine (C140_refines prog ?_).1
  generalize QRProg.empty = s
  induction prog generalizing s with
  | nil => trivial
  | cons st rest ih => exact ⟨qprivate_of_not_write (h st (by simp)), ih (fun x hx => h x (by simp [hx])) _⟩

/-- C140: no statement other than a write - not `retrieve_phase`, not `fit_to_zernikes`, no method - changes the contents of an array that exists, in particular the
caller's data and planes, whatever was done before. -/
theorem C140_frame (prog : List PStmt) (st : PStmt) (hw : ¬ st.IsWrite) (p : ℕ) :
    (∀ a, (qafter L prog).prog.world.mem.cplx[p]? = some a → ((qafter L prog).step L st).2.prog.world.mem.cplx[p]? = some a) ∧
    (∀ a, (qafter L prog).prog.world.mem.real[p]? = some a → ((qafter L prog).step L st).2.prog.world.mem.real[p]? = some a) ∧
    (∀ a, (qafter L prog).prog.world.mem.axis[p]? = some a → ((qafter L prog).step L st).2.prog.world.mem.axis[p]? = some a) := by
  obtain ⟨t, ht⟩ := qgood_after L prog
  obtain ⟨he, -⟩ := (qstep_sim (L := L) ht st (qprivate_of_not_write hw)).frame hw
  exact ⟨he.cplx p, he.real p, he.axis p⟩

/-! ## What the methods return is the caller's own -/

/-- All models are left alone, and a new real array is returned. -/
def NewR (f : PyM World ℕ) : Prop := ∀ w, (f w).2.objs = w.objs ∧ ∀ r, (f w).1 = .ok r → w.mem.real.length ≤ r
/-- All models are left alone, and a new complex array is returned. -/
def NewC (f : PyM World ℕ) : Prop := ∀ w, (f w).2.objs = w.objs ∧ ∀ r, (f w).1 = .ok r → w.mem.cplx.length ≤ r

theorem NewR.lift {α : Type} (x : Py α) {f : α → PyM World ℕ} (hf : ∀ a, NewR (f a)) : NewR (PyM.lift x >>= f) := by
  rcases x with e | a
  · exact fun w => ⟨rfl, fun r hr => by cases hr⟩
  · exact hf a
theorem NewC.lift {α : Type} (x : Py α) {f : α → PyM World ℕ} (hf : ∀ a, NewC (f a)) : NewC (PyM.lift x >>= f) := by
  rcases x with e | a
  · exact fun w => ⟨rfl, fun r hr => by cases hr⟩
  · exact hf a
theorem NewR.get {f : World → PyM World ℕ} (hf : ∀ a, NewR (f a)) : NewR (PyM.get >>= f) := fun w => hf w w
theorem NewC.get {f : World → PyM World ℕ} (hf : ∀ a, NewC (f a)) : NewC (PyM.get >>= f) := fun w => hf w w
theorem NewR.alloc (a : Arr ℝ) : NewR (World.allocR a) := fun w => ⟨rfl, fun r hr => by cases hr; exact le_rfl⟩
theorem NewC.alloc (a : Arr ℂ) : NewC (World.allocC a) := fun w => ⟨rfl, fun r hr => by cases hr; exact le_rfl⟩
theorem NewR.psf (k : ℕ) (P : Arr ℂ) (size : Option ℤ) (zsize : Option PyVal) (z : ZGiven) : NewR (World.generatePsf k P size zsize z) := World.generatePsf_new k P size zsize z

theorem NewR.private {s : QRProg} (hg : QGood s) {f : PyM World ℕ} (hf : NewR f) (idx : List ℕ) (v : ℝ) :
    ((s.seeR f).2.prog.world.objs = s.prog.world.objs ∧ (s.seeR f).2.res = s.res ∧ (s.seeR f).2.zds = s.zds) ∧
    ∀ a, (s.seeR f).1 = .ok (.real a) → (PStmt.base (.writeR s.prog.r.length idx v)).Private (s.seeR f).2 := by
  obtain ⟨h1, h2⟩ := hf s.prog.world
  rw [qgood_iff, good_iff] at hg
  obtain ⟨⟨g1, -, g3, -⟩, g5, g6⟩ := hg
  have lt : ∀ {p : ℕ}, (∃ a, s.prog.world.mem.real[p]? = some a) → p < s.prog.world.mem.real.length := fun ⟨a, ha⟩ => (List.getElem?_eq_some_iff.mp ha).1
  simp only [QRProg.seeR]
  rcases e : f s.prog.world with ⟨x | r, w⟩ <;> rw [e] at h1 h2
  · exact ⟨⟨h1, by simp, by simp⟩, fun a ha => by cases ha⟩
  · refine ⟨⟨h1, by simp, by simp⟩, fun a _ => ?_⟩
    have hr := h2 r rfl
    simp only [RProg.seeR]
    have only : ∀ p, (s.prog.r ++ [r])[s.prog.r.length]? = some p → p = r := fun p hp => by simpa using hp.symm
    refine ⟨fun p hp => ?_, fun p hp => ?_⟩
    · obtain rfl := only p hp
      refine ⟨fun o ho q => ?_, fun y hy => ?_⟩
      · have ho : o ∈ w.objs := ho
        rw [h1] at ho
        have := lt ((g1 o ho).psfi _ q)
        omega
      · have hy : (s.prog.r ++ [p])[y]? = some p := hy
        by_cases hyl : y < s.prog.r.length
        · rw [List.getElem?_append_left hyl] at hy
          have := lt (g3 p (List.mem_of_getElem? hy))
          omega
        · have := (List.getElem?_eq_some_iff.mp hy).1
          simp at this
          omega
    · obtain rfl := only p hp
      refine ⟨fun y hy q => ?_, fun y hy q => ?_⟩
      · have := lt (g5 y hy p q); omega
      · have := lt (g6 y hy p q); omega

theorem NewC.private {s : QRProg} (hg : QGood s) {f : PyM World ℕ} (hf : NewC f) (idx : List ℕ) (v : ℂ) :
    ∀ a, (s.seeC f).1 = .ok (.cplx a) → (PStmt.base (.writeC s.prog.c.length idx v)).Private (s.seeC f).2 := by
  obtain ⟨h1, h2⟩ := hf s.prog.world
  rw [qgood_iff, good_iff] at hg
  obtain ⟨⟨g1, g2, -, -⟩, -, -⟩ := hg
  have lt : ∀ {p : ℕ}, (∃ a, s.prog.world.mem.cplx[p]? = some a) → p < s.prog.world.mem.cplx.length := fun ⟨a, ha⟩ => (List.getElem?_eq_some_iff.mp ha).1
  simp only [QRProg.seeC]
  rcases e : f s.prog.world with ⟨x | r, w⟩ <;> rw [e] at h1 h2
  · exact fun a ha => by cases ha
  · intro a _
    have hr := h2 r rfl
    simp only [RProg.seeC]
    refine ⟨fun p hp => ?_, trivial⟩
    have hp : (s.prog.c ++ [r])[s.prog.c.length]? = some p := hp
    obtain rfl : r = p := by simpa using hp
    refine ⟨fun o ho q => ?_, fun y hy => ?_⟩
    · have ho : o ∈ w.objs := ho
      rw [h1] at ho
      have hv := g1 o ho
      have : r < s.prog.world.mem.cplx.length := by
        rcases q with q | q | q
        · exact lt (hv.psfa _ q)
        · exact lt (hv.otfa _ q)
        · exact lt (hv.otfi _ q)
      omega
    · have hy : (s.prog.c ++ [r])[y]? = some r := hy
      by_cases hyl : y < s.prog.c.length
      · rw [List.getElem?_append_left hyl] at hy
        have := lt (g2 r (List.mem_of_getElem? hy))
        omega
      · have := (List.getElem?_eq_some_iff.mp hy).1
        simp at this
        omega

theorem newR_psf (s : QRProg) (i : ℕ) (size : Option ℤ) (zsize : Option PyVal) (z : ZVar) :
    NewR (do World.resultPsf (← PyM.lift (getObj s.res i)) size zsize (← PyM.lift (s.zarg z))) :=
  NewR.lift _ fun _ => NewR.lift _ fun _ => NewR.get fun _ => NewR.lift _ fun _ => NewR.lift _ fun _ => NewR.psf _ _ _ _ _

theorem newR_zdPsf (s : QRProg) (i : ℕ) (c : Slice) (size : Option ℤ) (zsize : Option PyVal) (z : ZVar) :
    NewR (do
      let x ← PyM.lift (getObj s.res i)
      World.decompPsf x (← PyM.lift (x.zdNum >>= getObj s.zds)) c size zsize (← PyM.lift (s.zarg z))) :=
  NewR.lift _ fun _ => NewR.lift _ fun _ => NewR.lift _ fun _ => NewR.get fun _ => NewR.lift _ fun _ => NewR.lift _ fun _ => NewR.psf _ _ _ _ _

/-- C140: the arrays `generate_psf`, `generate_zd_psf`, `zd.mag(s)` and `zd.phase(s)` return are the caller's own - no model, no result, no decomposition and no other
variable refers to them - so writing into them is harmless. -/
theorem C140_outputs_private (prog : List PStmt) (st : PStmt) (hst : (∃ i size zsize z, st = .psf i size zsize z) ∨ (∃ i c size zsize z, st = .zdPsf i c size zsize z) ∨
      (∃ j c, st = .zdMag j c) ∨ ∃ j c, st = .zdPhase j c) (a : Arr ℝ) (h : ((qafter L prog).step L st).1 = .ok (.real a)) (idx : List ℕ) (v : ℝ) :
    (PStmt.base (.writeR (qafter L prog).prog.r.length idx v)).Private ((qafter L prog).step L st).2 := by
  have hg := qgood_after L prog
  generalize qafter L prog = s at *
  rcases hst with ⟨i, size, zsize, z, rfl⟩ | ⟨i, c, size, zsize, z, rfl⟩ | ⟨j, c, rfl⟩ | ⟨j, c, rfl⟩
  · exact (NewR.private hg (newR_psf s i size zsize z) idx v).2 a h
  · exact (NewR.private hg (newR_zdPsf s i c size zsize z) idx v).2 a h
  · exact (NewR.private hg (NewR.lift _ fun _ => NewR.get fun _ => NewR.lift _ fun _ => NewR.lift _ fun _ => NewR.alloc _) idx v).2 a h
  · exact (NewR.private hg (NewR.lift _ fun _ => NewR.get fun _ => NewR.lift _ fun _ => NewR.lift _ fun _ => NewR.alloc _) idx v).2 a h

/-- C140: so are the pupils that `result.complex_pupil` and `zd.complex_pupil()` return. -/
theorem C140_pupils_private (prog : List PStmt) (st : PStmt) (hst : (∃ i, st = .pupil i) ∨ ∃ j a b, st = .zdPupil j a b) (a : Arr ℂ)
    (h : ((qafter L prog).step L st).1 = .ok (.cplx a)) (idx : List ℕ) (v : ℂ) :
    (PStmt.base (.writeC (qafter L prog).prog.c.length idx v)).Private ((qafter L prog).step L st).2 := by
  have hg := qgood_after L prog
  generalize qafter L prog = s at *
  rcases hst with ⟨i, rfl⟩ | ⟨j, b, c, rfl⟩
  · exact NewC.private hg (NewC.lift _ fun _ => NewC.get fun _ => NewC.lift _ fun _ => NewC.lift _ fun _ => NewC.alloc _) idx v a h
  · exact NewC.private hg (NewC.lift _ fun _ => NewC.get fun _ => NewC.lift _ fun _ => NewC.lift _ fun _ => NewC.alloc _) idx v a h

/-- C140: `generate_psf` and `generate_zd_psf` leave every model as it is - parameters, planes and kept outputs - and all results and decompositions, also if they raise. -/
theorem C140_psf_pure (prog : List PStmt) (st : PStmt) (hst : (∃ i size zsize z, st = .psf i size zsize z) ∨ ∃ i c size zsize z, st = .zdPsf i c size zsize z) :
    ((qafter L prog).step L st).2.prog.world.objs = (qafter L prog).prog.world.objs ∧ ((qafter L prog).step L st).2.res = (qafter L prog).res ∧
      ((qafter L prog).step L st).2.zds = (qafter L prog).zds := by
  have hg := qgood_after L prog
  generalize qafter L prog = s at *
  rcases hst with ⟨i, size, zsize, z, rfl⟩ | ⟨i, c, size, zsize, z, rfl⟩
  · exact (NewR.private hg (newR_psf s i size zsize z) [] 0).1
  · exact (NewR.private hg (newR_zdPsf s i c size zsize z) [] 0).1

/-! ## New results and decompositions -/

/-- What a successful `retrieve_phase` does. -/
theorem retrieve_step {s : QRProg} (hg : QGood s) {x : ℕ} {d : PyDict} {z : Option ℕ} {n : ℤ} {pt mt : ℝ} {po : Bool} :
    (∃ e, s.step L (.retrieve x d z n pt mt po) = (.error e, s)) ∨
    ∃ y w' o' zr, s.step L (.retrieve x d z n pt mt po) = (.ok (.model s.res.length), { s with prog := { s.prog with world := w' }, res := s.res ++ [y] }) ∧
      (z.mapM (getObj s.prog.z) : Py (Option ℕ)) = .ok zr ∧ s.prog.world.mem.Ext w'.mem ∧ w'.objs = s.prog.world.objs ++ [o'] ∧ y.model = s.prog.world.objs.length ∧
      (∀ r, o'.HoldsC r → s.prog.world.mem.cplx.length ≤ r) ∧ (∀ r, o'.obj.psfi = some r → s.prog.world.mem.real.length ≤ r ∧ ¬ y.Holds r) ∧
      (∀ r, y.Holds r → s.prog.world.mem.real.length ≤ r) ∧ [y.mag, y.phase, y.r, y.theta].Nodup ∧ (∀ p, zr = some p → o'.zref = p) ∧
      (zr = none → s.prog.world.mem.axis.length ≤ o'.zref) := by
  obtain ⟨t, h⟩ := hg
  have bad : ∀ {e : Err}, (do let p ← getObj s.prog.r x; let a ← getObj s.prog.world.mem.real p; let z ← z.mapM (getObj s.prog.z); return (a, z) : Py _) = .error e →
      ∃ e, s.step L (.retrieve x d z n pt mt po) = (.error e, s) := fun {e} h => ⟨e, by simp only [QRProg.step, h]⟩
  rcases forall₂_get h.prog.r x with ⟨e, e'⟩ | ⟨p, a, e, e', hpa⟩
  · have e1 : getObj s.prog.r x = .error .runtimeError := by simp only [getObj, e]; rfl
    exact .inl (bad (by rw [e1]; rfl))
  · have e1 : getObj s.prog.r x = .ok p := by simp only [getObj, e]; rfl
    have e3 : getObj s.prog.world.mem.real p = .ok a := by simp only [getObj, hpa]; rfl
    have hm := mapM_match h.prog.z z
    rcases q : (z.mapM (getObj s.prog.z) : Py (Option ℕ)) with er | zr <;> rcases q' : (z.mapM (getObj t.prog.z) : Py (Option (List PyFloat))) with er' | zl <;> rw [q, q'] at hm
    · exact .inl (bad (e := er) (by rw [e1, q]; simp only [bind, Except.bind, e3]))
    · exact hm.elim
    · exact hm.elim
    · have hs := retrieve_spec h.prog.world L.unwrap a d zr zl hm n pt mt po
      have b1 : (do let p ← getObj s.prog.r x; let a ← getObj s.prog.world.mem.real p; let z ← z.mapM (getObj s.prog.z); return (a, z) : Py _) = .ok (a, zr) := by
        rw [e1, q]; simp only [bind, Except.bind, e3]; rfl
      rcases k : (retrievePhase L.unwrap a n pt mt po ((zl.map fun l => d.insert "zrange" (.seq l)).getD d)).1 with er | y <;> rw [k] at hs
      · left
        refine ⟨er, ?_⟩
        simp only [QRProg.step, b1, hs]
      · obtain ⟨y', w', o', h1, h2, h3, h4, h5, h6, h7, h8, h9, h10, h11, h12⟩ := hs
        right
        refine ⟨y', w', o', zr, ?_, rfl, h3, h6, (pload_iff.mp h5).2.2.2.2.2.2.1.symm, h7, h8, h9, h10, h11, h12⟩
        simp only [QRProg.step, b1, h1]

/-- What a successful `fit_to_zernikes` does. -/
theorem fit_step {s : QRProg} (hg : QGood s) (i num : ℕ) : (∃ e, s.step L (.fit i num) = (.error e, s)) ∨
    ∃ x y w', s.res[i]? = some x ∧ s.step L (.fit i num) = (.ok (.model s.zds.length), ⟨{ s.prog with world := w' }, s.res.set i { x with zd := some s.zds.length }, s.zds ++ [y]⟩) ∧
      s.prog.world.mem.Ext w'.mem ∧ w'.objs = s.prog.world.objs ∧ (∀ r, y.Holds r → s.prog.world.mem.real.length ≤ r) ∧ [y.mcoefs, y.pcoefs, y.zerns].Nodup := by
  obtain ⟨t, h⟩ := hg
  rcases forall₂_get h.res i with ⟨e, e'⟩ | ⟨x, v, e, e', hyv⟩
  · exact .inl ⟨.runtimeError, by simp only [QRProg.step, e]⟩
  · have hs := fit_spec h.prog.world L.lstsq hyv num
    rcases k : v.value.fitToZernikes L.lstsq num with er | zd <;> rw [k] at hs
    · exact .inl ⟨er, by simp only [QRProg.step, e, hs]⟩
    · obtain ⟨u, w', h1, h2, h3, h4, h5, h6, h7⟩ := hs
      exact .inr ⟨x, u, w', e, by simp only [QRProg.step, e, h1], h3, h4, h6, h7⟩

/-- C140: `retrieve_phase` keeps no array of the caller (unless the planes are given as an array): what was the client's own - the data, for instance - stays the client's own. -/
theorem C140_data_not_kept (prog : List PStmt) (x : ℕ) (d : PyDict) (z : Option ℕ) (n : ℤ) (pt mt : ℝ) (po : Bool) (st : Stmt) (hz : z = none ∨ ∀ y k v, st ≠ .writeZ y k v)
    (hp : (PStmt.base st).Private (qafter L prog)) : (PStmt.base st).Private ((qafter L prog).step L (.retrieve x d z n pt mt po)).2 := by
  have hg := qgood_after L prog
  generalize qafter L prog = s at *
  rcases retrieve_step (L := L) hg (x := x) (d := d) (z := z) (n := n) (pt := pt) (mt := mt) (po := po) with ⟨e, h⟩ | ⟨y, w', o', zr, h, hzr, h3, h4, -, h5, h6, h7, -, -, h8⟩
  · rw [h]; exact hp
  · rw [h]
    rw [qgood_iff, good_iff] at hg
    obtain ⟨⟨g1, g2, g3, g4⟩, g5, g6⟩ := hg
    by_cases hw : st.IsWrite
    · cases st with
      | writeC v idx a =>
        refine ⟨fun p hv => ⟨fun o ho hh => ?_, (hp.1 p hv).2⟩, trivial⟩
        have ho : o ∈ w'.objs := ho
        rw [h4] at ho
        rcases List.mem_append.mp ho with ho | ho
        · exact (hp.1 p hv).1 o ho hh
        · obtain rfl := List.mem_singleton.mp ho
          obtain ⟨b, hb⟩ := g2 p (List.mem_of_getElem? hv)
          have := (List.getElem?_eq_some_iff.mp hb).1
          have := h5 p hh
          omega
      | writeR v idx a =>
        have lt : ∀ p, s.prog.r[v]? = some p → p < s.prog.world.mem.real.length := fun p hv => by
          obtain ⟨b, hb⟩ := g3 p (List.mem_of_getElem? hv)
          exact (List.getElem?_eq_some_iff.mp hb).1
        refine ⟨fun p hv => ⟨fun o ho hh => ?_, (hp.1 p hv).2⟩, fun p hv => ⟨fun u hu hh => ?_, (hp.2 p hv).2⟩⟩
        · have ho : o ∈ w'.objs := ho
          rw [h4] at ho
          rcases List.mem_append.mp ho with ho | ho
          · exact (hp.1 p hv).1 o ho hh
          · obtain rfl := List.mem_singleton.mp ho
            have := lt p hv
            have := (h6 p hh).1
            omega
        · rcases List.mem_append.mp hu with hu | hu
          · exact (hp.2 p hv).1 u hu hh
          · obtain rfl := List.mem_singleton.mp hu
            have := lt p hv
            have := h7 p hh
            omega
      | writeZ v k a =>
        refine ⟨fun p hv => ⟨fun o ho hh => ?_, (hp.1 p hv).2⟩, trivial⟩
        have ho : o ∈ w'.objs := ho
        rw [h4] at ho
        rcases List.mem_append.mp ho with ho | ho
        · exact (hp.1 p hv).1 o ho hh
        · obtain rfl := List.mem_singleton.mp ho
          rcases hz with rfl | hz
          · obtain rfl : zr = none := (Except.ok.inj hzr).symm
            obtain ⟨b, hb⟩ := g4 p (List.mem_of_getElem? hv)
            have := (List.getElem?_eq_some_iff.mp hb).1
            have := h8 rfl
            omega
          · exact (hz v k a rfl).elim
      | _ => exact hw.elim
    · exact qprivate_of_not_write (st := .base st) hw

/-- C140: the arrays of a new result are new and different from each other: no variable, no model and no other result or decomposition refers to them. -/
theorem C140_result_own (prog : List PStmt) (x : ℕ) (d : PyDict) (z : Option ℕ) (n : ℤ) (pt mt : ℝ) (po : Bool) (i : ℕ)
    (h : ((qafter L prog).step L (.retrieve x d z n pt mt po)).1 = .ok (.model i)) :
    ∃ y, ((qafter L prog).step L (.retrieve x d z n pt mt po)).2.res[i]? = some y ∧ [y.mag, y.phase, y.r, y.theta].Nodup ∧ ∀ p, y.Holds p →
      p ∉ ((qafter L prog).step L (.retrieve x d z n pt mt po)).2.prog.r ∧ (∀ o ∈ ((qafter L prog).step L (.retrieve x d z n pt mt po)).2.prog.world.objs, o.obj.psfi ≠ some p) ∧
      (∀ i' y', ((qafter L prog).step L (.retrieve x d z n pt mt po)).2.res[i']? = some y' → y'.Holds p → i' = i) ∧
      ∀ u ∈ ((qafter L prog).step L (.retrieve x d z n pt mt po)).2.zds, ¬ u.Holds p := by
  have hg := qgood_after L prog
  generalize qafter L prog = s at *
  rcases retrieve_step (L := L) hg (x := x) (d := d) (z := z) (n := n) (pt := pt) (mt := mt) (po := po) with ⟨e, h'⟩ | ⟨y, w', o', zr, h', hzr, h3, h4, -, h5, h6, h7, h8, -⟩
  · rw [h'] at h; cases h
  · rw [h'] at h ⊢
    obtain rfl : s.res.length = i := by cases h; rfl
    rw [qgood_iff, good_iff] at hg
    obtain ⟨⟨g1, g2, g3, g4⟩, g5, g6⟩ := hg
    have lt : ∀ {p : ℕ}, (∃ a, s.prog.world.mem.real[p]? = some a) → p < s.prog.world.mem.real.length := fun ⟨a, ha⟩ => (List.getElem?_eq_some_iff.mp ha).1
    refine ⟨y, by simp, h8, fun p hp => ?_⟩
    have hn := h7 p hp
    refine ⟨fun hm => ?_, fun o ho q => ?_, fun i' y' hy' q => ?_, fun u hu q => ?_⟩
    · have := lt (g3 p hm); omega
    · have ho : o ∈ w'.objs := ho
      rw [h4] at ho
      rcases List.mem_append.mp ho with ho | ho
      · have := lt ((g1 o ho).psfi _ q); omega
      · obtain rfl := List.mem_singleton.mp ho
        exact (h6 p q).2 hp
    · have hy' : (s.res ++ [y])[i']? = some y' := hy'
      by_cases hil : i' < s.res.length
      · rw [List.getElem?_append_left hil] at hy'
        have := lt (g5 y' (List.mem_of_getElem? hy') p q); omega
      · have := (List.getElem?_eq_some_iff.mp hy').1
        simp at this
        omega
    · have := lt (g6 u hu p q); omega

/-- C140: so are the three arrays of a new decomposition; `result.zd_result` is the decomposition `fit_to_zernikes` returned. -/
theorem C140_fit_own (prog : List PStmt) (i num j : ℕ) (h : ((qafter L prog).step L (.fit i num)).1 = .ok (.model j)) :
    (((qafter L prog).step L (.fit i num)).2.step L (.zdResult i)).1 = .ok (.model j) ∧
    ∃ y, ((qafter L prog).step L (.fit i num)).2.zds[j]? = some y ∧ [y.mcoefs, y.pcoefs, y.zerns].Nodup ∧ ∀ p, y.Holds p →
      p ∉ ((qafter L prog).step L (.fit i num)).2.prog.r ∧ (∀ o ∈ ((qafter L prog).step L (.fit i num)).2.prog.world.objs, o.obj.psfi ≠ some p) ∧
      (∀ u ∈ ((qafter L prog).step L (.fit i num)).2.res, ¬ u.Holds p) ∧
      ∀ j' y', ((qafter L prog).step L (.fit i num)).2.zds[j']? = some y' → y'.Holds p → j' = j := by
  have hg := qgood_after L prog
  generalize qafter L prog = s at *
  rcases fit_step (L := L) hg i num with ⟨e, h'⟩ | ⟨x, y, w', hx, h', h3, h4, h7, h8⟩
  · rw [h'] at h; cases h
  · rw [h'] at h ⊢
    obtain rfl : s.zds.length = j := by cases h; rfl
    rw [qgood_iff, good_iff] at hg
    obtain ⟨⟨g1, g2, g3, g4⟩, g5, g6⟩ := hg
    have lt : ∀ {p : ℕ}, (∃ a, s.prog.world.mem.real[p]? = some a) → p < s.prog.world.mem.real.length := fun ⟨a, ha⟩ => (List.getElem?_eq_some_iff.mp ha).1
    refine ⟨?_, y, by simp, h8, fun p hp => ?_⟩
    · have hi := (List.getElem?_eq_some_iff.mp hx).1
      simp only [QRProg.step, QRProg.seeN, getObj, List.getElem?_set_self hi]
      rfl
    · have hn := h7 p hp
      refine ⟨fun hm => ?_, fun o ho q => ?_, fun u hu q => ?_, fun j' y' hy' q => ?_⟩
      · have := lt (g3 p hm); omega
      · have ho : o ∈ w'.objs := ho
        rw [h4] at ho
        have := lt ((g1 o ho).psfi _ q); omega
      · rcases List.mem_or_eq_of_mem_set hu with hu | rfl
        · have := lt (g5 u hu p q); omega
        · have := lt (g5 x (List.mem_of_getElem? hx) p q); omega
      · have hy' : (s.zds ++ [y])[j']? = some y' := hy'
        by_cases hil : j' < s.zds.length
        · rw [List.getElem?_append_left hil] at hy'
          have := lt (g6 y' (List.mem_of_getElem? hy') p q); omega
        · have := (List.getElem?_eq_some_iff.mp hy').1
          simp at this
          omega

/-! ## Shared arrays -/

/-- C140: if `params["zrange"]` is an array, the model of the result keeps it: what the client writes into it shows in `result.model.zrange`. -/
theorem C140_given_planes (prog : List PStmt) (x : ℕ) (d : PyDict) (y : ℕ) (n : ℤ) (pt mt : ℝ) (po : Bool) (i k : ℕ)
    (h : ((qafter L prog).step L (.retrieve x d (some y) n pt mt po)).1 = .ok (.model i))
    (hk : (((qafter L prog).step L (.retrieve x d (some y) n pt mt po)).2.step L (.model i)).1 = .ok (.model k)) :
    ∃ l, (((qafter L prog).step L (.retrieve x d (some y) n pt mt po)).2.step L (.base (.zrange k))).1 = .ok (.planes l) ∧ ∀ j < l.length, ∀ v,
      ∃ s', ((qafter L prog).step L (.retrieve x d (some y) n pt mt po)).2.step L (.base (.writeZ y j v)) = (.ok .done, s') ∧
        (s'.step L (.base (.zrange k))).1 = .ok (.planes (l.set j v)) := by
  have hg := qgood_after L prog
  generalize qafter L prog = s at *
  have hg' := hg.step (L := L) (.retrieve x d (some y) n pt mt po)
  rcases retrieve_step (L := L) hg (x := x) (d := d) (z := some y) (n := n) (pt := pt) (mt := mt) (po := po) with ⟨e, h'⟩ | ⟨r, w', o', zr, h', hzr, h3, h4, hm, -, -, -, -, h8, -⟩
  · rw [h'] at h; cases h
  · rw [h'] at h hk hg' ⊢
    obtain rfl : s.res.length = i := by cases h; rfl
    have hk : (Except.ok (Seen.model r.model) : Py Seen) = .ok (.model k) := by
      rw [← hk]
      simp only [QRProg.step, QRProg.seeN, getObj, List.getElem?_concat_length]
      rfl
    obtain rfl : r.model = k := by cases hk; rfl
    rcases ey : s.prog.z[y]? with _ | p
    · simp only [Option.mapM_some, getObj, ey] at hzr; cases hzr
    · have hzr' : zr = some p := by
        simp only [Option.mapM_some, getObj, ey] at hzr
        exact (Except.ok.inj hzr).symm
      have hz := h8 p hzr'
      obtain ⟨l, hl⟩ := ((good_iff s.prog).mp ((qgood_iff s).mp hg).1).2.2.2 p (List.mem_of_getElem? ey)
      have hl' := h3.axis _ _ hl
      have ho : w'.objs[r.model]? = some o' := by rw [hm, h4]; simp
      refine ⟨l, ?_, fun j hj v => ⟨⟨RProg.putZ { s.prog with world := w' } p (l.set j v), s.res ++ [r], s.zds⟩, ?_, ?_⟩⟩
      · simp only [QRProg.step]
        rw [read_zrange (s := { s.prog with world := w' }) ho (by rw [hz]; exact hl')]
      · simp only [QRProg.step]
        rw [step_writeZ (s := { s.prog with world := w' }) (x := y) ey hl' hj v]
      · simp only [QRProg.step]
        rw [read_zrange (s := RProg.putZ { s.prog with world := w' } p (l.set j v)) ho (by rw [hz]; exact putZ_self (s := { s.prog with world := w' }) hl')]

/-- C140: whatever has been written into shared arrays, every statement gives what `Model/PhaseRetrieval.lean` gives for the present contents of the models, results,
decompositions and variables. -/
theorem C140_current (prog : List PStmt) : ∃ t : QVProg,
    t.prog.objs = (qafter L prog).prog.world.objs.map (RObj.view (qafter L prog).prog.world.mem) ∧
    List.Forall₂ (fun p a => (qafter L prog).prog.world.mem.real[p]? = some a) (qafter L prog).prog.r t.prog.r ∧
    List.Forall₂ (fun x y => PSlot.load (qafter L prog).prog.world.mem x = .ok y) (qafter L prog).res t.res ∧
    List.Forall₂ (fun x y => ZSlot.load (qafter L prog).prog.world.mem x = .ok y) (qafter L prog).zds t.zds ∧
    ∀ st : PStmt, ¬ st.IsWrite → ((qafter L prog).step L st).1 = (t.step L st).1 := by
  obtain ⟨t, ht⟩ := qgood_after L prog
  exact ⟨t, ht.prog.world.objs, ht.prog.r, ht.res, ht.zds, fun st hw => (qstep_sim ht st (qprivate_of_not_write hw)).out⟩

theorem write_qr {s : QRProg} {x r : ℕ} {a : Arr ℝ} (hx : s.prog.r[x]? = some r) (ha : s.prog.world.mem.real[r]? = some a) {idx : List ℕ} (hi : InShape idx a.shape) (v : ℝ)
    [DecidableEq (List ℕ)] : s.step L (.base (.writeR x idx v)) = (.ok .done, { s with prog := s.prog.putR r ⟨a.shape, Function.update a.get idx v⟩ }) := by
  simp only [QRProg.step]
  rw [step_writeR hx ha hi v]
  congr!

theorem read_ref {s : QRProg} {r : ℕ} {a : Arr ℝ} (ha : s.prog.world.mem.real[r]? = some a) {f : PyM World ℕ} (hf : f s.prog.world = (.ok r, s.prog.world)) :
    s.seeR f = (.ok (.real a), { s with prog := { s.prog with r := s.prog.r ++ [r] } }) := by
  simp only [QRProg.seeR, hf, RProg.seeR, ha]

theorem seen_ref {α : Type} {s : QRProg} {l : List α} {i : ℕ} {g : α → ℕ} {a : Arr ℝ} (h : (s.seeR (do return g (← PyM.lift (getObj l i)))).1 = .ok (.real a)) :
    ∃ x, l[i]? = some x ∧ s.prog.world.mem.real[g x]? = some a := by
  rcases e : l[i]? with _ | x
  · have : getObj l i = .error .runtimeError := by simp only [getObj, e]; rfl
    rw [this] at h
    cases h
  · have e1 : getObj l i = .ok x := by simp only [getObj, e]; rfl
    rw [e1] at h
    refine ⟨x, rfl, ?_⟩
    change (s.prog.seeR (.ok (g x), s.prog.world)).1 = _ at h
    simp only [RProg.seeR] at h
    rcases q : s.prog.world.mem.real[g x]? with _ | b <;> rw [q] at h
    · cases h
    · cases h; rfl

theorem pick_run {α : Type} {l : List α} {i : ℕ} {x : α} (h : l[i]? = some x) (g : α → ℕ) (w : World) : (do return g (← PyM.lift (getObj l i)) : PyM World ℕ) w = (.ok (g x), w) := by
  have e1 : getObj l i = .ok x := by simp only [getObj, h]; rfl
  rw [e1]; rfl

/-- Reading the array `g x` of `x`, and writing into it. -/
theorem shared_write {α : Type} {s : QRProg} {l : List α} {i : ℕ} {g : α → ℕ} {a : Arr ℝ} (h : (s.seeR (do return g (← PyM.lift (getObj l i)))).1 = .ok (.real a)) {idx : List ℕ}
    (hi : InShape idx a.shape) (v : ℝ) [DecidableEq (List ℕ)] : ∃ x s', l[i]? = some x ∧
      (s.seeR (do return g (← PyM.lift (getObj l i)))).2.step L (.base (.writeR s.prog.r.length idx v)) = (.ok .done, s') ∧ s'.res = s.res ∧ s'.zds = s.zds ∧
      s'.prog.world.mem.real[g x]? = some ⟨a.shape, Function.update a.get idx v⟩ := by
  obtain ⟨x, hx, ha⟩ := seen_ref h
  have hr := read_ref (s := s) ha (pick_run hx g _)
  rw [hr]
  refine ⟨x, _, hx, write_qr (s := { s with prog := { s.prog with r := s.prog.r ++ [g x] } }) (r := g x) (by simp) ha hi v, rfl, rfl, ?_⟩
  exact putR_self (s := { s.prog with r := s.prog.r ++ [g x] }) ha

theorem pupil_run {s : QRProg} (hg : QGood s) {i : ℕ} {x : PSlot ℕ} (hx : s.res[i]? = some x) {a b : Arr ℝ} (ha : s.prog.world.mem.real[x.mag]? = some a)
    (hb : s.prog.world.mem.real[x.phase]? = some b) :
    (s.step L (.pupil i)).1 = (a.zipB (fun (m p : ℝ) => (m : ℂ) * Complex.exp (Complex.I * (p : ℂ))) b).map .cplx := by
  obtain ⟨t, ht⟩ := hg
  rcases forall₂_get ht.res i with ⟨e, e'⟩ | ⟨x', y, e, e', hxy⟩
  · rw [hx] at e; cases e
  · obtain rfl : x = x' := by rw [hx] at e; exact Option.some.inj e
    have h := pload_iff.mp hxy
    rw [ha, hb] at h
    have h1 : a = y.mag := Option.some.inj h.1
    have h2 : b = y.phase := Option.some.inj h.2.1
    rw [(qstep_sim (L := L) ht (.pupil i) trivial).out]
    have e1 : getObj t.res i = .ok y := by simp only [getObj, e']; rfl
    simp only [QVProg.step, QVProg.seeC, e1]
    have : y.value.complexPupil = a.zipB (fun (m p : ℝ) => (m : ℂ) * Complex.exp (Complex.I * (p : ℂ))) b := by rw [h1, h2]; rfl
    change (t.prog.seeC (y.value.complexPupil, t.prog.objs)).1 = _
    rw [this]
    rcases a.zipB (fun (m p : ℝ) => (m : ℂ) * Complex.exp (Complex.I * (p : ℂ))) b with er | c <;> rfl

open Classical in
/-- C140: the array `result.mag` is the one the result computes from: what the client writes into it is what `result.mag` gives and what `result.complex_pupil` is computed from. -/
theorem C140_mag_shared (prog : List PStmt) (i : ℕ) (a : Arr ℝ) (h : ((qafter L prog).step L (.mag i)).1 = .ok (.real a)) (idx : List ℕ) (hi : InShape idx a.shape) (v : ℝ) :
    ∃ s' : QRProg, ((qafter L prog).step L (.mag i)).2.step L (.base (.writeR (qafter L prog).prog.r.length idx v)) = (.ok .done, s') ∧
      (s'.step L (.mag i)).1 = .ok (.real ⟨a.shape, Function.update a.get idx v⟩) ∧ ∀ b, (s'.step L (.phase i)).1 = .ok (.real b) →
        (s'.step L (.pupil i)).1 = ((⟨a.shape, Function.update a.get idx v⟩ : Arr ℝ).zipB (fun (m p : ℝ) => (m : ℂ) * Complex.exp (Complex.I * (p : ℂ))) b).map .cplx := by
  have hg := qgood_after L prog
  generalize qafter L prog = s at *
  obtain ⟨x, s', hx, hw, h1, h2, h3⟩ := shared_write (L := L) h hi v
  have hg' : QGood s' := by
    have := (hg.step (L := L) (.mag i)).step (L := L) (.base (.writeR s.prog.r.length idx v))
    rwa [show s.step L (.mag i) = s.seeR (do return PSlot.mag (← PyM.lift (getObj s.res i))) from rfl, hw] at this
  have hx' : s'.res[i]? = some x := by rw [h1]; exact hx
  refine ⟨s', hw, ?_, fun b hb => ?_⟩
  · simp only [QRProg.step]
    rw [read_ref h3 (pick_run hx' PSlot.mag _)]
  · obtain ⟨x', hx'', hb'⟩ := seen_ref hb
    obtain rfl : x = x' := by rw [hx'] at hx''; exact Option.some.inj hx''
    exact pupil_run hg' hx' h3 hb'

open Classical in
/-- C140: so is `result.phase`. -/
theorem C140_phase_shared (prog : List PStmt) (i : ℕ) (a : Arr ℝ) (h : ((qafter L prog).step L (.phase i)).1 = .ok (.real a)) (idx : List ℕ) (hi : InShape idx a.shape) (v : ℝ) :
    ∃ s' : QRProg, ((qafter L prog).step L (.phase i)).2.step L (.base (.writeR (qafter L prog).prog.r.length idx v)) = (.ok .done, s') ∧
      (s'.step L (.phase i)).1 = .ok (.real ⟨a.shape, Function.update a.get idx v⟩) ∧ ∀ b, (s'.step L (.mag i)).1 = .ok (.real b) →
        (s'.step L (.pupil i)).1 = (b.zipB (fun (m p : ℝ) => (m : ℂ) * Complex.exp (Complex.I * (p : ℂ))) ⟨a.shape, Function.update a.get idx v⟩).map .cplx := by
  have hg := qgood_after L prog
  generalize qafter L prog = s at *
  obtain ⟨x, s', hx, hw, h1, h2, h3⟩ := shared_write (L := L) h hi v
  have hg' : QGood s' := by
    have := (hg.step (L := L) (.phase i)).step (L := L) (.base (.writeR s.prog.r.length idx v))
    rwa [show s.step L (.phase i) = s.seeR (do return PSlot.phase (← PyM.lift (getObj s.res i))) from rfl, hw] at this
  have hx' : s'.res[i]? = some x := by rw [h1]; exact hx
  refine ⟨s', hw, ?_, fun b hb => ?_⟩
  · simp only [QRProg.step]
    rw [read_ref h3 (pick_run hx' PSlot.phase _)]
  · obtain ⟨x', hx'', hb'⟩ := seen_ref hb
    obtain rfl : x = x' := by rw [hx'] at hx''; exact Option.some.inj hx''
    exact pupil_run hg' hx' hb' h3

/-- What `zd.mag(s)` and `zd.phase(s)` give for the present contents. -/
theorem recon_run {s : QRProg} (hg : QGood s) {j : ℕ} {x : ZSlot ℕ} (hx : s.zds[j]? = some x) {z : Arr ℝ} (hz : s.prog.world.mem.real[x.zerns]? = some z) (c : Slice) :
    (∀ a, s.prog.world.mem.real[x.pcoefs]? = some a → (s.step L (.zdPhase j c)).1 = (reconFromZerns (sliceList c (coefList a)) (z.slice [c])).map .real) ∧
    ∀ a, s.prog.world.mem.real[x.mcoefs]? = some a → (s.step L (.zdMag j c)).1 = (reconFromZerns (sliceList c (coefList a)) (z.slice [c])).map .real := by
  obtain ⟨t, ht⟩ := hg
  rcases forall₂_get ht.zds j with ⟨e, e'⟩ | ⟨x', y, e, e', hxy⟩
  · rw [hx] at e; cases e
  · obtain rfl : x = x' := by rw [hx] at e; exact Option.some.inj e
    have h := zload_iff.mp hxy
    rw [hz] at h
    have h3 : z = y.zerns := Option.some.inj h.2.2
    have e1 : getObj t.zds j = .ok y := by simp only [getObj, e']; rfl
    refine ⟨fun a ha => ?_, fun a ha => ?_⟩
    · rw [ha] at h
      have h2 : a = y.pcoefs := Option.some.inj h.2.1
      rw [(qstep_sim (L := L) ht (.zdPhase j c) trivial).out]
      simp only [QVProg.step, QVProg.seeR, e1]
      have : y.value.phase c = reconFromZerns (sliceList c (coefList a)) (z.slice [c]) := by rw [h2, h3]; rfl
      change (t.prog.seeR (y.value.phase c, t.prog.objs)).1 = _
      rw [this]
      rcases reconFromZerns (sliceList c (coefList a)) (z.slice [c]) with er | c <;> rfl
    · rw [ha] at h
      have h2 : a = y.mcoefs := Option.some.inj h.1
      rw [(qstep_sim (L := L) ht (.zdMag j c) trivial).out]
      simp only [QVProg.step, QVProg.seeR, e1]
      have : y.value.mag c = reconFromZerns (sliceList c (coefList a)) (z.slice [c]) := by rw [h2, h3]; rfl
      change (t.prog.seeR (y.value.mag c, t.prog.objs)).1 = _
      rw [this]
      rcases reconFromZerns (sliceList c (coefList a)) (z.slice [c]) with er | c <;> rfl

open Classical in
/-- C140: the arrays `zd.pcoefs` and `zd.mcoefs` are those the decomposition computes from: what the client writes into them is what `zd.phase(s)` and `zd.mag(s)` rebuild. -/
theorem C140_coefs_shared (prog : List PStmt) (j : ℕ) (a : Arr ℝ) (idx : List ℕ) (hi : InShape idx a.shape) (v : ℝ) (c : Slice) :
    (((qafter L prog).step L (.pcoefs j)).1 = .ok (.real a) →
      ∃ s' : QRProg, ((qafter L prog).step L (.pcoefs j)).2.step L (.base (.writeR (qafter L prog).prog.r.length idx v)) = (.ok .done, s') ∧
        (s'.step L (.pcoefs j)).1 = .ok (.real ⟨a.shape, Function.update a.get idx v⟩) ∧ ∀ z, (s'.step L (.zerns j)).1 = .ok (.real z) →
          (s'.step L (.zdPhase j c)).1 = (reconFromZerns (sliceList c (coefList ⟨a.shape, Function.update a.get idx v⟩)) (z.slice [c])).map .real) ∧
    (((qafter L prog).step L (.mcoefs j)).1 = .ok (.real a) →
      ∃ s' : QRProg, ((qafter L prog).step L (.mcoefs j)).2.step L (.base (.writeR (qafter L prog).prog.r.length idx v)) = (.ok .done, s') ∧
        (s'.step L (.mcoefs j)).1 = .ok (.real ⟨a.shape, Function.update a.get idx v⟩) ∧ ∀ z, (s'.step L (.zerns j)).1 = .ok (.real z) →
          (s'.step L (.zdMag j c)).1 = (reconFromZerns (sliceList c (coefList ⟨a.shape, Function.update a.get idx v⟩)) (z.slice [c])).map .real) := by
  have hg := qgood_after L prog
  generalize qafter L prog = s at *
  refine ⟨fun h => ?_, fun h => ?_⟩
  · obtain ⟨x, s', hx, hw, h1, h2, h3⟩ := shared_write (L := L) h hi v
    have hg' : QGood s' := by
      have := (hg.step (L := L) (.pcoefs j)).step (L := L) (.base (.writeR s.prog.r.length idx v))
      rwa [show s.step L (.pcoefs j) = s.seeR (do return ZSlot.pcoefs (← PyM.lift (getObj s.zds j))) from rfl, hw] at this
    have hx' : s'.zds[j]? = some x := by rw [h2]; exact hx
    refine ⟨s', hw, ?_, fun z hz => ?_⟩
    · simp only [QRProg.step]
      rw [read_ref h3 (pick_run hx' ZSlot.pcoefs _)]
    · obtain ⟨x', hx'', hz'⟩ := seen_ref hz
      obtain rfl : x = x' := by rw [hx'] at hx''; exact Option.some.inj hx''
      exact (recon_run hg' hx' hz' c).1 _ h3
  · obtain ⟨x, s', hx, hw, h1, h2, h3⟩ := shared_write (L := L) h hi v
    have hg' : QGood s' := by
      have := (hg.step (L := L) (.mcoefs j)).step (L := L) (.base (.writeR s.prog.r.length idx v))
      rwa [show s.step L (.mcoefs j) = s.seeR (do return ZSlot.mcoefs (← PyM.lift (getObj s.zds j))) from rfl, hw] at this
    have hx' : s'.zds[j]? = some x := by rw [h2]; exact hx
    refine ⟨s', hw, ?_, fun z hz => ?_⟩
    · simp only [QRProg.step]
      rw [read_ref h3 (pick_run hx' ZSlot.mcoefs _)]
    · obtain ⟨x', hx'', hz'⟩ := seen_ref hz
      obtain rfl : x = x' := by rw [hx'] at hx''; exact Option.some.inj hx''
      exact (recon_run hg' hx' hz' c).2 _ h3

/-! ## Non-vacuity -/

/-- `data = np.zeros((3, 8, 8))`, `result = retrieve_phase(data, d, 2)`, `zd = result.fit_to_zernikes(10)`, `result.generate_zd_psf(zsize=5)`, and the arrays read above. -/
theorem demo_pr_run : ∃ lstsq, LeastSquares lstsq ∧ ∃ (a mag phase pcoefs mcoefs psf : Arr ℝ),
    (runHistory (QRProg.step ⟨id, lstsq⟩) QRProg.empty [.image ⟨[3, 8, 8], fun _ => 0⟩, .retrieve 0 demoDict none 2 0 0 false, .fit 0 10, .mag 0, .phase 0, .pcoefs 0, .mcoefs 0,
      .zdPsf 0 ⟨some 4, none⟩ none (some (.int 5)) .omitted]).1 =
      [.ok (.real a), .ok (.model 0), .ok (.model 0), .ok (.real mag), .ok (.real phase), .ok (.real pcoefs), .ok (.real mcoefs), .ok (.real psf)] ∧
    mag.shape = [8, 8] ∧ phase.shape = [8, 8] ∧ pcoefs.shape = [10] ∧ mcoefs.shape = [10] ∧ psf.shape = [5, 8, 8] := by
  obtain ⟨lstsq, hls⟩ := leastSquares_exists
  have hun : Unwraps (id : Arr ℝ → Arr ℝ) := ⟨fun _ => rfl, fun a idx => ⟨0, by simp⟩⟩
  obtain ⟨res, m, F, p, h, run, hopt, hdict⟩ := retrieve_form id hun.shape ⟨[3, 8, 8], fun _ => 0⟩ demoDict (demoDict_setup 3) rfl (by norm_num)
    (by norm_num) 2 (by norm_num) 0 0 false
  obtain ⟨zd, D, g1, -, g3, g4, g5, -⟩ := C70_retrieved lstsq hls id hun _ demoDict _ _ _ _ 3 8 _ (demoDict_setup 3) rfl
    (by norm_num) (by norm_num) 2 (by norm_num) 0 0 false res _ h 10 (by norm_num) (by norm_num)
  obtain ⟨h1, h2, h3⟩ := retrieved_result id hun _ demoDict _ _ _ _ 3 8 _ (demoDict_setup 3) rfl
    (by norm_num) (by norm_num) 2 (by norm_num) 0 0 false res _ h
  obtain ⟨o0, f1, -, -, f2, f3⟩ := setup_model (N := 8) (demoDict_setup 3)
  rw [hdict] at f1
  injection f1 with f1
  rw [← f1] at f2 f3
  obtain ⟨a, hmod, -⟩ := run.model
  obtain ⟨psf, o, q1, q2, -⟩ := C71_zd_psf hopt (demoDict_setup 3).wl.2.ne' (demoDict_setup 3).res.2.2 (by norm_num) f2
    (f3 200 (Or.inr ⟨_, rfl, rfl⟩)) (zsize := some (.int 5)) (zrange := none)
    (zs' := (List.range 5).map fun (k : ℕ) => ((k : ℚ) - ((5 + 1) / 2 : ℕ)) * 200) ⟨Or.inr ⟨5, rfl⟩, 5, rfl, rfl⟩ res.model (by rw [hmod])
    [res.model] 0 rfl ⟨[], fun _ => 0⟩ zd 10 g4 g3 g5
  refine ⟨lstsq, hls, ⟨[3, 8, 8], fun _ => 0⟩, res.mag, res.phase, coefArr zd.pcoefs, coefArr zd.mcoefs, psf, ?_, h2, h3, by simp [coefArr, g4], by simp [coefArr, g3], by simpa using q2⟩
  rw [C140_no_writes _ (by intro st hst; fin_cases hst <;> exact id)]
  have hv : ∀ zz : ZD, (⟨coefArr zz.mcoefs, coefArr zz.pcoefs, zz.zerns⟩ : ZSlot (Arr ℝ)).value = zz := fun zz => by simp only [ZSlot.value, coefList_coefArr]
  have h' : (retrievePhase id (⟨[3, 8, 8], fun _ => 0⟩ : Arr ℝ) 2 0 0 false demoDict).1 = .ok res := by rw [h]
  have g1' : (⟨res.mag, res.phase, res.r, res.theta, res.na, res.wl, 0, none⟩ : PSlot (Arr ℝ)).value.fitToZernikes lstsq 10 = .ok zd := g1
  set data : Arr ℝ := ⟨[3, 8, 8], fun _ => 0⟩ with hdata
  set L : PrLib := ⟨id, lstsq⟩ with hL
  have e1 : QVProg.step L QVProg.empty (.image data) = (.ok (.real data), ⟨⟨[], [], [data], []⟩, [], []⟩) := rfl
  have e2 : QVProg.step L ⟨⟨[], [], [data], []⟩, [], []⟩ (.retrieve 0 demoDict none 2 0 0 false)
      = (.ok (.model 0), ⟨⟨[res.model], [], [data], []⟩, [⟨res.mag, res.phase, res.r, res.theta, res.na, res.wl, 0, none⟩], []⟩) := by
    change (match (retrievePhase id data 2 0 0 false demoDict).1 with
      | .error e => _
      | .ok y => _) = _
    rw [h']
    rfl
  have e3 : QVProg.step L ⟨⟨[res.model], [], [data], []⟩, [⟨res.mag, res.phase, res.r, res.theta, res.na, res.wl, 0, none⟩], []⟩ (.fit 0 10)
      = (.ok (.model 0), ⟨⟨[res.model], [], [data], []⟩, [⟨res.mag, res.phase, res.r, res.theta, res.na, res.wl, 0, some 0⟩], [⟨coefArr zd.mcoefs, coefArr zd.pcoefs, zd.zerns⟩]⟩) := by
    change (match (PSlot.value ⟨res.mag, res.phase, res.r, res.theta, res.na, res.wl, 0, none⟩).fitToZernikes lstsq 10 with
      | .error e => _
      | .ok y => _) = _
    rw [g1']
    rfl
  have e4 : (QVProg.step L ⟨⟨[res.model], [], [data, res.mag, res.phase, coefArr zd.pcoefs, coefArr zd.mcoefs], []⟩,
      [⟨res.mag, res.phase, res.r, res.theta, res.na, res.wl, 0, some 0⟩], [⟨coefArr zd.mcoefs, coefArr zd.pcoefs, zd.zerns⟩]⟩
      (.zdPsf 0 ⟨some 4, none⟩ none (some (.int 5)) .omitted)).1 = .ok (.real psf) := by
    change (QVProg.seeR _ (fun hh => (QVProg.dropped (generateZdPsf (some (ZSlot.value ⟨coefArr zd.mcoefs, coefArr zd.pcoefs, zd.zerns⟩)) 0 ⟨some 4, none⟩ none (some (.int 5)) none)) hh)).1 = _
    rw [hv zd]
    simp only [QVProg.seeR, QVProg.dropped, q1]
    rfl
  have cons : ∀ (s : QVProg) (st : PStmt) (l : List PStmt), (runHistory (QVProg.step L) s (st :: l)).1
      = (QVProg.step L s st).1 :: (runHistory (QVProg.step L) (QVProg.step L s st).2 l).1 := fun _ _ _ => rfl
  rw [cons, e1, cons, e2, cons, e3, cons, cons, cons, cons, cons]
  refine congrArg _ (congrArg _ (congrArg _ (congrArg _ (congrArg _ (congrArg _ (congrArg _ ?_))))))
  exact congrArg (· :: []) e4

/-- What the statement after the first ones returns. -/
theorem runHistory_nth {σ ι ο : Type} (f : σ → ι → ο × σ) (s : σ) (l : List ι) (x : ι) (r : List ι) :
    (runHistory f s (l ++ x :: r)).1[l.length]? = some (f (runHistory f s l).2 x).1 := by
  induction l generalizing s with
  | nil => rfl
  | cons y l ih => exact ih (f s y).2

/-- The hypotheses of the theorems are met: a retrieval of an 8x8x3 image, a fit of ten polynomials and the arrays of both, which have a first pixel. -/
example : ∃ L, (((qafter L [.image ⟨[3, 8, 8], fun _ => 0⟩]).step L (.retrieve 0 demoDict none 2 0 0 false)).1 = .ok (.model 0)) ∧
    (((qafter L [.image ⟨[3, 8, 8], fun _ => 0⟩, .retrieve 0 demoDict none 2 0 0 false]).step L (.fit 0 10)).1 = .ok (.model 0)) ∧
    (∃ a, ((qafter L [.image ⟨[3, 8, 8], fun _ => 0⟩, .retrieve 0 demoDict none 2 0 0 false, .fit 0 10]).step L (.mag 0)).1 = .ok (.real a) ∧ InShape [0, 0] a.shape) ∧
    (∃ a, ((qafter L [.image ⟨[3, 8, 8], fun _ => 0⟩, .retrieve 0 demoDict none 2 0 0 false, .fit 0 10, .mag 0]).step L (.phase 0)).1 = .ok (.real a) ∧ InShape [0, 0] a.shape) ∧
    (∃ a, ((qafter L [.image ⟨[3, 8, 8], fun _ => 0⟩, .retrieve 0 demoDict none 2 0 0 false, .fit 0 10, .mag 0, .phase 0]).step L (.pcoefs 0)).1 = .ok (.real a) ∧
      InShape [4] a.shape) ∧
    (∃ a, ((qafter L [.image ⟨[3, 8, 8], fun _ => 0⟩, .retrieve 0 demoDict none 2 0 0 false, .fit 0 10, .mag 0, .phase 0, .pcoefs 0]).step L (.mcoefs 0)).1 = .ok (.real a) ∧
      InShape [4] a.shape) ∧
    ∃ a, ((qafter L [.image ⟨[3, 8, 8], fun _ => 0⟩, .retrieve 0 demoDict none 2 0 0 false, .fit 0 10, .mag 0, .phase 0, .pcoefs 0, .mcoefs 0]).step L
      (.zdPsf 0 ⟨some 4, none⟩ none (some (.int 5)) .omitted)).1 = .ok (.real a) ∧ InShape [4, 7, 7] a.shape := by
  obtain ⟨lstsq, -, a, mag, phase, pc, mc, psf, h, h1, h2, h3, h4, h5⟩ := demo_pr_run
  have key := fun (l : List PStmt) (x : PStmt) (r : List PStmt) => runHistory_nth (QRProg.step ⟨id, lstsq⟩) QRProg.empty l x r
  refine ⟨⟨id, lstsq⟩, ?_, ?_, ⟨mag, ?_, ?_⟩, ⟨phase, ?_, ?_⟩, ⟨pc, ?_, ?_⟩, ⟨mc, ?_, ?_⟩, psf, ?_, ?_⟩
  · have := (key [_] (.retrieve 0 demoDict none 2 0 0 false) _).symm.trans (congrArg (·[1]?) h); exact Option.some.inj this
  · have := (key [_, _] (.fit 0 10) _).symm.trans (congrArg (·[2]?) h); exact Option.some.inj this
  · have := (key [_, _, _] (.mag 0) _).symm.trans (congrArg (·[3]?) h); exact Option.some.inj this
  · rw [h1]; simp [InShape]
  · have := (key [_, _, _, _] (.phase 0) _).symm.trans (congrArg (·[4]?) h); exact Option.some.inj this
  · rw [h2]; simp [InShape]
  · have := (key [_, _, _, _, _] (.pcoefs 0) _).symm.trans (congrArg (·[5]?) h); exact Option.some.inj this
  · rw [h3]; simp [InShape]
  · have := (key [_, _, _, _, _, _] (.mcoefs 0) _).symm.trans (congrArg (·[6]?) h); exact Option.some.inj this
  · rw [h4]; simp [InShape]
  · have := (key [_, _, _, _, _, _, _] (.zdPsf 0 ⟨some 4, none⟩ none (some (.int 5)) .omitted) []).symm.trans (congrArg (·[7]?) h); exact Option.some.inj this
  · rw [h5]; simp [InShape]

/-- The hypotheses of `C140_given_planes` are met: three given planes. -/
example (lstsq : ℕ → List (List ℝ) → List ℝ → Py (List ℝ)) :
    ((qafter ⟨id, lstsq⟩ [.base (.planes [.fin (-200), .fin 0, .fin 200]), .image ⟨[3, 8, 8], fun _ => 0⟩]).step ⟨id, lstsq⟩
      (.retrieve 0 demoDict (some 0) 2 0 0 false)).1 = .ok (.model 0) ∧
    ((qafter ⟨id, lstsq⟩ [.base (.planes [.fin (-200), .fin 0, .fin 200]), .image ⟨[3, 8, 8], fun _ => 0⟩, .retrieve 0 demoDict (some 0) 2 0 0 false]).step ⟨id, lstsq⟩
      (.model 0)).1 = .ok (.model 0) := by
  set L : PrLib := ⟨id, lstsq⟩ with hL
  set data : Arr ℝ := ⟨[3, 8, 8], fun _ => 0⟩ with hdata
  set zs : List PyFloat := [.fin (-200), .fin 0, .fin 200] with hzs
  set d : PyDict := demoDict.insert "zrange" (.seq zs) with hd
  have hset : Setup d 500 1 (3/2) 100 3 [-200, 0, 200] :=
    { keys := by decide
      wl := ⟨⟨_, rfl, rfl⟩, by norm_num⟩
      na := ⟨⟨.int 1, rfl, by simp [Denotes, PyVal.num?]⟩, by norm_num⟩
      ni := ⟨⟨_, rfl, rfl⟩, by norm_num⟩
      res := ⟨⟨_, rfl, rfl⟩, by norm_num, by norm_num⟩
      planes := ⟨by simp, 200, by norm_num, Or.inr ⟨_, rfl, rfl⟩, Or.inr (Or.inl rfl)⟩ }
  obtain ⟨res, d', h⟩ := C62_returns id (fun _ => rfl) data d _ _ _ _ 3 8 _ hset rfl (by norm_num) (by norm_num) 2 (by norm_num) 0 0 false
  have h' : (retrievePhase id data 2 0 0 false d).1 = .ok res := by rw [h]
  have e2 : QVProg.step L ⟨⟨[], [], [data], [zs]⟩, [], []⟩ (.retrieve 0 demoDict (some 0) 2 0 0 false)
      = (.ok (.model 0), ⟨⟨[res.model], [], [data], [zs]⟩, [⟨res.mag, res.phase, res.r, res.theta, res.na, res.wl, 0, none⟩], []⟩) := by
    change (match (retrievePhase id data 2 0 0 false d).1 with
      | .error e => _
      | .ok y => _) = _
    rw [h']
    rfl
  have cons : ∀ (s : QVProg) (st : PStmt) (l : List PStmt), (runHistory (QVProg.step L) s (st :: l)).1
      = (QVProg.step L s st).1 :: (runHistory (QVProg.step L) (QVProg.step L s st).2 l).1 := fun _ _ _ => rfl
  have run : (runHistory (QRProg.step L) QRProg.empty [.base (.planes zs), .image data, .retrieve 0 demoDict (some 0) 2 0 0 false, .model 0]).1
      = [.ok (.planes zs), .ok (.real data), .ok (.model 0), .ok (.model 0)] := by
    rw [C140_no_writes _ (by intro st hst; fin_cases hst <;> exact id), cons, cons, cons]
    refine congrArg _ (congrArg _ ?_)
    change (QVProg.step L ⟨⟨[], [], [data], [zs]⟩, [], []⟩ (.retrieve 0 demoDict (some 0) 2 0 0 false)).1 ::
      (runHistory (QVProg.step L) (QVProg.step L ⟨⟨[], [], [data], [zs]⟩, [], []⟩ (.retrieve 0 demoDict (some 0) 2 0 0 false)).2 _).1 = _
    rw [e2]
    rfl
  have key := fun (l : List PStmt) (x : PStmt) (r : List PStmt) => runHistory_nth (QRProg.step L) QRProg.empty l x r
  have k1 := key [.base (.planes zs), .image data] (.retrieve 0 demoDict (some 0) 2 0 0 false) [.model 0]
  have k2 := key [.base (.planes zs), .image data, .retrieve 0 demoDict (some 0) 2 0 0 false] (.model 0) []
  rw [List.cons_append, List.cons_append, List.nil_append, run] at k1
  rw [List.cons_append, List.cons_append, List.cons_append, List.nil_append, run] at k2
  exact ⟨(Option.some.inj k1).symm, (Option.some.inj k2).symm⟩

end PyOTF
