import Verif.Props.C137_Clients
import Verif.Props.C50_C52_Sheppard

/-!
# C137: the attributes a `SheppardPSF` saves for the user
-/

namespace PyOTF

open STM Physics

/-! ## Specification -/

/-- Element `x` of `fftfreq(N, r)`: the frequency of element `x` of an unshifted axis. -/
noncomputable abbrev Physics.unshifted (N : ℕ) (r : ℝ) (x : ℕ) : ℝ := fftfreq N r x

open Classical in
/-- The coordinates `f` of the points on the cap, in the order of the array. -/
noncomputable def capList (K L z r : ℝ) (nz N : ℕ) (dual : Bool) (f : ℕ → ℕ → ℕ → ℝ) : List ℝ :=
  (List.range nz).flatMap fun iz => (List.range N).flatMap fun iy => (List.range N).filterMap fun ix =>
    if OnCap K L (1 / (nz * z)) (1 / (N * r)) dual (unshifted nz z iz) (unshifted N r iy) (unshifted N r ix) then some (f iz iy ix)
    else none

/-- The saved attributes are those of the parameters: `kmag` is the radius of the sphere, `dk` and `dkz` are the
distances of neighbouring frequencies, `valid_points` are the points on the cap and `kzz`, `kyy`, `kxx` are the coordinates of
these points. -/
structure SavedAs (s : SScratch) (w n i r z : ℚ) (N nz : ℕ) (dual : Bool) : Prop where
  kmag : s.kmag = some (.fin (i / w))
  dk : ∃ g, s.dk = some g ∧ g.spacing = some (1 / (N * r : ℝ))
  dkz : ∃ g, s.dkz = some g ∧ g.spacing = some (1 / (nz * z : ℝ))
  valid : ∃ q, s.valid = some q ∧ q.z.size = nz ∧ q.xy.size = N ∧ ∀ iz < nz, ∀ iy < N, ∀ ix < N, q.valid iz iy ix ↔
    OnCap ((i / w : ℚ) : ℝ) ((n / w : ℚ) : ℝ) (1 / (nz * z)) (1 / (N * r)) dual (unshifted nz z iz) (unshifted N r iy) (unshifted N r ix)
  kzz : ∃ k, s.kzz = some k ∧
    k.values 0 = capList ((i / w : ℚ) : ℝ) ((n / w : ℚ) : ℝ) z r nz N dual fun iz _ _ => unshifted nz z iz
  kyy : ∃ k, s.kyy = some k ∧
    k.values 1 = capList ((i / w : ℚ) : ℝ) ((n / w : ℚ) : ℝ) z r nz N dual fun _ iy _ => unshifted N r iy
  kxx : ∃ k, s.kxx = some k ∧
    k.values 2 = capList ((i / w : ℚ) : ℝ) ((n / w : ℚ) : ℝ) z r nz N dual fun _ _ ix => unshifted N r ix

/-! ## One object in one thread -/

/-- One operation on an object and its saved attributes: an assignment does not touch them (otf.py:472-489, 126-190,
utils.py:205-213), a read runs alone. -/
noncomputable def SCell.step (I : SImpl) (c : SCell) : SOp → Py (Out (Arr (Option ℂ)) (Arr (Option ℝ))) × SCell
  | .set a v =>
    let r := SObj.step c.obj (.set a v)
    (r.1, { c with obj := r.2 })
  | .readPSFa => let r := (sReadT I 0 .PSFa).alone (fun _ => c); (r.1, r.2 0)
  | .readOTFa => let r := (sReadT I 0 .OTFa).alone (fun _ => c); (r.1, r.2 0)
  | .readPSFi => let r := (sReadT I 0 .PSFi).alone (fun _ => c); (r.1, r.2 0)
  | .readOTFi => let r := (sReadT I 0 .OTFi).alone (fun _ => c); (r.1, r.2 0)

theorem SCell.step_read (I : SImpl) (c : SCell) (r : ROp) : SCell.step I c r.toSOp =
    (((sReadT I 0 r).alone (fun _ => c)).1, ((sReadT I 0 r).alone (fun _ => c)).2 0) := by cases r <;> rfl

/-- A safe thread that runs alone. -/
theorem Prog.Safe.alone {σ L α : Type} {Inv : σ → Prop} {le : σ → σ → Prop} (hrefl : ∀ a, le a a) {Q : σ → α → Prop}
    {p : Prog σ L α} {s : σ} (h : p.Safe Inv le Q s) (hI : Inv s) : Q (p.alone s).2 (p.alone s).1 ∧ Inv (p.alone s).2 := by
  induction p generalizing s with
  | ret a => exact ⟨h s (hrefl s) hI, hI⟩
  | act st k ih =>
    obtain ⟨h1, -, h3⟩ := h s (hrefl s) hI
    exact ih s h3 h1
  | lock l k ih => exact ih h hI
  | unlock l k ih => exact ih h hI

/-- What a cell represents. -/
def CellRel (c : SCell) (p : Params) : Prop := SRel c.obj p ∧ Saved c

theorem cell_read (I : SImpl) {c : SCell} {p : Params} (h : CellRel c p) (r : ROp) :
    (SCell.step I c r.toSOp).1 = (SSpec.step p r.toSOp).1 ∧ CellRel (SCell.step I c r.toSOp).2 p ∧
    ((∃ a, (SCell.step I c r.toSOp).1 = .ok a) → AllGood p (SCell.step I c r.toSOp).2) := by
  have hI : SInv (fun _ => p) (fun _ => True) (fun _ => c) := fun _ => ⟨h.1, fun _ => h.2⟩
  obtain ⟨⟨h1, h2⟩, h3⟩ := (ssafe_read I 0 r hI).alone (sLe_refl _) hI
  rw [SCell.step_read]
  exact ⟨h1, ⟨(h3 0).1, (h3 0).2 trivial⟩, fun ha => h2 ha trivial⟩

theorem cell_step (I : SImpl) {c : SCell} {p : Params} (h : CellRel c p) (op : SOp) :
    (SCell.step I c op).1 = (SSpec.step p op).1 ∧ CellRel (SCell.step I c op).2 (SSpec.step p op).2 := by
  have read : ∀ r : ROp, (SCell.step I c r.toSOp).1 = (SSpec.step p r.toSOp).1 ∧
      CellRel (SCell.step I c r.toSOp).2 (SSpec.step p r.toSOp).2 := by
    intro r
    obtain ⟨h1, h2, -⟩ := cell_read I h r
    refine ⟨h1, ?_⟩
    cases r <;> exact h2
  cases op with
  | set a v =>
    obtain ⟨h1, h2⟩ := SObj.step_rel h.1 (.set a v)
    refine ⟨h1, h2, ?_⟩
    obtain ⟨q, hq, -, -⟩ := setAttr_run (Arr (Option ℂ)) (Arr (Option ℝ)) .sheppard a v _ h.1.ready
    have e1 := hq c.obj h.1.params
    change Saved { c with obj := (setAttr .sheppard a v c.obj).2 }
    rw [e1]
    rcases q with er | _ | p'
    · exact h.2
    · exact h.2
    · exact Or.inl ⟨rfl, rfl, rfl, rfl⟩
  | readPSFa => exact read .PSFa
  | readOTFa => exact read .OTFa
  | readPSFi => exact read .PSFi
  | readOTFi => exact read .OTFi

theorem cell_run (I : SImpl) {c : SCell} {p : Params} (h : CellRel c p) (ops : List SOp) :
    (runHistory (SCell.step I) c ops).1 = (runHistory SSpec.step p ops).1 ∧
    CellRel (runHistory (SCell.step I) c ops).2 (runHistory SSpec.step p ops).2 := by
  induction ops generalizing c p with
  | nil => exact ⟨rfl, h⟩
  | cons op ops ih =>
    obtain ⟨h1, h2⟩ := cell_step I h op
    obtain ⟨h3, h4⟩ := ih h2
    simp only [runHistory]
    exact ⟨by rw [h1, h3], h4⟩

theorem cell_new {a : InitArgs} {dual : PyVal} {o : SObj} (ho : SObj.new a dual = .ok o) : CellRel ⟨o, {}⟩ o.params := by
  obtain ⟨h1, h2⟩ := sheppard_ready ho
  refine ⟨by rw [h2]; exact SObj.rel_cleared h1, Or.inl ?_⟩
  rw [h2]; exact ⟨rfl, rfl, rfl, rfl⟩

/-! ## What the saved attributes are -/

theorem valid_unshifted (h : SheppardNum) (hN : 3 ≤ h.size) (hz : 3 ≤ h.zsize) (hr : 0 < h.res) {iz iy ix : ℕ}
    (h1 : iz < h.zsize) (h2 : iy < h.size) (h3 : ix < h.size) :
    h.valid iz iy ix ↔ OnCap h.kmag h.limit (1 / (h.zsize * h.zres)) (1 / (h.size * h.res)) h.dual
      (unshifted h.zsize h.zres iz) (unshifted h.size h.res iy) (unshifted h.size h.res ix) := by
  have surj : ∀ N x, x < N → ∃ y, y < N ∧ rollIdx N (N / 2 : ℕ) y = x := by
    intro N x hx
    refine ⟨rollIdx N (-((N / 2 : ℕ) : ℤ)) x, rollIdx_lt _ _ (by omega), ?_⟩
    rw [rollIdx_comp _ _ _ (by omega)]
    exact rollIdx_of_dvd hx (by simp)
  obtain ⟨jz, l1, e1⟩ := surj _ _ h1
  obtain ⟨jy, l2, e2⟩ := surj _ _ h2
  obtain ⟨jx, l3, e3⟩ := surj _ _ h3
  have := valid_iff h hN hz hr l1 l2 l3
  rw [← centred_eq _ l1, ← centred_eq _ l2, ← centred_eq _ l3, e1, e2, e3] at this
  exact this

theorem SOptics.src {p : Params} {w n i r z : ℚ} {N nz : ℕ} {v : VecCorr} {cd : Condition} {dual : Bool}
    (ho : SOptics p w n i r z N nz v cd dual) {q : SSrc} (hq : srcAt p = .ok q) :
    q = ⟨⟨N, .fin r⟩, ⟨nz, .fin z⟩, .fin (i / w), .fin (n / w), dual⟩ ∧ gridAt p = .ok ⟨N, .fin r⟩ ∧
    zgridAt p = .ok ⟨nz, .fin z⟩ ∧ kmagAt p = .ok (.fin (i / w)) := by
  obtain ⟨u1, a1, b1⟩ := ho.wl
  obtain ⟨u2, a2, b2⟩ := ho.na
  obtain ⟨u3, a3, b3⟩ := ho.ni
  obtain ⟨u4, a4, b4⟩ := ho.res
  obtain ⟨u5, a5, b5⟩ := ho.zres
  obtain ⟨u6, a6, b6⟩ := ho.size
  obtain ⟨u7, a7, b7⟩ := ho.zsize
  obtain ⟨p1, p2, p3, p4, p5, -⟩ := srcAt_parts hq
  have h1 : q.xy = ⟨N, .fin r⟩ := by
    have e := p1
    rw [gridAt, a4, a6] at e
    change (pyNum u4 >>= fun res => gridOf u6 res) = _ at e
    rw [pyNum_of_num b4] at e
    obtain ⟨_, -, e⟩ := peel (show gridOf u6 (.fin r) = _ from e)
    rw [← Except.ok.inj e, b6]
  have h2 : q.z = ⟨nz, .fin z⟩ := by
    have e := p2
    rw [zgridAt, a5, a7] at e
    change (pyNum u5 >>= fun res => gridOf u7 res) = _ at e
    rw [pyNum_of_num b5] at e
    obtain ⟨_, -, e⟩ := peel (show gridOf u7 (.fin z) = _ from e)
    rw [← Except.ok.inj e, b7]
  have quot : ∀ {x y : ℚ} {m : PyFloat}, PyFloat.div (.fin x) (.fin y) = .ok m → m = .fin (x / y) := by
    intro x y m h
    simp only [PyFloat.div] at h
    split_ifs at h
    cases h; rfl
  have h3 : q.kmag = .fin (i / w) := by
    have e := p3
    rw [kmagAt, a1, a3] at e
    change (pyNum u3 >>= fun ni => pyNum u1 >>= fun wl => PyFloat.div ni wl) = _ at e
    rw [pyNum_of_num b3, pyNum_of_num b1] at e
    exact quot e
  have h4 : q.limit = .fin (n / w) := by
    have e := p4
    rw [limitAt, a1, a2] at e
    change (pyNum u2 >>= fun na => pyNum u1 >>= fun wl => PyFloat.div na wl) = _ at e
    rw [pyNum_of_num b2, pyNum_of_num b1] at e
    exact quot e
  have h5 : q.dual = dual := by
    rw [ho.dual] at p5
    cases p5; rfl
  obtain ⟨xy, zz, km, li, du⟩ := q
  simp only at h1 h2 h3 h4 h5
  subst h1 h2 h3 h4 h5
  exact ⟨rfl, p1, p2, p3⟩

theorem spacing_eq (N : ℕ) (r : ℚ) (hN : 3 ≤ N) : (⟨N, .fin r⟩ : Grid).spacing = some (1 / (N * r : ℝ)) := by
  show some _ = _
  rw [fftfreq_step _ _ hN]

/-- Up to date attributes of an ordinary model are what they should be. -/
theorem AllGood.saved {p : Params} {c : SCell} (h : AllGood p c) {w n i r z : ℚ} {N nz : ℕ} {v : VecCorr} {cd : Condition}
    {dual : Bool} (ho : SOptics p w n i r z N nz v cd dual) (hN : 3 ≤ N) (hnz : 3 ≤ nz) (hr : 0 < r) :
    SavedAs c.scr w n i r z N nz dual := by
  obtain ⟨q, hq, hv⟩ := h .valid
  obtain ⟨rfl, e1, e2, e3⟩ := ho.src hq
  have hrR : (0 : ℝ) < r := by exact_mod_cast hr
  set q : SSrc := ⟨⟨N, .fin r⟩, ⟨nz, .fin z⟩, .fin (i / w), .fin (n / w), dual⟩ with hqd
  have hnum : q.num .none .none = .ok ⟨N, nz, r, z, ((i / w : ℚ) : ℝ), ((n / w : ℚ) : ℝ), .none, .none, dual⟩ := by
    show (finReals ([r, z, i / w, n / w].map PyFloat.fin) >>= _) = _
    rw [finReals_fin]
    rfl
  have hval : ∀ iz < nz, ∀ iy < N, ∀ ix < N, q.valid iz iy ix ↔
      OnCap ((i / w : ℚ) : ℝ) ((n / w : ℚ) : ℝ) (1 / (nz * z)) (1 / (N * r)) dual (unshifted nz z iz) (unshifted N r iy) (unshifted N r ix) := by
    intro iz h1 iy h2 ix h3
    refine Iff.trans ?_ (valid_unshifted ⟨N, nz, r, z, ((i / w : ℚ) : ℝ), ((n / w : ℚ) : ℝ), .none, .none, dual⟩ hN hnz hrR h1 h2 h3)
    unfold SSrc.valid
    rw [hnum]
    constructor
    · rintro ⟨_, he, h⟩; cases he; exact h
    · exact fun h => ⟨_, rfl, h⟩
  have hsel : ∀ (axis : ℕ) (f : ℕ → ℕ → ℕ → ℝ), (∀ iz iy ix, (match (if axis = 0 then q.z else q.xy).res with
        | .fin s => some (fftfreq (if axis = 0 then q.z else q.xy).size s ([iz, iy, ix].getD axis 0))
        | _ => none) = some (f iz iy ix)) →
      (⟨q.xy, q.z, q⟩ : SSel).values axis = capList ((i / w : ℚ) : ℝ) ((n / w : ℚ) : ℝ) z r nz N dual f := by
    intro axis f hf
    unfold SSel.values capList
    refine List.flatMap_congr fun iz h1 => List.flatMap_congr fun iy h2 => List.filterMap_congr fun ix h3 => ?_
    have hv := hval iz (List.mem_range.mp h1) iy (List.mem_range.mp h2) ix (List.mem_range.mp h3)
    by_cases hc : q.valid iz iy ix
    · rw [if_pos hc, if_pos (hv.mp hc)]
      exact hf iz iy ix
    · rw [if_neg hc, if_neg (fun h => hc (hv.mpr h))]
  have pick : ∀ {f : Option SSel}, (∃ q', srcAt p = .ok q' ∧ f = some ⟨q'.xy, q'.z, q'⟩) → f = some ⟨q.xy, q.z, q⟩ := by
    rintro f ⟨q', h1, h2⟩
    rw [hq] at h1; cases h1; exact h2
  refine ⟨?_, ?_, ?_, ⟨q, hv, rfl, rfl, hval⟩, ⟨_, pick (h .kzz), hsel 0 _ fun _ _ _ => rfl⟩,
    ⟨_, pick (h .kyy), hsel 1 _ fun _ _ _ => rfl⟩, ⟨_, pick (h .kxx), hsel 2 _ fun _ _ _ => rfl⟩⟩
  · obtain ⟨m, h1, h2⟩ := h .kmag
    rw [e3] at h1; cases h1; exact h2
  · obtain ⟨g, h1, h2⟩ := h .dk
    rw [e1] at h1; cases h1
    exact ⟨_, h2, spacing_eq N r hN⟩
  · obtain ⟨g, h1, h2⟩ := h .dkz
    rw [e2] at h1; cases h1
    exact ⟨_, h2, spacing_eq nz z hnz⟩

/-! ## C137 -/

/-- C137: keeping the saved attributes changes no answer: every history of assignments and reads on a constructed object returns
and raises what it does on the object without them (and hence, C32, what the parameters say). -/
theorem C137_history (I : SImpl) (a : InitArgs) (dual : PyVal) (o : SObj) (ho : SObj.new a dual = .ok o) (ops : List SOp) :
    (runHistory (SCell.step I) ⟨o, {}⟩ ops).1 = (runHistory SObj.step o ops).1 ∧
    (runHistory (SCell.step I) ⟨o, {}⟩ ops).2.obj.params = (runHistory SObj.step o ops).2.params := by
  obtain ⟨h1, h2⟩ := cell_run I (cell_new ho) ops
  obtain ⟨h3, h4⟩ := SObj.run_rel (cell_new ho).1 ops
  exact ⟨h1.trans h3.symm, h2.1.params.trans h4.params.symm⟩

/-- C137: after any history, whenever an output is read successfully - computed or taken from the cache - `kmag`, `dk`, `dkz`,
`valid_points`, `kzz`, `kyy` and `kxx` are those of the current parameters. -/
theorem C137_saved (I : SImpl) (a : InitArgs) (dual : PyVal) (o : SObj) (ho : SObj.new a dual = .ok o) (ops : List SOp) (r : ROp)
    (c c' : SCell) (hc : c = (runHistory (SCell.step I) ⟨o, {}⟩ ops).2) (out : Out (Arr (Option ℂ)) (Arr (Option ℝ)))
    (hread : SCell.step I c r.toSOp = (.ok out, c'))
    {w n i re z : ℚ} {N nz : ℕ} {v : VecCorr} {cd : Condition} {d : Bool}
    (hopt : SOptics c.obj.params w n i re z N nz v cd d) (hN : 3 ≤ N) (hnz : 3 ≤ nz) (hr : 0 < re) :
    c'.obj.params = c.obj.params ∧ SavedAs c'.scr w n i re z N nz d := by
  obtain ⟨-, h2⟩ := cell_run I (cell_new ho) ops
  rw [← hc] at h2
  have hp := h2.1.params
  obtain ⟨h3, h4, h5⟩ := cell_read I h2 r
  rw [hread] at h4 h5
  rw [hp] at hopt
  exact ⟨h4.1.params.trans hp.symm, (h5 ⟨out, rfl⟩).saved hopt hN hnz hr⟩

/-- C137: an assignment - accepted or rejected - changes none of the saved attributes: between an assignment and the next
read they are those of the old parameters. -/
theorem C137_not_updated (I : SImpl) (c : SCell) (a : Attr) (v : PyVal) : (SCell.step I c (.set a v)).2.scr = c.scr := rfl

/-- C137: the same among threads.  Objects with any history behind them are read by any number of threads; from the moment a thread
has successfully read an output of an object, at every later moment of every schedule, the attributes saved on that object are
those of its parameters - although other threads keep recomputing them. -/
theorem C137_saved_threads (I : SImpl) (heap : SDicts)
    (hh : ∀ i, ∃ a dual o ops, SObj.new a dual = .ok o ∧ heap i = (runHistory (SCell.step I) ⟨o, {}⟩ ops).2)
    (threads : List (List (ℕ × ROp))) (sched : List ℕ) (j : ℕ) (qs : List (ℕ × ROp)) rs
    (hq : threads[j]? = some qs) (hr : ((Conf.start heap (threads.map (sThreadT I))).run sched).thread[j]? = some (.ret rs))
    (x : ℕ) (op : ROp) (hx : (x, op) ∈ qs) (hok : ∃ out, (SObj.step (heap x).obj op.toSOp).1 = .ok out)
    {w n i re z : ℚ} {N nz : ℕ} {v : VecCorr} {cd : Condition} {d : Bool}
    (hopt : SOptics (heap x).obj.params w n i re z N nz v cd d) (hN : 3 ≤ N) (hnz : 3 ≤ nz) (hre : 0 < re) :
    SavedAs (((Conf.start heap (threads.map (sThreadT I))).run sched).heap x).scr w n i re z N nz d := by
  set spec : ℕ → Params := fun i => (heap i).obj.params with hspec
  have hrel : ∀ i, CellRel (heap i) (spec i) := by
    intro i
    obtain ⟨a, dual, o, ops, h1, h2⟩ := hh i
    have := (cell_run I (cell_new h1) ops).2
    rw [← h2] at this
    rw [hspec]; dsimp only
    rw [this.1.params]; exact this
  have hI : SInv spec (fun _ => True) heap := fun i => ⟨(hrel i).1, fun _ => (hrel i).2⟩
  have hsafe : (Conf.start heap (threads.map (sThreadT I))).AllSafeAt (SInv spec fun _ => True) (sLe spec)
      (fun j s _ => ∀ qs, threads[j]? = some qs → ∀ q ∈ qs, (∃ a, (SSpec.step (spec q.1) q.2.toSOp).1 = .ok a) →
        AllGood (spec q.1) (s q.1)) := by
    refine ⟨hI, fun j p hj => ?_⟩
    simp only [Conf.start, List.getElem?_map] at hj
    rcases hq : threads[j]? with _ | qs
    · rw [hq] at hj; cases hj
    · rw [hq] at hj
      cases hj
      refine (ssafe_thread I qs hI).imp ?_
      rintro s rs ⟨rfl, h⟩ qs' h' q hq' ha
      rw [hq] at h'; cases h'
      exact h q hq' ha trivial
  obtain ⟨h1, h2⟩ := hsafe.run (sLe_trans spec) (sLe_refl spec) sched
  refine (h2 j _ hr _ (sLe_refl spec _) h1 qs hq (x, op) hx ?_).saved hopt hN hnz hre
  obtain ⟨out, ho⟩ := hok
  exact ⟨out, by rw [← ho]; exact (SObj.step_rel (hrel x).1 op.toSOp).1.symm⟩

end PyOTF
