import Verif.Props.C57_Pinhole

/-!
# C58: the confocal microscope
-/

namespace PyOTF

/-! ## Specification -/

/-- Pixel `(y, x)` of plane `z` of a stack of images, 0 outside the image. -/
def pixelOr0 (d : Arr ℝ) (ny nx z : ℕ) (y x : ℤ) : ℝ :=
  if 0 ≤ y ∧ y < ny ∧ 0 ≤ x ∧ x < nx then d.get [z, y.toNat, x.toNat] else 0

/-- Average of plane `z` over the points of a pinhole of radius `R` pixels centred on `(y, x)`. -/
noncomputable def throughPinhole (R : ℝ) (d : Arr ℝ) (ny nx z y x : ℕ) : ℝ :=
  (∑ p ∈ disk R, pixelOr0 d ny nx z (y + p.1) (x + p.2)) / (disk R).card

/-! ## Proofs -/

theorem convSame_disk {R : ℝ} (hR : 0 < R) (d : Arr ℝ) (nz ny nx : ℕ) (hd : d.shape = [nz, ny, nx]) (z y x : ℕ) :
    (convSame d (diskKernel R)).get [z, y, x] = throughPinhole R d ny nx z y x := by
  have h := sum_kernel hR fun a b => pixelOr0 d ny nx z (y + a) (x + b)
  rw [throughPinhole, ← h, Finset.sum_div]
  show (∑ i ∈ Finset.range (kernelSize R), _) = _
  refine Finset.sum_congr rfl fun i _ => ?_
  rw [Finset.sum_div]
  show (∑ j ∈ Finset.range (kernelSize R), _) = _
  refine Finset.sum_congr rfl fun j _ => ?_
  rw [mul_div_right_comm]
  congr 1
  · show (diskMask R).get [i, j] / (diskMask R).sum = _
    rw [diskMask_sum hR]
  · show zeroExt d z ((y : ℤ) + ((kernelSize R - 1) / 2 : ℕ) - i) ((x : ℤ) + ((kernelSize R - 1) / 2 : ℕ) - j) = _
    simp only [zeroExt, pixelOr0, hd, List.getD_cons_succ, List.getD_cons_zero, add_sub_assoc]

theorem bdim_self (n : ℕ) : bdim n n = .ok n := by simp [bdim]

theorem mulB_same (a b : Arr ℝ) (A B C : ℕ) (ha : a.shape = [A, B, C]) (hb : b.shape = [A, B, C]) :
    ∃ c, a.mulB b = .ok c ∧ c.shape = [A, B, C] ∧
      ∀ z < A, ∀ y < B, ∀ x < C, c.get [z, y, x] = a.get [z, y, x] * b.get [z, y, x] := by
  have key : ∀ a : Arr ℝ, a.shape = [A, B, C] → ∃ a', broadcastTo [A, B, C] a = .ok a' ∧
      ∀ z < A, ∀ y < B, ∀ x < C, a'.get [z, y, x] = a.get [z, y, x] := by
    intro a ha
    refine ⟨_, by simp [broadcastTo, ha]; rfl, ?_⟩
    intro z hz y hy x hx
    simp only [List.zipWith_cons_cons, List.zipWith_nil_right]
    congr 2
    · split <;> omega
    · congr 1
      · split <;> omega
      · congr 1; split <;> omega
  obtain ⟨a', h1, h2⟩ := key a ha
  obtain ⟨b', h3, h4⟩ := key b hb
  have hs : bshape a.shape b.shape = .ok [A, B, C] := by
    simp [bshape, ha, hb, bshapeRev, bdim_self, bind, Except.bind, pure, Except.pure]
  refine ⟨⟨[A, B, C], fun i => a'.get i * b'.get i⟩, ?_, rfl, fun z hz y hy x hx => ?_⟩
  · simp only [Arr.mulB, hs, bind, Except.bind, h1, h3, pure, Except.pure]
  · show a'.get _ * b'.get _ = _
    rw [h2 z hz y hy x hx, h4 z hz y hy x hx]

/-- The value of a numeric attribute of a PSF model. -/
def HasValue (o : Option PyVal) (q : ℚ) : Prop := ∃ v, o = some v ∧ Denotes v q

theorem pinholeRadius_fin {p : Params} {w n r q : ℚ} {ph : PyVal} (hw : HasValue p.wl w) (hn : HasValue p.na n)
    (hr : HasValue p.res r) (hq : Denotes ph q) (hn0 : n ≠ 0) (hr0 : r ≠ 0) :
    pinholeRadius p ph = .ok (.fin (q * (61 / 50 * w / n / r) / 2)) := by
  obtain ⟨vw, h1, h2⟩ := hw
  obtain ⟨vn, h3, h4⟩ := hn
  obtain ⟨vr, h5, h6⟩ := hr
  unfold Denotes at h2 h4 h6 hq
  simp only [pinholeRadius, h1, h3, h5, attr, bind, Except.bind, pyNum_of_num h2, pyNum_of_num h4, pyNum_of_num h6,
    pyNum_of_num hq, PyFloat.mul, PyFloat.div, hn0, hr0, if_false]
  norm_num

theorem modelPsf_confocal (m : Micro) (e : Inner) (ph : PyVal) (w : Option PyVal) (hk : m.kind = .confocal e ph w) :
    (Micro.modelPsf m).1 = (do
      let r ← pinholeRadius m.model.params ph
      let d ← (Inner.getPSFi m.model).1
      let det ← pinholed r d
      let x ← (Inner.getPSFi e).1
      det.mulB x) := by
  have e0 : Micro.modelPsf m = ((do
    let r ← PyM.lift (pinholeRadius m.model.params ph)
    let psfi ← Micro.onModel Inner.getPSFi
    let det ← PyM.lift (pinholed r psfi)
    let exc ← Micro.onExc Inner.getPSFi
    PyM.lift (det.mulB exc) : PyM Micro (Arr ℝ))) m := by
    unfold Micro.modelPsf
    simp only [PyM.bind_apply, PyM.get_apply, hk]
  rw [e0]
  simp only [PyM.bind_apply, PyM.lift_apply]
  rcases pinholeRadius m.model.params ph with er | r
  · rfl
  · simp only [Micro.onModel]
    rcases hd : (Inner.getPSFi m.model).1 with er | d
    · rfl
    · simp only []
      rcases hp : pinholed r d with er | det
      · simp only [bind, Except.bind, hp]
      · simp only [Micro.onExc, hk, bind, Except.bind, hp]
        rcases hx : (Inner.getPSFi e).1 with er | x
        · rfl
        · rfl

/-- C58: the confocal PSF at full resolution.  With the detection PSF `d`, the excitation PSF `x` and the pinhole radius
`R = pinhole_size · 1.22 wl / (na res) / 2` in pixels, every voxel is the excitation intensity times the detection PSF seen
through the pinhole - averaged over the disk of radius `R` around the pixel - if `R > 1.5`, else times the plain detection PSF. -/
theorem C58_confocal (m : Micro) (e : Inner) (ph : PyVal) (we : Option PyVal) (hk : m.kind = .confocal e ph we)
    (d x : Arr ℝ) (hd : (Inner.getPSFi m.model).1 = .ok d) (hx : (Inner.getPSFi e).1 = .ok x) (nz ny nx : ℕ)
    (hds : d.shape = [nz, ny, nx]) (hxs : x.shape = [nz, ny, nx]) (w n r q R : ℚ) (hw : HasValue m.model.params.wl w)
    (hn : HasValue m.model.params.na n) (hr : HasValue m.model.params.res r) (hq : Denotes ph q) (hn0 : n ≠ 0) (hr0 : r ≠ 0)
    (hR : R = q * (61 / 50 * w / n / r) / 2) :
    ∃ c, (Micro.modelPsf m).1 = .ok c ∧ c.shape = [nz, ny, nx] ∧ ∀ iz < nz, ∀ iy < ny, ∀ ix < nx,
      c.get [iz, iy, ix] = x.get [iz, iy, ix] *
        (if 3 / 2 < R then throughPinhole R d ny nx iz iy ix else d.get [iz, iy, ix]) := by
  have hrun := modelPsf_confocal m e ph we hk
  rw [pinholeRadius_fin hw hn hr hq hn0 hr0, hd, hx, ← hR] at hrun
  simp only [bind, Except.bind] at hrun
  by_cases h : 3 / 2 < R
  · have hR0 : (0 : ℝ) < R := by exact_mod_cast lt_trans (by norm_num) h
    have e1 : pinholed (.fin R) d = .ok (convSame d (diskKernel R)) := by
      unfold pinholed; rw [if_pos ((lt_fin _ _).mpr h)]
    rw [e1] at hrun
    obtain ⟨c, h1, h2, h3⟩ := mulB_same (convSame d (diskKernel R)) x nz ny nx hds hxs
    refine ⟨c, hrun.trans h1, h2, fun iz hz iy hy ix hx => ?_⟩
    rw [h3 iz hz iy hy ix hx, if_pos h, convSame_disk hR0 d nz ny nx hds, mul_comm]
  · have e1 : pinholed (.fin R) d = .ok d := by
      unfold pinholed; rw [if_neg (fun h' => h ((lt_fin _ _).mp h'))]
    rw [e1] at hrun
    obtain ⟨c, h1, h2, h3⟩ := mulB_same d x nz ny nx hds hxs
    refine ⟨c, hrun.trans h1, h2, fun iz hz iy hy ix hx => ?_⟩
    rw [h3 iz hz iy hy ix hx, if_neg h, mul_comm]

/-! ## The constructor -/

/-- C58: a new confocal microscope is a widefield microscope with a pinhole and a second model for the excitation, which has
all parameters of the detection model except that its wavelength is the number `wl_exc`; it shares nothing with the detection
model (later changes of one do not reach the other), and no array has been computed yet. -/
theorem C58_constructed (a : MicroArgs) (wlExc pinhole : PyVal) (m : Micro) (hm : Micro.newConfocal a wlExc pinhole = .ok m) :
    ∃ m' e ph, Micro.newWidefield a = .ok m' ∧ m.model = m'.model ∧ m.psfParams = m'.psfParams ∧
      m.kind = .confocal e ph none ∧ ph = pinhole ∧
      (∃ v, e.params = { m.model.params with wl := some v } ∧ (v = wlExc ∨
        (m.model.params.wl = some v ∧ v.ne wlExc = false))) ∧
      (∀ op, (m.ustep (.model op)).2.kind = m.kind) ∧ (∀ op, (m.ustep (.excModel op)).2.model = m.model) := by
  unfold Micro.newConfocal at hm
  obtain ⟨m', h', hm⟩ := py_bind_ok hm
  obtain ⟨p, hp, hm⟩ := py_bind_ok hm
  have hph : p.getD pinhole = pinhole := by
    cases p with
    | none => rfl
    | some w => exact (numericSet_some hp).1
  rcases hs : Inner.set .wl wlExc m'.model with ⟨e | u, exc⟩
  · rw [hs] at hm; cases hm
  · rw [hs] at hm; cases hm
    refine ⟨m', exc, _, h', rfl, rfl, rfl, hph, ?_, fun _ => rfl, fun _ => rfl⟩
    show ∃ v, exc.params = { m'.model.params with wl := some v } ∧ _
    have key : ∀ {A I : Type} (o : Obj A I), (∃ w, o.params.wl = some w) → (setWl wlExc o).1 = .ok () →
        ∃ v, (setWl wlExc o).2.params = { o.params with wl := some v } ∧ (v = wlExc ∨
        (o.params.wl = some v ∧ v.ne wlExc = false)) := by
      intro A I o ho h
      rw [setWl, setNumeric_run] at h ⊢
      rcases hn : numericSet PyVal.isFloatOrInt o.params.wl wlExc with er | _ | w
      · rw [hn] at h; cases h
      · obtain ⟨v, hv⟩ := ho
        refine ⟨v, ?_, Or.inr ⟨hv, ?_⟩⟩
        · simp only []
          rw [← hv]
        · have := (numericSet_none hn).2
          rwa [hv] at this
      · exact ⟨w, rfl, Or.inl (numericSet_some hn).1⟩
    have hrel := (newWidefield_rel h').1
    cases hmod : m'.model with
    | hanser o =>
      rw [hmod] at hs hrel
      have hs' : ((setWl wlExc o).1, Inner.hanser (setWl wlExc o).2) = (.ok u, exc) := hs
      have e1 : (setWl wlExc o).1 = .ok u := congrArg Prod.fst hs'
      have e2 : Inner.hanser (setWl wlExc o).2 = exc := congrArg Prod.snd hs'
      rw [← e2]
      have hr : HRel o ⟨o.params, none⟩ := hrel
      obtain ⟨w, x, k1, k2⟩ := hr.ready.wl
      exact key o ⟨w, k1⟩ e1
    | sheppard o =>
      rw [hmod] at hs hrel
      have hs' : ((setWl wlExc o).1, Inner.sheppard (setWl wlExc o).2) = (.ok u, exc) := hs
      have e1 : (setWl wlExc o).1 = .ok u := congrArg Prod.fst hs'
      have e2 : Inner.sheppard (setWl wlExc o).2 = exc := congrArg Prod.snd hs'
      rw [← e2]
      have hr : SRel o o.params := hrel
      obtain ⟨w, x, k1, k2⟩ := hr.ready.wl
      exact key o ⟨w, k1⟩ e1

/-! ## `wl_exc` -/

theorem runHistory_append {σ Op R : Type} (step : σ → Op → R × σ) (s : σ) (a b : List Op) :
    (runHistory step s (a ++ b)).2 = (runHistory step (runHistory step s a).2 b).2 := by
  induction a generalizing s with
  | nil => rfl
  | cons op a ih => exact ih (step s op).2

/-- A configuration of a confocal microscope. -/
def IsConfocal {I : Type} : Kind I → Prop
  | .confocal _ _ _ => True
  | _ => False

theorem isConfocal_write {I : Type} {k : Kind I} (h : IsConfocal k) (a : Micro.MAttr) (v o : PyVal) :
    IsConfocal (Micro.writeAttr a v o k).2 := by
  cases k <;> simp only [IsConfocal] at h
  cases a <;> trivial

theorem isConfocal_step {s : MSpec} (h : IsConfocal s.kind) (op : UOp) : IsConfocal (s.ustep op).2.kind := by
  cases op with
  | p op =>
    cases op with
    | set a v =>
      show IsConfocal (s.set a v).2.kind
      unfold MSpec.set
      cases Micro.readAttr a s.oversample s.kind with
      | none => exact h
      | some old =>
        simp only []
        rcases numericSet (Micro.vartype a) old v with e | _ | w
        · exact h
        · exact h
        · exact isConfocal_write h _ _ _
    | _ => exact h
  | wiener w => cases hk : s.kind <;> simp_all [IsConfocal, MSpec.ustep, Micro.withWiener]
  | orientations o => cases hk : s.kind <;> simp_all [IsConfocal, MSpec.ustep, Micro.withOrientations]
  | model op => exact h
  | excModel op => cases hk : s.kind <;> simp_all [IsConfocal, MSpec.ustep, Kind.mapExc]

theorem isConfocal_run {s : MSpec} (h : IsConfocal s.kind) (ops : List UOp) : IsConfocal (runHistory MSpec.ustep s ops).2.kind := by
  induction ops generalizing s with
  | nil => exact h
  | cons op ops ih => exact ih (isConfocal_step h op)

/-- After any history a confocal microscope is still one. -/
theorem confocal_run {a : MicroArgs} {wlExc pinhole : PyVal} {m₀ : Micro} (h : Micro.newConfocal a wlExc pinhole = .ok m₀)
    (ops : List UOp) : ∃ e ph w, (runHistory Micro.ustep m₀ ops).2.kind = .confocal e ph w := by
  obtain ⟨m', e, ph, -, -, -, hk, -⟩ := C58_constructed a wlExc pinhole m₀ h
  have hc : Constructed m₀ := Or.inr (Or.inr (Or.inl ⟨_, _, _, h⟩))
  have hl := (urun_live (constructed_live hc) ops).kind
  have h1 : IsConfocal (runHistory MSpec.ustep m₀.spec ops).2.kind := by
    refine isConfocal_run ?_ ops
    simp only [Micro.spec, hk, IsConfocal]
  cases hs : (runHistory MSpec.ustep m₀.spec ops).2.kind <;> rw [hs] at h1 hl <;> simp only [IsConfocal] at h1
  cases hm : (runHistory Micro.ustep m₀ ops).2.kind <;> rw [hm] at hl <;> simp only [KRel] at hl
  exact ⟨_, _, _, rfl⟩

/-- C58: after any history, assigning the property `wl_exc` of a confocal microscope does not change its PSF: the excitation
wavelength is the one given to the constructor. -/
theorem C58_wl_exc_ignored (a : MicroArgs) (wlExc pinhole : PyVal) (m₀ : Micro)
    (h₀ : Micro.newConfocal a wlExc pinhole = .ok m₀) (ops : List UOp) (m : Micro) (hm : m = (runHistory Micro.ustep m₀ ops).2)
    (v : PyVal) : (Micro.modelPsf (Micro.set .wlExc v m).2).1 = (Micro.modelPsf m).1 ∧
      (runHistory MSpec.ustep m₀.spec (ops ++ [.p (.set .wlExc v)])).2.PSF = (runHistory MSpec.ustep m₀.spec ops).2.PSF := by
  obtain ⟨e, ph, w, hk⟩ := confocal_run h₀ ops
  rw [← hm] at hk
  constructor
  · have hset : ∃ w', (Micro.set .wlExc v m).2.kind = .confocal e ph w' ∧ (Micro.set .wlExc v m).2.model = m.model := by
      rw [set_run]
      simp only [Micro.read, Micro.readAttr, hk]
      rcases numericSet (Micro.vartype .wlExc) w v with er | _ | u
      · exact ⟨w, hk, rfl⟩
      · exact ⟨w, hk, rfl⟩
      · refine ⟨some u, ?_, rfl⟩
        simp only [Micro.write, hk, Micro.writeAttr]
    obtain ⟨w', h1, h2⟩ := hset
    rw [modelPsf_confocal _ e ph w' h1, modelPsf_confocal m e ph w hk, h2]
  · have hc : Constructed m₀ := Or.inr (Or.inr (Or.inl ⟨_, _, _, h₀⟩))
    have hl := (urun_live (constructed_live hc) ops).kind
    rw [← hm, hk] at hl
    rw [runHistory_append]
    show (MSpec.set .wlExc v (runHistory MSpec.ustep m₀.spec ops).2).2.PSF = _
    generalize (runHistory MSpec.ustep m₀.spec ops).2 = s at *
    cases hs : s.kind <;> rw [hs] at hl <;> simp only [KRel] at hl
    rename_i e' ph' w'
    unfold MSpec.set
    simp only [Micro.readAttr, hs]
    rcases numericSet (Micro.vartype .wlExc) w' v with er | _ | u
    · rfl
    · rfl
    · simp only [MSpec.PSF, MSpec.modelPsf, hs, Micro.writeAttr]

/-- C58: reading `wl_exc` of a confocal microscope raises `AttributeError` as long as nobody has assigned it. -/
theorem C58_wl_exc_unset (a : MicroArgs) (wlExc pinhole : PyVal) (m₀ : Micro)
    (h₀ : Micro.newConfocal a wlExc pinhole = .ok m₀) (ops : List UOp) (hops : ∀ v, UOp.p (.set .wlExc v) ∉ ops) :
    Micro.get .wlExc (runHistory Micro.ustep m₀ ops).2 = .error .attributeError := by
  obtain ⟨m', e, ph, -, -, -, hk, -⟩ := C58_constructed a wlExc pinhole m₀ h₀
  have hc : Constructed m₀ := Or.inr (Or.inr (Or.inl ⟨_, _, _, h₀⟩))
  have hl := (urun_live (constructed_live hc) ops).kind
  have key : ∀ (ops : List UOp) (s : MSpec), (∀ v, UOp.p (.set .wlExc v) ∉ ops) → (∃ e ph, s.kind = .confocal e ph none) →
      ∃ e ph, (runHistory MSpec.ustep s ops).2.kind = .confocal e ph none := by
    intro ops
    induction ops with
    | nil => intro s _ h; exact h
    | cons op ops ih =>
      intro s ho h
      refine ih _ (fun v hv => ho v (List.mem_cons_of_mem _ hv)) ?_
      obtain ⟨e, ph, hk⟩ := h
      cases op with
      | p op =>
        cases op with
        | set b v =>
          show ∃ e ph, (s.set b v).2.kind = _
          unfold MSpec.set
          cases b with
          | wlExc => exact absurd (List.mem_cons_self) (ho v)
          | oversample =>
            simp only [Micro.readAttr]
            rcases numericSet (Micro.vartype .oversample) (some s.oversample) v with er | _ | u
            · exact ⟨e, ph, hk⟩
            · exact ⟨e, ph, hk⟩
            · exact ⟨e, ph, hk⟩
          | pinhole =>
            simp only [Micro.readAttr, hk]
            rcases numericSet (Micro.vartype .pinhole) (some ph) v with er | _ | u
            · exact ⟨e, ph, hk⟩
            · exact ⟨e, ph, hk⟩
            · exact ⟨e, u, rfl⟩
          | _ => simp only [Micro.readAttr, hk]; exact ⟨e, ph, rfl⟩
        | _ => exact ⟨e, ph, hk⟩
      | wiener w => exact ⟨e, ph, by simp [hk, Micro.withWiener]⟩
      | orientations o => exact ⟨e, ph, by simp [hk, Micro.withOrientations]⟩
      | model op => exact ⟨e, ph, hk⟩
      | excModel op => exact ⟨e.after op, ph, by simp [hk, Kind.mapExc]⟩
  obtain ⟨e', ph', h'⟩ := key ops m₀.spec hops ⟨e.spec, ph, by simp only [Micro.spec, hk]⟩
  rw [h'] at hl
  cases hm : (runHistory Micro.ustep m₀ ops).2.kind <;> rw [hm] at hl <;> simp only [KRel] at hl
  simp only [Micro.get, Micro.read, hm, Micro.readAttr, hl.2.2]
  rfl

/-! ## Non-negative PSFs -/

/-- No negative element. -/
def NonnegArr (a : Arr ℝ) : Prop := ∀ i, 0 ≤ a.get i

theorem nonneg_sumAxis {a : Arr ℝ} (h : NonnegArr a) (ax : ℕ) : NonnegArr (a.sumAxis ax) := fun i => by
  simp only [Arr.sumAxis]
  exact Finset.sum_nonneg fun _ _ => h _

theorem nonneg_psfi {i : Inner} {s : ISpec} (h : IRel i s) {b : Arr ℝ} (hb : s.PSFi = .ok b) : NonnegArr b := by
  cases s with
  | hanser s =>
    obtain ⟨a, -, rfl⟩ := PSFi_ok (show s.PSFi = .ok b from hb)
    exact nonneg_sumAxis (fun i => by simp only [Arr.map]; positivity) 0
  | sheppard p =>
    obtain ⟨c, hc, hb⟩ := py_bind_ok (show (SSpec.PSFi p).bind nanFree = .ok b from hb)
    unfold SSpec.PSFi at hc
    cases ha : SSpec.PSFa p with
    | error e => rw [ha] at hc; cases hc
    | ok a =>
      rw [ha] at hc
      cases hc
      unfold nanFree at hb
      split_ifs at hb
      cases hb
      intro i
      simp only [Arr.map, sheppardPSFi, nanSum]
      split_ifs
      · simp
      · simp only [Option.getD_some]
        refine Finset.sum_nonneg fun c _ => ?_
        cases a.get (c :: i) with
        | none => simp
        | some v => simp only [Option.map_some, Option.getD_some]; positivity

theorem nonneg_zeroExt {a : Arr ℝ} (ha : NonnegArr a) (z : ℕ) (y x : ℤ) : 0 ≤ zeroExt a z y x := by
  unfold zeroExt; split
  · exact ha _
  · exact le_rfl

theorem nonneg_convSame {a k : Arr ℝ} (ha : NonnegArr a) (hk : NonnegArr k) : NonnegArr (convSame a k) := fun i => by
  simp only [convSame]
  exact Finset.sum_nonneg fun _ _ => Finset.sum_nonneg fun _ _ => mul_nonneg (hk _) (nonneg_zeroExt ha _ _ _)

theorem nonneg_diskKernel (r : ℝ) : NonnegArr (diskKernel r) := by
  have h : NonnegArr (diskMask r) := fun i => by
    simp only [diskMask]; split <;> norm_num
  exact fun i => div_nonneg (h i) (sumIdx_nonneg fun i _ => h i)

theorem nonneg_broadcast {a b : Arr ℝ} {s : List ℕ} (ha : NonnegArr a) (h : broadcastTo s a = .ok b) : NonnegArr b := by
  unfold broadcastTo at h
  simp only [] at h
  split_ifs at h
  cases h
  exact fun i => ha _

theorem nonneg_mulB {a b c : Arr ℝ} (ha : NonnegArr a) (hb : NonnegArr b) (h : a.mulB b = .ok c) : NonnegArr c := by
  unfold Arr.mulB at h
  obtain ⟨s, -, h⟩ := py_bind_ok h
  obtain ⟨a', h1, h⟩ := py_bind_ok h
  obtain ⟨b', h2, h⟩ := py_bind_ok h
  cases h
  exact fun i => mul_nonneg (nonneg_broadcast ha h1 i) (nonneg_broadcast hb h2 i)

theorem nonneg_roll {a : Arr ℝ} (ha : NonnegArr a) (s : ℤ) (ax : ℕ) : NonnegArr (a.roll s ax) := fun _ => ha _

theorem nonneg_binReduce {a : Arr ℝ} (ha : NonnegArr a) (i : ℕ) (b : Bool) : NonnegArr (binReduce b i a) := by
  unfold binReduce
  simp only []
  split
  · exact fun i => div_nonneg (nonneg_sumAxis ha _ i) (Nat.cast_nonneg _)
  · exact nonneg_sumAxis ha _

theorem nonneg_binNdarray {a b : Arr ℝ} {bs : BinSize} {op : String} (ha : NonnegArr a)
    (h : binNdarray a none (some bs) op = .ok b) : NonnegArr b := by
  have fold : ∀ (l : List ℕ) (q : Bool) (c : Arr ℝ), NonnegArr c → NonnegArr (l.foldl (fun a i => binReduce q i a) c) := by
    intro l q
    induction l with
    | nil => exact fun c hc => hc
    | cons i l ih => exact fun c hc => ih _ (nonneg_binReduce hc i q)
  unfold binNdarray at h
  obtain ⟨⟨c, s⟩, h1, h⟩ := py_bind_ok h
  have hc : NonnegArr c := by
    obtain ⟨bs', -, h1⟩ := py_bind_ok h1
    cases h1
    exact fun i => ha _
  simp only [bind, Except.bind, pure, Except.pure, throw, throwThe, MonadExceptOf.throw] at h
  split_ifs at h
  cases h
  exact fold _ _ _ fun i => hc _

theorem nonneg_binned {o : ℤ} {size : ℕ} {a b : Arr ℝ} (ha : NonnegArr a) (h : binned o size a = .ok b) : NonnegArr b := by
  unfold binned at h
  by_cases h1 : 1 < o
  · rw [if_pos h1] at h
    refine nonneg_binNdarray ?_ h
    by_cases h2 : size % 2 = 0
    · simp only [h2, if_true]; exact nonneg_roll (nonneg_roll ha _ _) _ _
    · simp only [h2, if_false]; exact ha
  · rw [if_neg h1] at h; cases h; exact ha

theorem nonneg_microPsf {o : ℤ} {size : ℕ} {a b : Arr ℝ} (ha : NonnegArr a) (h : microPsf o size a = .ok b) : NonnegArr b := by
  obtain ⟨c, h1, h2⟩ := py_bind_ok (show (binned o size a).bind normalised = .ok b from h)
  have hc := nonneg_binned ha h1
  unfold normalised at h2
  split_ifs at h2
  cases h2
  exact fun i => div_nonneg (hc i) (sumIdx_nonneg fun i _ => hc i)

theorem profile_nonneg (mx : ℂ) (k : ℤ) : ∀ (rows : List (List ℂ)) (p : List ℝ),
    rows.mapM (fun row => (pyIndex row (k / 2)).map fun v => ‖v / mx‖) = .ok p → ∀ v ∈ p, 0 ≤ v := by
  intro rows
  induction rows with
  | nil => intro p hp; cases hp; simp
  | cons r rows ih =>
    intro p hp
    rw [List.mapM_cons] at hp
    obtain ⟨x, hx, hp⟩ := py_bind_ok hp
    obtain ⟨xs, hxs, hp⟩ := py_bind_ok hp
    cases hp
    intro u hu
    rcases List.mem_cons.mp hu with rfl | hu
    · cases hi : pyIndex r (k / 2) with
      | error e => rw [hi] at hx; cases hx
      | ok w => rw [hi] at hx; cases hx; exact norm_nonneg _
    · exact ih _ hxs u hu

theorem nonneg_apotome {a b : Arr ℝ} {k : Py ℤ} (ha : NonnegArr a) (h : apotomePsf a k = .ok b) : NonnegArr b := by
  unfold apotomePsf at h
  obtain ⟨p, hp, h⟩ := py_bind_ok h
  have hpn : ∀ v ∈ p, 0 ≤ v := by
    clear h
    unfold apotomeProfile at hp
    simp only [] at hp
    obtain ⟨rows, -, hp⟩ := py_bind_ok hp
    cases hr : rows.flatten with
    | nil => rw [hr] at hp; cases hp
    | cons v vs =>
      rw [hr] at hp
      simp only [] at hp
      by_cases h0 : vs.foldl cmaxLex v = 0
      · rw [if_pos h0] at hp; cases hp
      · rw [if_neg h0] at hp
        obtain ⟨k, -, hp⟩ := py_bind_ok hp
        exact profile_nonneg _ _ _ _ hp
  cases h
  intro i
  refine mul_nonneg ?_ (ha i)
  rw [List.getD_eq_getElem?_getD]
  cases hg : p[i.getD 0 0]? with
  | none => simp
  | some v => exact hpn v (List.mem_of_getElem? hg)

/-- Not a SIM microscope. -/
def NotSIM {I : Type} : Kind I → Prop
  | .sim _ _ _ _ _ _ _ => False
  | _ => True

theorem nonneg_modelPsf {m : Micro} {s : MSpec} (h : MLive m s) (hk : NotSIM s.kind) {b : Arr ℝ}
    (hb : s.modelPsf = .ok b) : NonnegArr b := by
  unfold MSpec.modelPsf at hb
  have hkm := h.kind
  cases hs : s.kind with
  | widefield => rw [hs] at hb; exact nonneg_psfi h.model hb
  | apotome =>
    rw [hs] at hb
    obtain ⟨a, ha, hb⟩ := py_bind_ok hb
    exact nonneg_apotome (nonneg_psfi h.model ha) hb
  | confocal e ph w =>
    rw [hs] at hb hkm
    obtain ⟨r, -, hb⟩ := py_bind_ok hb
    obtain ⟨d, hd, hb⟩ := py_bind_ok hb
    obtain ⟨det, hdet, hb⟩ := py_bind_ok hb
    obtain ⟨x, hx, hb⟩ := py_bind_ok hb
    have hd' := nonneg_psfi h.model hd
    have hx' : NonnegArr x := by
      cases hmk : m.kind <;> rw [hmk] at hkm <;> simp only [KRel] at hkm
      exact nonneg_psfi hkm.1 hx
    refine nonneg_mulB ?_ hx' hb
    unfold pinholed at hdet
    split_ifs at hdet
    · cases r with
      | fin q => cases hdet; exact nonneg_convSame hd' (nonneg_diskKernel _)
      | _ => cases hdet
    · cases hdet; exact hd'
  | sim _ _ _ _ _ _ _ => rw [hs] at hk; exact hk.elim

theorem notSIM_step {s : MSpec} (h : NotSIM s.kind) (op : UOp) : NotSIM (s.ustep op).2.kind := by
  cases op with
  | p op =>
    cases op with
    | set a v =>
      show NotSIM (s.set a v).2.kind
      unfold MSpec.set
      cases Micro.readAttr a s.oversample s.kind with
      | none => exact h
      | some old =>
        simp only []
        rcases numericSet (Micro.vartype a) old v with e | _ | w
        · exact h
        · exact h
        · show NotSIM (Micro.writeAttr a w s.oversample s.kind).2
          cases hk : s.kind <;> rw [hk] at h <;> simp only [NotSIM] at h <;> cases a <;> trivial
    | _ => exact h
  | wiener w => cases hk : s.kind <;> simp_all [NotSIM, MSpec.ustep, Micro.withWiener]
  | orientations o => cases hk : s.kind <;> simp_all [NotSIM, MSpec.ustep, Micro.withOrientations]
  | model op => exact h
  | excModel op => cases hk : s.kind <;> simp_all [NotSIM, MSpec.ustep, Kind.mapExc]

/-- A live microscope whose cached PSF has no negative element. -/
def NonnegCache (m : Micro) : Prop := ∀ a, m.psf = some a → NonnegArr a

theorem nonneg_getPSF {m : Micro} {s : MSpec} (h : MLive m s) (hk : NotSIM s.kind) (hc : NonnegCache m) :
    NonnegCache (Micro.getPSF m).2 ∧ ∀ a, (Micro.getPSF m).1 = .ok a → NonnegArr a := by
  rw [getPSF_run]
  rcases hp : m.psf with _ | a
  · simp only []
    have hm := computes_modelPsf s m h
    have hkeep := keeps_modelPsf m
    rcases hr : Micro.modelPsf m with ⟨e | a, m'⟩
    · rw [hr] at hkeep
      simp only []
      exact ⟨fun a ha => hc a (by rw [← ha, ← hkeep.1]), fun a ha => by cases ha⟩
    · rw [hr] at hm hkeep
      have ha : NonnegArr a := nonneg_modelPsf h hk hm.1.symm
      simp only []
      rcases hmp : microPsf (pyInt m.oversample) (pyInt m.psfParams.size).toNat a with e | b
      · exact ⟨fun a ha => hc a (by rw [← ha, ← hkeep.1]), fun a ha => by cases ha⟩
      · have := nonneg_microPsf ha hmp
        exact ⟨fun c hc => by cases hc; exact this, fun c hc => by cases hc; exact this⟩
  · simp only []
    exact ⟨hc, fun b hb => by cases hb; exact hc _ hp⟩

theorem nonneg_step {m : Micro} {s : MSpec} (h : MLive m s) (hk : NotSIM s.kind) (hc : NonnegCache m) (op : UOp) :
    NonnegCache (m.ustep op).2 := by
  cases op with
  | p op =>
    cases op with
    | set a v =>
      show NonnegCache (Micro.set a v m).2
      rw [set_run]
      rcases m.read a with _ | old
      · exact hc
      · simp only []
        rcases numericSet (Micro.vartype a) old v with e | _ | w
        · exact hc
        · exact hc
        · intro a ha; cases ha
    | readPSF => exact (nonneg_getPSF h hk hc).1
    | readOTF =>
      show NonnegCache (Micro.getOTF m).2
      rw [getOTF_run]
      rcases m.otf with _ | t
      · simp only []
        have := (nonneg_getPSF h hk hc).1
        rcases hr : Micro.getPSF m with ⟨e | a, m'⟩ <;> rw [hr] at this <;> exact this
      · exact hc
    | readModelPsf =>
      intro a ha
      exact hc a (by rw [← ha]; exact (keeps_modelPsf m).1.symm)
  | _ => exact hc

/-- C58: intensities: after any history - also of mutations of the two PSF models - the PSF of a widefield, confocal or Apotome
microscope has no negative element. -/
theorem C58_nonneg (m₀ : Micro) (h₀ : Constructed m₀) (hk : NotSIM m₀.kind) (ops : List UOp) (p : Arr ℝ)
    (hp : (Micro.getPSF (runHistory Micro.ustep m₀ ops).2).1 = .ok p) : ∀ i, 0 ≤ p.get i := by
  have key : ∀ (ops : List UOp) (m : Micro) (s : MSpec), MLive m s → NotSIM s.kind → NonnegCache m →
      ∀ a, (Micro.getPSF (runHistory Micro.ustep m ops).2).1 = .ok a → NonnegArr a := by
    intro ops
    induction ops with
    | nil => intro m s h hk hc; exact (nonneg_getPSF h hk hc).2
    | cons op ops ih =>
      intro m s h hk hc
      exact ih _ _ (ustep_live h op) (notSIM_step hk op) (nonneg_step h hk hc op)
  refine key ops m₀ m₀.spec (constructed_live h₀) ?_ ?_ p hp
  · cases hm : m₀.kind <;> rw [hm] at hk <;> simp only [Micro.spec, hm, NotSIM]; exact hk
  · intro a ha; rw [(constructed_fresh h₀).1] at ha; cases ha

/-- Non-vacuity of C58: `ConfocalMicroscope(wl_exc=488, pinhole_size=1, ...)` with the parameters of `demoMicroArgs` has a
detection and an excitation PSF and a pinhole of more than 1.5 pixels, so its PSF is given by the pinhole formula. -/
example : ∃ m e d x c, Micro.newConfocal demoMicroArgs (.int 488) (.int 1) = .ok m ∧ m.kind = .confocal e (.int 1) none ∧
    (Inner.getPSFi m.model).1 = .ok d ∧ (Inner.getPSFi e).1 = .ok x ∧ (Micro.modelPsf m).1 = .ok c ∧
    c.get [32, 96, 96] = x.get [32, 96, 96] *
      throughPinhole ((1 * (61 / 50 * 520 / (17/20) / (130 / (3 : ℕ))) / 2 : ℚ) : ℝ) d 192 192 32 96 96 := by
  obtain ⟨h', v, cd, hnew, hh, hvz, hO⟩ := widefield_setup demoMicroArgs 3 64 64 rfl
    130 520 (17/20) 1 130 rfl rfl rfl rfl rfl rfl (by norm_num [demoMicroArgs, Denotes, PyVal.num?])
    (by norm_num) (by norm_num [demoMicroArgs, Denotes, PyVal.num?]) (by norm_num)
    (by norm_num [demoMicroArgs, Denotes, PyVal.num?]) (by norm_num) (by norm_num)
    (by norm_num [demoMicroArgs, Denotes, PyVal.num?]) (by norm_num) (Or.inl rfl)
    (by constructor <;> simp [demoMicroArgs, NotSpecial, PsfParams.initArgs]) (by simp [demoMicroArgs]) (by simp [demoMicroArgs])
  obtain ⟨r1, r2⟩ := hanser_ready hh
  have hwlv : h'.params.wl = some (.int 520) := by
    obtain ⟨l, x, z', vc, cd, a1, a2, a3, a4, a4', a4'', a5, a6, a6', a7, a8, a9, rfl⟩ := (hanser_new_iff _ none h').mp hh
    rfl
  have hn : numericSet PyVal.isFloatOrInt h'.params.wl (.int 488) = .ok (some (.int 488)) := by
    rw [hwlv]; rfl
  have hset : setAttr .hanser .wl (.int 488) h' = (.ok (), { params := { h'.params with wl := some (.int 488) } }) := by
    show setWl (.int 488) h' = _
    rw [setWl, setNumeric_run, hn]
  have hnewc : Micro.newConfocal demoMicroArgs (.int 488) (.int 1) = .ok (Micro.mk (.int (3 : ℕ)) (ordinaryParams demoMicroArgs 64 3 130)
      demoMicroArgs.pixelSize (.hanser h') (.confocal (.hanser { params := { h'.params with wl := some (.int 488) } }) (.int 1) none)
      none none) := by
    unfold Micro.newConfocal
    rw [hnew]
    have h1 : numericSet PyVal.isFloatOrInt none (.int 1) = .ok (some (.int 1)) := rfl
    have h2 : Inner.set .wl (.int 488) (.hanser h') =
        (.ok (), .hanser { params := { h'.params with wl := some (.int 488) } }) := by
      simp only [Inner.set, hset]
    simp only [bind, Except.bind, h1, h2]
    rfl
  have hO' : Optics { h'.params with wl := some (.int 488) } 488 (17/20) 1 (130 / (3 : ℕ)) (64 * 3)
      ((List.range 64).map (plane 64 130)) v cd :=
    ⟨⟨_, rfl, by norm_num [PyVal.num?]⟩, hO.na, hO.ni, hO.res, hO.size, hO.zrange, hO.vecCorr, hO.condition⟩
  obtain ⟨d, hd, hds, -⟩ := hanser_total_pos ⟨h'.params, none⟩ rfl hO (by norm_num) (by norm_num) (by norm_num) (by norm_num)
    (by norm_num) (by simp) hvz
  obtain ⟨x, hx, hxs, -⟩ := hanser_total_pos ⟨_, none⟩ rfl hO' (by norm_num) (by norm_num) (by norm_num) (by norm_num)
    (by norm_num) (by simp) hvz
  have hl := constructed_live (Or.inr (Or.inr (Or.inl ⟨_, _, _, hnewc⟩)))
  have hd' : (Inner.getPSFi (.hanser h')).1 = .ok d := (inner_PSFi hl.model).1.trans hd
  have hx' : (Inner.getPSFi (.hanser { params := { h'.params with wl := some (.int 488) } })).1 = .ok x :=
    (inner_PSFi hl.kind.1).1.trans hx
  obtain ⟨c, hc, -, hf⟩ := C58_confocal (Micro.mk (.int (3 : ℕ)) (ordinaryParams demoMicroArgs 64 3 130)
      demoMicroArgs.pixelSize (.hanser h') (.confocal (.hanser { params := { h'.params with wl := some (.int 488) } }) (.int 1) none)
      none none) _ _ _ rfl d x hd' hx' 64 192 192 (by rw [hds]; simp) (by rw [hxs]; simp)
    520 (17/20) (130 / (3 : ℕ)) 1 _ hO.wl hO.na hO.res (by norm_num [Denotes, PyVal.num?]) (by norm_num) (by norm_num) rfl
  refine ⟨_, _, d, x, c, hnewc, rfl, hd', hx', hc, ?_⟩
  have := hf 32 (by norm_num) 96 (by norm_num) 96 (by norm_num)
  rwa [if_pos (by norm_num)] at this

end PyOTF
