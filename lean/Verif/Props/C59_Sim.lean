import Verif.Props.C58_Confocal

/-!
# C59: excitation patterns of the SIM microscopes
-/

namespace PyOTF

/-! ## Specification -/

/-- Position of pixel `i` of `N`: multiples of the pixel size `d`, pixel `(N + 1) // 2` being the origin. -/
noncomputable def position (N : ℕ) (d : ℝ) (i : ℕ) : ℝ := ((i : ℝ) - ((N + 1) / 2 : ℕ)) * d

/-- Phase of a beam of numerical aperture `a` and vacuum wavelength `l` at the distance `x cos o + y sin o` along the
orientation `o` of the pattern. -/
noncomputable def lateralPhase (a l o x y : ℝ) : ℝ := 2 * Real.pi * a / l * (x * Real.cos o + y * Real.sin o)

/-- Phase between the central beam and the side beams at depth `z` in a medium of index `n`. -/
noncomputable def axialPhase (n a l z : ℝ) : ℝ := 2 * Real.pi * n / l * (1 - Real.sqrt (1 - (a / n) ^ 2)) * z

/-- Intensity of two interfering beams of phases `φ`, `-φ`. -/
noncomputable def twoBeam (φ : ℝ) : ℝ := 2 + 2 * Real.cos (2 * φ)

/-- Intensity of these two beams and a third one that is ahead of them by `ψ`. -/
noncomputable def threeBeam (φ ψ : ℝ) : ℝ := 3 + 2 * Real.cos (2 * φ) + 4 * Real.cos φ * Real.cos ψ

/-- Intensity of five beams: a central one and two pairs. -/
noncomputable def fiveBeam (φ φ' ψ : ℝ) : ℝ :=
  1 + 4 * (Real.cos φ + Real.cos φ') * Real.cos ψ + 4 * (Real.cos φ + Real.cos φ') ^ 2

/-- The specification means what it says: these are the squared moduli of sums of unit phasors. -/
theorem beams_spec (φ φ' ψ : ℝ) :
    ‖Complex.exp (Complex.I * φ) + Complex.exp (Complex.I * (-φ : ℝ))‖ ^ 2 = twoBeam φ ∧
    ‖Complex.exp (Complex.I * ψ) + Complex.exp (Complex.I * φ) + Complex.exp (Complex.I * (-φ : ℝ))‖ ^ 2 = threeBeam φ ψ ∧
    ‖Complex.exp (Complex.I * ψ) + Complex.exp (Complex.I * φ) + Complex.exp (Complex.I * (-φ : ℝ)) +
      Complex.exp (Complex.I * φ') + Complex.exp (Complex.I * (-φ' : ℝ))‖ ^ 2 = fiveBeam φ φ' ψ := by
  have e : ∀ t : ℝ, Complex.exp (Complex.I * t) = ⟨Real.cos t, Real.sin t⟩ := by
    intro t
    rw [mul_comm, Complex.exp_mul_I]
    apply Complex.ext <;> simp [Complex.cos_ofReal_re, Complex.sin_ofReal_re]
  simp only [e, Real.cos_neg, Real.sin_neg, twoBeam, threeBeam, fiveBeam, Real.cos_two_mul]
  have n : ∀ z : ℂ, ‖z‖ ^ 2 = z.re ^ 2 + z.im ^ 2 := by
    intro z; rw [Complex.sq_norm, Complex.normSq_apply]; ring
  simp only [n, Complex.add_re, Complex.add_im]
  have h1 := Real.sin_sq_add_cos_sq φ
  have h2 := Real.sin_sq_add_cos_sq φ'
  have h3 := Real.sin_sq_add_cos_sq ψ
  refine ⟨by ring, ?_, ?_⟩
  · linear_combination h3
  · linear_combination h3

/-! ## Proofs -/

namespace SimNum

/-- The two beams of one orientation. -/
theorem addBeams_eq (s : SimNum) (o : ℝ) (iz iy ix : ℕ) (e : ℂ) : s.addBeams o iz iy ix e =
    e + Complex.exp (Complex.I * ((s.z iz * Real.cos s.alpha * s.freq : ℝ) : ℂ)) *
      (Complex.exp (Complex.I * ((s.rr o iy ix * Real.sin s.alpha * s.freq : ℝ) : ℂ)) +
       Complex.exp (Complex.I * ((-(s.rr o iy ix * Real.sin s.alpha * s.freq) : ℝ) : ℂ))) := by
  simp only [addBeams, List.foldl_cons, List.foldl_nil, beam, Real.sin_neg, Real.cos_neg]
  rw [add_assoc, mul_add, ← Complex.exp_add, ← Complex.exp_add, add_comm (Complex.exp _) (Complex.exp _)]
  congr 3 <;> push_cast <;> ring_nf

/-- A common phase does not matter. -/
theorem norm_factor (u v : ℝ) (A : ℂ) : ‖Complex.exp (Complex.I * u) + Complex.exp (Complex.I * v) * A‖ =
    ‖Complex.exp (Complex.I * (u - v : ℝ)) + A‖ := by
  have e : Complex.exp (Complex.I * u) + Complex.exp (Complex.I * v) * A =
      Complex.exp (Complex.I * v) * (Complex.exp (Complex.I * (u - v : ℝ)) + A) := by
    rw [mul_add, ← Complex.exp_add]
    congr 2; push_cast; ring
  rw [e, norm_mul, mul_comm Complex.I, Complex.norm_exp_ofReal_mul_I, one_mul]

theorem norm_factor0 (v : ℝ) (A : ℂ) : ‖Complex.exp (Complex.I * v) * A‖ = ‖A‖ := by
  rw [norm_mul, mul_comm Complex.I, Complex.norm_exp_ofReal_mul_I, one_mul]

/-- Intensity of one orientation. -/
theorem orientation_intensity (s : SimNum) (dc : Bool) (o : ℝ) (iz iy ix : ℕ) :
    ‖s.addBeams o iz iy ix (s.base dc iz)‖ ^ 2 =
    if dc then threeBeam (s.rr o iy ix * Real.sin s.alpha * s.freq) (s.z iz * s.freq - s.z iz * Real.cos s.alpha * s.freq)
    else twoBeam (s.rr o iy ix * Real.sin s.alpha * s.freq) := by
  rw [addBeams_eq]
  cases dc
  · simp only [base, Bool.false_eq_true, if_false, zero_add]
    rw [norm_factor0, (beams_spec _ 0 0).1]
  · simp only [base, if_true]
    rw [norm_factor, ← add_assoc, (beams_spec _ 0 _).2.1]

/-- Intensity of the lattice. -/
theorem lattice_intensity (s : SimNum) (o o' : ℝ) (iz iy ix : ℕ) :
    ‖s.addBeams o' iz iy ix (s.addBeams o iz iy ix (s.base true iz))‖ ^ 2 =
    fiveBeam (s.rr o iy ix * Real.sin s.alpha * s.freq) (s.rr o' iy ix * Real.sin s.alpha * s.freq)
      (s.z iz * s.freq - s.z iz * Real.cos s.alpha * s.freq) := by
  rw [addBeams_eq, addBeams_eq]
  simp only [base, if_true]
  rw [add_assoc, ← mul_add, norm_factor, ← add_assoc, ← add_assoc, ← add_assoc, (beams_spec _ _ _).2.2]

theorem incoherent_eq (s : SimNum) (dc ds : Bool) (os : List ℝ) (psf : ℝ) (iz iy ix : ℕ) :
    s.incoherent dc ds os psf iz iy ix = psf * ((os.map fun o => ‖s.addBeams o iz iy ix (s.base dc iz)‖ ^ 2).sum -
      if ds then 2 * (os.length : ℝ) - 1 else 0) := by
  have key : ∀ (os : List ℝ) (t : ℝ), os.foldl (fun t o => t + psf * ‖s.addBeams o iz iy ix (s.base dc iz)‖ ^ 2) t =
      t + psf * (os.map fun o => ‖s.addBeams o iz iy ix (s.base dc iz)‖ ^ 2).sum := by
    intro os
    induction os with
    | nil => simp
    | cons o os ih => intro t; simp only [List.foldl_cons, ih, List.map_cons, List.sum_cons]; ring
  unfold incoherent
  simp only [key]
  cases ds <;> simp
  ring

end SimNum

/-- A SIM microscope whose parameters are ordinary numbers: `N` pixels of size `d`, `Z` planes at distance `dz` in a medium of
index `n`, excitation with numerical aperture `a ≤ n` at the wavelength `l`; `p` is the (Wiener filtered) PSF of its model. -/
structure SimSetting (m : Micro) (co dc ds : Bool) (os : List ℝ) (N Z : ℕ) (d dz n a l : ℚ) (p : Arr ℝ) : Prop where
  kind : ∃ na wl w, m.kind = .sim na wl (.bool co) (.bool dc) (.bool ds) os w ∧ Denotes na a ∧ Denotes wl l ∧
    (Micro.simFiltered w m).1 = .ok p
  size : m.psfParams.size = .int N
  zsize : m.psfParams.zsize = .int Z
  res : Denotes m.psfParams.res d
  zres : Denotes m.psfParams.zres dz
  ni : Denotes m.psfParams.ni n
  pos : 0 < n
  na_le : -n ≤ a ∧ a ≤ n
  wl_ne : l ≠ 0
  shape : p.shape = [Z, N, N]

theorem modelPsf_sim (m : Micro) (na wl co dc ds : PyVal) (os : List ℝ) (w : PyVal) (hk : m.kind = .sim na wl co dc ds os w) :
    (Micro.modelPsf m).1 = (do
      let s ← Micro.simNum m.psfParams na wl
      let psf ← (Micro.simFiltered w m).1
      simPsf s (decide (co = .bool true)) (decide (dc = .bool true)) (decide (ds = .bool true)) os psf) := by
  have e0 : Micro.modelPsf m = ((do
    let s ← PyM.lift (Micro.simNum m.psfParams na wl)
    let psf ← Micro.simFiltered w
    PyM.lift (simPsf s (decide (co = .bool true)) (decide (dc = .bool true)) (decide (ds = .bool true)) os psf) :
      PyM Micro (Arr ℝ))) m := by
    unfold Micro.modelPsf
    simp only [PyM.bind_apply, PyM.get_apply, hk]
  rw [e0]
  simp only [PyM.bind_apply, PyM.lift_apply]
  rcases Micro.simNum m.psfParams na wl with er | r
  · rfl
  · simp only []
    rcases Micro.simFiltered w m with ⟨er | d, m'⟩
    · rfl
    · rfl

/-- The numbers of such a microscope. -/
theorem SimSetting.num {m : Micro} {co dc ds : Bool} {os : List ℝ} {N Z : ℕ} {d dz n a l : ℚ} {p : Arr ℝ}
    (h : SimSetting m co dc ds os N Z d dz n a l p) : ∃ s : SimNum, s.size = N ∧ s.zsize = Z ∧ s.res = d ∧ s.zres = dz ∧
      s.freq = 2 * Real.pi * n / l ∧ Real.sin s.alpha = a / n ∧ Real.cos s.alpha = Real.sqrt (1 - (a / n) ^ 2) ∧
      (Micro.modelPsf m).1 = simPsf s co dc ds os p := by
  obtain ⟨na, wl, w, hk, hna, hwl, hp⟩ := h.kind
  have hn0 := h.pos.ne'
  have hres := h.res; have hzres := h.zres; have hni := h.ni
  unfold Denotes at hna hwl hres hzres hni
  have hq : -1 ≤ a / n ∧ a / n ≤ 1 := by
    constructor
    · rw [le_div_iff₀ h.pos]; linarith [h.na_le.1]
    · rw [div_le_iff₀ h.pos]; linarith [h.na_le.2]
  have hfin : finReals [PyFloat.fin d, .fin dz, .fin (n / l), .fin (a / n)] =
      .ok [(d : ℝ), (dz : ℝ), ((n / l : ℚ) : ℝ), ((a / n : ℚ) : ℝ)] := finReals_fin [d, dz, n / l, a / n]
  have hs : Micro.simNum m.psfParams na wl = .ok ⟨N, Z, d, dz, 2 * Real.pi * ((n / l : ℚ) : ℝ), Real.arcsin ((a / n : ℚ) : ℝ)⟩ := by
    unfold Micro.simNum
    simp only [h.size, h.zsize, Micro.arangeLen, PyVal.isInt, if_true, pyInt, bind, Except.bind, pyNum_of_num hres,
      pyNum_of_num hzres, pyNum_of_num hni, pyNum_of_num hwl, pyNum_of_num hna, PyFloat.div, hn0, h.wl_ne, if_false,
      Int.toNat_natCast, hfin, hq, and_self, pure, Except.pure, List.getD_cons_zero, List.getD_cons_succ]
  have hc : ((a / n : ℚ) : ℝ) = (a : ℝ) / n := by push_cast; rfl
  refine ⟨⟨N, Z, d, dz, 2 * Real.pi * ((n / l : ℚ) : ℝ), Real.arcsin ((a / n : ℚ) : ℝ)⟩, rfl, rfl, rfl, rfl, ?_, ?_, ?_, ?_⟩
  · push_cast; ring
  · show Real.sin (Real.arcsin _) = _
    rw [Real.sin_arcsin (by exact_mod_cast hq.1) (by exact_mod_cast hq.2), hc]
  · show Real.cos (Real.arcsin _) = _
    rw [Real.cos_arcsin, hc]
  · rw [modelPsf_sim m _ _ _ _ _ _ _ hk, hs, hp]
    simp only [bind, Except.bind, PyVal.bool.injEq, Bool.decide_eq_true]

/-- C59: 2D-SIM (`dc = False`) and 3D-SIM (`dc = True`), orientations added incoherently: the effective PSF is the model PSF times
the sum of the two- or three-beam intensities of the orientations; `dc_suppress` subtracts `2 #orientations - 1` copies of the
model PSF. -/
theorem C59_incoherent (m : Micro) (dc ds : Bool) (os : List ℝ) (N Z : ℕ) (d dz n a l : ℚ) (p : Arr ℝ)
    (h : SimSetting m false dc ds os N Z d dz n a l p) : ∃ c, (Micro.modelPsf m).1 = .ok c ∧ c.shape = [Z, N, N] ∧
    ∀ iz iy ix, c.get [iz, iy, ix] = p.get [iz, iy, ix] *
      ((os.map fun o =>
        let φ := lateralPhase a l o (position N d ix) (position N d iy)
        if dc then threeBeam φ (axialPhase n a l (position Z dz iz)) else twoBeam φ).sum -
      if ds then 2 * (os.length : ℝ) - 1 else 0) := by
  obtain ⟨s, h1, h2, h3, h4, h5, h6, h7, h8⟩ := h.num
  have hn : (n : ℝ) ≠ 0 := by exact_mod_cast h.pos.ne'
  rw [h8]
  have hrun : simPsf s false dc ds os p = .ok ⟨[Z, N, N], fun i =>
      s.incoherent dc ds os (p.get i) (i.getD 0 0) (i.getD 1 0) (i.getD 2 0)⟩ := by
    rw [simPsf_same _ _ _ _ _ _ (by rw [h.shape, h1, h2])]
    simp only [h.shape, if_false, Bool.false_eq_true]
  refine ⟨_, hrun, rfl, ?_⟩
  intro iz iy ix
  show s.incoherent dc ds os (p.get [iz, iy, ix]) iz iy ix = _
  rw [SimNum.incoherent_eq]
  congr 3
  refine List.map_congr_left fun o _ => ?_
  rw [SimNum.orientation_intensity, h6, h7, h5]
  have e1 : s.rr o iy ix * (a / n) * (2 * Real.pi * n / l) = lateralPhase a l o (position N d ix) (position N d iy) := by
    simp only [SimNum.rr, SimNum.x, h1, h3, lateralPhase, position]
    field_simp
  have e2 : s.z iz * (2 * Real.pi * n / l) - s.z iz * Real.sqrt (1 - (a / n) ^ 2) * (2 * Real.pi * n / l) =
      axialPhase n a l (position Z dz iz) := by
    simp only [SimNum.z, h2, h4, axialPhase, position]
    ring
  rw [e1, e2]

/-- C59: lattice SIM: all five beams interfere; `dc_suppress` has no effect. -/
theorem C59_lattice (m : Micro) (ds : Bool) (o o' : ℝ) (N Z : ℕ) (d dz n a l : ℚ) (p : Arr ℝ)
    (h : SimSetting m true true ds [o, o'] N Z d dz n a l p) : ∃ c, (Micro.modelPsf m).1 = .ok c ∧ c.shape = [Z, N, N] ∧
    ∀ iz iy ix, c.get [iz, iy, ix] = p.get [iz, iy, ix] *
      fiveBeam (lateralPhase a l o (position N d ix) (position N d iy)) (lateralPhase a l o' (position N d ix) (position N d iy))
        (axialPhase n a l (position Z dz iz)) := by
  obtain ⟨s, h1, h2, h3, h4, h5, h6, h7, h8⟩ := h.num
  have hn : (n : ℝ) ≠ 0 := by exact_mod_cast h.pos.ne'
  rw [h8]
  have hrun : simPsf s true true ds [o, o'] p = .ok ⟨[Z, N, N], fun i =>
      s.coherent true [o, o'] (p.get i) (i.getD 0 0) (i.getD 1 0) (i.getD 2 0)⟩ := by
    rw [simPsf_same _ _ _ _ _ _ (by rw [h.shape, h1, h2])]
    simp only [h.shape, if_false, if_true, reduceCtorEq]
  refine ⟨_, hrun, rfl, ?_⟩
  intro iz iy ix
  show s.coherent true [o, o'] (p.get [iz, iy, ix]) iz iy ix = _
  simp only [SimNum.coherent, List.foldl_cons, List.foldl_nil]
  rw [SimNum.lattice_intensity, h6, h7, h5]
  have e1 : ∀ o, s.rr o iy ix * (a / n) * (2 * Real.pi * n / l) = lateralPhase a l o (position N d ix) (position N d iy) := by
    intro o
    simp only [SimNum.rr, SimNum.x, h1, h3, lateralPhase, position]
    field_simp
  have e2 : s.z iz * (2 * Real.pi * n / l) - s.z iz * Real.sqrt (1 - (a / n) ^ 2) * (2 * Real.pi * n / l) =
      axialPhase n a l (position Z dz iz) := by
    simp only [SimNum.z, h2, h4, axialPhase, position]
    ring
  rw [e1, e1, e2]

/-- C59: 2D-SIM with `dc_suppress`: one copy of the model PSF and the pure oscillations of the orientations remain. -/
theorem C59_dc_suppress (m : Micro) (os : List ℝ) (N Z : ℕ) (d dz n a l : ℚ) (p : Arr ℝ)
    (h : SimSetting m false false true os N Z d dz n a l p) : ∃ c, (Micro.modelPsf m).1 = .ok c ∧ c.shape = [Z, N, N] ∧
    ∀ iz iy ix, c.get [iz, iy, ix] = p.get [iz, iy, ix] *
      (1 + (os.map fun o => 2 * Real.cos (2 * lateralPhase a l o (position N d ix) (position N d iy))).sum) := by
  obtain ⟨c, h1, h2, h3⟩ := C59_incoherent m false true os N Z d dz n a l p h
  refine ⟨c, h1, h2, fun iz iy ix => ?_⟩
  rw [h3]
  congr 1
  simp only [Bool.false_eq_true, if_false, if_true, twoBeam]
  have : ∀ (os : List ℝ) (f : ℝ → ℝ), (os.map fun o => 2 + f o).sum = 2 * os.length + (os.map f).sum := by
    intro os f
    induction os with
    | nil => simp
    | cons o os ih => simp only [List.map_cons, List.sum_cons, ih, List.length_cons]; push_cast; ring
  rw [this]; ring

/-- C59: without orientations the coherent pattern is never initialised: `UnboundLocalError`. -/
theorem C59_coherent_empty (m : Micro) (dc ds : Bool) (N Z : ℕ) (d dz n a l : ℚ) (p : Arr ℝ)
    (h : SimSetting m true dc ds [] N Z d dz n a l p) : (Micro.modelPsf m).1 = .error .unboundLocalError := by
  obtain ⟨s, h1, h2, h3, h4, h5, h6, h7, h8⟩ := h.num
  rw [h8]
  rw [simPsf_same _ _ _ _ _ _ (by rw [h.shape, h1, h2])]
  simp only [if_true]

/-! ## Which class makes which microscope -/

theorem newSIM_kind {a : MicroArgs} {na wl w co dc ds : PyVal} {os : List ℝ} {m : Micro}
    (h : Micro.newSIM a na wl w co dc ds os = .ok m) : ∃ m', Micro.newWidefield a = .ok m' ∧ m.psfParams = m'.psfParams ∧
      m.model = m'.model ∧ m.kind = .sim (if na = .none then m.psfParams.na else na) (if wl = .none then m.psfParams.wl else wl)
        co dc ds os w := by
  have st : ∀ {t : PyVal → Bool} {v : PyVal} {x : Option PyVal}, numericSet t none v = .ok x → x.getD v = v := by
    intro t v x hx
    cases x with
    | none => rfl
    | some u => exact (numericSet_some hx).1
  unfold Micro.newSIM at h
  obtain ⟨m', h', h⟩ := py_bind_ok h
  obtain ⟨x1, k1, h⟩ := py_bind_ok h
  obtain ⟨x2, k2, h⟩ := py_bind_ok h
  obtain ⟨x3, k3, h⟩ := py_bind_ok h
  obtain ⟨x4, k4, h⟩ := py_bind_ok h
  obtain ⟨x5, k5, h⟩ := py_bind_ok h
  obtain ⟨x6, -, h⟩ := py_bind_ok h
  cases x6
  · cases h
    refine ⟨m', h', rfl, rfl, ?_⟩
    simp only [st k1, st k2, st k3, st k4, st k5]
  · cases h

/-- C59: the classes: 2D-SIM is incoherent without a central beam, 3D-SIM incoherent with one, lattice SIM coherent with a central
beam and the orientations 0 and π/2; an omitted `na_exc` or `wl_exc` is that of the emission. -/
theorem C59_classes (a : MicroArgs) (na wl w ds : PyVal) (os : List ℝ) (m : Micro) :
    (Micro.newSIM2D a na wl w ds os = .ok m → m.kind = .sim (if na = .none then m.psfParams.na else na)
      (if wl = .none then m.psfParams.wl else wl) (.bool false) (.bool false) ds os w) ∧
    (Micro.newSIM3D a na wl w ds os = .ok m → m.kind = .sim (if na = .none then m.psfParams.na else na)
      (if wl = .none then m.psfParams.wl else wl) (.bool false) (.bool true) ds os w) ∧
    (Micro.newLattice a na wl w ds = .ok m → m.kind = .sim (if na = .none then m.psfParams.na else na)
      (if wl = .none then m.psfParams.wl else wl) (.bool true) (.bool true) ds [0, Real.pi / 2] w) := by
  refine ⟨fun h => ?_, fun h => ?_, fun h => ?_⟩
  · obtain ⟨m', -, -, -, h⟩ := newSIM_kind h; exact h
  · obtain ⟨m', -, -, -, h⟩ := newSIM_kind h; exact h
  · obtain ⟨m', -, -, -, h⟩ := newSIM_kind h; exact h

/-- Non-vacuity of C59: `SIM3DMicroscope(na_exc=0.8, wl_exc=488.0, wiener=0.5, dc_suppress=False, orientations=os, ...)` with the
parameters of `demoMicroArgs`, followed by `m.wiener = None`. -/
theorem demoSim (os : List ℝ) : ∃ m₀ m p, Micro.newSIM3D demoMicroArgs (.float (.fin (4/5))) (.float (.fin 488)) (.float (.fin (1/2)))
      (.bool false) os = .ok m₀ ∧ m = (m₀.ustep (.wiener .none)).2 ∧
    SimSetting m false true false os 192 64 (130 / (3 : ℕ)) 130 1 (4/5) 488 p := by
  obtain ⟨h', v, cd, hnew, hh, hvz, hO⟩ := widefield_setup demoMicroArgs 3 64 64 rfl
    130 520 (17/20) 1 130 rfl rfl rfl rfl rfl rfl (by norm_num [demoMicroArgs, Denotes, PyVal.num?])
    (by norm_num) (by norm_num [demoMicroArgs, Denotes, PyVal.num?]) (by norm_num)
    (by norm_num [demoMicroArgs, Denotes, PyVal.num?]) (by norm_num) (by norm_num)
    (by norm_num [demoMicroArgs, Denotes, PyVal.num?]) (by norm_num) (Or.inl rfl)
    (by constructor <;> simp [demoMicroArgs, NotSpecial, PsfParams.initArgs]) (by simp [demoMicroArgs]) (by simp [demoMicroArgs])
  obtain ⟨p, hp, hps, -⟩ := hanser_total_pos ⟨h'.params, none⟩ rfl hO (by norm_num) (by norm_num) (by norm_num) (by norm_num)
    (by norm_num) (by simp) hvz
  have hl := constructed_live (Or.inl ⟨_, hnew⟩)
  have hp' : (Inner.getPSFi (.hanser h')).1 = .ok p := (inner_PSFi hl.model).1.trans hp
  have hsim : Micro.newSIM3D demoMicroArgs (.float (.fin (4/5))) (.float (.fin 488)) (.float (.fin (1/2))) (.bool false) os =
      .ok (Micro.mk (.int (3 : ℕ)) (ordinaryParams demoMicroArgs 64 3 130) demoMicroArgs.pixelSize (.hanser h')
        (.sim (.float (.fin (4/5))) (.float (.fin 488)) (.bool false) (.bool true) (.bool false) os (.float (.fin (1/2)))) none none) := by
    unfold Micro.newSIM3D Micro.newSIM
    rw [hnew]
    have n1 : numericSet Micro.isFloat none (.float (.fin (4/5))) = .ok (some (.float (.fin (4/5)))) := by decide +kernel
    have n2 : numericSet Micro.isFloat none (.float (.fin 488)) = .ok (some (.float (.fin 488))) := rfl
    have n3 : ∀ b, numericSet Micro.isBool none (.bool b) = .ok (some (.bool b)) := by intro b; cases b <;> rfl
    have n4 : PyVal.ltZero (.float (.fin (1/2))) = .ok false := by decide +kernel
    simp only [bind, Except.bind, reduceCtorEq, if_false, n1, n2, n3, n4]
    rfl
  refine ⟨_, _, p, hsim, rfl, ⟨⟨_, _, _, rfl, by norm_num [Denotes, PyVal.num?], by norm_num [Denotes, PyVal.num?], ?_⟩, rfl, rfl, ?_, ?_,
    ?_, by norm_num, by norm_num, by norm_num, ?_⟩⟩
  · exact hp'
  · norm_num [Denotes, PyVal.num?, Micro.ustep, Micro.setWiener, PyM.modify, ordinaryParams]
  · norm_num [Denotes, PyVal.num?, Micro.ustep, Micro.setWiener, PyM.modify, ordinaryParams, demoMicroArgs]
  · norm_num [Denotes, PyVal.num?, Micro.ustep, Micro.setWiener, PyM.modify, ordinaryParams, demoMicroArgs]
  · rw [hps]; simp

end PyOTF
