import Verif.Props.C59_Sim

/-!
# C125: SIM with any number of coherent orientations, and with a model that has other planes than the microscope
-/

namespace PyOTF

/-! ## Specification -/

/-- Intensity of coherent beams: pairs of side beams with phases `±φ` (`S` is the sum of the `cos φ`) and, with `dc`, a central one that is ahead by `ψ`. -/
noncomputable def manyBeam (dc : Bool) (S ψ : ℝ) : ℝ := if dc then 1 + 4 * S * Real.cos ψ + 4 * S ^ 2 else 4 * S ^ 2

/-- It is the squared modulus of the sum of the phasors. -/
theorem manyBeam_spec (φs : List ℝ) (ψ : ℝ) :
    ‖Complex.exp (Complex.I * ψ) + (φs.map fun (φ : ℝ) => Complex.exp (Complex.I * φ) + Complex.exp (Complex.I * (-φ : ℝ))).sum‖ ^ 2 =
      manyBeam true (φs.map Real.cos).sum ψ ∧
    ‖(φs.map fun (φ : ℝ) => Complex.exp (Complex.I * φ) + Complex.exp (Complex.I * (-φ : ℝ))).sum‖ ^ 2 = manyBeam false (φs.map Real.cos).sum ψ := by
  have e : ∀ t : ℝ, Complex.exp (Complex.I * t) = ⟨Real.cos t, Real.sin t⟩ := by
    intro t
    rw [mul_comm, Complex.exp_mul_I]
    apply Complex.ext <;> simp [Complex.cos_ofReal_re, Complex.sin_ofReal_re]
  have hs : (φs.map fun (φ : ℝ) => Complex.exp (Complex.I * φ) + Complex.exp (Complex.I * (-φ : ℝ))).sum = ((2 * (φs.map Real.cos).sum : ℝ) : ℂ) := by
    induction φs with
    | nil => simp
    | cons φ φs ih =>
      rw [List.map_cons, List.sum_cons, ih, e, e, Real.cos_neg, Real.sin_neg, List.map_cons, List.sum_cons]
      apply Complex.ext
      · simp only [Complex.add_re, Complex.ofReal_re]; ring
      · simp only [Complex.add_im, Complex.ofReal_im]; ring
  have n : ∀ z : ℂ, ‖z‖ ^ 2 = z.re ^ 2 + z.im ^ 2 := by
    intro z; rw [Complex.sq_norm, Complex.normSq_apply]; ring
  rw [hs, n, n, e]
  simp only [Complex.add_re, Complex.add_im, Complex.ofReal_re, Complex.ofReal_im, manyBeam, if_true, Bool.false_eq_true, if_false]
  have h3 := Real.sin_sq_add_cos_sq ψ
  exact ⟨by linear_combination h3, by ring⟩

/-- The intensity of all beams at one point: phases `φ` of the orientations, phase `ψ` of the central beam.  Coherent orientations interfere, the intensities of incoherent ones add. -/
noncomputable def simIntensity (co dc ds : Bool) (φs : List ℝ) (ψ : ℝ) : ℝ :=
  if co then manyBeam dc (φs.map Real.cos).sum ψ
  else (φs.map fun φ => if dc then threeBeam φ ψ else twoBeam φ).sum - if ds then 2 * (φs.length : ℝ) - 1 else 0

/-- A SIM microscope with ordinary parameters as in `SimSetting`, whose model PSF `p` has `P` planes (the microscope counts `Z`) of `N` x `N` pixels. -/
structure SimPlanes (m : Micro) (co dc ds : Bool) (os : List ℝ) (N Z P : ℕ) (d dz n a l : ℚ) (p : Arr ℝ) : Prop where
  kind : ∃ na wl w, m.kind = .sim na wl (.bool co) (.bool dc) (.bool ds) os w ∧ Denotes na a ∧ Denotes wl l ∧
    (Micro.simFiltered w m).1 = .ok p
  size : m.psfParams.size = .int N
  zsize : m.psfParams.zsize = .int Z
  res : Denotes m.psfParams.res d
  zres : Denotes m.psfParams.zres dz
  ni : Denotes m.psfParams.ni n
  pos : 0 < n
  na_le : -n ≤ a ∧ a ≤ n
  wl_ne : l ≠ 0
  shape : p.shape = [P, N, N]

/-! ## Proofs -/

theorem SimPlanes.num {m : Micro} {co dc ds : Bool} {os : List ℝ} {N Z P : ℕ} {d dz n a l : ℚ} {p : Arr ℝ}
    (h : SimPlanes m co dc ds os N Z P d dz n a l p) : ∃ s : SimNum, s.size = N ∧ s.zsize = Z ∧ s.res = d ∧ s.zres = dz ∧
      s.freq = 2 * Real.pi * n / l ∧ Real.sin s.alpha = a / n ∧ Real.cos s.alpha = Real.sqrt (1 - (a / n) ^ 2) ∧
      (Micro.modelPsf m).1 = simPsf s co dc ds os p := by
  obtain ⟨na, wl, w, hk, hna, hwl, hp⟩ := h.kind
  have hn0 := h.pos.ne'
  have hres := h.res; have hzres := h.zres; have hni := h.ni
  unfold Denotes at hna hwl hres hzres hni
  have hq : -1 ≤ a / n ∧ a / n ≤ 1 := by
    constructor
    · rw [le_div_iff₀ h.pos]; linarith [h.na_le.1]
    · rw [div_le_iff₀ h.pos]; linarith [h.na_le.2]
  have hfin : finReals [PyFloat.fin d, .fin dz, .fin (n / l), .fin (a / n)] =
      .ok [(d : ℝ), (dz : ℝ), ((n / l : ℚ) : ℝ), ((a / n : ℚ) : ℝ)] := finReals_fin [d, dz, n / l, a / n]
  have hs : Micro.simNum m.psfParams na wl = .ok ⟨N, Z, d, dz, 2 * Real.pi * ((n / l : ℚ) : ℝ), Real.arcsin ((a / n : ℚ) : ℝ)⟩ := by
    unfold Micro.simNum
    simp only [h.size, h.zsize, Micro.arangeLen, PyVal.isInt, if_true, pyInt, bind, Except.bind, pyNum_of_num hres,
      pyNum_of_num hzres, pyNum_of_num hni, pyNum_of_num hwl, pyNum_of_num hna, PyFloat.div, hn0, h.wl_ne, if_false,
      Int.toNat_natCast, hfin, hq, and_self, pure, Except.pure, List.getD_cons_zero, List.getD_cons_succ]
  have hc : ((a / n : ℚ) : ℝ) = (a : ℝ) / n := by push_cast; rfl
  refine ⟨⟨N, Z, d, dz, 2 * Real.pi * ((n / l : ℚ) : ℝ), Real.arcsin ((a / n : ℚ) : ℝ)⟩, rfl, rfl, rfl, rfl, ?_, ?_, ?_, ?_⟩
  · push_cast; ring
  · show Real.sin (Real.arcsin _) = _
    rw [Real.sin_arcsin (by exact_mod_cast hq.1) (by exact_mod_cast hq.2), hc]
  · show Real.cos (Real.arcsin _) = _
    rw [Real.cos_arcsin, hc]
  · rw [modelPsf_sim m _ _ _ _ _ _ _ hk, hs, hp]
    simp only [bind, Except.bind, PyVal.bool.injEq, Bool.decide_eq_true]

theorem SimNum.fold_beams (s : SimNum) (iz iy ix : ℕ) (os : List ℝ) : ∀ e : ℂ, os.foldl (fun e o => s.addBeams o iz iy ix e) e =
    e + Complex.exp (Complex.I * ((s.z iz * Real.cos s.alpha * s.freq : ℝ) : ℂ)) *
      ((os.map fun o => s.rr o iy ix * Real.sin s.alpha * s.freq).map fun (φ : ℝ) => Complex.exp (Complex.I * φ) + Complex.exp (Complex.I * (-φ : ℝ))).sum := by
  induction os with
  | nil => intro e; simp
  | cons o os ih =>
    intro e
    rw [List.foldl_cons, ih, SimNum.addBeams_eq, List.map_cons, List.map_cons, List.sum_cons]
    ring

theorem SimNum.coherent_eq (s : SimNum) (dc : Bool) (os : List ℝ) (psf : ℝ) (iz iy ix : ℕ) : s.coherent dc os psf iz iy ix =
    psf * manyBeam dc ((os.map fun o => s.rr o iy ix * Real.sin s.alpha * s.freq).map Real.cos).sum (s.z iz * s.freq - s.z iz * Real.cos s.alpha * s.freq) := by
  unfold SimNum.coherent
  rw [SimNum.fold_beams]
  congr 1
  cases dc
  · rw [SimNum.base, if_neg (by simp), zero_add, SimNum.norm_factor0]
    exact (manyBeam_spec _ _).2
  · rw [SimNum.base, if_pos rfl, SimNum.norm_factor]
    exact (manyBeam_spec _ _).1

/-- The intensity of the model of the code is the one of the specification. -/
theorem SimPlanes.intensity {m : Micro} {co dc ds : Bool} {os : List ℝ} {N Z P : ℕ} {d dz n a l : ℚ} {p : Arr ℝ}
    (h : SimPlanes m co dc ds os N Z P d dz n a l p) : ∃ s : SimNum, s.size = N ∧ s.zsize = Z ∧ (Micro.modelPsf m).1 = simPsf s co dc ds os p ∧
    ∀ v iz iy ix, (if co then s.coherent dc os v iz iy ix else s.incoherent dc ds os v iz iy ix) =
      v * simIntensity co dc ds (os.map fun o => lateralPhase a l o (position N d ix) (position N d iy)) (axialPhase n a l (position Z dz iz)) := by
  obtain ⟨s, h1, h2, h3, h4, h5, h6, h7, h8⟩ := h.num
  have hn : (n : ℝ) ≠ 0 := by exact_mod_cast h.pos.ne'
  refine ⟨s, h1, h2, h8, fun v iz iy ix => ?_⟩
  have e1 : ∀ o, s.rr o iy ix * (a / n) * (2 * Real.pi * n / l) = lateralPhase a l o (position N d ix) (position N d iy) := by
    intro o
    simp only [SimNum.rr, SimNum.x, h1, h3, lateralPhase, position]
    field_simp
  have e2 : s.z iz * (2 * Real.pi * n / l) - s.z iz * Real.sqrt (1 - (a / n) ^ 2) * (2 * Real.pi * n / l) =
      axialPhase n a l (position Z dz iz) := by
    simp only [SimNum.z, h2, h4, axialPhase, position]
    ring
  unfold simIntensity
  cases co
  · rw [if_neg (by simp), if_neg (by simp), SimNum.incoherent_eq]
    simp only [SimNum.orientation_intensity, h6, h7, h5, e1, e2, List.map_map, List.length_map]
    rfl
  · rw [if_pos rfl, if_pos rfl, SimNum.coherent_eq]
    simp only [h6, h7, h5, e1, e2]

/-- C125: when a SIM microscope can compute its PSF, if the model has `P` planes and the microscope counts `Z`: equal numbers (or a single plane of the microscope) always work, a single
plane of the model only if all beams including a central one interfere, and incoherent microscopes without orientations do not look.  Otherwise `ValueError`. -/
theorem C125_planes_needed (m : Micro) (co dc ds : Bool) (os : List ℝ) (N Z P : ℕ) (d dz n a l : ℚ) (p : Arr ℝ)
    (h : SimPlanes m co dc ds os N Z P d dz n a l p) (hos : os ≠ []) :
    ((∃ c, (Micro.modelPsf m).1 = .ok c) ↔ Z = P ∨ Z = 1 ∨ (co = true ∧ dc = true ∧ P = 1)) ∧
    (¬ (∃ c, (Micro.modelPsf m).1 = .ok c) → (Micro.modelPsf m).1 = .error .valueError) := by
  obtain ⟨s, h1, h2, h8, -⟩ := h.intensity
  rw [h8]
  have eN : fitsInto N N = true := by simp [fitsInto]
  have eZ : fitsInto Z Z = true := by simp [fitsInto]
  have eZP : fitsInto Z P = true ↔ (Z = P ∨ Z = 1) := by simp [fitsInto]
  have main : ∀ r : Py (Arr ℝ), ∀ Q : Prop, (Q → ∃ c, r = .ok c) → (¬ Q → r = .error .valueError) → ((∃ c, r = .ok c) ↔ Q) ∧ (¬ (∃ c, r = .ok c) → r = .error .valueError) := by
    intro r Q a1 a2
    by_cases hQ : Q
    · exact ⟨⟨fun _ => hQ, fun _ => a1 hQ⟩, fun hc => absurd (a1 hQ) hc⟩
    · refine ⟨⟨fun ⟨c, hc⟩ => ?_, fun q => absurd q hQ⟩, fun _ => a2 hQ⟩
      rw [a2 hQ] at hc; cases hc
  apply main
  · intro hQ
    unfold simPsf
    simp only [h.shape, List.getD_cons_zero, List.getD_cons_succ, h1, h2, eN, Bool.and_true]
    cases co <;> cases dc <;> simp only [Bool.false_eq_true, if_false, if_true, eZ, false_and, and_false, or_false, true_and, hos, ne_eq, not_false_eq_true,
      not_true_eq_false] at hQ ⊢
    · rw [if_neg (by rw [not_not, eZP]; simp [fitsInto, hQ])]; exact ⟨_, rfl⟩
    · rw [if_neg (by rw [not_not, eZP]; exact hQ)]; exact ⟨_, rfl⟩
    · rw [if_neg (by rw [not_not, eZP]; exact hQ)]
      simp only [bdim, if_true, Except.map]
      exact ⟨_, rfl⟩
    · rcases hQ with rfl | rfl | rfl
      · simp only [bdim, if_true, Except.map]; exact ⟨_, rfl⟩
      · unfold bdim
        split_ifs <;> first | exact ⟨_, rfl⟩ | (exfalso; omega)
      · unfold bdim
        split_ifs <;> first | exact ⟨_, rfl⟩ | (exfalso; omega)
  · intro hQ
    unfold simPsf
    simp only [h.shape, List.getD_cons_zero, List.getD_cons_succ, h1, h2, eN, Bool.and_true]
    push Not at hQ
    obtain ⟨q1, q2, q3⟩ := hQ
    have f1 : fitsInto Z P = false := by simp [fitsInto, q1, q2]
    cases co <;> cases dc <;> simp only [Bool.false_eq_true, if_false, if_true, eZ, f1, hos, ne_eq, not_false_eq_true, true_and, false_and, and_false, forall_const] at q3 ⊢
    unfold bdim
    rw [if_neg (Ne.symm q1), if_neg q3, if_neg q2]
    rfl

/-- C125: the values.  A single plane of the microscope gives one pattern for all planes of the model; a single plane of the model is repeated. -/
theorem C125_values (m : Micro) (co dc ds : Bool) (os : List ℝ) (N Z P : ℕ) (d dz n a l : ℚ) (p : Arr ℝ)
    (h : SimPlanes m co dc ds os N Z P d dz n a l p) (hos : os ≠ []) (c : Arr ℝ) (hc : (Micro.modelPsf m).1 = .ok c) :
    ∃ T, T = (if P = 1 then Z else P) ∧ c.shape = [T, N, N] ∧ ∀ iz < T, ∀ iy < N, ∀ ix < N,
      c.get [iz, iy, ix] = p.get [if P = 1 then 0 else iz, iy, ix] *
        simIntensity co dc ds (os.map fun o => lateralPhase a l o (position N d ix) (position N d iy)) (axialPhase n a l (position Z dz (if Z = 1 then 0 else iz))) := by
  have hQ := (C125_planes_needed m co dc ds os N Z P d dz n a l p h hos).1.mp ⟨c, hc⟩
  obtain ⟨s, h1, h2, h8, hv⟩ := h.intensity
  rw [h8] at hc
  have eN : fitsInto N N = true := by simp [fitsInto]
  have eZ : fitsInto Z Z = true := by simp [fitsInto]
  have bi : ∀ A B iz iy ix : ℕ, broadcastIdx [A, N, N] [B, N, N] [iz, iy, ix] = [if A = B then iz else 0, iy, ix] := by
    intro A B iz iy ix
    unfold broadcastIdx
    by_cases hAB : A = B
    · simp [hAB]
    · rw [if_neg (by simp [hAB])]; simp [hAB]
  unfold simPsf at hc
  simp only [h.shape, List.getD_cons_zero, List.getD_cons_succ, h1, h2, eN, Bool.and_true] at hc
  refine ⟨_, rfl, ?_⟩
  generalize hpz : (if dc = true then Z else P) = pz at hc
  cases co
  · simp only [Bool.false_eq_true, if_false] at hc
    split_ifs at hc with hx
    cases hc
    have hq : Z = P ∨ Z = 1 := by simpa using hQ
    have hT : (if P = 1 then Z else P) = P := by
      split_ifs with h0
      · omega
      · rfl
    rw [hT]
    refine ⟨rfl, fun iz hiz iy hiy ix hix => ?_⟩
    have hz : (if P = 1 then 0 else iz) = iz := by split_ifs with h0 <;> omega
    have hz' : (if Z = P then iz else 0) = if Z = 1 then 0 else iz := by
      split_ifs <;> omega
    have := hv (p.get [iz, iy, ix]) (if Z = 1 then 0 else iz) iy ix
    simp only [Bool.false_eq_true, if_false] at this
    rw [hz, ← this]
    show s.incoherent dc ds os (p.get [iz, iy, ix]) ((broadcastIdx [Z, N, N] [P, N, N] [iz, iy, ix]).getD 0 0) ((broadcastIdx [Z, N, N] [P, N, N] [iz, iy, ix]).getD 1 0)
      ((broadcastIdx [Z, N, N] [P, N, N] [iz, iy, ix]).getD 2 0) = _
    rw [bi, hz']
    rfl
  · simp only [if_true, if_neg hos] at hc
    split_ifs at hc with hx
    obtain ⟨T, hT, hc⟩ : ∃ T, bdim P pz = .ok T ∧ Except.ok c = Except.ok (ε := Err) ⟨T :: [P, N, N].tail, fun i =>
        s.coherent dc os (p.get (broadcastIdx [P, N, N] (T :: [P, N, N].tail) i)) ((broadcastIdx [Z, N, N] (T :: [P, N, N].tail) i).getD 0 0)
          ((broadcastIdx [Z, N, N] (T :: [P, N, N].tail) i).getD 1 0) ((broadcastIdx [Z, N, N] (T :: [P, N, N].tail) i).getD 2 0)⟩ := by
      rcases hb : bdim P pz with e | T
      · rw [hb] at hc; cases hc
      · rw [hb] at hc; exact ⟨T, rfl, hc.symm⟩
    have hq : Z = P ∨ Z = 1 ∨ (dc = true ∧ P = 1) := by simpa using hQ
    have hTe : T = if P = 1 then Z else P := by
      unfold bdim at hT
      subst hpz
      cases dc
      · simp only [Bool.false_eq_true, if_false, if_true] at hT
        cases hT
        simp only [Bool.false_eq_true, false_and, or_false] at hq
        split_ifs <;> omega
      · simp only [if_true] at hT
        split_ifs at hT with g1 g2 g3 <;> cases hT <;> split_ifs <;> omega
    cases hc
    rw [← hTe]
    refine ⟨rfl, fun iz hiz iy hiy ix hix => ?_⟩
    have hz : (if P = T then iz else 0) = if P = 1 then 0 else iz := by split_ifs at * <;> omega
    have hz' : (if Z = T then iz else 0) = if Z = 1 then 0 else iz := by
      split_ifs at * <;> omega
    have := hv (p.get [if P = 1 then 0 else iz, iy, ix]) (if Z = 1 then 0 else iz) iy ix
    simp only [if_true] at this
    rw [← this]
    show s.coherent dc os (p.get (broadcastIdx [P, N, N] [T, N, N] [iz, iy, ix])) ((broadcastIdx [Z, N, N] [T, N, N] [iz, iy, ix]).getD 0 0)
      ((broadcastIdx [Z, N, N] [T, N, N] [iz, iy, ix]).getD 1 0) ((broadcastIdx [Z, N, N] [T, N, N] [iz, iy, ix]).getD 2 0) = _
    rw [bi, bi, hz, hz']
    rfl

/-- C125: without orientations the coherent microscopes raise `UnboundLocalError`; the others show nothing, or with `dc_suppress` the widefield PSF - whatever the planes. -/
theorem C125_no_orientations (m : Micro) (co dc ds : Bool) (N Z P : ℕ) (d dz n a l : ℚ) (p : Arr ℝ)
    (h : SimPlanes m co dc ds [] N Z P d dz n a l p) :
    (co = true → (Micro.modelPsf m).1 = .error .unboundLocalError) ∧
    (co = false → ∃ c, (Micro.modelPsf m).1 = .ok c ∧ c.shape = [P, N, N] ∧ ∀ iz iy ix, c.get [iz, iy, ix] = if ds then p.get [iz, iy, ix] else 0) := by
  obtain ⟨s, h1, h2, h8, hv⟩ := h.intensity
  rw [h8]
  constructor
  · rintro rfl; simp [simPsf]
  · rintro rfl
    unfold simPsf
    simp only [Bool.false_eq_true, if_false, ne_eq, not_true_eq_false, false_and, h.shape]
    refine ⟨_, rfl, rfl, fun iz iy ix => ?_⟩
    simp only [SimNum.incoherent_eq]
    cases ds <;> simp

/-- Non-vacuity of C125: the microscopes of C59 (equal planes) ... -/
theorem SimSetting.planes {m : Micro} {co dc ds : Bool} {os : List ℝ} {N Z : ℕ} {d dz n a l : ℚ} {p : Arr ℝ}
    (h : SimSetting m co dc ds os N Z d dz n a l p) : SimPlanes m co dc ds os N Z Z d dz n a l p :=
  ⟨h.kind, h.size, h.zsize, h.res, h.zres, h.ni, h.pos, h.na_le, h.wl_ne, h.shape⟩

/-- ... and `LatticeSIM(na_exc=0.8, wl_exc=488.0, wiener=0.5, dc_suppress=False, ...)` with the parameters of `demoMicroArgs` (64 planes), followed by `m.wiener = None` and
`m.model.zrange = 0`: it shows the pattern in 64 planes although its PSF has one. -/
theorem demoLattice : ∃ m₀ m p, Micro.newLattice demoMicroArgs (.float (.fin (4/5))) (.float (.fin 488)) (.float (.fin (1/2))) (.bool false) = .ok m₀ ∧
    m = ((m₀.ustep (.wiener .none)).2.ustep (.model (.h (.setZrange (.scalar (.fin 0)))))).2 ∧
    SimPlanes m true true false [0, Real.pi / 2] 192 64 1 (130 / (3 : ℕ)) 130 1 (4/5) 488 p ∧ ∃ c, (Micro.modelPsf m).1 = .ok c ∧ c.shape = [64, 192, 192] := by
  obtain ⟨h', v, cd, hnew, hh, hvz, hO⟩ := widefield_setup demoMicroArgs 3 64 64 rfl
    130 520 (17/20) 1 130 rfl rfl rfl rfl rfl rfl (by norm_num [demoMicroArgs, Denotes, PyVal.num?])
    (by norm_num) (by norm_num [demoMicroArgs, Denotes, PyVal.num?]) (by norm_num)
    (by norm_num [demoMicroArgs, Denotes, PyVal.num?]) (by norm_num) (by norm_num)
    (by norm_num [demoMicroArgs, Denotes, PyVal.num?]) (by norm_num) (Or.inl rfl)
    (by constructor <;> simp [demoMicroArgs, NotSpecial, PsfParams.initArgs]) (by simp [demoMicroArgs]) (by simp [demoMicroArgs])
  have hO' : Optics { h'.params with zrange := some [PyFloat.fin 0] } 520 (17/20) 1 (130 / (3 : ℕ)) (64 * 3) [0] v cd :=
    ⟨hO.wl, hO.na, hO.ni, hO.res, hO.size, rfl, hO.vecCorr, hO.condition⟩
  obtain ⟨p, hp, hps, -⟩ := hanser_total_pos ⟨{ h'.params with zrange := some [PyFloat.fin 0] }, none⟩ rfl hO' (by norm_num) (by norm_num) (by norm_num) (by norm_num)
    (by norm_num) (by simp) hvz
  have hl := constructed_live (Or.inl ⟨_, hnew⟩)
  have hm := inner_after hl.model (.h (.setZrange (.scalar (.fin 0))))
  have hp' : (Inner.getPSFi ((Inner.hanser h').after (.h (.setZrange (.scalar (.fin 0)))))).1 = .ok p := (inner_PSFi hm).1.trans hp
  have hsim : Micro.newLattice demoMicroArgs (.float (.fin (4/5))) (.float (.fin 488)) (.float (.fin (1/2))) (.bool false) =
      .ok (Micro.mk (.int (3 : ℕ)) (ordinaryParams demoMicroArgs 64 3 130) demoMicroArgs.pixelSize (.hanser h')
        (.sim (.float (.fin (4/5))) (.float (.fin 488)) (.bool true) (.bool true) (.bool false) [0, Real.pi / 2] (.float (.fin (1/2)))) none none) := by
    unfold Micro.newLattice Micro.newSIM
    rw [hnew]
    have n1 : numericSet Micro.isFloat none (.float (.fin (4/5))) = .ok (some (.float (.fin (4/5)))) := by decide +kernel
    have n2 : numericSet Micro.isFloat none (.float (.fin 488)) = .ok (some (.float (.fin 488))) := rfl
    have n3 : ∀ b, numericSet Micro.isBool none (.bool b) = .ok (some (.bool b)) := by intro b; cases b <;> rfl
    have n4 : PyVal.ltZero (.float (.fin (1/2))) = .ok false := by decide +kernel
    simp only [bind, Except.bind, reduceCtorEq, if_false, n1, n2, n3, n4]
    rfl
  have hS : SimPlanes (((Micro.mk (.int (3 : ℕ)) (ordinaryParams demoMicroArgs 64 3 130) demoMicroArgs.pixelSize (.hanser h')
        (.sim (.float (.fin (4/5))) (.float (.fin 488)) (.bool true) (.bool true) (.bool false) [0, Real.pi / 2] (.float (.fin (1/2)))) none none).ustep (.wiener .none)).2.ustep
          (.model (.h (.setZrange (.scalar (.fin 0)))))).2 true true false [0, Real.pi / 2] 192 64 1 (130 / (3 : ℕ)) 130 1 (4/5) 488 p := by
    refine ⟨⟨_, _, _, rfl, by norm_num [Denotes, PyVal.num?], by norm_num [Denotes, PyVal.num?], ?_⟩, rfl, rfl, ?_, ?_,
      ?_, by norm_num, by norm_num, by norm_num, ?_⟩
    · exact hp'
    · norm_num [Denotes, PyVal.num?, Micro.ustep, Micro.setWiener, PyM.modify, ordinaryParams]
    · norm_num [Denotes, PyVal.num?, Micro.ustep, Micro.setWiener, PyM.modify, ordinaryParams, demoMicroArgs]
    · norm_num [Denotes, PyVal.num?, Micro.ustep, Micro.setWiener, PyM.modify, ordinaryParams, demoMicroArgs]
    · rw [hps]; simp
  refine ⟨_, _, p, hsim, rfl, hS, ?_⟩
  obtain ⟨c, hc⟩ := (C125_planes_needed _ _ _ _ _ _ _ _ _ _ _ _ _ _ hS (by simp)).1.mpr (Or.inr (Or.inr ⟨rfl, rfl, rfl⟩))
  obtain ⟨T, hT, hs, -⟩ := C125_values _ _ _ _ _ _ _ _ _ _ _ _ _ _ hS (by simp) c hc
  exact ⟨c, hc, by rw [hs, hT]; rfl⟩

end PyOTF
