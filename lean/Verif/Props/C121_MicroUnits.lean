import Verif.Props.C115_C116_ConfocalOtf
import Verif.Props.C79_C81_Physics
import Verif.Props.C95_Apotome

/-!
# C121: the unit of length does not matter to the microscopes
-/

namespace PyOTF

/-! ## Specification -/

/-- Two microscopes show the same PSF and the same OTF, or raise the same errors. -/
structure SameOutput (m m' : Micro) : Prop where
  PSF : (Micro.getPSF m').1 = (Micro.getPSF m).1
  OTF : (Micro.getOTF m').1 = (Micro.getOTF m).1

/-- Arguments of two microscopes that agree in everything that is not a length: `a` has pixels `q`, wavelength `w` and planes `z` apart, `a'` has pixels
`c * q`, wavelength `c * w` and planes `c * z` apart. -/
structure RescaledArgs (a a' : MicroArgs) (c : ℚ) (o n nz : ℕ) (q w na i z : ℚ) : Prop where
  pos : 0 < c
  args : OrdinaryArgs a o n nz q w na i z
  args' : OrdinaryArgs a' o n nz (c * q) (c * w) na i (c * z)
  vecCorr : a'.kw.vecCorr.getD (.str "none") = a.kw.vecCorr.getD (.str "none")
  condition : a'.kw.condition.getD (.str "sine") = a.kw.condition.getD (.str "sine")
  zsize : a'.kw.zsize.getD a'.size = a.kw.zsize.getD a.size

/-! ## Proofs -/

theorem same_output {m m' : Micro} (h1 : m.psf = none) (h2 : m.otf = none) (h1' : m'.psf = none) (h2' : m'.otf = none)
    (ho : m'.oversample = m.oversample) (hs : m'.psfParams.size = m.psfParams.size) (hm : (Micro.modelPsf m').1 = (Micro.modelPsf m).1) :
    SameOutput m m' := by
  have hP : (Micro.getPSF m').1 = (Micro.getPSF m).1 := by
    rw [getPSF_run, getPSF_run, h1, h1', ho, hs]
    rcases e : Micro.modelPsf m with ⟨r, m1⟩
    rcases e' : Micro.modelPsf m' with ⟨r', m1'⟩
    rw [e, e'] at hm
    cases hm
    rcases r with er | b
    · rfl
    · simp only
      rcases microPsf (pyInt m.oversample) (pyInt m.psfParams.size).toNat b with er | p <;> rfl
  refine ⟨hP, ?_⟩
  rw [getOTF_run, getOTF_run, h2, h2']
  rcases e : Micro.getPSF m with ⟨r, m1⟩
  rcases e' : Micro.getPSF m' with ⟨r', m1'⟩
  rw [e, e'] at hP
  cases hP
  rcases r with er | b <;> rfl

/-- The images of two models whose lengths differ by the factor `c`. -/
theorem rescaled_images {p p' : Params} {c w na i r z : ℚ} {N nz : ℕ} {v : VecCorr} {cd : Condition} (hc : 0 < c)
    (hO : Optics p w na i r N ((List.range nz).map (plane nz z)) v cd)
    (hO' : Optics p' (c * w) na i (c * r) N ((List.range nz).map (plane nz (c * z))) v cd) (hw : 0 < w) (hna : 0 < na) (hi : 0 < i) (hr : r ≠ 0)
    (hN : 0 < N) (hnz : 0 < nz) (hv : v ≠ .z) : SameImages ⟨p, none⟩ ⟨p', none⟩ := by
  have hf : (⟨p, none⟩ : HSpec).Fits := fun P v h => by cases h
  obtain ⟨b, hb, -, -⟩ := hanser_total_pos ⟨p, none⟩ rfl hO hw hna hi hr hN (by simp; omega) hv
  rcases ha : (⟨p, none⟩ : HSpec).PSFa with e | t
  · rw [HSpec.PSFi, ha] at hb; cases hb
  · refine sameImages_of_PSFa ?_
    rw [ha]
    refine C79_hanser ⟨p, none⟩ ⟨p', none⟩ hf hO c hc ?_ rfl t ha
    convert hO' using 1
    rw [List.map_map]
    refine List.map_congr_left fun q _ => ?_
    simp only [Function.comp, plane]; ring

/-- The state of a widefield microscope with ordinary arguments. -/
theorem ordinary_setup {a : MicroArgs} {o n nz : ℕ} {q w na i z : ℚ} (ha : OrdinaryArgs a o n nz q w na i z) :
    ∃ h v cd, Micro.newWidefield a = .ok (Micro.mk (.int o) (ordinaryParams a n o q) a.pixelSize (.hanser h) .widefield none none) ∧
      keyword VecCorr.ofString (a.kw.vecCorr.getD (.str "none")) = .ok v ∧
      keyword Condition.ofString (a.kw.condition.getD (.str "sine")) = .ok cd ∧ v ≠ .z ∧
      Optics h.params w na i (q / o) (n * o) ((List.range nz).map (plane nz z)) v cd ∧
      (Inner.getPSFi (.hanser h)).1 = (⟨h.params, none⟩ : HSpec).PSFi ∧ (Inner.getOTFi (.hanser h)).1 = (⟨h.params, none⟩ : HSpec).OTFi := by
  obtain ⟨h, v, cd, hnew, hh, hvz, hO⟩ := widefield_setup a o n nz ha.odd q w na i z ha.hmod ha.hdual ha.hzr ha.hov ha.hsize ha.hpix ha.hwl ha.hw
    ha.hna ha.hna0 ha.hni ha.hi ha.hres ha.hz ha.hz0 ha.hzs ha.hspec ha.hvc ha.hcd
  have hl := constructed_live (Or.inl ⟨_, hnew⟩)
  obtain ⟨l, x, z', vc, cd1, a1, a2, a3, a4, a4', a4'', a5, a6, a6', a7, a8, a9, e⟩ := (hanser_new_iff _ none h).mp hh
  have f1 := hO.vecCorr
  have f2 := hO.condition
  rw [e] at f1 f2
  cases f1; cases f2
  exact ⟨h, v, cd, hnew, a8, a9, hvz, hO, (inner_PSFi hl.model).1, (inner_OTFi hl.model).1⟩

theorem RescaledArgs.models {a a' : MicroArgs} {c : ℚ} {o n nz : ℕ} {q w na i z : ℚ} (h : RescaledArgs a a' c o n nz q w na i z) :
    ∃ k k', Micro.newWidefield a = .ok (Micro.mk (.int o) (ordinaryParams a n o q) a.pixelSize (.hanser k) .widefield none none) ∧
      Micro.newWidefield a' = .ok (Micro.mk (.int o) (ordinaryParams a' n o (c * q)) a'.pixelSize (.hanser k') .widefield none none) ∧
      (Inner.getPSFi (.hanser k')).1 = (Inner.getPSFi (.hanser k)).1 ∧ (Inner.getOTFi (.hanser k')).1 = (Inner.getOTFi (.hanser k)).1 := by
  obtain ⟨k, v, cd, h1, h2, h3, h4, h5, h6, h7⟩ := ordinary_setup h.args
  obtain ⟨k', v', cd', h1', h2', h3', h4', h5', h6', h7'⟩ := ordinary_setup h.args'
  rw [h.vecCorr, h2] at h2'; cases h2'
  rw [h.condition, h3] at h3'; cases h3'
  have ho : 0 < o := by have := h.args.odd; omega
  have hq : (0 : ℚ) < q / o := div_pos h.args.q_pos (by exact_mod_cast ho)
  rw [mul_div_assoc] at h5'
  have hs := rescaled_images h.pos h5 h5' h.args.hw h.args.hna0 h.args.hi hq.ne' (Nat.mul_pos h.args.n_pos ho) h.args.nz_pos h4
  exact ⟨k, k', h1, h1', by rw [h6', h6, hs.PSFi], by rw [h7', h7, hs.OTFi]⟩

/-- C121: widefield microscopes. -/
theorem C121_widefield (a a' : MicroArgs) (c : ℚ) (o n nz : ℕ) (q w na i z : ℚ) (h : RescaledArgs a a' c o n nz q w na i z) :
    ∃ m m' p, Micro.newWidefield a = .ok m ∧ Micro.newWidefield a' = .ok m' ∧ (Micro.getPSF m).1 = .ok p ∧ SameOutput m m' := by
  obtain ⟨k, k', h1, h2, h3, h4⟩ := h.models
  have ha := h.args
  obtain ⟨m, -, b, hm, -, -, -, -, p, hp, -⟩ := C54_widefield a o n nz ha.odd ha.n_pos ha.nz_pos q w na i z ha.q_pos.ne' ha.hmod
    ha.hdual ha.hzr ha.hov ha.hsize ha.hpix ha.hwl ha.hw ha.hna ha.hna0 ha.hni ha.hi ha.hres ha.hz ha.hz0 ha.hzs ha.hspec ha.hvc ha.hcd
  rw [h1] at hm; cases hm
  exact ⟨_, _, p, h1, h2, hp, same_output rfl rfl rfl rfl rfl rfl h3⟩

/-- C121: Apotome microscopes. -/
theorem C121_apotome (a a' : MicroArgs) (c : ℚ) (o n nz : ℕ) (q w na i z : ℚ) (h : RescaledArgs a a' c o n nz q w na i z) :
    ∃ m m', Micro.newApotome a = .ok m ∧ Micro.newApotome a' = .ok m' ∧ SameOutput m m' := by
  obtain ⟨k, k', h1, h2, h3, h4⟩ := h.models
  have ha := h.args
  have hc := h.pos
  have hw := ha.hw
  have hn := ha.hna0
  have n1 : Micro.newApotome a = .ok (Micro.mk (.int o) (ordinaryParams a n o q) a.pixelSize (.hanser k) .apotome none none) := by
    rw [Micro.newApotome, h1]; rfl
  have n2 : Micro.newApotome a' = .ok (Micro.mk (.int o) (ordinaryParams a' n o (c * q)) a'.pixelSize (.hanser k') .apotome none none) := by
    rw [Micro.newApotome, h2]; rfl
  refine ⟨_, _, n1, n2, same_output rfl rfl rfl rfl rfl rfl ?_⟩
  rw [modelPsf_apotome _ rfl, modelPsf_apotome _ rfl]
  have e : abbeLimit (ordinaryParams a' n o (c * q)).wl (ordinaryParams a' n o (c * q)).na (ordinaryParams a' n o (c * q)).size
      (ordinaryParams a' n o (c * q)).res = abbeLimit (ordinaryParams a n o q).wl (ordinaryParams a n o q).na (ordinaryParams a n o q).size
      (ordinaryParams a n o q).res := by
    have d : ∀ (b : MicroArgs) (r : ℚ), Denotes (ordinaryParams b n o r).size (n * o : ℕ) ∧ Denotes (ordinaryParams b n o r).res (r / o) :=
      fun b r => ⟨by simp [ordinaryParams, Denotes, PyVal.num?], rfl⟩
    have k1 : Denotes (ordinaryParams a n o q).wl w := ha.hwl
    have k2 : Denotes (ordinaryParams a n o q).na na := ha.hna
    have k3 : Denotes (ordinaryParams a' n o (c * q)).wl (c * w) := h.args'.hwl
    have k4 : Denotes (ordinaryParams a' n o (c * q)).na na := h.args'.hna
    rw [abbeLimit_fin k1 k2 (d a q).1 (d a q).2 ha.hw ha.hna0, abbeLimit_fin k3 k4 (d a' (c * q)).1 (d a' (c * q)).2 h.args'.hw h.args'.hna0]
    congr 2
    field_simp
  simp only [h3, e]

/-- C121: confocal microscopes: the excitation wavelength is a length, the pinhole (in Airy units) is not. -/
theorem C121_confocal (a a' : MicroArgs) (c : ℚ) (o n nz : ℕ) (q w na i z : ℚ) (h : RescaledArgs a a' c o n nz q w na i z)
    (wlExc wlExc' pinhole : PyVal) (l ph : ℚ) (hl : Denotes wlExc l) (hl' : Denotes wlExc' (c * l)) (hl0 : 0 < l) (hph : Denotes pinhole ph) (m m' : Micro)
    (hm : Micro.newConfocal a wlExc pinhole = .ok m) (hm' : Micro.newConfocal a' wlExc' pinhole = .ok m') : SameOutput m m' := by
  obtain ⟨k, k2, v, cd, kv, kc, hvz, e1, e2, e3, e4, e5, e6, hO, hO2, g1, g2⟩ := confocal_setup h.args hl hm
  obtain ⟨k', k2', v', cd', kv', kc', hvz', e1', e2', e3', e4', e5', e6', hO', hO2', g1', g2'⟩ := confocal_setup h.args' hl' hm'
  rw [h.vecCorr, kv] at kv'; cases kv'
  rw [h.condition, kc] at kc'; cases kc'
  have ha := h.args
  have hc := h.pos
  have ho : 0 < o := by have := ha.odd; omega
  have hoq : (0 : ℚ) < o := by exact_mod_cast ho
  have hq : (0 : ℚ) < q / o := div_pos ha.q_pos hoq
  have hq0 := ha.q_pos
  have hN := Nat.mul_pos ha.n_pos ho
  rw [mul_div_assoc] at hO' hO2'
  have s1 := rescaled_images hc hO hO' ha.hw ha.hna0 ha.hi hq.ne' hN ha.nz_pos hvz
  have s2 := rescaled_images hc hO2 hO2' hl0 ha.hna0 ha.hi hq.ne' hN ha.nz_pos hvz
  refine same_output e5 e6 e5' e6' (e3'.trans e3.symm) (e4'.trans e4.symm) ?_
  have r1 := pinholeRadius_fin (p := m.model.params) (by rw [e1]; exact hO.wl) (by rw [e1]; exact hO.na) (by rw [e1]; exact hO.res) hph ha.hna0.ne' hq.ne'
  have r2 := pinholeRadius_fin (p := m'.model.params) (by rw [e1']; exact hO'.wl) (by rw [e1']; exact hO'.na) (by rw [e1']; exact hO'.res) hph ha.hna0.ne'
    (mul_ne_zero hc.ne' hq.ne')
  have r3 : ph * (61 / 50 * (c * w) / na / (c * (q / o))) / 2 = ph * (61 / 50 * w / na / (q / o)) / 2 := by
    field_simp
  rw [r3] at r2
  rw [modelPsf_confocal m _ _ _ e2, modelPsf_confocal m' _ _ _ e2', r1, r2, g1, g2, g1', g2', s1.PSFi, s2.PSFi]

theorem simFiltered_congr {m m' : Micro} (h1 : (Inner.getPSFi m'.model).1 = (Inner.getPSFi m.model).1)
    (h2 : (Inner.getOTFi m'.model).1 = (Inner.getOTFi m.model).1) (w : PyVal) : (Micro.simFiltered w m').1 = (Micro.simFiltered w m).1 := by
  unfold Micro.simFiltered
  by_cases hw : w = .none
  · rw [if_pos hw]; exact h1
  · rw [if_neg hw]
    simp only [PyM.bind_apply, PyM.lift_apply]
    rcases pyNum w with e | f
    · rfl
    · simp only
      by_cases hf : PyFloat.ge f (.fin 0) = true
      · simp only [hf, if_true, PyM.bind_apply, Micro.onModel, h2]
        rcases (Inner.getOTFi m.model).1 with e | t
        · rfl
        · cases f <;> rfl
      · simp only [hf]; rfl

/-- The pattern does not depend on the unit of length. -/
theorem simPsf_unit (s s' : SimNum) (c : ℝ) (hc : c ≠ 0) (h1 : s'.size = s.size) (h2 : s'.zsize = s.zsize) (h3 : s'.res = c * s.res)
    (h4 : s'.zres = c * s.zres) (h5 : s'.freq = s.freq / c) (h6 : s'.alpha = s.alpha) (co dc ds : Bool) (os : List ℝ) (p : Arr ℝ) :
    simPsf s' co dc ds os p = simPsf s co dc ds os p := by
  have ez : ∀ iz, s'.z iz * s'.freq = s.z iz * s.freq := by
    intro iz; simp only [SimNum.z, h2, h4, h5]; field_simp
  have eb : ∀ t o iz iy ix, s'.beam t o iz iy ix = s.beam t o iz iy ix := by
    intro t o iz iy ix
    have : (s'.rr o iy ix * Real.sin t + s'.z iz * Real.cos t) * s'.freq = (s.rr o iy ix * Real.sin t + s.z iz * Real.cos t) * s.freq := by
      simp only [SimNum.rr, SimNum.x, SimNum.z, h1, h2, h3, h4, h5]; field_simp
    rw [SimNum.beam, SimNum.beam, this]
  have e0 : ∀ iz, s'.base dc iz = s.base dc iz := by intro iz; simp only [SimNum.base, ez]
  have ea : ∀ o iz iy ix e, s'.addBeams o iz iy ix e = s.addBeams o iz iy ix e := by
    intro o iz iy ix e; simp only [SimNum.addBeams, eb, h6]
  have ei : ∀ v iz iy ix, s'.incoherent dc ds os v iz iy ix = s.incoherent dc ds os v iz iy ix := by
    intro v iz iy ix; simp only [SimNum.incoherent, ea, e0]
  have ec : ∀ v iz iy ix, s'.coherent dc os v iz iy ix = s.coherent dc os v iz iy ix := by
    intro v iz iy ix; simp only [SimNum.coherent, ea, e0]
  simp only [simPsf, h1, h2, ei, ec]

theorem newSIM_eq {a : MicroArgs} {na wl w co dc ds : PyVal} {os : List ℝ} {m : Micro}
    (h : Micro.newSIM a na wl w co dc ds os = .ok m) : ∃ m', Micro.newWidefield a = .ok m' ∧ m = { m' with
      kind := .sim (if na = .none then m'.psfParams.na else na) (if wl = .none then m'.psfParams.wl else wl) co dc ds os w } := by
  have st : ∀ {t : PyVal → Bool} {v : PyVal} {x : Option PyVal}, numericSet t none v = .ok x → x.getD v = v := by
    intro t v x hx
    cases x with
    | none => rfl
    | some u => exact (numericSet_some hx).1
  unfold Micro.newSIM at h
  obtain ⟨m', h', h⟩ := py_bind_ok h
  obtain ⟨x1, k1, h⟩ := py_bind_ok h
  obtain ⟨x2, k2, h⟩ := py_bind_ok h
  obtain ⟨x3, k3, h⟩ := py_bind_ok h
  obtain ⟨x4, k4, h⟩ := py_bind_ok h
  obtain ⟨x5, k5, h⟩ := py_bind_ok h
  obtain ⟨x6, -, h⟩ := py_bind_ok h
  cases x6
  · cases h
    refine ⟨m', h', ?_⟩
    simp only [st k1, st k2, st k3, st k4, st k5]
  · cases h

/-- C121: structured illumination: `na_exc` (default: `na`) and the Wiener parameter are numbers, `wl_exc` (default: `wl`) is a length. -/
theorem C121_sim (a a' : MicroArgs) (c : ℚ) (o n nz : ℕ) (q w na i z : ℚ) (h : RescaledArgs a a' c o n nz q w na i z)
    (naExc naExc' wlExc wlExc' wiener co dc ds : PyVal) (os : List ℝ) (e l : ℚ) (he : Denotes (if naExc = .none then a.na else naExc) e)
    (he' : Denotes (if naExc' = .none then a'.na else naExc') e) (hl : Denotes (if wlExc = .none then a.wl else wlExc) l)
    (hl' : Denotes (if wlExc' = .none then a'.wl else wlExc') (c * l)) (hl0 : 0 < l) (m m' : Micro)
    (hm : Micro.newSIM a naExc wlExc wiener co dc ds os = .ok m) (hm' : Micro.newSIM a' naExc' wlExc' wiener co dc ds os = .ok m') :
    SameOutput m m' := by
  obtain ⟨k, k', h1, h2, h3, h4⟩ := h.models
  obtain ⟨m0, g0, rfl⟩ := newSIM_eq hm
  obtain ⟨m0', g0', rfl⟩ := newSIM_eq hm'
  rw [h1] at g0; cases g0
  rw [h2] at g0'; cases g0'
  refine same_output rfl rfl rfl rfl rfl rfl ?_
  rw [modelPsf_sim _ _ _ _ _ _ _ _ rfl, modelPsf_sim _ _ _ _ _ _ _ _ rfl]
  have hf : ∀ (K K' : Kind Inner), (Micro.simFiltered wiener (Micro.mk (.int o) (ordinaryParams a' n o (c * q)) a'.pixelSize (.hanser k') K' none none)).1 =
      (Micro.simFiltered wiener (Micro.mk (.int o) (ordinaryParams a n o q) a.pixelSize (.hanser k) K none none)).1 := fun K K' =>
    simFiltered_congr (m := Micro.mk _ _ _ (.hanser k) K none none) (m' := Micro.mk _ _ _ (.hanser k') K' none none) h3 h4 wiener
  simp only [hf (.sim (if naExc = .none then (ordinaryParams a n o q).na else naExc) (if wlExc = .none then (ordinaryParams a n o q).wl else wlExc)
    co dc ds os wiener)]
  have hc := h.pos
  have hi := h.args.hi
  have num : ∀ (b : MicroArgs) (r zr lx : ℚ) (vn vl : PyVal), b.kw.zsize.getD b.size = a.kw.zsize.getD a.size → Denotes b.ni i →
      Denotes (b.kw.zres.getD b.pixelSize) zr → Denotes vn e → Denotes vl lx → 0 < lx →
      Micro.simNum (ordinaryParams b n o r) vn vl = (do
        let Z ← Micro.arangeLen (a.kw.zsize.getD a.size)
        if -1 ≤ e / i ∧ e / i ≤ 1 then
          return ⟨n * o, Z, ((r / o : ℚ) : ℝ), zr, 2 * Real.pi * ((i / lx : ℚ) : ℝ), Real.arcsin ((e / i : ℚ) : ℝ)⟩
        else throw .nan) := by
    intro b r zr lx vn vl j1 j2 j3 j4 j5 j6
    have hfin : finReals [PyFloat.fin (r / o), .fin zr, .fin (i / lx), .fin (e / i)] =
      .ok [((r / o : ℚ) : ℝ), (zr : ℝ), ((i / lx : ℚ) : ℝ), ((e / i : ℚ) : ℝ)] := finReals_fin [r / o, zr, i / lx, e / i]
    unfold Denotes at j2 j3 j4 j5
    have j0 : PyVal.num? (.float (.fin (r / o))) = some (.fin (r / o)) := rfl
    unfold Micro.simNum
    have hs : Micro.arangeLen (.int (n * o)) = .ok (n * o) := by
      simp only [Micro.arangeLen, PyVal.isInt, if_true, pyInt]
      exact congrArg _ (by exact_mod_cast Int.toNat_natCast (n * o))
    simp only [ordinaryParams, j1, hs, bind, Except.bind, pyNum_of_num j0, pyNum_of_num j2, pyNum_of_num j3, pyNum_of_num j4, pyNum_of_num j5]
    rcases Micro.arangeLen (a.kw.zsize.getD a.size) with er | Z
    · rfl
    · simp only [PyFloat.div, hi.ne', j6.ne', if_false, hfin, List.getD_cons_zero, List.getD_cons_succ]
  have q1 := num a q z l _ _ rfl h.args.hni h.args.hz he hl hl0
  have q2 := num a' (c * q) (c * z) (c * l) _ _ h.zsize h.args'.hni h.args'.hz he' hl' (mul_pos hc hl0)
  have q1' : Micro.simNum (ordinaryParams a n o q) (if naExc = .none then (ordinaryParams a n o q).na else naExc)
    (if wlExc = .none then (ordinaryParams a n o q).wl else wlExc) = _ := q1
  have q2' : Micro.simNum (ordinaryParams a' n o (c * q)) (if naExc' = .none then (ordinaryParams a' n o (c * q)).na else naExc')
    (if wlExc' = .none then (ordinaryParams a' n o (c * q)).wl else wlExc') = _ := q2
  simp only [q1', q2']
  rcases Micro.arangeLen (a.kw.zsize.getD a.size) with er | Z
  · rfl
  · simp only [bind, Except.bind]
    by_cases hr : -1 ≤ e / i ∧ e / i ≤ 1
    · rw [if_pos hr, if_pos hr]
      simp only [pure, Except.pure]
      rcases (Micro.simFiltered wiener _).1 with er | b
      · rfl
      · simp only
        have hcR : (c : ℝ) ≠ 0 := by exact_mod_cast hc.ne'
        apply simPsf_unit (c := (c : ℝ)) (hc := hcR)
        · rfl
        · rfl
        · push_cast; ring
        · push_cast; ring
        · push_cast; field_simp
        · rfl
    · rw [if_neg hr, if_neg hr]

/-- The demo microscope in micrometres. -/
def demoMicroArgsMicrometre : MicroArgs := { demoMicroArgs with wl := .float (.fin (520 / 1000)), pixelSize := .float (.fin (130 / 1000)) }

/-- Non-vacuity: nanometres and micrometres. -/
theorem demo_rescaled : RescaledArgs demoMicroArgs demoMicroArgsMicrometre (1 / 1000) 3 64 64 130 520 (17/20) 1 130 where
  pos := by norm_num
  args := by exact_mod_cast demoArgs_ordinary 520 (by norm_num)
  args' :=
    { odd := rfl
      n_pos := by norm_num
      nz_pos := by norm_num
      q_pos := by norm_num
      hmod := rfl
      hdual := rfl
      hzr := rfl
      hov := rfl
      hsize := rfl
      hpix := by norm_num [demoMicroArgsMicrometre]
      hwl := by norm_num [demoMicroArgsMicrometre, Denotes, PyVal.num?]
      hw := by norm_num
      hna := by norm_num [demoMicroArgsMicrometre, demoMicroArgs, Denotes, PyVal.num?]
      hna0 := by norm_num
      hni := by norm_num [demoMicroArgsMicrometre, demoMicroArgs, Denotes, PyVal.num?]
      hi := by norm_num
      hres := by norm_num
      hz := by norm_num [demoMicroArgsMicrometre, demoMicroArgs, Denotes, PyVal.num?]
      hz0 := by norm_num
      hzs := Or.inl rfl
      hspec := by constructor <;> simp [demoMicroArgsMicrometre, demoMicroArgs, NotSpecial, PsfParams.initArgs]
      hvc := by simp [demoMicroArgsMicrometre, demoMicroArgs]
      hcd := by simp [demoMicroArgsMicrometre, demoMicroArgs] }
  vecCorr := rfl
  condition := rfl
  zsize := rfl

/-- Non-vacuity of the theorem on confocal microscopes. -/
example : ∃ m m', Micro.newConfocal demoMicroArgs (.int 488) (.int 1) = .ok m ∧
    Micro.newConfocal demoMicroArgsMicrometre (.float (.fin (488 / 1000))) (.int 1) = .ok m' ∧ SameOutput m m' := by
  obtain ⟨m, hm⟩ := confocal_exists demo_rescaled.args (wlExc := .int 488) (pinhole := .int 1) (p := some (.int 1)) (p' := some (.int 488)) rfl rfl
  obtain ⟨m', hm'⟩ := confocal_exists demo_rescaled.args' (wlExc := .float (.fin (488 / 1000))) (pinhole := .int 1) (p := some (.int 1))
    (p' := some (.float (.fin (488 / 1000)))) rfl (by decide +kernel)
  exact ⟨m, m', hm, hm', C121_confocal _ _ _ _ _ _ _ _ _ _ _ demo_rescaled _ _ _ 488 1 (by norm_num [Denotes, PyVal.num?])
    (by norm_num [Denotes, PyVal.num?]) (by norm_num) (by norm_num [Denotes, PyVal.num?]) m m' hm hm'⟩

/-- Non-vacuity of the theorem on structured illumination. -/
example (os : List ℝ) : ∃ m m', Micro.newSIM3D demoMicroArgs (.float (.fin (4/5))) (.float (.fin 488)) (.float (.fin (1/2))) (.bool false) os = .ok m ∧
    Micro.newSIM3D demoMicroArgsMicrometre (.float (.fin (4/5))) (.float (.fin (488 / 1000))) (.float (.fin (1/2))) (.bool false) os = .ok m' ∧
    SameOutput m m' := by
  obtain ⟨k, k', h1, h2, -, -⟩ := demo_rescaled.models
  have n1 : numericSet Micro.isFloat none (.float (.fin (4/5))) = .ok (some (.float (.fin (4/5)))) := by decide +kernel
  have n2 : numericSet Micro.isFloat none (.float (.fin 488)) = .ok (some (.float (.fin 488))) := rfl
  have n2' : numericSet Micro.isFloat none (.float (.fin (488 / 1000))) = .ok (some (.float (.fin (488 / 1000)))) := by decide +kernel
  have n3 : ∀ b, numericSet Micro.isBool none (.bool b) = .ok (some (.bool b)) := by intro b; cases b <;> rfl
  have n4 : PyVal.ltZero (.float (.fin (1/2))) = .ok false := by decide +kernel
  have e1 : ∃ m, Micro.newSIM3D demoMicroArgs (.float (.fin (4/5))) (.float (.fin 488)) (.float (.fin (1/2))) (.bool false) os = .ok m := by
    unfold Micro.newSIM3D Micro.newSIM
    rw [h1]
    simp only [bind, Except.bind, reduceCtorEq, if_false, n1, n2, n3, n4]
    exact ⟨_, rfl⟩
  have e2 : ∃ m, Micro.newSIM3D demoMicroArgsMicrometre (.float (.fin (4/5))) (.float (.fin (488 / 1000))) (.float (.fin (1/2))) (.bool false) os = .ok m := by
    unfold Micro.newSIM3D Micro.newSIM
    rw [h2]
    simp only [bind, Except.bind, reduceCtorEq, if_false, n1, n2', n3, n4]
    exact ⟨_, rfl⟩
  obtain ⟨m, hm⟩ := e1
  obtain ⟨m', hm'⟩ := e2
  exact ⟨m, m', hm, hm', C121_sim _ _ _ _ _ _ _ _ _ _ _ demo_rescaled _ _ _ _ _ _ _ _ _ (4/5) 488 (by rw [if_neg (by simp)]; rfl)
    (by rw [if_neg (by simp)]; rfl) (by rw [if_neg (by simp)]; rfl) (by rw [if_neg (by simp)]; norm_num [Denotes, PyVal.num?]) (by norm_num) m m' hm hm'⟩

end PyOTF
