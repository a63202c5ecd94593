import Verif.Props.C56_Micro

/-!
# C53, C54, C56: ordinary widefield microscopes; non-vacuity of the theorems about microscopes
-/

namespace PyOTF

open Physics

/-- An ordinary aperture lets light through: the total of the PSF is positive. -/
theorem hanser_total_pos (s : HSpec) (hp : s.pupil = none) {w n i r : ℚ} {N : ℕ} {zs : List ℚ} {v : VecCorr} {cd : Condition}
    (ho : Optics s.params w n i r N zs v cd) (hw : 0 < w) (hn : 0 < n) (hi : 0 < i) (hr : r ≠ 0) (hN : 0 < N)
    (hz : zs ≠ []) (hv : v ≠ .z) : ∃ b, s.PSFi = .ok b ∧ b.shape = [zs.length, N, N] ∧ 0 < b.sum := by
  have hf : s.Fits := fun P v h => by rw [hp] at h; cases h
  obtain ⟨a, ha⟩ := (C76_computable s hf ho).mpr ⟨hw.ne', hr, hN, fun _ => hi.ne'⟩
  refine ⟨psfiOf a, PSFi_of ha, ?_⟩
  obtain ⟨zr, u, h1, h2, h3⟩ := C39_shape s hf _ (PSFi_of ha)
  obtain ⟨u', k1, k2⟩ := ho.size
  have hsh : (psfiOf a).shape = [zs.length, N, N] := by
    rw [h2] at k1; cases k1
    rw [ho.zrange] at h1; cases h1
    rw [h3, k2, List.length_map]
  refine ⟨hsh, ?_⟩
  have e : (psfiOf a).sum = ∑ iz ∈ Finset.range zs.length, planeEnergy (psfiOf a) N iz := by
    rw [Arr.sum, hsh]; rfl
  rw [e]
  refine Finset.sum_pos (fun iz _ => ?_) ⟨0, by simpa using List.length_pos_of_ne_nil hz⟩
  rw [C40_energy s hf _ (PSFi_of ha) ho]
  refine div_pos ?_ (by positivity)
  have hk : (0 : ℝ) < ((i / w : ℚ) : ℝ) := by exact_mod_cast div_pos hi hw
  have hl : (0 : ℝ) < ((n / w : ℚ) : ℝ) := by exact_mod_cast div_pos hn hw
  have hrad : radial N (r : ℝ) 0 0 = 0 := by simp [radial, freq, hN]
  have h0 : 0 < ‖s.pupilFn N r ((n / w : ℚ) : ℝ) 0 0‖ ^ 2 * ∑ m ∈ Finset.range (components v),
      weight N r ((i / w : ℚ) : ℝ) v cd m 0 0 ^ 2 := by
    have e1 : s.pupilFn N r ((n / w : ℚ) : ℝ) 0 0 = 1 := by
      simp only [HSpec.pupilFn, hp, aperture, hrad, hl, if_true]
    have hs : sinTheta N (r : ℝ) ((i / w : ℚ) : ℝ) 0 0 = 0 := by rw [sinTheta, hrad]; simp
    have hc : cosTheta N (r : ℝ) ((i / w : ℚ) : ℝ) 0 0 = 1 := by rw [cosTheta, hs]; norm_num
    have hsp : sinPhi N (r : ℝ) 0 0 = 0 := by simp [sinPhi, hrad]
    have hcp : cosPhi N (r : ℝ) 0 0 = 1 := by simp [cosPhi, hrad]
    have ha : apodization cd 1 = 1 := by cases cd <;> simp [apodization]
    rw [e1]
    simp only [weight, hs, hc, hsp, hcp, ha]
    cases v <;> simp_all [components, polarization, Finset.sum_range_succ]
  have nn : ∀ a c, 0 ≤ ‖s.pupilFn N r ((n / w : ℚ) : ℝ) a c‖ ^ 2 * ∑ m ∈ Finset.range (components v),
      weight N r ((i / w : ℚ) : ℝ) v cd m a c ^ 2 := fun a c =>
    mul_nonneg (sq_nonneg _) (Finset.sum_nonneg fun _ _ => sq_nonneg _)
  exact h0.trans_le ((Finset.single_le_sum (fun c _ => nn 0 c) (Finset.mem_range.mpr hN)).trans
    (Finset.single_le_sum (fun a _ => Finset.sum_nonneg fun c _ => nn a c) (Finset.mem_range.mpr hN)))

/-- The parameters handed to the PSF model. -/
def PsfParams.initArgs (p : PsfParams) : InitArgs :=
  { wl := p.wl, na := p.na, ni := p.ni, res := p.res, size := p.size, zres := p.zres, zsize := p.zsize
    vecCorr := p.kw.vecCorr.getD (.str "none"), condition := p.kw.condition.getD (.str "sine") }

/-- The `psf_params` of such a microscope. -/
def ordinaryParams (a : MicroArgs) (n o : ℕ) (q : ℚ) : PsfParams :=
  ⟨a.na, a.ni, a.wl, a.kw.zres.getD a.pixelSize, a.kw.zsize.getD a.size, .int (n * o), .float (.fin (q / o)), a.kw⟩

theorem widefield_setup (a : MicroArgs) (o n nz : ℕ) (ho : o % 2 = 1) (q w na i z : ℚ)
    (hmod : a.model = .str "hanser") (hdual : a.kw.dual = none) (hzr : a.kw.zrange = none)
    (hov : a.oversample = .int o) (hsize : a.size = .int n) (hpix : a.pixelSize = .float (.fin q))
    (hwl : Denotes a.wl w) (hw : 0 < w) (hna : Denotes a.na na) (hna0 : 0 < na) (hni : Denotes a.ni i) (hi : 0 < i)
    (hres : q / o < w / (2 * na))
    (hz : Denotes (a.kw.zres.getD a.pixelSize) z) (hz0 : 0 < z) (hzs : DenotesNat (a.kw.zsize.getD a.size) nz)
    (hspec : NoSpecialArgs (PsfParams.initArgs ⟨a.na, a.ni, a.wl, a.kw.zres.getD a.pixelSize, a.kw.zsize.getD a.size,
      .int (n * o), .float (.fin (q / o)), a.kw⟩))
    (hvc : a.kw.vecCorr.getD (.str "none") ∈ [PyVal.str "none", .str "x", .str "y", .str "total"])
    (hcd : a.kw.condition.getD (.str "sine") ∈ [PyVal.str "none", .str "sine", .str "herschel"]) :
    ∃ h v cd, Micro.newWidefield a = .ok (Micro.mk (.int o) (ordinaryParams a n o q) a.pixelSize (.hanser h) .widefield none none) ∧
      HObj.new (ordinaryParams a n o q).initArgs none = .ok h ∧ v ≠ .z ∧
      Optics h.params w na i (q / o) (n * o) ((List.range nz).map (plane nz z)) v cd := by
  have hopos : 0 < o := by omega
  have ho0 : (o : ℚ) ≠ 0 := by exact_mod_cast hopos.ne'
  set P : PsfParams := ⟨a.na, a.ni, a.wl, a.kw.zres.getD a.pixelSize, a.kw.zsize.getD a.size,
      .int (n * o), .float (.fin (q / o)), a.kw⟩ with hP
  have zne : ∀ v : PyVal, ∀ x, Denotes v x → v ≠ .none := by
    intro v x h hh; rw [hh] at h; cases h
  have zne' : ∀ v : PyVal, ∀ x, DenotesNat v x → v ≠ .none := by
    rintro v x (h | ⟨h, -⟩ | ⟨h, -⟩) hh <;> rw [hh] at h <;> cases h
  have hg : GoodArgs P.initArgs w na i (q / o) z (n * o) nz := by
    refine ⟨⟨hwl, hw⟩, ⟨hna, hna0⟩, ⟨hni, hi.le⟩, ⟨rfl, hres⟩, Or.inl ?_, ⟨?_, hz0⟩, ?_, ?_, hcd⟩
    · simp [PsfParams.initArgs, hP]
    · simp only [PsfParams.initArgs, hP, if_neg (zne _ _ hz)]; exact hz
    · simp only [PsfParams.initArgs, hP, if_neg (zne' _ _ hzs)]; exact hzs
    · simp only [PsfParams.initArgs, hP]
      revert hvc
      simp only [List.mem_cons, List.not_mem_nil, or_false]
      tauto
  obtain ⟨h, hh⟩ := (C34_hanser_accepts P.initArgs hspec none).mpr ⟨_, _, _, _, _, _, _, hg⟩
  have hcm : chooseModel (.str "hanser") P = .ok (.hanser h) := by
    have e : ("hanser" : String).toLower = "hanser" := by decide +kernel
    have : chooseModel (.str "hanser") P = (do return .hanser (← HObj.new P.initArgs P.kw.zrange)) := by
      simp only [chooseModel, e, if_true]
      rw [if_neg (by rw [show P.kw.dual = none from hdual]; simp)]
      rfl
    rw [this, show P.kw.zrange = none from hzr, hh]; rfl
  have hnew : Micro.newWidefield a = .ok (Micro.mk (.int o) P a.pixelSize (.hanser h) .widefield none none) := by
    rw [C55_accepted a o (by omega) (by omega) hov n _ hsize hpix]
    have hres' : PyVal.float (if (o : ℤ) = 1 then .fin q else ((PyFloat.fin q).div (.fin ((o : ℤ) : ℚ))).toOption.getD .nan) =
        .float (.fin (q / o)) := by
      by_cases h1 : o = 1
      · subst h1; simp
      · rw [if_neg (by exact_mod_cast h1)]
        simp [PyFloat.div, ho0, Except.toOption]
    simp only [hres']
    have : (⟨a.na, a.ni, a.wl, a.kw.zres.getD a.pixelSize, a.kw.zsize.getD a.size,
      .int ((n : ℤ) * (o : ℤ)), .float (.fin (q / o)), a.kw⟩ : PsfParams) = P := by rw [hP]
    rw [this, hmod, hcm, hov]
    rfl
  obtain ⟨v, cd, k1, k2, hO⟩ := C76_constructed P.initArgs h hh hg
  have hvz : v ≠ .z := by
    rintro rfl
    simp only [PsfParams.initArgs, hP] at k1
    simp only [List.mem_cons, List.not_mem_nil, or_false] at hvc
    rcases hvc with e | e | e | e <;> rw [e] at k1 <;> cases k1
  exact ⟨h, v, cd, hnew, hh, hvz, hO⟩

/-- C54: an ordinary widefield microscope with a Hanser model: a camera of `n` x `n` pixels of size `q`, `nz` planes,
odd oversampling `o`.  It can be constructed, its PSF can be read, has shape (nz, n, n), and pixel `(y, x)` of plane `z` is the
sum of the intensities of the `o` x `o` points around the pixel centre on the grid of spacing `q / o`, divided by the total. -/
theorem C54_widefield (a : MicroArgs) (o n nz : ℕ) (ho : o % 2 = 1) (hn0 : 0 < n) (hnz : 0 < nz) (q w na i z : ℚ)
    (hq0 : q ≠ 0) (hmod : a.model = .str "hanser") (hdual : a.kw.dual = none) (hzr : a.kw.zrange = none)
    (hov : a.oversample = .int o) (hsize : a.size = .int n) (hpix : a.pixelSize = .float (.fin q))
    (hwl : Denotes a.wl w) (hw : 0 < w) (hna : Denotes a.na na) (hna0 : 0 < na) (hni : Denotes a.ni i) (hi : 0 < i)
    (hres : q / o < w / (2 * na))
    (hz : Denotes (a.kw.zres.getD a.pixelSize) z) (hz0 : 0 < z) (hzs : DenotesNat (a.kw.zsize.getD a.size) nz)
    (hspec : NoSpecialArgs (PsfParams.initArgs ⟨a.na, a.ni, a.wl, a.kw.zres.getD a.pixelSize, a.kw.zsize.getD a.size,
      .int (n * o), .float (.fin (q / o)), a.kw⟩))
    (hvc : a.kw.vecCorr.getD (.str "none") ∈ [PyVal.str "none", .str "x", .str "y", .str "total"])
    (hcd : a.kw.condition.getD (.str "sine") ∈ [PyVal.str "none", .str "sine", .str "herschel"]) :
    ∃ m h b, Micro.newWidefield a = .ok m ∧ m.model = .hanser h ∧ (HObj.getPSFi h).1 = .ok b ∧
      b.shape = [nz, n * o, n * o] ∧ 0 < b.sum ∧ ∃ p, (Micro.getPSF m).1 = .ok p ∧ p.shape = [nz, n, n] ∧
      ∀ z < nz, ∀ y < n, ∀ x < n, p.get [z, y, x] = superPixel o n (fun i j => b.get [z, i, j]) y x / b.sum := by
  have hopos : 0 < o := by omega
  have ho0 : (o : ℚ) ≠ 0 := by exact_mod_cast hopos.ne'
  obtain ⟨h, v, cd, hnew, hh, hvz, hO⟩ := widefield_setup a o n nz ho q w na i z hmod hdual hzr hov hsize hpix hwl hw hna hna0
    hni hi hres hz hz0 hzs hspec hvc hcd
  set P := ordinaryParams a n o q with hP
  obtain ⟨b, hb, hbs, hpos⟩ := hanser_total_pos ⟨h.params, none⟩ rfl hO hw hna0 hi (div_ne_zero hq0 ho0)
    (Nat.mul_pos hn0 hopos) (by simp; omega) hvz
  have hlen : ((List.range nz).map (plane nz z)).length = nz := by simp
  rw [hlen] at hbs
  have hrel : HRel h ⟨h.params, none⟩ := by
    obtain ⟨r1, r2⟩ := hanser_ready hh
    rw [r2]; exact HRel.cleared r1
  have hget : (HObj.getPSFi h).1 = .ok b := by rw [(getPSFi_rel hrel).1, hb]
  refine ⟨_, h, b, hnew, rfl, hget, hbs, hpos, ?_⟩
  obtain ⟨p, e1, e2, e3⟩ := C54_super_pixel o n nz ho b hbs hpos.ne'
  refine ⟨p, ?_, e2, e3⟩
  rw [getPSF_run]
  simp only []
  have hmp : Micro.modelPsf (Micro.mk (.int o) P a.pixelSize (.hanser h) .widefield none none) = ((HObj.getPSFi h).1,
      Micro.mk (.int o) P a.pixelSize (.hanser (HObj.getPSFi h).2) .widefield none none) := rfl
  rw [hmp, hget]
  have e4 : (pyInt P.size).toNat = n * o := by
    simp only [hP, ordinaryParams, pyInt]
    exact_mod_cast Int.toNat_natCast (n * o)
  simp only [e4]
  rw [show pyInt (.int (o : ℤ)) = (o : ℤ) from rfl, e1]

/-- `WidefieldMicroscope(model="hanser", na=0.85, ni=1.0, wl=520, size=64, pixel_size=130.0, oversample_factor=3)` -/
def demoMicroArgs : MicroArgs :=
  { model := .str "hanser", na := .float (.fin (17/20)), ni := .float (.fin 1), wl := .int 520, size := .int 64
    pixelSize := .float (.fin 130), oversample := .int 3 }

/-- Non-vacuity of C53, C54: this microscope exists and has a PSF. -/
theorem demoMicro : ∃ m h b p, Micro.newWidefield demoMicroArgs = .ok m ∧ m.model = .hanser h ∧
    (HObj.getPSFi h).1 = .ok b ∧ b.shape = [64, 192, 192] ∧ (Micro.getPSF m).1 = .ok p ∧ p.shape = [64, 64, 64] := by
  obtain ⟨m, h, b, h1, h2, h3, h4, -, p, h5, h6, -⟩ := C54_widefield demoMicroArgs 3 64 64 rfl (by norm_num) (by norm_num)
    130 520 (17/20) 1 130 (by norm_num) rfl rfl rfl rfl rfl rfl (by norm_num [demoMicroArgs, Denotes, PyVal.num?])
    (by norm_num) (by norm_num [demoMicroArgs, Denotes, PyVal.num?]) (by norm_num)
    (by norm_num [demoMicroArgs, Denotes, PyVal.num?]) (by norm_num) (by norm_num)
    (by norm_num [demoMicroArgs, Denotes, PyVal.num?]) (by norm_num) (Or.inl rfl)
    (by constructor <;> simp [demoMicroArgs, NotSpecial, PsfParams.initArgs]) (by simp [demoMicroArgs]) (by simp [demoMicroArgs])
  exact ⟨m, h, b, p, h1, h2, h3, h4, h5, h6⟩

/-- C56: a stale PSF really differs: there is a microscope whose `PSF`, read before and after `m.model.zrange = [0.0]`, has 64
planes, while the same microscope without caches has a PSF of a single plane. -/
theorem C56_stale_differs : ∃ (m : Micro) (p p' : Arr ℝ) (ops : List UOp), Constructed m ∧
    (Micro.getPSF m).1 = .ok p ∧ (Micro.getPSF (runHistory Micro.ustep (Micro.getPSF m).2 ops).2).1 = .ok p ∧
    (runHistory MSpec.ustep m.spec ops).2.PSF = .ok p' ∧ p.shape = [64, 64, 64] ∧ p'.shape = [1, 64, 64] := by
  obtain ⟨m, h, b, p, h1, h2, h3, h4, h5, h6⟩ := demoMicro
  have hc : Constructed m := Or.inl ⟨_, h1⟩
  have hst := (C56_stale m [UOp.model (.h (.setZrange (.seq [.fin 0])))] (by simp [Unnoticed])).1 p h5
  obtain ⟨h', v, cd, hnew, hh, hvz, hO⟩ := widefield_setup demoMicroArgs 3 64 64 rfl
    130 520 (17/20) 1 130 rfl rfl rfl rfl rfl rfl (by norm_num [demoMicroArgs, Denotes, PyVal.num?])
    (by norm_num) (by norm_num [demoMicroArgs, Denotes, PyVal.num?]) (by norm_num)
    (by norm_num [demoMicroArgs, Denotes, PyVal.num?]) (by norm_num) (by norm_num)
    (by norm_num [demoMicroArgs, Denotes, PyVal.num?]) (by norm_num) (Or.inl rfl)
    (by constructor <;> simp [demoMicroArgs, NotSpecial, PsfParams.initArgs]) (by simp [demoMicroArgs]) (by simp [demoMicroArgs])
  rw [h1] at hnew
  have hm : m = _ := Except.ok.inj hnew
  have hO' : Optics { h'.params with zrange := some ([(0 : ℚ)].map PyFloat.fin) } 520 (17/20) 1 (130 / (3 : ℕ)) (64 * 3) [0] v cd :=
    ⟨hO.wl, hO.na, hO.ni, hO.res, hO.size, rfl, hO.vecCorr, hO.condition⟩
  obtain ⟨b', hb, hbs, hpos⟩ := hanser_total_pos ⟨_, none⟩ rfl hO' (by norm_num) (by norm_num) (by norm_num) (by norm_num)
    (by norm_num) (by simp) hvz
  obtain ⟨p', e1, e2, -⟩ := C54_super_pixel 3 64 1 rfl b' hbs hpos.ne'
  refine ⟨m, p, p', _, hc, h5, hst, ?_, h6, e2⟩
  rw [hm]
  have : (runHistory MSpec.ustep (Micro.mk (.int (3 : ℕ)) (ordinaryParams demoMicroArgs 64 3 130) demoMicroArgs.pixelSize
      (.hanser h') .widefield none none).spec [UOp.model (.h (.setZrange (.seq [.fin 0])))]).2.PSF =
      (HSpec.PSFi ⟨{ h'.params with zrange := some ([(0 : ℚ)].map PyFloat.fin) }, none⟩).bind (microPsf 3 (64 * 3)) := rfl
  rw [this, hb]
  exact e1

end PyOTF
