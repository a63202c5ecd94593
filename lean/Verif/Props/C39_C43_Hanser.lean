import Verif.Props.C34_C37_Params
import Verif.Lemmas.SheppardForm

/-!
# C39-C43, C76: what a `HanserPSF` computes

The statements are about the outputs of a state (parameters and applied pupil) of a `HanserPSF`; by C31 these
are what reading the attributes returns after any history that leads to that state.
-/

namespace PyOTF

open Physics

/-- An applied pupil has the size of the images. -/
def HSpec.Fits (s : HSpec) : Prop := ∀ P v, s.pupil = some P → s.params.size = some v → P.shape = [pyNat v, pyNat v]

/-- The pupil in force: the applied one or the ideal aperture of radius `l`. -/
noncomputable def HSpec.pupilFn (s : HSpec) (N : ℕ) (r l : ℝ) (i j : ℕ) : ℂ :=
  match s.pupil with
  | none => aperture N r l i j
  | some P => P.get [i, j]

theorem components_eq (h : HanserNum) : h.ncomp = components h.vecCorr := by
  unfold HanserNum.ncomp components; cases h.vecCorr <;> rfl

/-! ## C76 -/

/-- C76: the amplitude PSF is the diffraction integral of the pupil in force. -/
theorem C76_diffraction_integral (s : HSpec) (hf : s.Fits) {w n i r : ℚ} {N : ℕ} {zs : List ℚ} {v : VecCorr}
    {cd : Condition} (ho : Optics s.params w n i r N zs v cd) (a : Arr ℂ) (ha : s.PSFa = .ok a) :
    a.shape = [components v, zs.length, N, N] ∧
    ∀ c iz y x, a.get [c, iz, y, x] =
      amplitude N r ((i / w : ℚ) : ℝ) v cd (s.pupilFn N r ((n / w : ℚ) : ℝ)) (((zs.getD iz 0 : ℚ)) : ℝ) c y x := by
  obtain ⟨h, hN, hsh, hget⟩ := genPsf_closed ha hf
  obtain ⟨-, -, -, rfl⟩ := ho.num hN
  refine ⟨by rw [hsh, components_eq]; simp, fun c iz y x => ?_⟩
  rw [hget, amplitude]
  refine field_congr (fun i' _ j' _ => ?_) y x
  have hz : (zs.map fun (q : ℚ) => (q : ℝ)).getD iz 0 = ((zs.getD iz 0 : ℚ) : ℝ) := by
    rw [List.getD_eq_getElem?_getD, List.getD_eq_getElem?_getD, List.getElem?_map]
    cases zs[iz]? <;> simp
  rw [pupilAt_eq]
  simp only [hz]
  congr 2
  unfold HSpec.pupilFn
  cases s.pupil with
  | none => exact idealPupil_eq _ rfl i' j'
  | some P => rfl

/-- C76: when it can be computed: the wavelength, the pixel size and the number of pixels are not zero, and neither
is the refractive index if the directions of the waves matter. -/
theorem C76_computable (s : HSpec) (hf : s.Fits) {w n i r : ℚ} {N : ℕ} {zs : List ℚ} {v : VecCorr}
    {cd : Condition} (ho : Optics s.params w n i r N zs v cd) :
    (∃ a, s.PSFa = .ok a) ↔ w ≠ 0 ∧ r ≠ 0 ∧ 0 < N ∧ ((v ≠ .none ∨ cd ≠ .none) → i ≠ 0) := by
  constructor
  · rintro ⟨a, ha⟩
    obtain ⟨h, hN, -, -⟩ := genPsf_closed ha hf
    obtain ⟨h1, h2, h3, h4⟩ := ho.num hN
    refine ⟨h1, h2, h3, fun hv hi => ?_⟩
    have := hN.usesTheta
    rw [h4] at this
    refine this ?_ (by simp [hi])
    rcases hv with hv | hv <;> simp [HanserNum.usesTheta, hv]
  · rintro ⟨h1, h2, h3, h4⟩
    have hN := ho.numbersOf h1 h2 h3 h4
    rcases hp : s.pupil with _ | P
    · exact ⟨_, by rw [HSpec.PSFa, hp]; exact genPsf_none_of hN⟩
    · obtain ⟨u, hu, hu'⟩ := ho.size
      exact ⟨_, by rw [HSpec.PSFa, hp]; exact genPsf_some_of hN (by rw [hf P u hp hu, hu'])⟩

/-- C76: a model constructed with good arguments and the default planes has such parameters. -/
theorem C76_constructed (a : InitArgs) (o : HObj) (ho : HObj.new a none = .ok o)
    {w n i r z : ℚ} {N nz : ℕ} (hg : GoodArgs a w n i r z N nz) : ∃ v cd,
    keyword VecCorr.ofString a.vecCorr = .ok v ∧ keyword Condition.ofString a.condition = .ok cd ∧
    Optics o.params w n i r N ((List.range nz).map (plane nz z)) v cd := by
  obtain ⟨l, x, z', vc, cd, a1, a2, a3, a4, a4', a4'', a5, a6, a6', a7, a8, a9, rfl⟩ := (hanser_new_iff a none o).mp ho
  have hz := zresEff_denotes.mpr hg.zres.1
  have hs := zsizeEff_denotes.mpr hg.zsize
  have e : z' = .fin z := by have := hz; unfold Denotes at this; rw [this] at a6; cases a6; rfl
  subst e
  refine ⟨vc, cd, a8, a9, ⟨_, rfl, hg.wl.1⟩, ⟨_, rfl, hg.na.1⟩, ⟨_, rfl, hg.ni.1⟩, ⟨_, rfl, hg.res.1⟩,
    ⟨_, rfl, num_of_denotesNat hg.size⟩, ?_, rfl, rfl⟩
  simp only [Option.map_none, Option.getD_none, num_of_denotesNat hs, defaultZrange_fin, List.map_map]
  rfl

/-- Non-vacuity: `HanserPSF(wl=520, na=0.85, ni=1.0, res=130, size=64)` computes a PSF. -/
theorem demo_optics : ∃ o a, HObj.new demoArgs none = .ok o ∧ (⟨o.params, none⟩ : HSpec).Fits ∧
    Optics o.params 520 (17/20) 1 130 64 ((List.range 64).map (plane 64 130)) .none .sine ∧
    (⟨o.params, none⟩ : HSpec).PSFa = .ok a := by
  obtain ⟨o, ho⟩ := demoObj
  obtain ⟨v, cd, h1, h2, h3⟩ := C76_constructed demoArgs o ho demoArgs_good.2
  cases h1; cases h2
  have hf : (⟨o.params, none⟩ : HSpec).Fits := fun P v h => by cases h
  obtain ⟨a, ha⟩ := (C76_computable ⟨o.params, none⟩ hf h3).mpr ⟨by norm_num, by norm_num, by norm_num, by norm_num⟩
  exact ⟨o, a, ho, hf, h3, ha⟩

/-! ## C39 -/

theorem hanserNum_vec {p : Params} {size : ℕ} {res kmag limit : PyFloat} {h : HanserNum}
    (hn : hanserNum p size res kmag limit = .ok h) : p.vecCorr = some h.vecCorr := by
  unfold hanserNum at hn
  obtain ⟨vc, hvc, hn⟩ := py_bind_ok hn
  obtain ⟨cd, hcd, hn⟩ := py_bind_ok hn
  obtain ⟨zv, hz, hn⟩ := py_bind_ok hn
  obtain ⟨z, hz', hn⟩ := py_bind_ok hn
  obtain ⟨f, hf, hn⟩ := py_bind_ok hn
  dsimp only at hn
  split_ifs at hn with ht
  · cases hn
  · rw [← py_pure_ok hn]; exact attr_ok hvc

theorem psfa_shape (s : HSpec) (a : Arr ℂ) (ha : s.PSFa = .ok a) :
    ∃ v Z A B, s.params.vecCorr = some v ∧ a.shape = [components v, Z, A, B] := by
  unfold HSpec.PSFa hanserGenPsf at ha
  obtain ⟨⟨size, res, kmag, limit⟩, hg, ha⟩ := py_bind_ok ha
  cases hp : s.pupil with
  | none =>
    rw [hp] at ha
    obtain ⟨_, _, ha⟩ := py_bind_ok ha
    obtain ⟨_, _, ha⟩ := py_bind_ok ha
    obtain ⟨h, hn, ha⟩ := py_bind_ok ha
    rw [← py_pure_ok ha]
    exact ⟨h.vecCorr, _, _, _, hanserNum_vec hn, by simp [fftshift, ifftn, alongAxes_shape, hanserPupils, components_eq]; exact ⟨rfl, rfl, rfl⟩⟩
  | some P =>
    rw [hp] at ha
    dsimp only at ha
    split at ha
    · obtain ⟨_, _, ha⟩ := py_bind_ok ha
      obtain ⟨_, _, ha⟩ := py_bind_ok ha
      obtain ⟨_, _, ha⟩ := py_bind_ok ha
      obtain ⟨h, hn, ha⟩ := py_bind_ok ha
      rw [← py_pure_ok ha]
      exact ⟨h.vecCorr, _, _, _, hanserNum_vec hn, by simp [fftshift, ifftn, alongAxes_shape, hanserPupils, components_eq]; exact ⟨rfl, rfl, rfl⟩⟩
    · cases ha

theorem PSFi_of {s : HSpec} {a : Arr ℂ} (ha : s.PSFa = .ok a) : s.PSFi = .ok (psfiOf a) := by
  rw [HSpec.PSFi, ha]; rfl

theorem PSFi_ok {s : HSpec} {b : Arr ℝ} (hb : s.PSFi = .ok b) : ∃ a, s.PSFa = .ok a ∧ b = psfiOf a := by
  unfold HSpec.PSFi at hb
  obtain ⟨a, ha, hb⟩ := py_bind_ok hb
  exact ⟨a, ha, (py_pure_ok hb).symm⟩

/-- C39: for every state - any parameters, any pupil - the intensity PSF is available when the amplitude PSF is, and
is its squared modulus summed over the components. -/
theorem C39_intensity (s : HSpec) (a : Arr ℂ) (ha : s.PSFa = .ok a) : ∃ b C Z A B, s.PSFi = .ok b ∧
    a.shape = [C, Z, A, B] ∧ b.shape = [Z, A, B] ∧
    ∀ z y x, b.get [z, y, x] = ∑ c ∈ Finset.range C, ‖a.get [c, z, y, x]‖ ^ 2 ∧ 0 ≤ b.get [z, y, x] := by
  obtain ⟨v, Z, A, B, -, hs⟩ := psfa_shape s a ha
  refine ⟨psfiOf a, components v, Z, A, B, PSFi_of ha, hs, psfiOf_shape a _ Z A B hs, fun z y x => ?_⟩
  rw [psfiOf_get a _ Z A B hs]
  exact ⟨rfl, Finset.sum_nonneg fun c _ => by positivity⟩

/-- C39: one plane per entry of `zrange`, `size` x `size` pixels. -/
theorem C39_shape (s : HSpec) (hf : s.Fits) (b : Arr ℝ) (hb : s.PSFi = .ok b) : ∃ zr v,
    s.params.zrange = some zr ∧ s.params.size = some v ∧ b.shape = [zr.length, pyNat v, pyNat v] := by
  obtain ⟨a, ha, rfl⟩ := PSFi_ok hb
  obtain ⟨h, hN, hsh, -⟩ := genPsf_closed ha hf
  obtain ⟨zs, hz1, hz2⟩ := hN.z
  obtain ⟨v, hv1, hv2⟩ := hN.size
  refine ⟨_, v, hz1, hv1, ?_⟩
  rw [psfiOf_shape a _ _ _ _ hsh, hz2, hv2]
  simp

/-! ## C40 -/

theorem psfi_field (s : HSpec) (hf : s.Fits) (b : Arr ℝ) (hb : s.PSFi = .ok b) : ∃ h, NumbersOf s.params h ∧
    b.shape = [h.z.length, h.size, h.size] ∧ ∀ iz y x, b.get [iz, y, x] =
      ∑ c ∈ Finset.range h.ncomp, ‖field h.size h.size (h.pupilAt (h.baseOf s.pupil) c iz) y x‖ ^ 2 := by
  obtain ⟨a, ha, rfl⟩ := PSFi_ok hb
  obtain ⟨h, hN, hsh, hget⟩ := genPsf_closed ha hf
  refine ⟨h, hN, psfiOf_shape a _ _ _ _ hsh, fun iz y x => ?_⟩
  rw [psfiOf_get a _ _ _ _ hsh]
  exact Finset.sum_congr rfl fun c _ => by rw [hget]

theorem energy_eq (s : HSpec) (h : HanserNum) (hpos : 0 < h.size) (iz : ℕ) :
    ∑ y ∈ Finset.range h.size, ∑ x ∈ Finset.range h.size, ∑ c ∈ Finset.range h.ncomp,
      ‖field h.size h.size (h.pupilAt (h.baseOf s.pupil) c iz) y x‖ ^ 2 =
    (∑ i ∈ Finset.range h.size, ∑ j ∈ Finset.range h.size, ‖h.baseOf s.pupil i j‖ ^ 2 *
      ∑ c ∈ Finset.range h.ncomp, weight h.size h.res h.kmag h.vecCorr h.condition c i j ^ 2) / (h.size * h.size) := by
  have e1 : ∀ y, ∑ x ∈ Finset.range h.size, ∑ c ∈ Finset.range h.ncomp,
      ‖field h.size h.size (h.pupilAt (h.baseOf s.pupil) c iz) y x‖ ^ 2 =
      ∑ c ∈ Finset.range h.ncomp, ∑ x ∈ Finset.range h.size,
      ‖field h.size h.size (h.pupilAt (h.baseOf s.pupil) c iz) y x‖ ^ 2 := fun y => Finset.sum_comm
  simp only [e1]
  rw [Finset.sum_comm]
  simp only [field_parseval _ _ hpos hpos]
  rw [← Finset.sum_div, Finset.sum_comm]
  congr 1
  refine Finset.sum_congr rfl fun i _ => ?_
  rw [Finset.sum_comm]
  refine Finset.sum_congr rfl fun j _ => ?_
  rw [Finset.mul_sum]
  refine Finset.sum_congr rfl fun c _ => ?_
  rw [HanserNum.pupilAt, ← weight_eq, norm_mul, norm_mul, norm_mul, norm_defocus, Complex.norm_real, Complex.norm_real,
    mul_one, mul_pow, mul_pow, mul_pow, Real.norm_eq_abs, Real.norm_eq_abs, sq_abs, sq_abs]
  ring

/-- Total intensity of a plane. -/
noncomputable def planeEnergy (b : Arr ℝ) (N iz : ℕ) : ℝ :=
  ∑ y ∈ Finset.range N, ∑ x ∈ Finset.range N, b.get [iz, y, x]

/-- C40: any two planes carry the same energy - for every state whose PSF can be computed. -/
theorem C40_same_energy (s : HSpec) (hf : s.Fits) (b : Arr ℝ) (hb : s.PSFi = .ok b) (Z N : ℕ) (hsh : b.shape = [Z, N, N])
    (iz iz' : ℕ) : planeEnergy b N iz = planeEnergy b N iz' := by
  obtain ⟨h, hN, hs, hget⟩ := psfi_field s hf b hb
  rw [hs] at hsh
  simp only [List.cons.injEq, and_true] at hsh
  obtain ⟨-, rfl, -⟩ := hsh
  simp only [planeEnergy, hget, energy_eq s h hN.pos.2]

/-- C40: the energy of a plane, for ordinary parameters: the energy of the pupil, weighted by the apodisation and the
polarisation factors, divided by the number of pixels. -/
theorem C40_energy (s : HSpec) (hf : s.Fits) (b : Arr ℝ) (hb : s.PSFi = .ok b) {w n i r : ℚ} {N : ℕ} {zs : List ℚ}
    {v : VecCorr} {cd : Condition} (ho : Optics s.params w n i r N zs v cd) (iz : ℕ) :
    planeEnergy b N iz = (∑ a ∈ Finset.range N, ∑ c ∈ Finset.range N, ‖s.pupilFn N r ((n / w : ℚ) : ℝ) a c‖ ^ 2 *
      ∑ m ∈ Finset.range (components v), weight N r ((i / w : ℚ) : ℝ) v cd m a c ^ 2) / N ^ 2 := by
  obtain ⟨h, hN, hs, hget⟩ := psfi_field s hf b hb
  obtain ⟨-, -, hpos, rfl⟩ := ho.num hN
  have := energy_eq s _ hN.pos.2 iz
  simp only [planeEnergy, hget] at this ⊢
  rw [this, components_eq, sq]
  congr 1
  refine Finset.sum_congr rfl fun a _ => Finset.sum_congr rfl fun c _ => ?_
  congr 3
  unfold HSpec.pupilFn HanserNum.baseOf
  cases s.pupil with
  | none => exact idealPupil_eq _ rfl a c
  | some P => rfl

/-- C40 without corrections: the energy of every plane is the energy of the pupil divided by `size ^ 2`. -/
theorem C40_parseval (s : HSpec) (hf : s.Fits) (b : Arr ℝ) (hb : s.PSFi = .ok b) {w n i r : ℚ} {N : ℕ} {zs : List ℚ}
    (ho : Optics s.params w n i r N zs .none .none) (iz : ℕ) :
    planeEnergy b N iz =
      (∑ a ∈ Finset.range N, ∑ c ∈ Finset.range N, ‖s.pupilFn N r ((n / w : ℚ) : ℝ) a c‖ ^ 2) / N ^ 2 := by
  rw [C40_energy s hf b hb ho]
  simp [components, weight, apodization, polarization]

/-! ## C41 -/

/-- C41: the plane computed at a height does not depend on the planes it is computed with. -/
theorem C41_planes_independent (s : HSpec) (hf : s.Fits) (zr zr' : List PyFloat) (hz : s.params.zrange = some zr)
    (a a' : Arr ℂ) (ha : s.PSFa = .ok a)
    (ha' : (⟨{ s.params with zrange := some zr' }, s.pupil⟩ : HSpec).PSFa = .ok a')
    (iz iz' : ℕ) (hi : iz < zr.length) (hi' : iz' < zr'.length) (he : zr[iz] = zr'[iz']) (c y x : ℕ) :
    a.get [c, iz, y, x] = a'.get [c, iz', y, x] := by
  obtain ⟨h, hN, -, hget⟩ := genPsf_closed ha hf
  obtain ⟨h', hN', -, hget'⟩ := genPsf_closed ha' hf
  have e := hN.agree hN' rfl rfl rfl rfl rfl
  have e1 : h'.vecCorr = h.vecCorr := by
    have h1 := hN.vecCorr; have h2 := hN'.vecCorr
    simp only at h2; rw [h1] at h2; exact (Option.some.inj h2).symm
  have e2 : h'.condition = h.condition := by
    have h1 := hN.condition; have h2 := hN'.condition
    simp only at h2; rw [h1] at h2; exact (Option.some.inj h2).symm
  obtain ⟨zs, hz1, hz2⟩ := hN.z
  obtain ⟨zs', hz1', hz2'⟩ := hN'.z
  rw [hz] at hz1
  cases hz1
  simp only [Option.some.injEq] at hz1'
  subst hz1'
  have hq : h'.z.getD iz' 0 = h.z.getD iz 0 := by
    simp only [List.length_map] at hi hi'
    simp only [List.getElem_map, PyFloat.fin.injEq] at he
    rw [hz2, hz2', List.getD_eq_getElem _ _ (by simpa using hi'), List.getD_eq_getElem _ _ (by simpa using hi)]
    simp [he]
  rw [hget, hget', e, e1, e2]
  refine field_congr (fun i _ j _ => ?_) y x
  rw [pupilAt_eq, pupilAt_eq]
  simp only [hq]
  rfl

/-! ## C42 -/

/-- The same model with another `vec_corr`. -/
def HSpec.withVec (s : HSpec) (v : VecCorr) : HSpec := ⟨{ s.params with vecCorr := some v }, s.pupil⟩

theorem withVec_fits {s : HSpec} (hf : s.Fits) (v : VecCorr) : (s.withVec v).Fits := hf

theorem withVec_num {s : HSpec} {h : HanserNum} (hN : NumbersOf s.params h) (v : VecCorr) (hv : h.vecCorr ≠ .none ∨ v = .none) :
    NumbersOf (s.withVec v).params { h with vecCorr := v } := by
  obtain ⟨h1, h2, h3, h4, h5, h6, h7, h8, h9⟩ := hN
  refine ⟨h1, h2, h3, h4, h5, rfl, h7, h8, fun hu => h9 ?_⟩
  simp only [HanserNum.usesTheta] at hu ⊢
  rcases hv with hv | hv
  · simp [hv]
  · subst hv; simp at hu; simp [hu]

theorem psfi_withVec {s : HSpec} (hf : s.Fits) {h : HanserNum} (hN : NumbersOf s.params h) (v : VecCorr)
    (hv : h.vecCorr ≠ .none ∨ v = .none) : ∃ b, (s.withVec v).PSFi = .ok b ∧ b.shape = [h.z.length, h.size, h.size] ∧
      ∀ iz y x, b.get [iz, y, x] = ∑ c ∈ Finset.range (components v),
        ‖field h.size h.size (({ h with vecCorr := v } : HanserNum).pupilAt (h.baseOf s.pupil) c iz) y x‖ ^ 2 := by
  have hN' := withVec_num hN v hv
  have hok : ∃ a, (s.withVec v).PSFa = .ok a := by
    rcases hp : s.pupil with _ | P
    · exact ⟨_, by rw [HSpec.PSFa, HSpec.withVec, hp]; exact genPsf_none_of hN'⟩
    · obtain ⟨u, hu, hu'⟩ := hN.size
      exact ⟨_, by rw [HSpec.PSFa, HSpec.withVec, hp]; exact genPsf_some_of hN' (by rw [hf P u hp hu, ← hu'])⟩
  obtain ⟨a, ha⟩ := hok
  obtain ⟨g, hg, hs, hget⟩ := psfi_field _ (withVec_fits hf v) _ (PSFi_of ha)
  have e := hN'.agree hg rfl rfl rfl rfl rfl
  have e1 : g.vecCorr = v := by
    have h2 := hg.vecCorr; exact (Option.some.inj h2).symm
  have e2 : g.condition = h.condition := by
    have h1 := hN.condition; have h2 := hg.condition
    simp only [HSpec.withVec] at h2; rw [h1] at h2; exact (Option.some.inj h2).symm
  have e3 : g.z = h.z := by
    obtain ⟨zs, hz1, hz2⟩ := hN.z
    obtain ⟨zs', hz1', hz2'⟩ := hg.z
    simp only [HSpec.withVec] at hz1'
    rw [hz1] at hz1'
    have := List.map_injective_iff.mpr (fun a b hab => by injection hab) (Option.some.inj hz1')
    rw [hz2, hz2', this]
  have : g = { h with vecCorr := v } := by rw [e, e1, e2, e3]
  subst this
  refine ⟨_, PSFi_of ha, hs, fun iz y x => ?_⟩
  rw [hget, components_eq]
  rfl

/-- C42: the intensity with `vec_corr='total'` is the sum of the intensities with 'x', 'y' and 'z', for every state
(any pupil, any condition, any planes); all of them can be computed. -/
theorem C42_total_is_sum (s : HSpec) (hf : s.Fits) (hv : s.params.vecCorr = some .total) (b : Arr ℝ) (hb : s.PSFi = .ok b) :
    ∃ bx by' bz, (s.withVec .x).PSFi = .ok bx ∧ (s.withVec .y).PSFi = .ok by' ∧ (s.withVec .z).PSFi = .ok bz ∧
      bx.shape = b.shape ∧ by'.shape = b.shape ∧ bz.shape = b.shape ∧
      ∀ iz y x, b.get [iz, y, x] = bx.get [iz, y, x] + by'.get [iz, y, x] + bz.get [iz, y, x] := by
  obtain ⟨h, hN, hs, hget⟩ := psfi_field s hf b hb
  have hvt : h.vecCorr = .total := by have := hN.vecCorr; rw [hv] at this; exact (Option.some.inj this).symm
  have hne : ∀ v, h.vecCorr ≠ .none ∨ v = VecCorr.none := fun v => Or.inl (by rw [hvt]; decide)
  obtain ⟨bx, x1, x2, x3⟩ := psfi_withVec hf hN .x (hne _)
  obtain ⟨by', y1, y2, y3⟩ := psfi_withVec hf hN .y (hne _)
  obtain ⟨bz, z1, z2, z3⟩ := psfi_withVec hf hN .z (hne _)
  refine ⟨bx, by', bz, x1, y1, z1, by rw [x2, hs], by rw [y2, hs], by rw [z2, hs], fun iz y x => ?_⟩
  rw [hget, x3, y3, z3]
  have key : ∀ c v c', (∀ i j, (h.vecFactors i j).getD c 0 = (({ h with vecCorr := v } : HanserNum).vecFactors i j).getD c' 0) →
      field h.size h.size (h.pupilAt (h.baseOf s.pupil) c iz) y x =
      field h.size h.size (({ h with vecCorr := v } : HanserNum).pupilAt (h.baseOf s.pupil) c' iz) y x := by
    intro c v c' he
    refine field_congr (fun i _ j _ => ?_) y x
    simp only [HanserNum.pupilAt, he]
    rfl
  have hn : h.ncomp = 6 := by unfold HanserNum.ncomp; rw [hvt]
  have hvf : ∀ i j, ∀ c, (h.vecFactors i j).getD c 0 = (({ h with vecCorr := .total } : HanserNum).vecFactors i j).getD c 0 := by
    intro i j c; rw [← hvt]
  rw [hn]
  simp only [components, Finset.sum_range_succ, Finset.sum_range_zero, zero_add]
  rw [key 0 .z 0 (fun i j => by rw [hvf]; rfl), key 1 .z 1 (fun i j => by rw [hvf]; rfl),
    key 2 .y 0 (fun i j => by rw [hvf]; rfl), key 3 .y 1 (fun i j => by rw [hvf]; rfl),
    key 4 .x 0 (fun i j => by rw [hvf]; rfl), key 5 .x 1 (fun i j => by rw [hvf]; rfl)]
  ring

/-- The polarisation factors of all six components have square sum 2. -/
theorem polarization_total (θ φ : ℝ) :
    ∑ c ∈ Finset.range 6, (polarization .total (Real.sin θ) (Real.cos θ) (Real.sin φ) (Real.cos φ)).getD c 0 ^ 2 = 2 := by
  simp only [polarization, Finset.sum_range_succ, Finset.sum_range_zero, List.getD_cons_zero, List.getD_cons_succ]
  have h1 := Real.sin_sq_add_cos_sq θ
  have h2 := Real.sin_sq_add_cos_sq φ
  have h3 : Real.sin θ ^ 2 = 1 - Real.cos θ ^ 2 := by linarith
  have h4 : Real.sin φ ^ 2 = 1 - Real.cos φ ^ 2 := by linarith
  have h5 : Real.sin φ ^ 4 = (1 - Real.cos φ ^ 2) ^ 2 := by rw [← h4]; ring
  ring_nf
  simp only [h5, h3, h4]
  ring

/-- C42: the energy of every plane with 'total' is twice the energy with 'none'. -/
theorem C42_total_energy (s : HSpec) (hf : s.Fits) (hv : s.params.vecCorr = some .total) (b : Arr ℝ) (hb : s.PSFi = .ok b)
    (Z N : ℕ) (hsh : b.shape = [Z, N, N]) : ∃ b0, (s.withVec .none).PSFi = .ok b0 ∧ b0.shape = b.shape ∧
    ∀ iz, planeEnergy b N iz = 2 * planeEnergy b0 N iz := by
  obtain ⟨h, hN, hs, hget⟩ := psfi_field s hf b hb
  obtain ⟨b0, x1, x2, x3⟩ := psfi_withVec hf hN .none (Or.inr rfl)
  refine ⟨b0, x1, by rw [x2, hs], fun iz => ?_⟩
  rw [hs] at hsh
  simp only [List.cons.injEq, and_true] at hsh
  obtain ⟨-, rfl, -⟩ := hsh
  have hvt : h.vecCorr = .total := by have := hN.vecCorr; rw [hv] at this; exact (Option.some.inj this).symm
  have e0 := energy_eq (s.withVec .none) { h with vecCorr := .none } hN.pos.2 iz
  have e1 := energy_eq s h hN.pos.2 iz
  simp only [planeEnergy, hget, x3]
  rw [e1]
  rw [show (h.baseOf s.pupil) = ({ h with vecCorr := .none } : HanserNum).baseOf (s.withVec .none).pupil from rfl]
  refine Eq.trans ?_ (congrArg (2 * ·) e0.symm)
  simp only
  rw [← mul_div_assoc]
  congr 1
  rw [Finset.mul_sum]
  refine Finset.sum_congr rfl fun i _ => ?_
  rw [Finset.mul_sum]
  refine Finset.sum_congr rfl fun j _ => ?_
  have hn : h.ncomp = 6 := by unfold HanserNum.ncomp; rw [hvt]
  have hn0 : ({ h with vecCorr := .none } : HanserNum).ncomp = 1 := rfl
  rw [hn, hn0, hvt]
  simp only [weight, mul_pow, ← Finset.mul_sum]
  rw [← sin_theta, ← cos_theta, ← sin_phi, ← cos_phi, polarization_total]
  simp [polarization]
  ring

/-- Non-vacuity of C40-C42: the demo model with `vec_corr='total'` has an intensity PSF. -/
theorem demo_total : ∃ (s : HSpec) (b : Arr ℝ), s.Fits ∧ s.params.vecCorr = some .total ∧
    Optics s.params 520 (17/20) 1 130 64 ((List.range 64).map (plane 64 130)) .total .sine ∧ s.PSFi = .ok b := by
  obtain ⟨o, a, ho, hf, h3, ha⟩ := demo_optics
  obtain ⟨h1, h2, h4, h5, h6, h7, -, h8⟩ := h3
  have hO : Optics ((⟨o.params, none⟩ : HSpec).withVec .total).params 520 (17/20) 1 130 64
      ((List.range 64).map (plane 64 130)) .total .sine := ⟨h1, h2, h4, h5, h6, h7, rfl, h8⟩
  obtain ⟨a', ha'⟩ := (C76_computable _ (withVec_fits hf .total) hO).mpr ⟨by norm_num, by norm_num, by norm_num, by norm_num⟩
  exact ⟨_, _, withVec_fits hf .total, rfl, hO, PSFi_of ha'⟩

/-! ## C43 -/

/-- C43: number of components of the amplitude outputs of a `HanserPSF`, for every state. -/
theorem C43_hanser_components (s : HSpec) (v : VecCorr) (hv : s.params.vecCorr = some v) :
    (∀ a, s.PSFa = .ok a → ∃ Z A B, a.shape = [components v, Z, A, B]) ∧
    (∀ t, s.OTFa = .ok t → ∃ Z A B, t.shape = [components v, Z, A, B]) := by
  have key : ∀ a, s.PSFa = .ok a → ∃ Z A B, a.shape = [components v, Z, A, B] := by
    intro a ha
    obtain ⟨v', Z, A, B, h1, h2⟩ := psfa_shape s a ha
    rw [hv] at h1
    cases h1
    exact ⟨Z, A, B, h2⟩
  refine ⟨key, fun t ht => ?_⟩
  unfold HSpec.OTFa at ht
  obtain ⟨a, ha, ht⟩ := py_bind_ok ht
  unfold hanserOTFa at ht
  obtain ⟨_, _, ht⟩ := py_bind_ok ht
  obtain ⟨Z, A, B, h⟩ := key a ha
  refine ⟨Z, A, B, ?_⟩
  rw [← py_pure_ok ht, ← h]
  simp [easyFft, fftshift, fftn, ifftshift, alongAxes_shape]

/-- C43: the same for a `SheppardPSF`; its outputs have `zsize` planes of `size` x `size`. -/
theorem C43_sheppard_components (p : Params) (v sz zs : _) (hv : p.vecCorr = some v) (hsz : p.size = some sz)
    (hzs : p.zsize = some zs) :
    (∀ t, SSpec.OTFa p = .ok t → t.shape = [components v, pyNat zs, pyNat sz, pyNat sz]) ∧
    (∀ a, SSpec.PSFa p = .ok a → a.shape = [components v, pyNat zs, pyNat sz, pyNat sz]) := by
  have key : ∀ t, SSpec.OTFa p = .ok t → t.shape = [components v, pyNat zs, pyNat sz, pyNat sz] := by
    intro t ht
    obtain ⟨h, hN, rfl⟩ := sheppardGenOtf_ok ht
    obtain ⟨v1, a1, b1, -⟩ := hN.size
    obtain ⟨v2, a2, b2, -⟩ := hN.zsize
    have h3 := hN.vecCorr
    rw [hv] at h3; cases h3
    rw [hsz] at a1; cases a1
    rw [hzs] at a2; cases a2
    rw [sheppard_otf_shape, b1, b2]
    congr 1
  refine ⟨key, fun a ha => ?_⟩
  unfold SSpec.PSFa at ha
  rcases ht : SSpec.OTFa p with e | t
  · rw [ht] at ha; cases ha
  · rw [ht] at ha
    cases ha
    exact key t ht

/-- C43: the numbers themselves. -/
example : [VecCorr.none, .x, .y, .z, .total].map components = [1, 2, 2, 2, 6] := rfl

/-- The numbers of a freshly constructed `SheppardPSF` with good arguments and at least two pixels per axis. -/
theorem sheppard_constructed (a : InitArgs) (b : Bool) (o : SObj) (ho : SObj.new a (.bool b) = .ok o)
    {w n i r z : ℚ} {N nz : ℕ} (hg : GoodArgs a w n i r z N nz) (hN : 2 ≤ N) (hz : 2 ≤ nz) (hr : r ≠ 0) (hni : n ≤ i) : ∃ v cd,
    keyword VecCorr.ofString a.vecCorr = .ok v ∧ keyword Condition.ofString a.condition = .ok cd ∧
    SNumbersOf o.params ⟨N, nz, r, z, ((i / w : ℚ) : ℝ), ((n / w : ℚ) : ℝ), v, cd, b⟩ := by
  obtain ⟨l, x, w', n', h', zl, z', vc, cd, b', a1, a2, a3, a4, a4', a4'', a5, c1, c2, c3, c4, a6, a6', a6'', a7, a8, a9, hb, rfl⟩ :=
    (sheppard_new_iff a (.bool b) o).mp ho
  cases hb
  have hz' := zresEff_denotes.mpr hg.zres.1
  have hs := zsizeEff_denotes.mpr hg.zsize
  have hw := hg.wl.2
  refine ⟨vc, cd, a8, a9, ⟨_, rfl, (num_of_denotesNat hg.size).symm, hN⟩, ⟨_, rfl, (num_of_denotesNat hs).symm, hz⟩,
    ⟨_, r, rfl, hg.res.1, rfl, hr⟩, ⟨_, z, rfl, hz', rfl, hg.zres.2.ne'⟩,
    ⟨_, _, _, _, i / w, rfl, rfl, hg.ni.1, hg.wl.1, by simp [PyFloat.div, hw.ne'], rfl⟩,
    ⟨_, _, _, _, n / w, rfl, rfl, hg.na.1, hg.wl.1, by simp [PyFloat.div, hw.ne'], rfl⟩, ?_, rfl, rfl, rfl⟩
  have h0 : 0 ≤ n / w := div_nonneg hg.na.2.le hw.le
  have : (n / w) ^ 2 ≤ (i / w) ^ 2 := by gcongr
  have := (Rat.cast_le (K := ℝ)).mpr this
  rw [Rat.cast_pow, Rat.cast_pow] at this
  exact this

/-- Non-vacuity of C43 for the Sheppard model. -/
theorem demo_sheppard_otfa : ∃ o t, SObj.new demoArgs (.bool false) = .ok o ∧ SSpec.OTFa o.params = .ok t := by
  obtain ⟨o, ho⟩ := demoSheppard
  obtain ⟨v, cd, -, -, h⟩ := sheppard_constructed demoArgs false o ho demoArgs_good.2 (by norm_num) (by norm_num)
    (by norm_num) (by norm_num)
  exact ⟨o, _, ho, sheppardGenOtf_of h⟩

end PyOTF
