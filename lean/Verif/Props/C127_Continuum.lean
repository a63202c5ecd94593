import Verif.Lemmas.Debye
import Verif.Props.C49_Aberration
import Verif.Props.C70_C71_Zernike
import Verif.Props.C108_C110_ZernikeSpace

/-!
# C127: large arrays show the diffraction integral of the continuous pupil
-/

open MeasureTheory Filter Topology

namespace PyOTF

open Physics

/-- A sequence of models with the same optics on ever larger fields of view: pixel size `r j` (below the Abbe limit), `N j` pixels, `N j * r j → ∞`. -/
structure GrowingFov (s : ℕ → HSpec) (w n i : ℚ) (r : ℕ → ℚ) (N : ℕ → ℕ) (zs : List ℚ) (v : VecCorr) (cd : Condition) : Prop where
  optics : ∀ j, Optics (s j).params w n i (r j) (N j) zs v cd
  fits : ∀ j, (s j).Fits
  wl : 0 < w
  na : 0 < n
  index : n < i
  res : ∀ j, 0 < r j
  abbe : ∀ j, r j < w / (2 * n)
  grows : Tendsto (fun j => (N j : ℝ) * (r j : ℝ)) atTop atTop

/-- Pixel `y j` of the models lies at distance `Y` from the central pixel. -/
def AtPosition (N : ℕ → ℕ) (r : ℕ → ℚ) (y : ℕ → ℕ) (Y : ℝ) : Prop := ∀ j, ((y j : ℝ) - (N j / 2 : ℕ)) * (r j : ℝ) = Y

theorem GrowingFov.numbers {s : ℕ → HSpec} {w n i : ℚ} {r : ℕ → ℚ} {N : ℕ → ℕ} {zs : List ℚ} {v : VecCorr} {cd : Condition}
    (h : GrowingFov s w n i r N zs v cd) : (0 : ℝ) < ((n / w : ℚ) : ℝ) ∧ ((n / w : ℚ) : ℝ) < ((i / w : ℚ) : ℝ) ∧
    (∀ j, (0 : ℝ) < (r j : ℝ)) ∧ ∀ j, 2 * (((n / w : ℚ) : ℝ) * (r j : ℝ)) < 1 := by
  refine ⟨by exact_mod_cast div_pos h.na h.wl, by exact_mod_cast div_lt_div_of_pos_right h.index h.wl, fun j => by exact_mod_cast h.res j, fun j => ?_⟩
  have h1 := h.abbe j
  have h2 := h.wl
  have h3 := h.na
  rw [lt_div_iff₀ (by positivity)] at h1
  have : 2 * ((n / w) * r j) < 1 := by
    rw [show 2 * (n / w * r j) = (r j * (2 * n)) / w by ring, div_lt_one h2]; exact h1
  exact_mod_cast this

/-- C127: the amplitude PSF of a pupil which samples a function `Q` of the continuous frequencies (bounded, zero outside the aperture, continuous inside): at a fixed
position, `PSFa / r^2` tends to the diffraction integral of `Q` as the field of view grows. -/
theorem C127_amplitude (s : ℕ → HSpec) {w n i : ℚ} {r : ℕ → ℚ} {N : ℕ → ℕ} {zs : List ℚ} {v : VecCorr} {cd : Condition}
    (h : GrowingFov s w n i r N zs v cd) (Q : ℝ → ℝ → ℂ) (hQ : GoodPupil Q ((n / w : ℚ) : ℝ))
    (hP : ∀ j, ∀ a < N j, ∀ c < N j, (s j).pupilFn (N j) (r j) ((n / w : ℚ) : ℝ) a c = Q (freq (N j) (r j) a) (freq (N j) (r j) c))
    (A : ℕ → Arr ℂ) (hA : ∀ j, (s j).PSFa = .ok (A j)) (c iz : ℕ) (y x : ℕ → ℕ) (Y X : ℝ) (hy : AtPosition N r y Y) (hx : AtPosition N r x X) :
    Tendsto (fun j => (A j).get [c, iz, y j, x j] / ((r j : ℝ) : ℂ) ^ 2) atTop
      (𝓝 (debyeField ((i / w : ℚ) : ℝ) v cd Q c ((zs.getD iz 0 : ℚ) : ℝ) Y X)) := by
  obtain ⟨h1, h2, h3, h4⟩ := h.numbers
  have hN : ∀ j, 0 < N j := fun j => by
    have := (C76_computable (s j) (h.fits j) (h.optics j)).mp ⟨A j, hA j⟩
    exact this.2.2.1
  have := tendsto_waveField h1 h2 hQ v cd c ((zs.getD iz 0 : ℚ) : ℝ) Y X N (fun j => (r j : ℝ)) h3 h4 hN h.grows _ hP
  refine this.congr fun j => ?_
  rw [(C76_diffraction_integral (s j) (h.fits j) (h.optics j) (A j) (hA j)).2, amplitude_eq_wave _ _ _ (h3 j).ne' (hN j)]
  unfold offset
  rw [hy j, hx j]

/-- C127: the same for the intensity PSF: `PSFi / r^4` tends to the intensity of the diffraction integral. -/
theorem C127_intensity (s : ℕ → HSpec) {w n i : ℚ} {r : ℕ → ℚ} {N : ℕ → ℕ} {zs : List ℚ} {v : VecCorr} {cd : Condition}
    (h : GrowingFov s w n i r N zs v cd) (Q : ℝ → ℝ → ℂ) (hQ : GoodPupil Q ((n / w : ℚ) : ℝ))
    (hP : ∀ j, ∀ a < N j, ∀ c < N j, (s j).pupilFn (N j) (r j) ((n / w : ℚ) : ℝ) a c = Q (freq (N j) (r j) a) (freq (N j) (r j) c))
    (b : ℕ → Arr ℝ) (hb : ∀ j, (s j).PSFi = .ok (b j)) (iz : ℕ) (y x : ℕ → ℕ) (Y X : ℝ) (hy : AtPosition N r y Y) (hx : AtPosition N r x X) :
    Tendsto (fun j => (b j).get [iz, y j, x j] / (r j : ℝ) ^ 4) atTop
      (𝓝 (debyeIntensity ((i / w : ℚ) : ℝ) v cd Q ((zs.getD iz 0 : ℚ) : ℝ) Y X)) := by
  obtain ⟨h1, h2, h3, h4⟩ := h.numbers
  choose A hA using fun j => PSFi_ok (hb j)
  unfold debyeIntensity
  have := tendsto_finsetSum (Finset.range (components v)) fun c _ =>
    ((C127_amplitude s h Q hQ hP A (fun j => (hA j).1) c iz y x Y X hy hx).norm).pow 2
  refine this.congr fun j => ?_
  rw [(psfi_amplitude (s j) (h.fits j) (h.optics j) (b j) (hb j)).2.2, Finset.sum_div]
  refine Finset.sum_congr rfl fun c _ => ?_
  rw [(C76_diffraction_integral (s j) (h.fits j) (h.optics j) (A j) (hA j).1).2, norm_div, norm_pow, Complex.norm_real, Real.norm_eq_abs,
    abs_of_pos (h3 j), div_pow]
  ring

theorem diskPupil_good (l : ℝ) : GoodPupil (diskPupil l) l := by
  refine ⟨⟨1, fun fy fx => ?_⟩, fun fy fx h => ?_, fun p _ h => ?_⟩
  · unfold diskPupil; split_ifs <;> simp
  · rw [diskPupil, if_neg (not_lt.mpr h.le)]
  · have e : (fun _ : ℝ × ℝ => (1 : ℂ)) =ᶠ[𝓝 p] fun p : ℝ × ℝ => diskPupil l p.1 p.2 := by
      filter_upwards [radialAt_continuous.continuousAt.eventually_lt continuousAt_const h] with u hu
      rw [diskPupil, if_pos hu]
    exact continuousAt_const.congr e

/-- C127: the unaberrated model. -/
theorem C127_ideal (s : ℕ → HSpec) {w n i : ℚ} {r : ℕ → ℚ} {N : ℕ → ℕ} {zs : List ℚ} {v : VecCorr} {cd : Condition}
    (h : GrowingFov s w n i r N zs v cd) (hs : ∀ j, (s j).pupil = none)
    (b : ℕ → Arr ℝ) (hb : ∀ j, (s j).PSFi = .ok (b j)) (iz : ℕ) (y x : ℕ → ℕ) (Y X : ℝ) (hy : AtPosition N r y Y) (hx : AtPosition N r x X) :
    Tendsto (fun j => (b j).get [iz, y j, x j] / (r j : ℝ) ^ 4) atTop
      (𝓝 (debyeIntensity ((i / w : ℚ) : ℝ) v cd (diskPupil ((n / w : ℚ) : ℝ)) ((zs.getD iz 0 : ℚ) : ℝ) Y X)) := by
  refine C127_intensity s h _ (diskPupil_good _) (fun j a _ c _ => ?_) b hb iz y x Y X hy hx
  simp only [HSpec.pupilFn, hs j]
  rfl

/-! ## Aberrated pupils -/

/-- `Σ c_k Z_k` at the lateral frequencies `fy`, `fx` of an aperture of radius `l`. -/
noncomputable def Physics.zernikeSumAt (D : List (ℤ × ℤ)) (c : List ℝ) (l fy fx : ℝ) : ℝ :=
  ∑ k ∈ Finset.range c.length, c.getD k 0 * zernikeMode (D.getD k (0, 0)) (radialAt fy fx / l) (Complex.arg ⟨fx, fy⟩)

/-- The aberrated pupil `(disk + Σ m_k Z_k) exp(i Σ ph_k Z_k)` on the continuous frequencies. -/
noncomputable def Physics.aberratedAt (D : List (ℤ × ℤ)) (m ph : List ℝ) (l fy fx : ℝ) : ℂ :=
  (diskPupil l fy fx + (zernikeSumAt D m l fy fx : ℝ)) * Complex.exp (Complex.I * (zernikeSumAt D ph l fy fx : ℝ))

theorem zernikeMode_bound {d : ℤ × ℤ} (h : Admissible d.1 d.2) (ρ φ : ℝ) (hρ : 0 ≤ ρ) : |zernikeMode d ρ φ| ≤ √(2 * (d.1 + 1)) := by
  rw [← zernike1_mode d h]
  have h0 : (0 : ℝ) ≤ d.1 := by exact_mod_cast (abs_nonneg d.2).trans h.1
  refine (C108_mode_bound d.1 d.2 h true ρ φ hρ).trans ?_
  simp only [if_true]
  split_ifs
  · exact Real.sqrt_le_sqrt (by linarith)
  · exact le_rfl

theorem radialTextbook_continuous (n m : ℕ) : Continuous (radialTextbook n m) := by
  unfold radialTextbook; fun_prop

theorem zernikeMode_continuousAt (d : ℤ × ℤ) {l : ℝ} (hl : 0 < l) {p : ℝ × ℝ} (h0 : p.1 ≠ 0) (h : radialAt p.1 p.2 < l) :
    ContinuousAt (fun p : ℝ × ℝ => zernikeMode d (radialAt p.1 p.2 / l) (Complex.arg ⟨p.2, p.1⟩)) p := by
  have harg : ContinuousAt (fun p : ℝ × ℝ => Complex.arg ⟨p.2, p.1⟩) p := by
    have h1 : ContinuousAt Complex.arg (⟨p.2, p.1⟩ : ℂ) := Complex.continuousAt_arg (Complex.mem_slitPlane_iff.mpr (Or.inr h0))
    have h2 : ContinuousAt (fun p : ℝ × ℝ => (⟨p.2, p.1⟩ : ℂ)) p := by
      have : (fun p : ℝ × ℝ => (⟨p.2, p.1⟩ : ℂ)) = fun p : ℝ × ℝ => (p.2 : ℂ) + p.1 * Complex.I := by
        funext p; exact Complex.mk_eq_add_mul_I _ _
      rw [this]; fun_prop
    exact ContinuousAt.comp (f := fun p : ℝ × ℝ => (⟨p.2, p.1⟩ : ℂ)) h1 h2
  have hrad := (radialTextbook_continuous d.1.toNat d.2.natAbs).comp (radialAt_continuous.div_const l)
  have e : (fun p : ℝ × ℝ => (if d.2 = 0 then Real.sqrt (d.1 + 1) else Real.sqrt (2 * (d.1 + 1))) *
      ((-1) ^ d.2.natAbs * radialTextbook d.1.toNat d.2.natAbs (radialAt p.1 p.2 / l)) *
      (if d.2 < 0 then Real.sin (d.2.natAbs * Complex.arg ⟨p.2, p.1⟩) else Real.cos (d.2.natAbs * Complex.arg ⟨p.2, p.1⟩))) =ᶠ[𝓝 p]
      fun p : ℝ × ℝ => zernikeMode d (radialAt p.1 p.2 / l) (Complex.arg ⟨p.2, p.1⟩) := by
    filter_upwards [radialAt_continuous.continuousAt.eventually_lt continuousAt_const h] with u hu
    rw [zernikeMode, if_pos (show radialAt u.1 u.2 / l ≤ 1 by rw [div_le_one hl]; exact hu.le)]
  refine ContinuousAt.congr ?_ e
  refine ((continuousAt_const.mul (continuousAt_const.mul hrad.continuousAt))).mul ?_
  by_cases hd : d.2 < 0
  · simp only [if_pos hd]
    exact Real.continuous_sin.continuousAt.comp (continuousAt_const.mul harg)
  · simp only [if_neg hd]
    exact Real.continuous_cos.continuousAt.comp (continuousAt_const.mul harg)

theorem zernikeSumAt_continuousAt (D : List (ℤ × ℤ)) (c : List ℝ) {l : ℝ} (hl : 0 < l) {p : ℝ × ℝ} (h0 : p.1 ≠ 0) (h : radialAt p.1 p.2 < l) :
    ContinuousAt (fun p : ℝ × ℝ => zernikeSumAt D c l p.1 p.2) p := by
  unfold zernikeSumAt
  exact tendsto_finsetSum _ fun k _ => continuousAt_const.mul (zernikeMode_continuousAt _ hl h0 h)

theorem aberratedAt_good (D : List (ℤ × ℤ)) (m ph : List ℝ) {l : ℝ} (hl : 0 < l) (hD : NollModes D m.length) : GoodPupil (aberratedAt D m ph l) l := by
  have hout : ∀ fy fx, l < radialAt fy fx → zernikeSumAt D m l fy fx = 0 := by
    intro fy fx h
    refine Finset.sum_eq_zero fun k _ => ?_
    rw [zernikeMode, if_neg (not_le.mpr (by rw [lt_div_iff₀ hl]; linarith)), mul_zero]
  refine ⟨⟨1 + ∑ k ∈ Finset.range m.length, |m.getD k 0| * √(2 * ((D.getD k (0, 0)).1 + 1)), fun fy fx => ?_⟩, fun fy fx h => ?_, fun p h0 h => ?_⟩
  · rw [aberratedAt, norm_mul, mul_comm Complex.I, Complex.norm_exp_ofReal_mul_I, mul_one]
    refine (norm_add_le _ _).trans (add_le_add ?_ ?_)
    · obtain ⟨C, hC⟩ := (diskPupil_good l).bounded
      unfold diskPupil; split_ifs <;> simp
    · rw [Complex.norm_real, Real.norm_eq_abs]
      refine (Finset.abs_sum_le_sum_abs _ _).trans (Finset.sum_le_sum fun k hk => ?_)
      rw [abs_mul]
      gcongr
      exact zernikeMode_bound (hD.admissible k (Finset.mem_range.mp hk)) _ _ (div_nonneg (Real.sqrt_nonneg _) hl.le)
  · rw [aberratedAt, hout fy fx h, diskPupil, if_neg (not_lt.mpr h.le)]; simp
  · have a1 := (diskPupil_good l).continuous p h0 h
    have a2 : ContinuousAt (fun p : ℝ × ℝ => ((zernikeSumAt D m l p.1 p.2 : ℝ) : ℂ)) p :=
      Complex.continuous_ofReal.continuousAt.comp (zernikeSumAt_continuousAt D m hl h0 h)
    have a3 : ContinuousAt (fun p : ℝ × ℝ => ((zernikeSumAt D ph l p.1 p.2 : ℝ) : ℂ)) p :=
      Complex.continuous_ofReal.continuousAt.comp (zernikeSumAt_continuousAt D ph hl h0 h)
    exact (a1.add a2).mul (continuousAt_const.mul a3).cexp

/-- C127: `apply_aberration`: on ever larger fields of view, the intensity PSF of the model it returns tends (at every position and plane) to the diffraction
integral of the pupil `(disk + Σ mcoefs_k Z_k) exp(i Σ pcoefs_k Z_k)`. -/
theorem C127_aberrated (heap : ℕ → Heap) (kk : ℕ → ℕ) (o : ℕ → HObj) (hk : ∀ j, (heap j)[kk j]? = some (o j)) (mc pc : Option (List ℝ))
    (m ph : List ℝ) (hc : fillCoefs mc pc = some (m, ph)) {w n i : ℚ} {r : ℕ → ℚ} {N : ℕ → ℕ} {zs : List ℚ} {v : VecCorr} {cd : Condition}
    (h : GrowingFov (fun j => ⟨(o j).params, none⟩) w n i r N zs v cd) (hA : ∀ j, Aberrable (o j) m ph w n i (r j) (N j) zs v cd) :
    ∃ D, NollModes D m.length ∧ ∃ (ref : ℕ → ℕ) (o' : ℕ → HObj) (b : ℕ → Arr ℝ),
      (∀ j, (applyAberration (kk j) mc pc (heap j)).1 = .ok (ref j) ∧ (applyAberration (kk j) mc pc (heap j)).2[ref j]? = some (o' j) ∧
        (HObj.getPSFi (o' j)).1 = .ok (b j) ∧ (b j).shape = [zs.length, N j, N j]) ∧
      ∀ (iz : ℕ) (y x : ℕ → ℕ) (Y X : ℝ), AtPosition N r y Y → AtPosition N r x X →
        Tendsto (fun j => (b j).get [iz, y j, x j] / (r j : ℝ) ^ 4) atTop
          (𝓝 (debyeIntensity ((i / w : ℚ) : ℝ) v cd (aberratedAt D m ph ((n / w : ℚ) : ℝ)) ((zs.getD iz 0 : ℚ) : ℝ) Y X)) := by
  choose ref o' A D e1 e2 e3 e4 e5 e6 e7 e8 using fun j => C49_aberrated (heap j) (kk j) (o j) (hk j) mc pc m ph hc (hA j)
  obtain ⟨h1, h2, h3, h4⟩ := h.numbers
  refine ⟨D 0, e6 0, ref, o', fun j => psfiOf (A j), fun j => ⟨e1 j, e2 j, e5 j, psfiOf_shape _ _ _ _ _ (e7 j)⟩, fun iz y x Y X hy hx => ?_⟩
  have hzs : ∀ (c : List ℝ) j a b, zernikeSum (D j) c (N j) (r j) ((n / w : ℚ) : ℝ) a b =
      zernikeSumAt (D 0) c ((n / w : ℚ) : ℝ) (freq (N j) (r j) a) (freq (N j) (r j) b) := by
    intro c j a b
    unfold zernikeSum zernikeSumAt
    refine Finset.sum_congr rfl fun k _ => ?_
    rw [(e6 j).unique (e6 0)]
    rfl
  have hP : ∀ j, ∀ a < N j, ∀ b < N j, aberrated (D j) m ph (N j) (r j) ((n / w : ℚ) : ℝ) a b =
      aberratedAt (D 0) m ph ((n / w : ℚ) : ℝ) (freq (N j) (r j) a) (freq (N j) (r j) b) := by
    intro j a _ b _
    rw [aberrated, aberratedAt, hzs m j a b, hzs ph j a b]
    rfl
  have hN : ∀ j, 0 < N j := fun j => by have := (hA j).pixels; omega
  have lim := fun c => tendsto_waveField h1 h2 (aberratedAt_good (D 0) m ph h1 (e6 0)) v cd c ((zs.getD iz 0 : ℚ) : ℝ) Y X N (fun j => (r j : ℝ)) h3 h4 hN h.grows _ hP
  unfold debyeIntensity
  have := tendsto_finsetSum (Finset.range (components v)) fun c _ => ((lim c).norm).pow 2
  refine this.congr fun j => ?_
  rw [psfiOf_get _ _ _ _ _ (e7 j), Finset.sum_div]
  refine Finset.sum_congr rfl fun c _ => ?_
  rw [e8, amplitude_eq_wave _ _ _ (h3 j).ne' (hN j), norm_div, norm_pow, Complex.norm_real, Real.norm_eq_abs, abs_of_pos (h3 j), div_pow]
  unfold offset
  rw [hy j, hx j]
  ring

/-! ## The brightness of the focus -/

/-- The focus of the unaberrated scalar model is bright: the limit at the centre of the focal plane is positive. -/
theorem debye_focus_pos {k l : ℝ} (hl : 0 < l) (hk : l < k) (cd : Condition) : 0 < debyeIntensity k .none cd (diskPupil l) 0 0 0 := by
  have hk0 : 0 < k := by linarith
  set g : ℝ × ℝ → ℝ := fun p => if radialAt p.1 p.2 < l then weightAt k p.1 p.2 .none cd 0 else 0 with hg
  have hw : ∀ fy fx, radialAt fy fx < l → 1 ≤ weightAt k fy fx .none cd 0 := by
    intro fy fx h
    obtain ⟨c1, c2, c3⟩ := cosThetaAt_le hl.le hk h.le
    have hc : 0 < cosThetaAt k fy fx := by linarith
    simp only [weightAt, polarization, List.getD_cons_zero, mul_one]
    cases cd <;> simp only [apodization]
    · exact le_rfl
    · rw [le_div_iff₀ (Real.sqrt_pos.mpr hc), one_mul]; exact Real.sqrt_le_one.mpr c3
    · rw [le_div_iff₀ hc, one_mul]; exact c3
  have e : debyeField k .none cd (diskPupil l) 0 0 0 0 = ((∫ p, g p : ℝ) : ℂ) := by
    unfold debyeField
    rw [← integral_complex_ofReal]
    congr 1
    funext p
    simp only [hg, diskPupil]
    split_ifs <;> simp
  have hfield : 0 < ∫ p, g p := by
    have hB : MeasurableSet {p : ℝ × ℝ | radialAt p.1 p.2 < l} := (isOpen_lt radialAt_continuous continuous_const).measurableSet
    have hgB : g = {p : ℝ × ℝ | radialAt p.1 p.2 < l}.indicator fun p => weightAt k p.1 p.2 .none cd 0 := by
      funext p
      by_cases hp : radialAt p.1 p.2 < l
      · rw [Set.indicator_of_mem (show p ∈ {p : ℝ × ℝ | radialAt p.1 p.2 < l} from hp), hg]; simp only [if_pos hp]
      · rw [Set.indicator_of_notMem (show p ∉ {p : ℝ × ℝ | radialAt p.1 p.2 < l} from hp), hg]; simp only [if_neg hp]
    have hvol : volume {p : ℝ × ℝ | radialAt p.1 p.2 < l} ≠ ⊤ := by
      refine ne_top_of_le_ne_top (((isCompact_Icc (a := -l) (b := l)).prod (isCompact_Icc (a := -l) (b := l))).measure_lt_top (μ := volume)).ne (measure_mono ?_)
      intro p hp
      have hp : radialAt p.1 p.2 < l := hp
      have := abs_le_radialAt p.1 p.2
      exact ⟨abs_le.mp (this.1.trans hp.le), abs_le.mp (this.2.trans hp.le)⟩
    have hvol0 : 0 < volume {p : ℝ × ℝ | radialAt p.1 p.2 < l} :=
      (isOpen_lt radialAt_continuous continuous_const).measure_pos _ ⟨0, by simpa [radialAt] using hl⟩
    have hmeas : AEStronglyMeasurable (fun p : ℝ × ℝ => weightAt k p.1 p.2 .none cd 0) volume := by
      have : Measurable fun p : ℝ × ℝ => weightAt k p.1 p.2 .none cd 0 := by
        have h1 : Measurable fun p : ℝ × ℝ => radialAt p.1 p.2 := radialAt_continuous.measurable
        have h2 : Measurable fun p : ℝ × ℝ => sinThetaAt k p.1 p.2 := Measurable.ite (measurableSet_lt h1 measurable_const) (h1.div_const _) measurable_const
        have h3 : Measurable fun p : ℝ × ℝ => cosThetaAt k p.1 p.2 := by unfold cosThetaAt; fun_prop
        simp only [weightAt, polarization, List.getD_cons_zero, mul_one]
        cases cd <;> simp only [apodization] <;> fun_prop
      exact this.aestronglyMeasurable
    have hint : Integrable g volume := by
      rw [hgB, integrable_indicator_iff hB]
      refine Measure.integrableOn_of_bounded (M := 1 / √(1 - (l / k) ^ 2)) hvol ?_ ?_
      · exact hmeas
      · refine (ae_restrict_iff' hB).mpr (Eventually.of_forall fun p hp => ?_)
        have hp : radialAt p.1 p.2 < l := hp
        rw [Real.norm_eq_abs]
        exact weightAt_bound hl.le hk _ _ _ hp.le
    have hle : ∫ p, {p : ℝ × ℝ | radialAt p.1 p.2 < l}.indicator (fun _ => (1 : ℝ)) p ≤ ∫ p, g p := by
      refine integral_mono_of_nonneg (Eventually.of_forall fun p => Set.indicator_nonneg (fun _ _ => by norm_num) p) hint (Eventually.of_forall fun p => ?_)
      rw [hgB]
      exact Set.indicator_le_indicator' fun hp => hw _ _ hp
    refine lt_of_lt_of_le ?_ hle
    rw [integral_indicator hB, setIntegral_const, smul_eq_mul, mul_one]
    exact ENNReal.toReal_pos hvol0.ne' hvol
  simp only [debyeIntensity, components, Finset.sum_range_one, e, Complex.norm_real, Real.norm_eq_abs]
  have := abs_pos.mpr hfield.ne'
  positivity

/-- C127: scalar theory: the PSF relative to its value at the centre of the focal plane tends to that of the diffraction integral, for any pixel sizes. -/
theorem C127_relative (s : ℕ → HSpec) {w n i : ℚ} {r : ℕ → ℚ} {N : ℕ → ℕ} {zs : List ℚ} {cd : Condition}
    (h : GrowingFov s w n i r N zs .none cd) (hs : ∀ j, (s j).pupil = none)
    (b : ℕ → Arr ℝ) (hb : ∀ j, (s j).PSFi = .ok (b j)) (iz iz0 : ℕ) (hz : zs.getD iz0 0 = 0) (y x : ℕ → ℕ) (Y X : ℝ) (hy : AtPosition N r y Y) (hx : AtPosition N r x X) :
    Tendsto (fun j => (b j).get [iz, y j, x j] / (b j).get [iz0, N j / 2, N j / 2]) atTop
      (𝓝 (debyeIntensity ((i / w : ℚ) : ℝ) .none cd (diskPupil ((n / w : ℚ) : ℝ)) ((zs.getD iz 0 : ℚ) : ℝ) Y X /
        debyeIntensity ((i / w : ℚ) : ℝ) .none cd (diskPupil ((n / w : ℚ) : ℝ)) 0 0 0)) := by
  obtain ⟨h1, h2, h3, h4⟩ := h.numbers
  have hc : AtPosition N r (fun j => N j / 2) 0 := fun j => by simp
  have a1 := C127_ideal s h hs b hb iz y x Y X hy hx
  have a2 := C127_ideal s h hs b hb iz0 _ _ 0 0 hc hc
  rw [hz, Rat.cast_zero] at a2
  refine (a1.div a2 (debye_focus_pos h1 h2 cd).ne').congr fun j => ?_
  have := (h3 j).ne'
  simp only [Pi.div_apply]
  rw [div_div_div_cancel_right₀ (by positivity)]

/-- Arguments of the demo model with `N` pixels of `130 / t` nm and three planes. -/
def demoArgsGrow (c : String) (N t : ℕ) : InitArgs :=
  { wl := .int 520, na := .float (.fin (17/20)), ni := .float (.fin 1), res := .float (.fin (130 / (t : ℚ))), zres := .int 100, size := .int N, zsize := .int 3,
    condition := .str c }

theorem demo_grow (c : String) (cd : Condition) (hc : (c, cd) ∈ [("none", Condition.none), ("sine", .sine), ("herschel", .herschel)]) (N t : ℕ) (hN : 0 < N) (ht : 0 < t) : ∃ o b, HObj.new (demoArgsGrow c N t) none = .ok o ∧
    Optics o.params 520 (17/20) 1 (130 / t) N ((List.range 3).map (plane 3 100)) .none cd ∧ (⟨o.params, none⟩ : HSpec).PSFi = .ok b := by
  have htq : (1 : ℚ) ≤ t := by exact_mod_cast ht
  have hle : (130 : ℚ) / t ≤ 130 := div_le_self (by norm_num) htq
  have hc' : Condition.ofString c = some cd ∧ PyVal.str c ∈ [PyVal.str "none", .str "sine", .str "herschel"] := by
    simp only [List.mem_cons, Prod.mk.injEq, List.not_mem_nil, or_false] at hc
    rcases hc with ⟨rfl, rfl⟩ | ⟨rfl, rfl⟩ | ⟨rfl, rfl⟩ <;> exact ⟨rfl, by simp⟩
  have hg : GoodArgs (demoArgsGrow c N t) 520 (17/20) 1 (130 / t) 100 N 3 := by
    constructor <;> simp [demoArgsGrow, Denotes, DenotesNat, PyVal.num?]
    all_goals first | omega | (norm_num; linarith) | simpa using hc'.2
  have hns : NoSpecialArgs (demoArgsGrow c N t) := by constructor <;> simp [demoArgsGrow, NotSpecial]
  obtain ⟨o, ho⟩ := (C34_hanser_accepts (demoArgsGrow c N t) hns none).mpr ⟨_, _, _, _, _, _, _, hg⟩
  obtain ⟨v, cd', e1, e2, e3⟩ := C76_constructed _ o ho hg
  cases e1
  have e2' : keyword Condition.ofString (PyVal.str c) = .ok cd' := e2
  simp only [keyword, hc'.1] at e2'
  cases e2'
  have hf : (⟨o.params, none⟩ : HSpec).Fits := fun P v h => by cases h
  obtain ⟨a, ha⟩ := (C76_computable ⟨o.params, none⟩ hf e3).mpr ⟨by norm_num, by positivity, hN, by norm_num⟩
  exact ⟨o, _, ho, e3, PSFi_of ha⟩

/-- Non-vacuity of C127: constructed models with 2, 8, 18, ... pixels of 130, 65, 43.3, ... nm; the pixel 130 nm beside the centre. -/
theorem demo_growing (c : String) (cd : Condition) (hc : (c, cd) ∈ [("none", Condition.none), ("sine", .sine), ("herschel", .herschel)]) : ∃ (o : ℕ → HObj) (b : ℕ → Arr ℝ), (∀ j, HObj.new (demoArgsGrow c (2 * (j + 1) ^ 2) (j + 1)) none = .ok (o j)) ∧
    GrowingFov (fun j => ⟨(o j).params, none⟩) 520 (17/20) 1 (fun j => 130 / ((j + 1 : ℕ) : ℚ)) (fun j => 2 * (j + 1) ^ 2) ((List.range 3).map (plane 3 100)) .none cd ∧
    (∀ j, (⟨(o j).params, none⟩ : HSpec).PSFi = .ok (b j)) ∧ ((List.range 3).map (plane 3 100)).getD 2 0 = 0 ∧
    AtPosition (fun j => 2 * (j + 1) ^ 2) (fun j => 130 / ((j + 1 : ℕ) : ℚ)) (fun j => (j + 1) ^ 2 + (j + 1)) 130 ∧
    (∀ j, Aberrable (o j) [0, 0, 0, 0] [0, 1/4, 0, 1/2] 520 (17/20) 1 (130 / ((j + 1 : ℕ) : ℚ)) (2 * (j + 1) ^ 2) ((List.range 3).map (plane 3 100)) .none cd) := by
  choose o b h1 h2 h3 using fun j : ℕ => demo_grow c cd hc (2 * (j + 1) ^ 2) (j + 1) (by positivity) (by positivity)
  have hpos : ∀ j : ℕ, (0 : ℚ) < 130 / ((j + 1 : ℕ) : ℚ) := fun j => by positivity
  refine ⟨o, b, h1, ⟨h2, (fun j P v h => by cases h), by norm_num, by norm_num, by norm_num, hpos, fun j => ?_, ?_⟩, h3, ?_, fun j => ?_, fun j => ?_⟩
  · have : (130 : ℚ) / ((j + 1 : ℕ) : ℚ) ≤ 130 := div_le_self (by norm_num) (by push_cast; linarith [Nat.cast_nonneg (α := ℚ) j])
    refine lt_of_le_of_lt this (by norm_num)
  · have e : (fun j : ℕ => ((2 * (j + 1) ^ 2 : ℕ) : ℝ) * ((130 / ((j + 1 : ℕ) : ℚ) : ℚ) : ℝ)) = fun j : ℕ => 260 * ((j : ℝ) + 1) := by
      funext j
      push_cast
      have : (j : ℝ) + 1 ≠ 0 := by positivity
      field_simp; ring
    rw [e]
    exact (tendsto_natCast_atTop_atTop.atTop_add tendsto_const_nhds).const_mul_atTop (by norm_num)
  · simp [plane]
  · rw [show 2 * (j + 1) ^ 2 / 2 = (j + 1) ^ 2 by omega]
    push_cast
    have : (j : ℝ) + 1 ≠ 0 := by positivity
    field_simp; ring
  · exact ⟨h2 j, by norm_num, by norm_num, (hpos j).ne', by have := Nat.one_le_pow 2 (j + 1) (by omega); omega, by norm_num, by simp, by simp, by simp⟩

end PyOTF
