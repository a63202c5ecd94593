import Verif.Props.C113_C114_SimOtf
import Verif.Props.C58_Confocal

/-!
# C115, C116: spectrum of the confocal microscope, open pinhole
-/

namespace PyOTF

open Physics Complex

/-! ## Specification -/

/-- Discrete spectrum of plane `z` at `jy`, `jx` cycles per field of view. -/
noncomputable def sliceSpectrum (a : Arr ℝ) (N z : ℕ) (jy jx : ℤ) : ℂ :=
  ∑ y ∈ Finset.range N, ∑ x ∈ Finset.range N, (a.get [z, y, x] : ℂ) * exp (-(2 * Real.pi * I * (((jy * y + jx * x) / N : ℝ) : ℂ)))

/-- Ordinary arguments of a microscope with a Hanser model: `n` x `n` camera pixels of size `q`, odd oversampling `o`, `nz` planes `z` apart. -/
structure OrdinaryArgs (a : MicroArgs) (o n nz : ℕ) (q w na i z : ℚ) : Prop where
  odd : o % 2 = 1
  n_pos : 0 < n
  nz_pos : 0 < nz
  q_pos : 0 < q
  hmod : a.model = .str "hanser"
  hdual : a.kw.dual = none
  hzr : a.kw.zrange = none
  hov : a.oversample = .int o
  hsize : a.size = .int n
  hpix : a.pixelSize = .float (.fin q)
  hwl : Denotes a.wl w
  hw : 0 < w
  hna : Denotes a.na na
  hna0 : 0 < na
  hni : Denotes a.ni i
  hi : 0 < i
  hres : q / o < w / (2 * na)
  hz : Denotes (a.kw.zres.getD a.pixelSize) z
  hz0 : 0 < z
  hzs : DenotesNat (a.kw.zsize.getD a.size) nz
  hspec : NoSpecialArgs (PsfParams.initArgs ⟨a.na, a.ni, a.wl, a.kw.zres.getD a.pixelSize, a.kw.zsize.getD a.size,
      .int (n * o), .float (.fin (q / o)), a.kw⟩)
  hvc : a.kw.vecCorr.getD (.str "none") ∈ [PyVal.str "none", .str "x", .str "y", .str "total"]
  hcd : a.kw.condition.getD (.str "sine") ∈ [PyVal.str "none", .str "sine", .str "herschel"]

/-! ## Proofs -/

theorem sliceSpectrum_W (a : Arr ℝ) (N z : ℕ) (jy jx : ℤ) : sliceSpectrum a N z jy jx =
    ∑ y ∈ Finset.range N, ∑ x ∈ Finset.range N, (a.get [z, y, x] : ℂ) * (W N (-(jy * y)) * W N (-(jx * x))) := by
  refine Finset.sum_congr rfl fun y _ => Finset.sum_congr rfl fun x _ => ?_
  rw [W, W, ← exp_add]; congr 2; push_cast; ring

theorem sum_delta {N : ℕ} (hN : 0 < N) {y : ℕ} (hy : y < N) (f : ℕ → ℂ) :
    ∑ y' ∈ Finset.range N, (∑ a ∈ Finset.range N, W N (((y' : ℤ) - y) * a)) * f y' = N * f y := by
  rw [Finset.sum_eq_single y]
  · rw [W_sum hN, if_pos (by simp)]
  · intro y' hy' hne
    rw [W_sum hN, if_neg, zero_mul]
    intro hd
    have := Int.eq_zero_of_abs_lt_dvd hd (by rw [abs_lt]; have := Finset.mem_range.mp hy'; omega)
    omega
  · intro h; exact absurd (Finset.mem_range.mpr hy) h

/-- The spectrum of a product is the cyclic convolution of the spectra. -/
theorem sliceSpectrum_mul (x d c : Arr ℝ) (N z : ℕ) (hN : 0 < N)
    (hc : ∀ iy < N, ∀ ix < N, c.get [z, iy, ix] = x.get [z, iy, ix] * d.get [z, iy, ix]) (jy jx : ℤ) :
    sliceSpectrum c N z jy jx = (∑ a ∈ Finset.range N, ∑ b ∈ Finset.range N, sliceSpectrum x N z a b * sliceSpectrum d N z (jy - a) (jx - b)) / N ^ 2 := by
  have hN' : (N : ℂ) ≠ 0 := by exact_mod_cast hN.ne'
  rw [eq_div_iff (pow_ne_zero 2 hN')]
  have e : ∀ a ∈ Finset.range N, ∀ b ∈ Finset.range N, sliceSpectrum x N z a b * sliceSpectrum d N z (jy - a) (jx - b) =
      ∑ y ∈ Finset.range N, ∑ k ∈ Finset.range N, ∑ y' ∈ Finset.range N, ∑ k' ∈ Finset.range N,
        ((x.get [z, y, k] : ℂ) * (d.get [z, y', k'] : ℂ) * (W N (-(jy * y')) * W N (-(jx * k')))) *
          (W N (((y' : ℤ) - y) * a) * W N (((k' : ℤ) - k) * b)) := by
    intro a _ b _
    rw [sliceSpectrum_W, sliceSpectrum_W, Finset.sum_mul]
    refine Finset.sum_congr rfl fun y _ => ?_
    rw [Finset.sum_mul]
    refine Finset.sum_congr rfl fun k _ => ?_
    rw [Finset.mul_sum]
    refine Finset.sum_congr rfl fun y' _ => ?_
    rw [Finset.mul_sum]
    refine Finset.sum_congr rfl fun k' _ => ?_
    have w1 : W N (-((jy - a) * y')) * W N (-(a * y)) = W N (-(jy * y')) * W N (((y' : ℤ) - y) * a) := by
      rw [← W_add, ← W_add]; congr 1; ring
    have w2 : W N (-((jx - b) * k')) * W N (-(b * k)) = W N (-(jx * k')) * W N (((k' : ℤ) - k) * b) := by
      rw [← W_add, ← W_add]; congr 1; ring
    linear_combination (x.get [z, y, k] : ℂ) * (d.get [z, y', k'] : ℂ) * W N (-((jx - b) * k')) * W N (-(b * k)) * w1 +
      (x.get [z, y, k] : ℂ) * (d.get [z, y', k'] : ℂ) * W N (-(jy * y')) * W N (((y' : ℤ) - y) * a) * w2
  rw [Finset.sum_congr rfl fun a ha => Finset.sum_congr rfl fun b hb => e a ha b hb]
  -- sums over the frequencies innermost
  have s1 : (∑ a ∈ Finset.range N, ∑ b ∈ Finset.range N, ∑ y ∈ Finset.range N, ∑ k ∈ Finset.range N, ∑ y' ∈ Finset.range N, ∑ k' ∈ Finset.range N,
        ((x.get [z, y, k] : ℂ) * (d.get [z, y', k'] : ℂ) * (W N (-(jy * y')) * W N (-(jx * k')))) *
          (W N (((y' : ℤ) - y) * a) * W N (((k' : ℤ) - k) * b))) =
      ∑ y ∈ Finset.range N, ∑ k ∈ Finset.range N, ∑ y' ∈ Finset.range N, (∑ a ∈ Finset.range N, W N (((y' : ℤ) - y) * a)) *
        ∑ k' ∈ Finset.range N, (∑ b ∈ Finset.range N, W N (((k' : ℤ) - k) * b)) *
        ((x.get [z, y, k] : ℂ) * (d.get [z, y', k'] : ℂ) * (W N (-(jy * y')) * W N (-(jx * k')))) := by
    have c1 : ∀ F : ℕ → ℕ → ℕ → ℕ → ℕ → ℕ → ℂ, (∑ a ∈ Finset.range N, ∑ b ∈ Finset.range N, ∑ y ∈ Finset.range N, ∑ k ∈ Finset.range N,
        ∑ y' ∈ Finset.range N, ∑ k' ∈ Finset.range N, F a b y k y' k') = ∑ y ∈ Finset.range N, ∑ k ∈ Finset.range N,
        ∑ y' ∈ Finset.range N, ∑ k' ∈ Finset.range N, ∑ a ∈ Finset.range N, ∑ b ∈ Finset.range N, F a b y k y' k' := by
      intro F
      have c0 : ∀ G : ℕ → ℕ → ℕ → ℂ, (∑ a ∈ Finset.range N, ∑ b ∈ Finset.range N, ∑ y ∈ Finset.range N, G a b y) =
          ∑ y ∈ Finset.range N, ∑ a ∈ Finset.range N, ∑ b ∈ Finset.range N, G a b y := fun G => by
        rw [Finset.sum_congr rfl fun a _ => Finset.sum_comm, Finset.sum_comm]
      rw [c0 fun a b y => ∑ k ∈ Finset.range N, ∑ y' ∈ Finset.range N, ∑ k' ∈ Finset.range N, F a b y k y' k']
      refine Finset.sum_congr rfl fun y _ => ?_
      rw [c0 fun a b k => ∑ y' ∈ Finset.range N, ∑ k' ∈ Finset.range N, F a b y k y' k']
      refine Finset.sum_congr rfl fun k _ => ?_
      rw [c0 fun a b y' => ∑ k' ∈ Finset.range N, F a b y k y' k']
      exact Finset.sum_congr rfl fun y' _ => c0 fun a b k' => F a b y k y' k'
    rw [c1]
    refine Finset.sum_congr rfl fun y _ => Finset.sum_congr rfl fun k _ => Finset.sum_congr rfl fun y' _ => ?_
    rw [Finset.mul_sum]
    refine Finset.sum_congr rfl fun k' _ => ?_
    generalize (x.get [z, y, k] : ℂ) * (d.get [z, y', k'] : ℂ) * (W N (-(jy * y')) * W N (-(jx * k'))) = t
    rw [← mul_assoc (∑ a ∈ Finset.range N, W N (((y' : ℤ) - y) * a)), Finset.sum_mul_sum, Finset.sum_mul]
    refine Finset.sum_congr rfl fun a _ => ?_
    rw [Finset.sum_mul]
    exact Finset.sum_congr rfl fun b _ => mul_comm _ _
  rw [s1, sliceSpectrum_W, Finset.sum_mul]
  refine Finset.sum_congr rfl fun y hy => ?_
  rw [Finset.sum_mul]
  refine Finset.sum_congr rfl fun k hk => ?_
  rw [sum_delta hN (Finset.mem_range.mp hy) fun y' => ∑ k' ∈ Finset.range N, (∑ b ∈ Finset.range N, W N (((k' : ℤ) - k) * b)) *
        ((x.get [z, y, k] : ℂ) * (d.get [z, y', k'] : ℂ) * (W N (-(jy * y')) * W N (-(jx * k'))))]
  rw [sum_delta hN (Finset.mem_range.mp hk) fun k' => (x.get [z, y, k] : ℂ) * (d.get [z, y, k'] : ℂ) * (W N (-(jy * y)) * W N (-(jx * k')))]
  rw [hc y (Finset.mem_range.mp hy) k (Finset.mem_range.mp hk)]
  push_cast
  ring

theorem sliceSpectrum_modEq (a : Arr ℝ) {N : ℕ} (hN : 0 < N) (z : ℕ) {jy jx ky kx : ℤ} (hy : (N : ℤ) ∣ jy - ky) (hx : (N : ℤ) ∣ jx - kx) :
    sliceSpectrum a N z jy jx = sliceSpectrum a N z ky kx := by
  rw [sliceSpectrum_W, sliceSpectrum_W]
  refine Finset.sum_congr rfl fun y _ => Finset.sum_congr rfl fun x _ => ?_
  obtain ⟨q, hq⟩ := hy
  obtain ⟨q', hq'⟩ := hx
  rw [W_modEq hN (show (N : ℤ) ∣ -(jy * y) - -(ky * y) from ⟨-(q * y), by linear_combination -(y : ℤ) * hq⟩),
    W_modEq hN (show (N : ℤ) ∣ -(jx * x) - -(kx * x) from ⟨-(q' * x), by linear_combination -(x : ℤ) * hq'⟩)]

/-- Product of images with cut-offs. -/
theorem cutoff_mul {x d c : Arr ℝ} {Z N : ℕ} {r ρ σ : ℝ} (hr : 0 < r) (hx : CutOff x Z N r ρ) (hd : CutOff d Z N r σ)
    (hc : ∀ z < Z, ∀ iy < N, ∀ ix < N, c.get [z, iy, ix] = x.get [z, iy, ix] * d.get [z, iy, ix]) (hny : ρ + σ ≤ 1 / (2 * r)) :
    CutOff c Z N r (ρ + σ) := by
  intro z hz jy jx hjy hjx hρ
  rcases Nat.eq_zero_or_pos N with rfl | hN
  · simp
  show sliceSpectrum c N z jy jx = 0
  have hD : (0 : ℝ) < N * r := by have : (0 : ℝ) < N := by exact_mod_cast hN
                                  positivity
  rw [sliceSpectrum_mul x d c N z hN (hc z hz)]
  rw [div_eq_zero_iff]; left
  refine Finset.sum_eq_zero fun a _ => Finset.sum_eq_zero fun b _ => ?_
  obtain ⟨sy, h1, h2⟩ := alias_exists hN (a : ℤ)
  obtain ⟨sx, h3, h4⟩ := alias_exists hN (b : ℤ)
  by_cases hs : ρ ≤ √((sy / (N * r)) ^ 2 + (sx / (N * r)) ^ 2)
  · have : sliceSpectrum x N z a b = 0 := by
      rw [sliceSpectrum_modEq x hN z h1 h3]
      exact hx z hz sy sx h2 h4 hs
    rw [this, zero_mul]
  · push Not at hs
    obtain ⟨ty, h5, h6⟩ := alias_exists hN (jy - sy)
    obtain ⟨tx, h7, h8⟩ := alias_exists hN (jx - sx)
    have : sliceSpectrum d N z (jy - a) (jx - b) = 0 := by
      rw [sliceSpectrum_modEq d hN z (ky := ty) (kx := tx)]
      · refine hd z hz ty tx h6 h8 ?_
        rw [sqrt_scale hD, le_div_iff₀ hD]
        refine alias_far (G := ρ * (N * r)) hjy hjx (sy := sy) (sx := sx) ?_ ?_ ?_ h5 h7
        · rw [sqrt_scale hD, div_lt_iff₀ hD] at hs; exact hs.le
        · rw [sqrt_scale hD, le_div_iff₀ hD] at hρ; linarith
        · rw [← add_mul, ← le_div_iff₀ hD, add_comm]
          refine hny.trans (le_of_eq ?_)
          field_simp
      · rw [show jy - a - ty = (jy - sy - ty) - (a - sy) by ring]; exact dvd_sub h5 h1
      · rw [show jx - b - tx = (jx - sx - tx) - (b - sx) by ring]; exact dvd_sub h7 h3
    rw [this, mul_zero]

/-- The setting of C58. -/
structure ConfocalSetting (m : Micro) (d x : Arr ℝ) (Z N : ℕ) (R : ℚ) : Prop where
  kind : ∃ e ph we w n r q, m.kind = .confocal e ph we ∧ (Inner.getPSFi m.model).1 = .ok d ∧ (Inner.getPSFi e).1 = .ok x ∧
    HasValue m.model.params.wl w ∧ HasValue m.model.params.na n ∧ HasValue m.model.params.res r ∧ Denotes ph q ∧ n ≠ 0 ∧ r ≠ 0 ∧
    R = q * (61 / 50 * w / n / r) / 2
  det : d.shape = [Z, N, N]
  exc : x.shape = [Z, N, N]

/-- C115: with a pinhole of at most 1.5 pixels radius, the spectrum of each plane of the confocal PSF is the cyclic convolution of the spectra of the
excitation and the detection PSF (divided by the number of pixels). -/
theorem C115_spectrum (m : Micro) (d x : Arr ℝ) (Z N : ℕ) (R : ℚ) (h : ConfocalSetting m d x Z N R) (hR : R ≤ 3 / 2) (hN : 0 < N) :
    ∃ c, (Micro.modelPsf m).1 = .ok c ∧ c.shape = [Z, N, N] ∧ ∀ z < Z, ∀ jy jx : ℤ, sliceSpectrum c N z jy jx =
      (∑ a ∈ Finset.range N, ∑ b ∈ Finset.range N, sliceSpectrum x N z a b * sliceSpectrum d N z (jy - a) (jx - b)) / N ^ 2 := by
  obtain ⟨e, ph, we, w, n, r, q, hk, h1, h2, h3, h4, h5, h6, h7, h8, h9⟩ := h.kind
  obtain ⟨c, k1, k2, k3⟩ := C58_confocal m e ph we hk d x h1 h2 Z N N h.det h.exc w n r q R h3 h4 h5 h6 h7 h8 h9
  refine ⟨c, k1, k2, fun z hz jy jx => sliceSpectrum_mul x d c N z hN (fun iy hy ix hx => ?_) jy jx⟩
  rw [k3 z hz iy hy ix hx, if_neg (not_lt.mpr hR)]

/-- C115: such a microscope resolves the sum of the cut-offs of excitation and detection. -/
theorem C115_resolution (m : Micro) (d x : Arr ℝ) (Z N : ℕ) (R : ℚ) (h : ConfocalSetting m d x Z N R) (hR : R ≤ 3 / 2) (r ρ σ : ℝ) (hr : 0 < r)
    (hx : CutOff x Z N r ρ) (hd : CutOff d Z N r σ) (hny : ρ + σ ≤ 1 / (2 * r)) :
    ∃ c, (Micro.modelPsf m).1 = .ok c ∧ c.shape = [Z, N, N] ∧ CutOff c Z N r (ρ + σ) := by
  obtain ⟨e, ph, we, w, n, r', q, hk, h1, h2, h3, h4, h5, h6, h7, h8, h9⟩ := h.kind
  obtain ⟨c, k1, k2, k3⟩ := C58_confocal m e ph we hk d x h1 h2 Z N N h.det h.exc w n r' q R h3 h4 h5 h6 h7 h8 h9
  refine ⟨c, k1, k2, cutoff_mul hr hx hd (fun z hz iy hy ix hx => ?_) hny⟩
  rw [k3 z hz iy hy ix hx, if_neg (not_lt.mpr hR)]

/-- A cut-off holds for the OTF. -/
theorem otf_cutoff (m : Micro) (c : Arr ℝ) (Z N : ℕ) (r ρ : ℝ) (hr : 0 < r) (hc : (Micro.modelPsf m).1 = .ok c) (hs : c.shape = [Z, N, N])
    (hcut : CutOff c Z N r ρ) (hny : ρ ≤ 1 / (2 * r)) (h1 : m.psf = none) (h2 : m.otf = none) (h3 : pyInt m.oversample = 1) (t : Arr ℂ)
    (ht : (Micro.getOTF m).1 = .ok t) (kz ky kx : ℕ) (hkz : kz < Z) (hky : ky < N) (hkx : kx < N)
    (hf : ρ ≤ √(otfFreq N r ky ^ 2 + otfFreq N r kx ^ 2)) : t.get [kz, ky, kx] = 0 := by
  have h0 : c.sum ≠ 0 := by
    intro h0
    have hb : binned (pyInt m.oversample) (pyInt m.psfParams.size).toNat c = .ok c := by
      rw [h3, binned, if_neg (by norm_num)]
    rw [getOTF_run, h2, getPSF_run, h1] at ht
    rcases hm : Micro.modelPsf m with ⟨e | c', m'⟩
    · rw [hm] at hc; cases hc
    · rw [hm] at hc; cases hc
      rw [hm] at ht
      simp only [microPsf, hb, Except.bind, normalised, if_pos h0] at ht
      cases ht
  obtain ⟨-, t', ht', -, hget⟩ := C113_otf m h1 h2 h3 c hc Z N hs h0 1 r one_ne_zero hr.ne'
  rw [ht] at ht'; cases ht'
  have := cutoff_shifted hcut hr 1 (otfFreq Z 1 kz) _ _ 0 0 0 ky kx hky hkx rfl rfl ⟨0, by simp⟩ ⟨0, by simp⟩ (by simp) (by rw [add_zero]; exact hf)
    (by rw [add_zero]; exact hny)
  rw [sub_zero, sub_zero] at this
  rw [hget kz hkz ky hky kx hkx, this, mul_zero, zero_div]

/-! ## Constructed microscopes -/

/-- What the construction of an ordinary confocal microscope gives. -/
theorem confocal_setup {a : MicroArgs} {o n nz : ℕ} {q w na i z : ℚ} (ha : OrdinaryArgs a o n nz q w na i z) {wlExc pinhole : PyVal} {w' : ℚ}
    (hexc : Denotes wlExc w') {m : Micro} (hm : Micro.newConfocal a wlExc pinhole = .ok m) :
    ∃ h h2 v cd, keyword VecCorr.ofString (a.kw.vecCorr.getD (.str "none")) = .ok v ∧
      keyword Condition.ofString (a.kw.condition.getD (.str "sine")) = .ok cd ∧ v ≠ .z ∧
      m.model = .hanser h ∧ m.kind = .confocal (.hanser h2) pinhole none ∧ m.oversample = .int o ∧ m.psfParams.size = .int (n * o) ∧
      m.psf = none ∧ m.otf = none ∧
      Optics h.params w na i (q / o) (n * o) ((List.range nz).map (plane nz z)) v cd ∧
      Optics h2.params w' na i (q / o) (n * o) ((List.range nz).map (plane nz z)) v cd ∧
      (Inner.getPSFi m.model).1 = (⟨h.params, none⟩ : HSpec).PSFi ∧ (Inner.getPSFi (.hanser h2)).1 = (⟨h2.params, none⟩ : HSpec).PSFi := by
  obtain ⟨h, v, cd, hnew, hh, hvz, hO⟩ := widefield_setup a o n nz ha.odd q w na i z ha.hmod ha.hdual ha.hzr ha.hov ha.hsize ha.hpix ha.hwl ha.hw
    ha.hna ha.hna0 ha.hni ha.hi ha.hres ha.hz ha.hz0 ha.hzs ha.hspec ha.hvc ha.hcd
  have hvk : keyword VecCorr.ofString (a.kw.vecCorr.getD (.str "none")) = .ok v ∧
      keyword Condition.ofString (a.kw.condition.getD (.str "sine")) = .ok cd := by
    obtain ⟨l, x, z', vc, cd', a1, a2, a3, a4, a4', a4'', a5, a6, a6', a7, a8, a9, e⟩ := (hanser_new_iff _ none h).mp hh
    have e1 := hO.vecCorr
    have e2 := hO.condition
    rw [e] at e1 e2
    cases e1; cases e2
    exact ⟨a8, a9⟩
  have hl := constructed_live (Or.inr (Or.inr (Or.inl ⟨_, _, _, hm⟩)))
  unfold Micro.newConfocal at hm
  rw [hnew] at hm
  obtain ⟨p, hp, hm⟩ := py_bind_ok (show (do
      let p ← numericSet PyVal.isFloatOrInt none pinhole
      match Inner.set .wl wlExc (.hanser h) with
      | (.ok _, exc) => return { Micro.mk (.int o) (ordinaryParams a n o q) a.pixelSize (.hanser h) .widefield none none with
            kind := .confocal exc (p.getD pinhole) none }
      | (.error e, _) => .error e : Py Micro) = .ok m from hm)
  have hph : p.getD pinhole = pinhole := by
    cases p with
    | none => rfl
    | some w => exact (numericSet_some hp).1
  rw [hph] at hm
  have hset : Inner.set .wl wlExc (.hanser h) = ((setWl wlExc h).1, Inner.hanser (setWl wlExc h).2) := rfl
  rw [hset] at hm
  rcases hs : (setWl wlExc h).1 with e | u
  · rw [hs] at hm; cases hm
  · rw [hs] at hm; cases hm
    refine ⟨h, (setWl wlExc h).2, v, cd, hvk.1, hvk.2, hvz, rfl, rfl, rfl, rfl, rfl, rfl, hO, ?_, (inner_PSFi hl.model).1, (inner_PSFi hl.kind.1).1⟩
    rw [setWl, setNumeric_run] at hs ⊢
    rcases hn : numericSet PyVal.isFloatOrInt h.params.wl wlExc with er | _ | v'
    · rw [hn] at hs; cases hs
    · have h1 := (numericSet_none hn).2
      obtain ⟨u', k1, k2⟩ := hO.wl
      rw [k1] at h1
      have hww : w = w' := by
        unfold Denotes at hexc
        simp only [Option.getD_some, PyVal.ne, k2, hexc, PyFloat.eq, Bool.not_eq_false', decide_eq_true_eq] at h1
        exact h1
      rw [← hww]
      exact hO
    · have h1 := (numericSet_some hn).1
      exact ⟨⟨_, rfl, by rw [h1]; exact hexc⟩, hO.na, hO.ni, hO.res, hO.size, hO.zrange, hO.vecCorr, hO.condition⟩

/-- C115: the OTF of an ordinary confocal microscope without oversampling, a Hanser model and a pinhole of at most 1.5 pixels radius vanishes from
`2 na / wl + 2 na / wl_exc` on, in all its planes. -/
theorem C115_otf_limit (a : MicroArgs) (n nz : ℕ) (q w na i z : ℚ) (ha : OrdinaryArgs a 1 n nz q w na i z) (wlExc pinhole : PyVal) (w' ph : ℚ)
    (hexc : Denotes wlExc w') (hw' : 0 < w') (hph : Denotes pinhole ph) (hR : ph * (61 / 50 * w / na / q) / 2 ≤ 3 / 2)
    (hny : 2 * na / w + 2 * na / w' ≤ 1 / (2 * q)) (m : Micro) (hm : Micro.newConfocal a wlExc pinhole = .ok m) (t : Arr ℂ)
    (ht : (Micro.getOTF m).1 = .ok t) (kz ky kx : ℕ) (hkz : kz < nz) (hky : ky < n) (hkx : kx < n)
    (hf : ((2 * na / w + 2 * na / w' : ℚ) : ℝ) ≤ √(otfFreq n q ky ^ 2 + otfFreq n q kx ^ 2)) : t.get [kz, ky, kx] = 0 := by
  obtain ⟨h, h2, v, cd, -, -, hvz, e1, e2, e3, e4, e5, e6, hO, hO', g1, g2⟩ := confocal_setup ha hexc hm
  rw [Nat.cast_one, div_one, mul_one] at hO hO'
  have hq := ha.q_pos
  have hwq := ha.hw
  have hnq := ha.hna0
  have hf1 : ∀ p : Params, (⟨p, none⟩ : HSpec).Fits := fun p P v h => by cases h
  obtain ⟨d, hd, hds, -⟩ := hanser_total_pos ⟨h.params, none⟩ rfl hO ha.hw ha.hna0 ha.hi hq.ne' ha.n_pos
    (by simp; exact ha.nz_pos.ne') hvz
  obtain ⟨x, hx, hxs, -⟩ := hanser_total_pos ⟨h2.params, none⟩ rfl hO' hw' ha.hna0 ha.hi hq.ne' ha.n_pos
    (by simp; exact ha.nz_pos.ne') hvz
  have nyq : ∀ u : ℚ, 0 < u → 2 * na / u < 1 / (2 * q) → q < u / (4 * na) := by
    intro u hu h1
    rw [div_lt_div_iff₀ hu (by positivity)] at h1
    rw [lt_div_iff₀ (by positivity)]
    linarith
  have p1 : 0 < 2 * na / w := by positivity
  have p2 : 0 < 2 * na / w' := by positivity
  have c1 := C114_hanser_cutoff ⟨h.params, none⟩ (hf1 _) hO d hd ha.hw hq ha.hna0 (nyq w ha.hw (by linarith))
    (fun a _ c _ h => ideal_masked _ rfl _ _ _ _ _ h)
  have c2 := C114_hanser_cutoff ⟨h2.params, none⟩ (hf1 _) hO' x hx hw' hq ha.hna0 (nyq w' hw' (by linarith))
    (fun a _ c _ h => ideal_masked _ rfl _ _ _ _ _ h)
  have hlen : ((List.range nz).map (plane nz z)).length = nz := by simp
  rw [hlen] at c1 c2 hds hxs
  have hS : ConfocalSetting m d x nz n (ph * (61 / 50 * w / na / q) / 2) := by
    refine ⟨⟨_, _, _, w, na, q, ph, e2, g1.trans hd, g2.trans hx, ?_, ?_, ?_, hph, ha.hna0.ne', hq.ne', rfl⟩, hds, hxs⟩
    · rw [e1]; exact hO.wl
    · rw [e1]; exact hO.na
    · rw [e1]; exact hO.res
  have hq' : (0 : ℝ) < q := by exact_mod_cast hq
  have hsum : 2 * ((na / w' : ℚ) : ℝ) + 2 * ((na / w : ℚ) : ℝ) = ((2 * na / w + 2 * na / w' : ℚ) : ℝ) := by push_cast; ring
  have hny' : 2 * ((na / w' : ℚ) : ℝ) + 2 * ((na / w : ℚ) : ℝ) ≤ 1 / (2 * (q : ℝ)) := by
    rw [hsum]; exact_mod_cast hny
  obtain ⟨c, k1, k2, k3⟩ := C115_resolution m d x nz n _ hS hR q _ _ hq' c2 c1 hny'
  exact otf_cutoff m c nz n q _ hq' k1 k2 k3 hny' e5 e6 (by rw [e3]; rfl) t ht kz ky kx hkz hky hkx (by rw [hsum]; exact hf)

/-! ## C116: an open pinhole -/

/-- A pinhole that covers the whole field of view collects all of it from everywhere. -/
theorem throughPinhole_open {R : ℝ} (hR : 0 < R) (d : Arr ℝ) (N z : ℕ) (h : 2 * (N : ℝ) ^ 2 ≤ R ^ 2) {y x : ℕ} (hy : y < N) (hx : x < N) :
    throughPinhole R d N N z y x = planeEnergy d N z / (disk R).card := by
  rw [throughPinhole, planeEnergy]
  congr 1
  rw [← Finset.sum_product']
  symm
  refine Finset.sum_bij_ne_zero (fun p _ _ => ((p.1 : ℤ) - y, (p.2 : ℤ) - x)) ?_ ?_ ?_ ?_
  · intro p hp _
    simp only [Finset.mem_product, Finset.mem_range] at hp
    rw [mem_disk hR]
    have b1 : |((p.1 : ℤ) - y : ℝ)| < N := by
      rw [abs_lt]
      have h1 : (p.1 : ℝ) < N := by exact_mod_cast hp.1
      have h2 : (y : ℝ) < N := by exact_mod_cast hy
      have h3 : (0 : ℝ) ≤ p.1 := by positivity
      have h4 : (0 : ℝ) ≤ y := by positivity
      push_cast
      constructor <;> linarith
    have b2 : |((p.2 : ℤ) - x : ℝ)| < N := by
      rw [abs_lt]
      have h1 : (p.2 : ℝ) < N := by exact_mod_cast hp.2
      have h2 : (x : ℝ) < N := by exact_mod_cast hx
      have h3 : (0 : ℝ) ≤ p.2 := by positivity
      have h4 : (0 : ℝ) ≤ x := by positivity
      push_cast
      constructor <;> linarith
    rw [abs_lt] at b1 b2
    push_cast at *
    nlinarith
  · intro p _ _ p' _ _ he
    simp only [Prod.mk.injEq] at he
    exact Prod.ext (by omega) (by omega)
  · intro p hp hne
    rw [pixelOr0] at hne
    have hin : 0 ≤ (y : ℤ) + p.1 ∧ (y : ℤ) + p.1 < N ∧ 0 ≤ (x : ℤ) + p.2 ∧ (x : ℤ) + p.2 < N := by
      by_contra hc
      exact hne (if_neg hc)
    rw [if_pos hin] at hne
    refine ⟨(((y : ℤ) + p.1).toNat, ((x : ℤ) + p.2).toNat), ?_, hne, ?_⟩
    · simp only [Finset.mem_product, Finset.mem_range]; omega
    · exact Prod.ext (by simp only; omega) (by simp only; omega)
  · intro p hp _
    simp only [Finset.mem_product, Finset.mem_range] at hp
    rw [pixelOr0, if_pos (by omega)]
    simp

theorem cyc_lt {N : ℕ} (hN : 0 < N) (k : ℤ) : cyc N k < N := by
  have h1 := Int.emod_nonneg k (by omega : (N : ℤ) ≠ 0)
  have h2 := Int.emod_lt_of_pos k (by omega : (0 : ℤ) < N)
  unfold cyc; omega

/-- C116: a confocal microscope whose pinhole covers the field of view has the PSF of the widefield microscope that is used at the excitation
wavelength. -/
theorem C116_open_pinhole (a : MicroArgs) (o n nz : ℕ) (q w na i z : ℚ) (ha : OrdinaryArgs a o n nz q w na i z) (wlExc pinhole : PyVal) (w' ph : ℚ)
    (ha' : OrdinaryArgs { a with wl := wlExc } o n nz q w' na i z) (hph : Denotes pinhole ph) (R : ℚ) (hR : R = ph * (61 / 50 * w / na / (q / o)) / 2)
    (hR0 : 0 < R) (hopen : 2 * (n * o) ^ 2 ≤ R ^ 2) (m : Micro) (hm : Micro.newConfocal a wlExc pinhole = .ok m) :
    ∃ m' p p', Micro.newWidefield { a with wl := wlExc } = .ok m' ∧ (Micro.getPSF m).1 = .ok p ∧ (Micro.getPSF m').1 = .ok p' ∧
      p.shape = [nz, n, n] ∧ p'.shape = [nz, n, n] ∧ ∀ iz < nz, ∀ y < n, ∀ x < n, p.get [iz, y, x] = p'.get [iz, y, x] := by
  obtain ⟨h, h2, v, cd, kv, kc, hvz, e1, e2, e3, e4, e5, e6, hO, hO', g1, g2⟩ := confocal_setup ha ha'.hwl hm
  have ho0 : 0 < o := by have := ha.odd; omega
  have hqo : (0 : ℚ) < q / o := div_pos ha.q_pos (by exact_mod_cast ho0)
  have hf1 : ∀ p : Params, (⟨p, none⟩ : HSpec).Fits := fun p P v h => by cases h
  have hlen : ((List.range nz).map (plane nz z)).length = nz := by simp
  have hzne : (List.range nz).map (plane nz z) ≠ [] := by simp; exact ha.nz_pos.ne'
  have hNo : 0 < n * o := Nat.mul_pos ha.n_pos ho0
  obtain ⟨d, hd, hds, hdpos⟩ := hanser_total_pos ⟨h.params, none⟩ rfl hO ha.hw ha.hna0 ha.hi hqo.ne' hNo hzne hvz
  obtain ⟨x, hx, hxs, hxpos⟩ := hanser_total_pos ⟨h2.params, none⟩ rfl hO' ha'.hw ha.hna0 ha.hi hqo.ne' hNo hzne hvz
  rw [hlen] at hds hxs
  -- the widefield microscope
  obtain ⟨m', h', b, hm', hmod', hb, hbs, hbpos, p', hp', hps', hpget'⟩ := C54_widefield { a with wl := wlExc } o n nz ha.odd ha.n_pos ha.nz_pos q w' na i z
    ha.q_pos.ne' ha'.hmod ha'.hdual ha'.hzr ha'.hov ha'.hsize ha'.hpix ha'.hwl ha'.hw ha'.hna ha'.hna0 ha'.hni ha'.hi ha'.hres ha'.hz ha'.hz0 ha'.hzs
    ha'.hspec ha'.hvc ha'.hcd
  obtain ⟨h'', v', cd', hnew', hh', hvz', hO''⟩ := widefield_setup { a with wl := wlExc } o n nz ha.odd q w' na i z ha'.hmod ha'.hdual ha'.hzr ha'.hov
    ha'.hsize ha'.hpix ha'.hwl ha'.hw ha'.hna ha'.hna0 ha'.hni ha'.hi ha'.hres ha'.hz ha'.hz0 ha'.hzs ha'.hspec ha'.hvc ha'.hcd
  have hh'' : h'' = h' := by
    rw [hnew'] at hm'; cases hm'
    cases hmod'; rfl
  subst hh''
  have hvc' : v' = v ∧ cd' = cd := by
    obtain ⟨l, x, z', vc, cd1, a1, a2, a3, a4, a4', a4'', a5, a6, a6', a7, a8, a9, e⟩ := (hanser_new_iff _ none h'').mp hh'
    have f1 := hO''.vecCorr
    have f2 := hO''.condition
    rw [e] at f1 f2
    cases f1; cases f2
    have a8' : keyword VecCorr.ofString (a.kw.vecCorr.getD (.str "none")) = .ok v' := a8
    have a9' : keyword Condition.ofString (a.kw.condition.getD (.str "sine")) = .ok cd' := a9
    rw [kv] at a8'; rw [kc] at a9'
    cases a8'; cases a9'
    exact ⟨rfl, rfl⟩
  obtain ⟨rfl, rfl⟩ := hvc'
  have hrel : HRel h'' ⟨h''.params, none⟩ := by
    obtain ⟨r1, r2⟩ := hanser_ready hh'
    rw [r2]; exact HRel.cleared r1
  have hb' : (⟨h''.params, none⟩ : HSpec).PSFi = .ok b := by rw [← (getPSFi_rel hrel).1, hb]
  have hbx : ∀ iz y k, b.get [iz, y, k] = x.get [iz, y, k] := by
    intro iz y k
    rw [(psfi_amplitude _ (hf1 _) hO'' b hb').2.2, (psfi_amplitude _ (hf1 _) hO' x hx).2.2]
    rfl
  -- the confocal PSF
  obtain ⟨c, k1, k2, k3⟩ := C58_confocal m _ _ _ e2 d x (g1.trans hd) (g2.trans hx) nz (n * o) (n * o) hds hxs w na (q / o) ph R
    (by rw [e1]; exact hO.wl) (by rw [e1]; exact hO.na) (by rw [e1]; exact hO.res) hph ha.hna0.ne' hqo.ne' hR
  have hRbig : 3 / 2 < R ∨ n * o = 1 := by
    by_cases h1 : n * o = 1
    · exact Or.inr h1
    · left
      have h2 : (2 : ℚ) ≤ (n : ℚ) * o := by exact_mod_cast (by omega : 2 ≤ n * o)
      by_contra hc
      push Not at hc
      nlinarith
  have hR' : (0 : ℝ) < R := by exact_mod_cast hR0
  have hopen' : 2 * ((n * o : ℕ) : ℝ) ^ 2 ≤ (R : ℝ) ^ 2 := by push_cast; exact_mod_cast hopen
  -- every pixel of the excitation PSF is multiplied by the same number
  have henergy : 0 < planeEnergy d (n * o) 0 := by
    have hsum : d.sum = nz * planeEnergy d (n * o) 0 := by
      rw [sum3 d _ _ _ hds]
      have : ∀ iz ∈ Finset.range nz, (∑ y ∈ Finset.range (n * o), ∑ x ∈ Finset.range (n * o), d.get [iz, y, x]) = planeEnergy d (n * o) 0 :=
        fun iz _ => C40_same_energy ⟨h.params, none⟩ (hf1 _) d hd nz (n * o) hds iz 0
      rw [Finset.sum_congr rfl this, Finset.sum_const, Finset.card_range, nsmul_eq_mul]
    rw [hsum] at hdpos
    have : (0 : ℝ) < nz := by exact_mod_cast ha.nz_pos
    exact (mul_pos_iff_of_pos_left this).mp hdpos
  obtain ⟨κ, hκ, hcx⟩ : ∃ κ : ℝ, 0 < κ ∧ ∀ iz < nz, ∀ y < n * o, ∀ k < n * o, c.get [iz, y, k] = κ * x.get [iz, y, k] := by
    have hcard : (0 : ℝ) < (disk R).card := by exact_mod_cast disk_pos hR'
    by_cases hbig : 3 / 2 < R
    · refine ⟨planeEnergy d (n * o) 0 / (disk R).card, div_pos henergy hcard, fun iz hz y hy k hk => ?_⟩
      rw [k3 iz hz y hy k hk, if_pos hbig, throughPinhole_open hR' d (n * o) iz hopen' hy hk,
        C40_same_energy ⟨h.params, none⟩ (hf1 _) d hd nz (n * o) hds iz 0]
      ring
    · have h1 : n * o = 1 := hRbig.resolve_left hbig
      refine ⟨planeEnergy d (n * o) 0, henergy, fun iz hz y hy k hk => ?_⟩
      rw [k3 iz hz y hy k hk, if_neg hbig, ← C40_same_energy ⟨h.params, none⟩ (hf1 _) d hd nz (n * o) hds iz 0, planeEnergy]
      have hy0 : y = 0 := by omega
      have hk0 : k = 0 := by omega
      rw [h1, hy0, hk0]
      simp [mul_comm]
  have hcs : c.sum = κ * x.sum := by
    rw [sum3 c _ _ _ k2, sum3 x _ _ _ hxs, Finset.mul_sum]
    refine Finset.sum_congr rfl fun iz hz => ?_
    rw [Finset.mul_sum]
    refine Finset.sum_congr rfl fun y hy => ?_
    rw [Finset.mul_sum]
    exact Finset.sum_congr rfl fun k hk => hcx iz (Finset.mem_range.mp hz) y (Finset.mem_range.mp hy) k (Finset.mem_range.mp hk)
  have hbsum : b.sum = x.sum := by
    rw [sum3 b _ _ _ hbs, sum3 x _ _ _ hxs]
    simp only [hbx]
  obtain ⟨p, f1, f2, f3⟩ := C54_super_pixel o n nz ha.odd c k2 (by rw [hcs]; exact (mul_pos hκ hxpos).ne')
  have hp : (Micro.getPSF m).1 = .ok p := by
    rw [getPSF_run, e5]
    rcases hmm : Micro.modelPsf m with ⟨e | c', m1⟩
    · rw [hmm] at k1; cases k1
    · rw [hmm] at k1; cases k1
      have hsz : (pyInt m.psfParams.size).toNat = n * o := by
        rw [e4]; exact_mod_cast Int.toNat_natCast (n * o)
      simp only [hsz, e3]
      rw [show pyInt (.int (o : ℤ)) = (o : ℤ) from rfl, f1]
  refine ⟨m', p, p', hm', hp, hp', f2, hps', fun iz hz y hy k hk => ?_⟩
  rw [f3 iz hz y hy k hk, hpget' iz hz y hy k hk, hcs, hbsum]
  have hsp : superPixel o n (fun i j => c.get [iz, i, j]) y k = κ * superPixel o n (fun i j => b.get [iz, i, j]) y k := by
    unfold superPixel
    rw [Finset.mul_sum]
    refine Finset.sum_congr rfl fun dy _ => ?_
    rw [Finset.mul_sum]
    refine Finset.sum_congr rfl fun dx _ => ?_
    beta_reduce
    rw [hcx iz hz _ (cyc_lt hNo _) _ (cyc_lt hNo _), hbx]
  rw [hsp, mul_div_mul_left _ _ hκ.ne']

/-! ## Non-vacuity -/

/-- When an ordinary confocal microscope can be constructed. -/
theorem confocal_exists {a : MicroArgs} {o n nz : ℕ} {q w na i z : ℚ} (ha : OrdinaryArgs a o n nz q w na i z) {wlExc pinhole : PyVal}
    {p p' : Option PyVal} (h1 : numericSet PyVal.isFloatOrInt none pinhole = .ok p) (h2 : numericSet PyVal.isFloatOrInt (some a.wl) wlExc = .ok p') :
    ∃ m, Micro.newConfocal a wlExc pinhole = .ok m := by
  obtain ⟨h, v, cd, hnew, hh, hvz, hO⟩ := widefield_setup a o n nz ha.odd q w na i z ha.hmod ha.hdual ha.hzr ha.hov ha.hsize ha.hpix ha.hwl ha.hw
    ha.hna ha.hna0 ha.hni ha.hi ha.hres ha.hz ha.hz0 ha.hzs ha.hspec ha.hvc ha.hcd
  have hwl : h.params.wl = some a.wl := by
    obtain ⟨l, x, z', vc, cd', a1, a2, a3, a4, a4', a4'', a5, a6, a6', a7, a8, a9, rfl⟩ := (hanser_new_iff _ none h).mp hh
    rfl
  unfold Micro.newConfocal
  rw [hnew]
  have hs : ∃ e, Inner.set .wl wlExc (.hanser h) = (.ok (), e) := by
    have : Inner.set .wl wlExc (.hanser h) = ((setWl wlExc h).1, Inner.hanser (setWl wlExc h).2) := rfl
    rw [this, setWl, setNumeric_run, hwl, h2]
    cases p' <;> exact ⟨_, rfl⟩
  obtain ⟨e, hs⟩ := hs
  simp only [bind, Except.bind, h1, hs]
  exact ⟨_, rfl⟩

theorem demoArgs_ordinary (k : ℤ) (hk : 442 < k) : OrdinaryArgs { demoMicroArgs with wl := .int k } 3 64 64 130 k (17/20) 1 130 where
  odd := rfl
  n_pos := by norm_num
  nz_pos := by norm_num
  q_pos := by norm_num
  hmod := rfl
  hdual := rfl
  hzr := rfl
  hov := rfl
  hsize := rfl
  hpix := rfl
  hwl := by norm_num [Denotes, PyVal.num?]
  hw := by exact_mod_cast lt_trans (by norm_num) hk
  hna := by norm_num [demoMicroArgs, Denotes, PyVal.num?]
  hna0 := by norm_num
  hni := by norm_num [demoMicroArgs, Denotes, PyVal.num?]
  hi := by norm_num
  hres := by
    have : (442 : ℚ) < k := by exact_mod_cast hk
    rw [lt_div_iff₀ (by norm_num)]; norm_num; linarith
  hz := by norm_num [demoMicroArgs, Denotes, PyVal.num?]
  hz0 := by norm_num
  hzs := Or.inl rfl
  hspec := by constructor <;> simp [demoMicroArgs, NotSpecial, PsfParams.initArgs]
  hvc := by simp [demoMicroArgs]
  hcd := by simp [demoMicroArgs]

/-- Non-vacuity of C116: a pinhole of 200 Airy units. -/
example : ∃ m m' p p', Micro.newConfocal demoMicroArgs (.int 488) (.int 200) = .ok m ∧ Micro.newWidefield { demoMicroArgs with wl := .int 488 } = .ok m' ∧
    (Micro.getPSF m).1 = .ok p ∧ (Micro.getPSF m').1 = .ok p' ∧ p.get [32, 30, 32] = p'.get [32, 30, 32] := by
  have ha : OrdinaryArgs demoMicroArgs 3 64 64 130 520 (17/20) 1 130 := by exact_mod_cast demoArgs_ordinary 520 (by norm_num)
  have ha' : OrdinaryArgs { demoMicroArgs with wl := .int 488 } 3 64 64 130 488 (17/20) 1 130 := by exact_mod_cast demoArgs_ordinary 488 (by norm_num)
  obtain ⟨m, hm⟩ := confocal_exists ha (wlExc := .int 488) (pinhole := .int 200) (p := some (.int 200)) (p' := some (.int 488)) rfl rfl
  obtain ⟨m', p, p', h1, h2, h3, -, -, h4⟩ := C116_open_pinhole demoMicroArgs 3 64 64 130 520 (17/20) 1 130 ha (.int 488) (.int 200) 488 200 ha'
    (by norm_num [Denotes, PyVal.num?]) _ rfl (by norm_num) (by norm_num) m hm
  exact ⟨m, m', p, p', hm, h1, h2, h3, h4 32 (by norm_num) 30 (by norm_num) 32 (by norm_num)⟩

theorem demoFine_ordinary : OrdinaryArgs demoFine 1 64 64 40 520 (17/20) 1 40 where
  odd := rfl
  n_pos := by norm_num
  nz_pos := by norm_num
  q_pos := by norm_num
  hmod := rfl
  hdual := rfl
  hzr := rfl
  hov := rfl
  hsize := rfl
  hpix := rfl
  hwl := by norm_num [demoFine, demoMicroArgs, Denotes, PyVal.num?]
  hw := by norm_num
  hna := by norm_num [demoFine, demoMicroArgs, Denotes, PyVal.num?]
  hna0 := by norm_num
  hni := by norm_num [demoFine, demoMicroArgs, Denotes, PyVal.num?]
  hi := by norm_num
  hres := by norm_num
  hz := by norm_num [demoFine, demoMicroArgs, Denotes, PyVal.num?]
  hz0 := by norm_num
  hzs := Or.inl rfl
  hspec := by constructor <;> simp [demoFine, demoMicroArgs, NotSpecial, PsfParams.initArgs]
  hvc := by simp [demoFine, demoMicroArgs]
  hcd := by simp [demoFine, demoMicroArgs]

/-- Non-vacuity of C115: a pinhole of 0.1 Airy units; element (0, 32) of the OTF is beyond the limit. -/
example : ∃ m t, Micro.newConfocal demoFine (.int 488) (.float (.fin (1/10))) = .ok m ∧ (Micro.getOTF m).1 = .ok t ∧ t.get [32, 0, 32] = 0 := by
  have n1 : numericSet PyVal.isFloatOrInt none (.float (.fin (1/10))) = .ok (some (.float (.fin (1/10)))) := by decide +kernel
  obtain ⟨m, hm⟩ := confocal_exists demoFine_ordinary (wlExc := .int 488) (p' := some (.int 488)) n1 rfl
  obtain ⟨h, h2, v, cd, kv, -, hvz, e1, e2, e3, e4, e5, e6, hO, hO', g1, g2⟩ := confocal_setup demoFine_ordinary (w' := 488)
    (by norm_num [Denotes, PyVal.num?]) hm
  have hv : v = .none := by cases kv; rfl
  subst hv
  have hf1 : ∀ p : Params, (⟨p, none⟩ : HSpec).Fits := fun p P v h => by cases h
  have pos : ∀ (p : Params) (u : ℚ), 0 < u → Optics p u (17/20) 1 (40 / (1 : ℕ)) (64 * 1) ((List.range 64).map (plane 64 40)) .none cd →
      ∃ b, (⟨p, none⟩ : HSpec).PSFi = .ok b ∧ b.shape = [64, 64, 64] ∧ (∀ z y x, 0 ≤ b.get [z, y, x]) ∧ 0 < b.get [32, 32, 32] := by
    intro p u hu hO
    obtain ⟨b, hb, hbs, hpos⟩ := hanser_total_pos ⟨p, none⟩ rfl hO hu (by norm_num) (by norm_num) (by norm_num) (by norm_num) (by simp) hvz
    have hbs' : b.shape = [64, 64, 64] := by rw [hbs]; simp
    have nn : ∀ z y x, 0 ≤ b.get [z, y, x] := fun z y x => by
      rw [(psfi_amplitude _ (hf1 _) hO b hb).2.2]
      exact Finset.sum_nonneg fun c _ => sq_nonneg _
    refine ⟨b, hb, hbs', nn, ?_⟩
    have hle := C47_peak _ (hf1 _) hO (fun a _ c _ => C47_ideal _ rfl _ _ _ a c) b hb 32 (by simp [plane])
    rcases (nn 32 32 32).lt_or_eq with h1 | h1
    · exact h1
    · exfalso
      rw [sum3 b 64 64 64 hbs'] at hpos
      refine hpos.ne' (Finset.sum_eq_zero fun z _ => Finset.sum_eq_zero fun y _ => Finset.sum_eq_zero fun x _ => ?_)
      exact le_antisymm ((hle z y x).trans h1.symm.le) (nn z y x)
  obtain ⟨d, hd, hds, dn, dp⟩ := pos h.params 520 (by norm_num) hO
  obtain ⟨x, hx, hxs, xn, xp⟩ := pos h2.params 488 (by norm_num) hO'
  obtain ⟨c, k1, k2, k3⟩ := C58_confocal m _ _ _ e2 d x (g1.trans hd) (g2.trans hx) 64 64 64 hds hxs 520 (17/20) (40 / (1 : ℕ)) (1/10) _
    (by rw [e1]; exact hO.wl) (by rw [e1]; exact hO.na) (by rw [e1]; exact hO.res) (by norm_num [Denotes, PyVal.num?]) (by norm_num) (by norm_num) rfl
  have hcx : ∀ z < 64, ∀ y < 64, ∀ k < 64, c.get [z, y, k] = x.get [z, y, k] * d.get [z, y, k] := by
    intro z hz y hy k hk
    rw [k3 z hz y hy k hk, if_neg (by norm_num)]
  have hcs : 0 < c.sum := by
    rw [sum3 c 64 64 64 k2]
    have nn : ∀ z ∈ Finset.range 64, ∀ y ∈ Finset.range 64, ∀ k ∈ Finset.range 64, 0 ≤ c.get [z, y, k] := fun z hz y hy k hk => by
      rw [hcx z (Finset.mem_range.mp hz) y (Finset.mem_range.mp hy) k (Finset.mem_range.mp hk)]; exact mul_nonneg (xn _ _ _) (dn _ _ _)
    have m32 : 32 ∈ Finset.range 64 := Finset.mem_range.mpr (by norm_num)
    refine Finset.sum_pos' (fun z hz => Finset.sum_nonneg fun y hy => Finset.sum_nonneg fun k hk => nn z hz y hy k hk) ⟨32, m32, ?_⟩
    refine Finset.sum_pos' (fun y hy => Finset.sum_nonneg fun k hk => nn _ m32 y hy k hk) ⟨32, m32, ?_⟩
    refine Finset.sum_pos' (fun k hk => nn _ m32 _ m32 k hk) ⟨32, m32, ?_⟩
    rw [hcx 32 (by norm_num) 32 (by norm_num) 32 (by norm_num)]
    exact mul_pos xp dp
  obtain ⟨-, t, ht, -, -⟩ := C113_otf m e5 e6 (by rw [e3]; rfl) c k1 64 64 k2 hcs.ne' 1 1 (by norm_num) (by norm_num)
  refine ⟨m, t, hm, ht, ?_⟩
  refine C115_otf_limit demoFine 64 64 40 520 (17/20) 1 40 demoFine_ordinary (.int 488) (.float (.fin (1/10))) 488 (1/10) (by norm_num [Denotes, PyVal.num?])
    (by norm_num) (by norm_num [Denotes, PyVal.num?]) (by norm_num) (by norm_num) m hm t ht 32 0 32 (by norm_num) (by norm_num) (by norm_num) ?_
  refine Real.le_sqrt_of_sq_le ?_
  norm_num [otfFreq]

end PyOTF
