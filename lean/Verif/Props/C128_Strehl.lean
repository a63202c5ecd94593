import Verif.Spec.Strehl
import Verif.Props.C127_Continuum
import Mathlib.MeasureTheory.Measure.Haar.NormedSpace

/-!
# C128: how much a wavefront error dims the focus (Maréchal)
-/

open MeasureTheory Filter Topology

namespace PyOTF

open Physics

section Weighted

variable {ι : Type} (S : Finset ι) (W φ : ι → ℝ)

/-- Phasors with weights `W` and phases of weighted variance `σ²` add up to at least `1 - σ²/2` of the sum of the weights. -/
theorem phasor_sum_ge (hW : ∀ u ∈ S, 0 ≤ W u) (hpos : 0 < ∑ u ∈ S, W u) (M : ℝ) :
    (1 - (∑ u ∈ S, W u * (φ u - M) ^ 2) / (∑ u ∈ S, W u) / 2) * ∑ u ∈ S, W u ≤ ‖∑ u ∈ S, (W u : ℂ) * Complex.exp (Complex.I * (φ u : ℝ))‖ := by
  have e1 : ‖∑ u ∈ S, (W u : ℂ) * Complex.exp (Complex.I * (φ u : ℝ))‖ = ‖∑ u ∈ S, (W u : ℂ) * Complex.exp (Complex.I * ((φ u - M : ℝ) : ℂ))‖ := by
    have : ∑ u ∈ S, (W u : ℂ) * Complex.exp (Complex.I * ((φ u - M : ℝ) : ℂ)) =
        Complex.exp (((-M : ℝ) : ℂ) * Complex.I) * ∑ u ∈ S, (W u : ℂ) * Complex.exp (Complex.I * (φ u : ℝ)) := by
      rw [Finset.mul_sum]
      refine Finset.sum_congr rfl fun u _ => ?_
      rw [mul_left_comm, ← Complex.exp_add]
      congr 2; push_cast; ring
    rw [this, norm_mul, Complex.norm_exp_ofReal_mul_I, one_mul]
  rw [e1]
  refine le_trans ?_ (Complex.re_le_norm _)
  rw [Complex.re_sum]
  have e2 : ∀ u ∈ S, W u * (1 - (φ u - M) ^ 2 / 2) ≤ ((W u : ℂ) * Complex.exp (Complex.I * ((φ u - M : ℝ) : ℂ))).re := by
    intro u hu
    rw [mul_comm Complex.I, Complex.re_ofReal_mul, Complex.exp_ofReal_mul_I_re]
    exact mul_le_mul_of_nonneg_left (Real.one_sub_sq_div_two_le_cos) (hW u hu)
  refine le_trans (le_of_eq ?_) (Finset.sum_le_sum e2)
  rw [sub_mul, one_mul, div_right_comm, div_mul_cancel₀ _ hpos.ne', Finset.sum_div, ← Finset.sum_sub_distrib]
  exact Finset.sum_congr rfl fun u _ => by ring

end Weighted

/-- Pixels inside the aperture. -/
noncomputable def aperturePixels (N : ℕ) (r l : ℝ) : Finset (ℕ × ℕ) := by
  classical exact (Finset.range N ×ˢ Finset.range N).filter fun u => radial N r u.1 u.2 < l

theorem sum_pixels {β : Type} [AddCommMonoid β] (N : ℕ) (r l : ℝ) (g : ℕ → ℕ → β) [∀ i j, Decidable (radial N r i j < l)] :
    ∑ i ∈ Finset.range N, ∑ j ∈ Finset.range N, (if radial N r i j < l then g i j else 0) = ∑ u ∈ aperturePixels N r l, g u.1 u.2 := by
  rw [aperturePixels, Finset.sum_filter, Finset.sum_product]
  refine Finset.sum_congr rfl fun i _ => Finset.sum_congr rfl fun j _ => ?_
  split_ifs <;> rfl

theorem apertureMean_eq (N : ℕ) (r k l : ℝ) (cd : Condition) (f : ℕ → ℕ → ℝ) : apertureMean N r k l cd f =
    (∑ u ∈ aperturePixels N r l, apodization cd (cosTheta N r k u.1 u.2) * f u.1 u.2) / ∑ u ∈ aperturePixels N r l, apodization cd (cosTheta N r k u.1 u.2) := by
  rw [apertureMean, sum_pixels N r l, sum_pixels N r l]

theorem cosTheta_pos (N : ℕ) (r k : ℝ) (i j : ℕ) : 0 < cosTheta N r k i j := by
  unfold cosTheta sinTheta
  have h0 : 0 ≤ radial N r i j := Real.sqrt_nonneg _
  apply Real.sqrt_pos.mpr
  split_ifs with h
  · have hk : 0 < k := by linarith
    have h1 : radial N r i j / k < 1 := by rw [div_lt_one hk]; exact h
    have h2 : 0 ≤ radial N r i j / k := by positivity
    nlinarith
  · norm_num

theorem apodization_pos (cd : Condition) (N : ℕ) (r k : ℝ) (i j : ℕ) : 0 < apodization cd (cosTheta N r k i j) := by
  have h := cosTheta_pos N r k i j
  cases cd <;> simp only [apodization]
  · norm_num
  · exact one_div_pos.mpr (Real.sqrt_pos.mpr h)
  · exact one_div_pos.mpr h

theorem aperture_weight_pos {N : ℕ} (hN : 0 < N) (r k : ℝ) {l : ℝ} (hl : 0 < l) (cd : Condition) :
    0 < ∑ u ∈ aperturePixels N r l, apodization cd (cosTheta N r k u.1 u.2) := by
  refine Finset.sum_pos (fun u _ => apodization_pos cd N r k _ _) ⟨(0, 0), ?_⟩
  refine Finset.mem_filter.mpr ⟨by simp [hN], ?_⟩
  simp [radial, freq, hl, hN]

/-- The amplitude at the centre of the focal plane is the weighted sum of the phasors over the aperture. -/
theorem amplitude_focus (N : ℕ) (r k l : ℝ) (cd : Condition) (φ : ℕ → ℕ → ℝ) :
    amplitude N r k .none cd (fun a b => aperture N r l a b * Complex.exp (Complex.I * (φ a b : ℝ))) 0 0 (N / 2) (N / 2) =
      (∑ u ∈ aperturePixels N r l, ((apodization cd (cosTheta N r k u.1 u.2) : ℝ) : ℂ) * Complex.exp (Complex.I * (φ u.1 u.2 : ℝ))) / (N * N) := by
  classical
  rw [amplitude, field_centre, ← sum_pixels N r l fun i j => ((apodization cd (cosTheta N r k i j) : ℝ) : ℂ) * Complex.exp (Complex.I * (φ i j : ℝ))]
  congr 1
  refine Finset.sum_congr rfl fun i _ => Finset.sum_congr rfl fun j _ => ?_
  simp only [aperture, weight, polarization, List.getD_cons_zero, mul_one, mul_zero, zero_mul, Complex.ofReal_zero, Complex.exp_zero]
  split_ifs
  · ring
  · simp

/-- C128: scalar theory, phase aberrations `pcoefs` only.  With `σ²` the variance of the phase `Σ pcoefs_k Z_k` over the pixels of the aperture (weighted by the
apodisation), the centre of the focal plane keeps at least the fraction `1 - σ²` of its unaberrated intensity, and at least `(1 - σ²/2)²` if `σ² ≤ 2`; and at most all of it. -/
theorem C128_marechal (heap : Heap) (k : ℕ) (o : HObj) (hk : heap[k]? = some o) (mc pc : Option (List ℝ))
    (m ph : List ℝ) (hc : fillCoefs mc pc = some (m, ph)) {w n i r : ℚ} {N : ℕ} {zs : List ℚ} {cd : Condition}
    (hA : Aberrable o m ph w n i r N zs .none cd) (hm : ∀ j < m.length, m.getD j 0 = 0)
    (iz0 : ℕ) (hz : zs.getD iz0 0 = 0) :
    ∃ ref o' b b0 D, (applyAberration k mc pc heap).1 = .ok ref ∧ (applyAberration k mc pc heap).2[ref]? = some o' ∧
    (HObj.getPSFi o').1 = .ok b ∧ (⟨o.params, none⟩ : HSpec).PSFi = .ok b0 ∧ NollModes D m.length ∧
    ∀ σ2, σ2 = wavefrontVariance N r ((i / w : ℚ) : ℝ) ((n / w : ℚ) : ℝ) cd (zernikeSum D ph N r ((n / w : ℚ) : ℝ)) →
      0 < b0.get [iz0, N / 2, N / 2] ∧ 0 ≤ σ2 ∧
      (1 - σ2) * b0.get [iz0, N / 2, N / 2] ≤ b.get [iz0, N / 2, N / 2] ∧
      (σ2 ≤ 2 → (1 - σ2 / 2) ^ 2 * b0.get [iz0, N / 2, N / 2] ≤ b.get [iz0, N / 2, N / 2]) ∧
      b.get [iz0, N / 2, N / 2] ≤ b0.get [iz0, N / 2, N / 2] := by
  obtain ⟨ref, o', a, D, h1, h2, h3, h4, h5, h6, h7, h8⟩ := C49_aberrated heap k o hk mc pc m ph hc hA
  have hf : (⟨o.params, none⟩ : HSpec).Fits := by intro P' v' h; cases h
  have hN : 0 < N := by have := hA.pixels; omega
  obtain ⟨a0, ha0⟩ := (C76_computable ⟨o.params, none⟩ hf hA.optics).mpr ⟨hA.wl.ne', hA.res, hN, hA.index⟩
  obtain ⟨hs0, hg0⟩ := C76_diffraction_integral ⟨o.params, none⟩ hf hA.optics a0 ha0
  refine ⟨ref, o', _, _, D, h1, h2, h5, PSFi_of ha0, h6, fun σ2 hσ => ?_⟩
  have hl : (0 : ℝ) < ((n / w : ℚ) : ℝ) := by exact_mod_cast div_pos hA.na hA.wl
  rw [psfiOf_get a _ _ _ _ h7, psfiOf_get a0 _ _ _ _ hs0]
  simp only [components, Finset.sum_range_one, h8, hg0, hz, Rat.cast_zero]
  generalize ((n / w : ℚ) : ℝ) = l at *
  generalize ((i / w : ℚ) : ℝ) = κ at *
  have e : ∀ P : ℕ → ℕ → ℂ, ∀ φ : ℕ → ℕ → ℝ, (∀ a b, P a b = aperture N r l a b * Complex.exp (Complex.I * (φ a b : ℝ))) →
      amplitude N r κ .none cd P 0 0 (N / 2) (N / 2) = (∑ u ∈ aperturePixels N r l, ((apodization cd (cosTheta N r κ u.1 u.2) : ℝ) : ℂ) *
        Complex.exp (Complex.I * (φ u.1 u.2 : ℝ))) / (N * N) := by
    intro P φ hP
    rw [← amplitude_focus]
    congr 1
    funext a b
    exact hP a b
  have eA := e (aberrated D m ph N r l) (fun a b => zernikeSum D ph N r l a b) (fun a b => by rw [aberrated, zernikeSum_zero D m hm, Complex.ofReal_zero, add_zero])
  have eI := e ((⟨o.params, none⟩ : HSpec).pupilFn N r l) (fun _ _ => 0) (fun a b => by simp [HSpec.pupilFn])
  rw [eA, eI]
  set Wt := ∑ u ∈ aperturePixels N r l, apodization cd (cosTheta N r κ u.1 u.2) with hWt
  have hWpos : 0 < Wt := aperture_weight_pos hN r κ hl cd
  have e0 : ∑ u ∈ aperturePixels N r l, ((apodization cd (cosTheta N r κ u.1 u.2) : ℝ) : ℂ) * Complex.exp (Complex.I * ((0 : ℝ) : ℂ)) = (Wt : ℂ) := by
    rw [hWt]; push_cast; simp
  have key := phasor_sum_ge (aperturePixels N r l) (fun u => apodization cd (cosTheta N r κ u.1 u.2)) (fun u => zernikeSum D ph N r l u.1 u.2)
    (fun u _ => (apodization_pos cd N r κ _ _).le) hWpos (apertureMean N r κ l cd (zernikeSum D ph N r l))
  have hle : ‖∑ u ∈ aperturePixels N r l, ((apodization cd (cosTheta N r κ u.1 u.2) : ℝ) : ℂ) * Complex.exp (Complex.I * (zernikeSum D ph N r l u.1 u.2 : ℝ))‖ ≤ Wt := by
    refine (norm_sum_le _ _).trans (le_of_eq (Finset.sum_congr rfl fun u _ => ?_))
    rw [norm_mul, mul_comm Complex.I, Complex.norm_exp_ofReal_mul_I, mul_one, Complex.norm_real, Real.norm_eq_abs, abs_of_pos (apodization_pos _ _ _ _ _ _)]
  have hσ' : σ2 = (∑ u ∈ aperturePixels N r l, apodization cd (cosTheta N r κ u.1 u.2) *
      (zernikeSum D ph N r l u.1 u.2 - apertureMean N r κ l cd (zernikeSum D ph N r l)) ^ 2) / Wt := by
    rw [hσ, wavefrontVariance, apertureMean_eq N r κ l cd (fun i j => (_ : ℝ) ^ 2)]
  rw [← hσ'] at key
  have hσ0 : 0 ≤ σ2 := by
    rw [hσ']
    exact div_nonneg (Finset.sum_nonneg fun u _ => mul_nonneg (apodization_pos _ _ _ _ _ _).le (sq_nonneg _)) hWpos.le
  rw [e0]
  generalize (∑ u ∈ aperturePixels N r l, ((apodization cd (cosTheta N r κ u.1 u.2) : ℝ) : ℂ) * Complex.exp (Complex.I * (zernikeSum D ph N r l u.1 u.2 : ℝ))) = S at key hle ⊢
  have hNN : (0 : ℝ) < (N : ℝ) * N := by positivity
  have n1 : ‖(Wt : ℂ) / (N * N)‖ ^ 2 = Wt ^ 2 / (N * N) ^ 2 := by
    rw [norm_div, Complex.norm_real, Real.norm_eq_abs, abs_of_pos hWpos, norm_mul, Complex.norm_natCast, div_pow]
  have n2 : ‖S / (N * N)‖ ^ 2 = ‖S‖ ^ 2 / (N * N) ^ 2 := by
    rw [norm_div, norm_mul, Complex.norm_natCast, div_pow]
  rw [n1, n2]
  have hS := norm_nonneg S
  have sq2 : σ2 ≤ 2 → (1 - σ2 / 2) ^ 2 * (Wt ^ 2 / (N * N) ^ 2) ≤ ‖S‖ ^ 2 / (N * N) ^ 2 := by
    intro h
    rw [mul_div_assoc', ← mul_pow]
    gcongr
    exact mul_nonneg (by linarith) hWpos.le
  refine ⟨by positivity, hσ0, ?_, sq2, ?_⟩
  · rcases le_or_gt σ2 2 with h | h
    · refine le_trans ?_ (sq2 h)
      gcongr
      nlinarith [sq_nonneg σ2]
    · refine le_trans ?_ (show (0 : ℝ) ≤ ‖S‖ ^ 2 / (N * N) ^ 2 by positivity)
      exact mul_nonpos_of_nonpos_of_nonneg (by linarith) (by positivity)
  · gcongr

/-! ## The limit of large fields of view -/

theorem radialAt_scale {l : ℝ} (hl : 0 < l) (q : ℝ × ℝ) : radialAt (l * q.2) (l * q.1) = l * √(q.2 ^ 2 + q.1 ^ 2) := by
  rw [radialAt, show (l * q.2) ^ 2 + (l * q.1) ^ 2 = l ^ 2 * (q.2 ^ 2 + q.1 ^ 2) by ring, Real.sqrt_mul (by positivity), Real.sqrt_sq hl.le]

open Classical in
/-- An integral over the aperture is a mean over the unit disk. -/
theorem integral_aperture {l : ℝ} (hl : 0 < l) (g : ℝ → ℝ → ℝ) :
    ∫ p : ℝ × ℝ, (if radialAt p.1 p.2 < l then g p.1 p.2 else 0) = l ^ 2 * Real.pi * diskMean (fun q => g (l * q.2) (l * q.1)) := by
  set F : ℝ × ℝ → ℝ := fun p => if radialAt p.1 p.2 < l then g p.1 p.2 else 0 with hF
  have e1 : ∫ p, F p = l ^ 2 * ∫ p, F (l • p) := by
    rw [Measure.integral_comp_smul]
    simp only [Module.finrank_prod, Module.finrank_self, Nat.reduceAdd, smul_eq_mul]
    rw [abs_of_pos (by positivity)]
    field_simp
  have e2 : ∫ p : ℝ × ℝ, F (l • p) = ∫ q : ℝ × ℝ, F (l * q.2, l * q.1) := by
    rw [Measure.volume_eq_prod, ← integral_prod_swap]
    rfl
  rw [e1, e2, diskMean]
  have e3 : ∫ q : ℝ × ℝ, F (l * q.2, l * q.1) = ∫ q in {p : ℝ × ℝ | p.1 ^ 2 + p.2 ^ 2 ≤ 1}, g (l * q.2) (l * q.1) := by
    rw [← integral_indicator (show MeasurableSet {p : ℝ × ℝ | p.1 ^ 2 + p.2 ^ 2 ≤ 1} from inDisk_measurable)]
    refine integral_congr_ae ?_
    filter_upwards [ae_generic 1] with q hq
    have hrad : radialAt q.1 q.2 = √(q.2 ^ 2 + q.1 ^ 2) := by rw [radialAt, add_comm]
    have hiff : radialAt (l * q.2) (l * q.1) < l ↔ q.1 ^ 2 + q.2 ^ 2 ≤ 1 := by
      rw [radialAt_scale hl, ← hrad]
      constructor
      · intro h
        have h1 : radialAt q.1 q.2 ≤ 1 := by nlinarith
        rw [radialAt, Real.sqrt_le_one] at h1
        exact h1
      · intro h
        have h1 : radialAt q.1 q.2 ≤ 1 := Real.sqrt_le_one.mpr h
        have h2 := lt_of_le_of_ne h1 hq.2
        nlinarith
    by_cases h : q.1 ^ 2 + q.2 ^ 2 ≤ 1
    · rw [Set.indicator_of_mem (show q ∈ {p : ℝ × ℝ | p.1 ^ 2 + p.2 ^ 2 ≤ 1} from h), hF]
      simp only [if_pos (hiff.mpr h)]
    · rw [Set.indicator_of_notMem (show q ∉ {p : ℝ × ℝ | p.1 ^ 2 + p.2 ^ 2 ≤ 1} from h), hF]
      simp only [if_neg (fun h' => h (hiff.mp h'))]
  rw [e3]
  field_simp

open Classical in
/-- Sums over the pixels of the aperture tend to integrals over the aperture. -/
theorem tendsto_aperture_sum {l : ℝ} (hl : 0 < l) (g : ℝ → ℝ → ℝ) (C : ℝ) (hC : ∀ fy fx, radialAt fy fx < l → |g fy fx| ≤ C)
    (hg : ∀ p : ℝ × ℝ, p.1 ≠ 0 → radialAt p.1 p.2 < l → ContinuousAt (fun p : ℝ × ℝ => g p.1 p.2) p)
    (N : ℕ → ℕ) (r : ℕ → ℝ) (hr : ∀ j, 0 < r j) (hny : ∀ j, 2 * (l * r j) < 1) (hN : ∀ j, 0 < N j)
    (hfov : Tendsto (fun j => (N j : ℝ) * r j) atTop atTop) :
    Tendsto (fun j => (∑ u ∈ aperturePixels (N j) (r j) l, g (freq (N j) (r j) u.1) (freq (N j) (r j) u.2)) / (N j * r j) ^ 2) atTop
      (𝓝 (l ^ 2 * Real.pi * diskMean (fun q => g (l * q.2) (l * q.1)))) := by
  set G : ℝ → ℝ → ℝ := fun fy fx => if radialAt fy fx < l then g fy fx else 0 with hG
  have hgood : GoodPupil (fun fy fx => (G fy fx : ℂ)) l := by
    refine ⟨⟨|C|, fun fy fx => ?_⟩, fun fy fx h => ?_, fun p h0 h => ?_⟩
    · rw [Complex.norm_real, Real.norm_eq_abs, hG]
      by_cases h : radialAt fy fx < l
      · simp only [if_pos h]; exact (hC _ _ h).trans (le_abs_self C)
      · simp only [if_neg h, abs_zero]; exact abs_nonneg C
    · simp only [hG, if_neg (not_lt.mpr h.le), Complex.ofReal_zero]
    · have e : (fun p : ℝ × ℝ => (g p.1 p.2 : ℂ)) =ᶠ[𝓝 p] fun p : ℝ × ℝ => (G p.1 p.2 : ℂ) := by
        filter_upwards [radialAt_continuous.continuousAt.eventually_lt continuousAt_const h] with u hu
        simp only [hG, if_pos hu]
      exact (Complex.continuous_ofReal.continuousAt.comp (hg p h0 h)).congr e
  have lim := tendsto_waveField hl (show l < l + 1 by linarith) hgood .none .none 0 0 0 0 N r hr hny hN hfov
    (fun j a b => (G (freq (N j) (r j) a) (freq (N j) (r j) b) : ℂ)) (fun j a _ b _ => rfl)
  have e1 : debyeField (l + 1) .none .none (fun fy fx => (G fy fx : ℂ)) 0 0 0 0 = ((l ^ 2 * Real.pi * diskMean (fun q => g (l * q.2) (l * q.1)) : ℝ) : ℂ) := by
    rw [← integral_aperture hl, ← integral_complex_ofReal, debyeField]
    congr 1
    funext p
    simp [weightAt, apodization, polarization, hG]
  have e2 : ∀ j, waveField (N j) (r j) (l + 1) .none .none (fun a b => (G (freq (N j) (r j) a) (freq (N j) (r j) b) : ℂ)) 0 0 0 0 / (r j : ℂ) ^ 2 =
      (((∑ u ∈ aperturePixels (N j) (r j) l, g (freq (N j) (r j) u.1) (freq (N j) (r j) u.2)) / (N j * r j) ^ 2 : ℝ) : ℂ) := by
    intro j
    rw [← sum_pixels (N j) (r j) l fun a b => g (freq (N j) (r j) a) (freq (N j) (r j) b), waveField]
    have : ∀ a b, (if radial (N j) (r j) a b < l then g (freq (N j) (r j) a) (freq (N j) (r j) b) else 0) = G (freq (N j) (r j) a) (freq (N j) (r j) b) := fun a b => rfl
    simp only [this]
    push_cast
    simp only [weight, apodization, polarization, List.getD_cons_zero, mul_one, mul_zero, Complex.ofReal_one, add_zero, Complex.exp_zero]
    rw [div_div]
    congr 1
    ring
  rw [e1] at lim
  simp only [e2] at lim
  exact ((Complex.continuous_re.tendsto _).comp lim).congr fun j => Complex.ofReal_re _

/-- The wavefront of the first modes as a combination of modes of the unit disk. -/
theorem zernikeSumAt_disk {D : List (ℤ × ℤ)} {ph : List ℝ} (hD : NollModes D ph.length) {l : ℝ} (hl : 0 < l) (q : ℝ × ℝ) :
    zernikeSumAt D ph l (l * q.2) (l * q.1) =
      ∑ d ∈ (Finset.range ph.length).image (fun k => D.getD k (0, 0)), ph.getD ((nollStd d.1 d.2).toNat - 1) 0 * zernikeXY d.1 d.2 true q := by
  rw [Finset.sum_image]
  · refine Finset.sum_congr rfl fun k hk => ?_
    have hk := Finset.mem_range.mp hk
    have e : (nollStd (D.getD k (0, 0)).1 (D.getD k (0, 0)).2).toNat - 1 = k := by rw [hD.noll k hk]; omega
    rw [e, zernikeXY, zernike1_mode _ (hD.admissible k hk), radialAt_scale hl, mul_div_cancel_left₀ _ hl.ne']
    have harg : Complex.arg ⟨l * q.1, l * q.2⟩ = Complex.arg ⟨q.1, q.2⟩ := by
      rw [← Complex.arg_real_mul ⟨q.1, q.2⟩ hl]
      congr 1
      apply Complex.ext <;> simp
    rw [harg]
    rfl
  · intro k hk k' hk' h
    simp only [Finset.coe_range, Set.mem_Iio] at hk hk'
    have h1 := hD.noll k hk
    have h2 := hD.noll k' hk'
    simp only at h
    rw [h, h2] at h1
    omega

/-- Mean and mean square of the wavefront over the unit disk. -/
theorem wavefront_moments {D : List (ℤ × ℤ)} {ph : List ℝ} (hD : NollModes D ph.length) (h1 : 1 ≤ ph.length) {l : ℝ} (hl : 0 < l) :
    diskMean (fun q => zernikeSumAt D ph l (l * q.2) (l * q.1)) = ph.getD 0 0 ∧
    diskMean (fun q => zernikeSumAt D ph l (l * q.2) (l * q.1) ^ 2) = ∑ k ∈ Finset.range ph.length, ph.getD k 0 ^ 2 := by
  set T := (Finset.range ph.length).image (fun k => D.getD k (0, 0)) with hT
  have hadm : ∀ q ∈ T, Admissible q.1 q.2 := by
    intro q hq
    obtain ⟨k, hk, rfl⟩ := Finset.mem_image.mp hq
    exact hD.admissible k (Finset.mem_range.mp hk)
  have hD0 : D.getD 0 (0, 0) = (0, 0) := by
    obtain ⟨e1, e2⟩ := nollStd_one (hD.admissible 0 (by omega)) (by have := hD.noll 0 (by omega); simpa using this)
    exact Prod.ext e1 e2
  have h0 : ((0, 0) : ℤ × ℤ) ∈ T := Finset.mem_image.mpr ⟨0, Finset.mem_range.mpr (by omega), hD0⟩
  simp only [zernikeSumAt_disk hD hl]
  constructor
  · rw [C109_mean T hadm (fun d => ph.getD ((nollStd d.1 d.2).toNat - 1) 0), if_pos h0]
    have := hD.noll 0 (by omega)
    rw [hD0] at this
    rw [this]; rfl
  · rw [C109_mean_square T hadm (fun d => ph.getD ((nollStd d.1 d.2).toNat - 1) 0), hT, Finset.sum_image]
    · refine Finset.sum_congr rfl fun k hk => ?_
      have hk := Finset.mem_range.mp hk
      have e : (nollStd (D.getD k (0, 0)).1 (D.getD k (0, 0)).2).toNat - 1 = k := by rw [hD.noll k hk]; omega
      rw [e]
    · intro k hk k' hk' h
      simp only [Finset.coe_range, Set.mem_Iio] at hk hk'
      have h1 := hD.noll k hk
      have h2 := hD.noll k' hk'
      simp only at h
      rw [h, h2] at h1
      omega

/-- The variance over the pixels tends to the sum of the squares of the coefficients other than piston. -/
theorem tendsto_wavefrontVariance {D : List (ℤ × ℤ)} {ph : List ℝ} (hD : NollModes D ph.length) (h1 : 1 ≤ ph.length) {k l : ℝ} (hl : 0 < l)
    (N : ℕ → ℕ) (r : ℕ → ℝ) (hr : ∀ j, 0 < r j) (hny : ∀ j, 2 * (l * r j) < 1) (hN : ∀ j, 0 < N j)
    (hfov : Tendsto (fun j => (N j : ℝ) * r j) atTop atTop) :
    Tendsto (fun j => wavefrontVariance (N j) (r j) k l .none (zernikeSum D ph (N j) (r j) l)) atTop
      (𝓝 (∑ a ∈ Finset.range (ph.length - 1), ph.getD (a + 1) 0 ^ 2)) := by
  obtain ⟨m1, m2⟩ := wavefront_moments hD h1 hl
  set B := ∑ a ∈ Finset.range ph.length, |ph.getD a 0| * √(2 * ((D.getD a (0, 0)).1 + 1)) with hB
  have bound : ∀ fy fx, |zernikeSumAt D ph l fy fx| ≤ B := by
    intro fy fx
    refine (Finset.abs_sum_le_sum_abs _ _).trans (Finset.sum_le_sum fun a ha => ?_)
    rw [abs_mul]
    gcongr
    exact zernikeMode_bound (hD.admissible a (Finset.mem_range.mp ha)) _ _ (div_nonneg (Real.sqrt_nonneg _) hl.le)
  have cont := fun (p : ℝ × ℝ) (h0 : p.1 ≠ 0) (h : radialAt p.1 p.2 < l) => zernikeSumAt_continuousAt D ph hl h0 h
  have t0 := tendsto_aperture_sum hl (fun _ _ => 1) 1 (fun _ _ _ => by norm_num) (fun _ _ _ => continuousAt_const) N r hr hny hN hfov
  have t1 := tendsto_aperture_sum hl (zernikeSumAt D ph l) B (fun fy fx _ => bound fy fx) cont N r hr hny hN hfov
  have t2 := tendsto_aperture_sum hl (fun fy fx => zernikeSumAt D ph l fy fx ^ 2) (B ^ 2)
    (fun fy fx _ => by rw [abs_pow]; exact pow_le_pow_left₀ (abs_nonneg _) (bound fy fx) 2) (fun p h0 h => (cont p h0 h).pow 2) N r hr hny hN hfov
  have one : diskMean (fun _ => (1 : ℝ)) = 1 := by
    have := C109_mean {(0, 0)} (fun q hq => by rw [Finset.mem_singleton.mp hq]; decide) (fun _ => 1)
    simp only [Finset.sum_singleton, one_mul, Finset.mem_singleton, if_true] at this
    refine Eq.trans ?_ this
    exact diskMean_congr fun p hp => (piston_one p hp).symm
  rw [one, mul_one] at t0
  rw [m1] at t1
  rw [m2] at t2
  have hlp : l ^ 2 * Real.pi ≠ 0 := by positivity
  have lim := (t2.div t0 hlp).sub ((t1.div t0 hlp).pow 2)
  have elim : l ^ 2 * Real.pi * (∑ a ∈ Finset.range ph.length, ph.getD a 0 ^ 2) / (l ^ 2 * Real.pi) - (l ^ 2 * Real.pi * ph.getD 0 0 / (l ^ 2 * Real.pi)) ^ 2 =
      ∑ a ∈ Finset.range (ph.length - 1), ph.getD (a + 1) 0 ^ 2 := by
    rw [mul_div_cancel_left₀ _ hlp, mul_div_cancel_left₀ _ hlp]
    obtain ⟨L, hL⟩ : ∃ L, ph.length = L + 1 := ⟨ph.length - 1, by omega⟩
    rw [hL, Finset.sum_range_succ']
    simp
  rw [elim] at lim
  refine lim.congr fun j => ?_
  have hL : ((N j : ℝ) * r j) ^ 2 ≠ 0 := by have := hN j; have := hr j; positivity
  have hcard : (0 : ℝ) < ∑ u ∈ aperturePixels (N j) (r j) l, (1 : ℝ) := by
    have := aperture_weight_pos (hN j) (r j) k hl .none
    simpa [apodization] using this
  have hz : ∀ a b, zernikeSum D ph (N j) (r j) l a b = zernikeSumAt D ph l (freq (N j) (r j) a) (freq (N j) (r j) b) := fun a b => rfl
  simp only [Pi.div_apply]
  rw [div_div_div_cancel_right₀ hL, div_div_div_cancel_right₀ hL, wavefrontVariance, apertureMean_eq, apertureMean_eq]
  simp only [apodization, one_mul, hz]
  set c := ∑ u ∈ aperturePixels (N j) (r j) l, (1 : ℝ) with hc
  set φ : ℕ × ℕ → ℝ := fun u => zernikeSumAt D ph l (freq (N j) (r j) u.1) (freq (N j) (r j) u.2)
  change _ = (∑ u ∈ aperturePixels (N j) (r j) l, (φ u - (∑ u ∈ aperturePixels (N j) (r j) l, φ u) / c) ^ 2) / c
  change (∑ u ∈ aperturePixels (N j) (r j) l, φ u ^ 2) / c - ((∑ u ∈ aperturePixels (N j) (r j) l, φ u) / c) ^ 2 = _
  generalize hM : (∑ u ∈ aperturePixels (N j) (r j) l, φ u) / c = M
  have hM' : ∑ u ∈ aperturePixels (N j) (r j) l, φ u = M * c := by rw [← hM]; field_simp
  have e : ∑ u ∈ aperturePixels (N j) (r j) l, (φ u - M) ^ 2 = (∑ u ∈ aperturePixels (N j) (r j) l, φ u ^ 2) - M ^ 2 * c := by
    have : ∀ u, (φ u - M) ^ 2 = φ u ^ 2 - 2 * M * φ u + M ^ 2 * 1 := fun u => by ring
    simp only [this]
    rw [Finset.sum_add_distrib, Finset.sum_sub_distrib, ← Finset.mul_sum, ← Finset.mul_sum, hM', ← hc]
    ring
  rw [e]
  field_simp

/-- C128: without apodisation, on ever larger fields of view: the ratio of the intensities at the focus (the Strehl ratio) of `apply_aberration(None, pcoefs)` and of the
unaberrated model tends to a number `S ≤ 1` which is at least `1 - σ²`, and at least `(1 - σ²/2)²` if `σ² ≤ 2`, where `σ²` is the sum of the squares of the coefficients
other than piston: the coefficients are root-mean-square phases in radians. -/
theorem C128_limit (heap : ℕ → Heap) (kk : ℕ → ℕ) (o : ℕ → HObj) (hk : ∀ j, (heap j)[kk j]? = some (o j)) (mc pc : Option (List ℝ))
    (m ph : List ℝ) (hc : fillCoefs mc pc = some (m, ph)) {w n i : ℚ} {r : ℕ → ℚ} {N : ℕ → ℕ} {zs : List ℚ}
    (h : GrowingFov (fun j => ⟨(o j).params, none⟩) w n i r N zs .none .none) (hA : ∀ j, Aberrable (o j) m ph w n i (r j) (N j) zs .none .none)
    (hm : ∀ j < m.length, m.getD j 0 = 0) (iz0 : ℕ) (hz : zs.getD iz0 0 = 0) (σ2 : ℝ) (hσ : σ2 = ∑ a ∈ Finset.range (ph.length - 1), ph.getD (a + 1) 0 ^ 2) :
    ∃ (ref : ℕ → ℕ) (o' : ℕ → HObj) (b b0 : ℕ → Arr ℝ) (S : ℝ),
      (∀ j, (applyAberration (kk j) mc pc (heap j)).1 = .ok (ref j) ∧ (applyAberration (kk j) mc pc (heap j)).2[ref j]? = some (o' j) ∧
        (HObj.getPSFi (o' j)).1 = .ok (b j) ∧ (⟨(o j).params, none⟩ : HSpec).PSFi = .ok (b0 j)) ∧
      Tendsto (fun j => (b j).get [iz0, N j / 2, N j / 2] / (b0 j).get [iz0, N j / 2, N j / 2]) atTop (𝓝 S) ∧
      S ≤ 1 ∧ 1 - σ2 ≤ S ∧ (σ2 ≤ 2 → (1 - σ2 / 2) ^ 2 ≤ S) := by
  obtain ⟨D, hD, ref, o', b, hb, lim⟩ := C127_aberrated heap kk o hk mc pc m ph hc h hA
  choose ref2 o2 b2 b0 D2 e1 e2 e3 e4 e5 e6 using fun j => C128_marechal (heap j) (kk j) (o j) (hk j) mc pc m ph hc (hA j) hm iz0 hz
  have hbb : ∀ j, b2 j = b j := by
    intro j
    obtain ⟨a1, a2, a3, -⟩ := hb j
    have r1 : ref2 j = ref j := by have := (e1 j).symm.trans a1; exact Except.ok.inj this
    have r2 : o2 j = o' j := by have := e2 j; rw [r1, a2] at this; exact (Option.some.inj this).symm
    have := e3 j
    rw [r2, a3] at this
    exact (Except.ok.inj this).symm
  obtain ⟨h1, h2, h3, h4⟩ := h.numbers
  have hN : ∀ j, 0 < N j := fun j => by have := (hA j).pixels; omega
  have hcen : AtPosition N r (fun j => N j / 2) 0 := fun j => by simp
  have l1 := lim iz0 _ _ 0 0 hcen hcen
  have l2 := C127_ideal _ h (fun _ => rfl) b0 e4 iz0 _ _ 0 0 hcen hcen
  rw [hz, Rat.cast_zero] at l1 l2
  have hratio := l1.div l2 (debye_focus_pos h1 h2 .none).ne'
  have hratio' : Tendsto (fun j => (b j).get [iz0, N j / 2, N j / 2] / (b0 j).get [iz0, N j / 2, N j / 2]) atTop
      (𝓝 (debyeIntensity ((i / w : ℚ) : ℝ) .none .none (aberratedAt D m ph ((n / w : ℚ) : ℝ)) 0 0 0 / debyeIntensity ((i / w : ℚ) : ℝ) .none .none (diskPupil ((n / w : ℚ) : ℝ)) 0 0 0)) := by
    refine hratio.congr fun j => ?_
    have := (h3 j).ne'
    simp only [Pi.div_apply]
    rw [div_div_div_cancel_right₀ (by positivity)]
  have hlen : m.length = ph.length := (hA 0).same
  have hDph : NollModes D ph.length := hlen ▸ hD
  have hvar := tendsto_wavefrontVariance (k := ((i / w : ℚ) : ℝ)) hDph (hlen ▸ (hA 0).one) h1 N (fun j => (r j : ℝ)) h3 h4 hN h.grows
  rw [← hσ] at hvar
  have bounds : ∀ j, 0 < (b0 j).get [iz0, N j / 2, N j / 2] ∧
      (1 - wavefrontVariance (N j) (r j) ((i / w : ℚ) : ℝ) ((n / w : ℚ) : ℝ) .none (zernikeSum D ph (N j) (r j) ((n / w : ℚ) : ℝ))) ≤
        (b j).get [iz0, N j / 2, N j / 2] / (b0 j).get [iz0, N j / 2, N j / 2] ∧
      (wavefrontVariance (N j) (r j) ((i / w : ℚ) : ℝ) ((n / w : ℚ) : ℝ) .none (zernikeSum D ph (N j) (r j) ((n / w : ℚ) : ℝ)) ≤ 2 →
        (1 - wavefrontVariance (N j) (r j) ((i / w : ℚ) : ℝ) ((n / w : ℚ) : ℝ) .none (zernikeSum D ph (N j) (r j) ((n / w : ℚ) : ℝ)) / 2) ^ 2 ≤
        (b j).get [iz0, N j / 2, N j / 2] / (b0 j).get [iz0, N j / 2, N j / 2]) ∧
      (b j).get [iz0, N j / 2, N j / 2] / (b0 j).get [iz0, N j / 2, N j / 2] ≤ 1 := by
    intro j
    have hDD : D2 j = D := (e5 j).unique hD
    obtain ⟨f1, f2, f3, f4, f5⟩ := e6 j _ rfl
    rw [hbb j] at f3 f4 f5
    rw [hDD] at f3 f4
    refine ⟨f1, by rw [le_div_iff₀ f1]; exact f3, fun hh => by rw [le_div_iff₀ f1]; exact f4 hh, by rw [div_le_one f1]; exact f5⟩
  refine ⟨ref, o', b, b0, _, fun j => ⟨(hb j).1, (hb j).2.1, (hb j).2.2.1, e4 j⟩, hratio', le_of_tendsto' hratio' fun j => (bounds j).2.2.2, ?_, fun hσ2 => ?_⟩
  · exact le_of_tendsto_of_tendsto' (tendsto_const_nhds.sub hvar) hratio' fun j => (bounds j).2.1
  · rcases hσ2.lt_or_eq with hlt | heq
    · refine le_of_tendsto_of_tendsto ((tendsto_const_nhds.sub (hvar.div_const 2)).pow 2) hratio' ?_
      filter_upwards [hvar.eventually_lt tendsto_const_nhds hlt] with j hj
      exact (bounds j).2.2.1 hj.le
    · rw [heq, show (1 - (2 : ℝ) / 2) ^ 2 = 0 by norm_num]
      exact div_nonneg (Finset.sum_nonneg fun _ _ => sq_nonneg _) (Finset.sum_nonneg fun _ _ => sq_nonneg _)

/-- Non-vacuity of C128: the models of `demo_growing` on a heap, with a quarter of a radian of tip and half a radian of defocus: the limit of the Strehl ratio exceeds 0.71. -/
example : ∃ (o : ℕ → HObj) (b b0 : ℕ → Arr ℝ) (o' : ℕ → HObj) (S : ℝ), (∀ j, HObj.new (demoArgsGrow "none" (2 * (j + 1) ^ 2) (j + 1)) none = .ok (o j)) ∧
    (∀ j, (applyAberration 0 none (some [0, 1/4, 0, 1/2]) [o j]).2[1]? = some (o' j) ∧ (HObj.getPSFi (o' j)).1 = .ok (b j) ∧
      (⟨(o j).params, none⟩ : HSpec).PSFi = .ok (b0 j)) ∧
    Tendsto (fun j => (b j).get [2, (j + 1) ^ 2, (j + 1) ^ 2] / (b0 j).get [2, (j + 1) ^ 2, (j + 1) ^ 2]) atTop (𝓝 S) ∧ 0.71 < S ∧ S ≤ 1 := by
  obtain ⟨o, -, h1, h2, -, h4, -, h6⟩ := demo_growing "none" .none (by simp)
  have hfill : fillCoefs none (some [0, 1/4, 0, 1/2]) = some ([0, 0, 0, 0], [0, 1/4, 0, 1/2]) := by simp [fillCoefs]
  obtain ⟨ref, o', b, b0, S, k1, k2, k3, k4, k5⟩ := C128_limit (fun j => [o j]) (fun _ => 0) o (fun _ => rfl) none (some [0, 1/4, 0, 1/2]) _ _ hfill h2 h6
    (by intro j hj; simp only [List.length_cons, List.length_nil] at hj; interval_cases j <;> rfl) 2 h4 _ rfl
  have href : ∀ j, ref j = 1 := by
    intro j
    have := (k1 j).1
    rw [applyAberration_run [o j] 0 (o j) rfl, hfill] at this
    have hge := (C38_original_unchanged [o j] 0 (by simp) none (some [0, 1/4, 0, 1/2])).2 (ref j) (k1 j).1
    have hlt : ref j < ([o j] ++ [o' j]).length := by
      have h2' := (k1 j).2.1
      have : (applyAberration 0 none (some [0, 1/4, 0, 1/2]) [o j]).2.length = 2 := by
        rw [applyAberration_run [o j] 0 (o j) rfl, hfill]
        dsimp only
        split
        · rfl
        · split <;> rfl
      have h3' := (List.getElem?_eq_some_iff.mp h2').1
      rw [this] at h3'
      exact h3'
    simp at hge hlt
    omega
  have hhalf : ∀ j : ℕ, 2 * (j + 1) ^ 2 / 2 = (j + 1) ^ 2 := fun j => by omega
  simp only [hhalf] at k2
  refine ⟨o, b, b0, o', S, h1, fun j => ?_, k2, ?_, k3⟩
  · have := k1 j
    rw [href j] at this
    exact this.2
  · have e : ∑ a ∈ Finset.range (([0, 1/4, 0, 1/2] : List ℝ).length - 1), ([0, 1/4, 0, 1/2] : List ℝ).getD (a + 1) 0 ^ 2 = 5 / 16 := by
      simp [Finset.sum_range_succ]; norm_num
    rw [e] at k5
    have := k5 (by norm_num)
    norm_num at this ⊢
    linarith

end PyOTF
