import Verif.Spec.Debye
import Verif.Lemmas.Riemann
import Verif.Props.C123_Refine

/-!
# Sums over the pixels of a grid tend to integrals
-/

open MeasureTheory Filter Topology

namespace PyOTF

open Physics

theorem row_null : volume {p : ℝ × ℝ | p.1 = 0} = 0 := by
  have : {p : ℝ × ℝ | p.1 = 0} = ({0} : Set ℝ) ×ˢ (Set.univ : Set ℝ) := by ext p; simp
  rw [this, Measure.volume_eq_prod, Measure.prod_prod]; simp

theorem circle_null (l : ℝ) : volume {p : ℝ × ℝ | radialAt p.1 p.2 = l} = 0 := by
  have hm : MeasurableSet {p : ℝ × ℝ | radialAt p.1 p.2 = l} := by
    have : Continuous fun p : ℝ × ℝ => radialAt p.1 p.2 := by unfold radialAt; fun_prop
    exact (isClosed_singleton.preimage this).measurableSet
  rw [Measure.volume_eq_prod, Measure.measure_prod_null hm]
  refine Eventually.of_forall fun a => ?_
  refine (Set.Finite.subset (Set.toFinite ({√(l ^ 2 - a ^ 2), -√(l ^ 2 - a ^ 2)} : Set ℝ)) ?_).measure_zero _
  intro t ht
  simp only [Set.mem_preimage, Set.mem_ofPred_eq, radialAt] at ht
  have h : t ^ 2 = l ^ 2 - a ^ 2 := by
    rw [← ht, Real.sq_sqrt (by positivity)]; ring
  have h2 : |t| = √(l ^ 2 - a ^ 2) := by rw [← h, Real.sqrt_sq_eq_abs]
  rcases abs_choice t with h3 | h3
  · left; rw [← h2, h3]
  · right; rw [Set.mem_singleton_iff, ← h2, h3]; ring

/-- Almost all lateral frequencies are off the first axis and off the edge of the aperture. -/
theorem ae_generic (l : ℝ) : ∀ᵐ p : ℝ × ℝ, p.1 ≠ 0 ∧ radialAt p.1 p.2 ≠ l := by
  have h1 : ∀ᵐ p : ℝ × ℝ, p.1 ≠ 0 := by rw [ae_iff]; simpa using row_null
  have h2 : ∀ᵐ p : ℝ × ℝ, radialAt p.1 p.2 ≠ l := by rw [ae_iff]; simpa using circle_null l
  filter_upwards [h1, h2] with p a b using ⟨a, b⟩

theorem radialAt_continuous : Continuous fun p : ℝ × ℝ => radialAt p.1 p.2 := by unfold radialAt; fun_prop

theorem radialAt_pos {p : ℝ × ℝ} (h : p.1 ≠ 0) : 0 < radialAt p.1 p.2 := Real.sqrt_pos.mpr (by positivity)

/-! ## Continuity of the weights -/

theorem sinThetaAt_continuousAt {k : ℝ} {p : ℝ × ℝ} (h : radialAt p.1 p.2 < k) : ContinuousAt (fun p : ℝ × ℝ => sinThetaAt k p.1 p.2) p := by
  have e : (fun p : ℝ × ℝ => radialAt p.1 p.2 / k) =ᶠ[𝓝 p] fun p : ℝ × ℝ => sinThetaAt k p.1 p.2 := by
    filter_upwards [radialAt_continuous.continuousAt.eventually_lt continuousAt_const h] with u hu
    rw [sinThetaAt, if_pos hu]
  exact ContinuousAt.congr (by have := radialAt_continuous; fun_prop) e

theorem cosThetaAt_continuousAt {k : ℝ} {p : ℝ × ℝ} (h : radialAt p.1 p.2 < k) : ContinuousAt (fun p : ℝ × ℝ => cosThetaAt k p.1 p.2) p := by
  have := sinThetaAt_continuousAt h
  unfold cosThetaAt
  fun_prop

theorem cosPhiAt_continuousAt {p : ℝ × ℝ} (h : p.1 ≠ 0) : ContinuousAt (fun p : ℝ × ℝ => cosPhiAt p.1 p.2) p := by
  have e : (fun p : ℝ × ℝ => p.2 / radialAt p.1 p.2) =ᶠ[𝓝 p] fun p : ℝ × ℝ => cosPhiAt p.1 p.2 := by
    filter_upwards [continuousAt_const.eventually_lt radialAt_continuous.continuousAt (radialAt_pos h)] with u hu
    rw [cosPhiAt, if_neg hu.ne']
  exact ContinuousAt.congr (continuousAt_snd.div radialAt_continuous.continuousAt (radialAt_pos h).ne') e

theorem sinPhiAt_continuousAt {p : ℝ × ℝ} (h : p.1 ≠ 0) : ContinuousAt (fun p : ℝ × ℝ => sinPhiAt p.1 p.2) p := by
  have e : (fun p : ℝ × ℝ => p.1 / radialAt p.1 p.2) =ᶠ[𝓝 p] fun p : ℝ × ℝ => sinPhiAt p.1 p.2 := by
    filter_upwards [continuousAt_const.eventually_lt radialAt_continuous.continuousAt (radialAt_pos h)] with u hu
    rw [sinPhiAt, if_neg hu.ne']
  exact ContinuousAt.congr (continuousAt_fst.div radialAt_continuous.continuousAt (radialAt_pos h).ne') e

theorem sinThetaAt_bounds {k : ℝ} (fy fx : ℝ) : 0 ≤ sinThetaAt k fy fx ∧ sinThetaAt k fy fx ≤ 1 := by
  unfold sinThetaAt
  have h0 : 0 ≤ radialAt fy fx := Real.sqrt_nonneg _
  split_ifs with h
  · have hk : 0 < k := by linarith
    exact ⟨by positivity, by rw [div_le_one hk]; exact h.le⟩
  · norm_num

theorem cosThetaAt_le {k l : ℝ} (hl : 0 ≤ l) (hk : l < k) {fy fx : ℝ} (h : radialAt fy fx ≤ l) :
    √(1 - (l / k) ^ 2) ≤ cosThetaAt k fy fx ∧ 0 < √(1 - (l / k) ^ 2) ∧ cosThetaAt k fy fx ≤ 1 := by
  have hk0 : 0 < k := by linarith
  have h0 : 0 ≤ radialAt fy fx := Real.sqrt_nonneg _
  have hlk : l / k < 1 := by rw [div_lt_one hk0]; exact hk
  have hlk0 : 0 ≤ l / k := by positivity
  refine ⟨?_, Real.sqrt_pos.mpr (by nlinarith), ?_⟩
  · unfold cosThetaAt sinThetaAt
    rw [if_pos (by linarith)]
    gcongr
  · unfold cosThetaAt
    exact Real.sqrt_le_one.mpr (by nlinarith [sq_nonneg (sinThetaAt k fy fx)])

theorem phiAt_sq (fy fx : ℝ) : cosPhiAt fy fx ^ 2 + sinPhiAt fy fx ^ 2 = 1 := by
  unfold cosPhiAt sinPhiAt
  split_ifs with h
  · norm_num
  · rw [div_pow, div_pow, ← add_div]
    have : radialAt fy fx ^ 2 = fx ^ 2 + fy ^ 2 := by rw [radialAt, Real.sq_sqrt (by positivity)]; ring
    rw [← this, div_self (by positivity)]

theorem polarization_bound (v : VecCorr) (c : ℕ) {s t f g : ℝ} (hs : 0 ≤ s ∧ s ≤ 1) (ht : 0 ≤ t ∧ t ≤ 1) (hfg : g ^ 2 + f ^ 2 = 1) :
    |(polarization v s t f g).getD c 0| ≤ 1 := by
  have hf : |f| ≤ 1 := abs_le_one_iff_mul_self_le_one.mpr (by nlinarith [sq_nonneg g])
  have hg : |g| ≤ 1 := abs_le_one_iff_mul_self_le_one.mpr (by nlinarith [sq_nonneg f])
  have hfg' : |f * g| ≤ 1 := by rw [abs_mul]; nlinarith [abs_nonneg f, abs_nonneg g]
  have a1 : |t * g ^ 2 + f ^ 2| ≤ 1 := by
    rw [abs_of_nonneg (by have := ht.1; positivity)]; nlinarith [sq_nonneg g, ht.2]
  have a2 : |t * f ^ 2 + g ^ 2| ≤ 1 := by
    rw [abs_of_nonneg (by have := ht.1; positivity)]; nlinarith [sq_nonneg f, ht.2]
  have a3 : |(t - 1) * f * g| ≤ 1 := by
    rw [mul_assoc, abs_mul]
    have : |t - 1| ≤ 1 := by rw [abs_le]; constructor <;> linarith [ht.1, ht.2]
    nlinarith [abs_nonneg (t - 1), abs_nonneg (f * g)]
  have a4 : |s * g| ≤ 1 := by rw [abs_mul, abs_of_nonneg hs.1]; nlinarith [abs_nonneg g, hs.1, hs.2]
  have a5 : |s * f| ≤ 1 := by rw [abs_mul, abs_of_nonneg hs.1]; nlinarith [abs_nonneg f, hs.1, hs.2]
  have a0 : |(0 : ℝ)| ≤ 1 := by norm_num
  have a6 : |(1 : ℝ)| ≤ 1 := by norm_num
  rcases c with _ | _ | _ | _ | _ | _ | c <;> cases v <;> simp only [polarization, List.getD_cons_zero, List.getD_cons_succ, List.getD_nil] <;> assumption

theorem apodization_bound (cd : Condition) {t m : ℝ} (hm : 0 < m) (h : m ≤ t) (h1 : t ≤ 1) : |apodization cd t| ≤ 1 / m := by
  have ht : 0 < t := by linarith
  have hst : t ≤ √t := by
    exact Real.le_sqrt_of_sq_le (by nlinarith)
  cases cd <;> simp only [apodization]
  · rw [abs_of_pos (by norm_num), le_div_iff₀ hm]; linarith
  · rw [abs_of_nonneg (by positivity)]
    exact one_div_le_one_div_of_le hm (by linarith)
  · rw [abs_of_nonneg (by positivity)]
    exact one_div_le_one_div_of_le hm h

theorem weightAt_bound {k l : ℝ} (hl : 0 ≤ l) (hk : l < k) (v : VecCorr) (cd : Condition) (c : ℕ) {fy fx : ℝ} (h : radialAt fy fx ≤ l) :
    |weightAt k fy fx v cd c| ≤ 1 / √(1 - (l / k) ^ 2) := by
  obtain ⟨h1, h2, h3⟩ := cosThetaAt_le hl hk h
  rw [weightAt, abs_mul]
  have e1 := apodization_bound cd h2 h1 h3
  have e2 := polarization_bound v c (sinThetaAt_bounds (k := k) fy fx) ⟨by linarith, h3⟩ (phiAt_sq fy fx)
  calc _ ≤ (1 / √(1 - (l / k) ^ 2)) * 1 := by gcongr
    _ = _ := mul_one _

theorem apodization_continuousAt (cd : Condition) {t : ℝ} (ht : 0 < t) : ContinuousAt (apodization cd) t := by
  cases cd
  · exact continuousAt_const
  · have h : √t ≠ 0 := (Real.sqrt_pos.mpr ht).ne'
    exact continuousAt_const.div Real.continuous_sqrt.continuousAt h
  · exact continuousAt_const.div continuousAt_id ht.ne'

theorem weightAt_continuousAt {k : ℝ} (v : VecCorr) (cd : Condition) (c : ℕ) {p : ℝ × ℝ} (h0 : p.1 ≠ 0) (h : radialAt p.1 p.2 < k) :
    ContinuousAt (fun p : ℝ × ℝ => weightAt k p.1 p.2 v cd c) p := by
  have a1 := sinThetaAt_continuousAt h
  have a2 := cosThetaAt_continuousAt h
  have a3 := sinPhiAt_continuousAt h0
  have a4 := cosPhiAt_continuousAt h0
  have hr : 0 ≤ radialAt p.1 p.2 := Real.sqrt_nonneg _
  obtain ⟨e1, e2, -⟩ := cosThetaAt_le hr h le_rfl
  have a5 : ContinuousAt (fun p : ℝ × ℝ => apodization cd (cosThetaAt k p.1 p.2)) p :=
    ContinuousAt.comp (f := fun p : ℝ × ℝ => cosThetaAt k p.1 p.2) (apodization_continuousAt cd (by linarith)) a2
  have a6 : ContinuousAt (fun p : ℝ × ℝ => (polarization v (sinThetaAt k p.1 p.2) (cosThetaAt k p.1 p.2) (sinPhiAt p.1 p.2) (cosPhiAt p.1 p.2)).getD c 0) p := by
    rcases c with _ | _ | _ | _ | _ | _ | c <;> cases v <;> simp only [polarization, List.getD_cons_zero, List.getD_cons_succ, List.getD_nil] <;> fun_prop
  exact a5.mul a6

/-! ## The sum over the pixels -/

/-- The integer frequencies of a grid. -/
def gridFreqs (N : ℕ) : Finset (ℤ × ℤ) := (Finset.range N ×ˢ Finset.range N).image fun u => (fnum N u.1, fnum N u.2)

theorem sum_grid (N : ℕ) (r : ℝ) (g : ℝ → ℝ → ℂ) :
    ∑ i ∈ Finset.range N, ∑ j ∈ Finset.range N, g (freq N r i) (freq N r j) = ∑ p ∈ gridFreqs N, g (p.1 / (N * r)) (p.2 / (N * r)) := by
  rw [gridFreqs, Finset.sum_image, ← Finset.sum_product']
  · simp only [freq_fnum]
  · intro u hu u' hu' h
    simp only [Finset.coe_product, Finset.coe_range, Set.mem_prod, Set.mem_Iio] at hu hu'
    simp only [Prod.mk.injEq] at h
    exact Prod.ext (fnum_inj hu.1 hu'.1 h.1) (fnum_inj hu.2 hu'.2 h.2)

theorem mem_gridFreqs {N : ℕ} {p : ℤ × ℤ} (h1 : 2 * |p.1| < N) (h2 : 2 * |p.2| < N) : p ∈ gridFreqs N := by
  obtain ⟨i, hi, hi'⟩ := fnum_surj h1
  obtain ⟨j, hj, hj'⟩ := fnum_surj h2
  exact Finset.mem_image.mpr ⟨(i, j), by simp [hi, hj], Prod.ext hi' hj'⟩

theorem abs_le_radialAt (fy fx : ℝ) : |fy| ≤ radialAt fy fx ∧ |fx| ≤ radialAt fy fx := by
  refine ⟨Real.abs_le_sqrt (by nlinarith [sq_nonneg fx]), Real.abs_le_sqrt (by nlinarith [sq_nonneg fy])⟩

/-- A pupil as a function of the continuous lateral frequencies: bounded, zero outside the aperture, continuous inside off the first axis. -/
structure GoodPupil (Q : ℝ → ℝ → ℂ) (l : ℝ) : Prop where
  bounded : ∃ C, ∀ fy fx, ‖Q fy fx‖ ≤ C
  support : ∀ fy fx, l < radialAt fy fx → Q fy fx = 0
  continuous : ∀ p : ℝ × ℝ, p.1 ≠ 0 → radialAt p.1 p.2 < l → ContinuousAt (fun p : ℝ × ℝ => Q p.1 p.2) p

/-- The plane waves of the pixels of ever larger fields of view. -/
theorem tendsto_waveField {Q : ℝ → ℝ → ℂ} {k l : ℝ} (hl : 0 < l) (hk : l < k) (hQ : GoodPupil Q l) (v : VecCorr) (cd : Condition) (c : ℕ) (z Y X : ℝ)
    (N : ℕ → ℕ) (r : ℕ → ℝ) (hr : ∀ j, 0 < r j) (hny : ∀ j, 2 * (l * r j) < 1) (hN : ∀ j, 0 < N j)
    (hfov : Tendsto (fun j => (N j : ℝ) * r j) atTop atTop) (P : ℕ → ℕ → ℕ → ℂ)
    (hP : ∀ j, ∀ a < N j, ∀ b < N j, P j a b = Q (freq (N j) (r j) a) (freq (N j) (r j) b)) :
    Tendsto (fun j => waveField (N j) (r j) k v cd (P j) c z Y X / (r j : ℂ) ^ 2) atTop (𝓝 (debyeField k v cd Q c z Y X)) := by
  obtain ⟨C, hC⟩ := hQ.bounded
  have hC0 : 0 ≤ C := (norm_nonneg _).trans (hC 0 0)
  set f : ℝ × ℝ → ℂ := fun p => Q p.1 p.2 * (weightAt k p.1 p.2 v cd c : ℂ) *
    Complex.exp (2 * Real.pi * Complex.I * ((axialAt k p.1 p.2 * z + p.1 * Y + p.2 * X : ℝ) : ℂ)) with hf
  have hsupp : ∀ p : ℝ × ℝ, l < radialAt p.1 p.2 → f p = 0 := by
    intro p hp
    simp only [hf, hQ.support _ _ hp, zero_mul]
  have lim := tendsto_lattice_sum f (C * (1 / √(1 - (l / k) ^ 2))) l ?_ ?_ ?_ _ hfov (fun j => gridFreqs (N j)) ?_
  · refine lim.congr fun j => ?_
    have e := sum_grid (N j) (r j) fun fy fx => f (fy, fx)
    rw [← e, waveField]
    have hNj : ((N j : ℕ) : ℂ) ≠ 0 := by exact_mod_cast (hN j).ne'
    have hrj : ((r j : ℝ) : ℂ) ≠ 0 := by exact_mod_cast (hr j).ne'
    push_cast
    rw [div_div]
    have e2 : ∑ a ∈ Finset.range (N j), ∑ b ∈ Finset.range (N j), f (freq (N j) (r j) a, freq (N j) (r j) b) =
        ∑ a ∈ Finset.range (N j), ∑ b ∈ Finset.range (N j), P j a b * (weight (N j) (r j) k v cd c a b : ℝ) *
          Complex.exp (2 * Real.pi * Complex.I * ((axial (N j) (r j) k a b * z + freq (N j) (r j) a * Y + freq (N j) (r j) b * X : ℝ) : ℂ)) := by
      refine Finset.sum_congr rfl fun a ha => Finset.sum_congr rfl fun b hb => ?_
      rw [hP j a (Finset.mem_range.mp ha) b (Finset.mem_range.mp hb)]
      rfl
    rw [e2]
    push_cast
    congr 1
    ring
  · intro p
    by_cases hp : radialAt p.1 p.2 ≤ l
    · simp only [hf]
      rw [norm_mul, norm_mul, show (2 * Real.pi * Complex.I * ((axialAt k p.1 p.2 * z + p.1 * Y + p.2 * X : ℝ) : ℂ) : ℂ) =
        ((2 * Real.pi * (axialAt k p.1 p.2 * z + p.1 * Y + p.2 * X) : ℝ) : ℂ) * Complex.I by push_cast; ring,
        Complex.norm_exp_ofReal_mul_I, mul_one, Complex.norm_real, Real.norm_eq_abs]
      exact mul_le_mul (hC _ _) (weightAt_bound hl.le hk v cd c hp) (abs_nonneg _) hC0
    · rw [hsupp p (not_le.mp hp), norm_zero]
      positivity
  · intro p hp
    refine hsupp p ?_
    have := abs_le_radialAt p.1 p.2
    rcases hp with h | h <;> linarith
  · filter_upwards [ae_generic l] with p hp
    rcases lt_or_gt_of_ne hp.2 with h | h
    · have a1 := hQ.continuous p hp.1 h
      have a2 := weightAt_continuousAt v cd c hp.1 (h.trans hk)
      have a3 : ContinuousAt (fun p : ℝ × ℝ => axialAt k p.1 p.2) p := by
        have := radialAt_continuous
        unfold axialAt
        fun_prop
      have a4 : ContinuousAt (fun p : ℝ × ℝ => ((weightAt k p.1 p.2 v cd c : ℝ) : ℂ)) p := Complex.continuous_ofReal.continuousAt.comp a2
      have a5 : ContinuousAt (fun p : ℝ × ℝ => ((axialAt k p.1 p.2 * z + p.1 * Y + p.2 * X : ℝ) : ℂ)) p :=
        Complex.continuous_ofReal.continuousAt.comp (by fun_prop)
      exact (a1.mul a4).mul ((continuousAt_const.mul a5).cexp)
    · have e : (fun _ : ℝ × ℝ => (0 : ℂ)) =ᶠ[𝓝 p] f := by
        filter_upwards [continuousAt_const.eventually_lt radialAt_continuous.continuousAt h] with u hu
        rw [hsupp u hu]
      exact continuousAt_const.congr e
  · intro j p hp
    by_contra hne
    apply hp
    have hrad : radialAt ((p.1 : ℝ) / (N j * r j)) ((p.2 : ℝ) / (N j * r j)) ≤ l := by
      by_contra h
      exact hne (hsupp _ (not_le.mp h))
    have hL : 0 < (N j : ℝ) * r j := by have := hN j; have := hr j; positivity
    have key : ∀ t : ℤ, |(t : ℝ) / (N j * r j)| ≤ l → 2 * |t| < N j := by
      intro t ht
      rw [abs_div, abs_of_pos hL, div_le_iff₀ hL] at ht
      have hNj : (0 : ℝ) < N j := by exact_mod_cast hN j
      have : 2 * |(t : ℝ)| < N j := by nlinarith [hny j]
      exact_mod_cast this
    have hab := abs_le_radialAt ((p.1 : ℝ) / (N j * r j)) ((p.2 : ℝ) / (N j * r j))
    exact mem_gridFreqs (key _ (hab.1.trans hrad)) (key _ (hab.2.trans hrad))

end PyOTF
