import Verif.Props.C123_Refine
import Verif.Props.C121_MicroUnits
import Verif.Props.C120_MicroSymmetry
import Mathlib.MeasureTheory.Integral.IntervalIntegral.Basic
import Mathlib.MeasureTheory.Integral.DominatedConvergence

/-!
# C124: the limit of fine oversampling
-/

namespace PyOTF

open Physics Complex

/-! ## Midpoint sums -/

open MeasureTheory intervalIntegral in
/-- One dimension: the error of the midpoint rule on `m` cells of width `h`. -/
theorem midpoint_error {f : ℝ → ℝ} (hf : Continuous f) (a h ε : ℝ) (hh : 0 ≤ h) (m : ℕ)
    (hε : ∀ d < m, ∀ t, a + d * h ≤ t → t ≤ a + (d + 1) * h → |f t - f (a + (d + 1 / 2) * h)| ≤ ε) :
    |(∫ t in a..(a + m * h), f t) - ∑ d ∈ Finset.range m, h * f (a + (d + 1 / 2) * h)| ≤ m * (ε * h) := by
  have hint : ∀ u v : ℝ, IntervalIntegrable f volume u v := fun u v => hf.intervalIntegrable u v
  have hsum := sum_integral_adjacent_intervals (f := f) (μ := volume) (a := fun d : ℕ => a + d * h) (n := m) (fun d _ => hint _ _)
  simp only [Nat.cast_zero, zero_mul, add_zero] at hsum
  rw [← hsum, ← Finset.sum_sub_distrib]
  refine (Finset.abs_sum_le_sum_abs _ _).trans ?_
  have : ∀ d ∈ Finset.range m, |(∫ t in (a + d * h)..(a + ((d + 1 : ℕ) : ℝ) * h), f t) - h * f (a + (d + 1 / 2) * h)| ≤ ε * h := by
    intro d hd
    have e : h * f (a + (d + 1 / 2) * h) = ∫ t in (a + d * h)..(a + ((d + 1 : ℕ) : ℝ) * h), f (a + (d + 1 / 2) * h) := by
      rw [intervalIntegral.integral_const, smul_eq_mul]; push_cast; ring
    rw [e, ← integral_sub (hint _ _) (by simp)]
    have hle : a + d * h ≤ a + ((d + 1 : ℕ) : ℝ) * h := by push_cast; nlinarith
    have := norm_integral_le_of_norm_le_const (f := fun t => f t - f (a + (d + 1 / 2) * h)) (C := ε) (a := a + d * h) (b := a + ((d + 1 : ℕ) : ℝ) * h) (by
      intro t ht
      rw [Set.uIoc_of_le hle] at ht
      rw [Real.norm_eq_abs]
      refine hε d (Finset.mem_range.mp hd) t ht.1.le ?_
      have := ht.2; push_cast at this; exact this)
    rw [Real.norm_eq_abs] at this
    refine this.trans (le_of_eq ?_)
    rw [abs_of_nonneg (by linarith)]; push_cast; ring
  refine (Finset.sum_le_sum this).trans (le_of_eq ?_)
  rw [Finset.sum_const, Finset.card_range, nsmul_eq_mul]

open MeasureTheory intervalIntegral in
/-- Two dimensions: midpoint sums of a continuous function converge to its mean. -/
theorem midpoint_limit {T : ℝ → ℝ → ℝ} (hT : Continuous (Function.uncurry T)) (Y₀ X₀ q : ℝ) (hq : 0 < q) {δ : ℝ} (hδ : 0 < δ) :
    ∃ O : ℕ, ∀ o : ℕ, O ≤ o → 0 < o → |(∑ d ∈ Finset.range o, ∑ e ∈ Finset.range o, T (Y₀ + (d + 1 / 2) * (q / o)) (X₀ + (e + 1 / 2) * (q / o))) / (o : ℝ) ^ 2 -
      (∫ Y in Y₀..(Y₀ + q), ∫ X in X₀..(X₀ + q), T Y X) / q ^ 2| < δ := by
  set K : Set (ℝ × ℝ) := Set.Icc Y₀ (Y₀ + q) ×ˢ Set.Icc X₀ (X₀ + q) with hK
  have huc : UniformContinuousOn (Function.uncurry T) K := (isCompact_Icc.prod isCompact_Icc).uniformContinuousOn_of_continuous hT.continuousOn
  rw [Metric.uniformContinuousOn_iff] at huc
  obtain ⟨η, hη, huc⟩ := huc (δ / 3) (by positivity)
  obtain ⟨O, hO⟩ := exists_nat_gt (q / η)
  refine ⟨O, fun o hoO ho => ?_⟩
  have ho' : (0 : ℝ) < o := by exact_mod_cast ho
  set h := q / o with hh
  have hpos : 0 < h := by positivity
  have hoh : o * h = q := by rw [hh]; field_simp
  have hsmall : h < η := by
    rw [hh, div_lt_iff₀ ho']
    rw [div_lt_iff₀ hη] at hO
    have : (O : ℝ) ≤ o := by exact_mod_cast hoO
    nlinarith
  -- closeness on cells
  have mid : ∀ (a : ℝ) (d : ℕ), d < o → a ≤ a + (d + 1 / 2) * h ∧ a + (d + 1 / 2) * h ≤ a + q := by
    intro a d hd
    have h1 : ((d : ℝ) + 1) ≤ o := by exact_mod_cast hd
    constructor <;> nlinarith [Nat.cast_nonneg (α := ℝ) d]
  have cell : ∀ (a : ℝ) (d : ℕ), d < o → ∀ t, a + d * h ≤ t → t ≤ a + (d + 1) * h → (a ≤ t ∧ t ≤ a + q) ∧ |t - (a + (d + 1 / 2) * h)| < η := by
    intro a d hd t h1 h2
    have h3 : ((d : ℝ) + 1) ≤ o := by exact_mod_cast hd
    have h4 : (0 : ℝ) ≤ d := Nat.cast_nonneg d
    refine ⟨⟨by nlinarith, by nlinarith⟩, ?_⟩
    rw [abs_lt]; constructor <;> nlinarith
  have close : ∀ {Y Y' X X' : ℝ}, (Y₀ ≤ Y ∧ Y ≤ Y₀ + q) → (Y₀ ≤ Y' ∧ Y' ≤ Y₀ + q) → (X₀ ≤ X ∧ X ≤ X₀ + q) → (X₀ ≤ X' ∧ X' ≤ X₀ + q) →
      |Y - Y'| < η → |X - X'| < η → |T Y X - T Y' X'| ≤ δ / 3 := by
    intro Y Y' X X' a1 a2 a3 a4 a5 a6
    have := huc (Y, X) ⟨a1, a3⟩ (Y', X') ⟨a2, a4⟩ (by rw [Prod.dist_eq]; exact max_lt a5 a6)
    rw [Real.dist_eq] at this
    exact this.le
  have hrow : ∀ Y, Continuous fun X => T Y X := fun Y => hT.comp (by fun_prop : Continuous fun X : ℝ => (Y, X))
  set G : ℝ → ℝ := fun Y => ∫ X in X₀..(X₀ + q), T Y X with hG
  have hGc : Continuous G := continuous_parametric_intervalIntegral_of_continuous' hT _ _
  have e1 := midpoint_error hGc Y₀ h (δ / 3 * q) hpos.le o (by
    intro d hd t h1 h2
    obtain ⟨c1, c2⟩ := cell Y₀ d hd t h1 h2
    rw [hG]
    beta_reduce
    rw [← integral_sub ((hrow _).intervalIntegrable _ _) ((hrow _).intervalIntegrable _ _)]
    have := norm_integral_le_of_norm_le_const (f := fun X => T t X - T (Y₀ + (d + 1 / 2) * h) X) (C := δ / 3) (a := X₀) (b := X₀ + q) (by
      intro X hX
      rw [Set.uIoc_of_le (by linarith)] at hX
      rw [Real.norm_eq_abs]
      exact close c1 (mid Y₀ d hd) ⟨hX.1.le, hX.2⟩ ⟨hX.1.le, hX.2⟩ c2 (by simpa using hη))
    rw [Real.norm_eq_abs] at this
    refine this.trans (le_of_eq ?_)
    rw [add_sub_cancel_left, abs_of_pos hq])
  have e2 : ∀ d ∈ Finset.range o, |h * G (Y₀ + (d + 1 / 2) * h) - h * ∑ e ∈ Finset.range o, h * T (Y₀ + (d + 1 / 2) * h) (X₀ + (e + 1 / 2) * h)| ≤ h * (δ / 3 * q) := by
    intro d hd
    have := midpoint_error (hrow (Y₀ + (d + 1 / 2) * h)) X₀ h (δ / 3) hpos.le o (by
      intro e he t h1 h2
      obtain ⟨c1, c2⟩ := cell X₀ e he t h1 h2
      exact close (mid Y₀ d (Finset.mem_range.mp hd)) (mid Y₀ d (Finset.mem_range.mp hd)) c1 (mid X₀ e he) (by simpa using hη) c2)
    rw [hoh] at this
    rw [← mul_sub, abs_mul, abs_of_pos hpos]
    refine mul_le_mul_of_nonneg_left (this.trans (le_of_eq ?_)) hpos.le
    rw [← hoh]; ring
  rw [hoh] at e1
  have e3 : |(∑ d ∈ Finset.range o, h * G (Y₀ + (d + 1 / 2) * h)) -
      ∑ d ∈ Finset.range o, h * ∑ e ∈ Finset.range o, h * T (Y₀ + (d + 1 / 2) * h) (X₀ + (e + 1 / 2) * h)| ≤ q * (δ / 3 * q) := by
    rw [← Finset.sum_sub_distrib]
    refine (Finset.abs_sum_le_sum_abs _ _).trans ((Finset.sum_le_sum e2).trans (le_of_eq ?_))
    rw [Finset.sum_const, Finset.card_range, nsmul_eq_mul, ← mul_assoc, hoh]
  have e4 : (∑ d ∈ Finset.range o, ∑ e ∈ Finset.range o, T (Y₀ + (d + 1 / 2) * h) (X₀ + (e + 1 / 2) * h)) / (o : ℝ) ^ 2 =
      (∑ d ∈ Finset.range o, h * ∑ e ∈ Finset.range o, h * T (Y₀ + (d + 1 / 2) * h) (X₀ + (e + 1 / 2) * h)) / q ^ 2 := by
    simp only [← Finset.mul_sum]
    generalize (∑ d ∈ Finset.range o, ∑ e ∈ Finset.range o, T (Y₀ + (d + 1 / 2) * h) (X₀ + (e + 1 / 2) * h)) = S
    rw [← hoh]
    field_simp
  rw [e4, ← sub_div, abs_div, abs_of_pos (by positivity : (0 : ℝ) < q ^ 2), div_lt_iff₀ (by positivity), abs_sub_comm]
  have e5 := abs_sub_le (∫ Y in Y₀..(Y₀ + q), G Y) (∑ d ∈ Finset.range o, h * G (Y₀ + (d + 1 / 2) * h))
    (∑ d ∈ Finset.range o, h * ∑ e ∈ Finset.range o, h * T (Y₀ + (d + 1 / 2) * h) (X₀ + (e + 1 / 2) * h))
  have e6 : o * (δ / 3 * q * h) = δ / 3 * q ^ 2 := by rw [← hoh]; ring
  have hq2 : 0 < δ * q ^ 2 := by positivity
  nlinarith

/-! ## The field of view is periodic and continuous -/

theorem fovIntensity_periodic {L : ℝ} (hL : L ≠ 0) (k l : ℝ) (v : VecCorr) (cd : Condition) (z Y X : ℝ) (u u' : ℤ) :
    fovIntensity L k l v cd z (Y + u * L) (X + u' * L) = fovIntensity L k l v cd z Y X := by
  unfold fovIntensity
  refine Finset.sum_congr rfl fun c _ => ?_
  congr 2
  unfold fovField
  refine Finset.sum_congr rfl fun p _ => ?_
  congr 1
  rw [Complex.exp_eq_exp_iff_exists_int]
  refine ⟨p.1 * u + p.2 * u', ?_⟩
  have hL' : (L : ℂ) ≠ 0 := by exact_mod_cast hL
  push_cast
  field_simp
  ring

theorem fovIntensity_continuous (L k l : ℝ) (v : VecCorr) (cd : Condition) (z : ℝ) :
    Continuous (Function.uncurry (fovIntensity L k l v cd z)) := by
  unfold Function.uncurry fovIntensity fovField
  fun_prop

/-! ## Specification -/

/-- Lower edge of camera pixel `y` of `n` pixels of size `q`; the origin is the centre of pixel `n // 2`. -/
noncomputable def pixelEdge (q : ℝ) (n y : ℕ) : ℝ := ((y : ℝ) - (n / 2 : ℕ) - 1 / 2) * q

/-- The integral of the intensity `J` over the area of camera pixel `(y, x)`. -/
noncomputable def pixelIntegral (q : ℝ) (n : ℕ) (J : ℝ → ℝ → ℝ) (y x : ℕ) : ℝ :=
  ∫ Y in pixelEdge q n y..(pixelEdge q n y + q), ∫ X in pixelEdge q n x..(pixelEdge q n x + q), J Y X

/-- The mean of the intensity `J` over the centres of the `o` x `o` parts of camera pixel `(y, x)`. -/
noncomputable def pixelMean (q : ℝ) (n o : ℕ) (J : ℝ → ℝ → ℝ) (y x : ℕ) : ℝ :=
  (∑ d ∈ Finset.range o, ∑ e ∈ Finset.range o, J (pixelEdge q n y + (d + 1 / 2) * (q / o)) (pixelEdge q n x + (e + 1 / 2) * (q / o))) / (o : ℝ) ^ 2

/-! ## Proofs -/

/-- A camera pixel over the samples of a periodic function. -/
theorem superPixel_mean {o n : ℕ} (ho : o % 2 = 1) (hn : 0 < n) {q : ℝ} (J : ℝ → ℝ → ℝ)
    (hJ : ∀ Y X, ∀ u u' : ℤ, J (Y + u * (n * q)) (X + u' * (n * q)) = J Y X) (y x : ℕ) :
    superPixel o n (fun i j => J (offset (n * o) (q / o) i) (offset (n * o) (q / o) j)) y x = o ^ 2 * pixelMean q n o J y x := by
  have ho0 : 0 < o := by omega
  have ho' : (o : ℝ) ≠ 0 := by exact_mod_cast ho0.ne'
  have pos : ∀ y d : ℕ, ∃ u : ℤ, offset (n * o) (q / o) (cyc (n * o) (((n * o / 2 : ℕ) : ℤ) + ((y : ℤ) - (n / 2 : ℕ)) * o + ((d : ℤ) - (o / 2 : ℕ)))) =
      pixelEdge q n y + (d + 1 / 2) * (q / o) + u * (n * q) := by
    intro y d
    obtain ⟨u, hu⟩ := cyc_dvd' (Nat.mul_pos hn ho0) (((n * o / 2 : ℕ) : ℤ) + ((y : ℤ) - (n / 2 : ℕ)) * o + ((d : ℤ) - (o / 2 : ℕ)))
    refine ⟨-u, ?_⟩
    set c := cyc (n * o) (((n * o / 2 : ℕ) : ℤ) + ((y : ℤ) - (n / 2 : ℕ)) * o + ((d : ℤ) - (o / 2 : ℕ))) with hc
    unfold offset pixelEdge
    have h2 : (o : ℝ) = 2 * ((o / 2 : ℕ) : ℝ) + 1 := by exact_mod_cast (by omega : o = 2 * (o / 2) + 1)
    generalize n * o / 2 = A at *
    generalize n / 2 = B at *
    generalize o / 2 = C at *
    have hu' : (A : ℝ) + ((y : ℝ) - B) * o + ((d : ℝ) - C) - c = n * o * u := by exact_mod_cast hu
    have hc' : (c : ℝ) - A = ((y : ℝ) - B) * o + ((d : ℝ) - C) - n * o * u := by linarith
    have hC : (C : ℝ) = (o - 1) / 2 := by linarith
    rw [hc', hC]
    push_cast
    field_simp
    ring
  unfold superPixel pixelMean
  rw [mul_div_cancel₀ _ (pow_ne_zero 2 ho')]
  refine Finset.sum_congr rfl fun d _ => Finset.sum_congr rfl fun e _ => ?_
  obtain ⟨u, hu⟩ := pos y d
  obtain ⟨u', hu'⟩ := pos x e
  beta_reduce
  rw [hu, hu', hJ]

/-- The energy of a plane of the field of view. -/
theorem planeEnergy_fov (s : HSpec) {w n i r : ℚ} {N : ℕ} {zs : List ℚ} {v : VecCorr} {cd : Condition}
    (hI : Ideal s w n i r N zs v cd) (b : Arr ℝ) (hb : s.PSFi = .ok b) (iz : ℕ) :
    planeEnergy b N iz = (∑ p ∈ inDisk (((N * r : ℚ) : ℝ) * ((n / w : ℚ) : ℝ)), ∑ m ∈ Finset.range (components v),
      weightAt ((i / w : ℚ) : ℝ) (p.1 / ((N * r : ℚ) : ℝ)) (p.2 / ((N * r : ℚ) : ℝ)) v cd m ^ 2) / N ^ 2 := by
  obtain ⟨-, hN, -⟩ := psfi_amplitude s hI.fits hI.optics b hb
  obtain ⟨h1, h2, h3⟩ := hI.real
  have hl : (0 : ℝ) < ((n / w : ℚ) : ℝ) := by exact_mod_cast div_pos hI.na hI.wl
  rw [C40_energy s hI.fits b hb hI.optics, h3]
  congr 1
  have := sum_aperture hN h1 hl h2 fun fy fx => ((∑ m ∈ Finset.range (components v), weightAt ((i / w : ℚ) : ℝ) fy fx v cd m ^ 2 : ℝ) : ℂ)
  rw [Rat.cast_mul, Rat.cast_natCast]
  have e : ∀ a c, ((‖aperture N r ((n / w : ℚ) : ℝ) a c‖ ^ 2 : ℝ) : ℂ) = aperture N r ((n / w : ℚ) : ℝ) a c := by
    intro a c; unfold aperture; split_ifs <;> simp
  have e' : ∀ f : ℤ × ℤ → ℝ, ∀ t, ∑ p ∈ t, ((f p : ℝ) : ℂ) = ((∑ p ∈ t, f p : ℝ) : ℂ) := fun f t => by push_cast; rfl
  rw [e' (fun p => ∑ m ∈ Finset.range (components v), weightAt ((i / w : ℚ) : ℝ) (p.1 / (N * r)) (p.2 / (N * r)) v cd m ^ 2)] at this
  have goal' : ((∑ a ∈ Finset.range N, ∑ c ∈ Finset.range N, ‖aperture N r ((n / w : ℚ) : ℝ) a c‖ ^ 2 *
      ∑ m ∈ Finset.range (components v), weight N r ((i / w : ℚ) : ℝ) v cd m a c ^ 2 : ℝ) : ℂ) =
      ((∑ p ∈ inDisk (N * r * ((n / w : ℚ) : ℝ)), ∑ m ∈ Finset.range (components v), weightAt ((i / w : ℚ) : ℝ) (p.1 / (N * r)) (p.2 / (N * r)) v cd m ^ 2 : ℝ) : ℂ) := by
    rw [← this, ofReal_sum]
    refine Finset.sum_congr rfl fun a _ => ?_
    rw [ofReal_sum]
    refine Finset.sum_congr rfl fun c _ => ?_
    rw [ofReal_mul, e]
    rfl
  exact_mod_cast goal'

/-- The intensity that the camera of a widefield microscope sees. -/
noncomputable def cameraIntensity (n : ℕ) (q w na i : ℚ) (v : VecCorr) (cd : Condition) (z : ℚ) : ℝ → ℝ → ℝ :=
  fovIntensity ((n * q : ℚ) : ℝ) ((i / w : ℚ) : ℝ) ((na / w : ℚ) : ℝ) v cd z

theorem camera_exact {a : MicroArgs} {o n nz : ℕ} {q w na i z : ℚ} (ha : OrdinaryArgs a o n nz q w na i z) {v : VecCorr} {cd : Condition}
    (hv : keyword VecCorr.ofString (a.kw.vecCorr.getD (.str "none")) = .ok v) (hcd : keyword Condition.ofString (a.kw.condition.getD (.str "sine")) = .ok cd) :
    ∃ m p, Micro.newWidefield a = .ok m ∧ (Micro.getPSF m).1 = .ok p ∧ p.shape = [nz, n, n] ∧
      (∀ zi < nz, ∀ y < n, ∀ x < n, p.get [zi, y, x] = pixelMean q n o (cameraIntensity n q w na i v cd (plane nz z zi)) y x /
        ∑ zj ∈ Finset.range nz, ∑ y' ∈ Finset.range n, ∑ x' ∈ Finset.range n, pixelMean q n o (cameraIntensity n q w na i v cd (plane nz z zj)) y' x') ∧
      0 < (∑ zj ∈ Finset.range nz, ∑ y' ∈ Finset.range n, ∑ x' ∈ Finset.range n, pixelMean q n o (cameraIntensity n q w na i v cd (plane nz z zj)) y' x') ∧
      (∑ zj ∈ Finset.range nz, ∑ y' ∈ Finset.range n, ∑ x' ∈ Finset.range n, pixelMean q n o (cameraIntensity n q w na i v cd (plane nz z zj)) y' x') =
        n ^ 2 * (nz * ∑ p ∈ inDisk (((n * q : ℚ) : ℝ) * ((na / w : ℚ) : ℝ)), ∑ m ∈ Finset.range (components v),
      weightAt ((i / w : ℚ) : ℝ) (p.1 / ((n * q : ℚ) : ℝ)) (p.2 / ((n * q : ℚ) : ℝ)) v cd m ^ 2) := by
  have ho0 : 0 < o := by have := ha.odd; omega
  have hn := ha.n_pos
  have hoQ : (o : ℚ) ≠ 0 := by exact_mod_cast ho0.ne'
  have hoR : (o : ℝ) ≠ 0 := by exact_mod_cast ho0.ne'
  have hnR : (n : ℝ) ≠ 0 := by exact_mod_cast hn.ne'
  obtain ⟨h, v', cd', hnew, k1, k2, hvz, hO, hPi, -⟩ := ordinary_setup ha
  rw [hv] at k1; cases k1
  rw [hcd] at k2; cases k2
  obtain ⟨m, h', b, hm, hmod, hb, hbs, hbpos, p, hp, hps, hpget⟩ := C54_widefield a o n nz ha.odd ha.n_pos ha.nz_pos q w na i z ha.q_pos.ne' ha.hmod
    ha.hdual ha.hzr ha.hov ha.hsize ha.hpix ha.hwl ha.hw ha.hna ha.hna0 ha.hni ha.hi ha.hres ha.hz ha.hz0 ha.hzs ha.hspec ha.hvc ha.hcd
  have hm' := hm
  rw [hnew] at hm'
  cases hm'
  cases hmod
  have hb' : (⟨h.params, none⟩ : HSpec).PSFi = .ok b := by
    rw [← hPi]
    have e : Inner.getPSFi (.hanser h) = ((HObj.getPSFi h).1, .hanser (HObj.getPSFi h).2) := rfl
    rw [e]; exact hb
  have hI := ordinary_ideal ha hO
  have hL : ((n * o : ℕ) : ℚ) * (q / o) = n * q := by push_cast; field_simp
  have hpl : ∀ zi < nz, ((List.range nz).map (plane nz z)).getD zi 0 = plane nz z zi := by
    intro zi hzi
    simp [List.getD_eq_getElem?_getD, List.getElem?_map, List.getElem?_range hzi]
  have hsp : ∀ zi < nz, ∀ y x, superPixel o n (fun i j => b.get [zi, i, j]) y x =
      o ^ 2 / ((n * o : ℕ) : ℝ) ^ 4 * pixelMean q n o (cameraIntensity n q w na i v cd (plane nz z zi)) y x := by
    intro zi hzi y x
    have hs : ∀ f g, b.get [zi, f, g] = cameraIntensity n q w na i v cd (plane nz z zi) (offset (n * o) ((q : ℝ) / o) f) (offset (n * o) ((q : ℝ) / o) g) / ((n * o : ℕ) : ℝ) ^ 4 := by
      intro f g
      rw [C123_samples _ hI b hb', hL, hpl zi hzi, Rat.cast_div q o, Rat.cast_natCast]
      rfl
    simp only [hs]
    have := superPixel_mean ha.odd hn (q := q) (cameraIntensity n q w na i v cd (plane nz z zi)) (by
      intro Y X u u'
      have := fovIntensity_periodic (L := ((n * q : ℚ) : ℝ)) (by
        have := mul_pos (by exact_mod_cast hn : (0 : ℚ) < n) ha.q_pos
        exact_mod_cast this.ne') ((i / w : ℚ) : ℝ) ((na / w : ℚ) : ℝ) v cd (plane nz z zi) Y X u u'
      rw [cameraIntensity, ← this, Rat.cast_mul, Rat.cast_natCast]) y x
    rw [div_mul_eq_mul_div, ← this]
    unfold superPixel
    simp only [Finset.sum_div]
  set M : ℕ → ℕ → ℕ → ℝ := fun zj y' x' => pixelMean q n o (cameraIntensity n q w na i v cd (plane nz z zj)) y' x' with hM
  set c : ℝ := o ^ 2 / ((n * o : ℕ) : ℝ) ^ 4 with hc
  have hcpos : 0 < c := by
    have : (0 : ℝ) < ((n * o : ℕ) : ℝ) := by exact_mod_cast Nat.mul_pos hn ho0
    have : (0 : ℝ) < o := by exact_mod_cast ho0
    positivity
  have h1 : p.sum = 1 := (C53_normalised _ (Or.inl ⟨a, hm⟩) [] _ rfl).1 p hp
  rw [sum3 p nz n n hps] at h1
  have hpM : ∀ zi ∈ Finset.range nz, ∀ y ∈ Finset.range n, ∀ x ∈ Finset.range n, p.get [zi, y, x] = c / b.sum * M zi y x := by
    intro zi hzi y hy x hx
    rw [hpget zi (Finset.mem_range.mp hzi) y (Finset.mem_range.mp hy) x (Finset.mem_range.mp hx), hsp zi (Finset.mem_range.mp hzi)]
    ring
  have hsum : c / b.sum * ∑ zj ∈ Finset.range nz, ∑ y' ∈ Finset.range n, ∑ x' ∈ Finset.range n, M zj y' x' = 1 := by
    rw [← h1]
    simp only [Finset.mul_sum]
    exact Finset.sum_congr rfl fun zi hzi => Finset.sum_congr rfl fun y hy => Finset.sum_congr rfl fun x hx => (hpM zi hzi y hy x hx).symm
  have hS : ∑ zj ∈ Finset.range nz, ∑ y' ∈ Finset.range n, ∑ x' ∈ Finset.range n, M zj y' x' = b.sum / c := by
    have := hbpos.ne'
    field_simp at hsum ⊢
    linarith
  refine ⟨_, p, hm, hp, hps, ?_, ?_, ?_⟩
  · intro zi hzi y hy x hx
    rw [hpM zi (Finset.mem_range.mpr hzi) y (Finset.mem_range.mpr hy) x (Finset.mem_range.mpr hx)]
    show _ = M zi y x / _
    rw [hS]
    have := hbpos.ne'
    field_simp
  · show 0 < ∑ zj ∈ Finset.range nz, ∑ y' ∈ Finset.range n, ∑ x' ∈ Finset.range n, M zj y' x'
    rw [hS]; positivity
  · show ∑ zj ∈ Finset.range nz, ∑ y' ∈ Finset.range n, ∑ x' ∈ Finset.range n, M zj y' x' = _
    rw [hS]
    have : b.sum = ∑ zi ∈ Finset.range nz, planeEnergy b (n * o) zi := sum3 b nz _ _ hbs
    rw [this]
    simp only [planeEnergy_fov _ hI b hb', hL]
    rw [Finset.sum_const, Finset.card_range, nsmul_eq_mul, hc]
    push_cast
    field_simp

/-- More oversampling is as ordinary. -/
theorem OrdinaryArgs.finer {a : MicroArgs} {o o' n nz : ℕ} {q w na i z : ℚ} (ha : OrdinaryArgs { a with oversample := .int o } o n nz q w na i z)
    (hodd : o' % 2 = 1) (hle : o ≤ o') : OrdinaryArgs { a with oversample := .int o' } o' n nz q w na i z := by
  have h0 : 0 < o := by have := ha.odd; omega
  refine ⟨hodd, ha.n_pos, ha.nz_pos, ha.q_pos, ha.hmod, ha.hdual, ha.hzr, rfl, ha.hsize, ha.hpix, ha.hwl, ha.hw, ha.hna, ha.hna0, ha.hni, ha.hi, ?_, ha.hz, ha.hz0,
    ha.hzs, ?_, ha.hvc, ha.hcd⟩
  · refine lt_of_le_of_lt ?_ ha.hres
    exact div_le_div_of_nonneg_left ha.q_pos.le (by exact_mod_cast h0) (by exact_mod_cast hle)
  · have := ha.hspec
    exact ⟨this.wl, this.na, this.ni, by simp [PsfParams.initArgs, NotSpecial], this.zres⟩

/-- C124: as the (odd) oversampling grows, every pixel of the PSF of a widefield microscope tends to the integral of the intensity over the area of
the pixel, divided by the total of these integrals. -/
theorem C124_limit (a : MicroArgs) (o₀ n nz : ℕ) (q w na i z : ℚ) (ha : OrdinaryArgs { a with oversample := .int o₀ } o₀ n nz q w na i z) (v : VecCorr) (cd : Condition)
    (hv : keyword VecCorr.ofString (a.kw.vecCorr.getD (.str "none")) = .ok v) (hcd : keyword Condition.ofString (a.kw.condition.getD (.str "sine")) = .ok cd)
    (zi y x : ℕ) (hzi : zi < nz) (hy : y < n) (hx : x < n) (δ : ℝ) (hδ : 0 < δ) :
    ∃ O : ℕ, ∀ o : ℕ, O ≤ o → o % 2 = 1 → ∃ m p, Micro.newWidefield { a with oversample := .int o } = .ok m ∧ (Micro.getPSF m).1 = .ok p ∧ p.shape = [nz, n, n] ∧
      |p.get [zi, y, x] - pixelIntegral q n (cameraIntensity n q w na i v cd (plane nz z zi)) y x /
        ∑ zj ∈ Finset.range nz, ∑ y' ∈ Finset.range n, ∑ x' ∈ Finset.range n, pixelIntegral q n (cameraIntensity n q w na i v cd (plane nz z zj)) y' x'| < δ := by
  have hq : (0 : ℝ) < q := by exact_mod_cast ha.q_pos
  set U : ℕ → ℕ → ℕ → ℕ → ℝ := fun o zj y' x' => pixelMean q n o (cameraIntensity n q w na i v cd (plane nz z zj)) y' x' with hU
  set μ : ℕ → ℕ → ℕ → ℝ := fun zj y' x' => pixelIntegral q n (cameraIntensity n q w na i v cd (plane nz z zj)) y' x' with hμ
  set C : ℝ := n ^ 2 * (nz * ∑ p ∈ inDisk (((n * q : ℚ) : ℝ) * ((na / w : ℚ) : ℝ)), ∑ m ∈ Finset.range (components v),
      weightAt ((i / w : ℚ) : ℝ) (p.1 / ((n * q : ℚ) : ℝ)) (p.2 / ((n * q : ℚ) : ℝ)) v cd m ^ 2) with hC
  have hlim : ∀ zj y' x', Filter.Tendsto (fun t : ℕ => U (2 * t + 1) zj y' x') Filter.atTop (nhds (μ zj y' x' / (q : ℝ) ^ 2)) := by
    intro zj y' x'
    rw [Metric.tendsto_atTop]
    intro ε hε
    obtain ⟨O, hO⟩ := midpoint_limit (fovIntensity_continuous ((n * q : ℚ) : ℝ) ((i / w : ℚ) : ℝ) ((na / w : ℚ) : ℝ) v cd (plane nz z zj))
      (pixelEdge q n y') (pixelEdge q n x') q hq hε
    refine ⟨O, fun t ht => ?_⟩
    rw [Real.dist_eq]
    exact hO (2 * t + 1) (by omega) (by omega)
  have hsumlim : Filter.Tendsto (fun t : ℕ => ∑ zj ∈ Finset.range nz, ∑ y' ∈ Finset.range n, ∑ x' ∈ Finset.range n, U (2 * t + 1) zj y' x') Filter.atTop
      (nhds (∑ zj ∈ Finset.range nz, ∑ y' ∈ Finset.range n, ∑ x' ∈ Finset.range n, μ zj y' x' / (q : ℝ) ^ 2)) :=
    tendsto_finsetSum _ fun zj _ => tendsto_finsetSum _ fun y' _ => tendsto_finsetSum _ fun x' _ => hlim zj y' x'
  have hconst : ∀ t, o₀ ≤ t → (∑ zj ∈ Finset.range nz, ∑ y' ∈ Finset.range n, ∑ x' ∈ Finset.range n, U (2 * t + 1) zj y' x') = C ∧ 0 < C := by
    intro t ht
    obtain ⟨m, p, -, -, -, -, h5, h6⟩ := camera_exact (ha.finer (o' := 2 * t + 1) (by omega) (by omega)) hv hcd
    exact ⟨h6, by rw [hC, ← h6]; exact h5⟩
  have hCpos : 0 < C := (hconst o₀ le_rfl).2
  have hsumC : ∑ zj ∈ Finset.range nz, ∑ y' ∈ Finset.range n, ∑ x' ∈ Finset.range n, μ zj y' x' / (q : ℝ) ^ 2 = C := by
    refine tendsto_nhds_unique hsumlim (tendsto_const_nhds.congr' ?_)
    filter_upwards [Filter.eventually_ge_atTop o₀] with t ht
    exact (hconst t ht).1.symm
  have hfin : Filter.Tendsto (fun t : ℕ => U (2 * t + 1) zi y x / C) Filter.atTop (nhds (μ zi y x / (q : ℝ) ^ 2 / C)) := (hlim zi y x).div_const C
  rw [Metric.tendsto_atTop] at hfin
  obtain ⟨O, hO⟩ := hfin δ hδ
  refine ⟨2 * (O + o₀) + 1, fun o ho hodd => ?_⟩
  obtain ⟨t, rfl⟩ : ∃ t, o = 2 * t + 1 := ⟨o / 2, by omega⟩
  obtain ⟨m, p, h1, h2, h3, h4, h5, h6⟩ := camera_exact (ha.finer (o' := 2 * t + 1) (by omega) (by omega)) hv hcd
  refine ⟨m, p, h1, h2, h3, ?_⟩
  have h7 := hO t (by omega)
  rw [Real.dist_eq] at h7
  rw [h4 zi hzi y hy x hx, h6]
  have e : μ zi y x / ∑ zj ∈ Finset.range nz, ∑ y' ∈ Finset.range n, ∑ x' ∈ Finset.range n, μ zj y' x' = μ zi y x / (q : ℝ) ^ 2 / C := by
    have : ∑ zj ∈ Finset.range nz, ∑ y' ∈ Finset.range n, ∑ x' ∈ Finset.range n, μ zj y' x' = C * (q : ℝ) ^ 2 := by
      rw [← hsumC]
      simp only [← Finset.sum_div]
      rw [div_mul_cancel₀ _ (by positivity)]
    rw [this, div_div, mul_comm]
  show |_ - μ zi y x / _| < δ
  rw [e]
  exact h7

/-- C124: for every odd oversampling the pixel is the mean over the centres of its `o` x `o` parts, divided by the total of these means; the total of the means does not
depend on the oversampling. -/
theorem C124_means (a : MicroArgs) (o n nz : ℕ) (q w na i z : ℚ) (ha : OrdinaryArgs a o n nz q w na i z) (v : VecCorr) (cd : Condition)
    (hv : keyword VecCorr.ofString (a.kw.vecCorr.getD (.str "none")) = .ok v) (hcd : keyword Condition.ofString (a.kw.condition.getD (.str "sine")) = .ok cd) :
    ∃ m p, Micro.newWidefield a = .ok m ∧ (Micro.getPSF m).1 = .ok p ∧ p.shape = [nz, n, n] ∧ ∀ zi < nz, ∀ y < n, ∀ x < n,
      p.get [zi, y, x] = pixelMean q n o (cameraIntensity n q w na i v cd (plane nz z zi)) y x /
        ∑ zj ∈ Finset.range nz, ∑ y' ∈ Finset.range n, ∑ x' ∈ Finset.range n, pixelMean q n o (cameraIntensity n q w na i v cd (plane nz z zj)) y' x' := by
  obtain ⟨m, p, h1, h2, h3, h4, -⟩ := camera_exact ha hv hcd
  exact ⟨m, p, h1, h2, h3, h4⟩

/-- C124: two odd oversamplings, the camera pixels have the same totals. -/
theorem C124_same_total (a : MicroArgs) (o o' n nz : ℕ) (q w na i z : ℚ) (ha : OrdinaryArgs { a with oversample := .int o } o n nz q w na i z) (ho' : o' % 2 = 1) (hle : o ≤ o')
    (v : VecCorr) (cd : Condition)
    (hv : keyword VecCorr.ofString (a.kw.vecCorr.getD (.str "none")) = .ok v) (hcd : keyword Condition.ofString (a.kw.condition.getD (.str "sine")) = .ok cd) :
    ∑ zj ∈ Finset.range nz, ∑ y' ∈ Finset.range n, ∑ x' ∈ Finset.range n, pixelMean q n o (cameraIntensity n q w na i v cd (plane nz z zj)) y' x' =
    ∑ zj ∈ Finset.range nz, ∑ y' ∈ Finset.range n, ∑ x' ∈ Finset.range n, pixelMean q n o' (cameraIntensity n q w na i v cd (plane nz z zj)) y' x' := by
  obtain ⟨m, p, -, -, -, -, -, h6⟩ := camera_exact ha hv hcd
  obtain ⟨m', p', -, -, -, -, -, h6'⟩ := camera_exact (ha.finer ho' hle) hv hcd
  rw [h6, h6']

/-- Non-vacuity of C124: the demo microscope. -/
example : OrdinaryArgs { demoMicroArgs with oversample := .int 3 } 3 64 64 130 520 (17/20) 1 130 ∧
    keyword VecCorr.ofString (demoMicroArgs.kw.vecCorr.getD (.str "none")) = .ok .none ∧
    keyword Condition.ofString (demoMicroArgs.kw.condition.getD (.str "sine")) = .ok .sine :=
  ⟨by exact_mod_cast demoArgs_ordinary 520 (by norm_num), rfl, rfl⟩

end PyOTF
