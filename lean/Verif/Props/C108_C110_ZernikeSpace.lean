import Verif.Lemmas.ZernikeBound
import Verif.Props.C25_C27_Zernike
import Verif.Props.C28_C30_Names
import Mathlib.Algebra.MvPolynomial.Degrees
import Mathlib.MeasureTheory.Function.SpecialFunctions.Arctan
import Mathlib.Analysis.Complex.Trigonometric

/-!
# C108–C110: the Zernike modes as a basis
-/

namespace PyOTF

open Finset MeasureTheory

/-! ## C108: bounds -/

/-- The largest absolute value of a mode with and without the default normalisation. -/
noncomputable def modePeak (n m : ℤ) (norm : Bool) : ℝ :=
  if norm then (if m = 0 then Real.sqrt (n + 1) else Real.sqrt (2 * (n + 1))) else 1

theorem modePeak_nonneg (n m : ℤ) (norm : Bool) : 0 ≤ modePeak n m norm := by
  unfold modePeak; split_ifs <;> first | exact Real.sqrt_nonneg _ | exact zero_le_one

theorem zernike1_factor' {n m : ℤ} {k : ℕ} (hk : n = |m| + 2 * k) (r t : ℝ) (norm : Bool) :
    zernike1 r t n m norm = (if r ≤ 1 then radPoly m.natAbs k r else 0) * angular m t * modePeak n m norm := by
  cases norm
  · have h := zernike1_factor hk r t
    have hpar : ¬ ((n - |m|) % 2 ≠ 0) := by omega
    have hrad : radialZernike r n |m| = if r ≤ 1 then radPoly m.natAbs k r else 0 := by
      by_cases hr : r ≤ 1
      · have := radialZernike_radPoly (m := |m|) (n := n) (k := k) (by rw [abs_abs]; exact hk) hr
        rw [if_pos hr, this, Int.natAbs_abs]
      · rw [if_neg hr, radialZernike, if_neg hr]
    rw [zernike1]
    simp only []
    rw [if_neg hpar, hrad]
    simp only [modePeak, angular, decide_eq_true_eq]
    split_ifs <;> simp_all
  · rw [zernike1_factor hk r t]
    rfl

theorem angular_abs_le (m : ℤ) (t : ℝ) : |angular m t| ≤ 1 := by
  unfold angular; split_ifs
  · exact Real.abs_sin_le_one _
  · exact Real.abs_cos_le_one _

/-- C108: a mode with an admissible pair of degrees is nowhere larger than 1 without normalisation, and than
`√(n+1)` (`m = 0`) or `√(2(n+1))` (`m ≠ 0`) with the default normalisation. -/
theorem C108_mode_bound (n m : ℤ) (h : Admissible n m) (norm : Bool) (r t : ℝ) (hr : 0 ≤ r) :
    |zernike1 r t n m norm| ≤
      if norm then (if m = 0 then Real.sqrt (n + 1) else Real.sqrt (2 * (n + 1))) else 1 := by
  obtain ⟨k, hk⟩ := admissible_iff.mp h
  rw [zernike1_factor' hk, abs_mul, abs_mul, abs_of_nonneg (modePeak_nonneg n m norm)]
  change _ ≤ modePeak n m norm
  have h1 : |(if r ≤ 1 then radPoly m.natAbs k r else 0)| ≤ 1 := by
    by_cases hr1 : r ≤ 1
    · rw [if_pos hr1]; exact radPoly_abs_le _ _ _ hr hr1
    · rw [if_neg hr1]; simp
  have h2 := angular_abs_le m t
  have h3 := mul_le_one₀ h1 (abs_nonneg _) h2
  exact mul_le_of_le_one_left (modePeak_nonneg n m norm) h3

/-- C108: the bound is attained, on the rim of the disk. -/
theorem C108_mode_bound_attained (n m : ℤ) (h : Admissible n m) (norm : Bool) :
    ∃ t, |zernike1 1 t n m norm| =
      if norm then (if m = 0 then Real.sqrt (n + 1) else Real.sqrt (2 * (n + 1))) else 1 := by
  obtain ⟨k, hk⟩ := admissible_iff.mp h
  have hrim : radPoly m.natAbs k 1 = (-1) ^ m.natAbs := by
    rw [← radialZernike_radPoly hk le_rfl, C25_rim n m h]
  refine ⟨if m < 0 then Real.pi / (2 * |m| : ℤ) else 0, ?_⟩
  rw [zernike1_factor' hk, if_pos le_rfl, hrim, abs_mul, abs_mul, abs_of_nonneg (modePeak_nonneg n m norm)]
  change _ = modePeak n m norm
  have h1 : |(-1 : ℝ) ^ m.natAbs| = 1 := by rw [abs_pow]; simp
  have h2 : |angular m (if m < 0 then Real.pi / (2 * |m| : ℤ) else 0)| = 1 := by
    unfold angular
    by_cases hm : m < 0
    · rw [if_pos hm, if_pos hm]
      have : ((|m| : ℤ) : ℝ) ≠ 0 := by exact_mod_cast (abs_pos.mpr hm.ne).ne'
      have e : ((|m| : ℤ) : ℝ) * (Real.pi / ((2 * |m| : ℤ) : ℝ)) = Real.pi / 2 := by
        rw [Int.cast_mul]; field_simp; norm_num
      rw [e, Real.sin_pi_div_two, abs_one]
    · rw [if_neg hm, if_neg hm, mul_zero, Real.cos_zero, abs_one]
  rw [h1, h2, one_mul, one_mul]

theorem unsqueeze_inShape : ∀ {s idx : List ℕ}, InShape idx (s.filter (· ≠ 1)) → InShape (unsqueezeIdx s idx) s
  | [], idx, h => by
    simp only [List.filter_nil] at h
    simp only [unsqueezeIdx]
    exact List.Forall₂.nil
  | n :: s, idx, h => by
    by_cases hn : n = 1
    · subst hn
      have h' : InShape idx (s.filter (· ≠ 1)) := by simpa using h
      simp only [unsqueezeIdx, if_true]
      exact List.Forall₂.cons (by norm_num) (unsqueeze_inShape h')
    · rw [List.filter_cons_of_pos (by simpa using hn)] at h
      cases h with
      | cons h1 h2 =>
        simp only [unsqueezeIdx, if_neg hn]
        exact List.Forall₂.cons h1 (unsqueeze_inShape h2)

/-- C108: whatever the coordinates and indices, every value that `zernike` returns is at most 1 in absolute
value without normalisation, and at most `√(2(N+1))` with it, if no requested mode has `n > N`. -/
theorem C108_zernike_bound (r theta : Arr ℝ) (args : List (Arr ℤ)) (norm : Bool) (nm : List (ℤ × ℤ)) (z : Arr ℝ)
    (hd : zernikeDegrees args = .ok nm) (hz : zernike r theta args norm = .ok z) (N : ℤ)
    (hN : ∀ p ∈ nm, p.1 ≤ N) (hN0 : 0 ≤ N) :
    ∀ idx, InShape idx z.shape → |z.get idx| ≤ if norm then Real.sqrt (2 * (N + 1)) else 1 := by
  classical
  have hrn : ∀ i, InShape i r.shape → 0 ≤ r.get i := by
    by_contra hc
    push Not at hc
    obtain ⟨i, hi, hlt⟩ := hc
    rw [C28_domain_errors r theta args norm nm hd (Or.inl ⟨i, hi, hlt⟩)] at hz
    cases hz
  have hrank : ¬ r.shape.length > 2 := by
    intro hc
    rw [C28_domain_errors r theta args norm nm hd (Or.inr (Or.inl hc))] at hz
    cases hz
  have hm : ∀ p ∈ nm, |p.2| ≤ p.1 := by
    intro p hp
    by_contra hc
    rw [C28_domain_errors r theta args norm nm hd (Or.inr (Or.inr ⟨p, hp, not_le.mp hc⟩))] at hz
    cases hz
  have h4 : ¬ nm.any (fun p => decide (¬ |p.2| ≤ p.1)) = true := by
    simp only [List.any_eq_true, not_exists, not_and]
    intro p hp; simpa using hm p hp
  have hB : ∀ (rr tt : ℝ) (p : ℤ × ℤ), 0 ≤ rr → p ∈ nm ∨ p = (0, 0) →
      |zernike1 rr tt p.1 p.2 norm| ≤ if norm then Real.sqrt (2 * (N + 1)) else 1 := by
    intro rr tt p hrr hp
    have hp1 : |p.2| ≤ p.1 ∧ p.1 ≤ N := by
      rcases hp with hp | rfl
      · exact ⟨hm p hp, hN p hp⟩
      · exact ⟨by simp, hN0⟩
    have hNr : ((p.1 : ℤ) : ℝ) ≤ (N : ℝ) := by exact_mod_cast hp1.2
    have hp0 : (0 : ℝ) ≤ (p.1 : ℝ) := by exact_mod_cast (abs_nonneg p.2).trans hp1.1
    by_cases hpar : (p.1 - p.2) % 2 ≠ 0
    · rw [C27_parity_zero _ _ _ _ _ hpar, abs_zero]
      split_ifs
      · exact Real.sqrt_nonneg _
      · exact zero_le_one
    · refine (C108_mode_bound p.1 p.2 ⟨hp1.1, by push Not at hpar; exact hpar⟩ norm rr tt hrr).trans ?_
      split_ifs
      · exact Real.sqrt_le_sqrt (by linarith)
      · exact Real.sqrt_le_sqrt (by linarith)
      · exact le_rfl
  have hmain : ∀ th : Arr ℝ, ∀ idx, InShape idx ((nm.length :: r.shape).filter (· ≠ 1)) →
      |((⟨nm.length :: r.shape, fun idx =>
        let p := nm.getD (idx.headD 0) (0, 0)
        zernike1 (r.get idx.tail) (th.get idx.tail) p.1 p.2 norm⟩ : Arr ℝ).squeeze).get idx|
        ≤ if norm then Real.sqrt (2 * (N + 1)) else 1 := by
    intro th idx hi
    have hu := unsqueeze_inShape hi
    simp only [Arr.squeeze]
    obtain ⟨a, l, hal⟩ : ∃ a l, unsqueezeIdx (nm.length :: r.shape) idx = a :: l := by
      cases hx : unsqueezeIdx (nm.length :: r.shape) idx with
      | nil => rw [hx] at hu; cases hu
      | cons a l => exact ⟨a, l, rfl⟩
    rw [hal] at hu ⊢
    cases hu with
    | cons ha hl =>
      simp only [List.headD_cons, List.tail_cons]
      refine hB _ _ _ (hrn _ hl) ?_
      rw [List.getD_eq_getElem _ _ ha]
      exact Or.inl (List.getElem_mem ha)
  have hpos : (0 : ℝ) ≤ if norm then Real.sqrt (2 * (N + 1)) else 1 := by
    split_ifs
    · exact Real.sqrt_nonneg _
    · exact zero_le_one
  by_cases hne : nm = []
  · subst hne
    simp only [zernike, hd, if_neg (not_not.mpr hrn), if_neg hrank, Bind.bind, Except.bind,
      List.any_nil, Bool.false_eq_true, if_false, if_true] at hz
    cases hz
    intro idx hi
    cases hi with
    | cons h1 _ => exact absurd h1 (by omega)
  · by_cases hcc : nm.any (fun p => decide ((p.1 - |p.2|) % 2 = 0)) = true
    · cases hth : broadcastTo r.shape theta with
      | error e =>
        simp only [zernike, hd, if_neg (not_not.mpr hrn), if_neg hrank, if_neg h4, Bind.bind, Except.bind,
          hcc, if_true, hth] at hz
        cases hz
      | ok th =>
        simp only [zernike, hd, if_neg (not_not.mpr hrn), if_neg hrank, if_neg h4, Bind.bind, Except.bind,
          hcc, if_true, hth, hne, if_false] at hz
        cases hz
        exact hmain th
    · simp only [zernike, hd, if_neg (not_not.mpr hrn), if_neg hrank, if_neg h4, Bind.bind, Except.bind,
        hcc, if_false, hne] at hz
      cases hz
      exact hmain ⟨r.shape, fun _ => 0⟩

/-- Non-vacuity of C108: spherical aberration is bounded by `√5`, reached on the rim; its values lie in
between elsewhere. -/
example : (∀ r t : ℝ, 0 ≤ r → |zernike1 r t 4 0 true| ≤ Real.sqrt 5) ∧
    zernike1 (1 / 2) 0 4 0 true = -(1 / 8) * Real.sqrt 5 := by
  constructor
  · intro r t hr
    have h := C108_mode_bound 4 0 (by decide) true r t hr
    norm_num at h
    exact h
  · rw [C27_closed_form 4 0 (by decide) _ _ (by norm_num)]
    simp [radialTextbook, sum_range_succ, Nat.factorial]
    norm_num
    ring

/-! ## The modes in Cartesian coordinates -/

/-- `Re z^m` (`m ≥ 0`) or `Im z^|m|` (`m < 0`), `z = x + iy`. -/
noncomputable def harm (m : ℤ) (p : ℝ × ℝ) : ℝ :=
  if m < 0 then ((⟨p.1, p.2⟩ : ℂ) ^ m.natAbs).im else ((⟨p.1, p.2⟩ : ℂ) ^ m.natAbs).re

/-- The unit disk. -/
def InDisk (p : ℝ × ℝ) : Prop := p.1 ^ 2 + p.2 ^ 2 ≤ 1

theorem cart2pol_norm (p : ℝ × ℝ) : (cart2pol p.2 p.1).1 ^ 2 = p.1 ^ 2 + p.2 ^ 2 := by
  simp only [cart2pol]
  rw [Real.sq_sqrt (by positivity)]; ring

theorem cart2pol_fst_nonneg (p : ℝ × ℝ) : 0 ≤ (cart2pol p.2 p.1).1 := Real.sqrt_nonneg _

theorem cart2pol_fst_le (p : ℝ × ℝ) : (cart2pol p.2 p.1).1 ≤ 1 ↔ InDisk p := by
  rw [InDisk, ← cart2pol_norm, sq_le_one_iff₀ (cart2pol_fst_nonneg p)]

theorem polar_harm (m : ℤ) (p : ℝ × ℝ) :
    (cart2pol p.2 p.1).1 ^ m.natAbs * angular m (cart2pol p.2 p.1).2 = harm m p := by
  set z : ℂ := ⟨p.1, p.2⟩ with hz
  have hr : (cart2pol p.2 p.1).1 = ‖z‖ := by
    simp only [cart2pol, hz]
    rw [Complex.norm_def, Complex.normSq_mk]
    congr 1; ring
  have ht : (cart2pol p.2 p.1).2 = z.arg := rfl
  have hpow : z ^ m.natAbs = (((‖z‖ ^ m.natAbs * Real.cos (m.natAbs * z.arg) : ℝ) : ℂ)
      + ((‖z‖ ^ m.natAbs * Real.sin (m.natAbs * z.arg) : ℝ) : ℂ) * Complex.I) := by
    conv_lhs => rw [← Complex.norm_mul_cos_add_sin_mul_I z]
    rw [mul_pow, Complex.cos_add_sin_mul_I_pow]
    push_cast
    ring
  have hab : ((|m| : ℤ) : ℝ) = (m.natAbs : ℝ) := by rw [Int.abs_eq_natAbs]; simp
  have hre : ∀ A B : ℝ, ((A : ℂ) + (B : ℂ) * Complex.I).re = A := fun A B => by simp
  have him : ∀ A B : ℝ, ((A : ℂ) + (B : ℂ) * Complex.I).im = B := fun A B => by simp
  rw [hr, ht, harm, angular, ← hz, hpow, hab, hre, him]
  by_cases hm : m < 0
  · rw [if_pos hm, if_pos hm]
  · rw [if_neg hm, if_neg hm]

open Classical in
/-- A mode in Cartesian coordinates. -/
theorem zernikeXY_cart {n m : ℤ} {k : ℕ} (hk : n = |m| + 2 * k) (norm : Bool) (p : ℝ × ℝ) :
    zernikeXY n m norm p = if InDisk p then modePeak n m norm * ((-1) ^ (m.natAbs + k) * (harm m p *
      ∑ s ∈ range (k + 1), (-1 : ℝ) ^ s * (k.choose s : ℝ) * ((m.natAbs + k + s).choose k : ℝ) *
        (p.1 ^ 2 + p.2 ^ 2) ^ s)) else 0 := by
  rw [zernikeXY, zernike1_factor' hk]
  by_cases hp : InDisk p
  · rw [if_pos hp, if_pos ((cart2pol_fst_le p).mpr hp), ← polar_harm m p, ← cart2pol_norm p, radPoly]
    have : ∀ s, ((cart2pol p.2 p.1).1 ^ 2) ^ s = (cart2pol p.2 p.1).1 ^ (2 * s) := fun s => (pow_mul _ _ _).symm
    simp only [this]
    ring
  · rw [if_neg hp, if_neg (fun h => hp ((cart2pol_fst_le p).mp h))]
    ring

theorem harm_continuous (m : ℤ) : Continuous (harm m) := by
  have hz : Continuous (fun p : ℝ × ℝ => (⟨p.1, p.2⟩ : ℂ)) := by
    have : (fun p : ℝ × ℝ => (⟨p.1, p.2⟩ : ℂ)) = fun p => (p.1 : ℂ) + (p.2 : ℂ) * Complex.I := by
      funext p; apply Complex.ext <;> simp
    rw [this]; fun_prop
  unfold harm
  by_cases hm : m < 0
  · simp only [hm, if_true]; exact Complex.continuous_im.comp (hz.pow _)
  · simp only [hm, if_false]; exact Complex.continuous_re.comp (hz.pow _)

theorem inDisk_measurable : MeasurableSet {p : ℝ × ℝ | InDisk p} := by
  apply measurableSet_le <;> fun_prop

theorem zernikeXY_measurable {n m : ℤ} (h : Admissible n m) (norm : Bool) : Measurable (zernikeXY n m norm) := by
  obtain ⟨k, hk⟩ := admissible_iff.mp h
  have : zernikeXY n m norm = _ := funext (zernikeXY_cart hk norm)
  rw [this]
  refine Measurable.ite inDisk_measurable (Continuous.measurable ?_) measurable_const
  have := harm_continuous m
  fun_prop

theorem zernikeXY_bound {n m : ℤ} (h : Admissible n m) (p : ℝ × ℝ) :
    |zernikeXY n m true p| ≤ modePeak n m true :=
  C108_mode_bound n m h true _ _ (cart2pol_fst_nonneg p)

theorem disk_finite : volume {p : ℝ × ℝ | p.1 ^ 2 + p.2 ^ 2 ≤ 1} ≠ ⊤ := by
  have hsub : {p : ℝ × ℝ | p.1 ^ 2 + p.2 ^ 2 ≤ 1} ⊆ Set.Icc (-1 : ℝ) 1 ×ˢ Set.Icc (-1 : ℝ) 1 := by
    rintro ⟨x, y⟩ hp
    have hp' : x ^ 2 + y ^ 2 ≤ 1 := hp
    simp only [Set.mem_prod, Set.mem_Icc]
    refine ⟨abs_le.mp (abs_le_one_iff_mul_self_le_one.mpr (by nlinarith [sq_nonneg y])),
      abs_le.mp (abs_le_one_iff_mul_self_le_one.mpr (by nlinarith [sq_nonneg x]))⟩
  exact ne_top_of_le_ne_top ((isCompact_Icc.prod isCompact_Icc).measure_lt_top.ne) (measure_mono hsub)

/-- Bounded measurable functions are integrable over the disk. -/
theorem diskIntegrable {f : ℝ × ℝ → ℝ} (hf : Measurable f) {B : ℝ} (hB : ∀ p, |f p| ≤ B) :
    IntegrableOn f {p : ℝ × ℝ | p.1 ^ 2 + p.2 ^ 2 ≤ 1} :=
  Measure.integrableOn_of_bounded (M := B) disk_finite hf.aestronglyMeasurable
    (Filter.Eventually.of_forall fun p => by rw [Real.norm_eq_abs]; exact hB p)

theorem mode_mul_integrable {q q' : ℤ × ℤ} (h : Admissible q.1 q.2) (h' : Admissible q'.1 q'.2) :
    IntegrableOn (fun p => zernikeXY q.1 q.2 true p * zernikeXY q'.1 q'.2 true p)
      {p : ℝ × ℝ | p.1 ^ 2 + p.2 ^ 2 ≤ 1} := by
  refine diskIntegrable ((zernikeXY_measurable h true).mul (zernikeXY_measurable h' true))
    (B := modePeak q.1 q.2 true * modePeak q'.1 q'.2 true) fun p => ?_
  rw [abs_mul]
  exact mul_le_mul (zernikeXY_bound h p) (zernikeXY_bound h' p) (abs_nonneg _) (modePeak_nonneg _ _ _)

theorem diskMean_sum {ι : Type} (S : Finset ι) (f : ι → ℝ × ℝ → ℝ)
    (hf : ∀ i ∈ S, IntegrableOn (f i) {p : ℝ × ℝ | p.1 ^ 2 + p.2 ^ 2 ≤ 1}) :
    diskMean (fun p => ∑ i ∈ S, f i p) = ∑ i ∈ S, diskMean (f i) := by
  simp only [diskMean]
  rw [integral_finsetSum S hf, mul_sum]

theorem diskMean_const_mul (c : ℝ) (f : ℝ × ℝ → ℝ) : diskMean (fun p => c * f p) = c * diskMean f := by
  simp only [diskMean]
  rw [integral_const_mul]; ring

theorem diskMean_congr {f g : ℝ × ℝ → ℝ} (h : ∀ p, InDisk p → f p = g p) : diskMean f = diskMean g := by
  simp only [diskMean]
  congr 1
  exact setIntegral_congr_fun inDisk_measurable fun p hp => h p hp

/-! ## C109: coefficients are root-mean-square amplitudes -/

/-- C109: the coefficient of a mode in a combination of distinct modes is the mean over the disk of the
combination times that mode. -/
theorem C109_coefficient (S : Finset (ℤ × ℤ)) (hS : ∀ q ∈ S, Admissible q.1 q.2) (c : ℤ × ℤ → ℝ)
    (n m : ℤ) (h : Admissible n m) :
    diskMean (fun p => (∑ q ∈ S, c q * zernikeXY q.1 q.2 true p) * zernikeXY n m true p)
      = if (n, m) ∈ S then c (n, m) else 0 := by
  have e : (fun p => (∑ q ∈ S, c q * zernikeXY q.1 q.2 true p) * zernikeXY n m true p)
      = fun p => ∑ q ∈ S, c q * (zernikeXY q.1 q.2 true p * zernikeXY n m true p) := by
    funext p; rw [sum_mul]; exact sum_congr rfl fun q _ => mul_assoc _ _ _
  rw [e, diskMean_sum S _ fun q hq => (mode_mul_integrable (q := q) (q' := (n, m)) (hS q hq) h).const_mul (c q)]
  have e2 : ∀ q ∈ S, diskMean (fun p => c q * (zernikeXY q.1 q.2 true p * zernikeXY n m true p))
      = if q = (n, m) then c q else 0 := by
    intro q hq
    rw [diskMean_const_mul, C26_orthonormal q.1 q.2 n m (hS q hq) h]
    split_ifs <;> simp
  rw [sum_congr rfl e2, sum_ite_eq']

/-- C109: the mean square over the disk of a combination of distinct modes is the sum of the squares of its
coefficients. -/
theorem C109_mean_square (S : Finset (ℤ × ℤ)) (hS : ∀ q ∈ S, Admissible q.1 q.2) (c : ℤ × ℤ → ℝ) :
    diskMean (fun p => (∑ q ∈ S, c q * zernikeXY q.1 q.2 true p) ^ 2) = ∑ q ∈ S, c q ^ 2 := by
  have e : (fun p => (∑ q ∈ S, c q * zernikeXY q.1 q.2 true p) ^ 2)
      = fun p => ∑ q ∈ S, c q * ((∑ q' ∈ S, c q' * zernikeXY q'.1 q'.2 true p) * zernikeXY q.1 q.2 true p) := by
    funext p
    rw [sq]
    rw [mul_sum]
    exact sum_congr rfl fun q _ => by ring
  have hint : ∀ q ∈ S, IntegrableOn (fun p => c q * ((∑ q' ∈ S, c q' * zernikeXY q'.1 q'.2 true p) *
      zernikeXY q.1 q.2 true p)) {p : ℝ × ℝ | p.1 ^ 2 + p.2 ^ 2 ≤ 1} := by
    intro q hq
    refine Integrable.const_mul ?_ (c q)
    have : (fun p => (∑ q' ∈ S, c q' * zernikeXY q'.1 q'.2 true p) * zernikeXY q.1 q.2 true p)
        = fun p => ∑ q' ∈ S, c q' * (zernikeXY q'.1 q'.2 true p * zernikeXY q.1 q.2 true p) := by
      funext p; rw [sum_mul]; exact sum_congr rfl fun q _ => mul_assoc _ _ _
    rw [this]
    exact integrable_finsetSum S fun q' hq' => (mode_mul_integrable (hS q' hq') (hS q hq)).const_mul (c q')
  rw [e, diskMean_sum S _ hint]
  refine sum_congr rfl fun q hq => ?_
  rw [diskMean_const_mul, C109_coefficient S hS c q.1 q.2 (hS q hq), if_pos hq]
  ring

theorem piston_one (p : ℝ × ℝ) (hp : InDisk p) : zernikeXY 0 0 true p = 1 := by
  rw [zernikeXY_cart (k := 0) (by simp) true p, if_pos hp]
  simp [modePeak, harm]

/-- C109: the mean over the disk of a combination of distinct modes is its piston coefficient. -/
theorem C109_mean (S : Finset (ℤ × ℤ)) (hS : ∀ q ∈ S, Admissible q.1 q.2) (c : ℤ × ℤ → ℝ) :
    diskMean (fun p => ∑ q ∈ S, c q * zernikeXY q.1 q.2 true p) = if (0, 0) ∈ S then c (0, 0) else 0 := by
  rw [← C109_coefficient S hS c 0 0 (by decide)]
  exact diskMean_congr fun p hp => by rw [piston_one p hp, mul_one]

/-- C109: the variance over the disk is the sum of the squares of the coefficients other than piston. -/
theorem C109_variance (S : Finset (ℤ × ℤ)) (hS : ∀ q ∈ S, Admissible q.1 q.2) (c : ℤ × ℤ → ℝ) :
    diskMean (fun p => ((∑ q ∈ S, c q * zernikeXY q.1 q.2 true p)
      - diskMean (fun p => ∑ q ∈ S, c q * zernikeXY q.1 q.2 true p)) ^ 2) = ∑ q ∈ S.erase (0, 0), c q ^ 2 := by
  rw [C109_mean S hS c, ← C109_mean_square (S.erase (0, 0)) (fun q hq => hS q (mem_of_mem_erase hq)) c]
  refine diskMean_congr fun p hp => ?_
  congr 1
  by_cases h0 : (0, 0) ∈ S
  · rw [if_pos h0, ← add_sum_erase S _ h0, piston_one p hp]; ring
  · rw [if_neg h0, erase_eq_of_notMem h0, sub_zero]

/-- C109: a wavefront determines its coefficients. -/
theorem C109_unique (S : Finset (ℤ × ℤ)) (hS : ∀ q ∈ S, Admissible q.1 q.2) (c c' : ℤ × ℤ → ℝ)
    (h : ∀ p, InDisk p → ∑ q ∈ S, c q * zernikeXY q.1 q.2 true p = ∑ q ∈ S, c' q * zernikeXY q.1 q.2 true p) :
    ∀ q ∈ S, c q = c' q := by
  intro q hq
  have h1 := C109_coefficient S hS c q.1 q.2 (hS q hq)
  have h2 := C109_coefficient S hS c' q.1 q.2 (hS q hq)
  rw [if_pos hq] at h1 h2
  rw [← h1, ← h2]
  exact diskMean_congr fun p hp => by rw [h p hp]

/-- C109 for Noll numbers: with coefficients `a j` for any distinct Noll numbers 1..120, the mean square of
the wavefront over the disk is the sum of the squares of the coefficients. -/
theorem C109_noll_rms (js : List ℕ) (hjs : ∀ j ∈ js, 1 ≤ j ∧ j ≤ 120) (hnd : js.Nodup) :
    ∃ nm : List (ℤ × ℤ), noll2degrees (js.map fun (j : ℕ) => (j : ℤ)) = .ok nm ∧ nm.length = js.length ∧
      ∀ a : ℕ → ℝ, diskMean (fun p => ((List.zipWith (fun j q => a j * zernikeXY q.1 q.2 true p) js nm).sum) ^ 2)
        = (js.map fun j => a j ^ 2).sum := by
  obtain ⟨D, h1, h2, h3⟩ := C22_noll_degrees_noll js hjs
  obtain ⟨L, h4, h5⟩ := C23_standard_numbering D h2
  rw [h3] at h4
  cases h4
  have hjD : js = D.map fun q => (nollStd q.1 q.2).toNat := by
    have := congrArg (List.map Int.toNat) h5
    rw [List.map_map, List.map_map] at this
    rw [← List.map_id js]
    calc List.map id js = List.map (Int.toNat ∘ fun (j : ℕ) => (j : ℤ)) js := by
          refine List.map_congr_left fun j _ => ?_
          simp
      _ = _ := this
  refine ⟨D, h1, by rw [hjD]; simp, fun a => ?_⟩
  have hD : D.Nodup := List.Nodup.of_map _ (hjD ▸ hnd)
  have e1 : ∀ p, (List.zipWith (fun j q => a j * zernikeXY q.1 q.2 true p) js D).sum
      = ∑ q ∈ D.toFinset, a (nollStd q.1 q.2).toNat * zernikeXY q.1 q.2 true p := by
    intro p
    rw [List.sum_toFinset _ hD]
    congr 1
    conv_lhs => rw [hjD, List.zipWith_map_left, List.zipWith_self]
  simp only [e1]
  rw [C109_mean_square D.toFinset (fun q hq => (h2 q (List.mem_toFinset.mp hq)).1)
    (fun q => a (nollStd q.1 q.2).toNat), List.sum_toFinset _ hD]
  conv_rhs => rw [hjD, List.map_map]
  rfl

/-- Non-vacuity of C109: one half of defocus and two units of vertical astigmatism on a piston of three have
mean 3 and variance 17/4. -/
example : diskMean (fun p => 3 * zernikeXY 0 0 true p + (1 / 2 * zernikeXY 2 0 true p + 2 * zernikeXY 2 2 true p)) = 3 ∧
    diskMean (fun p => (3 * zernikeXY 0 0 true p + (1 / 2 * zernikeXY 2 0 true p + 2 * zernikeXY 2 2 true p) - 3) ^ 2)
      = 17 / 4 := by
  have hS : ∀ q ∈ ({(0, 0), (2, 0), (2, 2)} : Finset (ℤ × ℤ)), Admissible q.1 q.2 := by decide
  set c : ℤ × ℤ → ℝ := fun q => if q = (0, 0) then 3 else if q = (2, 0) then 1 / 2 else 2 with hc
  have e : ∀ p, 3 * zernikeXY 0 0 true p + (1 / 2 * zernikeXY 2 0 true p + 2 * zernikeXY 2 2 true p)
      = ∑ q ∈ ({(0, 0), (2, 0), (2, 2)} : Finset (ℤ × ℤ)), c q * zernikeXY q.1 q.2 true p := by
    intro p
    rw [sum_insert (by decide), sum_insert (by decide), sum_singleton]
    simp [hc]
  have h1 := C109_mean _ hS c
  have h2 := C109_variance _ hS c
  have hc0 : c (0, 0) = 3 := by simp [hc]
  rw [h1, if_pos (by decide), hc0] at h2
  rw [if_pos (by decide), hc0] at h1
  constructor
  · simp only [e]; exact h1
  · simp only [e]; rw [h2, show (({(0, 0), (2, 0), (2, 2)} : Finset (ℤ × ℤ)).erase (0, 0)) = {(2, 0), (2, 2)} by decide,
      sum_insert (by decide), sum_singleton]
    simp [hc]; norm_num

/-! ## C110: completeness -/

/-- The pairs of degrees with `n ≤ N`. -/
noncomputable def modesUpTo (N : ℤ) : Finset (ℤ × ℤ) :=
  ((Finset.Icc 0 N) ×ˢ (Finset.Icc (-N) N)).filter fun q => Admissible q.1 q.2

theorem mem_modesUpTo {N : ℤ} {q : ℤ × ℤ} : q ∈ modesUpTo N ↔ Admissible q.1 q.2 ∧ q.1 ≤ N := by
  simp only [modesUpTo, mem_filter, mem_product, Finset.mem_Icc]
  constructor
  · rintro ⟨⟨⟨_, h1⟩, _⟩, h2⟩; exact ⟨h2, h1⟩
  · rintro ⟨h1, h2⟩
    have h3 := abs_le.mp h1.1
    have h4 := abs_nonneg q.2
    have h5 := h1.1
    exact ⟨⟨⟨by omega, h2⟩, ⟨by omega, by omega⟩⟩, h1⟩

/-- `f` is on the disk a combination of modes of degree at most `N`. -/
def Comb (N : ℤ) (f : ℝ × ℝ → ℝ) : Prop :=
  ∃ c : ℤ × ℤ → ℝ, ∀ p, InDisk p → f p = ∑ q ∈ modesUpTo N, c q * zernikeXY q.1 q.2 true p

theorem Comb.add {N : ℤ} {f g : ℝ × ℝ → ℝ} (hf : Comb N f) (hg : Comb N g) : Comb N fun p => f p + g p := by
  obtain ⟨c, hc⟩ := hf
  obtain ⟨d, hd⟩ := hg
  refine ⟨fun q => c q + d q, fun p hp => ?_⟩
  simp only []
  rw [hc p hp, hd p hp, ← sum_add_distrib]
  exact sum_congr rfl fun q _ => by ring

theorem Comb.smul {N : ℤ} {f : ℝ × ℝ → ℝ} (a : ℝ) (hf : Comb N f) : Comb N fun p => a * f p := by
  obtain ⟨c, hc⟩ := hf
  refine ⟨fun q => a * c q, fun p hp => ?_⟩
  simp only []
  rw [hc p hp, mul_sum]
  exact sum_congr rfl fun q _ => by ring

theorem Comb.congr {N : ℤ} {f g : ℝ × ℝ → ℝ} (hf : Comb N f) (h : ∀ p, InDisk p → g p = f p) : Comb N g := by
  obtain ⟨c, hc⟩ := hf
  exact ⟨c, fun p hp => by rw [h p hp, hc p hp]⟩

theorem Comb.zero (N : ℤ) : Comb N fun _ => 0 := ⟨fun _ => 0, fun p _ => by simp⟩

theorem Comb.sum {N : ℤ} {ι : Type} (S : Finset ι) (f : ι → ℝ × ℝ → ℝ) (hf : ∀ i ∈ S, Comb N (f i)) :
    Comb N fun p => ∑ i ∈ S, f i p := by
  classical
  induction S using Finset.induction_on with
  | empty => simpa using Comb.zero N
  | insert a S ha ih =>
    refine ((hf a (mem_insert_self a S)).add (ih fun i hi => hf i (mem_insert_of_mem hi))).congr fun p _ => ?_
    rw [sum_insert ha]

theorem Comb.mode {N : ℤ} {q : ℤ × ℤ} (hq : q ∈ modesUpTo N) : Comb N (zernikeXY q.1 q.2 true) := by
  refine ⟨fun q' => if q' = q then 1 else 0, fun p _ => ?_⟩
  simp only [ite_mul, one_mul, zero_mul]
  rw [sum_ite_eq', if_pos hq]

/-- `r^(2l)` times a harmonic. -/
theorem Comb.harm {N : ℤ} (m : ℤ) (l : ℕ) (h : |m| + 2 * l ≤ N) :
    Comb N fun p => harm m p * (p.1 ^ 2 + p.2 ^ 2) ^ l := by
  induction l using Nat.strong_induction_on with
  | _ l ih =>
    have hadm : Admissible (|m| + 2 * l) m := admissible_iff.mpr ⟨l, rfl⟩
    have hmode : Comb N (zernikeXY (|m| + 2 * l) m true) :=
      Comb.mode (q := (|m| + 2 * l, m)) (mem_modesUpTo.mpr ⟨hadm, h⟩)
    set a : ℕ → ℝ := fun s => (-1 : ℝ) ^ s * (l.choose s : ℝ) * ((m.natAbs + l + s).choose l : ℝ) with ha
    have hlow : Comb N fun p => ∑ s ∈ range l, a s * (PyOTF.harm m p * (p.1 ^ 2 + p.2 ^ 2) ^ s) :=
      Comb.sum (range l) _ fun s hs => (ih s (mem_range.mp hs) (by have := mem_range.mp hs; omega)).smul (a s)
    have hal : a l ≠ 0 := by
      rw [ha]
      simp only []
      refine mul_ne_zero (mul_ne_zero (pow_ne_zero _ (by norm_num)) (by simp)) ?_
      exact_mod_cast (Nat.choose_pos (by omega)).ne'
    set M : ℝ := modePeak (|m| + 2 * l) m true * (-1) ^ (m.natAbs + l) with hM
    have hM0 : M ≠ 0 := by
      rw [hM]
      refine mul_ne_zero ?_ (pow_ne_zero _ (by norm_num))
      have h0 : (0 : ℝ) ≤ ((|m| + 2 * l : ℤ) : ℝ) := by
        exact_mod_cast (by have := abs_nonneg m; omega : (0 : ℤ) ≤ |m| + 2 * l)
      simp only [modePeak, if_true]
      split_ifs
      · exact (Real.sqrt_pos.mpr (by linarith)).ne'
      · exact (Real.sqrt_pos.mpr (by linarith)).ne'
    refine ((hmode.smul (1 / (M * a l))).add (hlow.smul (-(1 / a l)))).congr fun p hp => ?_
    rw [zernikeXY_cart rfl true p, if_pos hp]
    change _ = 1 / (M * a l) * (modePeak (|m| + 2 * l) m true * ((-1) ^ (m.natAbs + l) * (PyOTF.harm m p *
      ∑ s ∈ range (l + 1), a s * (p.1 ^ 2 + p.2 ^ 2) ^ s))) + _
    rw [show modePeak (|m| + 2 * l) m true * ((-1) ^ (m.natAbs + l) * (PyOTF.harm m p *
        ∑ s ∈ range (l + 1), a s * (p.1 ^ 2 + p.2 ^ 2) ^ s))
        = M * (PyOTF.harm m p * ∑ s ∈ range (l + 1), a s * (p.1 ^ 2 + p.2 ^ 2) ^ s) by rw [hM]; ring]
    rw [sum_range_succ]
    have e : ∑ s ∈ range l, a s * (PyOTF.harm m p * (p.1 ^ 2 + p.2 ^ 2) ^ s)
        = PyOTF.harm m p * ∑ s ∈ range l, a s * (p.1 ^ 2 + p.2 ^ 2) ^ s := by
      rw [mul_sum]; exact sum_congr rfl fun s _ => by ring
    rw [e]
    field_simp
    ring

/-- Polynomials in Cartesian coordinates, on the whole plane, spanned by `r^(2l)` times harmonics. -/
inductive HSpan : ℤ → (ℝ × ℝ → ℝ) → Prop
  | base {N : ℤ} (m : ℤ) (l : ℕ) (h : |m| + 2 * l ≤ N) : HSpan N fun p => PyOTF.harm m p * (p.1 ^ 2 + p.2 ^ 2) ^ l
  | zero {N : ℤ} : HSpan N fun _ => 0
  | add {N : ℤ} {f g : ℝ × ℝ → ℝ} : HSpan N f → HSpan N g → HSpan N fun p => f p + g p
  | smul {N : ℤ} {f : ℝ × ℝ → ℝ} (a : ℝ) : HSpan N f → HSpan N fun p => a * f p

theorem HSpan.comb {N : ℤ} {f : ℝ × ℝ → ℝ} (h : HSpan N f) : Comb N f := by
  induction h with
  | base m l h => exact Comb.harm m l h
  | zero => exact Comb.zero _
  | add _ _ h1 h2 => exact h1.add h2
  | smul a _ h => exact h.smul a

theorem HSpan.mono {N N' : ℤ} (hN : N ≤ N') {f : ℝ × ℝ → ℝ} (h : HSpan N f) : HSpan N' f := by
  induction h with
  | base m l h => exact .base m l (by omega)
  | zero => exact .zero
  | add _ _ h1 h2 => exact h1.add h2
  | smul a _ h => exact h.smul a

theorem harm_cos (m : ℕ) (p : ℝ × ℝ) : PyOTF.harm (m : ℤ) p = ((⟨p.1, p.2⟩ : ℂ) ^ m).re := by
  rw [harm, if_neg (by omega)]; simp

theorem harm_sin (m : ℕ) (hm : 0 < m) (p : ℝ × ℝ) : PyOTF.harm (-(m : ℤ)) p = ((⟨p.1, p.2⟩ : ℂ) ^ m).im := by
  rw [harm, if_pos (by omega)]; simp

/-- Base functions with a natural order, including the zero function `Im z^0`. -/
theorem HSpan.re {N : ℤ} (m l : ℕ) (h : (m : ℤ) + 2 * l ≤ N) :
    HSpan N fun p => ((⟨p.1, p.2⟩ : ℂ) ^ m).re * (p.1 ^ 2 + p.2 ^ 2) ^ l := by
  have := HSpan.base (N := N) (m : ℤ) l (by simpa using h)
  simpa only [harm_cos] using this

theorem HSpan.im {N : ℤ} (m l : ℕ) (h : (m : ℤ) + 2 * l ≤ N) :
    HSpan N fun p => ((⟨p.1, p.2⟩ : ℂ) ^ m).im * (p.1 ^ 2 + p.2 ^ 2) ^ l := by
  rcases Nat.eq_zero_or_pos m with rfl | hm
  · simpa using HSpan.zero (N := N)
  · have := HSpan.base (N := N) (-(m : ℤ)) l (by simpa using h)
    simpa only [harm_sin m hm] using this

theorem zpow_step (x y : ℝ) (m : ℕ) :
    x * ((⟨x, y⟩ : ℂ) ^ (m + 1)).re
      = 1 / 2 * ((⟨x, y⟩ : ℂ) ^ (m + 2)).re + 1 / 2 * (((⟨x, y⟩ : ℂ) ^ m).re * (x ^ 2 + y ^ 2)) ∧
    x * ((⟨x, y⟩ : ℂ) ^ (m + 1)).im
      = 1 / 2 * ((⟨x, y⟩ : ℂ) ^ (m + 2)).im + 1 / 2 * (((⟨x, y⟩ : ℂ) ^ m).im * (x ^ 2 + y ^ 2)) ∧
    y * ((⟨x, y⟩ : ℂ) ^ (m + 1)).re
      = 1 / 2 * ((⟨x, y⟩ : ℂ) ^ (m + 2)).im + -(1 / 2) * (((⟨x, y⟩ : ℂ) ^ m).im * (x ^ 2 + y ^ 2)) ∧
    y * ((⟨x, y⟩ : ℂ) ^ (m + 1)).im
      = -(1 / 2) * ((⟨x, y⟩ : ℂ) ^ (m + 2)).re + 1 / 2 * (((⟨x, y⟩ : ℂ) ^ m).re * (x ^ 2 + y ^ 2)) := by
  simp only [pow_succ, Complex.mul_re, Complex.mul_im]
  refine ⟨?_, ?_, ?_, ?_⟩ <;> ring

theorem HSpan.mulX {N : ℤ} {f : ℝ × ℝ → ℝ} (h : HSpan N f) : HSpan (N + 1) fun p => p.1 * f p := by
  induction h with
  | base m l h =>
    have hab : |m| = (m.natAbs : ℤ) := Int.abs_eq_natAbs m
    rw [hab] at h
    by_cases hm : m < 0
    · obtain ⟨k, hk⟩ := Nat.exists_eq_succ_of_ne_zero (n := m.natAbs) (by omega)
      have e : (fun p : ℝ × ℝ => p.1 * (PyOTF.harm m p * (p.1 ^ 2 + p.2 ^ 2) ^ l)) = fun p : ℝ × ℝ =>
          1 / 2 * (((⟨p.1, p.2⟩ : ℂ) ^ (k + 2)).im * (p.1 ^ 2 + p.2 ^ 2) ^ l) +
            1 / 2 * (((⟨p.1, p.2⟩ : ℂ) ^ k).im * (p.1 ^ 2 + p.2 ^ 2) ^ (l + 1)) := by
        funext p
        rw [harm, if_pos hm, hk, pow_succ (p.1 ^ 2 + p.2 ^ 2)]
        linear_combination (p.1 ^ 2 + p.2 ^ 2) ^ l * (zpow_step p.1 p.2 k).2.1
      rw [e]
      exact ((HSpan.im (k + 2) l (by push_cast; omega)).smul _).add ((HSpan.im k (l + 1) (by push_cast; omega)).smul _)
    · rcases Nat.eq_zero_or_pos m.natAbs with h0 | h0
      · have e : (fun p : ℝ × ℝ => p.1 * (PyOTF.harm m p * (p.1 ^ 2 + p.2 ^ 2) ^ l)) = fun p : ℝ × ℝ =>
            ((⟨p.1, p.2⟩ : ℂ) ^ 1).re * (p.1 ^ 2 + p.2 ^ 2) ^ l := by
          funext p
          rw [harm, if_neg hm, h0]
          simp
        rw [e]
        exact HSpan.re 1 l (by push_cast; omega)
      · obtain ⟨k, hk⟩ := Nat.exists_eq_succ_of_ne_zero (n := m.natAbs) (by omega)
        have e : (fun p : ℝ × ℝ => p.1 * (PyOTF.harm m p * (p.1 ^ 2 + p.2 ^ 2) ^ l)) = fun p : ℝ × ℝ =>
            1 / 2 * (((⟨p.1, p.2⟩ : ℂ) ^ (k + 2)).re * (p.1 ^ 2 + p.2 ^ 2) ^ l) +
              1 / 2 * (((⟨p.1, p.2⟩ : ℂ) ^ k).re * (p.1 ^ 2 + p.2 ^ 2) ^ (l + 1)) := by
          funext p
          rw [harm, if_neg hm, hk, pow_succ (p.1 ^ 2 + p.2 ^ 2)]
          linear_combination (p.1 ^ 2 + p.2 ^ 2) ^ l * (zpow_step p.1 p.2 k).1
        rw [e]
        exact ((HSpan.re (k + 2) l (by push_cast; omega)).smul _).add ((HSpan.re k (l + 1) (by push_cast; omega)).smul _)
  | zero => simpa using HSpan.zero
  | add _ _ h1 h2 => simpa only [mul_add] using h1.add h2
  | smul a _ h => simpa only [mul_left_comm] using h.smul a

theorem HSpan.mulY {N : ℤ} {f : ℝ × ℝ → ℝ} (h : HSpan N f) : HSpan (N + 1) fun p => p.2 * f p := by
  induction h with
  | base m l h =>
    have hab : |m| = (m.natAbs : ℤ) := Int.abs_eq_natAbs m
    rw [hab] at h
    by_cases hm : m < 0
    · obtain ⟨k, hk⟩ := Nat.exists_eq_succ_of_ne_zero (n := m.natAbs) (by omega)
      have e : (fun p : ℝ × ℝ => p.2 * (PyOTF.harm m p * (p.1 ^ 2 + p.2 ^ 2) ^ l)) = fun p : ℝ × ℝ =>
          -(1 / 2) * (((⟨p.1, p.2⟩ : ℂ) ^ (k + 2)).re * (p.1 ^ 2 + p.2 ^ 2) ^ l) +
            1 / 2 * (((⟨p.1, p.2⟩ : ℂ) ^ k).re * (p.1 ^ 2 + p.2 ^ 2) ^ (l + 1)) := by
        funext p
        rw [harm, if_pos hm, hk, pow_succ (p.1 ^ 2 + p.2 ^ 2)]
        linear_combination (p.1 ^ 2 + p.2 ^ 2) ^ l * (zpow_step p.1 p.2 k).2.2.2
      rw [e]
      exact ((HSpan.re (k + 2) l (by push_cast; omega)).smul _).add ((HSpan.re k (l + 1) (by push_cast; omega)).smul _)
    · rcases Nat.eq_zero_or_pos m.natAbs with h0 | h0
      · have e : (fun p : ℝ × ℝ => p.2 * (PyOTF.harm m p * (p.1 ^ 2 + p.2 ^ 2) ^ l)) = fun p : ℝ × ℝ =>
            ((⟨p.1, p.2⟩ : ℂ) ^ 1).im * (p.1 ^ 2 + p.2 ^ 2) ^ l := by
          funext p
          rw [harm, if_neg hm, h0]
          simp
        rw [e]
        exact HSpan.im 1 l (by push_cast; omega)
      · obtain ⟨k, hk⟩ := Nat.exists_eq_succ_of_ne_zero (n := m.natAbs) (by omega)
        have e : (fun p : ℝ × ℝ => p.2 * (PyOTF.harm m p * (p.1 ^ 2 + p.2 ^ 2) ^ l)) = fun p : ℝ × ℝ =>
            1 / 2 * (((⟨p.1, p.2⟩ : ℂ) ^ (k + 2)).im * (p.1 ^ 2 + p.2 ^ 2) ^ l) +
              -(1 / 2) * (((⟨p.1, p.2⟩ : ℂ) ^ k).im * (p.1 ^ 2 + p.2 ^ 2) ^ (l + 1)) := by
          funext p
          rw [harm, if_neg hm, hk, pow_succ (p.1 ^ 2 + p.2 ^ 2)]
          linear_combination (p.1 ^ 2 + p.2 ^ 2) ^ l * (zpow_step p.1 p.2 k).2.2.1
        rw [e]
        exact ((HSpan.im (k + 2) l (by push_cast; omega)).smul _).add ((HSpan.im k (l + 1) (by push_cast; omega)).smul _)
  | zero => simpa using HSpan.zero
  | add _ _ h1 h2 => simpa only [mul_add] using h1.add h2
  | smul a _ h => simpa only [mul_left_comm] using h.smul a

theorem HSpan.one : HSpan 0 fun _ => 1 := by
  have := HSpan.re (N := 0) 0 0 (by simp)
  simpa using this

theorem HSpan.monomial (a b : ℕ) : HSpan ((a + b : ℕ) : ℤ) fun p => p.1 ^ a * p.2 ^ b := by
  induction a with
  | zero =>
    induction b with
    | zero => simpa using HSpan.one
    | succ b ih =>
      have := ih.mulY
      have e : (fun p : ℝ × ℝ => p.1 ^ 0 * p.2 ^ (b + 1)) = fun p => p.2 * (p.1 ^ 0 * p.2 ^ b) := by
        funext p; ring
      rw [e]
      exact this.mono (by push_cast; omega)
  | succ a ih =>
    have := ih.mulX
    have e : (fun p : ℝ × ℝ => p.1 ^ (a + 1) * p.2 ^ b) = fun p => p.1 * (p.1 ^ a * p.2 ^ b) := by
      funext p; ring
    rw [e]
    exact this.mono (by push_cast; omega)

/-- The value of a polynomial in two variables at a point of the plane. -/
noncomputable def polyAt (P : MvPolynomial (Fin 2) ℝ) (p : ℝ × ℝ) : ℝ := MvPolynomial.eval ![p.1, p.2] P

theorem poly_comb (P : MvPolynomial (Fin 2) ℝ) (N : ℕ) (h : P.totalDegree ≤ N) : Comb N (polyAt P) := by
  have e : polyAt P = fun p => ∑ d ∈ P.support, P.coeff d * (p.1 ^ d 0 * p.2 ^ d 1) := by
    funext p
    rw [polyAt, MvPolynomial.eval_eq']
    refine sum_congr rfl fun d _ => ?_
    rw [Fin.prod_univ_two]
    simp
  rw [e]
  refine Comb.sum P.support _ fun d hd => Comb.smul _ (((HSpan.monomial (d 0) (d 1)).mono ?_).comb)
  have h1 := (MvPolynomial.le_totalDegree hd).trans h
  have h2 : (d.sum fun _ e => e) = d 0 + d 1 := by
    rw [Finsupp.sum_fintype _ _ (fun _ => rfl), Fin.sum_univ_two]
  rw [h2] at h1
  exact_mod_cast h1

/-- C110: on the unit disk every polynomial in `x`, `y` of degree at most `N` is the sum of the modes with
`n ≤ N`, each multiplied by the mean over the disk of the polynomial times that mode. -/
theorem C110_expansion (P : MvPolynomial (Fin 2) ℝ) (N : ℕ) (h : P.totalDegree ≤ N) (p : ℝ × ℝ)
    (hp : p.1 ^ 2 + p.2 ^ 2 ≤ 1) :
    MvPolynomial.eval ![p.1, p.2] P = ∑ q ∈ modesUpTo N,
      diskMean (fun p' => MvPolynomial.eval ![p'.1, p'.2] P * zernikeXY q.1 q.2 true p') *
        zernikeXY q.1 q.2 true p := by
  obtain ⟨c, hc⟩ := poly_comb P N h
  have hS : ∀ q ∈ modesUpTo (N : ℤ), Admissible q.1 q.2 := fun q hq => (mem_modesUpTo.mp hq).1
  refine (hc p hp).trans (sum_congr rfl fun q hq => ?_)
  congr 1
  have h1 := C109_coefficient _ hS c q.1 q.2 (hS q hq)
  rw [if_pos hq] at h1
  exact h1.symm.trans (diskMean_congr fun p' hp' => by rw [← hc p' hp']; rfl)

/-- C110: the coefficients are unique. -/
theorem C110_coefficients_unique (P : MvPolynomial (Fin 2) ℝ) (N : ℕ) (c : ℤ × ℤ → ℝ)
    (h : ∀ p : ℝ × ℝ, p.1 ^ 2 + p.2 ^ 2 ≤ 1 →
      MvPolynomial.eval ![p.1, p.2] P = ∑ q ∈ modesUpTo N, c q * zernikeXY q.1 q.2 true p) :
    ∀ q ∈ modesUpTo N,
      c q = diskMean (fun p' => MvPolynomial.eval ![p'.1, p'.2] P * zernikeXY q.1 q.2 true p') := by
  intro q hq
  have hS : ∀ q ∈ modesUpTo (N : ℤ), Admissible q.1 q.2 := fun q hq => (mem_modesUpTo.mp hq).1
  have h1 := C109_coefficient _ hS c q.1 q.2 (hS q hq)
  rw [if_pos hq] at h1
  exact h1.symm.trans (diskMean_congr fun p' hp' => by rw [← h p' hp'])

theorem modesUpTo_succ (N : ℕ) : modesUpTo ((N + 1 : ℕ) : ℤ) = modesUpTo N ∪
    (range (N + 2)).image fun k : ℕ => (((N + 1 : ℕ) : ℤ), -((N + 1 : ℕ) : ℤ) + 2 * (k : ℤ)) := by
  ext ⟨n, m⟩
  simp only [mem_union, mem_modesUpTo, mem_image, mem_range, Prod.mk.injEq]
  constructor
  · rintro ⟨h1, h2⟩
    by_cases hn : n ≤ N
    · exact Or.inl ⟨h1, hn⟩
    · right
      have h3 := abs_le.mp h1.1
      have h4 := h1.2
      exact ⟨((m + n) / 2).toNat, by omega, by omega, by omega⟩
  · rintro (⟨h1, h2⟩ | ⟨k, h1, h2, h3⟩)
    · exact ⟨h1, by push_cast; omega⟩
    · refine ⟨⟨abs_le.mpr ⟨by omega, by omega⟩, by omega⟩, by omega⟩

/-- C110: there are `(N+1)(N+2)/2` modes with `n ≤ N`. -/
theorem C110_count (N : ℕ) : (modesUpTo N).card = (N + 1) * (N + 2) / 2 := by
  have : 2 * (modesUpTo N).card = (N + 1) * (N + 2) := by
    induction N with
    | zero => decide +kernel
    | succ N ih =>
      rw [modesUpTo_succ, card_union_of_disjoint, card_image_of_injective, card_range]
      · linarith
      · intro a b hab
        simp only [Prod.mk.injEq] at hab
        omega
      · rw [Finset.disjoint_left]
        intro q hq hq'
        obtain ⟨k, _, rfl⟩ := mem_image.mp hq'
        have := (mem_modesUpTo.mp hq).2
        simp only at this
        omega
  omega

/-- `f` is a polynomial of degree at most `N`. -/
def IsPoly (N : ℕ) (f : ℝ × ℝ → ℝ) : Prop :=
  ∃ P : MvPolynomial (Fin 2) ℝ, P.totalDegree ≤ N ∧ ∀ p : ℝ × ℝ, f p = MvPolynomial.eval ![p.1, p.2] P

theorem IsPoly.add {N : ℕ} {f g : ℝ × ℝ → ℝ} (hf : IsPoly N f) (hg : IsPoly N g) : IsPoly N fun p => f p + g p := by
  obtain ⟨P, h1, h2⟩ := hf
  obtain ⟨Q, h3, h4⟩ := hg
  exact ⟨P + Q, (MvPolynomial.totalDegree_add P Q).trans (max_le h1 h3), fun p => by simp [h2, h4]⟩

theorem IsPoly.mul {N M : ℕ} {f g : ℝ × ℝ → ℝ} (hf : IsPoly N f) (hg : IsPoly M g) :
    IsPoly (N + M) fun p => f p * g p := by
  obtain ⟨P, h1, h2⟩ := hf
  obtain ⟨Q, h3, h4⟩ := hg
  exact ⟨P * Q, (MvPolynomial.totalDegree_mul P Q).trans (add_le_add h1 h3), fun p => by simp [h2, h4]⟩

theorem IsPoly.const (c : ℝ) : IsPoly 0 fun _ => c := ⟨MvPolynomial.C c, by simp, fun p => by simp⟩

theorem IsPoly.x : IsPoly 1 fun p => p.1 := ⟨MvPolynomial.X 0, by simp, fun p => by simp⟩

theorem IsPoly.y : IsPoly 1 fun p => p.2 := ⟨MvPolynomial.X 1, by simp, fun p => by simp⟩

theorem IsPoly.mono {N M : ℕ} (h : N ≤ M) {f : ℝ × ℝ → ℝ} (hf : IsPoly N f) : IsPoly M f := by
  obtain ⟨P, h1, h2⟩ := hf
  exact ⟨P, h1.trans h, h2⟩

theorem IsPoly.smul {N : ℕ} (c : ℝ) {f : ℝ × ℝ → ℝ} (hf : IsPoly N f) : IsPoly N fun p => c * f p :=
  ((IsPoly.const c).mul hf).mono (by omega)

theorem IsPoly.sum {N : ℕ} {ι : Type} (S : Finset ι) (f : ι → ℝ × ℝ → ℝ) (hf : ∀ i ∈ S, IsPoly N (f i)) :
    IsPoly N fun p => ∑ i ∈ S, f i p := by
  classical
  induction S using Finset.induction_on with
  | empty => simpa using (IsPoly.const 0).mono (Nat.zero_le N)
  | insert a S ha ih =>
    simp only [sum_insert ha]
    exact (hf a (mem_insert_self a S)).add (ih fun i hi => hf i (mem_insert_of_mem hi))

theorem IsPoly.zpow (m : ℕ) : IsPoly m (fun p => ((⟨p.1, p.2⟩ : ℂ) ^ m).re) ∧
    IsPoly m (fun p => ((⟨p.1, p.2⟩ : ℂ) ^ m).im) := by
  induction m with
  | zero =>
    simp only [pow_zero, Complex.one_re, Complex.one_im]
    exact ⟨IsPoly.const 1, IsPoly.const 0⟩
  | succ m ih =>
    simp only [pow_succ, Complex.mul_re, Complex.mul_im]
    refine ⟨?_, ?_⟩
    · have := (ih.1.mul IsPoly.x).add ((ih.2.mul IsPoly.y).smul (-1))
      simpa only [neg_mul, one_mul, ← sub_eq_add_neg] using this
    · exact (ih.1.mul IsPoly.y).add (ih.2.mul IsPoly.x)

theorem IsPoly.rsq (l : ℕ) : IsPoly (2 * l) fun p => (p.1 ^ 2 + p.2 ^ 2) ^ l := by
  induction l with
  | zero => simpa using IsPoly.const 1
  | succ l ih =>
    have := ih.mul ((IsPoly.x.mul IsPoly.x).add (IsPoly.y.mul IsPoly.y))
    simpa only [pow_succ, pow_zero, one_mul, mul_add, mul_one] using this

/-- C110: conversely every mode is on the disk a polynomial in `x`, `y` of degree at most `n`. -/
theorem C110_mode_is_polynomial (n m : ℤ) (h : Admissible n m) (norm : Bool) :
    ∃ P : MvPolynomial (Fin 2) ℝ, (P.totalDegree : ℤ) ≤ n ∧
      ∀ p : ℝ × ℝ, p.1 ^ 2 + p.2 ^ 2 ≤ 1 → zernikeXY n m norm p = MvPolynomial.eval ![p.1, p.2] P := by
  classical
  obtain ⟨k, hk⟩ := admissible_iff.mp h
  have hharm : IsPoly m.natAbs (harm m) := by
    unfold harm
    by_cases hm : m < 0
    · simp only [hm, if_true]; exact (IsPoly.zpow _).2
    · simp only [hm, if_false]; exact (IsPoly.zpow _).1
  have hsum : IsPoly (2 * k) fun p => ∑ s ∈ range (k + 1), (-1 : ℝ) ^ s * (k.choose s : ℝ) *
      ((m.natAbs + k + s).choose k : ℝ) * (p.1 ^ 2 + p.2 ^ 2) ^ s :=
    IsPoly.sum _ _ fun s hs => ((IsPoly.rsq s).smul _).mono (by have := mem_range.mp hs; omega)
  obtain ⟨P, h1, h2⟩ := ((hharm.mul hsum).smul ((-1) ^ (m.natAbs + k))).smul (modePeak n m norm)
  refine ⟨P, ?_, fun p hp => ?_⟩
  · rw [hk, Int.abs_eq_natAbs]; exact_mod_cast h1
  · rw [zernikeXY_cart hk norm p, if_pos (show InDisk p from hp), ← h2 p]

/-- C110: for `N ≤ 14` these modes are those with the first `(N+1)(N+2)/2` Noll numbers: on the disk every
polynomial of degree at most `N` is a combination of them. -/
theorem C110_noll (P : MvPolynomial (Fin 2) ℝ) (N : ℕ) (hN : N ≤ 14) (h : P.totalDegree ≤ N) :
    ∃ nm : List (ℤ × ℤ),
      noll2degrees ((List.range ((N + 1) * (N + 2) / 2)).map fun (j : ℕ) => ((j : ℤ) + 1)) = .ok nm ∧
      ∀ p : ℝ × ℝ, p.1 ^ 2 + p.2 ^ 2 ≤ 1 → MvPolynomial.eval ![p.1, p.2] P = (nm.map fun q =>
        diskMean (fun p' => MvPolynomial.eval ![p'.1, p'.2] P * zernikeXY q.1 q.2 true p') *
          zernikeXY q.1 q.2 true p).sum := by
  set J := (N + 1) * (N + 2) / 2 with hJ
  have hJ120 : J ≤ 120 := by
    rw [hJ]
    have : (N + 1) * (N + 2) ≤ 15 * 16 := Nat.mul_le_mul (by omega) (by omega)
    omega
  obtain ⟨D, h1, h2, h3⟩ := C22_noll_degrees_noll ((List.range J).map fun j => j + 1) (by
    intro j hj
    obtain ⟨i, hi, rfl⟩ := List.mem_map.mp hj
    have := List.mem_range.mp hi
    omega)
  obtain ⟨L, h4, h5⟩ := C23_standard_numbering D h2
  rw [h3] at h4
  cases h4
  rw [List.map_map] at h1
  refine ⟨D, ?_, ?_⟩
  · have e : (fun (j : ℕ) => ((j : ℤ) + 1)) = (fun (j : ℕ) => (j : ℤ)) ∘ fun j => j + 1 := by
      funext j; simp
    rw [e]; exact h1
  -- the list is a duplicate-free enumeration of the modes
  have hnd : D.Nodup := by
    refine List.Nodup.of_map (fun p => nollStd p.1 p.2) ?_
    rw [← h5, List.map_map]
    refine List.Nodup.map ?_ List.nodup_range
    intro a b hab
    simp only [Function.comp_apply] at hab
    omega
  have hsub : D.toFinset ⊆ modesUpTo N := by
    intro q hq
    have hq' := List.mem_toFinset.mp hq
    refine mem_modesUpTo.mpr ⟨(h2 q hq').1, ?_⟩
    have hn : nollStd q.1 q.2 ∈ D.map fun p => nollStd p.1 p.2 := List.mem_map.mpr ⟨q, hq', rfl⟩
    rw [← h5, List.map_map] at hn
    obtain ⟨j, hj, hjn⟩ := List.mem_map.mp hn
    have hjJ := List.mem_range.mp hj
    have hlt := (C23_ordering (h2 q hq').1 (h2 q hq').2).2.2.1
    simp only [Function.comp_apply] at hjn
    by_contra hc
    push Not at hc
    have h14 := (h2 q hq').2
    have hJ' : ((N : ℤ) + 1) * ((N : ℤ) + 2) / 2 = (J : ℤ) := by rw [hJ]; push_cast; rfl
    have : ((N : ℤ) + 1) * ((N : ℤ) + 2) ≤ q.1 * (q.1 + 1) :=
      mul_le_mul (by omega) (by omega) (by omega) (by omega)
    have := Int.ediv_le_ediv (a := ((N : ℤ) + 1) * ((N : ℤ) + 2)) (c := 2) (by norm_num) this
    push_cast at hjn
    omega
  have hlen : D.length = J := by
    have := congrArg List.length h5
    simpa using this.symm
  have hD : D.toFinset = modesUpTo N := by
    refine eq_of_subset_of_card_le hsub ?_
    rw [C110_count, List.toFinset_card_of_nodup hnd, hlen]
  intro p hp
  rw [C110_expansion P N h p hp, ← hD, List.sum_toFinset _ hnd]

/-- Non-vacuity of C110: `x y` has degree two; being `√6/12` of oblique astigmatism, that coefficient is
recovered as a mean over the disk. -/
example : diskMean (fun p => p.1 * p.2 * zernikeXY 2 (-2) true p) = 1 / (2 * Real.sqrt 6) := by
  have h : ∀ p : ℝ × ℝ, p.1 ^ 2 + p.2 ^ 2 ≤ 1 →
      p.1 * p.2 = ∑ q ∈ ({(2, -2)} : Finset (ℤ × ℤ)), (1 / (2 * Real.sqrt 6)) * zernikeXY q.1 q.2 true p := by
    intro p hp
    have h6 : Real.sqrt 6 ≠ 0 := (Real.sqrt_pos.mpr (by norm_num)).ne'
    rw [sum_singleton, zernikeXY_cart (k := 0) (by decide) true p, if_pos (show InDisk p from hp)]
    simp only [modePeak, harm]
    have him : ((⟨p.1, p.2⟩ : ℂ) ^ 2).im = 2 * (p.1 * p.2) := by rw [pow_two, Complex.mul_im]; ring
    norm_num
    rw [him]
    field_simp
  have h1 := C109_coefficient {(2, -2)} (by decide) (fun _ => 1 / (2 * Real.sqrt 6)) 2 (-2) (by decide)
  rw [if_pos (by simp)] at h1
  rw [← h1]
  exact diskMean_congr fun p hp => by rw [h p hp]

end PyOTF
