import Verif.Lemmas.Riemann
import Mathlib.MeasureTheory.Group.Integral
import Mathlib.MeasureTheory.Measure.Lebesgue.Basic

/-!
# Lattice sums of functions that converge only on average
-/

open MeasureTheory Filter Topology

namespace PyOTF

/-- A lattice sum whose averages over `H` consecutive points converge: times the area of a cell, it tends to the integral of the averages. -/
theorem tendsto_averaged_sum (G : ℕ → ℤ × ℤ → ℂ) (f : ℝ × ℝ → ℂ) (C R : ℝ) (L : ℕ → ℝ) (hL : Tendsto L atTop atTop) (H : ℕ → ℕ)
    (hH : ∀ᶠ n in atTop, 0 < H n ∧ (H n : ℝ) ≤ L n) (hb : ∀ᶠ n in atTop, ∀ p, ‖G n p‖ ≤ C)
    (hs : ∀ᶠ n in atTop, ∀ p : ℤ × ℤ, R * L n < |(p.1 : ℝ)| ∨ R * L n < |(p.2 : ℝ)| → G n p = 0)
    (hlim : ∀ᵐ u : ℝ × ℝ, Tendsto (fun n => (∑ t ∈ Finset.range (H n), G n (⌊L n * u.1⌋, ⌊L n * u.2⌋ + t)) / (H n : ℂ)) atTop (𝓝 (f u)))
    (S : ℕ → Finset (ℤ × ℤ)) (hS : ∀ n, ∀ p ∉ S n, G n p = 0) :
    Tendsto (fun n => (∑ p ∈ S n, G n p) / (L n : ℂ) ^ 2) atTop (𝓝 (∫ u, f u)) := by
  set F : ℕ → ℝ × ℝ → ℂ := fun n u => ∑ p ∈ S n, (cell (L n) p).indicator (fun _ => G n p) u with hF
  have val : ∀ n, 0 < L n → ∀ u, F n u = G n (⌊L n * u.1⌋, ⌊L n * u.2⌋) := by
    intro n hn u
    by_cases h : ((⌊L n * u.1⌋, ⌊L n * u.2⌋) : ℤ × ℤ) ∈ S n
    · rw [hF]
      simp only
      rw [Finset.sum_eq_single_of_mem _ h]
      · rw [Set.indicator_of_mem ((mem_cell hn _ u).mpr rfl)]
      · intro p _ hp
        exact Set.indicator_of_notMem (fun hu => hp ((mem_cell hn p u).mp hu)) _
    · rw [hS n _ h, hF]
      refine Finset.sum_eq_zero fun p hp => Set.indicator_of_notMem (fun hu => h ?_) _
      rw [← (mem_cell hn p u).mp hu]; exact hp
  have integ : ∀ n, 0 < L n → ∀ p, Integrable ((cell (L n) p).indicator (fun _ => G n p)) := by
    intro n hn p
    refine (integrable_indicator_iff (cell_measurable _ _)).mpr ?_
    exact integrableOn_const (by rw [cell_volume hn]; exact ENNReal.ofReal_ne_top)
  have Finteg : ∀ n, 0 < L n → Integrable (F n) := fun n hn => integrable_finsetSum _ fun p _ => integ n hn p
  have int : ∀ n, 0 < L n → ∫ u, F n u = (∑ p ∈ S n, G n p) / (L n : ℂ) ^ 2 := by
    intro n hn
    rw [hF]
    simp only
    rw [integral_finsetSum _ fun p _ => integ n hn p, Finset.sum_div]
    refine Finset.sum_congr rfl fun p _ => ?_
    rw [integral_indicator (cell_measurable _ _), setIntegral_const, Measure.real, cell_volume hn, ENNReal.toReal_ofReal (by positivity),
      Complex.real_smul]
    push_cast; field_simp
  have inv : (volume : Measure (ℝ × ℝ)).IsAddRightInvariant := inferInstanceAs ((volume : Measure ℝ).prod (volume : Measure ℝ)).IsAddRightInvariant
  set A : ℕ → ℝ × ℝ → ℂ := fun n u => (∑ t ∈ Finset.range (H n), F n (u + (0, (t : ℝ) / L n))) / (H n : ℂ) with hA
  have Aval : ∀ n, 0 < L n → ∀ u, A n u = (∑ t ∈ Finset.range (H n), G n (⌊L n * u.1⌋, ⌊L n * u.2⌋ + t)) / (H n : ℂ) := by
    intro n hn u
    rw [hA]
    simp only
    congr 1
    refine Finset.sum_congr rfl fun t _ => ?_
    rw [val n hn]
    have e1 : L n * (u + (0, (t : ℝ) / L n)).1 = L n * u.1 := by simp
    have e2 : L n * (u + (0, (t : ℝ) / L n)).2 = L n * u.2 + (t : ℤ) := by
      simp only [Prod.snd_add]; push_cast; field_simp
    rw [e1, e2, Int.floor_add_intCast]
  have Aint : ∀ n, 0 < L n → 0 < H n → ∫ u, A n u = (∑ p ∈ S n, G n p) / (L n : ℂ) ^ 2 := by
    intro n hn hn'
    rw [hA]
    simp only
    rw [integral_div, integral_finsetSum]
    · simp only [integral_add_right_eq_self (F n)]
      rw [Finset.sum_const, Finset.card_range, nsmul_eq_mul, int n hn, mul_div_cancel_left₀]
      exact_mod_cast hn'.ne'
    · intro t _
      exact (Finteg n hn).comp_add_right _
  have ev : ∀ᶠ n in atTop, 1 ≤ L n := hL.eventually_ge_atTop 1
  have lim : Tendsto (fun n => ∫ u, A n u) atTop (𝓝 (∫ u, f u)) := by
    set B : Set (ℝ × ℝ) := Set.Icc (-(R + 2)) (R + 2) ×ˢ Set.Icc (-(R + 2)) (R + 2) with hB
    refine tendsto_integral_filter_of_dominated_convergence (B.indicator fun _ => C) ?_ ?_ ?_ ?_
    · filter_upwards [ev] with n hn
      have : Integrable (A n) := by
        rw [hA]
        refine Integrable.div_const (integrable_finsetSum _ fun t _ => ?_) _
        exact (Finteg n (by linarith)).comp_add_right _
      exact this.aestronglyMeasurable
    · filter_upwards [ev, hH, hb, hs] with n hn hHn hbn hsn
      refine Eventually.of_forall fun u => ?_
      have hn0 : 0 < L n := by linarith
      have hHp : (0 : ℝ) < H n := by exact_mod_cast hHn.1
      rw [Aval n hn0 u, norm_div, Complex.norm_natCast, div_le_iff₀ hHp]
      refine (norm_sum_le _ _).trans ?_
      by_cases hu : u ∈ B
      · rw [Set.indicator_of_mem hu]
        refine (Finset.sum_le_sum fun t _ => hbn _).trans ?_
        rw [Finset.sum_const, Finset.card_range, nsmul_eq_mul, mul_comm]
      · rw [Set.indicator_of_notMem hu, zero_mul]
        refine le_of_eq (Finset.sum_eq_zero fun t ht => norm_eq_zero.mpr (hsn _ ?_))
        have htL : (t : ℝ) ≤ L n := by
          have : (t : ℝ) ≤ H n := by exact_mod_cast (Finset.mem_range.mp ht).le
          linarith
        have key : ∀ (t' : ℝ) (x : ℝ), 0 ≤ t' → t' ≤ L n → x ∉ Set.Icc (-(R + 2)) (R + 2) → R * L n < |(⌊L n * x⌋ : ℝ) + t'| := by
          intro t' x h0 h1 hx
          have h2 : R + 2 < |x| := by
            by_contra hh
            exact hx (abs_le.mp (not_lt.mp hh))
          have h3 := Int.floor_le (L n * x)
          have h4 := Int.lt_floor_add_one (L n * x)
          have h5 : (R + 2) * L n < |L n * x| := by
            rw [abs_mul, abs_of_pos hn0, mul_comm]; exact mul_lt_mul_of_pos_left h2 hn0
          rcases abs_cases (L n * x) with ⟨h6, h7⟩ | ⟨h6, h7⟩
          · refine lt_of_lt_of_le ?_ (le_abs_self _); linarith
          · refine lt_of_lt_of_le ?_ (neg_le_abs _); linarith
        rw [hB, Set.mem_prod, not_and_or] at hu
        rcases hu with hu | hu
        · left
          have := key 0 u.1 le_rfl hn0.le hu
          simpa using this
        · right
          have := key t u.2 (by positivity) htL hu
          simpa using this
    · refine (integrable_indicator_iff (measurableSet_Icc.prod measurableSet_Icc)).mpr (integrableOn_const ?_)
      exact ((isCompact_Icc.prod isCompact_Icc).measure_lt_top).ne
    · filter_upwards [hlim] with u hu
      refine hu.congr' ?_
      filter_upwards [ev] with n hn
      rw [Aval n (by linarith) u]
  refine lim.congr' ?_
  filter_upwards [ev, hH] with n hn hHn
  exact Aint n (by linarith) hHn.1

end PyOTF
