import Mathlib.MeasureTheory.Integral.DominatedConvergence
import Mathlib.MeasureTheory.Measure.Lebesgue.Basic
import Mathlib.MeasureTheory.Measure.Prod

/-!
# Riemann sums over the square lattice
-/

open MeasureTheory Filter Topology

namespace PyOTF

/-- Square of the lattice of spacing `1 / L` with lower corner `p / L`. -/
def cell (L : ℝ) (p : ℤ × ℤ) : Set (ℝ × ℝ) := Set.Ico (p.1 / L : ℝ) ((p.1 + 1) / L) ×ˢ Set.Ico (p.2 / L : ℝ) ((p.2 + 1) / L)

theorem cell_measurable (L : ℝ) (p : ℤ × ℤ) : MeasurableSet (cell L p) := measurableSet_Ico.prod measurableSet_Ico

theorem cell_volume {L : ℝ} (hL : 0 < L) (p : ℤ × ℤ) : volume (cell L p) = ENNReal.ofReal (1 / L ^ 2) := by
  rw [cell, Measure.volume_eq_prod, Measure.prod_prod, Real.volume_Ico, Real.volume_Ico, ← ENNReal.ofReal_mul (by field_simp; norm_num)]
  congr 1
  field_simp; ring

theorem mem_cell {L : ℝ} (hL : 0 < L) (p : ℤ × ℤ) (u : ℝ × ℝ) : u ∈ cell L p ↔ p = (⌊L * u.1⌋, ⌊L * u.2⌋) := by
  have key : ∀ (a : ℤ) (t : ℝ), t ∈ Set.Ico (a / L : ℝ) ((a + 1) / L) ↔ a = ⌊L * t⌋ := by
    intro a t
    rw [Set.mem_Ico, div_le_iff₀ hL, lt_div_iff₀ hL, eq_comm, Int.floor_eq_iff, mul_comm t L]
  rw [cell, Set.mem_prod, key, key, Prod.ext_iff]

theorem floor_div_near {L : ℝ} (hL : 0 < L) (t : ℝ) : |(⌊L * t⌋ : ℝ) / L - t| ≤ 1 / L := by
  have h1 := Int.floor_le (L * t)
  have h2 := Int.lt_floor_add_one (L * t)
  have e : (⌊L * t⌋ : ℝ) / L - t = (⌊L * t⌋ - L * t) / L := by field_simp
  rw [e, abs_div, abs_of_pos hL]
  gcongr
  rw [abs_le]; constructor <;> linarith

/-- A bounded function which vanishes outside a disk and is continuous almost everywhere: its lattice sums, times the area of a cell, tend to its integral. -/
theorem tendsto_lattice_sum (f : ℝ × ℝ → ℂ) (C R : ℝ) (hb : ∀ p, ‖f p‖ ≤ C) (hs : ∀ p : ℝ × ℝ, R < |p.1| ∨ R < |p.2| → f p = 0)
    (hc : ∀ᵐ p : ℝ × ℝ, ContinuousAt f p) (L : ℕ → ℝ) (hL : Tendsto L atTop atTop) (S : ℕ → Finset (ℤ × ℤ))
    (hS : ∀ n, ∀ p ∉ S n, f ((p.1 : ℝ) / L n, (p.2 : ℝ) / L n) = 0) :
    Tendsto (fun n => (∑ p ∈ S n, f ((p.1 : ℝ) / L n, (p.2 : ℝ) / L n)) / (L n : ℂ) ^ 2) atTop (𝓝 (∫ p, f p)) := by
  have hC : 0 ≤ C := (norm_nonneg _).trans (hb 0)
  set F : ℕ → ℝ × ℝ → ℂ := fun n u => ∑ p ∈ S n, (cell (L n) p).indicator (fun _ => f ((p.1 : ℝ) / L n, (p.2 : ℝ) / L n)) u with hF
  have val : ∀ n, 0 < L n → ∀ u, F n u = f ((⌊L n * u.1⌋ : ℝ) / L n, (⌊L n * u.2⌋ : ℝ) / L n) := by
    intro n hn u
    by_cases h : ((⌊L n * u.1⌋, ⌊L n * u.2⌋) : ℤ × ℤ) ∈ S n
    · rw [hF]
      simp only
      rw [Finset.sum_eq_single_of_mem _ h]
      · rw [Set.indicator_of_mem ((mem_cell hn _ u).mpr rfl)]
      · intro p _ hp
        exact Set.indicator_of_notMem (fun hu => hp ((mem_cell hn p u).mp hu)) _
    · rw [show f _ = 0 from hS n _ h, hF]
      refine Finset.sum_eq_zero fun p hp => Set.indicator_of_notMem (fun hu => h ?_) _
      rw [← (mem_cell hn p u).mp hu]; exact hp
  have int : ∀ n, 0 < L n → ∫ u, F n u = (∑ p ∈ S n, f ((p.1 : ℝ) / L n, (p.2 : ℝ) / L n)) / (L n : ℂ) ^ 2 := by
    intro n hn
    rw [hF]
    simp only
    rw [integral_finsetSum, Finset.sum_div]
    · refine Finset.sum_congr rfl fun p _ => ?_
      rw [integral_indicator (cell_measurable _ _), setIntegral_const, Measure.real, cell_volume hn, ENNReal.toReal_ofReal (by positivity),
        Complex.real_smul]
      push_cast; field_simp
    · intro p _
      refine (integrable_indicator_iff (cell_measurable _ _)).mpr ?_
      exact integrableOn_const (by rw [cell_volume hn]; exact ENNReal.ofReal_ne_top)
  have ev : ∀ᶠ n in atTop, 1 ≤ L n := hL.eventually_ge_atTop 1
  have lim : Tendsto (fun n => ∫ u, F n u) atTop (𝓝 (∫ u, f u)) := by
    set B : Set (ℝ × ℝ) := Set.Icc (-(R + 1)) (R + 1) ×ˢ Set.Icc (-(R + 1)) (R + 1) with hB
    refine tendsto_integral_filter_of_dominated_convergence (B.indicator fun _ => C) ?_ ?_ ?_ ?_
    · refine Eventually.of_forall fun n => ?_
      refine Finset.aestronglyMeasurable_fun_sum _ fun p _ => ?_
      exact aestronglyMeasurable_const.indicator (cell_measurable _ _)
    · filter_upwards [ev] with n hn
      refine Eventually.of_forall fun u => ?_
      have hn0 : 0 < L n := by linarith
      rw [val n hn0 u]
      by_cases hu : u ∈ B
      · rw [Set.indicator_of_mem hu]; exact hb _
      · rw [Set.indicator_of_notMem hu]
        refine le_of_eq (norm_eq_zero.mpr (hs _ ?_))
        have hone : 1 / L n ≤ 1 := by rw [div_le_one hn0]; exact hn
        have key : ∀ t : ℝ, t ∉ Set.Icc (-(R + 1)) (R + 1) → R < |(⌊L n * t⌋ : ℝ) / L n| := by
          intro t ht
          have h1 : R + 1 < |t| := by
            by_contra hh
            exact ht (abs_le.mp (not_lt.mp hh))
          have h2 := floor_div_near hn0 t
          have h3 := abs_sub_abs_le_abs_sub t ((⌊L n * t⌋ : ℝ) / L n)
          rw [abs_sub_comm] at h3
          linarith
        rw [hB, Set.mem_prod, not_and_or] at hu
        exact hu.imp (key _) (key _)
    · refine (integrable_indicator_iff (measurableSet_Icc.prod measurableSet_Icc)).mpr (integrableOn_const ?_)
      exact ((isCompact_Icc.prod isCompact_Icc).measure_lt_top).ne
    · filter_upwards [hc] with u hu
      have hin : Tendsto (fun n => (((⌊L n * u.1⌋ : ℝ) / L n, (⌊L n * u.2⌋ : ℝ) / L n) : ℝ × ℝ)) atTop (𝓝 u) := by
        have one : ∀ t : ℝ, Tendsto (fun n => (⌊L n * t⌋ : ℝ) / L n) atTop (𝓝 t) := by
          intro t
          rw [tendsto_iff_dist_tendsto_zero]
          have h0 : Tendsto (fun n => 1 / L n) atTop (𝓝 0) := tendsto_const_nhds.div_atTop hL
          refine squeeze_zero' (Eventually.of_forall fun _ => dist_nonneg) ?_ h0
          filter_upwards [ev] with n hn
          rw [Real.dist_eq]
          exact floor_div_near (by linarith) t
        exact (one u.1).prodMk_nhds (one u.2)
      refine (hu.tendsto.comp hin).congr' ?_
      filter_upwards [ev] with n hn
      rw [val n (by linarith) u]; rfl
  refine lim.congr' ?_
  filter_upwards [ev] with n hn
  exact int n (by linarith)

end PyOTF
