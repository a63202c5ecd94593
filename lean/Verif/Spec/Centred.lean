import Mathlib.Analysis.SpecialFunctions.Trigonometric.Basic
import Mathlib.Algebra.BigOperators.Group.Finset.Basic

/-!
# Specification of centred spectra

Arrays of both domains have their origin at index `n // 2` of every axis.
-/

namespace PyOTF

/-- Phase (in turns) of sample `j` of one domain against sample `k` of the other one. -/
noncomputable def turns (n j k : ℕ) : ℝ := ((j : ℝ) - (n / 2 : ℕ)) * ((k : ℝ) - (n / 2 : ℕ)) / n

/-- The centred Fourier sum of a stack. -/
noncomputable def centredSum (f : ℕ → ℕ → ℕ → ℂ) (Z A B a p q : ℕ) : ℂ :=
  ∑ z ∈ Finset.range Z, ∑ y ∈ Finset.range A, ∑ x ∈ Finset.range B,
    f z y x * Complex.exp (-(2 * Real.pi * Complex.I * ((turns Z z a + turns A y p + turns B x q : ℝ) : ℂ)))

/-- The inverse of the centred Fourier sum. -/
noncomputable def centredInverse (f : ℕ → ℕ → ℕ → ℂ) (Z A B z y x : ℕ) : ℂ :=
  (∑ a ∈ Finset.range Z, ∑ p ∈ Finset.range A, ∑ q ∈ Finset.range B,
    f a p q * Complex.exp (2 * Real.pi * Complex.I * ((turns Z z a + turns A y p + turns B x q : ℝ) : ℂ))) / (Z * A * B)

/-- Where the value of pixel `j` of an axis comes from: from `j` on even axes, from the previous pixel on odd ones. -/
def cameFrom (n j : ℕ) : ℕ := if n % 2 = 0 then j else (j + (n - 1)) % n

/-- The phase (in turns) that an odd axis adds. -/
noncomputable def phaseRamp (n j : ℕ) : ℝ := if n % 2 = 0 then 0 else ((j : ℝ) + (n / 2 : ℕ)) / n

/-- The pixel whose value comes from the origin: `n // 2` on even axes, the next one on odd axes. -/
def centrePixel (n : ℕ) : ℕ := if n % 2 = 0 then n / 2 else (n / 2 + 1) % n

/-- Mirror image of pixel `j` in pixel `c` of a periodic axis. -/
def mirrorIn (n c j : ℕ) : ℕ := (2 * c + n - j) % n

theorem cameFrom_lt {n j : ℕ} (hj : j < n) : cameFrom n j < n := by
  unfold cameFrom; split_ifs
  · exact hj
  · exact Nat.mod_lt _ (by omega)

theorem centrePixel_lt {n : ℕ} (hn : 0 < n) : centrePixel n < n := by
  unfold centrePixel; split_ifs
  · omega
  · exact Nat.mod_lt _ hn

theorem cameFrom_centrePixel {n : ℕ} (hn : 0 < n) : cameFrom n (centrePixel n) = n / 2 := by
  unfold cameFrom centrePixel
  split_ifs with h
  · rfl
  · rw [Nat.mod_add_mod, show n / 2 + 1 + (n - 1) = n / 2 + n by omega, Nat.add_mod_right, Nat.mod_eq_of_lt (by omega)]

theorem cameFrom_mirror {n j : ℕ} (hj : j < n) : cameFrom n (mirrorIn n (centrePixel n) j) = mirrorIn n (n / 2) (cameFrom n j) := by
  unfold cameFrom mirrorIn centrePixel
  split_ifs with h
  · rfl
  · rcases (by omega : n = 1 ∨ 3 ≤ n) with rfl | h3
    · omega
    rw [Nat.mod_add_mod, Nat.mod_eq_of_lt (by omega : n / 2 + 1 < n)]
    rcases Nat.eq_zero_or_pos j with rfl | hj0
    · rw [show 0 + (n - 1) = n - 1 by omega, Nat.mod_eq_of_lt (by omega : n - 1 < n)]
      rw [show 2 * (n / 2 + 1) + n - 0 + (n - 1) = (2 * (n / 2) + n - (n - 1)) + n + n by omega, Nat.add_mod_right, Nat.add_mod_right]
    · rw [show j + (n - 1) = (j - 1) + n by omega, Nat.add_mod_right, Nat.mod_eq_of_lt (by omega : j - 1 < n)]
      rw [show 2 * (n / 2 + 1) + n - j + (n - 1) = (2 * (n / 2) + n - (j - 1)) + n by omega, Nat.add_mod_right]

theorem mirrorIn_lt {n c j : ℕ} (hn : 0 < n) : mirrorIn n c j < n := Nat.mod_lt _ hn

end PyOTF
