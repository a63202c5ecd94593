import Verif.Model.NumPy
import Mathlib.Tactic.Linarith
import Mathlib.Tactic.FieldSimp
import Mathlib.Tactic.Ring
import Mathlib.Algebra.Order.Floor.Ring

namespace PyOTF

variable {K : Type} [Field K] [LinearOrder K] [IsStrictOrderedRing K] [FloorRing K]

/-- `rint x` is a nearest integer. -/
theorem rint_nearest (x : K) : |x - rint x| ≤ 1 / 2 := by
  have h1 := Int.floor_add_fract x
  have h2 := Int.fract_nonneg x
  have h3 := Int.fract_lt_one x
  simp only [rint]
  rw [abs_le]
  split_ifs <;> push_cast <;> constructor <;> linarith

/-- Ties go to the even integer. -/
theorem rint_tie_even (x : K) (h : |x - rint x| = 1 / 2) : rint x % 2 = 0 := by
  have h1 := Int.floor_add_fract x
  have h2 := Int.fract_nonneg x
  have h3 := Int.fract_lt_one x
  revert h
  simp only [rint]
  split_ifs with c1 c2 c3
  · intro h
    rcases abs_eq (by norm_num : (0 : K) ≤ 1 / 2) |>.mp h with h | h <;> linarith
  · intro h
    push_cast at h
    rcases abs_eq (by norm_num : (0 : K) ≤ 1 / 2) |>.mp h with h | h <;> linarith
  · intro _; exact c3
  · intro _; omega

/-- The two facts determine `rint x`. -/
theorem rint_unique (x : K) (m : ℤ) (h : |x - m| ≤ 1 / 2) (ht : |x - m| = 1 / 2 → m % 2 = 0) :
    rint x = m := by
  have a1 := abs_le.mp h
  have a2 := abs_le.mp (rint_nearest x)
  have hd1 : ((rint x - m : ℤ) : K) ≤ 1 := by push_cast; linarith
  have hd2 : (-1 : K) ≤ ((rint x - m : ℤ) : K) := by push_cast; linarith
  have hd1' : rint x - m ≤ 1 := by exact_mod_cast hd1
  have hd2' : -1 ≤ rint x - m := by exact_mod_cast hd2
  rcases (by omega : rint x = m ∨ rint x = m + 1 ∨ rint x = m - 1) with e | e | e
  · exact e
  · have e' : ((rint x : ℤ) : K) = m + 1 := by rw [e]; push_cast; ring
    have t1 : |x - m| = 1 / 2 := by rw [abs_eq (by norm_num)]; left; linarith
    have t2 : |x - rint x| = 1 / 2 := by rw [abs_eq (by norm_num)]; right; linarith
    have := ht t1
    have := rint_tie_even x t2
    omega
  · have e' : ((rint x : ℤ) : K) = m - 1 := by rw [e]; push_cast; ring
    have t1 : |x - m| = 1 / 2 := by rw [abs_eq (by norm_num)]; right; linarith
    have t2 : |x - rint x| = 1 / 2 := by rw [abs_eq (by norm_num)]; left; linarith
    have := ht t1
    have := rint_tie_even x t2
    omega

theorem rint_natCast (n : ℕ) : rint (n : K) = n :=
  rint_unique _ _ (by simp) (by intro h; simp at h)

theorem rint_intCast (n : ℤ) : rint (n : K) = n :=
  rint_unique _ _ (by simp) (by intro h; simp at h)

theorem rint_nonneg {x : K} (h : 0 ≤ x) : 0 ≤ rint x := by
  have := Int.floor_nonneg.mpr h
  simp only [rint]
  split_ifs <;> omega

theorem rint_mono {x y : K} (h : x ≤ y) : rint x ≤ rint y := by
  by_contra hlt
  push Not at hlt
  have a1 := abs_le.mp (rint_nearest x)
  have a2 := abs_le.mp (rint_nearest y)
  have h1 : ((rint y : ℤ) : K) + 1 ≤ rint x := by exact_mod_cast hlt
  have e : x = y := le_antisymm h (by linarith)
  rw [e] at hlt
  exact lt_irrefl _ hlt

end PyOTF
