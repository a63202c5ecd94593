import Verif.Props.C131_Floating

/-!
# C131: `radial_profile` in floating point
-/

namespace PyOTF

section
variable {A : Arith} {u : ℝ} {D : ℕ → ℕ}

/-! ## Ring numbers -/

/-- The distance of a square root of a whole number from the middle between two whole numbers. -/
theorem sqrt_tie_gap (N : ℕ) : |Real.sqrt N - rint (Real.sqrt (N : ℝ))| * (4 * (2 * Real.sqrt N + 1)) ≤ 2 * (2 * Real.sqrt N + 1) - 1 := by
  rcases Nat.eq_zero_or_pos N with h00 | hpos
  · have e : Real.sqrt (N : ℝ) = ((0 : ℤ) : ℝ) := by rw [h00]; simp
    have er : rint (((0 : ℤ) : ℝ)) = 0 := rint_unique _ 0 (by simp) fun h => by simp at h
    rw [e, er]; norm_num
  have h1 := abs_le.mp (rint_nearest (Real.sqrt (N : ℝ)))
  set m := rint (Real.sqrt (N : ℝ)) with hm
  set S := Real.sqrt (N : ℝ)
  have hS0 : 0 ≤ S := Real.sqrt_nonneg _
  have hS2 : S ^ 2 = N := Real.sq_sqrt (Nat.cast_nonneg N)
  have hm0 : 0 ≤ m := rint_nonneg hS0
  have hm0' : (0 : ℝ) ≤ m := by exact_mod_cast hm0
  rcases le_total 0 (S - m) with h | h
  · rw [abs_of_nonneg h]
    -- below `m + 1/2`
    have h2 : (N : ℤ) ≤ m ^ 2 + m := by
      by_contra hc
      push Not at hc
      have : ((m ^ 2 + m + 1 : ℤ) : ℝ) ≤ ((N : ℤ) : ℝ) := by exact_mod_cast hc
      push_cast at this
      nlinarith
    have h3 : (N : ℝ) ≤ m ^ 2 + m := by exact_mod_cast h2
    nlinarith
  · rw [abs_of_nonpos h]
    have h2 : m ^ 2 - m + 1 ≤ (N : ℤ) := by
      by_contra hc
      push Not at hc
      have : ((N : ℤ) : ℝ) ≤ ((m ^ 2 - m : ℤ) : ℝ) := by exact_mod_cast (by omega : (N : ℤ) ≤ m ^ 2 - m)
      push_cast at this
      have hN1 : (1 : ℝ) ≤ N := by exact_mod_cast hpos
      have hm1 : (1 : ℝ) ≤ m := by
        by_contra hlt
        push Not at hlt
        have hz : m = 0 := by
          have : m < 1 := by exact_mod_cast hlt
          omega
        rw [hz] at this
        norm_num at this
        linarith
      nlinarith
    have h3 : (m : ℝ) ^ 2 - m + 1 ≤ N := by exact_mod_cast h2
    nlinarith

theorem ring_fl (hA : A.Rounds u) (N : ℕ) (hN : 40 * (N * u) ≤ 1) : rint (A.fl (A.fl (Real.sqrt N) / 1)) = rint (Real.sqrt (N : ℝ)) := by
  have h0 := hA.nonneg
  rw [div_one]
  rcases Nat.eq_zero_or_pos N with h | h
  · have e : Real.sqrt (N : ℝ) = ((0 : ℤ) : ℝ) := by rw [h]; simp
    have w : A.fl ((0 : ℤ) : ℝ) = ((0 : ℤ) : ℝ) := hA.whole 0 (by simp)
    rw [e, w, w]
  have hN1 : (1 : ℝ) ≤ N := by exact_mod_cast h
  have gap := sqrt_tie_gap N
  set m := rint (Real.sqrt (N : ℝ))
  set S := Real.sqrt (N : ℝ) with hS
  have hS2 : S ^ 2 = N := Real.sq_sqrt (Nat.cast_nonneg N)
  have hS1 : 1 ≤ S := by rw [hS]; exact Real.one_le_sqrt.mpr hN1
  rw [← hS2] at hN
  have r1 := hA.round S
  set s := A.fl S
  have r2 := hA.round s
  set q := A.fl s
  rw [abs_of_nonneg (a := S) (by linarith)] at r1
  have hu : u ≤ 1 / 40 := by nlinarith
  have hSu : 0 ≤ S * u := by positivity
  have bs : |s| ≤ 41 / 40 * S := by
    have r1' := abs_le.mp r1
    exact abs_le.mpr ⟨by nlinarith, by nlinarith⟩
  have err : |q - S| ≤ 3 * (S * u) := by
    have e : q - S = (q - s) + (s - S) := by ring
    rw [e]
    refine (abs_add_le _ _).trans ?_
    have := r2.trans (mul_le_mul_of_nonneg_left bs h0)
    nlinarith
  clear_value q s
  have hlt : |q - m| < 1 / 2 := by
    have e : q - m = (q - S) + (S - m) := by ring
    have h1 : |q - m| ≤ 3 * (S * u) + |S - m| := by rw [e]; exact (abs_add_le _ _).trans (by linarith)
    have h2 : |q - m| * (4 * (2 * S + 1)) ≤ 3 * (S * u) * (4 * (2 * S + 1)) + (2 * (2 * S + 1) - 1) := by
      have := mul_le_mul_of_nonneg_right h1 (by linarith : 0 ≤ 4 * (2 * S + 1))
      rw [add_mul] at this
      linarith
    have h3 : 3 * (S * u) * (4 * (2 * S + 1)) ≤ 36 * (S ^ 2 * u) := by
      have : S * u ≤ S ^ 2 * u := by nlinarith
      nlinarith
    by_contra hc
    push Not at hc
    have : 1 / 2 * (4 * (2 * S + 1)) ≤ |q - m| * (4 * (2 * S + 1)) := mul_le_mul_of_nonneg_right hc (by linarith)
    nlinarith
  exact rint_unique q m hlt.le fun h => absurd h hlt.ne

theorem sqDist_le {i s : List ℕ} (h : InShape i s) : sqDist i (s.map (· / 2)) ≤ (s.map (· ^ 2)).sum := by
  induction h with
  | nil => simp [sqDist]
  | @cons x n i s hx _ ih =>
    simp only [sqDist, List.map_cons, List.sum_cons]
    refine Nat.add_le_add ?_ ih
    rw [Int.toNat_le]
    push_cast
    have h1 : (0 : ℤ) ≤ x := by positivity
    have h2 : (x : ℤ) < n := by exact_mod_cast hx
    have h3 : (0 : ℤ) ≤ (n / 2 : ℕ) := by positivity
    have h4 : ((n / 2 : ℕ) : ℤ) ≤ n := by exact_mod_cast Nat.div_le_self n 2
    push_cast at h3 h4
    exact sq_le_sq' (by omega) (by omega)

theorem foldl_sq (hA : A.Rounds u) : ∀ (i c : List ℕ) (a : ℕ), i.length = c.length → ((a + sqDist i c : ℕ) : ℝ) * u ≤ 1 →
    (List.zipWith (fun (i : ℕ) (c : ℝ) => A.fl (A.fl ((i : ℝ) - c) ^ 2)) i (c.map fun n : ℕ => (n : ℝ))).foldl (fun s x => A.fl (s + x)) (a : ℝ)
      = ((a + sqDist i c : ℕ) : ℝ)
  | [], c, a, hl, h => by
    cases c
    · simp [sqDist]
    · simp at hl
  | x :: i, [], a, hl, h => by simp at hl
  | x :: i, y :: c, a, hl, h => by
    have h0 := hA.nonneg
    have hw : ∀ z : ℤ, |z| ≤ a + sqDist (x :: i) (y :: c) → A.fl z = z := fun z hz => hA.whole z (by
      have : |(z : ℝ)| ≤ ((a + sqDist (x :: i) (y :: c) : ℕ) : ℝ) := by exact_mod_cast hz
      exact (mul_le_mul_of_nonneg_right this h0).trans h)
    have hd : sqDist (x :: i) (y :: c) = (((x : ℤ) - y) ^ 2).toNat + sqDist i c := rfl
    have hsq : (((((x : ℤ) - y) ^ 2).toNat : ℕ) : ℤ) = ((x : ℤ) - y) ^ 2 := Int.toNat_of_nonneg (sq_nonneg _)
    have habs : |(x : ℤ) - y| ≤ ((x : ℤ) - y) ^ 2 := by
      rw [← sq_abs]
      rcases eq_or_ne |(x : ℤ) - y| 0 with e | e
      · rw [e]; norm_num
      · have := abs_nonneg ((x : ℤ) - y)
        nlinarith [show 1 ≤ |(x : ℤ) - y| by omega]
    have e1 : A.fl ((x : ℝ) - (y : ℝ)) = (((x : ℤ) - y : ℤ) : ℝ) := by
      have := hw ((x : ℤ) - y) (by rw [hd]; push_cast; rw [hsq]; linarith [Int.natCast_nonneg a, Int.natCast_nonneg (sqDist i c)])
      push_cast at this ⊢; exact this
    have e2 : A.fl ((((x : ℤ) - y : ℤ) : ℝ) ^ 2) = (((((x : ℤ) - y) ^ 2).toNat : ℕ) : ℝ) := by
      have := hw (((x : ℤ) - y) ^ 2) (by rw [abs_of_nonneg (sq_nonneg _), hd]; push_cast; rw [hsq]; linarith [Int.natCast_nonneg a, Int.natCast_nonneg (sqDist i c)])
      have e : ((((((x : ℤ) - y) ^ 2).toNat : ℕ) : ℤ) : ℝ) = ((((x : ℤ) - y) ^ 2 : ℤ) : ℝ) := by rw [hsq]
      rw [Int.cast_natCast] at e
      rw [e]
      push_cast at this ⊢; exact this
    have e3 : A.fl ((a : ℝ) + (((((x : ℤ) - y) ^ 2).toNat : ℕ) : ℝ)) = ((a + (((x : ℤ) - y) ^ 2).toNat : ℕ) : ℝ) := by
      have := hw ((a + (((x : ℤ) - y) ^ 2).toNat : ℕ) : ℤ) (by
        rw [abs_of_nonneg (by positivity), hd]; push_cast; linarith [Int.natCast_nonneg (sqDist i c)])
      rw [Int.cast_natCast] at this
      rw [← this]; push_cast; rfl
    rw [List.map_cons, List.zipWith_cons_cons, List.foldl_cons]
    rw [e1, e2, e3, foldl_sq hA i c _ (by simpa using hl) (by rw [hd] at h; rw [Nat.add_assoc]; exact h), hd, Nat.add_assoc]

/-- C131: the ring numbers of `radial_profile` with the default centre and bin size are right in floating point if 40 u times the sum of the squared axis lengths is at
most 1 (in double precision: for images up to 10^7 pixels wide). -/
theorem C131_rings (hA : A.Rounds u) (shape : List ℕ) (hs : 40 * (((shape.map (· ^ 2)).sum : ℕ) * u) ≤ 1) (i : List ℕ) (hi : InShape i shape) :
    A.ringOf (shape.map fun n => ((n / 2 : ℕ) : ℝ)) 1 i = ringOf (shape.map fun n => ((n / 2 : ℕ) : ℝ)) 1 i := by
  have h0 := hA.nonneg
  have hc : (shape.map fun n => ((n / 2 : ℕ) : ℝ)) = (shape.map (· / 2)).map fun n : ℕ => (n : ℝ) := by simp
  have hl : i.length = (shape.map (· / 2)).length := by rw [List.length_map, hi.length]
  have hd : (sqDist i (shape.map (· / 2)) : ℝ) ≤ ((shape.map (· ^ 2)).sum : ℕ) := by exact_mod_cast sqDist_le hi
  have hN : 40 * ((sqDist i (shape.map (· / 2)) : ℝ) * u) ≤ 1 := by
    have := mul_le_mul_of_nonneg_right hd h0
    linarith
  have hN0 : 0 ≤ (sqDist i (shape.map (· / 2)) : ℝ) * u := by positivity
  have hf := foldl_sq hA i (shape.map (· / 2)) 0 hl (by rw [Nat.zero_add]; linarith)
  rw [Nat.zero_add, Nat.cast_zero] at hf
  rw [hc, Arith.ringOf, hf, ring_fl hA _ hN, ringOf_eq _ _ _ (by simp [hi.length]), pixelDist_int _ _ hl, div_one]

end

end PyOTF
