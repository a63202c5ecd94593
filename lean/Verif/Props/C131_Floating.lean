import Verif.Model.Floating
import Verif.Props.C126_Rounding
import Verif.Props.C19_C20_Radial
import Verif.Props.C22_C24_Noll

/-!
# C131: whole numbers computed through floating point
-/

namespace PyOTF

/-! ## Specification -/

/-- Rounding with relative error at most `u` that leaves the whole numbers up to `1 / u` alone. -/
structure Arith.Rounds (A : Arith) (u : ℝ) : Prop where
  nonneg : 0 ≤ u
  round : ∀ x, |A.fl x - x| ≤ u * |x|
  whole : ∀ n : ℤ, |(n : ℝ)| * u ≤ 1 → A.fl n = n

/-! ## Proofs -/

section
variable {A : Arith} {u : ℝ}

theorem row_of (p : ℕ) : ∃ n : ℕ, n * (n + 1) ≤ 2 * p ∧ 2 * p ≤ n * (n + 3) := by
  induction p with
  | zero => exact ⟨0, by simp, by simp⟩
  | succ p ih =>
    obtain ⟨n, h1, h2⟩ := ih
    by_cases h : 2 * (p + 1) ≤ n * (n + 3)
    · exact ⟨n, by omega, h⟩
    · have he : (n * (n + 3)) % 2 = 0 := by
        have : n * (n + 3) = n * (n + 1) + 2 * n := by ring
        rw [this]
        have := Nat.even_iff.mp (Nat.even_mul_succ_self n)
        omega
      refine ⟨n + 1, ?_, ?_⟩
      · have : (n + 1) * (n + 1 + 1) = n * (n + 3) + 2 := by ring
        omega
      · have : (n + 1) * (n + 1 + 3) = n * (n + 3) + 2 * n + 4 := by ring
        omega

/-- The accumulated error. -/
theorem degree_err (hA : A.Rounds u) {S : ℝ} (hS3 : 3 ≤ S) (hu : u ≤ 1 / 12) : |A.fl (A.fl (-3 + A.fl S) / 2) - (S - 3) / 2| ≤ 2 * (S * u) := by
  have h0 := hA.nonneg
  set s := A.fl S with hs
  have r1 := hA.round S
  rw [abs_of_nonneg (by linarith : 0 ≤ S), ← hs] at r1
  set t := A.fl (-3 + s) with ht
  have r2 := hA.round (-3 + s)
  rw [← ht] at r2
  have r3 := hA.round (t / 2)
  set q := A.fl (t / 2)
  have hSu0 : 0 ≤ S * u := by positivity
  have r1' := abs_le.mp r1
  have b2 : |(-3 + s)| ≤ (1 + u) * S := abs_le.mpr ⟨by nlinarith, by nlinarith⟩
  have r2b := r2.trans (mul_le_mul_of_nonneg_left b2 h0)
  have r2' := abs_le.mp r2b
  have b3' : |t / 2| ≤ (1 + u) ^ 2 * S / 2 := by
    have h3 : |t| ≤ u * ((1 + u) * S) + (1 + u) * S := by
      have e : t = (t - (-3 + s)) + (-3 + s) := by ring
      rw [e]
      exact (abs_add_le _ _).trans (add_le_add r2b b2)
    rw [abs_div, abs_two]
    have e : (1 + u) ^ 2 * S / 2 = (u * ((1 + u) * S) + (1 + u) * S) / 2 := by ring
    rw [e]
    linarith
  have r3'' := abs_le.mp (r3.trans (mul_le_mul_of_nonneg_left b3' h0))
  have small : u * ((1 + u) * S) ≤ 13 / 12 * (S * u) := by
    rw [show u * ((1 + u) * S) = (1 + u) * (S * u) by ring]
    exact mul_le_mul_of_nonneg_right (by linarith) hSu0
  have small2 : u * ((1 + u) ^ 2 * S / 2) ≤ 3 / 5 * (S * u) := by
    have : (1 + u) ^ 2 / 2 ≤ 3 / 5 := by nlinarith
    rw [show u * ((1 + u) ^ 2 * S / 2) = ((1 + u) ^ 2 / 2) * (S * u) by ring]
    exact mul_le_mul_of_nonneg_right this hSu0
  have m1 : u * S = S * u := mul_comm _ _
  clear_value q t s
  clear r1 r2 r2b r3 b2 b3' ht hs
  refine abs_le.mpr ⟨?_, ?_⟩ <;> linarith [r1'.1, r1'.2, r2'.1, r2'.2, r3''.1, r3''.2]

/-- C131: the radial degree of the mode at flat position `p` comes out right in floating point as long as `(9 + 8 p) u ≤ 3 / 4`. -/
theorem C131_radial_degree (hA : A.Rounds u) (p : ℕ) (hp : (9 + 8 * p) * u ≤ 3 / 4) : A.radialDegree p = radialDegree p := by
  obtain ⟨n, h1, h2⟩ := row_of p
  rw [radialDegree_eq h1 h2, Arith.radialDegree]
  have h0 := hA.nonneg
  have hn : (0 : ℝ) ≤ n := Nat.cast_nonneg n
  have hp0 : (0 : ℝ) ≤ p := Nat.cast_nonneg p
  have hpu : 0 ≤ (p : ℝ) * u := mul_nonneg hp0 h0
  by_cases heq : 2 * p = n * (n + 3)
  · have e : Real.sqrt (9 + 8 * p) = ((2 * n + 3 : ℤ) : ℝ) := by
      have : (2 * p : ℝ) = n * (n + 3) := by exact_mod_cast heq
      rw [show (9 + 8 * p : ℝ) = (2 * n + 3) ^ 2 by nlinarith]
      rw [Real.sqrt_sq (by positivity)]
      push_cast; ring
    have hbig : (2 * (n : ℝ) + 3) ≤ 9 + 8 * p := by
      have : (2 * p : ℝ) = n * (n + 3) := by exact_mod_cast heq
      nlinarith
    have hb : (2 * (n : ℝ) + 3) * u ≤ 3 / 4 := (mul_le_mul_of_nonneg_right hbig h0).trans hp
    have w : ∀ k : ℤ, |(k : ℝ)| ≤ 2 * n + 3 → A.fl k = k := fun k hk =>
      hA.whole k ((mul_le_mul_of_nonneg_right hk h0).trans (by linarith))
    rw [e, w _ (by push_cast; rw [abs_of_nonneg (by positivity)])]
    have e2 : (-3 + ((2 * n + 3 : ℤ) : ℝ)) = ((2 * n : ℤ) : ℝ) := by push_cast; ring
    rw [e2, w _ (by push_cast; rw [abs_of_nonneg (by positivity)]; linarith)]
    have e3 : ((2 * n : ℤ) : ℝ) / 2 = ((n : ℤ) : ℝ) := by push_cast; ring
    rw [e3, w _ (by push_cast; rw [abs_of_nonneg (by positivity)]; linarith)]
    simp
  · -- the square root is well away from the odd numbers next to it
    have hlt : 2 * p + 2 ≤ n * (n + 3) := by
      have he : (n * (n + 3)) % 2 = 0 := by
        have : n * (n + 3) = n * (n + 1) + 2 * n := by ring
        rw [this]
        have := Nat.even_iff.mp (Nat.even_mul_succ_self n)
        omega
      omega
    have a1 : ((n : ℝ) * (n + 1)) ≤ 2 * p := by exact_mod_cast h1
    have a2 : (2 * p + 2 : ℝ) ≤ n * (n + 3) := by exact_mod_cast hlt
    set S := Real.sqrt (9 + 8 * p) with hS
    have hS2 : S ^ 2 = 9 + 8 * p := Real.sq_sqrt (by positivity)
    have hS3 : 3 ≤ S := by
      rw [hS]; apply Real.le_sqrt_of_sq_le; nlinarith
    have hSu : S * (S * u) ≤ 3 / 4 := by rw [← mul_assoc, ← sq, hS2]; exact hp
    have hu : u ≤ 1 / 12 := by nlinarith [mul_nonneg hp0 h0]
    -- distances to the neighbours
    have lo : 2 * n + 1 < S := by
      by_contra hc; push Not at hc; nlinarith
    have hi : S < 2 * n + 3 := by
      by_contra hc; push Not at hc; nlinarith
    have lo' : 4 ≤ S * (S - (2 * n + 1)) := by nlinarith
    have hi' : 3 ≤ S * (2 * n + 3 - S) := by nlinarith
    have err := degree_err hA hS3 hu
    have err' := abs_le.mp err
    have hSpos : 0 < S := by linarith
    rw [Int.ceil_eq_iff]
    push_cast
    constructor
    · have : 2 * (S * u) < (S - (2 * n + 1)) / 2 := by
        by_contra hc; push Not at hc; nlinarith
      linarith
    · have : 2 * (S * u) ≤ (2 * n + 3 - S) / 2 := by
        by_contra hc; push Not at hc; nlinarith
      linarith

theorem trunc_int (k : ℤ) : Arith.trunc (k : ℝ) = k := by
  unfold Arith.trunc
  split_ifs <;> simp

theorem mapM_congr' {α β : Type} {f g : α → Py β} {l : List α} (h : ∀ a ∈ l, f a = g a) : l.mapM f = l.mapM g := by
  induction l with
  | nil => rfl
  | cons a l ih =>
    rw [List.mapM_cons, List.mapM_cons, h a (by simp), ih fun b hb => h b (by simp [hb])]

theorem noll_step (hA : A.Rounds u) (hu : u ≤ 1 / 2048) (p : ℕ) (hp : p < 120) :
    (Arith.trunc (A.radialDegree p : ℝ), Arith.trunc (A.fl (2 * (p : ℝ) - A.fl ((A.radialDegree p : ℝ) * A.fl ((A.radialDegree p : ℝ) + 2))))) =
      (radialDegree p, 2 * (p : ℤ) - radialDegree p * (radialDegree p + 2)) := by
  have hpr : (p : ℝ) ≤ 119 := by exact_mod_cast (by omega : p ≤ 119)
  have h0 := hA.nonneg
  have hdeg : A.radialDegree p = radialDegree p := C131_radial_degree hA p (by
    have : (p : ℝ) * u ≤ 119 * u := mul_le_mul_of_nonneg_right hpr h0
    nlinarith)
  obtain ⟨n, r1, r2⟩ := row_of p
  have hn : n ≤ 14 := by
    by_contra hc
    push Not at hc
    have : 15 * 16 ≤ n * (n + 1) := Nat.mul_le_mul (by omega) (by omega)
    omega
  rw [hdeg, radialDegree_eq r1 r2]
  have w : ∀ z : ℤ, |z| ≤ 2000 → A.fl z = z := fun z hz => hA.whole z (by
    have : |(z : ℝ)| ≤ 2000 := by exact_mod_cast hz
    nlinarith)
  have hn' : (n : ℤ) ≤ 14 := by exact_mod_cast hn
  have hn0 : (0 : ℤ) ≤ n := by positivity
  have hp' : (p : ℤ) ≤ 119 := by exact_mod_cast (by omega : p ≤ 119)
  have hp0 : (0 : ℤ) ≤ p := by positivity
  have e1 : A.fl (((n : ℤ) : ℝ) + 2) = ((n + 2 : ℤ) : ℝ) := by
    have := w (n + 2) (abs_le.mpr ⟨by omega, by omega⟩)
    push_cast at this ⊢; exact this
  have b : (n : ℤ) * (n + 2) ≤ 14 * 16 := mul_le_mul hn' (by omega) (by omega) (by omega)
  have b0 : 0 ≤ (n : ℤ) * (n + 2) := by positivity
  have e2 : A.fl (((n : ℤ) : ℝ) * ((n + 2 : ℤ) : ℝ)) = ((n * (n + 2) : ℤ) : ℝ) := by
    have := w (n * (n + 2)) (abs_le.mpr ⟨by omega, by omega⟩)
    push_cast at this ⊢; exact this
  have e3 : A.fl (2 * (p : ℝ) - ((n * (n + 2) : ℤ) : ℝ)) = ((2 * p - n * (n + 2) : ℤ) : ℝ) := by
    have := w (2 * p - n * (n + 2)) (abs_le.mpr ⟨by omega, by omega⟩)
    push_cast at this ⊢; exact this
  rw [e1, e2, e3, trunc_int, trunc_int]

/-- C131: `noll2degrees` in any floating point arithmetic with `u ≤ 1 / 2048` (half precision has `u = 1 / 2048`) is the exact function. -/
theorem C131_noll2degrees (hA : A.Rounds u) (hu : u ≤ 1 / 2048) (L : List ℤ) : A.noll2degrees L = noll2degrees L := by
  unfold Arith.noll2degrees noll2degrees
  split_ifs with hany
  · rfl
  refine mapM_congr' fun j hj => ?_
  have hpos : 0 < j := by
    by_contra hc
    exact hany (List.any_eq_true.mpr ⟨j, hj, by simpa using hc⟩)
  have hlen := table_facts.2.1
  by_cases hr : (nollInverse.length : ℤ) ≤ j - 1
  · have : npIndex nollInverse (j - 1) = .error .indexError := by
      unfold npIndex; rw [if_pos (Or.inr hr)]
    rw [this]; rfl
  · rw [hlen] at hr
    push Not at hr
    obtain ⟨k, hk⟩ : ∃ k : ℕ, j - 1 = k := ⟨(j - 1).toNat, by omega⟩
    have hk2 : k < nollInverse.length := by rw [hlen]; omega
    rw [hk, npIndex_ok hk2]
    have hp : nollInverse.getD k 0 < 120 := (table_facts.2.2.1 k (List.mem_range.mpr (by omega))).2
    generalize nollInverse.getD k 0 = p at hp
    exact congrArg Except.ok (noll_step hA hu p hp)

theorem big_trunc (hA : A.Rounds u) (hu : u ≤ 1 / 2048) {q : ℤ} (hq : 1000 < |q|) :
    (1000 < q ∧ 900 ≤ Arith.trunc (A.fl (A.fl ((2 * q : ℤ) : ℝ) / 2))) ∨ (q < -1000 ∧ Arith.trunc (A.fl (A.fl ((2 * q : ℤ) : ℝ) / 2)) ≤ -900) := by
  have h0 := hA.nonneg
  have r1 := hA.round ((2 * q : ℤ) : ℝ)
  set X := A.fl ((2 * q : ℤ) : ℝ)
  have r2 := hA.round (X / 2)
  set Y := A.fl (X / 2)
  have e2 : |((2 * q : ℤ) : ℝ)| = 2 * |(q : ℝ)| := by push_cast; rw [abs_mul]; norm_num
  have hXY : |X / 2| = |X| / 2 := by rw [abs_div]; norm_num
  rw [e2] at r1
  rw [hXY] at r2
  have e3 : ((2 * q : ℤ) : ℝ) = 2 * (q : ℝ) := by push_cast; rfl
  rw [e3] at r1
  clear_value X Y
  rcases le_total 0 q with hs | hs
  · left
    rw [abs_of_nonneg hs] at hq
    have hsr : (1000 : ℝ) < q := by exact_mod_cast hq
    rw [abs_of_nonneg (a := (q : ℝ)) (by linarith)] at r1
    have r1' := abs_le.mp r1
    have hX0 : (1998 : ℝ) ≤ X := by nlinarith
    rw [abs_of_nonneg (a := X) (by linarith)] at r2
    have r2' := abs_le.mp r2
    have hY1 : (900 : ℝ) ≤ Y := by nlinarith
    refine ⟨hq, ?_⟩
    unfold Arith.trunc
    rw [if_pos (by linarith)]
    exact Int.le_floor.mpr (by exact_mod_cast hY1)
  · right
    rw [abs_of_nonpos hs] at hq
    have hq' : q < -1000 := by omega
    have hsr : (q : ℝ) < -1000 := by exact_mod_cast hq'
    rw [abs_of_nonpos (a := (q : ℝ)) (by linarith)] at r1
    have r1' := abs_le.mp r1
    have hX0 : X ≤ -1998 := by nlinarith
    rw [abs_of_nonpos (a := X) (by linarith)] at r2
    have r2' := abs_le.mp r2
    have hY1 : Y ≤ -900 := by nlinarith
    refine ⟨hq', ?_⟩
    unfold Arith.trunc
    rw [if_neg (by linarith)]
    exact Int.ceil_le.mpr (by push_cast; linarith)

/-- C131: `degrees2noll` in any floating point arithmetic with `u ≤ 1 / 2048` is the exact function. -/
theorem C131_degrees2noll (hA : A.Rounds u) (hu : u ≤ 1 / 2048) (D : List (ℤ × ℤ)) : A.degrees2noll D = degrees2noll D := by
  unfold Arith.degrees2noll degrees2noll
  split_ifs with hany
  · rfl
  refine mapM_congr' fun p hp => ?_
  have hpar : (p.1 - p.2) % 2 = 0 := by
    by_contra hc
    exact hany (List.any_eq_true.mpr ⟨p, hp, by simpa using hc⟩)
  have h0 := hA.nonneg
  obtain ⟨q, hq⟩ : ∃ q, p.2 + p.1 * (p.1 + 2) = 2 * q := by
    have h1 : (p.1 * (p.1 + 1)) % 2 = 0 := Int.even_iff.mp (Int.even_mul_succ_self p.1)
    have h2 : p.2 + p.1 * (p.1 + 2) = p.1 * (p.1 + 1) - (p.1 - p.2) + 2 * p.1 := by ring
    exact ⟨(p.2 + p.1 * (p.1 + 2)) / 2, by omega⟩
  rw [hq, Int.mul_tdiv_cancel_left _ (by norm_num)]
  by_cases hbig : |q| ≤ 1000
  · have w : ∀ z : ℤ, |z| ≤ 2000 → A.fl z = z := fun z hz => hA.whole z (by
      have : |(z : ℝ)| ≤ 2000 := by exact_mod_cast hz
      nlinarith)
    have hb := abs_le.mp hbig
    rw [w _ (abs_le.mpr ⟨by omega, by omega⟩)]
    rw [show ((2 * q : ℤ) : ℝ) / 2 = (q : ℝ) by push_cast; ring, w _ (by omega), trunc_int]
  · -- out of range on both sides
    push Not at hbig
    have hlen := table_facts.1
    rcases big_trunc hA hu hbig with ⟨h1, h2⟩ | ⟨h1, h2⟩
    · unfold npIndex
      rw [hlen, if_pos (Or.inr (by omega)), if_pos (Or.inr (by omega))]
    · unfold npIndex
      rw [hlen, if_pos (Or.inl (by omega)), if_pos (Or.inl (by omega))]

end

end PyOTF
