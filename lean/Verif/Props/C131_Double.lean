import Verif.Props.C131_Std

/-!
# C131: double precision
-/

namespace PyOTF

/-! ## Double precision -/

theorem double_eval {x : ℝ} (e r : ℤ) (h1 : (2 : ℝ) ^ e ≤ x) (h2 : x < 2 ^ (e + 1)) (h3 : ((r : ℝ) - 1 / 2) * 2 ^ (e - 52) ≤ x)
    (h4 : x < ((r : ℝ) + 1 / 2) * 2 ^ (e - 52)) : double x = r * 2 ^ (e - 52) := by
  have hx : 0 < x := lt_of_lt_of_le (by positivity) h1
  have hl : Int.log 2 |x| = e := by
    rw [abs_of_pos hx]
    apply le_antisymm
    · have : x < ((2 : ℕ) : ℝ) ^ (e + 1) := by exact_mod_cast h2
      have := (Int.lt_zpow_iff_log_lt (by norm_num : 1 < 2) hx).mp this
      omega
    · exact (Int.zpow_le_iff_le_log (by norm_num : 1 < 2) hx).mp (by exact_mod_cast h1)
  have hp : (0 : ℝ) < 2 ^ (e - 52) := by positivity
  rw [double, hl]
  congr 2
  rw [round_eq, Int.floor_eq_iff]
  constructor
  · have := (le_div_iff₀ hp).mpr h3
    linarith
  · have := (div_lt_iff₀ hp).mpr h4
    linarith

theorem double_whole (n : ℤ) (h : |(n : ℝ)| * (1 / 2 ^ 53) ≤ 1) : double n = n := by
  have h' : |(n : ℝ)| ≤ 2 ^ 53 := by
    rw [mul_one_div, div_le_one (by positivity)] at h
    exact h
  rcases eq_or_ne n 0 with hn | hn
  · subst hn; simp [double]
  have hpos : 0 < |(n : ℝ)| := abs_pos.mpr (by exact_mod_cast hn)
  have key : ∃ k : ℤ, (n : ℝ) / 2 ^ (Int.log 2 |(n : ℝ)| - 52) = k := by
    by_cases hl : Int.log 2 |(n : ℝ)| ≤ 52
    · obtain ⟨d, hd⟩ := Int.le.dest hl
      refine ⟨n * 2 ^ d, ?_⟩
      rw [show Int.log 2 |(n : ℝ)| - 52 = -(d : ℤ) by omega, zpow_neg, div_inv_eq_mul, zpow_natCast]
      push_cast; ring
    · push Not at hl
      have h53 : ((2 : ℕ) : ℝ) ^ (53 : ℤ) ≤ |(n : ℝ)| := (Int.zpow_le_iff_le_log (by norm_num : 1 < 2) hpos).mpr (by omega)
      have e : |(n : ℝ)| = 2 ^ 53 := le_antisymm h' (by exact_mod_cast h53)
      have el : Int.log 2 |(n : ℝ)| = 53 := by
        rw [e]
        exact_mod_cast Int.log_zpow (R := ℝ) (by norm_num : 1 < 2) 53
      rw [el]
      rcases abs_choice (n : ℝ) with h1 | h1
      · exact ⟨2 ^ 52, by rw [← h1, e]; norm_num⟩
      · exact ⟨-2 ^ 52, by rw [show (n : ℝ) = -|(n : ℝ)| by rw [h1]; ring, e]; norm_num⟩
  obtain ⟨k, hk⟩ := key
  have hp : (0 : ℝ) < 2 ^ (Int.log 2 |(n : ℝ)| - 52) := by positivity
  rw [double, hk, round_intCast, ← hk, div_mul_cancel₀ _ hp.ne']

/-- Non-vacuity of C131: double precision rounds in the required way. -/
theorem double_rounds (order : ℕ → List ℕ → ℕ → SumTree) : (Arith.mk double order).Rounds (1 / 2 ^ 53) :=
  ⟨by positivity, double_round, double_whole⟩

/-- Non-vacuity: the conversions between Noll numbers and degrees are right in double precision. -/
example (L : List ℤ) : (Arith.mk double fun _ _ n => sequential n).noll2degrees L = noll2degrees L := C131_noll2degrees (double_rounds _) (by norm_num) L

/-- Non-vacuity of `C131_profile`: a camera image of 2048 by 2048 pixels. -/
example (g : List ℕ → ℝ) : ∃ p s p' s', radialProfile ⟨[2048, 2048], g⟩ none 1 = .ok (p, s) ∧
    (Arith.mk double fun _ _ n => sequential n).radialProfile ⟨[2048, 2048], g⟩ none 1 = .ok (p', s') ∧ p'.length = p.length := by
  obtain ⟨p, s, p', s', h1, h2, h3, -⟩ := C131_profile double_sequential (double_rounds _) ⟨[2048, 2048], g⟩ (by norm_num)
  exact ⟨p, s, p', s', h1, h2, h3⟩

/-! ## A constant image -/

/-- The double precision number nearest to 0.1. -/
noncomputable def tenth : ℝ := 3602879701896397 / 2 ^ 55

theorem tenth_double : tenth = double 0.1 := by
  rw [double_eval (-4) 7205759403792794] <;> norm_num [tenth]

theorem sqrt_rings : rint (Real.sqrt (1 : ℝ)) = 1 ∧ rint (Real.sqrt (2 : ℝ)) = 1 ∧ rint (Real.sqrt (0 : ℝ)) = 0 := by
  refine ⟨by rw [Real.sqrt_one]; exact_mod_cast rint_natCast (K := ℝ) 1, ?_, by rw [Real.sqrt_zero]; exact_mod_cast rint_natCast (K := ℝ) 0⟩
  have h1 : 1.4 < Real.sqrt 2 := by rw [Real.lt_sqrt (by norm_num)]; norm_num
  have h2 : Real.sqrt 2 < 1.45 := by rw [Real.sqrt_lt' (by norm_num)]; norm_num
  have h : |Real.sqrt 2 - ((1 : ℤ) : ℝ)| < 1 / 2 := abs_lt.mpr ⟨by push_cast; linarith, by push_cast; linarith⟩
  exact rint_unique _ 1 h.le fun e => absurd e h.ne

/-- The rings of a 2 by 2 image. -/
theorem rings_two (i : List ℕ) (hi : i ∈ indices [2, 2]) : ringOf [1, 1] 1 i = if i = [1, 1] then 0 else 1 := by
  obtain ⟨h1, h2, h3⟩ := sqrt_rings
  have : i = [0, 0] ∨ i = [0, 1] ∨ i = [1, 0] ∨ i = [1, 1] := by
    simpa [indices, List.range_succ] using hi
  rcases this with h | h | h | h <;> subst h
  · norm_num [ringOf, h2]
  · simpa [ringOf] using h1
  · simpa [ringOf] using h1
  · simpa [ringOf] using h3

theorem double_neg {x : ℝ} (h : x < 0) : double x < 0 := by
  have := (abs_le.mp (double_round x)).2
  rw [abs_of_neg h] at this
  have h2 : (1 / 2 ^ 53 : ℝ) * -x < -x := by
    have : (1 / 2 ^ 53 : ℝ) < 1 := by norm_num
    nlinarith
  linarith

/-- C131: the standard deviation of a constant image - exactly 0 - can come out as NaN in double precision: the outer ring of a 2 by 2 image with the value 0.1 everywhere, with the
elements of the ring added one after the other as `np.bincount` does.  (`double` rounds ties up; the only tie in this computation goes to an even digit either way.) -/
theorem C131_std_nan (A : Arith) (hA : A = ⟨double, fun _ _ n => sequential n⟩) (data : Arr ℝ) (hd : data = ⟨[2, 2], fun _ => double 0.1⟩) :
    (∃ p s, radialProfile data none 1 = .ok (p, s) ∧ s[1]? = some (some 0)) ∧ ∃ p s, A.radialProfile data none 1 = .ok (p, s) ∧ s[1]? = some none := by
  have hR : ∀ i ∈ indices [2, 2], A.ringOf [1, 1] 1 i = if i = [1, 1] then 0 else 1 := fun i hi => by
    have := C131_rings (A := A) (u := 1 / 2 ^ 53) (by rw [hA]; exact double_rounds _) [2, 2] (by norm_num) i (mem_indices.mp hi)
    norm_num at this
    rw [this, rings_two i hi]
  rw [← tenth_double] at hd
  subst hd
  constructor
  · obtain ⟨p, s, h, -, hl, hv⟩ := C19_radial_profile ⟨[2, 2], fun _ => tenth⟩ none [1, 1] (by norm_num [radialCenter]) 1 one_pos
    have hring : ringSet [2, 2] [1, 1] 1 1 ≠ ∅ := by
      rw [← Finset.nonempty_iff_ne_empty]
      refine ⟨[0, 1], ?_⟩
      have hm : [0, 1] ∈ indices [2, 2] := by simp [indices, List.range_succ]
      have := rings_two [0, 1] hm
      rw [ringOf_eq _ _ _ rfl] at this
      simp only [ringSet, Finset.mem_filter, List.mem_toFinset]
      exact ⟨hm, by rw [this]; simp⟩
    have hm : [0, 1] ∈ indices [2, 2] := by simp [indices, List.range_succ]
    have h1 : 1 < p.length := (hl 1).mpr ⟨[0, 1], mem_indices.mp hm, by
      have := rings_two [0, 1] hm
      rw [ringOf_eq _ _ _ rfl] at this
      rw [this]; simp⟩
    refine ⟨p, s, h, ?_⟩
    rw [((hv 1 h1).2 hring).2]
    have hc : ((ringSet [2, 2] [1, 1] 1 1).card : ℝ) ≠ 0 := by
      exact_mod_cast (Finset.nonempty_iff_ne_empty.mpr hring).card_pos.ne'
    simp [stdOn, meanOn, hc]
  · have hany : ¬ ((indices [2, 2]).any (fun i => decide (A.ringOf [1, 1] 1 i < 0)) = true) := by
      rw [List.any_eq_true]
      rintro ⟨i, hi, h⟩
      rw [hR i hi] at h
      split_ifs at h <;> simp at h
    have hbin : (indices [2, 2]).foldr (fun i m => max ((A.ringOf [1, 1] 1 i).toNat + 1) m) 0 = 2 := by
      have : ∀ i ∈ indices [2, 2], A.ringOf [1, 1] 1 i = if i = [1, 1] then 0 else 1 := hR
      simp only [indices, List.range_succ, List.range_zero, List.nil_append, List.flatMap_cons, List.flatMap_nil, List.map_cons, List.map_nil, List.cons_append,
        List.append_nil, List.foldr_cons, List.foldr_nil] at this ⊢
      simp only [List.mem_cons, forall_eq_or_imp] at this
      simp [this.1, this.2.1, this.2.2.1, this.2.2.2.1]
    have hin : (indices [2, 2]).filter (fun i => (A.ringOf [1, 1] 1 i).toNat == 1) = [[0, 0], [0, 1], [1, 0]] := by
      have : ∀ i ∈ indices [2, 2], ((A.ringOf [1, 1] 1 i).toNat == 1) = decide (i ≠ [1, 1]) := fun i hi => by
        rw [hR i hi]; by_cases h : i = [1, 1] <;> simp [h]
      rw [List.filter_congr this]
      decide
    obtain ⟨p, s, h, hp, hs⟩ : ∃ p s, A.radialProfile ⟨[2, 2], fun _ => tenth⟩ none 1 = .ok (p, s) ∧ _ = p ∧ _ = s := by
      simp only [Arith.radialProfile, show radialCenter [2, 2] none = .ok [1, 1] by norm_num [radialCenter], bind, Except.bind, pure, Except.pure]
      rw [if_neg hany]
      exact ⟨_, _, rfl, rfl, rfl⟩
    refine ⟨p, s, h, ?_⟩
    rw [← hs, hbin]
    simp only [List.getElem?_map, List.getElem?_range (by norm_num : 1 < 2), Option.map_some, hin, List.length_cons, List.length_nil]
    rw [if_neg (by norm_num), hA]
    simp only [sequential, SumTree.sum, Nat.zero_add]
    have d1 : double (0 + tenth) = tenth := by rw [double_eval (-4) 7205759403792794] <;> norm_num [tenth]
    have d2 : double (tenth + tenth) = 7205759403792794 / 2 ^ 55 := by rw [double_eval (-3) 7205759403792794] <;> norm_num [tenth]
    have d3 : double (7205759403792794 / 2 ^ 55 + tenth) = 5404319552844596 / 2 ^ 54 := by rw [double_eval (-2) 5404319552844596] <;> norm_num [tenth]
    have d4 : double (5404319552844596 / 2 ^ 54 / 3) = 7205759403792795 / 2 ^ 56 := by rw [double_eval (-4) 7205759403792795] <;> norm_num
    have q1 : double (tenth ^ 2) = 5764607523034236 / 2 ^ 59 := by rw [double_eval (-7) 5764607523034236] <;> norm_num [tenth]
    have q2 : double (0 + 5764607523034236 / 2 ^ 59) = 5764607523034236 / 2 ^ 59 := by rw [double_eval (-7) 5764607523034236] <;> norm_num
    have q3 : double (5764607523034236 / 2 ^ 59 + 5764607523034236 / 2 ^ 59) = 5764607523034236 / 2 ^ 58 := by
      rw [double_eval (-6) 5764607523034236] <;> norm_num
    have q4 : double (5764607523034236 / 2 ^ 58 + 5764607523034236 / 2 ^ 59) = 8646911284551354 / 2 ^ 58 := by
      rw [double_eval (-6) 8646911284551354] <;> norm_num
    have q5 : double (8646911284551354 / 2 ^ 58 / 3) = 5764607523034236 / 2 ^ 59 := by rw [double_eval (-7) 5764607523034236] <;> norm_num
    have q6 : double ((7205759403792795 / 2 ^ 56) ^ 2) = 5764607523034237 / 2 ^ 59 := by rw [double_eval (-7) 5764607523034237] <;> norm_num
    have e3 : ((0 + 1 + 1 + 1 : ℕ) : ℝ) = 3 := by norm_num
    simp only [e3, d1, d2, d3, d4, q1, q2, q3, q4, q5, q6]
    rw [npSqrt, if_pos (double_neg (by norm_num))]
    rfl

end PyOTF
