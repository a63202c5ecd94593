import Verif.Model.Zernike
import Mathlib.Tactic.IntervalCases
import Mathlib.Order.Interval.Finset.Defs
import Mathlib.Data.Int.Interval

/-!
# C22–C24: Noll indices
-/

namespace PyOTF

/-! ## Specification -/

/-- Admissible radial/azimuthal degrees. -/
def Admissible (n m : ℤ) : Prop := |m| ≤ n ∧ (n - m) % 2 = 0

instance (n m : ℤ) : Decidable (Admissible n m) := by unfold Admissible; infer_instance

/-- Noll's index (R. Noll 1976): modes are numbered by increasing `n`, then `|m|`; within a pair the
even number belongs to the cosine mode (`m > 0`). -/
def nollStd (n m : ℤ) : ℤ :=
  n * (n + 1) / 2 + |m| +
    (if (0 < m ∧ (n % 4 = 0 ∨ n % 4 = 1)) ∨ (m < 0 ∧ (n % 4 = 2 ∨ n % 4 = 3)) then 0 else 1)

/-! ## The real-valued formula for `n` -/

theorem radialDegree_eq {p n : ℕ} (h1 : n * (n + 1) ≤ 2 * p) (h2 : 2 * p ≤ n * (n + 3)) :
    radialDegree p = n := by
  rw [radialDegree, Int.ceil_eq_iff]
  have a1 : ((n : ℝ) * (n + 1)) ≤ 2 * p := by exact_mod_cast h1
  have a2 : (2 * p : ℝ) ≤ n * (n + 3) := by exact_mod_cast h2
  have hn : (0 : ℝ) ≤ n := Nat.cast_nonneg n
  push_cast
  constructor
  · have : (2 * (n : ℝ) + 1) < Real.sqrt (9 + 8 * p) := Real.lt_sqrt_of_sq_lt (by nlinarith)
    linarith
  · have : Real.sqrt (9 + 8 * p) ≤ 2 * n + 3 := by
      rw [Real.sqrt_le_left (by positivity)]; nlinarith
    linarith

/-! ## Finite table facts -/

/-- Everything about the two tables, for all 120 positions. -/
theorem table_facts : nollMapping.length = 120 ∧ nollInverse.length = 120 ∧
    (∀ k ∈ List.range 120, nollMapping.getD (nollInverse.getD k 0) 0 = k + 1 ∧
      nollInverse.getD k 0 < 120) ∧
    (∀ p ∈ List.range 120, 1 ≤ nollMapping.getD p 0 ∧ nollMapping.getD p 0 ≤ 120 ∧
      nollInverse.getD (nollMapping.getD p 0 - 1) 0 = p) := by
  decide +kernel

theorem degree_table : ∀ n ∈ List.range 15, ∀ k ∈ List.range (n + 1),
    (nollMapping.getD ((n * (n + 1)) / 2 + k) 0 : ℤ) = nollStd n (2 * k - n) ∧
    n * (n + 1) / 2 + k < 120 := by
  decide +kernel

attribute [local irreducible] nollMapping nollInverse

/-- Position of an admissible pair. -/
theorem pos_of_admissible {n m : ℤ} (h : Admissible n m) (hn : n ≤ 14) :
    ∃ a k : ℕ, n = a ∧ a ∈ List.range 15 ∧ k ∈ List.range (a + 1) ∧ m = 2 * k - a ∧
      (m + n * (n + 2)).tdiv 2 = ((a * (a + 1) / 2 + k : ℕ) : ℤ) := by
  obtain ⟨h1, h2⟩ := h
  have h0 : 0 ≤ n := (abs_nonneg m).trans h1
  obtain ⟨b1, b2⟩ := abs_le.mp h1
  obtain ⟨a, rfl⟩ := Int.eq_ofNat_of_zero_le h0
  have hk : 0 ≤ (m + a) / 2 := by omega
  obtain ⟨k, hk'⟩ := Int.eq_ofNat_of_zero_le hk
  have hm : m = 2 * (k : ℤ) - a := by omega
  refine ⟨a, k, rfl, by rw [List.mem_range]; omega, by rw [List.mem_range]; omega, hm, ?_⟩
  have hev : (a * (a + 1)) % 2 = 0 := Nat.even_iff.mp (Nat.even_mul_succ_self a)
  have e : m + (a : ℤ) * (a + 2) = ((2 * (a * (a + 1) / 2 + k) : ℕ) : ℤ) := by
    rw [show 2 * (a * (a + 1) / 2 + k) = a * (a + 1) + 2 * k by omega, hm]
    push_cast; ring
  rw [e, Int.tdiv_eq_ediv_of_nonneg (by positivity)]
  push_cast
  omega

theorem npIndex_ok {l : List ℕ} {p : ℕ} (h : p < l.length) : npIndex l p = .ok (l.getD p 0) := by
  simp only [npIndex]
  rw [if_neg (by omega), if_neg (by omega)]
  simp

theorem degrees2noll_one {n m : ℤ} (h : Admissible n m) (hn : n ≤ 14) :
    ∃ j : ℕ, npIndex nollMapping ((m + n * (n + 2)).tdiv 2) = .ok j ∧ (j : ℤ) = nollStd n m := by
  obtain ⟨a, k, rfl, ha, hk, rfl, hp⟩ := pos_of_admissible h hn
  obtain ⟨h1, h2⟩ := degree_table a ha k hk
  rw [hp]
  exact ⟨_, npIndex_ok (by rw [table_facts.1]; exact h2), h1⟩

/-- The triangular root: every position below 120 lies in exactly one row `n ≤ 14`. -/
theorem row_exists : ∀ p ∈ List.range 120, ∃ n ∈ List.range 15, n * (n + 1) ≤ 2 * p ∧ 2 * p ≤ n * (n + 3) := by
  decide +kernel

theorem noll2degrees_one {j : ℤ} (h1 : 1 ≤ j) (h2 : j ≤ 120) :
    ∃ p : ℕ, npIndex nollInverse (j - 1) = .ok p ∧
      Admissible (radialDegree p) (2 * (p : ℤ) - radialDegree p * (radialDegree p + 2)) ∧
      radialDegree p ≤ 14 ∧
      npIndex nollMapping (((2 * (p : ℤ) - radialDegree p * (radialDegree p + 2)) +
        radialDegree p * (radialDegree p + 2)).tdiv 2) = .ok j.toNat := by
  obtain ⟨j, rfl⟩ := Int.eq_ofNat_of_zero_le (show 0 ≤ j by omega)
  have h1' : 1 ≤ j := by exact_mod_cast h1
  have h2' : j ≤ 120 := by exact_mod_cast h2
  have hr : j - 1 ∈ List.range 120 := by rw [List.mem_range]; omega
  obtain ⟨hm, hp⟩ := table_facts.2.2.1 (j - 1) hr
  have e : (j : ℤ) - 1 = ((j - 1 : ℕ) : ℤ) := by omega
  refine ⟨nollInverse.getD (j - 1) 0, ?_, ?_, ?_, ?_⟩
  · rw [e, npIndex_ok (by rw [table_facts.2.1]; omega)]
  all_goals
    set p := nollInverse.getD (j - 1) 0
    obtain ⟨n, hn, r1, r2⟩ := row_exists p (by rw [List.mem_range]; exact hp)
    rw [radialDegree_eq r1 r2]
    rw [List.mem_range] at hn
  · have r1' : (n : ℤ) * (n + 1) ≤ 2 * p := by exact_mod_cast r1
    have r2' : 2 * (p : ℤ) ≤ n * (n + 3) := by exact_mod_cast r2
    refine ⟨abs_le.mpr ⟨by linarith, by linarith⟩, ?_⟩
    have : (n : ℤ) * (n + 1) % 2 = 0 := Int.even_iff.mp (Int.even_mul_succ_self n)
    have e2 : (n : ℤ) - (2 * p - n * (n + 2)) = n * (n + 1) + 2 * (n - p) := by ring
    rw [e2]; omega
  · omega
  · rw [sub_add_cancel, Int.mul_tdiv_cancel_left _ (by norm_num),
      npIndex_ok (by rw [table_facts.1]; exact hp)]
    rw [hm]
    congr 1
    omega

/-! ## C22 -/

theorem mapM_ok {α β : Type} (f : α → Py β) (g : α → β) (l : List α) (h : ∀ a ∈ l, f a = .ok (g a)) :
    l.mapM f = .ok (l.map g) := by
  induction l with
  | nil => rfl
  | cons a l ih =>
    rw [List.mapM_cons, h a (by simp), ih fun b hb => h b (by simp [hb])]
    rfl

/-- C22: for every sequence of Noll indices in 1..120, `noll2degrees` succeeds with admissible degrees
`n ≤ 14` and `degrees2noll` maps them back. -/
theorem C22_noll_degrees_noll (L : List ℕ) (hL : ∀ j ∈ L, 1 ≤ j ∧ j ≤ 120) :
    ∃ D, noll2degrees (L.map fun (j : ℕ) => (j : ℤ)) = .ok D ∧ (∀ p ∈ D, Admissible p.1 p.2 ∧ p.1 ≤ 14) ∧
      degrees2noll D = .ok L := by
  have key : ∀ j : ℕ, ∃ d : ℤ × ℤ, 1 ≤ j ∧ j ≤ 120 →
      (do let p ← npIndex nollInverse ((j : ℤ) - 1)
          return (radialDegree p, 2 * (p : ℤ) - radialDegree p * (radialDegree p + 2)) : Py (ℤ × ℤ)) = .ok d ∧
        Admissible d.1 d.2 ∧ d.1 ≤ 14 ∧ npIndex nollMapping ((d.2 + d.1 * (d.1 + 2)).tdiv 2) = .ok j := by
    intro j
    by_cases h : 1 ≤ j ∧ j ≤ 120
    · obtain ⟨p, h1, h2, h3, h4⟩ := noll2degrees_one (j := j) (by exact_mod_cast h.1) (by exact_mod_cast h.2)
      exact ⟨(radialDegree p, 2 * (p : ℤ) - radialDegree p * (radialDegree p + 2)),
        fun _ => ⟨by rw [h1]; rfl, h2, h3, by rw [h4]; simp⟩⟩
    · exact ⟨(0, 0), fun h' => absurd h' h⟩
  choose d hd using key
  have hany : ¬ (((L.map fun (j : ℕ) => (j : ℤ)).any fun j => decide (¬ 0 < j)) = true) := by
    simp only [List.any_eq_true, not_exists, not_and, decide_eq_true_eq, List.mem_map, not_not]
    rintro _ ⟨j, hj, rfl⟩
    have := hL j hj
    omega
  refine ⟨L.map d, ?_, ?_, ?_⟩
  · rw [noll2degrees, if_neg hany, List.mapM_map]
    exact mapM_ok _ d L fun j hj => (hd j (hL j hj)).1
  · simp only [List.mem_map]
    rintro _ ⟨j, hj, rfl⟩
    exact ⟨(hd j (hL j hj)).2.1, (hd j (hL j hj)).2.2.1⟩
  · have hany : ¬ ((L.map d).any (fun p => decide ((p.1 - p.2) % 2 ≠ 0)) = true) := by
      simp only [List.any_eq_true, not_exists, not_and, decide_eq_true_eq, List.mem_map, not_not]
      rintro _ ⟨j, hj, rfl⟩
      exact (hd j (hL j hj)).2.1.2
    rw [degrees2noll, if_neg hany, List.mapM_map]
    have := mapM_ok (fun j => npIndex nollMapping (((d j).2 + (d j).1 * ((d j).1 + 2)).tdiv 2)) id L
      fun j hj => (hd j (hL j hj)).2.2.2
    rw [List.map_id] at this
    exact this

theorem nollStd_inj_row : ∀ n ∈ Finset.Icc (0 : ℤ) 14, ∀ m ∈ Finset.Icc (-14 : ℤ) 14,
    Admissible n m → 1 ≤ nollStd n m ∧ nollStd n m ≤ 120 := by
  decide +kernel

/-- C22 and C23: for every sequence of admissible pairs with `n ≤ 14`, `degrees2noll` returns Noll's
index of each, and `noll2degrees` maps it back. -/
theorem C22_degrees_noll_degrees (D : List (ℤ × ℤ)) (hD : ∀ p ∈ D, Admissible p.1 p.2 ∧ p.1 ≤ 14) :
    ∃ L : List ℕ, degrees2noll D = .ok L ∧ (∀ j ∈ L, 1 ≤ j ∧ j ≤ 120) ∧
      noll2degrees (L.map fun (j : ℕ) => (j : ℤ)) = .ok D := by
  have key : ∀ p : ℤ × ℤ, ∃ j : ℕ, Admissible p.1 p.2 ∧ p.1 ≤ 14 →
      npIndex nollMapping ((p.2 + p.1 * (p.1 + 2)).tdiv 2) = .ok j ∧ 1 ≤ j ∧ j ≤ 120 ∧
      (do let q ← npIndex nollInverse ((j : ℤ) - 1)
          return (radialDegree q, 2 * (q : ℤ) - radialDegree q * (radialDegree q + 2)) : Py (ℤ × ℤ)) = .ok p := by
    rintro ⟨n, m⟩
    by_cases h : Admissible n m ∧ n ≤ 14
    · obtain ⟨a, k, rfl, ha, hk, rfl, hp⟩ := pos_of_admissible h.1 h.2
      obtain ⟨_, h2⟩ := degree_table a ha k hk
      obtain ⟨t1, t2, t3⟩ := table_facts.2.2.2 _ (List.mem_range.mpr h2)
      refine ⟨nollMapping.getD (a * (a + 1) / 2 + k) 0, fun _ => ⟨?_, t1, t2, ?_⟩⟩
      · simp only [hp]
        exact npIndex_ok (by rw [table_facts.1]; exact h2)
      · have e : ((nollMapping.getD (a * (a + 1) / 2 + k) 0 : ℕ) : ℤ) - 1
            = ((nollMapping.getD (a * (a + 1) / 2 + k) 0 - 1 : ℕ) : ℤ) := by omega
        rw [e, npIndex_ok (by rw [table_facts.2.1]; omega), t3]
        have hev : (a * (a + 1)) % 2 = 0 := Nat.even_iff.mp (Nat.even_mul_succ_self a)
        have h2a : 2 * (a * (a + 1) / 2 + k) = a * (a + 1) + 2 * k := by
          rw [mul_add, Nat.mul_div_cancel' (Nat.dvd_of_mod_eq_zero hev)]
        rw [List.mem_range] at hk
        have hr : radialDegree (a * (a + 1) / 2 + k) = a :=
          radialDegree_eq (by rw [h2a]; omega) (by rw [h2a]; nlinarith)
        simp only [bind, Except.bind, pure, Except.pure, hr]
        congr 2
        have : (2 : ℤ) * ((a * (a + 1) / 2 + k : ℕ) : ℤ) = a * (a + 1) + 2 * k := by exact_mod_cast h2a
        rw [this]; ring
    · exact ⟨0, fun h' => absurd h' h⟩
  choose j hj using key
  have hany : ¬ (D.any (fun p => decide ((p.1 - p.2) % 2 ≠ 0)) = true) := by
    simp only [List.any_eq_true, not_exists, not_and, decide_eq_true_eq, not_not]
    exact fun p hp => (hD p hp).1.2
  refine ⟨D.map j, ?_, ?_, ?_⟩
  · rw [degrees2noll, if_neg hany]
    exact mapM_ok _ j D fun p hp => (hj p (hD p hp)).1
  · simp only [List.mem_map]
    rintro _ ⟨p, hp, rfl⟩
    exact ⟨(hj p (hD p hp)).2.1, (hj p (hD p hp)).2.2.1⟩
  · have hany : ¬ ((((D.map j).map fun (j : ℕ) => (j : ℤ)).any fun j => decide (¬ 0 < j)) = true) := by
      simp only [List.any_eq_true, not_exists, not_and, decide_eq_true_eq, List.mem_map, not_not]
      rintro _ ⟨_, ⟨p, hp, rfl⟩, rfl⟩
      have := (hj p (hD p hp)).2.1
      omega
    rw [noll2degrees, if_neg hany, List.mapM_map, List.mapM_map]
    have := mapM_ok (fun p => (do
      let q ← npIndex nollInverse ((j p : ℤ) - 1)
      return (radialDegree q, 2 * (q : ℤ) - radialDegree q * (radialDegree q + 2)) : Py (ℤ × ℤ))) id D
      fun p hp => (hj p (hD p hp)).2.2.2
    rw [List.map_id] at this
    exact this

/-! ## C23 -/

/-- C23: `degrees2noll` is Noll's numbering, for every sequence of admissible pairs in the table. -/
theorem C23_standard_numbering (D : List (ℤ × ℤ)) (hD : ∀ p ∈ D, Admissible p.1 p.2 ∧ p.1 ≤ 14) :
    ∃ L : List ℕ, degrees2noll D = .ok L ∧ L.map (fun (j : ℕ) => (j : ℤ)) = D.map fun p => nollStd p.1 p.2 := by
  have key : ∀ p : ℤ × ℤ, ∃ j : ℕ, Admissible p.1 p.2 ∧ p.1 ≤ 14 →
      npIndex nollMapping ((p.2 + p.1 * (p.1 + 2)).tdiv 2) = .ok j ∧ (j : ℤ) = nollStd p.1 p.2 := by
    intro p
    by_cases h : Admissible p.1 p.2 ∧ p.1 ≤ 14
    · obtain ⟨j, hj⟩ := degrees2noll_one h.1 h.2
      exact ⟨j, fun _ => hj⟩
    · exact ⟨0, fun h' => absurd h' h⟩
  choose j hj using key
  have hany : ¬ (D.any (fun p => decide ((p.1 - p.2) % 2 ≠ 0)) = true) := by
    simp only [List.any_eq_true, not_exists, not_and, decide_eq_true_eq, not_not]
    exact fun p hp => (hD p hp).1.2
  refine ⟨D.map j, ?_, ?_⟩
  · rw [degrees2noll, if_neg hany]
    exact mapM_ok _ j D fun p hp => (hj p (hD p hp)).1
  · rw [List.map_map]
    exact List.map_congr_left fun p hp => (hj p (hD p hp)).2

theorem nollStd_parity_table : ∀ n ∈ Finset.Icc (0 : ℤ) 14, ∀ m ∈ Finset.Icc (-14 : ℤ) 14,
    Admissible n m → ((0 < m → nollStd n m % 2 = 0) ∧ (m < 0 → nollStd n m % 2 = 1)) := by
  decide +kernel

/-- C23: even indices are cosine modes (`m > 0`), odd ones sine modes (`m < 0`); indices increase with
`n`, and within one `n` with `|m|`. -/
theorem C23_ordering {n m : ℤ} (h : Admissible n m) (hn : n ≤ 14) :
    (0 < m → nollStd n m % 2 = 0) ∧ (m < 0 → nollStd n m % 2 = 1) ∧
    (n * (n + 1) / 2 < nollStd n m ∧ nollStd n m ≤ (n + 1) * (n + 2) / 2) := by
  obtain ⟨h1, h2⟩ := abs_le.mp h.1
  have h0 := (abs_nonneg m).trans h.1
  obtain ⟨p1, p2⟩ := nollStd_parity_table n (by simp; omega) m (by simp; omega) h
  refine ⟨p1, p2, ?_⟩
  have : (n + 1) * (n + 2) / 2 = n * (n + 1) / 2 + (n + 1) := by
    rw [show (n + 1) * (n + 2) = n * (n + 1) + 2 * (n + 1) by ring, Int.add_mul_ediv_left _ _ (by norm_num)]
  rw [this, nollStd]
  have h3 := h.1
  have h4 := abs_nonneg m
  have h5 := abs_eq_zero (a := m)
  split_ifs with hc
  · have : |m| ≠ 0 := by rw [Ne, h5]; rintro rfl; simp at hc
    omega
  · omega

/-- Non-vacuity of C22/C23: defocus is Noll 4, primary spherical 11. -/
example : Admissible 2 0 ∧ Admissible 4 0 ∧ nollStd 2 0 = 4 ∧ nollStd 4 0 = 11 ∧ nollStd 1 1 = 2 ∧
    nollStd 1 (-1) = 3 := by decide

/-! ## C24 -/

/-- C24: any index below 1 is a `ValueError`. -/
theorem C24_noll_below_one (L : List ℤ) (h : ∃ j ∈ L, j < 1) : noll2degrees L = .error .valueError := by
  rw [noll2degrees, if_pos]
  obtain ⟨j, hj, hlt⟩ := h
  exact List.any_eq_true.mpr ⟨j, hj, by simp; omega⟩

theorem mapM_error {α β : Type} (f : α → Py β) (e : Err) (l : List α)
    (hall : ∀ a ∈ l, f a = .error e ∨ ∃ b, f a = .ok b) (h : ∃ a ∈ l, f a = .error e) :
    l.mapM f = .error e := by
  induction l with
  | nil => simp at h
  | cons a l ih =>
    rw [List.mapM_cons]
    rcases hall a (by simp) with ha | ⟨b, ha⟩
    · rw [ha]; rfl
    · obtain ⟨c, hc, hce⟩ := h
      have hcl : c ∈ l := by
        rcases List.mem_cons.mp hc with rfl | hc
        · rw [ha] at hce; cases hce
        · exact hc
      rw [ha, ih (fun x hx => hall x (by simp [hx])) ⟨c, hcl, hce⟩]; rfl

/-- C24: positive indices with any above 120 are an `IndexError`. -/
theorem C24_noll_above_120 (L : List ℤ) (hpos : ∀ j ∈ L, 1 ≤ j) (h : ∃ j ∈ L, 120 < j) :
    noll2degrees L = .error .indexError := by
  have hany : ¬ ((L.any fun j => decide (¬ 0 < j)) = true) := by
    simp only [List.any_eq_true, not_exists, not_and, decide_eq_true_eq, not_not]
    exact fun j hj => by have := hpos j hj; omega
  rw [noll2degrees, if_neg hany]
  have hbig : ∀ j : ℤ, 120 < j → npIndex nollInverse (j - 1) = .error .indexError := by
    intro j hj
    rw [npIndex, if_pos]
    right; rw [table_facts.2.1]; push_cast; omega
  apply mapM_error
  · intro j hj
    by_cases hb : 120 < j
    · left; rw [hbig j hb]; rfl
    · right
      obtain ⟨p, hp, _⟩ := noll2degrees_one (hpos j hj) (by omega)
      rw [hp]; exact ⟨_, rfl⟩
  · obtain ⟨j, hj, hb⟩ := h
    exact ⟨j, hj, by rw [hbig j hb]; rfl⟩

/-- C24: a parity mismatch anywhere is a `ValueError`. -/
theorem C24_parity (D : List (ℤ × ℤ)) (h : ∃ p ∈ D, (p.1 - p.2) % 2 ≠ 0) :
    degrees2noll D = .error .valueError := by
  rw [degrees2noll, if_pos]
  obtain ⟨p, hp, hne⟩ := h
  exact List.any_eq_true.mpr ⟨p, hp, by simpa using hne⟩

/-- C24: inadmissible pairs are not rejected but alias another mode: for every `n` and every `k ≥ 1`
with the position inside the table, `(n, n + 2k)` returns what the admissible pair in row `n + 1`
(or later) returns; stated outright: two pairs with the same `m + n(n+2)` get the same answer. -/
theorem C24_aliasing (n m n' m' : ℤ) (h : (n - m) % 2 = 0) (h' : (n' - m') % 2 = 0)
    (he : m + n * (n + 2) = m' + n' * (n' + 2)) : degrees2noll [(n, m)] = degrees2noll [(n', m')] := by
  simp [degrees2noll, h, h', he]

/-- C24: every pair `|m| > n` whose position falls in the table is silently accepted, with the index of
an admissible (hence different) mode. -/
theorem C24_inadmissible_accepted (n m : ℤ) (hpar : (n - m) % 2 = 0) (hbad : ¬ |m| ≤ n)
    (h0 : 0 ≤ m + n * (n + 2)) (h1 : m + n * (n + 2) < 240) :
    ∃ n' m' j, Admissible n' m' ∧ (n', m') ≠ (n, m) ∧
      degrees2noll [(n, m)] = .ok [j] ∧ degrees2noll [(n', m')] = .ok [j] := by
  have heven : (m + n * (n + 2)) % 2 = 0 := by
    have : n * (n + 1) % 2 = 0 := Int.even_iff.mp (Int.even_mul_succ_self n)
    have e : m + n * (n + 2) = n * (n + 1) + (n + m) := by ring
    rw [e]; omega
  obtain ⟨p, hp⟩ : ∃ p : ℕ, m + n * (n + 2) = 2 * (p : ℤ) := ⟨((m + n * (n + 2)) / 2).toNat, by omega⟩
  have hp120 : p < 120 := by omega
  obtain ⟨a, ha, r1, r2⟩ := row_exists p (List.mem_range.mpr hp120)
  have r1' : (a : ℤ) * (a + 1) ≤ 2 * p := by exact_mod_cast r1
  have r2' : 2 * (p : ℤ) ≤ a * (a + 3) := by exact_mod_cast r2
  have hadm : Admissible a (2 * p - a * (a + 2)) := by
    refine ⟨abs_le.mpr ⟨by linarith, by linarith⟩, ?_⟩
    have : (a : ℤ) * (a + 1) % 2 = 0 := Int.even_iff.mp (Int.even_mul_succ_self a)
    have e2 : (a : ℤ) - (2 * p - a * (a + 2)) = a * (a + 1) + 2 * (a - p) := by ring
    rw [e2]; omega
  have hok : degrees2noll [(n, m)] = .ok [nollMapping.getD p 0] := by
    have : npIndex nollMapping ((m + n * (n + 2)).tdiv 2) = .ok (nollMapping.getD p 0) := by
      rw [hp, Int.mul_tdiv_cancel_left _ (by norm_num), npIndex_ok (by rw [table_facts.1]; exact hp120)]
    simp only [degrees2noll, List.any_cons, List.any_nil, hpar]
    simp [this, pure, Except.pure, bind, Except.bind]
  refine ⟨a, 2 * p - a * (a + 2), nollMapping.getD p 0, hadm, ?_, hok, ?_⟩
  · intro h
    simp only [Prod.mk.injEq] at h
    exact hbad (h.1 ▸ h.2 ▸ hadm.1)
  · rw [← hok]
    exact C24_aliasing _ _ _ _ hadm.2 hpar (by rw [hp]; ring)

/-- C24: a negative position wraps around the end of the table (`m < -n(n+2)`), and a position outside
`-120 .. 119` is an `IndexError`. -/
theorem C24_wrap_and_range (n m : ℤ) (hpar : (n - m) % 2 = 0) :
    (∀ p : ℤ, m + n * (n + 2) = 2 * p → p < 0 → -120 ≤ p →
      degrees2noll [(n, m)] = .ok [nollMapping.getD (120 + p).toNat 0]) ∧
    (∀ p : ℤ, m + n * (n + 2) = 2 * p → (p < -120 ∨ 120 ≤ p) →
      degrees2noll [(n, m)] = .error .indexError) := by
  constructor
  · intro p hp h0 h1
    have : npIndex nollMapping ((m + n * (n + 2)).tdiv 2) = .ok (nollMapping.getD (120 + p).toNat 0) := by
      rw [hp, Int.mul_tdiv_cancel_left _ (by norm_num), npIndex, table_facts.1, if_neg (by push_cast; omega),
        if_pos h0, add_comm]
      rfl
    simp only [degrees2noll, List.any_cons, List.any_nil, hpar]
    simp [this, pure, Except.pure, bind, Except.bind]
  · intro p hp h
    have : npIndex nollMapping ((m + n * (n + 2)).tdiv 2) = .error .indexError := by
      rw [hp, Int.mul_tdiv_cancel_left _ (by norm_num), npIndex, table_facts.1, if_pos (by push_cast; omega)]
    simp only [degrees2noll, List.any_cons, List.any_nil, hpar]
    simp [this, bind, Except.bind]

/-- Concrete aliases: `(1, 3)` is taken for `(2, -2)` (Noll 5), `(-1, 1)` for piston and `(0, -2)` for
the last mode of the table. -/
example : degrees2noll [(1, 3)] = .ok [5] ∧ degrees2noll [(2, -2)] = .ok [5] ∧
    degrees2noll [(-1, 1)] = .ok [1] ∧ degrees2noll [(0, -2)] = .ok [120] ∧
    degrees2noll [(2, 1)] = .error .valueError ∧ degrees2noll [(15, 1)] = .error .indexError := by
  decide +kernel

end PyOTF
