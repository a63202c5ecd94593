import Verif.Props.C28_C30_Names
import Verif.Lemmas.ZernikeFloat
import Mathlib.Analysis.SpecialFunctions.Gamma.Basic

/-!
# C141: Zernike degrees given as floats
-/

namespace PyOTF

open Finset

/-! ## Specification -/

/-- The Zernike radial polynomial with factorials replaced by the Gamma function: `R_n^a(r) = Σ_j (-1)^j Γ(n-j+1) / (j! Γ((n+a)/2-j+1) ((n-a)/2-j)!) r^(n-2j)` for `n = a + 2k` and any
real `a >= 0`. -/
noncomputable def radialGamma (a : ℝ) (k : ℕ) (r : ℝ) : ℝ :=
  ∑ j ∈ range (k + 1), (-1 : ℝ) ^ j * Real.Gamma (a + 2 * k - j + 1) / ((j.factorial : ℝ) * Real.Gamma (a + k - j + 1) * ((k - j).factorial : ℝ)) * r ^ (a + 2 * k - 2 * j)

/-- An index argument that holds the integers `a`, as integers or as floats. -/
def DegArr.Holds (x : DegArr) (a : Arr ℤ) : Prop := x = .ints a ∨ x = .floats (a.map PyFloat.ofInt)

/-! ## Radial part -/

theorem binomFloat_gamma (a : ℝ) (ha : 0 ≤ a) (k : ℕ) : (∏ i ∈ range k, (a + i + 1) / (i + 1)) = Real.Gamma (a + k + 1) / ((k.factorial : ℝ) * Real.Gamma (a + 1)) := by
  have h1 : Real.Gamma (a + 1) ≠ 0 := (Real.Gamma_pos_of_pos (by linarith)).ne'
  induction k with
  | zero => simp [h1]
  | succ k ih =>
    rw [prod_range_succ, ih, show a + ((k + 1 : ℕ) : ℝ) + 1 = (a + k + 1) + 1 by push_cast; ring, Real.Gamma_add_one (s := a + k + 1) (by positivity), Nat.factorial_succ]
    have : (k.factorial : ℝ) ≠ 0 := by positivity
    push_cast
    rw [div_mul_div_comm, div_eq_div_iff (by positivity) (by positivity)]
    ring

theorem jacobiTerm_gamma (a : ℝ) (ha : 0 ≤ a) (k s : ℕ) (hs : s ≤ k) :
    Real.Gamma (a + k + 1) / ((k.factorial : ℝ) * Real.Gamma (a + 1)) * (∏ i ∈ range s, ((-(k : ℝ) + i) * (k + a + 1 + i)) / ((a + 1 + i) * (i + 1)))
      = (-1) ^ s * Real.Gamma (a + k + s + 1) / (((k - s).factorial : ℝ) * Real.Gamma (a + s + 1) * (s.factorial : ℝ)) := by
  induction s with
  | zero => simp
  | succ s ih =>
    have g1 : Real.Gamma (a + s + 1) ≠ 0 := (Real.Gamma_pos_of_pos (by positivity)).ne'
    rw [prod_range_succ, ← mul_assoc, ih (by omega), show a + k + ((s + 1 : ℕ) : ℝ) + 1 = (a + k + s + 1) + 1 by push_cast; ring, Real.Gamma_add_one (s := a + k + s + 1) (by positivity),
      show a + ((s + 1 : ℕ) : ℝ) + 1 = (a + s + 1) + 1 by push_cast; ring, Real.Gamma_add_one (s := a + s + 1) (by positivity), Nat.factorial_succ]
    obtain ⟨d, rfl⟩ : ∃ d, k = s + 1 + d := ⟨k - (s + 1), by omega⟩
    rw [show s + 1 + d - s = d + 1 by omega, show s + 1 + d - (s + 1) = d by omega, Nat.factorial_succ]
    have p1 : (a + s + 1) ≠ 0 := by positivity
    have p2 : (a + 1 + s) ≠ 0 := by positivity
    rw [div_mul_div_comm, div_eq_div_iff (by positivity) (by positivity)]
    push_cast
    ring

/-- C141: with real degrees, `|m|` any non-negative number and `n - |m|` an even whole number, the radial part is the textbook polynomial with the Gamma function in the place of factorials, up to the
sign `(-1)^⌊|m|⌋`. -/
theorem C141_radial (n m : ℚ) (k : ℕ) (h : n = |m| + 2 * k) (r : ℝ) (h0 : 0 ≤ r) (hr : r ≤ 1) :
    radialZernikeFloat r n m = (-1) ^ ⌊|m|⌋ * radialGamma ((|m| : ℚ) : ℝ) k r := by
  have ha : (0 : ℝ) ≤ ((|m| : ℚ) : ℝ) := by exact_mod_cast abs_nonneg m
  rw [radialZernikeFloat, if_pos hr]
  split_ifs with hc
  · obtain ⟨rfl, rfl⟩ := hc
    have hk : k = 0 := by
      have : (k : ℚ) = 0 := by simpa using h
      exact_mod_cast this
    subst hk
    simp [radialGamma]
  · have e1 : ⌊(n + |m|) / 2⌋ = ⌊|m|⌋ + k := by
      rw [h, show (|m| + 2 * (k : ℚ) + |m|) / 2 = |m| + ((k : ℤ) : ℚ) by push_cast; ring, Int.floor_add_intCast]
    have e2 : ⌊(n - |m|) / 2⌋ = k := by
      rw [h, show (|m| + 2 * (k : ℚ) - |m|) / 2 = ((k : ℤ) : ℚ) by push_cast; ring, Int.floor_intCast]
    simp only [e1, e2, Int.toNat_natCast]
    generalize hA : ((|m| : ℚ) : ℝ) = a at ha ⊢
    rw [zpow_add₀ (by norm_num), zpow_natCast, mul_assoc, mul_assoc]
    congr 1
    rw [evalJacobiFloat, binomFloat_gamma a ha, radialGamma, mul_sum, mul_sum, mul_sum, ← sum_range_reflect]
    refine sum_congr rfl fun j hj => ?_
    have hj' : j ≤ k := by have := mem_range.mp hj; omega
    obtain ⟨s, rfl⟩ := Nat.exists_eq_add_of_le hj'
    rw [show j + s + 1 - 1 - j = s by omega, ← mul_assoc (Real.Gamma (a + ((j + s : ℕ) : ℝ) + 1) / _), jacobiTerm_gamma a ha (j + s) s (by omega), show j + s - s = j by omega,
      show j + s - j = s by omega, show (1 - (1 - 2 * r ^ 2)) / 2 = r ^ 2 by ring,
      show a + 2 * ((j + s : ℕ) : ℝ) - 2 * j = a + ((2 * s : ℕ) : ℝ) by push_cast; ring, Real.rpow_add_of_nonneg h0 ha (by positivity), Real.rpow_natCast,
      show a + 2 * ((j + s : ℕ) : ℝ) - j + 1 = a + ((j + s : ℕ) : ℝ) + s + 1 by push_cast; ring, show a + ((j + s : ℕ) : ℝ) - j + 1 = a + s + 1 by push_cast; ring, pow_mul]
    have : (-1 : ℝ) ^ (j + s) * (-1) ^ s = (-1) ^ j := by rw [pow_add, mul_assoc, ← mul_pow]; simp
    rw [← this]
    ring

/-! ## Rim -/

open Polynomial in
/-- `P_k^(a,0)(-1) = (-1)^k` for every `a >= 0`. -/
theorem evalJacobiFloat_neg_one (k : ℕ) (a : ℝ) (ha : 0 ≤ a) : evalJacobiFloat k a (-1) = (-1) ^ k := by
  set p : ℝ[X] := ∑ s ∈ range (k + 1), C ((∏ i ∈ range k, (1 / ((i : ℝ) + 1))) * ∏ i ∈ range s, ((-(k : ℝ) + i) / (i + 1))) *
    ((∏ i ∈ range s, (X + C ((k : ℝ) + 1 + i))) * ∏ i ∈ Ico s k, (X + C ((i : ℝ) + 1))) with hp
  have key : ∀ a : ℝ, 0 ≤ a → evalJacobiFloat k a (-1) = p.eval a := by
    intro a ha
    rw [evalJacobiFloat, hp, eval_finsetSum, mul_sum]
    refine sum_congr rfl fun s hs => ?_
    have hs' : s ≤ k := by have := mem_range.mp hs; omega
    rw [eval_mul, eval_mul, eval_C, eval_prod, eval_prod]
    simp only [eval_add, eval_X, eval_C]
    rw [show ((1 : ℝ) - -1) / 2 = 1 by norm_num, one_pow, mul_one, prod_div_distrib, ← prod_range_mul_prod_Ico _ hs', prod_div_distrib, prod_mul_distrib, prod_mul_distrib, prod_div_distrib, prod_div_distrib]
    have d1 : (∏ i ∈ range s, (a + 1 + (i : ℝ))) ≠ 0 := prod_ne_zero_iff.mpr fun i _ => by positivity
    have d2 : (∏ i ∈ range s, ((i : ℝ) + 1)) ≠ 0 := prod_ne_zero_iff.mpr fun i _ => by positivity
    have d3 : (∏ i ∈ range k, ((i : ℝ) + 1)) ≠ 0 := prod_ne_zero_iff.mpr fun i _ => by positivity
    have q1 : (∏ i ∈ range s, (a + (i : ℝ) + 1)) = ∏ i ∈ range s, (a + 1 + (i : ℝ)) := prod_congr rfl fun i _ => by ring
    have q2 : (∏ i ∈ Ico s k, (a + (i : ℝ) + 1)) = ∏ i ∈ Ico s k, (a + ((i : ℝ) + 1)) := prod_congr rfl fun i _ => by ring
    have q3 : (∏ i ∈ range s, ((k : ℝ) + a + 1 + (i : ℝ))) = ∏ i ∈ range s, (a + ((k : ℝ) + 1 + i)) := prod_congr rfl fun i _ => by ring
    rw [q1, q2, q3, prod_const_one]
    field_simp
  have hnat : ∀ m : ℕ, p.eval (m : ℝ) = (-1) ^ k := by
    intro m
    rw [← key m (by positivity), evalJacobiFloat_nat]
    have h1 := radPoly_textbook m k 1
    rw [textbook_one, mul_one, radPoly, one_pow, mul_one] at h1
    have h2 : evalJacobi k m (-1) = ∑ s ∈ range (k + 1), (-1 : ℝ) ^ s * (k.choose s : ℝ) * ((m + k + s).choose k : ℝ) * 1 ^ (2 * s) := by
      rw [evalJacobi]
      refine sum_congr rfl fun s _ => ?_
      rw [show ((-1 : ℝ) - 1) / 2 = -1 by norm_num, one_pow]
      ring
    rw [← h2] at h1
    have h3 : ((-1 : ℝ) ^ (m + k)) * (-1) ^ (m + k) = 1 := by rw [← mul_pow]; simp
    have h4 : ((-1 : ℝ) ^ m) * (-1) ^ m = 1 := by rw [← mul_pow]; simp
    calc evalJacobi k m (-1) = (-1) ^ (m + k) * ((-1) ^ (m + k) * evalJacobi k m (-1)) := by rw [← mul_assoc, h3, one_mul]
      _ = (-1) ^ k := by rw [h1, pow_add, mul_assoc, mul_comm ((-1 : ℝ) ^ k), ← mul_assoc, h4, one_mul]
  have hp0 : p - C ((-1 : ℝ) ^ k) = 0 := by
    refine eq_zero_of_infinite_isRoot _ (Set.Infinite.mono (s := Set.range ((↑) : ℕ → ℝ)) ?_ (Set.infinite_range_of_injective Nat.cast_injective))
    rintro _ ⟨m, rfl⟩
    simp [IsRoot, hnat]
  rw [key a ha, sub_eq_zero.mp hp0, eval_C]

/-- C141: the radial part is `±1` on the rim for real degrees, too. -/
theorem C141_rim (n m : ℚ) (k : ℕ) (h : n = |m| + 2 * k) : radialZernikeFloat 1 n m = (-1) ^ ⌊|m|⌋ := by
  have ha : (0 : ℝ) ≤ ((|m| : ℚ) : ℝ) := by exact_mod_cast abs_nonneg m
  rw [radialZernikeFloat, if_pos le_rfl]
  split_ifs with hc
  · obtain ⟨rfl, rfl⟩ := hc
    simp
  · have e1 : ⌊(n + |m|) / 2⌋ = ⌊|m|⌋ + k := by
      rw [h, show (|m| + 2 * (k : ℚ) + |m|) / 2 = |m| + ((k : ℤ) : ℚ) by push_cast; ring, Int.floor_add_intCast]
    have e2 : ⌊(n - |m|) / 2⌋ = k := by
      rw [h, show (|m| + 2 * (k : ℚ) - |m|) / 2 = ((k : ℤ) : ℚ) by push_cast; ring, Int.floor_intCast]
    simp only [e1, e2, Int.toNat_natCast, Real.one_rpow, mul_one, one_pow]
    rw [show (1 : ℝ) - 2 = -1 by norm_num, evalJacobiFloat_neg_one k _ ha, zpow_add₀ (by norm_num), zpow_natCast, mul_assoc, ← mul_pow]
    simp

/-! ## Modes -/

/-- C141: a mode is not identically zero only if both degrees are finite and `n - |m|` is an even whole number; others, infinite degrees included, are silently zero. -/
theorem C141_zero_mode (n m : PyFloat) (h : ¬ ∃ (p q : ℚ) (k : ℤ), n = .fin p ∧ m = .fin q ∧ p - |q| = 2 * k) (r t : ℝ) (norm : Bool) : zernikeFloat1 r t n m norm = 0 := by
  cases n <;> cases m <;> try rfl
  rename_i p q
  have : evenDiff (.fin p) (.fin q) = false := by
    rw [← Bool.not_eq_true, evenDiff_iff]
    exact fun ⟨k, hk⟩ => h ⟨p, q, k, rfl, rfl, hk⟩
  simp [zernikeFloat1, this]

/-- C141: every other mode: radial part, sine or cosine of `|m| θ`, and the usual norm. -/
theorem C141_mode (n m : ℚ) (k : ℕ) (h : n = |m| + 2 * k) (r t : ℝ) (h0 : 0 ≤ r) (norm : Bool) :
    zernikeFloat1 r t (.fin n) (.fin m) norm = (if r ≤ 1 then (-1) ^ ⌊|m|⌋ * radialGamma ((|m| : ℚ) : ℝ) k r else 0) *
      (if m < 0 then Real.sin (((|m| : ℚ) : ℝ) * t) else Real.cos (((|m| : ℚ) : ℝ) * t)) * (if norm then (if m = 0 then Real.sqrt (n + 1) else Real.sqrt (2 * (n + 1))) else 1) := by
  have e : evenDiff (.fin n) (.fin m) = true := evenDiff_iff.mpr ⟨k, by rw [h]; push_cast; ring⟩
  have er : radialZernikeFloat r n |m| = if r ≤ 1 then (-1) ^ ⌊|m|⌋ * radialGamma ((|m| : ℚ) : ℝ) k r else 0 := by
    split_ifs with hr
    · rw [C141_radial n |m| k (by rw [abs_abs]; exact h) r h0 hr, abs_abs]
    · rw [radialZernikeFloat, if_neg hr]
  simp only [zernikeFloat1, e, if_true, er, abs_eq_zero]
  cases norm <;> by_cases hm : m < 0 <;> simp [hm]

/-- C141: with an azimuthal degree that is not a whole number a mode is no function on the disk: on the rim, the sine modes have opposite values, not zero, on the two sides of the line `θ = ±π`
(`cart2pol` gives angles of both sides of it). -/
theorem C141_jump (n m : ℚ) (k : ℕ) (h : n = |m| + 2 * k) (hm : m < 0) (hz : ∀ z : ℤ, m ≠ z) (norm : Bool) :
    zernikeFloat1 1 (-Real.pi) (.fin n) (.fin m) norm = -zernikeFloat1 1 Real.pi (.fin n) (.fin m) norm ∧ zernikeFloat1 1 Real.pi (.fin n) (.fin m) norm ≠ 0 := by
  have e : evenDiff (.fin n) (.fin m) = true := evenDiff_iff.mpr ⟨k, by rw [h]; push_cast; ring⟩
  have er := C141_rim n |m| k (by rw [abs_abs]; exact h)
  have hn : (0 : ℝ) < (n : ℝ) + 1 := by
    have : (0 : ℚ) ≤ n := by rw [h]; positivity
    have : (0 : ℝ) ≤ (n : ℝ) := by exact_mod_cast this
    linarith
  have hs : Real.sin (((|m| : ℚ) : ℝ) * Real.pi) ≠ 0 := by
    rw [Real.sin_ne_zero_iff]
    intro z hz'
    have := mul_right_cancel₀ Real.pi_ne_zero hz'
    rw [abs_of_neg hm] at this
    push_cast at this
    exact hz (-z) (by push_cast; exact_mod_cast (by linarith : (m : ℝ) = -(z : ℝ)))
  simp only [zernikeFloat1, e, if_true, er, abs_eq_zero, hm, hm.ne, decide_true, if_false, mul_neg, Real.sin_neg]
  constructor
  · cases norm <;> simp
  · have hp : ((-1 : ℝ) ^ ⌊|(|m|)|⌋) ≠ 0 := zpow_ne_zero _ (by norm_num)
    have hq : Real.sqrt (2 * ((n : ℝ) + 1)) ≠ 0 := (Real.sqrt_pos.mpr (by linarith)).ne'
    cases norm
    · exact mul_ne_zero hp hs
    · exact mul_ne_zero (mul_ne_zero hp hs) hq

/-! ## Arguments -/

/-- C141: Noll indices must be integers: a float array, also of whole numbers, is a `ValueError`; so are float degrees in `degrees2noll`. -/
theorem C141_noll_floats (r theta : Arr ℝ) (a : Arr PyFloat) (ha : a.shape.length < 2) (norm : Bool) (x : DegArr) :
    zernikeN r theta [.floats a] norm = .error .valueError ∧ noll2degreesN (.floats a) = .error .valueError ∧
      degrees2nollN (.floats a) x = .error .valueError ∧ degrees2nollN x (.floats a) = .error .valueError := by
  refine ⟨?_, rfl, rfl, by cases x <;> rfl⟩
  obtain ⟨s, g⟩ := a
  match s, ha with
  | [], _ => rfl
  | [_], _ => rfl

theorem zip_ofInt (a b : List ℤ) : List.zip (a.map PyFloat.ofInt) (b.map PyFloat.ofInt) = (List.zip a b).map fun p => (PyFloat.ofInt p.1, PyFloat.ofInt p.2) := by
  rw [List.zip_map]
  rfl

/-- A pair of degrees as floats. -/
def pairFloat (p : ℤ × ℤ) : PyFloat × PyFloat := (PyFloat.ofInt p.1, PyFloat.ofInt p.2)

theorem toFloats_of_holds {x : DegArr} {a : Arr ℤ} (h : x.Holds a) : x.toFloats = a.map PyFloat.ofInt := by
  rcases h with rfl | rfl <;> rfl

theorem degreesFloat_whole {args : List DegArr} {ints : List (Arr ℤ)} (h : List.Forall₂ DegArr.Holds args ints) (hn : ∀ a, args = [.floats a] → 2 ≤ a.shape.length)
    (h1 : ∀ a, args ≠ [.ints a]) : zernikeDegreesFloat args = (zernikeDegrees ints).map (List.map pairFloat) := by
  match args, ints, h with
  | [], _, .nil => rfl
  | [x], _, .cons (b := a) hx .nil =>
    rcases hx with rfl | rfl
    · exact absurd rfl (h1 a)
    · have h2 := hn _ rfl
      obtain ⟨s, g⟩ := a
      match s, h2 with
      | [k, c], _ =>
        simp only [zernikeDegreesFloat, zernikeDegrees, DegArr.toFloats, Arr.map]
        split_ifs
        · simp only [Except.map, List.map_map]
          rfl
        · rfl
      | _ :: _ :: _ :: _, _ => rfl
  | [x, y], _, .cons (b := a) hx (.cons (b := b) hy .nil) =>
    simp only [zernikeDegreesFloat, zernikeDegrees, toFloats_of_holds hx, toFloats_of_holds hy, show ∀ c : Arr ℤ, (c.map PyFloat.ofInt).shape = c.shape from fun _ => rfl]
    split_ifs
    · rfl
    · rfl
    · simp only [Except.map, Arr.ravel, show ∀ c : Arr ℤ, (c.map PyFloat.ofInt).shape = c.shape from fun _ => rfl]
      rw [show (a.map PyFloat.ofInt).get = PyFloat.ofInt ∘ a.get from rfl, show (b.map PyFloat.ofInt).get = PyFloat.ofInt ∘ b.get from rfl, ← List.map_map, ← List.map_map, zip_ofInt]
      rfl
  | _ :: _ :: _ :: _, _, .cons _ (.cons _ (.cons _ _)) => rfl

theorem ints_of_mapM {args : List DegArr} {ints : List (Arr ℤ)} (h : List.Forall₂ DegArr.Holds args ints) : args.mapM DegArr.ints? = some ints ∨ args.mapM DegArr.ints? = none := by
  induction h with
  | nil => exact Or.inl rfl
  | cons hx _ ih =>
    rcases hx with rfl | rfl
    · rcases ih with ih | ih
      · left; simp [DegArr.ints?, ih]
      · right; simp [DegArr.ints?, ih]
    · right; simp [DegArr.ints?]

/-- C141: whole degrees may be given as integers or as floats, also mixed: the call returns or raises exactly the same (except a float array of Noll indices). -/
theorem C141_whole (r theta : Arr ℝ) (args : List DegArr) (ints : List (Arr ℤ)) (h : List.Forall₂ DegArr.Holds args ints)
    (hn : ∀ a, args = [.floats a] → 2 ≤ a.shape.length) (norm : Bool) : zernikeN r theta args norm = zernike r theta ints norm := by
  classical
  rcases ints_of_mapM h with h3 | h3
  · simp only [zernikeN, h3]
  · have h2 := degreesFloat_whole h hn (by rintro a rfl; simp [DegArr.ints?] at h3)
    rw [zernikeN, zernike, h2, h3]
    rcases zernikeDegrees ints with e | nm
    · rfl
    · have a1 : ((nm.map pairFloat).any fun p => !geAbs p.1 p.2) = nm.any fun p => decide (¬ |p.2| ≤ p.1) := by
        rw [List.any_map]
        congr 1
        funext p
        simp only [Function.comp, pairFloat, geAbs_int, decide_not]
      have a2 : ((nm.map pairFloat).any fun p => evenDiff p.1 p.2) = nm.any fun p => decide ((p.1 - |p.2|) % 2 = 0) := by
        rw [List.any_map]
        congr 1
        funext p
        simp only [Function.comp, pairFloat, evenDiff_int]
      simp only [Except.map, bind, Except.bind, a1, a2, List.length_map, List.map_eq_nil_iff]
      by_cases hm : (nm.any fun p => decide (¬ |p.2| ≤ p.1)) = true
      · simp only [hm, if_true]
        split_ifs <;> rfl
      · have key : ∀ (x t : ℝ) (i : ℕ), zernikeFloat1 x t ((nm.map pairFloat).getD i (.fin 0, .fin 0)).1 ((nm.map pairFloat).getD i (.fin 0, .fin 0)).2 norm
            = zernike1 x t (nm.getD i (0, 0)).1 (nm.getD i (0, 0)).2 norm := by
          intro x t i
          rw [show ((.fin 0, .fin 0) : PyFloat × PyFloat) = pairFloat (0, 0) by simp [pairFloat, PyFloat.ofInt], List.getD_map]
          refine zernikeFloat1_int _ _ _ _ ?_ _
          by_cases hi : i < nm.length
          · rw [List.getD_eq_getElem _ _ hi]
            by_contra hc
            exact hm (List.any_eq_true.mpr ⟨nm[i], List.getElem_mem hi, by simpa using hc⟩)
          · rw [List.getD_eq_default _ _ (by omega)]
            simp
        simp only [key]

/-- The degrees are real numbers `n >= |m|`, or infinite. -/
def DegreesOk (n m : PyFloat) : Prop := (∃ p q : ℚ, n = .fin p ∧ m = .fin q ∧ |q| ≤ p) ∨ n = .inf false ∧ m ≠ .nan

theorem geAbs_iff (n m : PyFloat) : geAbs n m = true ↔ DegreesOk n m := by
  rcases n with p | _ | (_ | _) <;> rcases m with q | _ | (_ | _) <;> simp [geAbs, DegreesOk]

/-- C141: with a `nan`, or `n < |m|`, the call raises `ValueError`. -/
theorem C141_bad_degrees (r theta : Arr ℝ) (args : List DegArr) (norm : Bool) (h : args.mapM DegArr.ints? = none) (nm : List (PyFloat × PyFloat))
    (hd : zernikeDegreesFloat args = .ok nm) (p : PyFloat × PyFloat) (hp : p ∈ nm) (hb : ¬ DegreesOk p.1 p.2) : zernikeN r theta args norm = .error .valueError := by
  classical
  have h4 : (nm.any fun p => !geAbs p.1 p.2) = true := List.any_eq_true.mpr ⟨p, hp, by rw [← geAbs_iff] at hb; simpa using hb⟩
  rw [zernikeN, h, hd]
  simp only [bind, Except.bind, h4, if_true]
  split_ifs <;> rfl

/-- C141: a successful call returns the modes of all degrees, as with integers. -/
theorem C141_values (r theta : Arr ℝ) (args : List DegArr) (norm : Bool) (h : args.mapM DegArr.ints? = none) (nm : List (PyFloat × PyFloat))
    (hd : zernikeDegreesFloat args = .ok nm) (hne : nm ≠ []) (hr : ∀ i, InShape i r.shape → 0 ≤ r.get i) (hrank : r.shape.length ≤ 2) (ht : theta.shape = r.shape)
    (hm : ∀ p ∈ nm, DegreesOk p.1 p.2) :
    ∃ z, zernikeN r theta args norm = .ok z ∧ z.shape = (nm.length :: r.shape).filter (· ≠ 1) ∧ ∀ k (hk : k < nm.length) i, InShape i r.shape →
      z.get (dropUnit (nm.length :: r.shape) (k :: i)) = zernikeFloat1 (r.get i) (theta.get i) nm[k].1 nm[k].2 norm := by
  classical
  have h4 : ¬ (nm.any fun p => !geAbs p.1 p.2) = true := by
    rw [List.any_eq_true]
    rintro ⟨p, hp, hc⟩
    rw [(geAbs_iff _ _).mpr (hm p hp)] at hc
    cases hc
  obtain ⟨t, ht1, ht2, ht3⟩ := broadcastTo_self theta
  rw [ht] at ht1 ht3
  set cond := nm.any (fun p => evenDiff p.1 p.2) with hc
  have main : ∀ t' : Arr ℝ, (if cond then broadcastTo r.shape theta else .ok ⟨r.shape, fun _ => 0⟩ : Py (Arr ℝ)) = .ok t' →
      (∀ k (hk : k < nm.length) i, InShape i r.shape → zernikeFloat1 (r.get i) (t'.get i) nm[k].1 nm[k].2 norm = zernikeFloat1 (r.get i) (theta.get i) nm[k].1 nm[k].2 norm) →
      ∃ z, zernikeN r theta args norm = .ok z ∧ z.shape = (nm.length :: r.shape).filter (· ≠ 1) ∧ ∀ k (hk : k < nm.length) i, InShape i r.shape →
        z.get (dropUnit (nm.length :: r.shape) (k :: i)) = zernikeFloat1 (r.get i) (theta.get i) nm[k].1 nm[k].2 norm := by
    intro t' e1 e2
    obtain ⟨z, hz, hzz⟩ : ∃ z, zernikeN r theta args norm = .ok z ∧ z = _ := by
      rw [zernikeN, h, hd]
      by_cases hcc : cond = true
      · rw [if_pos hcc] at e1
        simp only [if_neg (not_not.mpr hr), gt_iff_lt, not_lt.mpr hrank, if_false, if_neg h4, ← hc, Bind.bind, Except.bind, hne, hcc, if_true, e1]
        exact ⟨_, rfl, rfl⟩
      · rw [if_neg hcc] at e1
        obtain rfl : (⟨r.shape, fun _ => 0⟩ : Arr ℝ) = t' := by injection e1
        simp only [if_neg (not_not.mpr hr), gt_iff_lt, not_lt.mpr hrank, if_false, if_neg h4, ← hc, Bind.bind, Except.bind, hne, hcc]
        exact ⟨_, rfl, rfl⟩
    refine ⟨z, hz, by rw [hzz]; rfl, fun k hk i hi => ?_⟩
    rw [hzz]
    simp only [Arr.squeeze]
    rw [unsqueeze_dropUnit (List.Forall₂.cons hk hi)]
    simp only [List.headD_cons, List.tail_cons, List.getD_eq_getElem _ _ hk]
    exact e2 k hk i hi
  by_cases hcc : cond = true
  · exact main t (by rw [if_pos hcc]; exact ht1) fun k hk i hi => by rw [ht3 i hi]
  · refine main _ (by rw [if_neg hcc]) fun k hk i hi => ?_
    have hno : ¬ ∃ (p q : ℚ) (j : ℤ), nm[k].1 = .fin p ∧ nm[k].2 = .fin q ∧ p - |q| = 2 * j := by
      rintro ⟨p, q, j, e1, e2, e3⟩
      exact hcc (List.any_eq_true.mpr ⟨nm[k], List.getElem_mem hk, by rw [e1, e2]; exact evenDiff_iff.mpr ⟨j, e3⟩⟩)
    rw [C141_zero_mode _ _ hno, C141_zero_mode _ _ hno]

/-- The hypotheses are met: `zernike(r, theta, 2.0, 0)` is the defocus, and `zernike(r, theta, 2.5, -0.5)` is accepted. -/
example : List.Forall₂ DegArr.Holds [.floats ((⟨[], fun _ => 2⟩ : Arr ℤ).map PyFloat.ofInt), .ints ⟨[], fun _ => 0⟩] [⟨[], fun _ => 2⟩, ⟨[], fun _ => 0⟩] :=
  .cons (Or.inr rfl) (.cons (Or.inl rfl) .nil)

example : zernikeDegreesFloat [.floats ⟨[], fun _ => .fin (5/2)⟩, .floats ⟨[], fun _ => .fin (-1/2)⟩] = .ok [(.fin (5/2), .fin (-1/2))] ∧
    DegreesOk (.fin (5/2)) (.fin (-1/2)) ∧ ((5/2 : ℚ) = |(-1/2)| + 2 * (1 : ℕ)) ∧ ∀ z : ℤ, (-1/2 : ℚ) ≠ z := by
  refine ⟨rfl, Or.inl ⟨_, _, rfl, rfl, ?_⟩, ?_, fun z hz => ?_⟩
  · norm_num [abs_of_neg]
  · norm_num [abs_of_neg]
  · have : ((2 * z : ℤ) : ℚ) = ((-1 : ℤ) : ℚ) := by push_cast; linarith
    have := Int.cast_injective this
    omega

end PyOTF
