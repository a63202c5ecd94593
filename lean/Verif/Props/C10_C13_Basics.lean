import Verif.Model.Utils
import Verif.Lemmas.Roll
import Verif.Spec.Pad
import Mathlib.Analysis.SpecialFunctions.Complex.Arg
import Mathlib.Analysis.SpecialFunctions.Sqrt

/-!
# C10 (`cart2pol`), C11 (`center_data`), C12 (`remove_bg`), C13 (`psqrt`)
-/

namespace PyOTF

/-! ## C10 -/

/-- `(ρ, θ)` is a polar decomposition of the point `(x, y)`. -/
def IsPolar (y x ρ θ : ℝ) : Prop :=
  0 ≤ ρ ∧ -Real.pi < θ ∧ θ ≤ Real.pi ∧ ρ * Real.cos θ = x ∧ ρ * Real.sin θ = y

theorem cart2pol_rho (y x : ℝ) : (cart2pol y x).1 = ‖(⟨x, y⟩ : ℂ)‖ := by
  simp only [cart2pol]
  rw [Complex.norm_eq_sqrt_sq_add_sq, add_comm]

/-- C10: `cart2pol` returns a polar decomposition. -/
theorem C10_cart2pol (y x : ℝ) : IsPolar y x (cart2pol y x).1 (cart2pol y x).2 := by
  rw [cart2pol_rho]
  refine ⟨norm_nonneg _, Complex.neg_pi_lt_arg _, Complex.arg_le_pi _, ?_, ?_⟩
  · exact Complex.norm_mul_cos_arg (⟨x, y⟩ : ℂ)
  · exact Complex.norm_mul_sin_arg (⟨x, y⟩ : ℂ)

/-- C10: it is the only one away from the origin. -/
theorem C10_cart2pol_unique (y x ρ θ : ℝ) (h : IsPolar y x ρ θ) (hρ : 0 < ρ) :
    cart2pol y x = (ρ, θ) := by
  obtain ⟨-, h1, h2, h3, h4⟩ := h
  have hz : (⟨x, y⟩ : ℂ) = ρ * (Complex.cos θ + Complex.sin θ * Complex.I) := by
    apply Complex.ext
    · simp [← h3, Complex.cos_ofReal_re, Complex.sin_ofReal_re]
    · simp [← h4, Complex.cos_ofReal_re, Complex.sin_ofReal_re]
  have ha := Complex.arg_mul_cos_add_sin_mul_I hρ (θ := θ) ⟨h1, h2⟩
  have hn : (cart2pol y x).1 = ρ := by
    simp only [cart2pol]
    rw [← h3, ← h4, Real.sqrt_eq_iff_mul_self_eq (by positivity) hρ.le]
    have := Real.sin_sq_add_cos_sq θ
    nlinarith [this]
  refine Prod.ext hn ?_
  simp only [cart2pol]
  rw [hz]; exact ha

/-- Non-vacuity: the point (x, y) = (0, 2) has radius 2 and angle π/2. -/
example : cart2pol 2 0 = (2, Real.pi / 2) :=
  C10_cart2pol_unique 2 0 2 (Real.pi / 2)
    ⟨by norm_num, by linarith [Real.pi_pos], by linarith [Real.pi_pos], by simp, by simp⟩ (by norm_num)

/-! ## C11 -/

/-- The old index of the element that a cyclic displacement by `n//2 - m` brings to `idx`:
`(idx - n//2 + m) mod n` on every axis. -/
def cyclicSource : List ℕ → List ℕ → List ℕ → List ℕ
  | n :: shape, m :: ms, i :: idx => ((i + m + (n - n / 2)) % n) :: cyclicSource shape ms idx
  | _, _, _ => []

theorem foldl_roll {α : Type} (ms : List ℕ) : ∀ (shape pre suf : List ℕ) (a : Arr α),
    a.shape.drop pre.length = shape → ms.length = shape.length → InShape suf shape →
    ((List.zip ms shape).zipIdx pre.length |>.foldl
      (fun (a : Arr α) (p : (ℕ × ℕ) × ℕ) => a.roll ((p.1.2 / 2 : ℕ) - (p.1.1 : ℤ)) p.2) a).get (pre ++ suf)
    = a.get (pre ++ cyclicSource shape ms suf) := by
  induction ms with
  | nil =>
    intro shape pre suf a h hl hs
    cases shape with
    | nil => cases hs; simp [cyclicSource]
    | cons _ _ => simp at hl
  | cons m ms ih =>
    intro shape pre suf a h hl hs
    cases shape with
    | nil => simp at hl
    | cons n shape =>
      cases hs with
      | @cons i _ suf _ hi hs =>
        simp only [List.zip_cons_cons, List.zipIdx_cons, List.foldl_cons]
        have hlen : (pre ++ [i]).length = pre.length + 1 := by simp
        have hd : (a.roll ((n / 2 : ℕ) - (m : ℤ)) pre.length).shape.drop (pre ++ [i]).length = shape := by
          show a.shape.drop _ = shape
          rw [hlen, ← List.drop_drop, h]; rfl
        have hn : a.shape.getD pre.length 0 = n := by
          have := congrArg (fun l => l.getD 0 0) h
          simpa [List.getD_eq_getElem?_getD] using this
        have := ih shape (pre ++ [i]) suf (a.roll ((n / 2 : ℕ) - (m : ℤ)) pre.length) hd
          (by simpa using hl) hs
        rw [hlen] at this
        rw [show pre ++ i :: suf = pre ++ [i] ++ suf from by simp, this]
        simp only [Arr.roll, Arr.alongAxis, roll1, hn, cyclicSource]
        congr 1
        have e : rollIdx n ((n / 2 : ℕ) - (m : ℤ)) i = (i + m + (n - n / 2)) % n := by
          zify
          rw [rollIdx_cast _ _ (by omega), ← Int.add_emod_right]
          congr 1
          push_cast [Nat.div_le_self]
          omega
        simpa using e

theorem cyclicSource_length : ∀ (shape ms idx : List ℕ), ms.length = shape.length →
    idx.length = shape.length → (cyclicSource shape ms idx).length = shape.length
  | [], [], [], _, _ => rfl
  | n :: shape, m :: ms, i :: idx, h1, h2 => by
    simp [cyclicSource, cyclicSource_length shape ms idx (by simpa using h1) (by simpa using h2)]
  | [], _ :: _, _, h, _ => by simp at h
  | _ :: _, [], _, h, _ => by simp at h
  | [], [], _ :: _, _, h => by simp at h
  | _ :: _, _ :: _, [], _, h => by simp at h

theorem cyclicSource_inShape {shape ms idx : List ℕ} (h1 : ms.length = shape.length)
    (h : InShape idx shape) : InShape (cyclicSource shape ms idx) shape := by
  induction h generalizing ms with
  | nil => cases ms <;> exact .nil
  | @cons i n idx shape hi hs ih =>
    cases ms with
    | nil => simp at h1
    | cons m ms => exact .cons (Nat.mod_lt _ (by omega)) (ih (by simpa using h1))

theorem cyclicSource_inj {shape ms i j : List ℕ} (h1 : ms.length = shape.length)
    (hi : InShape i shape) (hj : InShape j shape)
    (h : cyclicSource shape ms i = cyclicSource shape ms j) : i = j := by
  induction hi generalizing ms j with
  | nil => cases hj; rfl
  | @cons x n i shape hx _ ih =>
    cases hj with
    | @cons y _ j _ hy hj =>
      cases ms with
      | nil => simp at h1
      | cons m ms =>
        simp only [cyclicSource, List.cons.injEq] at h
        rw [ih (by simpa using h1) hj h.2]
        congr 1
        have e : x ≡ y [MOD n] := by
          have : x + (m + (n - n / 2)) ≡ y + (m + (n - n / 2)) [MOD n] := by
            simpa [Nat.ModEq, Nat.add_assoc] using h.1
          exact Nat.ModEq.add_right_cancel' _ this
        exact Nat.ModEq.eq_of_lt_of_lt e hx hy

theorem cyclicSource_centre {shape ms : List ℕ} (h : InShape ms shape) :
    cyclicSource shape ms (fftCentre shape) = ms := by
  induction h with
  | nil => rfl
  | @cons m n ms shape hm _ ih =>
    simp only [fftCentre] at ih
    simp only [fftCentre, List.map_cons, cyclicSource, ih]
    congr 1
    rw [show n / 2 + m + (n - n / 2) = m + n by omega, Nat.add_mod_right]
    exact Nat.mod_eq_of_lt hm

theorem zero_not_mem_iff (s : List ℕ) : 0 ∉ s ↔ 0 < s.prod := by
  rw [Nat.pos_iff_ne_zero, ne_eq, List.prod_eq_zero_iff]

variable {α : Type} [LinearOrder α]

theorem centerData_spec (data : Arr α) (hne : 0 ∉ data.shape) :
    ∃ c m, centerData data = .ok c ∧ c.shape = data.shape ∧ InShape m data.shape ∧
      (∀ i, InShape i data.shape → data.get i ≤ data.get m) ∧
      (∀ i, InShape i data.shape → data.get i = data.get m → i = m ∨ List.Lex (· < ·) m i) ∧
      ∀ idx, InShape idx data.shape → c.get idx = data.get (cyclicSource data.shape m idx) := by
  have hp := (zero_not_mem_iff _).mp hne
  have hl : data.ravel ≠ [] := by
    intro h
    have := ravel_length data
    rw [h] at this; simp at this; omega
  obtain ⟨k, v, hk, h0, h1, h2⟩ := argmax_spec data.ravel hl
  have hkl : k < data.ravel.length := by
    by_contra hc
    rw [List.getElem?_eq_none (by omega)] at h0; cases h0
  have hkp : k < data.shape.prod := by rw [← ravel_length]; exact hkl
  obtain ⟨m1, m2⟩ := flatten_unravel hkp
  have hv : v = data.get (unravel data.shape k) := by
    rw [List.getElem?_eq_getElem hkl, Option.some.injEq, ravel_getElem] at h0
    exact h0.symm
  have hget : ∀ i, InShape i data.shape → data.ravel[flatten data.shape i]? = some (data.get i) := by
    intro i hi
    have hlt : flatten data.shape i < data.ravel.length := by
      rw [ravel_length]; exact flatten_lt hi
    rw [List.getElem?_eq_getElem hlt, ravel_getElem, unravel_flatten hi]
  refine ⟨_, unravel data.shape k, by simp only [centerData, hk]; rfl, ?_, m1, ?_, ?_, ?_⟩
  · generalize (List.zip (unravel data.shape k) data.shape).zipIdx = L
    clear h0 h1 h2 hkl hkp m1 m2 hv hget hk hl hp hne
    have : ∀ a : Arr α, (List.foldl (fun (a : Arr α) (p : (ℕ × ℕ) × ℕ) =>
        a.roll ((p.1.2 / 2 : ℕ) - (p.1.1 : ℤ)) p.2) a L).shape = a.shape := by
      induction L with
      | nil => intro a; rfl
      | cons p L ih => intro a; rw [List.foldl_cons, ih]; rfl
    exact this data
  · intro i hi
    rw [← hv]; exact h1 _ _ (hget i hi)
  · intro i hi he
    rw [← hv] at he
    have hge : k ≤ flatten data.shape i := by
      by_contra hc
      exact absurd (h2 _ _ (not_le.mp hc) (hget i hi)) (by rw [he]; exact lt_irrefl v)
    rcases Nat.eq_or_lt_of_le hge with e | e
    · left; rw [e, unravel_flatten hi]
    · right
      have hf : flatten data.shape i < (indices data.shape).length := by
        rw [indices_length]; exact flatten_lt hi
      have := List.pairwise_iff_getElem.mp (indices_sorted data.shape) k (flatten data.shape i)
        (by omega) hf e
      rwa [indices_getElem, indices_getElem, unravel_flatten hi] at this
  · intro idx hidx
    have := foldl_roll (unravel data.shape k) data.shape [] idx data rfl m1.length hidx
    simpa using this

/-- C11: `center_data` succeeds on non-empty data and returns an array of the same shape.  `m` is the
first maximum in C (lexicographic) order; it sits at index `n//2` of every axis of the result, and every
element of the result is the original one displaced by the same cyclic offset. -/
theorem C11_center_data (data : Arr α) (hne : 0 ∉ data.shape) :
    ∃ c m, centerData data = .ok c ∧ c.shape = data.shape ∧ InShape m data.shape ∧
      (∀ i, InShape i data.shape → data.get i ≤ data.get m) ∧
      (∀ i, InShape i data.shape → data.get i = data.get m → i = m ∨ List.Lex (· < ·) m i) ∧
      c.get (fftCentre data.shape) = data.get m ∧
      ∀ idx, InShape idx data.shape → c.get idx = data.get (cyclicSource data.shape m idx) := by
  obtain ⟨c, m, h1, h2, h3, h4, h5, h6⟩ := centerData_spec data hne
  refine ⟨c, m, h1, h2, h3, h4, h5, ?_, h6⟩
  have hc : InShape (fftCentre data.shape) data.shape := by
    have : ∀ s : List ℕ, 0 ∉ s → InShape (fftCentre s) s := by
      intro s
      induction s with
      | nil => intro _; exact .nil
      | cons n s ih =>
        intro h
        simp only [List.mem_cons, not_or] at h
        exact .cons (show n / 2 < n by omega) (ih h.2)
    exact this _ hne
  rw [h6 _ hc, cyclicSource_centre h3]

/-- C11: nothing is lost – the values of the result are a rearrangement of the input values. -/
theorem C11_center_data_perm (data c : Arr α) (h : centerData data = .ok c) :
    c.ravel.Perm data.ravel := by
  have hne : 0 ∉ data.shape := by
    intro h0
    have hp : data.shape.prod = 0 := List.prod_eq_zero_iff.mpr h0
    have hl : data.ravel = [] := List.length_eq_zero_iff.mp (by rw [ravel_length, hp])
    simp [centerData, hl, argmax, bind, Except.bind] at h
  obtain ⟨c', m, h1, h2, h3, -, -, h6⟩ := centerData_spec data hne
  rw [h] at h1; cases h1
  have e : c.ravel = ((indices data.shape).map (cyclicSource data.shape m)).map data.get := by
    simp only [Arr.ravel, h2, List.map_map]
    exact List.map_congr_left fun i hi => h6 i (mem_indices.mp hi)
  rw [e]
  exact (indices_map_perm (fun i hi => cyclicSource_inShape h3.length hi)
    (fun i j hi hj he => cyclicSource_inj h3.length hi hj he)).map _

/-- C11: after `ifftshift` the maximum is at the origin. -/
theorem C11_center_data_ifftshift (data c : Arr α) (hne : 0 ∉ data.shape)
    (h : centerData data = .ok c) (i : List ℕ) (hi : InShape i data.shape) :
    data.get i ≤ (ifftshift none c).get (List.replicate data.shape.length 0) := by
  obtain ⟨c', m, h1, h2, h3, h4, -, h6, -⟩ := C11_center_data data hne
  rw [h] at h1; cases h1
  have e : (ifftshift none c).get (List.replicate data.shape.length 0) = data.get m := by
    rw [ifftshift, show (ifftshift1 : ℕ → (ℕ → α) → ℕ → α) = roll1 fun n => -(n / 2 : ℕ) from rfl,
      alongAxes_roll_all _ c _ (by simp [h2]), ← h6, h2]
    congr 1
    generalize data.shape = s at hne ⊢
    clear h6 h4 h3 h2 h hi
    induction s with
    | nil => rfl
    | cons n s ih =>
      simp only [List.mem_cons, not_or] at hne
      simp only [List.length_cons, List.replicate_succ, List.zipWith_cons_cons, fftCentre,
        List.map_cons]
      rw [ih hne.2]
      congr 1
      zify
      rw [rollIdx_cast _ _ (by omega)]
      have : ((0 : ℕ) : ℤ) - -((n : ℤ) / 2) = (n : ℤ) / 2 := by simp
      rw [this, Int.emod_eq_of_lt (by omega) (by omega)]
  rw [e]; exact h4 i hi

/-- C11: empty data are rejected (`argmax` of an empty sequence). -/
theorem C11_center_data_empty (data : Arr α) (h : 0 ∈ data.shape) :
    centerData data = .error .valueError := by
  have hp : data.shape.prod = 0 := List.prod_eq_zero_iff.mpr h
  have hl : data.ravel = [] := List.length_eq_zero_iff.mp (by rw [ravel_length, hp])
  simp [centerData, hl, argmax, bind, Except.bind]

/-- Non-vacuity of C11: `center_data([5, 9, 9, 1])` is `[1, 5, 9, 9]` (first maximum at index 4//2). -/
example : ∃ c, centerData (⟨[4], fun i => [5, 9, 9, 1].getD (i.getD 0 0) 0⟩ : Arr ℤ) = .ok c ∧
    c.ravel = [1, 5, 9, 9] := ⟨_, rfl, by decide⟩

/-! ## C12 -/

/-- `m` is the most frequent value of the list, the smallest one on ties. -/
def IsMode (l : List ℤ) (m : ℕ) : Prop :=
  (m : ℤ) ∈ l ∧ (∀ v : ℤ, l.count v ≤ l.count (m : ℤ)) ∧ ∀ v : ℤ, v < m → l.count v < l.count (m : ℤ)

theorem foldr_max_ge (l : List ℤ) (v : ℤ) (h : v ∈ l) :
    v.toNat + 1 ≤ l.foldr (fun v m => max (v.toNat + 1) m) 0 := by
  induction l with
  | nil => simp at h
  | cons x l ih =>
    simp only [List.foldr_cons]
    rcases List.mem_cons.mp h with rfl | h
    · exact le_max_left _ _
    · exact (ih h).trans (le_max_right _ _)

theorem modeOf_spec (l : List ℤ) (hl : l ≠ []) (hn : ∀ v ∈ l, 0 ≤ v) :
    ∃ m, modeOf l = .ok m ∧ IsMode l m := by
  have hb : bincount l = .ok ((List.range (l.foldr (fun v m => max (v.toNat + 1) m) 0)).map
      fun (v : ℕ) => l.count (v : ℤ)) := by
    simp only [bincount]
    rw [if_neg]
    simpa using hn
  obtain ⟨x, hx⟩ := List.exists_mem_of_ne_nil l hl
  have hxb := foldr_max_ge l x hx
  set N := l.foldr (fun v m => max (v.toNat + 1) m) 0 with hN
  obtain ⟨k, v, hk, h0, h1, h2⟩ := argmax_spec ((List.range N).map fun (v : ℕ) => l.count (v : ℤ))
    (by
      intro h
      have := congrArg List.length h
      simp at this; omega)
  refine ⟨k, by simp only [modeOf, hb, bind, Except.bind, hk], ?_⟩
  have hkN : k < N := by
    by_contra hc
    rw [List.getElem?_eq_none (by simpa using hc)] at h0; cases h0
  have hv : v = l.count (k : ℤ) := by
    rw [List.getElem?_map, List.getElem?_range hkN] at h0
    simpa using h0.symm
  have hle : ∀ w : ℤ, l.count w ≤ l.count (k : ℤ) := by
    intro w
    by_cases hw : w ∈ l
    · have hw0 := hn w hw
      have hwN := foldr_max_ge l w hw
      have := h1 w.toNat (l.count w) (by
        rw [List.getElem?_map, List.getElem?_range (by omega)]
        simp [Int.toNat_of_nonneg hw0])
      rwa [hv] at this
    · rw [List.count_eq_zero_of_not_mem hw]; exact Nat.zero_le _
  refine ⟨?_, hle, ?_⟩
  · have : 0 < l.count (k : ℤ) := lt_of_lt_of_le (List.count_pos_iff.mpr hx) (hle x)
    exact List.count_pos_iff.mp this
  · intro w hw
    by_cases hm : w ∈ l
    · have hw0 := hn w hm
      have := h2 w.toNat (l.count w) (by omega) (by
        rw [List.getElem?_map, List.getElem?_range (by omega)]
        simp [Int.toNat_of_nonneg hw0])
      rwa [hv] at this
    · rw [List.count_eq_zero_of_not_mem hm]
      exact lt_of_lt_of_le (List.count_pos_iff.mpr hx) (hle x)

/-- C12: `remove_bg(data, k)` subtracts `k` times the most frequent value (smallest on ties) from every
element of non-empty, non-negative integer data. -/
theorem C12_remove_bg (data : Arr ℤ) (k : ℝ) (hne : 0 ∉ data.shape)
    (hn : ∀ i, InShape i data.shape → 0 ≤ data.get i) :
    ∃ b m, removeBg data k = .ok b ∧ IsMode data.ravel m ∧ b.shape = data.shape ∧
      ∀ i, b.get i = data.get i - k * m := by
  obtain ⟨m, h1, h2⟩ := modeOf_spec data.ravel
    (by
      intro h
      have := ravel_length data
      have hp := (zero_not_mem_iff _).mp hne
      rw [h] at this; simp at this; omega)
    (by
      intro v hv
      obtain ⟨i, hi, rfl⟩ := List.mem_map.mp hv
      exact hn i (mem_indices.mp hi))
  exact ⟨_, m, by simp only [removeBg, h1]; rfl, h2, rfl, fun _ => rfl⟩

/-- C12: the mode is unique, so the result is determined by the English statement. -/
theorem C12_mode_unique (l : List ℤ) (m m' : ℕ) (h : IsMode l m) (h' : IsMode l m') : m = m' := by
  rcases Nat.lt_trichotomy m m' with hlt | e | hlt
  · have := h'.2.2 m (by exact_mod_cast hlt)
    have := h.2.1 m'
    omega
  · exact e
  · have := h.2.2 m' (by exact_mod_cast hlt)
    have := h'.2.1 m
    omega

/-- C12: data with a negative element, and empty data, are rejected. -/
theorem C12_remove_bg_rejects (data : Arr ℤ) (k : ℝ)
    (h : 0 ∈ data.shape ∨ ∃ i, InShape i data.shape ∧ data.get i < 0) :
    removeBg data k = .error .valueError := by
  rcases h with h | ⟨i, hi, hneg⟩
  · have hp : data.shape.prod = 0 := List.prod_eq_zero_iff.mpr h
    have hl : data.ravel = [] := List.length_eq_zero_iff.mp (by rw [ravel_length, hp])
    simp [removeBg, modeOf, hl, bincount, argmax, bind, Except.bind]
  · have : bincount data.ravel = .error .valueError := by
      simp only [bincount]
      rw [if_pos]
      simp only [List.any_eq_true, decide_eq_true_eq]
      exact ⟨_, List.mem_map.mpr ⟨i, mem_indices.mpr hi, rfl⟩, hneg⟩
    simp [removeBg, modeOf, this, bind, Except.bind]

/-- Non-vacuity of C12: in `[3, 1, 3, 1, 7]` the values 1 and 3 tie and the mode is 1. -/
example : IsMode [3, 1, 3, 1, 7] 1 := by
  refine ⟨by simp, fun v => ?_, fun v hv => ?_⟩ <;>
    simp only [List.count_cons, List.count_nil, beq_iff_eq] <;> split_ifs <;> omega

/-! ## C13 -/

/-- C13: `psqrt` is the square root of the positive part. -/
theorem C13_psqrt (x : ℝ) : 0 ≤ psqrt x ∧ psqrt x ^ 2 = max 0 x ∧ (x < 0 → psqrt x = 0) ∧
    (0 ≤ x → psqrt x ^ 2 = x) := by
  have h : 0 ≤ max 0 x := le_max_left _ _
  refine ⟨Real.sqrt_nonneg _, Real.sq_sqrt h, fun hx => ?_, fun hx => ?_⟩
  · simp [psqrt, max_eq_left hx.le]
  · rw [psqrt, Real.sq_sqrt h, max_eq_right hx]

/-- C13: monotone. -/
theorem C13_psqrt_mono {x y : ℝ} (h : x ≤ y) : psqrt x ≤ psqrt y :=
  Real.sqrt_le_sqrt (max_le_max le_rfl h)

/-- Non-vacuity: a negative and a positive input. -/
example : psqrt (-3) = 0 ∧ psqrt 4 = 2 := by
  refine ⟨(C13_psqrt (-3)).2.2.1 (by norm_num), ?_⟩
  simp only [psqrt]
  rw [show max (0 : ℝ) 4 = 2 ^ 2 by norm_num, Real.sqrt_sq (by norm_num)]

end PyOTF
