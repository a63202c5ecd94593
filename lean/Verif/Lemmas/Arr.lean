import Verif.Model.NumPy
import Mathlib.Tactic.Linarith
import Mathlib.Tactic.Ring
import Mathlib.Algebra.BigOperators.Ring.Finset
import Mathlib.Algebra.Order.BigOperators.Group.Finset
import Mathlib.Data.List.Perm.Basic
import Mathlib.Data.List.Nodup
import Mathlib.Data.List.GetD

/-! # Index bookkeeping lemmas for `Arr` -/

namespace PyOTF

theorem InShape.length {i s : List ℕ} (h : InShape i s) : i.length = s.length := h.length_eq

theorem inShape_iff {i s : List ℕ} :
    InShape i s ↔ i.length = s.length ∧ ∀ k < s.length, i.getD k 0 < s.getD k 0 := by
  induction s generalizing i with
  | nil =>
    cases i with
    | nil => exact ⟨fun _ => ⟨rfl, by simp⟩, fun _ => .nil⟩
    | cons => exact ⟨fun h => (by cases h), fun h => by simp at h⟩
  | cons n s ih =>
    cases i with
    | nil => exact ⟨fun h => (by cases h), fun h => by simp at h⟩
    | cons x i =>
      simp only [InShape, List.forall₂_cons] at ih ⊢
      rw [ih]
      constructor
      · rintro ⟨h0, h1, h2⟩
        refine ⟨by simp [h1], fun k hk => ?_⟩
        cases k with
        | zero => simpa using h0
        | succ k => simpa using h2 k (by simpa using hk)
      · rintro ⟨h1, h2⟩
        refine ⟨by simpa using h2 0 (by simp), by simpa using h1, fun k hk => ?_⟩
        simpa using h2 (k + 1) (by simpa using hk)

theorem InShape.lt {i s : List ℕ} (h : InShape i s) {k : ℕ} (hk : k < s.length) :
    i.getD k 0 < s.getD k 0 := (inShape_iff.mp h).2 k hk

theorem InShape.set {i s : List ℕ} (h : InShape i s) {k j : ℕ} (hj : j < s.getD k 0) :
    InShape (i.set k j) s := by
  rw [inShape_iff] at h ⊢
  refine ⟨by simp [h.1], fun m hm => ?_⟩
  by_cases e : k = m
  · subst e
    rw [List.getD_eq_getElem _ _ (by simp [h.1, hm])]
    simpa using hj
  · have := h.2 m hm
    rw [List.getD_eq_getElem _ _ (by simp [h.1, hm])]
    rw [List.getD_eq_getElem _ _ (by rw [h.1]; exact hm)] at this
    simpa [List.getElem_set, e] using this

theorem getD_set_self {i : List ℕ} {k j : ℕ} (hk : k < i.length) : (i.set k j).getD k 0 = j := by
  rw [List.getD_eq_getElem _ _ (by simpa using hk)]; simp

theorem getD_set_ne {i : List ℕ} {k m j : ℕ} (h : k ≠ m) : (i.set k j).getD m 0 = i.getD m 0 := by
  simp [List.getD_eq_getElem?_getD, h]

theorem set_getD_self {i : List ℕ} {k : ℕ} (hk : k < i.length) : i.set k (i.getD k 0) = i := by
  rw [List.getD_eq_getElem _ _ hk]; simp

theorem Arr.Same.refl {α : Type} (a : Arr α) : a.Same a := ⟨rfl, fun _ _ => rfl⟩

theorem Arr.Same.symm {α : Type} {a b : Arr α} (h : a.Same b) : b.Same a :=
  ⟨h.1.symm, fun i hi => (h.2 i (h.1 ▸ hi)).symm⟩

theorem Arr.Same.trans {α : Type} {a b c : Arr α} (h : a.Same b) (h' : b.Same c) : a.Same c :=
  ⟨h.1.trans h'.1, fun i hi => (h.2 i hi).trans (h'.2 i (h.1 ▸ hi))⟩

theorem mem_indices {i s : List ℕ} : i ∈ indices s ↔ InShape i s := by
  induction s generalizing i with
  | nil => cases i <;> simp [indices, InShape]
  | cons n s ih =>
    cases i with
    | nil => simp [indices, InShape]
    | cons x i => simp only [InShape] at ih ⊢; simp [indices, ← ih]

theorem indices_nodup (s : List ℕ) : (indices s).Nodup := by
  induction s with
  | nil => simp [indices]
  | cons n s ih =>
    simp only [indices]
    rw [List.nodup_flatMap]
    refine ⟨fun x _ => ih.map fun a b h => by simpa using h, ?_⟩
    refine List.Nodup.pairwise_of_forall_ne List.nodup_range ?_
    intro a _ b _ hab
    simp only [Function.onFun, List.disjoint_left, List.mem_map]
    rintro x ⟨t, _, rfl⟩ ⟨t', _, e⟩
    exact hab (by simpa using e.symm |> fun h => (List.cons.inj h).1)

theorem indices_length (s : List ℕ) : (indices s).length = s.prod := by
  induction s with
  | nil => rfl
  | cons n s ih => simp [indices, List.length_flatMap, ih]

theorem sumIdx_eq {α : Type} [AddCommMonoid α] (s : List ℕ) (f : List ℕ → α) :
    sumIdx s f = ((indices s).map f).sum := by
  induction s generalizing f with
  | nil => simp [sumIdx, indices]
  | cons n s ih =>
    simp only [sumIdx, indices, ih]
    induction n with
    | zero => simp
    | succ n ihn =>
      rw [Finset.sum_range_succ, ihn, List.range_succ, List.flatMap_append, List.map_append,
        List.sum_append]
      simp [Function.comp_def]

theorem sumIdx_congr {α : Type} [AddCommMonoid α] {s : List ℕ} {f g : List ℕ → α}
    (h : ∀ i, InShape i s → f i = g i) : sumIdx s f = sumIdx s g := by
  induction s generalizing f g with
  | nil => exact h [] .nil
  | cons n s ih =>
    exact Finset.sum_congr rfl fun i hi =>
      ih fun t ht => h _ (.cons (Finset.mem_range.mp hi) ht)

theorem sumIdx_add {α : Type} [AddCommMonoid α] (s : List ℕ) (f g : List ℕ → α) :
    sumIdx s (fun i => f i + g i) = sumIdx s f + sumIdx s g := by
  induction s generalizing f g with
  | nil => rfl
  | cons n s ih => simp only [sumIdx, ih, Finset.sum_add_distrib]

theorem sumIdx_mul_left {α : Type} [NonUnitalNonAssocSemiring α] (s : List ℕ) (c : α) (f : List ℕ → α) :
    sumIdx s (fun i => c * f i) = c * sumIdx s f := by
  induction s generalizing f with
  | nil => rfl
  | cons n s ih => simp only [sumIdx, ih, Finset.mul_sum]

theorem sumIdx_zero {α : Type} [AddCommMonoid α] (s : List ℕ) :
    sumIdx s (fun _ => (0 : α)) = 0 := by
  induction s with
  | nil => rfl
  | cons n s ih => simp only [sumIdx, ih, Finset.sum_const_zero]

theorem sumIdx_finset_sum {α ι : Type} [AddCommMonoid α] (s : List ℕ) (t : Finset ι)
    (f : ι → List ℕ → α) :
    sumIdx s (fun i => ∑ k ∈ t, f k i) = ∑ k ∈ t, sumIdx s (f k) := by
  induction s generalizing f with
  | nil => rfl
  | cons n s ih =>
    simp only [sumIdx, ih]
    rw [Finset.sum_comm]

theorem sumIdx_le {s : List ℕ} {f g : List ℕ → ℝ} (h : ∀ i, InShape i s → f i ≤ g i) :
    sumIdx s f ≤ sumIdx s g := by
  induction s generalizing f g with
  | nil => exact h [] .nil
  | cons n s ih =>
    exact Finset.sum_le_sum fun i hi =>
      ih fun t ht => h _ (.cons (Finset.mem_range.mp hi) ht)

theorem sumIdx_nonneg {s : List ℕ} {f : List ℕ → ℝ} (h : ∀ i, InShape i s → 0 ≤ f i) :
    0 ≤ sumIdx s f := by
  have := sumIdx_le (f := fun _ => 0) (g := f) h
  rwa [sumIdx_zero] at this

/-- A self-injection of the legal indices permutes them. -/
theorem indices_map_perm {s : List ℕ} {σ : List ℕ → List ℕ} (h1 : ∀ i, InShape i s → InShape (σ i) s)
    (h2 : ∀ i j, InShape i s → InShape j s → σ i = σ j → i = j) :
    ((indices s).map σ).Perm (indices s) := by
  have hn : ((indices s).map σ).Nodup :=
    (List.nodup_map_iff_inj_on (indices_nodup s)).mpr fun i hi j hj h =>
      h2 i j (mem_indices.mp hi) (mem_indices.mp hj) h
  have hs : (indices s).map σ ⊆ indices s := by
    intro x hx
    obtain ⟨i, hi, rfl⟩ := List.mem_map.mp hx
    exact mem_indices.mpr (h1 i (mem_indices.mp hi))
  exact (List.subperm_of_subset hn hs).perm_of_length_le (by simp)

theorem sumIdx_perm {α : Type} [AddCommMonoid α] {s : List ℕ} {σ : List ℕ → List ℕ}
    (h1 : ∀ i, InShape i s → InShape (σ i) s)
    (h2 : ∀ i j, InShape i s → InShape j s → σ i = σ j → i = j) (f : List ℕ → α) :
    sumIdx s (fun i => f (σ i)) = sumIdx s f := by
  rw [sumIdx_eq, sumIdx_eq, ← (((indices_map_perm h1 h2).map f).sum_eq), List.map_map]
  rfl

/-- C order is lexicographic order. -/
theorem indices_sorted (s : List ℕ) : (indices s).Pairwise (List.Lex (· < ·)) := by
  induction s with
  | nil => simp [indices]
  | cons n s ih =>
    simp only [indices]
    rw [List.pairwise_flatMap]
    refine ⟨fun i _ => ?_, ?_⟩
    · rw [List.pairwise_map]
      exact ih.imp fun h => .cons h
    · refine List.pairwise_lt_range.imp ?_
      intro a b hab x hx y hy
      obtain ⟨t, _, rfl⟩ := List.mem_map.mp hx
      obtain ⟨t', _, rfl⟩ := List.mem_map.mp hy
      exact .rel hab

theorem flatten_lt {s i : List ℕ} (h : InShape i s) : flatten s i < s.prod := by
  induction h with
  | nil => simp [flatten]
  | @cons x n i s hx _ ih =>
    simp only [flatten, List.prod_cons]
    calc x * s.prod + flatten s i < x * s.prod + s.prod := by omega
      _ = (x + 1) * s.prod := by ring
      _ ≤ n * s.prod := Nat.mul_le_mul_right _ hx

theorem unravel_flatten {s i : List ℕ} (h : InShape i s) : unravel s (flatten s i) = i := by
  induction h with
  | nil => simp [unravel]
  | @cons x n i s hx hi ih =>
    have hlt := flatten_lt hi
    simp only [flatten, unravel]
    rw [show (x * s.prod + flatten s i) / s.prod = x from by
      rw [Nat.div_eq_iff (by omega)]
      constructor
      · exact Nat.le_add_right _ _
      · omega]
    rw [show (x * s.prod + flatten s i) % s.prod = flatten s i from by
      rw [Nat.mul_add_mod_self_right]; exact Nat.mod_eq_of_lt hlt, ih]

theorem flatten_unravel {s : List ℕ} {k : ℕ} (h : k < s.prod) :
    InShape (unravel s k) s ∧ flatten s (unravel s k) = k := by
  induction s generalizing k with
  | nil => simp at h; simp [unravel, flatten, InShape, h]
  | cons n s ih =>
    simp only [List.prod_cons] at h
    have hp : 0 < s.prod := by
      rcases Nat.eq_zero_or_pos s.prod with e | e
      · simp [e] at h
      · exact e
    obtain ⟨h1, h2⟩ := ih (Nat.mod_lt k hp)
    simp only [unravel, flatten, h2]
    refine ⟨.cons (by rw [Nat.div_lt_iff_lt_mul hp]; exact h) h1, ?_⟩
    rw [Nat.mul_comm]; exact Nat.div_add_mod k _

theorem indices_getElem (s : List ℕ) (k : ℕ) (h : k < (indices s).length) :
    (indices s)[k] = unravel s k := by
  induction s generalizing k with
  | nil => simp [indices] at h; subst h; simp [indices, unravel]
  | cons n s ih =>
    have h' : k < n * s.prod := by simpa [indices_length] using h
    have hp : 0 < s.prod := by
      rcases Nat.eq_zero_or_pos s.prod with e | e
      · simp [e] at h'
      · exact e
    have key : ∀ m (hm : k < ((List.range m).flatMap fun i => (indices s).map (i :: ·)).length),
        ((List.range m).flatMap fun i => (indices s).map (i :: ·))[k] = (k / s.prod) :: unravel s (k % s.prod) := by
      intro m
      induction m with
      | zero => intro hm; simp at hm
      | succ m ihm =>
        intro hm
        simp only [List.range_succ, List.flatMap_append]
        have hlen : ((List.range m).flatMap fun i => (indices s).map (i :: ·)).length = m * s.prod := by
          simp [List.length_flatMap, indices_length]
        have hlen' : ((List.range (m+1)).flatMap fun i => (indices s).map (i :: ·)).length = (m+1) * s.prod := by
          simp [List.length_flatMap, indices_length]
        by_cases hk : k < m * s.prod
        · rw [List.getElem_append_left (by rw [hlen]; exact hk)]
          exact ihm _
        · have hk2 : k < (m + 1) * s.prod := by rw [← hlen']; exact hm
          have e : k / s.prod = m := by
            rw [Nat.div_eq_iff hp]
            constructor
            · omega
            · rw [Nat.add_mul, Nat.one_mul] at hk2; omega
          have e2 : k % s.prod = k - m * s.prod := by
            have := Nat.div_add_mod k s.prod
            rw [e, Nat.mul_comm] at this; omega
          rw [List.getElem_append_right (by rw [hlen]; omega)]
          simp only [List.flatMap_cons, List.flatMap_nil, List.append_nil, List.getElem_map, hlen]
          rw [ih, e, e2]
    exact key n h

theorem ravel_getElem {α : Type} (a : Arr α) (k : ℕ) (h : k < a.ravel.length) :
    a.ravel[k] = a.get (unravel a.shape k) := by
  simp only [Arr.ravel, List.getElem_map, indices_getElem]

theorem ravel_length {α : Type} (a : Arr α) : a.ravel.length = a.shape.prod := by
  simp [Arr.ravel, indices_length]

/-- Position `k` of `l` holds `v`, which is a maximum, and all earlier entries are smaller. -/
def IsFirstMax {α : Type} [LinearOrder α] (l : List α) (k : ℕ) (v : α) : Prop :=
  l[k]? = some v ∧ (∀ (j : ℕ) (w : α), l[j]? = some w → w ≤ v) ∧
    ∀ (j : ℕ) (w : α), j < k → l[j]? = some w → w < v

theorem argmaxAux_spec {α : Type} [LinearOrder α] (l : List α) : ∀ (pre : List α) (best : ℕ) (v : α),
    IsFirstMax pre best v → ∃ v', IsFirstMax (pre ++ l) (argmaxAux l best v pre.length) v' := by
  induction l with
  | nil => intro pre best v h; exact ⟨v, by simpa [argmaxAux] using h⟩
  | cons x l ih =>
    intro pre best v h
    have ha : pre ++ x :: l = (pre ++ [x]) ++ l := by simp
    have hlen : pre.length + 1 = (pre ++ [x]).length := by simp
    obtain ⟨h0, h1, h2⟩ := h
    have hb : best < pre.length := by
      by_contra hc
      rw [List.getElem?_eq_none (by omega)] at h0
      cases h0
    have last : ∀ (j : ℕ) (w : α), (pre ++ [x])[j]? = some w → (j < pre.length ∧ pre[j]? = some w) ∨ (j = pre.length ∧ w = x) := by
      intro j w hj
      rcases Nat.lt_trichotomy j pre.length with hlt | he | hgt
      · rw [List.getElem?_append_left hlt] at hj
        exact .inl ⟨hlt, hj⟩
      · subst he; simp at hj; exact .inr ⟨rfl, hj.symm⟩
      · rw [List.getElem?_eq_none (by simp; omega)] at hj; cases hj
    simp only [argmaxAux]
    rw [ha, hlen]
    split_ifs with hx
    · refine ih (pre ++ [x]) pre.length x ⟨by simp, fun j w hj => ?_, fun j w hlt hj => ?_⟩
      · rcases last j w hj with ⟨_, h⟩ | ⟨_, rfl⟩
        · exact (h1 j w h).trans hx.le
        · exact le_rfl
      · rcases last j w hj with ⟨_, h⟩ | ⟨e, _⟩
        · exact (h1 j w h).trans_lt hx
        · omega
    · refine ih (pre ++ [x]) best v ⟨?_, fun j w hj => ?_, fun j w hlt hj => ?_⟩
      · rw [List.getElem?_append_left hb]; exact h0
      · rcases last j w hj with ⟨_, h⟩ | ⟨_, rfl⟩
        · exact h1 j w h
        · exact not_lt.mp hx
      · rcases last j w hj with ⟨_, h⟩ | ⟨e, _⟩
        · exact h2 j w hlt h
        · omega

/-- `argmax` returns the position of the first maximum. -/
theorem argmax_spec {α : Type} [LinearOrder α] (l : List α) (hl : l ≠ []) :
    ∃ k v, argmax l = .ok k ∧ IsFirstMax l k v := by
  cases l with
  | nil => exact absurd rfl hl
  | cons x l =>
    obtain ⟨v, h⟩ := argmaxAux_spec l [x] 0 x (by
      refine ⟨rfl, fun j w hj => ?_, fun j w hj => by omega⟩
      cases j with
      | zero => simp at hj; exact hj.symm.le
      | succ j => simp at hj)
    exact ⟨_, v, rfl, h⟩

end PyOTF
