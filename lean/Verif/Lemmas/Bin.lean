import Verif.Model.Utils
import Verif.Lemmas.Arr

/-! # Block sums by reshape-and-reduce -/

namespace PyOTF

/-- `[d0, c0, d1, c1, …]`. -/
def interleave : List ℕ → List ℕ → List ℕ
  | d :: ds, c :: cs => d :: c :: interleave ds cs
  | _, _ => []

theorem interleave_append {d c d' c' : List ℕ} (h : c.length = d.length) :
    interleave (d ++ d') (c ++ c') = interleave d c ++ interleave d' c' := by
  induction d generalizing c with
  | nil => cases c <;> simp_all [interleave]
  | cons x d ih =>
    cases c with
    | nil => simp at h
    | cons y c => simp [interleave, ih (by simpa using h)]

theorem interleave_length {d c : List ℕ} (h : c.length = d.length) :
    (interleave d c).length = 2 * d.length := by
  induction d generalizing c with
  | nil => simp [interleave]
  | cons x d ih =>
    cases c with
    | nil => simp at h
    | cons y c => simp [interleave, ih (by simpa using h)]; omega

theorem flatMap_interleave (d n : List ℕ) :
    ((List.zip d n).flatMap fun p => [p.1, p.2 / p.1]) = interleave d (List.zipWith (· / ·) n d) := by
  induction d generalizing n with
  | nil => simp [interleave]
  | cons x d ih =>
    cases n with
    | nil => simp [interleave]
    | cons y n => simp [interleave, ih]

theorem prod_interleave {d c : List ℕ} (h : c.length = d.length) :
    (interleave d c).prod = (List.zipWith (· * ·) d c).prod := by
  induction d generalizing c with
  | nil => simp [interleave]
  | cons x d ih =>
    cases c with
    | nil => simp at h
    | cons y c => simp [interleave, ih (by simpa using h), mul_assoc]

/-- Element `t` of block `q` on every axis. -/
def blockIdx : List ℕ → List ℕ → List ℕ → List ℕ
  | b :: bs, q :: qs, t :: ts => (q * b + t) :: blockIdx bs qs ts
  | _, _, _ => []

theorem flatten_interleave {d c q t : List ℕ} (hq : InShape q d) (ht : InShape t c)
    (h : c.length = d.length) :
    flatten (interleave d c) (interleave q t) = flatten (List.zipWith (· * ·) d c) (blockIdx c q t) := by
  induction hq generalizing c t with
  | nil => cases ht <;> simp_all [interleave, flatten, blockIdx]
  | @cons x n q d hx hq ih =>
    cases ht with
    | nil => simp at h
    | @cons y m t c hy ht =>
      have hl : c.length = d.length := by simpa using h
      simp only [interleave, flatten, blockIdx, List.zipWith_cons_cons, List.prod_cons,
        ih ht hl, prod_interleave hl]
      ring

theorem blockIdx_inShape {d c q t : List ℕ} (hq : InShape q d) (ht : InShape t c)
    (h : c.length = d.length) : InShape (blockIdx c q t) (List.zipWith (· * ·) d c) := by
  induction hq generalizing c t with
  | nil => cases ht <;> simp_all [blockIdx, InShape]
  | @cons x n q d hx hq ih =>
    cases ht with
    | nil => simp at h
    | @cons y m t c hy ht =>
      refine .cons ?_ (ih ht (by simpa using h))
      calc x * m + y < x * m + m := by omega
        _ = (x + 1) * m := by ring
        _ ≤ n * m := Nat.mul_le_mul_right _ hx

theorem sumIdx_append {α : Type} [AddCommMonoid α] (s : List ℕ) (c : ℕ) (f : List ℕ → α) :
    sumIdx (s ++ [c]) f = sumIdx s (fun t => ∑ j ∈ Finset.range c, f (t ++ [j])) := by
  induction s generalizing f with
  | nil => simp [sumIdx]
  | cons n s ih => simp only [List.cons_append, sumIdx, ih]

/-- Divisor of the reduction. -/
noncomputable def binWeight (mean : Bool) (c : List ℕ) : ℝ := if mean then (c.prod : ℕ) else 1

theorem binReduce_step (mean : Bool) (a : Arr ℝ) (d' c' S : List ℕ) (d c : ℕ)
    (hl : c'.length = d'.length) (hs : a.shape = interleave d' c' ++ [d, c] ++ S) :
    (binReduce mean S.length a).shape = interleave d' c' ++ ([d] ++ S) ∧
    ∀ I q s, I.length = (interleave d' c').length → (binReduce mean S.length a).get (I ++ ([q] ++ s))
      = (∑ j ∈ Finset.range c, a.get (I ++ [q, j] ++ s)) / binWeight mean [c] := by
  have hax : a.shape.length - (S.length + 1) = (interleave d' c').length + 1 := by
    rw [hs]; simp only [List.length_append, List.length_cons, List.length_nil]; omega
  have hn : a.shape.getD ((interleave d' c').length + 1) 0 = c := by
    rw [hs, List.append_assoc, List.getD_append_right _ _ _ _ (by omega)]
    simp
  have hsh : (a.sumAxis ((interleave d' c').length + 1)).shape = interleave d' c' ++ ([d] ++ S) := by
    simp only [Arr.sumAxis, hs, List.append_assoc]
    rw [List.eraseIdx_append_of_length_le (by omega)]
    simp
  have hg : ∀ I q s, I.length = (interleave d' c').length →
      (a.sumAxis ((interleave d' c').length + 1)).get (I ++ ([q] ++ s))
        = ∑ j ∈ Finset.range c, a.get (I ++ [q, j] ++ s) := by
    intro I q s hI
    simp only [Arr.sumAxis, hn]
    refine Finset.sum_congr rfl fun j _ => ?_
    congr 1
    rw [← hI]
    clear hI
    induction I with
    | nil => rfl
    | cons x I ih => simpa [List.insertIdx_succ_cons] using ih
  simp only [binReduce, hax, hn]
  cases mean with
  | false => exact ⟨hsh, fun I q s hI => by
      have := hg I q s hI
      simpa [binWeight] using this⟩
  | true =>
    refine ⟨hsh, fun I q s hI => ?_⟩
    have := hg I q s hI
    simp only [if_true, Arr.map, this, binWeight, List.prod_cons, List.prod_nil, mul_one]

theorem binReduce_fold (mean : Bool) (n : ℕ) : ∀ (a : Arr ℝ) (d c S : List ℕ), d.length = n →
    c.length = n → a.shape = interleave d c ++ S →
    ((List.range' S.length n).foldl (fun a i => binReduce mean i a) a).shape = d ++ S ∧
    ∀ q s, q.length = n →
      ((List.range' S.length n).foldl (fun a i => binReduce mean i a) a).get (q ++ s)
        = sumIdx c (fun t => a.get (interleave q t ++ s)) / binWeight mean c := by
  induction n with
  | zero =>
    intro a d c S hd hc hs
    rw [List.length_eq_zero_iff] at hd hc
    subst hd hc
    refine ⟨by simpa [interleave] using hs, fun q s hq => ?_⟩
    rw [List.length_eq_zero_iff] at hq
    subst hq
    cases mean <;> simp [sumIdx, interleave, binWeight]
  | succ n ih =>
    intro a d c S hd hc hs
    obtain ⟨d', x, rfl⟩ : ∃ d' x, d = d' ++ [x] := by
      rcases List.eq_nil_or_concat d with h | ⟨d', x, h⟩
      · simp [h] at hd
      · exact ⟨d', x, by simpa using h⟩
    obtain ⟨c', y, rfl⟩ : ∃ c' y, c = c' ++ [y] := by
      rcases List.eq_nil_or_concat c with h | ⟨d', x, h⟩
      · simp [h] at hc
      · exact ⟨d', x, by simpa using h⟩
    have hd' : d'.length = n := by simpa using hd
    have hc' : c'.length = n := by simpa using hc
    rw [interleave_append (by omega)] at hs
    obtain ⟨s1, s2⟩ := binReduce_step mean a d' c' S x y (by omega) hs
    rw [List.range'_succ, List.foldl_cons]
    have := ih (binReduce mean S.length a) d' c' ([x] ++ S) hd' hc' s1
    simp only [List.length_append, List.length_cons, List.length_nil, zero_add] at this
    rw [Nat.add_comm 1] at this
    refine ⟨by rw [this.1]; simp, fun q s hq => ?_⟩
    obtain ⟨q', z, rfl⟩ : ∃ q' z, q = q' ++ [z] := by
      rcases List.eq_nil_or_concat q with h | ⟨d', x, h⟩
      · simp [h] at hq
      · exact ⟨d', x, by simpa using h⟩
    have hq' : q'.length = n := by simpa using hq
    rw [List.append_assoc, this.2 q' ([z] ++ s) hq', sumIdx_append]
    have e : ∀ t, InShape t c' → (binReduce mean S.length a).get (interleave q' t ++ ([z] ++ s))
        = (∑ j ∈ Finset.range y, a.get (interleave (q' ++ [z]) (t ++ [j]) ++ s)) * (binWeight mean [y])⁻¹ := by
      intro t ht
      have hI : (interleave q' t).length = (interleave d' c').length := by
        rw [interleave_length (by rw [ht.length]; omega), interleave_length (by omega)]; omega
      rw [s2 _ _ _ hI, div_eq_mul_inv]
      congr 1
      refine Finset.sum_congr rfl fun j _ => ?_
      rw [interleave_append (by rw [ht.length]; omega)]
      rfl
    rw [sumIdx_congr e]
    simp only [mul_comm _ (binWeight mean [y])⁻¹]
    rw [sumIdx_mul_left]
    cases mean
    · simp [binWeight]
    · simp only [binWeight, if_true, List.prod_append, List.prod_cons, List.prod_nil, mul_one]
      rw [Nat.cast_mul, div_eq_mul_inv, div_eq_mul_inv, mul_inv]; ring

theorem sum_range_mul (d b : ℕ) {α : Type} [AddCommMonoid α] (f : ℕ → α) :
    ∑ i ∈ Finset.range (d * b), f i = ∑ q ∈ Finset.range d, ∑ t ∈ Finset.range b, f (q * b + t) := by
  induction d with
  | zero => simp
  | succ d ih =>
    rw [Finset.sum_range_succ, ← ih, Nat.succ_mul, Finset.sum_range_add]

/-- Summing over blocks and inside blocks is summing over everything. -/
theorem sumIdx_blocks {α : Type} [AddCommMonoid α] : ∀ (d b : List ℕ), b.length = d.length →
    ∀ f : List ℕ → α, sumIdx (List.zipWith (· * ·) d b) f
      = sumIdx d (fun q => sumIdx b (fun t => f (blockIdx b q t)))
  | [], [], _, f => by simp [sumIdx, blockIdx]
  | x :: d, y :: b, h, f => by
    simp only [List.zipWith_cons_cons, sumIdx, sum_range_mul]
    have hl : b.length = d.length := by simpa using h
    refine Finset.sum_congr rfl fun q _ => ?_
    simp only [sumIdx_blocks d b hl]
    rw [← sumIdx_finset_sum]
    rfl
  | [], _ :: _, h, _ => by simp at h
  | _ :: _, [], h, _ => by simp at h

end PyOTF
