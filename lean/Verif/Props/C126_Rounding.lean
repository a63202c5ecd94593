import Verif.Model.Rounding
import Verif.Lemmas.Bin
import Verif.Lemmas.Roll
import Verif.Props.C53_C55_Micro
import Mathlib.Data.Int.Log
import Mathlib.Algebra.Order.Round

/-!
# C126: the rounding error of `bin_ndarray` and of the normalisation of a microscope's PSF
-/

namespace PyOTF

/-! ## Specification -/

/-- Every operation is rounded with relative error at most `u`, every element of a sum is added exactly once, and sums of `n` numbers are at most `D n` additions deep. -/
structure Arith.Accurate (A : Arith) (u : ℝ) (D : ℕ → ℕ) : Prop where
  nonneg : 0 ≤ u
  lt_one : u < 1
  round : ∀ x, |A.fl x - x| ≤ u * |x|
  terms : ∀ s i n, (A.order s i n).terms.Perm (List.range n)
  height : ∀ s i n, (A.order s i n).height ≤ D n
  mono : Monotone D

/-- `y` is `x` up to `k` relative errors of size `u`. -/
def Near (u : ℝ) (k : ℕ) (x y : ℝ) : Prop := (1 - u) ^ k * x ≤ y ∧ y ≤ (1 + u) ^ k * x

/-- `b` is the non-negative array `a` up to `k` relative errors of size `u` in every element. -/
def ArrNear (u : ℝ) (k : ℕ) (a b : Arr ℝ) : Prop :=
  b.shape = a.shape ∧ ∀ idx, InShape idx a.shape → 0 ≤ a.get idx ∧ Near u k (a.get idx) (b.get idx)

/-! ## Proofs -/

section
variable {A : Arith} {u : ℝ} {D : ℕ → ℕ}

theorem near_nonneg {k : ℕ} {x y : ℝ} (h1 : u < 1) (hx : 0 ≤ x) (h : Near u k x y) : 0 ≤ y :=
  (mul_nonneg (pow_nonneg (by linarith) k) hx).trans h.1

theorem near_mono {k l : ℕ} {x y : ℝ} (h0 : 0 ≤ u) (h1 : u < 1) (hx : 0 ≤ x) (hkl : k ≤ l) (h : Near u k x y) : Near u l x y := by
  constructor
  · refine le_trans (mul_le_mul_of_nonneg_right ?_ hx) h.1
    exact pow_le_pow_of_le_one (by linarith) (by linarith) hkl
  · exact h.2.trans (mul_le_mul_of_nonneg_right (pow_le_pow_right₀ (by linarith) hkl) hx)

theorem near_zero {x : ℝ} : Near u 0 x x := by constructor <;> simp

theorem near_fl (hA : A.Accurate u D) {k : ℕ} {x y : ℝ} (hx : 0 ≤ x) (h : Near u k x y) : Near u (k + 1) x (A.fl y) := by
  have hy := near_nonneg hA.lt_one hx h
  have h0 := hA.nonneg; have h1 := hA.lt_one
  have hr := abs_le.mp (hA.round y)
  rw [abs_of_nonneg hy] at hr
  constructor
  · calc (1 - u) ^ (k + 1) * x = (1 - u) * ((1 - u) ^ k * x) := by ring
      _ ≤ (1 - u) * y := mul_le_mul_of_nonneg_left h.1 (by linarith)
      _ ≤ A.fl y := by linarith [hr.1]
  · calc A.fl y ≤ (1 + u) * y := by linarith [hr.2]
      _ ≤ (1 + u) * ((1 + u) ^ k * x) := mul_le_mul_of_nonneg_left h.2 (by linarith)
      _ = (1 + u) ^ (k + 1) * x := by ring

theorem near_add {k : ℕ} {x y x' y' : ℝ} (h : Near u k x y) (h' : Near u k x' y') : Near u k (x + x') (y + y') :=
  ⟨by rw [mul_add]; exact add_le_add h.1 h'.1, by rw [mul_add]; exact add_le_add h.2 h'.2⟩

theorem near_div {k : ℕ} {x y c : ℝ} (hc : 0 ≤ c) (h : Near u k x y) : Near u k (x / c) (y / c) :=
  ⟨by rw [← mul_div_assoc]; exact div_le_div_of_nonneg_right h.1 hc, by rw [← mul_div_assoc]; exact div_le_div_of_nonneg_right h.2 hc⟩

theorem sumTree_near (hA : A.Accurate u D) {k : ℕ} {x y : ℕ → ℝ} (t : SumTree) (h : ∀ i ∈ t.terms, 0 ≤ x i ∧ Near u k (x i) (y i)) :
    0 ≤ (t.terms.map x).sum ∧ Near u (k + t.height) (t.terms.map x).sum (t.sum A.fl y) := by
  induction t with
  | zero => simp [SumTree.terms, SumTree.sum, Near]
  | leaf i => simpa [SumTree.terms, SumTree.sum, SumTree.height] using h i (by simp [SumTree.terms])
  | node l r ihl ihr =>
    obtain ⟨l0, l1⟩ := ihl fun i hi => h i (by simp [SumTree.terms, hi])
    obtain ⟨r0, r1⟩ := ihr fun i hi => h i (by simp [SumTree.terms, hi])
    simp only [SumTree.terms, List.map_append, List.sum_append, SumTree.sum, SumTree.height]
    refine ⟨add_nonneg l0 r0, ?_⟩
    have h0 := hA.nonneg; have h1 := hA.lt_one
    have := near_fl hA (add_nonneg l0 r0) (near_add (near_mono h0 h1 l0 (Nat.add_le_add_left (le_max_left l.height r.height) k) l1)
      (near_mono h0 h1 r0 (Nat.add_le_add_left (le_max_right l.height r.height) k) r1))
    rwa [Nat.add_assoc] at this

/-- A rounded sum of `n` numbers. -/
theorem order_near (hA : A.Accurate u D) {k n L : ℕ} (hn : n ≤ L) {x y : ℕ → ℝ} (s : ℕ) (idx : List ℕ) (h : ∀ i < n, 0 ≤ x i ∧ Near u k (x i) (y i)) :
    0 ≤ ∑ i ∈ Finset.range n, x i ∧ Near u (k + D L) (∑ i ∈ Finset.range n, x i) ((A.order s idx n).sum A.fl y) := by
  have hp := hA.terms s idx n
  obtain ⟨h0, h1⟩ := sumTree_near hA (A.order s idx n) (x := x) (y := y) (k := k) fun i hi => h i (List.mem_range.mp (hp.mem_iff.mp hi))
  have e : ((A.order s idx n).terms.map x).sum = ∑ i ∈ Finset.range n, x i := by
    rw [(hp.map x).sum_eq]
    show _ = (Multiset.map x (Multiset.range n)).sum
    rw [Multiset.range, Multiset.map_coe, Multiset.sum_coe]
  rw [e] at h0 h1
  exact ⟨h0, near_mono hA.nonneg hA.lt_one h0 (Nat.add_le_add_left ((hA.height s idx n).trans (hA.mono hn)) k) h1⟩

theorem insertIdx_inShape : ∀ {ax : ℕ} {shape idx : List ℕ} {j : ℕ}, InShape idx (shape.eraseIdx ax) → j < shape.getD ax 0 → InShape (idx.insertIdx ax j) shape
  | _, [], _, _, _, hj => by simp at hj
  | 0, n :: s, idx, j, h, hj => by
    simp only [List.eraseIdx_cons_zero] at h
    simp only [List.getD_cons_zero] at hj
    rw [List.insertIdx_zero]
    exact .cons hj h
  | ax + 1, n :: s, [], j, h, hj => by simp [InShape] at h
  | ax + 1, n :: s, i :: idx, j, h, hj => by
    rw [List.eraseIdx_cons_succ] at h
    rw [List.getD_cons_succ] at hj
    rw [List.insertIdx_succ_cons]
    unfold InShape at h
    rw [List.forall₂_cons] at h
    exact .cons h.1 (insertIdx_inShape h.2 hj)

theorem sumAxis_near (hA : A.Accurate u D) {k L : ℕ} {a b : Arr ℝ} (hL : ∀ n ∈ a.shape, n ≤ L) (h : ArrNear u k a b) (s ax : ℕ) :
    ArrNear u (k + D L) (a.sumAxis ax) (A.sumAxis s ax b) := by
  refine ⟨by simp only [Arr.sumAxis, Arith.sumAxis, h.1], fun idx hidx => ?_⟩
  simp only [Arr.sumAxis, Arith.sumAxis, h.1] at hidx ⊢
  refine order_near hA ?_ s idx fun i hi => h.2 _ (insertIdx_inShape hidx hi)
  by_cases hax : ax < a.shape.length
  · rw [List.getD_eq_getElem _ _ hax]; exact hL _ (List.getElem_mem hax)
  · rw [List.getD_eq_default _ _ (by omega)]; exact Nat.zero_le _

theorem binReduce_near (hA : A.Accurate u D) {k L : ℕ} {a b : Arr ℝ} (hL : ∀ n ∈ a.shape, n ≤ L) (h : ArrNear u k a b) (mean : Bool) (i : ℕ) :
    ArrNear u (k + (D L + mean.toNat)) (binReduce mean i a) (A.binReduce mean i b) := by
  have hs := sumAxis_near hA hL h i (a.shape.length - (i + 1))
  unfold binReduce Arith.binReduce
  simp only [h.1]
  cases mean
  · exact hs
  · refine ⟨hs.1, fun idx hidx => ?_⟩
    obtain ⟨h0, h1⟩ := hs.2 idx hidx
    refine ⟨div_nonneg h0 (Nat.cast_nonneg _), ?_⟩
    exact near_fl hA (div_nonneg h0 (Nat.cast_nonneg _)) (near_div (Nat.cast_nonneg _) h1)

theorem binReduce_shape (mean : Bool) (i : ℕ) (a : Arr ℝ) : (binReduce mean i a).shape = a.shape.eraseIdx (a.shape.length - (i + 1)) := by
  unfold binReduce
  cases mean <;> rfl

theorem binFold_near (hA : A.Accurate u D) {L : ℕ} (mean : Bool) (l : List ℕ) : ∀ {k : ℕ} {a b : Arr ℝ}, (∀ n ∈ a.shape, n ≤ L) → ArrNear u k a b →
    ArrNear u (k + l.length * (D L + mean.toNat)) (l.foldl (fun a i => binReduce mean i a) a) (l.foldl (fun a i => A.binReduce mean i a) b) := by
  induction l with
  | nil => intro k a b _ h; simpa using h
  | cons i l ih =>
    intro k a b hL h
    have := ih (a := binReduce mean i a) (by
      rw [binReduce_shape]
      exact fun n hn => hL n (List.mem_of_mem_eraseIdx hn)) (binReduce_near hA hL h mean i)
    simp only [List.foldl_cons]
    rw [show k + (i :: l).length * (D L + mean.toNat) = k + (D L + mean.toNat) + l.length * (D L + mean.toNat) by
      rw [List.length_cons]; ring]
    exact this

theorem slice_lo_lt (s : Slice) {n i : ℕ} (h : i < s.len n) : s.lo n + i < n := by
  have hc : ∀ v, clipBound n v ≤ n := by
    intro v; unfold clipBound; split_ifs <;> omega
  have : s.hi n ≤ n := by
    unfold Slice.hi
    cases s.stop with
    | none => exact le_refl n
    | some v => exact hc v
  unfold Slice.len at h
  omega

theorem slice_inShape : ∀ {sl : List Slice} {shape idx : List ℕ}, sl.length = shape.length → InShape idx (List.zipWith (fun (s : Slice) n => s.len n) sl shape) →
    InShape (List.zipWith (fun (i lo : ℕ) => lo + i) idx (List.zipWith (fun (s : Slice) n => s.lo n) sl shape)) shape
  | [], [], idx, _, h => by cases h; exact .nil
  | [], _ :: _, _, h, _ => by simp at h
  | _ :: _, [], _, h, _ => by simp at h
  | s :: sl, n :: shape, [], _, h => by simp [InShape] at h
  | s :: sl, n :: shape, i :: idx, hl, h => by
    unfold InShape at h
    rw [List.zipWith_cons_cons, List.forall₂_cons] at h
    exact .cons (slice_lo_lt s h.1) (slice_inShape (by simpa using hl) h.2)

/-- The part of `bin_ndarray` before the reductions: operation, number of axes, and the array with the axes split. -/
noncomputable def binPrepare (ndarray : Arr ℝ) (newShape? : Option (List ℕ)) (binSize : Option BinSize)
    (operation : String) : Py (ℕ × Arr ℝ) := do
  let (ndarray, newShape) ← (match newShape? with
    | none =>
      match binSize with
      | none => .error .valueError
      | some b => do
        let oldShape := ndarray.shape
        let bs ← b.broadcast oldShape.length
        let newShape := List.zipWith (· / ·) oldShape bs
        let crop := (List.zipWith npMod oldShape bs).map fun (r : ℕ) =>
          if r ≠ 0 then (⟨none, some (-(r : ℤ))⟩ : Slice) else Slice.all
        return (ndarray.slice crop, newShape)
    | some s => return (ndarray, s) : Py (Arr ℝ × List ℕ))
  let operation := operation.toLower
  if operation ≠ "sum" ∧ operation ≠ "mean" then throw .valueError
  if ndarray.shape.length ≠ newShape.length then throw .valueError
  if newShape?.isSome ∧ 0 ∈ newShape then throw .zeroDivisionError
  let flattened := (List.zip newShape ndarray.shape).flatMap fun p => [p.1, p.2 / p.1]
  if flattened.prod ≠ ndarray.shape.prod then throw .valueError
  if operation = "mean" ∧ 0 ∈ ndarray.shape ∧ 0 ∉ newShape then throw .nan
  return (newShape.length, ndarray.reshape flattened)

theorem binNdarrayWith_prepare (red : Bool → ℕ → Arr ℝ → Arr ℝ) (a : Arr ℝ) (ns : Option (List ℕ)) (bs : Option BinSize) (op : String) :
    binNdarrayWith red a ns bs op = (binPrepare a ns bs op).map fun p => (List.range p.1).foldl (fun a i => red (op.toLower == "mean") i a) p.2 := by
  unfold binNdarrayWith binPrepare
  cases ns with
  | some s =>
    simp only [bind, Except.bind, pure, Except.pure, throw, throwThe, MonadExceptOf.throw]
    split_ifs <;> rfl
  | none =>
    cases bs with
    | none => rfl
    | some b =>
      rcases hb : b.broadcast a.shape.length with e | l
      · simp only [hb, bind, Except.bind]; rfl
      · simp only [hb, bind, Except.bind, pure, Except.pure, throw, throwThe, MonadExceptOf.throw]
        split_ifs <;> rfl

theorem binPrepare_elements {a : Arr ℝ} {ns : Option (List ℕ)} {bs : Option BinSize} {op : String} {m : ℕ} {r : Arr ℝ} (h : binPrepare a ns bs op = .ok (m, r)) {L : ℕ}
    (hL : ∀ n ∈ a.shape, n ≤ L) (hs : ∀ s, ns = some s → ∀ n ∈ s, n ≤ L) :
    m = a.shape.length ∧ (∀ n ∈ r.shape, n ≤ L) ∧ ∀ idx, InShape idx r.shape → ∃ j, InShape j a.shape ∧ r.get idx = a.get j := by
  unfold binPrepare at h
  obtain ⟨⟨a', s'⟩, h1, h⟩ := py_bind_ok h
  have key : (∀ n ∈ a'.shape, n ≤ L) ∧ (∀ n ∈ s', n ≤ L) ∧ a'.shape.length = a.shape.length ∧ ∀ idx, InShape idx a'.shape → ∃ j, InShape j a.shape ∧ a'.get idx = a.get j := by
    cases ns with
    | some s => cases h1; exact ⟨hL, hs _ rfl, rfl, fun idx hidx => ⟨idx, hidx, rfl⟩⟩
    | none =>
      cases bs with
      | none => cases h1
      | some b =>
        obtain ⟨bs, h2, h1⟩ := py_bind_ok h1
        cases h1
        have hbl := broadcast_length h2
        set crop := (List.zipWith npMod a.shape bs).map fun (r : ℕ) =>
          if r ≠ 0 then (⟨none, some (-(r : ℤ))⟩ : Slice) else Slice.all with hcrop
        have hcl : crop.length = a.shape.length := by simp [hcrop, hbl]
        have hle : ∀ (sl : List Slice) (sh : List ℕ), (∀ n ∈ sh, n ≤ L) → ∀ n ∈ List.zipWith (fun (s : Slice) n => s.len n) sl sh, n ≤ L := by
          intro sl
          induction sl with
          | nil => intro sh _ n hn; simp at hn
          | cons s sl ih =>
            intro sh hsh n hn
            cases sh with
            | nil => simp at hn
            | cons k sh =>
              rw [List.zipWith_cons_cons, List.mem_cons] at hn
              rcases hn with rfl | hn
              · refine le_trans ?_ (hsh k (by simp))
                rcases Nat.eq_zero_or_pos (s.len k) with h0 | h0
                · omega
                · have := slice_lo_lt s (n := k) (i := s.len k - 1) (by omega); omega
              · exact ih sh (fun n hn => hsh n (by simp [hn])) n hn
        refine ⟨?_, ?_, ?_, ?_⟩
        · simp only [Arr.slice, hcl, Nat.sub_self, List.replicate_zero, List.append_nil]
          exact hle crop a.shape hL
        · intro n hn
          obtain ⟨i, hi, rfl⟩ := List.mem_iff_getElem.mp hn
          rw [List.getElem_zipWith]
          exact (Nat.div_le_self _ _).trans (hL _ (List.getElem_mem _))
        · simp [Arr.slice, hcl]
        · intro idx hidx
          simp only [Arr.slice, hcl, Nat.sub_self, List.replicate_zero, List.append_nil] at hidx ⊢
          exact ⟨_, slice_inShape hcl hidx, rfl⟩
  obtain ⟨k1, k2, k3, k4⟩ := key
  simp only [pure, Except.pure, throw, throwThe, MonadExceptOf.throw, bind, Except.bind] at h
  split_ifs at h with g1 g2 g3 g4 g5
  cases h
  push Not at g2 g4
  refine ⟨by rw [← g2, k3], ?_, fun idx hidx => ?_⟩
  · intro n hn
    simp only [Arr.reshape, List.mem_flatMap, List.mem_cons, List.not_mem_nil, or_false] at hn
    obtain ⟨p, hp, rfl | rfl⟩ := hn
    · exact k2 _ (List.of_mem_zip hp).1
    · exact (Nat.div_le_self _ _).trans (k1 _ (List.of_mem_zip hp).2)
  · have : flatten ((List.zip s' a'.shape).flatMap fun p => [p.1, p.2 / p.1]) idx < a'.shape.prod := by
      rw [← g4]; exact flatten_lt hidx
    exact k4 _ (flatten_unravel this).1

/-- C126: `bin_ndarray` of a non-negative array in floating point, whatever the order of the additions: it fails exactly when it does in exact arithmetic, and otherwise every element
has the exact value up to one relative error `u` per addition (and one per division for a mean) on each axis. -/
theorem C126_binning (hA : A.Accurate u D) (a : Arr ℝ) (ha : ∀ idx, InShape idx a.shape → 0 ≤ a.get idx) (ns : Option (List ℕ)) (bs : Option BinSize) (op : String) (L : ℕ)
    (hL : ∀ n ∈ a.shape, n ≤ L) (hs : ∀ s, ns = some s → ∀ n ∈ s, n ≤ L) :
    (∀ e, binNdarray a ns bs op = .error e ↔ A.binNdarray a ns bs op = .error e) ∧
    ∀ r, binNdarray a ns bs op = .ok r → ∃ r', A.binNdarray a ns bs op = .ok r' ∧
      ArrNear u (a.shape.length * (D L + if op.toLower = "mean" then 1 else 0)) r r' := by
  rw [binNdarray_eq, Arith.binNdarray, binNdarrayWith_prepare, binNdarrayWith_prepare]
  rcases hp : binPrepare a ns bs op with e | ⟨m, r⟩
  · exact ⟨fun e' => Iff.rfl, fun r h => by cases h⟩
  · obtain ⟨hm, h1, h2⟩ := binPrepare_elements hp hL hs
    refine ⟨fun e' => ⟨fun h => (by cases h), fun h => by cases h⟩, fun r' h => ?_⟩
    cases h
    refine ⟨_, rfl, ?_⟩
    have h0 : ArrNear u 0 r r := ⟨rfl, fun idx hidx => by
      obtain ⟨j, hj, e⟩ := h2 idx hidx
      exact ⟨e ▸ ha j hj, near_zero⟩⟩
    have := binFold_near hA (op.toLower == "mean") (List.range m) h1 h0
    rw [List.length_range, Nat.zero_add] at this
    have e : (op.toLower == "mean").toNat = if op.toLower = "mean" then 1 else 0 := by
      by_cases ho : op.toLower = "mean" <;> simp [ho]
    rw [e] at this
    rw [← hm]
    exact this

theorem roll_elements (a : Arr ℝ) (s : ℤ) (ax : ℕ) : (a.roll s ax).shape = a.shape ∧ ∀ idx, InShape idx a.shape → ∃ j, InShape j a.shape ∧ (a.roll s ax).get idx = a.get j := by
  refine ⟨rfl, fun idx hidx => ⟨idx.set ax (rollIdx (a.shape.getD ax 0) s (idx.getD ax 0)), ?_, rfl⟩⟩
  by_cases hax : ax < a.shape.length
  · apply hidx.set
    have := hidx.lt hax
    unfold rollIdx
    have hpos : (0 : ℤ) < a.shape.getD ax 0 := by omega
    have h1 := Int.emod_lt_of_pos ((idx.getD ax 0 : ℤ) - s) hpos
    have h2 := Int.emod_nonneg ((idx.getD ax 0 : ℤ) - s) hpos.ne'
    omega
  · rw [List.set_eq_of_length_le (by rw [hidx.length]; omega)]
    exact hidx

theorem sum_unravel (a : Arr ℝ) : a.sum = ∑ k ∈ Finset.range a.shape.prod, a.get (unravel a.shape k) := by
  rw [Arr.sum, sumIdx_eq]
  show _ = (Multiset.map (fun k => a.get (unravel a.shape k)) (Multiset.range a.shape.prod)).sum
  rw [Multiset.range, Multiset.map_coe, Multiset.sum_coe]
  congr 1
  apply List.ext_getElem
  · simp [indices_length]
  · intro k h1 h2
    rw [List.getElem_map, List.getElem_map, indices_getElem, List.getElem_range]

theorem sumAll_near (hA : A.Accurate u D) {k : ℕ} {a b : Arr ℝ} (h : ArrNear u k a b) (s : ℕ) :
    0 ≤ a.sum ∧ Near u (k + D a.shape.prod) a.sum (A.sumAll s b) := by
  rw [sum_unravel, Arith.sumAll, h.1]
  exact order_near hA (le_refl _) s [] fun i hi => h.2 _ (flatten_unravel hi).1

theorem binned_near (hA : A.Accurate u D) (p : Arr ℝ) (hp : ∀ idx, InShape idx p.shape → 0 ≤ p.get idx) (o : ℤ) (size L : ℕ) (hL : ∀ n ∈ p.shape, n ≤ L) :
    (∀ e, binned o size p = .error e ↔ A.binned o size p = .error e) ∧
    ∀ r, binned o size p = .ok r → ∃ r', A.binned o size p = .ok r' ∧ ArrNear u (p.shape.length * D L) r r' := by
  unfold binned Arith.binned
  by_cases ho : 1 < o
  · rw [if_pos ho, if_pos ho]
    have key : ∀ q : Arr ℝ, q.shape = p.shape → (∀ idx, InShape idx p.shape → 0 ≤ q.get idx) →
        (∀ e, binNdarray q none (some (.seq [1, o.toNat, o.toNat])) "sum" = .error e ↔ A.binNdarray q none (some (.seq [1, o.toNat, o.toNat])) "sum" = .error e) ∧
        ∀ r, binNdarray q none (some (.seq [1, o.toNat, o.toNat])) "sum" = .ok r → ∃ r', A.binNdarray q none (some (.seq [1, o.toNat, o.toNat])) "sum" = .ok r' ∧
          ArrNear u (p.shape.length * D L) r r' := by
      intro q hq hq0
      have := C126_binning hA q (by rw [hq]; exact hq0) none (some (.seq [1, o.toNat, o.toNat])) "sum" L (by rw [hq]; exact hL) (by simp)
      rwa [if_neg (by decide +kernel), Nat.add_zero, hq] at this
    by_cases hsz : size % 2 = 0
    · simp only [if_pos hsz]
      refine key _ rfl fun idx hidx => ?_
      obtain ⟨j, hj, e⟩ := (roll_elements (p.roll (o / 2) 1) (o / 2) 2).2 idx hidx
      obtain ⟨j', hj', e'⟩ := (roll_elements p (o / 2) 1).2 j hj
      rw [e, e']
      exact hp j' hj'
    · simp only [if_neg hsz]
      exact key p rfl hp
  · rw [if_neg ho, if_neg ho]
    refine ⟨fun e => ⟨fun h => (by cases h), fun h => by cases h⟩, fun r h => ?_⟩
    cases h
    exact ⟨p, rfl, rfl, fun idx hidx => ⟨hp idx hidx, near_mono hA.nonneg hA.lt_one (hp idx hidx) (Nat.zero_le _) near_zero⟩⟩

/-- C126: the PSF of a microscope computed in floating point from a non-negative model PSF, whatever the order of the additions: it exists exactly when it does in exact arithmetic, every
pixel has the exact value up to the stated number of relative errors (`K` from binning, `T` from adding all pixels), and the pixels sum to one up to `T + 1` relative errors. -/
theorem C126_microscope (hA : A.Accurate u D) (p : Arr ℝ) (hp : ∀ idx, InShape idx p.shape → 0 ≤ p.get idx) (o : ℤ) (size L : ℕ) (hL : ∀ n ∈ p.shape, n ≤ L) :
    (∀ e, microPsf o size p = .error e ↔ A.microPsf o size p = .error e) ∧
    ∀ r, microPsf o size p = .ok r → ∃ r' K T, A.microPsf o size p = .ok r' ∧ K = p.shape.length * D L ∧ T = D r.shape.prod ∧ r'.shape = r.shape ∧
      (∀ idx, InShape idx r.shape → (1 - u) ^ (K + 1) / (1 + u) ^ (K + T) * r.get idx ≤ r'.get idx ∧ r'.get idx ≤ (1 + u) ^ (K + 1) / (1 - u) ^ (K + T) * r.get idx) ∧
      (1 - u) / (1 + u) ^ T ≤ r'.sum ∧ r'.sum ≤ (1 + u) / (1 - u) ^ T := by
  have h0 := hA.nonneg; have h1 := hA.lt_one
  have hm : ∀ k, 0 < (1 - u) ^ k := fun k => pow_pos (by linarith) k
  have hq : ∀ k, 0 < (1 + u) ^ k := fun k => pow_pos (by linarith) k
  obtain ⟨he, hb⟩ := binned_near hA p hp o size L hL
  unfold microPsf Arith.microPsf
  rcases hbin : binned o size p with e | b
  · rw [(he e).mp hbin]
    exact ⟨fun e' => Iff.rfl, fun r h => by cases h⟩
  obtain ⟨b', hb', hnear⟩ := hb b hbin
  rw [hb']
  simp only [Except.bind]
  obtain ⟨hs0, hs⟩ := sumAll_near hA hnear 3
  set S := A.sumAll 3 b' with hS
  have hz : b.sum = 0 ↔ S = 0 := by
    constructor
    · intro h; rw [h] at hs; have := hs.1; have := hs.2; simp only [mul_zero] at *; linarith
    · intro h
      rw [h] at hs
      have := hs.1
      by_contra hne
      have := mul_pos (hm (p.shape.length * D L + D b.shape.prod)) (lt_of_le_of_ne hs0 (Ne.symm hne))
      linarith
  unfold normalised Arith.normalised
  rw [← hS]
  by_cases hzero : b.sum = 0
  · rw [if_pos hzero, if_pos (hz.mp hzero)]
    exact ⟨fun e => by simp, fun r h => by cases h⟩
  · rw [if_neg hzero, if_neg (fun h => hzero (hz.mpr h))]
    refine ⟨fun e => ⟨fun h => (by cases h), fun h => by cases h⟩, fun r h => ?_⟩
    cases h
    have hpos : 0 < b.sum := lt_of_le_of_ne hs0 (Ne.symm hzero)
    have hSpos : 0 < S := lt_of_lt_of_le (mul_pos (hm _) hpos) hs.1
    have hfl : ∀ y, 0 ≤ y → (1 - u) * y ≤ A.fl y ∧ A.fl y ≤ (1 + u) * y := by
      intro y hy
      have := near_fl hA hy (near_zero (u := u) (x := y))
      simpa [Near] using this
    refine ⟨_, _, _, rfl, rfl, rfl, hnear.1, fun idx hidx => ?_, ?_⟩
    · obtain ⟨g0, g1⟩ := hnear.2 idx hidx
      have gb := near_nonneg h1 g0 g1
      obtain ⟨f1, f2⟩ := hfl (b'.get idx / S) (div_nonneg gb hSpos.le)
      show (1 - u) ^ (p.shape.length * D L + 1) / (1 + u) ^ (p.shape.length * D L + D b.shape.prod) * (b.get idx / b.sum) ≤ A.fl (b'.get idx / S) ∧ A.fl (b'.get idx / S) ≤ _
      constructor
      · refine le_trans ?_ f1
        calc (1 - u) ^ (p.shape.length * D L + 1) / (1 + u) ^ (p.shape.length * D L + D b.shape.prod) * (b.get idx / b.sum)
            = (1 - u) * (((1 - u) ^ (p.shape.length * D L) * b.get idx) / ((1 + u) ^ (p.shape.length * D L + D b.shape.prod) * b.sum)) := by
              rw [pow_succ]; field_simp
          _ ≤ (1 - u) * (b'.get idx / S) := by
              refine mul_le_mul_of_nonneg_left ?_ (by linarith)
              exact div_le_div₀ gb g1.1 hSpos hs.2
      · refine le_trans f2 ?_
        calc (1 + u) * (b'.get idx / S) ≤ (1 + u) * (((1 + u) ^ (p.shape.length * D L) * b.get idx) / ((1 - u) ^ (p.shape.length * D L + D b.shape.prod) * b.sum)) := by
              refine mul_le_mul_of_nonneg_left ?_ (by linarith)
              exact div_le_div₀ (mul_nonneg (hq _).le g0) g1.2 (mul_pos (hm _) hpos) hs.1
          _ = _ := by
              have := (hm (p.shape.length * D L + D b.shape.prod)).ne'
              show _ = (1 + u) ^ (p.shape.length * D L + 1) / (1 - u) ^ (p.shape.length * D L + D b.shape.prod) * (b.get idx / b.sum)
              rw [pow_succ]; field_simp
    · -- the total, from the computed pixels
      have hn' : ArrNear u 0 b' b' := ⟨rfl, fun idx hidx => ⟨near_nonneg h1 (hnear.2 idx (hnear.1 ▸ hidx)).1 (hnear.2 idx (hnear.1 ▸ hidx)).2, near_zero⟩⟩
      obtain ⟨t0, t1⟩ := sumAll_near hA hn' 3
      rw [← hS, Nat.zero_add, hnear.1] at t1
      have hb'pos : 0 < b'.sum := by
        by_contra hneg
        have : b'.sum = 0 := le_antisymm (not_lt.mp hneg) t0
        rw [this] at t1
        have := t1.2; rw [mul_zero] at this; linarith
      have hlow : (1 - u) * (b'.sum / S) ≤ (b'.map fun v => A.fl (v / S)).sum := by
        have : (1 - u) * (b'.sum / S) = sumIdx b'.shape fun i => (1 - u) * (b'.get i / S) := by
          rw [sumIdx_mul_left, Arr.sum]
          simp only [div_eq_inv_mul]
          rw [sumIdx_mul_left]
        rw [this]
        exact sumIdx_le fun i hi => (hfl _ (div_nonneg (hn'.2 i hi).1 hSpos.le)).1
      have hhigh : (b'.map fun v => A.fl (v / S)).sum ≤ (1 + u) * (b'.sum / S) := by
        have : (1 + u) * (b'.sum / S) = sumIdx b'.shape fun i => (1 + u) * (b'.get i / S) := by
          rw [sumIdx_mul_left, Arr.sum]
          simp only [div_eq_inv_mul]
          rw [sumIdx_mul_left]
        rw [this]
        exact sumIdx_le fun i hi => (hfl _ (div_nonneg (hn'.2 i hi).1 hSpos.le)).2
      constructor
      · refine le_trans ?_ hlow
        rw [div_eq_mul_one_div]
        refine mul_le_mul_of_nonneg_left ?_ (by linarith)
        rw [div_le_div_iff₀ (hq _) hSpos]
        show 1 * S ≤ b'.sum * (1 + u) ^ D b.shape.prod
        linarith [t1.2]
      · refine le_trans hhigh ?_
        rw [div_eq_mul_one_div (1 + u)]
        refine mul_le_mul_of_nonneg_left ?_ (by linarith)
        rw [div_le_div_iff₀ hSpos (hm _)]
        show b'.sum * (1 - u) ^ D b.shape.prod ≤ 1 * S
        linarith [t1.1]

/-- C126: in particular the computed pixels sum to one up to `(T + 1) u / (1 - T u)` if the sum of all pixels is `T` additions deep. -/
theorem C126_total (hA : A.Accurate u D) (p : Arr ℝ) (hp : ∀ idx, InShape idx p.shape → 0 ≤ p.get idx) (o : ℤ) (size : ℕ) (r : Arr ℝ)
    (hr : A.microPsf o size p = .ok r) (T : ℕ) (hT : T = D r.shape.prod) (hu : T * u < 1) : |r.sum - 1| ≤ (T + 1) * u / (1 - T * u) := by
  obtain ⟨he, h⟩ := C126_microscope hA p hp o size p.shape.sum fun n hn => List.single_le_sum (by simp) n hn
  rcases hq : microPsf o size p with e | q
  · rw [(he e).mp hq] at hr; cases hr
  obtain ⟨r', K, T', h1, -, h2, h3, -, h4, h5⟩ := h q hq
  rw [h1] at hr; cases hr
  rw [← h3, ← hT] at h2
  subst h2
  have h0 := hA.nonneg; have h1 := hA.lt_one
  have hT0 : (0 : ℝ) ≤ T' := Nat.cast_nonneg _
  have hTu : 0 ≤ T' * u := mul_nonneg hT0 h0
  have b1 : 1 - T' * u ≤ (1 - u) ^ T' := by
    have := one_add_mul_le_pow (a := -u) (by linarith) T'
    rw [← sub_eq_add_neg] at this
    linarith
  have hm : 0 < (1 - u) ^ T' := pow_pos (by linarith) _
  have hq : 0 < (1 + u) ^ T' := pow_pos (by linarith) _
  have b2 : (1 - u) ^ T' ≤ 1 / (1 + u) ^ T' := by
    rw [le_div_iff₀ hq, ← mul_pow]
    exact pow_le_one₀ (by nlinarith) (by nlinarith)
  have hd : 0 < 1 - T' * u := by linarith
  rw [abs_le]
  constructor
  · have : (1 - u) * (1 - T' * u) ≤ r.sum := by
      refine le_trans ?_ h4
      rw [div_eq_mul_one_div]
      exact mul_le_mul_of_nonneg_left (b1.trans b2) (by linarith)
    have h6 : (T' + 1) * u ≤ (T' + 1) * u / (1 - T' * u) := by
      rw [le_div_iff₀ hd]
      have : 0 ≤ (T' + 1) * u := by positivity
      nlinarith
    nlinarith
  · have : r.sum ≤ (1 + u) / (1 - T' * u) := h5.trans (div_le_div_of_nonneg_left (by linarith) hd b1)
    have h6 : (1 + u) / (1 - T' * u) - 1 = (T' + 1) * u / (1 - T' * u) := by
      rw [div_sub_one hd.ne']; ring_nf
    linarith

/-- C126: the `PSF` of the (exact) model of a microscope is what `C126_microscope` compares the computed one with. -/
theorem C126_getPSF (m : Micro) (hc : m.psf = none) (p : Arr ℝ) (hp : (Micro.modelPsf m).1 = .ok p) :
    (Micro.getPSF m).1 = microPsf (pyInt m.oversample) (pyInt m.psfParams.size).toNat p := by
  rw [getPSF_run, hc]
  rcases hm : Micro.modelPsf m with ⟨e | a, m'⟩
  · rw [hm] at hp; cases hp
  · rw [hm] at hp; cases hp
    rcases h : microPsf (pyInt m.oversample) (pyInt m.psfParams.size).toNat p with e | r <;> simp [h]

/-! ## A concrete arithmetic: binary numbers with 53 digits, rounded to nearest, added from left to right or pairwise -/

/-- Rounding to the nearest number with 53 binary digits (as IEEE double precision without limits on the exponent). -/
noncomputable def double (x : ℝ) : ℝ := round (x / 2 ^ (Int.log 2 |x| - 52)) * 2 ^ (Int.log 2 |x| - 52)

theorem double_round (x : ℝ) : |double x - x| ≤ 1 / 2 ^ 53 * |x| := by
  by_cases hx : x = 0
  · subst hx; simp [double]
  have h2 : (0 : ℝ) < 2 ^ (Int.log 2 |x| - 52) := by positivity
  have e : double x - x = -(x / 2 ^ (Int.log 2 |x| - 52) - round (x / 2 ^ (Int.log 2 |x| - 52))) * 2 ^ (Int.log 2 |x| - 52) := by
    unfold double
    field_simp
    ring
  rw [e, abs_mul, abs_neg, abs_of_pos h2]
  have h3 := abs_sub_round (x / 2 ^ (Int.log 2 |x| - 52))
  have h4 : (2 : ℝ) ^ (Int.log 2 |x|) ≤ |x| := by
    have := Int.zpow_log_le_self (b := 2) (r := |x|) (by norm_num) (abs_pos.mpr hx)
    exact_mod_cast this
  calc |x / 2 ^ (Int.log 2 |x| - 52) - round (x / 2 ^ (Int.log 2 |x| - 52))| * 2 ^ (Int.log 2 |x| - 52)
      ≤ 1 / 2 * 2 ^ (Int.log 2 |x| - 52) := mul_le_mul_of_nonneg_right h3 h2.le
    _ = 1 / 2 ^ 53 * 2 ^ (Int.log 2 |x|) := by
        rw [zpow_sub₀ (by norm_num)]; norm_num; ring
    _ ≤ 1 / 2 ^ 53 * |x| := mul_le_mul_of_nonneg_left h4 (by positivity)

/-- Adding from left to right. -/
def sequential : ℕ → SumTree
  | 0 => .zero
  | n + 1 => .node (sequential n) (.leaf n)

/-- Adding `2 ^ h` numbers from `start` pairwise, leaving out those from `n` on. -/
def pairwiseFrom (n : ℕ) : ℕ → ℕ → SumTree
  | 0, start => if start < n then .leaf start else .zero
  | h + 1, start => .node (pairwiseFrom n h start) (pairwiseFrom n h (start + 2 ^ h))

theorem sequential_terms (n : ℕ) : (sequential n).terms = List.range n := by
  induction n with
  | zero => rfl
  | succ n ih => simp [sequential, SumTree.terms, ih, List.range_succ]

theorem sequential_height (n : ℕ) : (sequential n).height ≤ n := by
  induction n with
  | zero => simp [sequential, SumTree.height]
  | succ n ih => simp [sequential, SumTree.height]; omega

theorem pairwise_terms (n : ℕ) : ∀ h start, (pairwiseFrom n h start).terms = (List.range' start (2 ^ h)).filter (· < n)
  | 0, start => by
    by_cases hs : start < n <;> simp [pairwiseFrom, hs, SumTree.terms]
  | h + 1, start => by
    rw [pairwiseFrom, SumTree.terms, pairwise_terms n h, pairwise_terms n h, ← List.filter_append, pow_succ, mul_two]
    congr 1
    rw [← List.range'_append_1]

theorem pairwise_height (n : ℕ) : ∀ h start, (pairwiseFrom n h start).height ≤ h
  | 0, start => by by_cases hs : start < n <;> simp [pairwiseFrom, hs, SumTree.height]
  | h + 1, start => by
    simp only [pairwiseFrom, SumTree.height]
    have := pairwise_height n h start
    have := pairwise_height n h (start + 2 ^ h)
    omega

/-- Non-vacuity of C126: double precision with naive and with pairwise summation. -/
theorem double_sequential : (Arith.mk double fun _ _ n => sequential n).Accurate (1 / 2 ^ 53) id :=
  ⟨by positivity, by norm_num, double_round, fun _ _ n => by rw [sequential_terms], fun _ _ n => sequential_height n, monotone_id⟩

theorem double_pairwise : (Arith.mk double fun _ _ n => pairwiseFrom n (Nat.clog 2 n) 0).Accurate (1 / 2 ^ 53) (Nat.clog 2) := by
  refine ⟨by positivity, by norm_num, double_round, fun _ _ n => ?_, fun _ _ n => pairwise_height n _ 0, Nat.clog_monotone 2⟩
  show (pairwiseFrom n (Nat.clog 2 n) 0).terms.Perm _
  rw [pairwise_terms]
  have : (List.range' 0 (2 ^ Nat.clog 2 n)).filter (· < n) = List.range n := by
    have hle : n ≤ 2 ^ Nat.clog 2 n := Nat.le_pow_clog (by norm_num) n
    obtain ⟨m, hm⟩ := Nat.exists_eq_add_of_le hle
    rw [hm, ← List.range'_append_1, List.filter_append, List.filter_eq_self.mpr, List.filter_eq_nil_iff.mpr, List.append_nil, List.range_eq_range']
    · intro x hx; simp at hx ⊢; omega
    · intro x hx; simp at hx ⊢; omega
  rw [this]

/-- C126: for example, in double precision with pairwise summation a PSF of up to `2 ^ 30` pixels sums to one up to `1e-14`; added one after the other up to `1e-6`. -/
theorem C126_double (p : Arr ℝ) (hp : ∀ idx, InShape idx p.shape → 0 ≤ p.get idx) (o : ℤ) (size : ℕ) (r : Arr ℝ) (hn : r.shape.prod ≤ 2 ^ 30) :
    ((Arith.mk double fun _ _ n => pairwiseFrom n (Nat.clog 2 n) 0).microPsf o size p = .ok r → |r.sum - 1| ≤ 1 / 10 ^ 14) ∧
    ((Arith.mk double fun _ _ n => sequential n).microPsf o size p = .ok r → |r.sum - 1| ≤ 1 / 10 ^ 6) := by
  have gen : ∀ T M : ℕ, T ≤ M → (M : ℝ) * (1 / 2 ^ 53) ≤ 1 / 2 → ((T : ℝ) + 1) * (1 / 2 ^ 53) / (1 - T * (1 / 2 ^ 53)) ≤ 2 * ((M + 1) * (1 / 2 ^ 53)) := by
    intro T M hTM hM
    have h1 : (T : ℝ) ≤ M := by exact_mod_cast hTM
    have h2 : (T : ℝ) * (1 / 2 ^ 53) ≤ 1 / 2 := le_trans (mul_le_mul_of_nonneg_right h1 (by positivity)) hM
    rw [div_le_iff₀ (by linarith)]
    have h3 : ((T : ℝ) + 1) * (1 / 2 ^ 53) ≤ (M + 1) * (1 / 2 ^ 53) := mul_le_mul_of_nonneg_right (by linarith) (by positivity)
    have h4 : 0 ≤ ((M : ℝ) + 1) * (1 / 2 ^ 53) := by positivity
    nlinarith
  constructor
  · intro h
    have hT : Nat.clog 2 r.shape.prod ≤ 30 := by
      refine (Nat.clog_monotone 2 hn).trans ?_
      rw [Nat.clog_pow 2 30 (by norm_num)]
    have hg := gen _ 30 hT (by norm_num)
    have := C126_total double_pairwise p hp o size r h _ rfl (by
      have : ((Nat.clog 2 r.shape.prod : ℕ) : ℝ) ≤ 30 := by exact_mod_cast hT
      calc _ ≤ (30 : ℝ) * (1 / 2 ^ 53) := mul_le_mul_of_nonneg_right this (by positivity)
        _ < 1 := by norm_num)
    refine (this.trans hg).trans (by norm_num)
  · intro h
    have hg := gen _ (2 ^ 30) hn (by norm_num)
    have := C126_total double_sequential p hp o size r h _ rfl (by
      have : ((r.shape.prod : ℕ) : ℝ) ≤ 2 ^ 30 := by exact_mod_cast hn
      calc _ ≤ (2 ^ 30 : ℝ) * (1 / 2 ^ 53) := mul_le_mul_of_nonneg_right this (by positivity)
        _ < 1 := by norm_num)
    refine (this.trans hg).trans (by norm_num)

end

end PyOTF
