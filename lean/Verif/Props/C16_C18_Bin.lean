import Verif.Lemmas.Bin

/-!
# C16–C18: `bin_ndarray`

`blockIdx bs q t` is the index `q*b + t` on every axis (element `t` of block `q`).
-/

namespace PyOTF

/-- A supported operation: its lower-case form is "sum" or "mean"; the flag says which. -/
def OpIs (op : String) (mean : Bool) : Prop := op.toLower = if mean then "mean" else "sum"

/-- The divisor: 1 for a sum, the number of elements of a block for a mean. -/
noncomputable def blockWeight (mean : Bool) (bs : List ℕ) : ℝ := if mean then (bs.prod : ℕ) else 1

theorem binCore (a : Arr ℝ) (d c : List ℕ) (mean : Bool) (hd : d.length = a.shape.length)
    (hc : List.zipWith (· / ·) a.shape d = c) (hmul : List.zipWith (· * ·) d c = a.shape) :
    let r := (List.range d.length).foldl (fun a i => binReduce mean i a)
      (a.reshape ((List.zip d a.shape).flatMap fun p => [p.1, p.2 / p.1]))
    r.shape = d ∧ ∀ q, InShape q d →
      r.get q = sumIdx c (fun t => a.get (blockIdx c q t)) / binWeight mean c := by
  have hcl : c.length = d.length := by rw [← hc]; simp [hd]
  have hs : (a.reshape ((List.zip d a.shape).flatMap fun p => [p.1, p.2 / p.1])).shape
      = interleave d c ++ [] := by
    simp only [Arr.reshape, flatMap_interleave, hc, List.append_nil]
  obtain ⟨h1, h2⟩ := binReduce_fold mean d.length _ d c [] rfl hcl hs
  rw [List.length_nil, ← List.range_eq_range'] at h1 h2
  refine ⟨by rw [h1]; simp, fun q hq => ?_⟩
  have := h2 q [] hq.length
  rw [List.append_nil] at this
  rw [this]
  congr 1
  refine sumIdx_congr fun t ht => ?_
  simp only [Arr.reshape, flatMap_interleave, hc, List.append_nil]
  rw [flatten_interleave hq ht hcl, hmul, unravel_flatten]
  rw [← hmul]
  exact blockIdx_inShape hq ht hcl

theorem crop_shape (n b : List ℕ) (hl : b.length = n.length) :
    List.zipWith (fun (s : Slice) n => s.len n) ((List.zipWith npMod n b).map fun (r : ℕ) =>
      if r ≠ 0 then (⟨none, some (-(r : ℤ))⟩ : Slice) else Slice.all) n
    = List.zipWith (fun n b => n - npMod n b) n b := by
  induction n generalizing b with
  | nil => simp
  | cons x n ih =>
    cases b with
    | nil => simp at hl
    | cons y b =>
      simp only [List.zipWith_cons_cons, List.map_cons, ih b (by simpa using hl)]
      congr 1
      split_ifs with h
      · simp only [Slice.len, Slice.lo, Slice.hi, Option.elim, clipBound]
        rw [if_pos (by omega)]
        have : npMod x y ≤ x := by simp only [npMod]; split_ifs; exacts [Nat.zero_le _, Nat.mod_le _ _]
        omega
      · simp only [ne_eq, not_not] at h
        simp [Slice.len, Slice.lo, Slice.hi, Slice.all, h]

theorem crop_lo (n b : List ℕ) (hl : b.length = n.length) :
    List.zipWith (fun (s : Slice) n => s.lo n) ((List.zipWith npMod n b).map fun (r : ℕ) =>
      if r ≠ 0 then (⟨none, some (-(r : ℤ))⟩ : Slice) else Slice.all) n
    = List.replicate n.length 0 := by
  induction n generalizing b with
  | nil => simp
  | cons x n ih =>
    cases b with
    | nil => simp at hl
    | cons y b =>
      simp only [List.zipWith_cons_cons, List.map_cons, ih b (by simpa using hl), List.length_cons,
        List.replicate_succ]
      congr 1
      split_ifs <;> rfl

theorem zipWith_add_zero (i : List ℕ) : List.zipWith (fun (i lo : ℕ) => lo + i) i (List.replicate i.length 0) = i := by
  induction i with
  | nil => rfl
  | cons x i ih => simp [List.replicate_succ, ih]

theorem broadcast_length {b : BinSize} {n : ℕ} {bs : List ℕ} (h : b.broadcast n = .ok bs) :
    bs.length = n := by
  cases b with
  | scalar b => simp [BinSize.broadcast] at h; subst h; simp
  | seq l =>
    by_cases h1 : l.length = n
    · simp [BinSize.broadcast, h1] at h; subst h; exact h1
    · rcases l with _ | ⟨x, _ | ⟨y, l⟩⟩
      · simp only [BinSize.broadcast, h1, if_false] at h
        split_ifs at h
      · simp only [BinSize.broadcast, h1, if_false] at h
        cases h; simp
      · simp only [BinSize.broadcast, h1, if_false] at h
        split_ifs at h

theorem zero_mem_zipWith_mul : ∀ d bs : List ℕ, 0 ∉ bs → 0 ∈ List.zipWith (· * ·) d bs → 0 ∈ d
  | [], _, _, h => by simp at h
  | _ :: _, [], _, h => by simp at h
  | x :: d, y :: bs, hp, h => by
    simp only [List.mem_cons, not_or] at hp
    simp only [List.zipWith_cons_cons, List.mem_cons] at h
    rcases h with h | h
    · have := Nat.mul_eq_zero.mp h.symm
      rw [List.mem_cons]; left; omega
    · exact List.mem_cons_of_mem _ (zero_mem_zipWith_mul d bs hp.2 h)

theorem binNdarray_ok {a : Arr ℝ} {b : BinSize} {bs : List ℕ} (hb : b.broadcast a.shape.length = .ok bs)
    (hpos : 0 ∉ bs) {op : String} {mean : Bool} (hop : OpIs op mean) :
    ∃ r, binNdarray a none (some b) op = .ok r ∧
      r.shape = List.zipWith (· / ·) a.shape bs ∧
      ∀ q, InShape q r.shape →
        r.get q = sumIdx bs (fun t => a.get (blockIdx bs q t)) / blockWeight mean bs := by
  have hbl := broadcast_length hb
  set crop := (List.zipWith npMod a.shape bs).map fun (r : ℕ) =>
    if r ≠ 0 then (⟨none, some (-(r : ℤ))⟩ : Slice) else Slice.all with hcrop
  have hcl : crop.length = a.shape.length := by simp [hcrop, hbl]
  set a' := a.slice crop with ha'
  have hsh : a'.shape = List.zipWith (fun n b => n - npMod n b) a.shape bs := by
    rw [ha']
    simp only [Arr.slice, hcl, Nat.sub_self, List.replicate_zero, List.append_nil]
    exact crop_shape a.shape bs hbl
  have hget : ∀ i, i.length = a.shape.length → a'.get i = a.get i := by
    intro i hi
    rw [ha']
    simp only [Arr.slice, hcl, Nat.sub_self, List.replicate_zero, List.append_nil]
    rw [hcrop, crop_lo a.shape bs hbl, ← hi, zipWith_add_zero]
  set d := List.zipWith (· / ·) a.shape bs with hd
  have hdl : d.length = a.shape.length := by simp [hd, hbl]
  have hdl' : d.length = a'.shape.length := by rw [hsh, hdl]; simp [hbl]
  have hmulb : List.zipWith (· * ·) d bs = a'.shape := by
    rw [hsh, hd]
    clear_value a' crop d
    clear hget hsh ha' hcl hcrop hdl hdl' hd hb
    revert hpos hbl
    generalize a.shape = n
    intro hpos hbl
    induction n generalizing bs with
    | nil => simp
    | cons x n ih =>
      cases bs with
      | nil => simp at hbl
      | cons y bs =>
        simp only [List.mem_cons, not_or] at hpos
        simp only [List.zipWith_cons_cons, ih hpos.2 (by simpa using hbl)]
        congr 1
        simp only [npMod]
        rw [if_neg (Ne.symm hpos.1)]
        have := Nat.div_add_mod x y
        rw [Nat.mul_comm] at this
        omega
  have hmulc : List.zipWith (· * ·) d (List.zipWith (· / ·) a'.shape d) = a'.shape := by
    rw [← hmulb]
    clear_value a' crop d
    clear hget hsh ha' hcl hcrop hmulb hd hdl' hb hpos
    have hl : bs.length = d.length := by omega
    clear hdl hbl
    induction d generalizing bs with
    | nil => simp
    | cons x d ih =>
      cases bs with
      | nil => simp at hl
      | cons y bs =>
        simp only [List.zipWith_cons_cons, ih (by simpa using hl)]
        congr 1
        exact Nat.mul_div_cancel' (Dvd.intro _ rfl)
  obtain ⟨h1, h2⟩ := binCore a' d _ mean hdl' rfl hmulc
  have hcq : ∀ q, InShape q d → List.zipWith (· / ·) a'.shape d = bs := by
    intro q hq
    rw [← hmulb]
    clear_value a' crop d
    clear hget hsh ha' hcl hcrop hmulb hmulc hd hdl' hb hpos h1 h2
    have hl : bs.length = d.length := by omega
    clear hdl hbl
    induction hq generalizing bs with
    | nil => cases bs <;> simp_all
    | @cons q x qs d hx _ ih =>
      cases bs with
      | nil => simp at hl
      | cons y bs =>
        simp only [List.zipWith_cons_cons, ih (by simpa using hl)]
        congr 1
        exact Nat.mul_div_cancel_left _ (by omega)
  have hprod : ((List.zip d a'.shape).flatMap fun p => [p.1, p.2 / p.1]).prod = a'.shape.prod := by
    rw [flatMap_interleave, prod_interleave (by simp [hdl']), hmulc]
  have hop' : ¬ (op.toLower ≠ "sum" ∧ op.toLower ≠ "mean") := by
    rw [hop]; cases mean <;> simp
  have hbeq : (op.toLower == "mean") = mean := by
    rw [hop]; cases mean <;> rfl
  refine ⟨(List.range d.length).foldl (fun a i => binReduce mean i a)
      (a'.reshape ((List.zip d a'.shape).flatMap fun p => [p.1, p.2 / p.1])), ?_, h1, ?_⟩
  · simp only [binNdarray, hb, bind, Except.bind, pure, Except.pure, ← hcrop, ← ha', ← hd, hbeq]
    rw [if_neg hop']
    rw [if_neg (by simp [hdl'])]
    rw [if_neg (by simp)]
    rw [if_neg (by simp [hprod])]
    rw [if_neg]
    rintro ⟨-, h0, h0'⟩
    rw [← hmulb] at h0
    exact h0' (zero_mem_zipWith_mul d bs hpos h0)
  · rw [h1]
    intro q hq
    rw [h2 q hq, hcq q hq]
    congr 1
    refine sumIdx_congr fun t ht => hget _ ?_
    have := (blockIdx_inShape hq ht (by omega)).length
    rw [this]; simp; omega

/-- C16: `bin_ndarray(a, bin_size=b)` has shape `old // b`, and element `q` is the sum (or mean) of the
`b`-sized block starting at `q*b`; the trailing remainder of every axis is dropped. -/
theorem C16_bin_blocks (a : Arr ℝ) (b : BinSize) (bs : List ℕ)
    (hb : b.broadcast a.shape.length = .ok bs) (hpos : 0 ∉ bs) (op : String) (mean : Bool)
    (hop : OpIs op mean) :
    ∃ r, binNdarray a none (some b) op = .ok r ∧
      r.shape = List.zipWith (· / ·) a.shape bs ∧
      ∀ q, InShape q r.shape →
        r.get q = sumIdx bs (fun t => a.get (blockIdx bs q t)) / blockWeight mean bs :=
  binNdarray_ok hb hpos hop

/-- C16: a scalar bin size applies to every axis, a sequence to the axes in order. -/
theorem C16_bin_broadcast (n k : ℕ) (bs : List ℕ) (h : bs.length = n) :
    (BinSize.scalar k).broadcast n = .ok (List.replicate n k) ∧ (BinSize.seq bs).broadcast n = .ok bs :=
  ⟨rfl, by simp [BinSize.broadcast, h]⟩

/-- Non-vacuity of C16: a 5×6 image binned 2×2 is 2×3, element (1, 2) is the sum of the 4 pixels
(2,4), (2,5), (3,4), (3,5); row 4 is dropped. -/
example (g : ℕ → ℕ → ℝ) : ∃ r, binNdarray ⟨[5, 6], fun i => g (i.getD 0 0) (i.getD 1 0)⟩ none
      (some (.scalar 2)) "Sum" = .ok r ∧ r.shape = [2, 3] ∧
      r.get [1, 2] = g 2 4 + g 2 5 + (g 3 4 + g 3 5) := by
  obtain ⟨r, h1, h2, h3⟩ := C16_bin_blocks ⟨[5, 6], fun i => g (i.getD 0 0) (i.getD 1 0)⟩ (.scalar 2)
    [2, 2] rfl (by simp) "Sum" false (by unfold OpIs; decide +kernel)
  refine ⟨r, h1, h2, ?_⟩
  rw [h3 [1, 2] (by rw [h2]; exact .cons (by decide) (.cons (by decide) .nil))]
  simp [sumIdx, Finset.sum_range_succ, blockIdx, blockWeight]

/-! ## C17 -/

/-- C17: if the bins divide the shape, the total (operation `'sum'`) is conserved. -/
theorem C17_bin_total (a : Arr ℝ) (b : BinSize) (bs : List ℕ)
    (hb : b.broadcast a.shape.length = .ok bs) (hpos : 0 ∉ bs)
    (hdvd : List.Forall₂ (· ∣ ·) bs a.shape) (op : String) (hop : OpIs op false) (r : Arr ℝ)
    (hr : binNdarray a none (some b) op = .ok r) : r.sum = a.sum := by
  obtain ⟨r', h1, h2, h3⟩ := binNdarray_ok hb hpos hop
  rw [hr] at h1; cases h1
  have hbl := broadcast_length hb
  have hmul : List.zipWith (· * ·) (List.zipWith (· / ·) a.shape bs) bs = a.shape := by
    clear h2 h3 hr hb hbl hpos
    revert hdvd
    generalize a.shape = n
    intro hdvd
    induction hdvd with
    | nil => rfl
    | cons h _ ih => simp only [List.zipWith_cons_cons, ih, Nat.div_mul_cancel h]
  have hs := sumIdx_blocks (List.zipWith (· / ·) a.shape bs) bs (by simp [hbl]) a.get
  rw [hmul] at hs
  simp only [Arr.sum]
  rw [hs, h2]
  refine sumIdx_congr fun q hq => ?_
  rw [h3 q (by rw [h2]; exact hq)]
  simp [blockWeight]

/-- C17: with `'mean'` the average over all elements is conserved. -/
theorem C17_bin_average (a : Arr ℝ) (b : BinSize) (bs : List ℕ)
    (hb : b.broadcast a.shape.length = .ok bs) (hpos : 0 ∉ bs)
    (hdvd : List.Forall₂ (· ∣ ·) bs a.shape) (op : String) (hop : OpIs op true) (r : Arr ℝ)
    (hr : binNdarray a none (some b) op = .ok r) :
    r.sum / (r.shape.prod : ℕ) = a.sum / (a.shape.prod : ℕ) := by
  obtain ⟨r', h1, h2, h3⟩ := binNdarray_ok hb hpos hop
  rw [hr] at h1; cases h1
  have hbl := broadcast_length hb
  have hmul : List.zipWith (· * ·) (List.zipWith (· / ·) a.shape bs) bs = a.shape := by
    clear h2 h3 hr hb hbl hpos
    revert hdvd
    generalize a.shape = n
    intro hdvd
    induction hdvd with
    | nil => rfl
    | cons h _ ih => simp only [List.zipWith_cons_cons, ih, Nat.div_mul_cancel h]
  have hs := sumIdx_blocks (List.zipWith (· / ·) a.shape bs) bs (by simp [hbl]) a.get
  rw [hmul] at hs
  have hp : a.shape.prod = (List.zipWith (· / ·) a.shape bs).prod * bs.prod := by
    have : ∀ x y : List ℕ, y.length = x.length → (List.zipWith (· * ·) x y).prod = x.prod * y.prod := by
      intro x
      induction x with
      | nil => intro y h; cases y <;> simp_all
      | cons x xs ih =>
        intro y h
        cases y with
        | nil => simp at h
        | cons y ys =>
          simp only [List.zipWith_cons_cons, List.prod_cons, ih ys (by simpa using h)]; ring
    conv_lhs => rw [← hmul]
    exact this _ _ (by simp [hbl])
  have hb0 : (bs.prod : ℝ) ≠ 0 := by
    have : bs.prod ≠ 0 := fun h => hpos (List.prod_eq_zero_iff.mp h)
    exact_mod_cast this
  have hsum : r.sum = a.sum * (bs.prod : ℝ)⁻¹ := by
    simp only [Arr.sum]
    rw [hs, h2, mul_comm, ← sumIdx_mul_left]
    refine sumIdx_congr fun q hq => ?_
    rw [h3 q (by rw [h2]; exact hq)]
    simp [blockWeight, div_eq_mul_inv, mul_comm]
  rw [hsum, hp, h2, Nat.cast_mul, div_eq_mul_inv, div_eq_mul_inv, mul_inv]
  ring

/-- Non-vacuity: 4×6 binned by (2, 3). -/
example : List.Forall₂ (· ∣ ·) [2, 3] [4, 6] ∧ OpIs "SUM" false ∧ OpIs "Mean" true :=
  ⟨.cons (by decide) (.cons (by decide) .nil), by unfold OpIs; decide +kernel, by unfold OpIs; decide +kernel⟩

/-! ## C18 -/

/-- C18: neither `new_shape` nor `bin_size`. -/
theorem C18_nothing_given (a : Arr ℝ) (op : String) : binNdarray a none none op = .error .valueError := rfl

/-- C18: unknown operation. -/
theorem C18_unknown_operation (a : Arr ℝ) (s : List ℕ) (b : Option BinSize) (op : String)
    (h : op.toLower ≠ "sum" ∧ op.toLower ≠ "mean") :
    binNdarray a (some s) b op = .error .valueError := by
  simp only [binNdarray, bind, Except.bind, pure, Except.pure]
  rw [if_pos h]; rfl

/-- C18: unknown operation, `bin_size` form (for a usable bin size). -/
theorem C18_unknown_operation_bin (a : Arr ℝ) (b : BinSize) (bs : List ℕ)
    (hb : b.broadcast a.shape.length = .ok bs) (op : String)
    (h : op.toLower ≠ "sum" ∧ op.toLower ≠ "mean") :
    binNdarray a none (some b) op = .error .valueError := by
  simp only [binNdarray, hb, bind, Except.bind, pure, Except.pure]
  rw [if_pos h]; rfl

/-- C18: rank mismatch. -/
theorem C18_rank_mismatch (a : Arr ℝ) (s : List ℕ) (b : Option BinSize) (op : String) (mean : Bool)
    (hop : OpIs op mean) (h : a.shape.length ≠ s.length) :
    binNdarray a (some s) b op = .error .valueError := by
  have hop' : ¬ (op.toLower ≠ "sum" ∧ op.toLower ≠ "mean") := by
    rw [hop]; cases mean <;> simp
  simp only [binNdarray, bind, Except.bind, pure, Except.pure]
  rw [if_neg hop']
  rw [if_pos h]; rfl

theorem prod_le_of_le : ∀ (x y : List ℕ), List.Forall₂ (· ≤ ·) x y → x.prod ≤ y.prod := by
  intro x y h
  induction h with
  | nil => exact le_rfl
  | cons h _ ih => simp only [List.prod_cons]; exact Nat.mul_le_mul h ih

theorem prod_lt_of_lt {x y : List ℕ} (h : List.Forall₂ (· ≤ ·) x y) (hy : 0 ∉ y) (hne : x ≠ y) :
    x.prod < y.prod := by
  induction h with
  | nil => exact absurd rfl hne
  | @cons a b x y hab hxy ih =>
    simp only [List.mem_cons, not_or] at hy
    simp only [List.prod_cons]
    have hyp : 0 < y.prod := Nat.pos_of_ne_zero fun e => hy.2 (List.prod_eq_zero_iff.mp e)
    by_cases hxe : x = y
    · subst hxe
      have : a < b := lt_of_le_of_ne hab fun e => hne (by rw [e])
      exact Nat.mul_lt_mul_of_lt_of_le this le_rfl hyp
    · exact Nat.mul_lt_mul_of_le_of_lt hab (ih hy.2 hxe) (by omega)

/-- C18: a `new_shape` that does not divide the shape of (non-empty) data. -/
theorem C18_not_dividing (a : Arr ℝ) (s : List ℕ) (b : Option BinSize) (op : String) (mean : Bool)
    (hop : OpIs op mean) (hlen : a.shape.length = s.length) (h0 : 0 ∉ s) (hne : 0 ∉ a.shape)
    (h : ¬ List.Forall₂ (· ∣ ·) s a.shape) :
    binNdarray a (some s) b op = .error .valueError := by
  have hop' : ¬ (op.toLower ≠ "sum" ∧ op.toLower ≠ "mean") := by
    rw [hop]; cases mean <;> simp
  have hne' : List.zipWith (· * ·) s (List.zipWith (· / ·) a.shape s) ≠ a.shape := by
    intro he
    apply h
    revert he hlen
    generalize a.shape = n
    clear h hne h0
    intro hlen he
    induction s generalizing n with
    | nil => cases n <;> simp_all
    | cons x s ih =>
      cases n with
      | nil => simp at hlen
      | cons y n =>
        simp only [List.zipWith_cons_cons, List.cons.injEq] at he
        exact .cons ⟨_, he.1.symm⟩ (ih n (by simpa using hlen) he.2)
  have hle : List.Forall₂ (· ≤ ·) (List.zipWith (· * ·) s (List.zipWith (· / ·) a.shape s)) a.shape := by
    revert hlen
    generalize a.shape = n
    clear h hne h0 hne'
    intro hlen
    induction s generalizing n with
    | nil => cases n <;> simp_all
    | cons x s ih =>
      cases n with
      | nil => simp at hlen
      | cons y n =>
        exact .cons (Nat.mul_div_le _ _) (ih n (by simpa using hlen))
  have hp := prod_lt_of_lt hle hne hne'
  have hprod : ((List.zip s a.shape).flatMap fun p => [p.1, p.2 / p.1]).prod ≠ a.shape.prod := by
    rw [flatMap_interleave, prod_interleave (by simp [hlen])]
    omega
  simp only [binNdarray, bind, Except.bind, pure, Except.pure]
  rw [if_neg hop']
  rw [if_neg (by simp [hlen])]
  rw [if_neg (by simp [h0])]
  rw [if_pos hprod]; rfl

/-- C18: operation names are case-insensitive. -/
theorem C18_case_insensitive (a : Arr ℝ) (s : Option (List ℕ)) (b : Option BinSize) (op op' : String)
    (h : op.toLower = op'.toLower) : binNdarray a s b op = binNdarray a s b op' := by
  simp only [binNdarray, h]

/-- C18: an explicit `new_shape` that divides the shape is accepted, with the block sums/means (means of
non-empty data only). -/
theorem C18_dividing_accepted (a : Arr ℝ) (s : List ℕ) (b : Option BinSize) (op : String) (mean : Bool)
    (hop : OpIs op mean) (h0 : 0 ∉ s) (hne : mean = true → 0 ∉ a.shape) (h : List.Forall₂ (· ∣ ·) s a.shape) :
    ∃ r, binNdarray a (some s) b op = .ok r ∧ r.shape = s ∧ ∀ q, InShape q s →
      r.get q = sumIdx (List.zipWith (· / ·) a.shape s)
        (fun t => a.get (blockIdx (List.zipWith (· / ·) a.shape s) q t)) /
          blockWeight mean (List.zipWith (· / ·) a.shape s) := by
  have hlen : s.length = a.shape.length := h.length_eq
  have hmul : List.zipWith (· * ·) s (List.zipWith (· / ·) a.shape s) = a.shape := by
    revert h
    generalize a.shape = n
    intro h
    clear hlen h0
    induction h with
    | nil => rfl
    | cons h _ ih => simp only [List.zipWith_cons_cons, ih, Nat.mul_div_cancel' h]
  have hop' : ¬ (op.toLower ≠ "sum" ∧ op.toLower ≠ "mean") := by
    rw [hop]; cases mean <;> simp
  have hbeq : (op.toLower == "mean") = mean := by
    rw [hop]; cases mean <;> rfl
  have hprod : ((List.zip s a.shape).flatMap fun p => [p.1, p.2 / p.1]).prod = a.shape.prod := by
    rw [flatMap_interleave, prod_interleave (by simp [hlen]), hmul]
  obtain ⟨h1, h2⟩ := binCore a s _ mean hlen rfl hmul
  refine ⟨_, ?_, h1, h2⟩
  simp only [binNdarray, bind, Except.bind, pure, Except.pure]
  rw [if_neg hop']
  rw [if_neg (by simp [hlen])]
  rw [if_neg (by simp [h0])]
  rw [if_neg (by simp [hprod]), hbeq]
  rw [if_neg]
  rintro ⟨hm, h0a, -⟩
  rw [hop] at hm
  cases mean with
  | false => revert hm; decide
  | true => exact hne rfl h0a

/-- C18: the mean over no pixels at all is NaN. -/
theorem C18_mean_of_nothing (a : Arr ℝ) (s : List ℕ) (b : Option BinSize) (op : String) (hop : OpIs op true)
    (hlen : a.shape.length = s.length) (h0 : 0 ∉ s) (he : 0 ∈ a.shape) (h : List.Forall₂ (· ∣ ·) s a.shape) :
    binNdarray a (some s) b op = .error .nan := by
  have hop' : ¬ (op.toLower ≠ "sum" ∧ op.toLower ≠ "mean") := by
    rw [hop]; simp
  have hmul : List.zipWith (· * ·) s (List.zipWith (· / ·) a.shape s) = a.shape := by
    revert h
    generalize a.shape = n
    intro h
    clear hlen h0 he
    induction h with
    | nil => rfl
    | cons h _ ih => simp only [List.zipWith_cons_cons, ih, Nat.mul_div_cancel' h]
  have hprod : ((List.zip s a.shape).flatMap fun p => [p.1, p.2 / p.1]).prod = a.shape.prod := by
    rw [flatMap_interleave, prod_interleave (by simp [hlen]), hmul]
  simp only [binNdarray, bind, Except.bind, pure, Except.pure]
  rw [if_neg hop']
  rw [if_neg (by simp [hlen])]
  rw [if_neg (by simp [h0])]
  rw [if_neg (by simp [hprod])]
  rw [if_pos ⟨by rw [hop]; rfl, he, h0⟩]; rfl

/-- C18: a zero in an explicit `new_shape` of the right rank divides by zero. -/
theorem C18_zero_size (a : Arr ℝ) (s : List ℕ) (b : Option BinSize) (op : String) (mean : Bool) (hop : OpIs op mean)
    (hlen : a.shape.length = s.length) (h0 : 0 ∈ s) : binNdarray a (some s) b op = .error .zeroDivisionError := by
  have hop' : ¬ (op.toLower ≠ "sum" ∧ op.toLower ≠ "mean") := by
    rw [hop]; cases mean <;> simp
  simp only [binNdarray, bind, Except.bind, pure, Except.pure]
  rw [if_neg hop']
  rw [if_neg (by simp [hlen])]
  rw [if_pos ⟨rfl, h0⟩]; rfl

/-- Non-vacuity of C18: 5 elements do not fit in 2 bins, "median" is not an operation. -/
example (g : List ℕ → ℝ) : binNdarray ⟨[5], g⟩ (some [2]) none "sum" = .error .valueError ∧
    binNdarray ⟨[4], g⟩ (some [2]) none "median" = .error .valueError :=
  ⟨C18_not_dividing _ _ _ _ false (by unfold OpIs; decide +kernel) rfl (by simp) (by simp)
    (by rintro (_ | ⟨h, _⟩); revert h; decide),
   C18_unknown_operation _ _ _ _ (by decide +kernel)⟩

end PyOTF
