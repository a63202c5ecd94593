import Verif.Model.Utils
import Verif.Lemmas.Arr
import Verif.Lemmas.Rint

/-!
# C19, C20: `radial_profile`
-/

namespace PyOTF

/-! ## Specification -/

/-- Euclidean distance of a pixel from the centre. -/
noncomputable def pixelDist (c : List ℝ) (i : List ℕ) : ℝ :=
  Real.sqrt (∑ k ∈ Finset.range i.length, ((i.getD k 0 : ℝ) - c.getD k 0) ^ 2)

open Classical in
/-- The pixels of ring `k`: those whose distance over `b` rounds (half to even) to `k`. -/
noncomputable def ringSet (shape : List ℕ) (c : List ℝ) (b : ℝ) (k : ℕ) : Finset (List ℕ) :=
  (indices shape).toFinset.filter fun i => rint (pixelDist c i / b) = (k : ℤ)

/-- Mean of `f` over a finite set. -/
noncomputable def meanOn (R : Finset (List ℕ)) (f : List ℕ → ℝ) : ℝ := (∑ i ∈ R, f i) / (R.card : ℝ)

/-- Population standard deviation of `f` over a finite set. -/
noncomputable def stdOn (R : Finset (List ℕ)) (f : List ℕ → ℝ) : ℝ :=
  Real.sqrt (meanOn R fun i => (f i - meanOn R f) ^ 2)

/-! ## Proofs -/

theorem zipWith_sum_eq (i : List ℕ) (c : List ℝ) (h : c.length = i.length) :
    (List.zipWith (fun (i : ℕ) (c : ℝ) => ((i : ℝ) - c) ^ 2) i c).sum
      = ∑ k ∈ Finset.range i.length, ((i.getD k 0 : ℝ) - c.getD k 0) ^ 2 := by
  induction i generalizing c with
  | nil => simp
  | cons x i ih =>
    cases c with
    | nil => simp at h
    | cons y c =>
      rw [List.length_cons, Finset.sum_range_succ']
      simp only [List.zipWith_cons_cons, List.sum_cons, ih c (by simpa using h)]
      simp [add_comm]

theorem ringOf_eq (c : List ℝ) (b : ℝ) (i : List ℕ) (h : c.length = i.length) :
    ringOf c b i = rint (pixelDist c i / b) := by
  rw [ringOf, pixelDist, zipWith_sum_eq i c h]

theorem radialCenter_length {s : List ℕ} {ctr : Option (List ℝ)} {c : List ℝ}
    (h : radialCenter s ctr = .ok c) : c.length = s.length := by
  cases ctr with
  | none => simp [radialCenter] at h; subst h; simp
  | some l =>
    by_cases h1 : l.length = s.length
    · simp [radialCenter, h1] at h; subst h; exact h1
    · rcases l with _ | ⟨x, _ | ⟨y, l⟩⟩ <;> simp only [radialCenter, h1, if_false] at h
      · cases h
      · cases h; simp
      · cases h

theorem foldr_max_lt {α : Type} (l : List α) (f : α → ℕ) (k : ℕ) :
    k < l.foldr (fun i m => max (f i + 1) m) 0 ↔ ∃ i ∈ l, k ≤ f i := by
  induction l with
  | nil => simp
  | cons x l ih => simp [ih]

theorem var_eq (R : Finset (List ℕ)) (hR : R.Nonempty) (f : List ℕ → ℝ) :
    (∑ i ∈ R, f i ^ 2) / (R.card : ℝ) - (meanOn R f) ^ 2 = meanOn R fun i => (f i - meanOn R f) ^ 2 := by
  have hc : (R.card : ℝ) ≠ 0 := by exact_mod_cast hR.card_pos.ne'
  set m := meanOn R f with hm
  have h1 : ∑ i ∈ R, f i = R.card * m := by rw [hm, meanOn]; field_simp
  rw [meanOn]
  have : ∑ i ∈ R, (f i - m) ^ 2 = ∑ i ∈ R, f i ^ 2 - R.card * m ^ 2 := by
    have : ∀ i ∈ R, (f i - m) ^ 2 = f i ^ 2 - 2 * m * f i + m ^ 2 := fun i _ => by ring
    rw [Finset.sum_congr rfl this, Finset.sum_add_distrib, Finset.sum_sub_distrib, ← Finset.mul_sum, h1]
    simp; ring
  rw [this]; field_simp

/-- C19: for every real array, centre and positive bin size, bin `k` of the two results is the mean and
the population standard deviation of ring `k` (both NaN exactly when the ring is empty); the number of
bins is one more than the largest ring number. -/
theorem C19_radial_profile (data : Arr ℝ) (ctr : Option (List ℝ)) (c : List ℝ)
    (hc : radialCenter data.shape ctr = .ok c) (b : ℝ) (hb : 0 < b) :
    ∃ p s, radialProfile data ctr b = .ok (p, s) ∧ p.length = s.length ∧
      (∀ k : ℕ, k < p.length ↔ ∃ i, InShape i data.shape ∧ (k : ℤ) ≤ rint (pixelDist c i / b)) ∧
      ∀ k < p.length,
        (ringSet data.shape c b k = ∅ → p[k]? = some none ∧ s[k]? = some none) ∧
        (ringSet data.shape c b k ≠ ∅ →
          p[k]? = some (some (meanOn (ringSet data.shape c b k) data.get)) ∧
          s[k]? = some (some (stdOn (ringSet data.shape c b k) data.get))) := by
  have hcl := radialCenter_length hc
  have hnn : ∀ i, 0 ≤ rint (pixelDist c i / b) := fun i =>
    rint_nonneg (div_nonneg (Real.sqrt_nonneg _) hb.le)
  have hro : ∀ i ∈ indices data.shape, ringOf c b i = rint (pixelDist c i / b) := fun i hi =>
    ringOf_eq c b i (by rw [hcl, (mem_indices.mp hi).length])
  have hany : ¬ ((indices data.shape).any (fun i => decide (ringOf c b i < 0)) = true) := by
    rw [List.any_eq_true]
    rintro ⟨i, hi, h⟩
    have := hnn i
    rw [← hro i hi] at this
    simp only [decide_eq_true_eq] at h
    omega
  have hfin : ∀ k, ((indices data.shape).filter fun i => (ringOf c b i).toNat == k).toFinset
      = ringSet data.shape c b k := by
    intro k
    ext i
    simp only [ringSet, List.mem_toFinset, List.mem_filter, Finset.mem_filter, beq_iff_eq]
    refine and_congr_right fun hi => ?_
    rw [hro i hi]
    have := hnn i
    omega
  have hnd : ∀ k, ((indices data.shape).filter fun i => (ringOf c b i).toNat == k).Nodup :=
    fun k => (indices_nodup _).filter _
  have hsum : ∀ k (f : List ℕ → ℝ), (((indices data.shape).filter fun i => (ringOf c b i).toNat == k).map f).sum
      = ∑ i ∈ ringSet data.shape c b k, f i := fun k f => by
    rw [← hfin k, List.sum_toFinset _ (hnd k)]
  have hcard : ∀ k, ((indices data.shape).filter fun i => (ringOf c b i).toNat == k).length
      = (ringSet data.shape c b k).card := fun k => by
    rw [← hfin k, List.toFinset_card_of_nodup (hnd k)]
  obtain ⟨p, s, hps, hp, hs⟩ : ∃ p s, radialProfile data ctr b = .ok (p, s) ∧ _ = p ∧ _ = s := by
    simp only [radialProfile, hc, bind, Except.bind, pure, Except.pure]
    rw [if_neg hany]
    exact ⟨_, _, rfl, rfl, rfl⟩
  refine ⟨p, s, hps, ?_, ?_, ?_⟩ <;> rw [← hp] <;> clear hp <;> (try rw [← hs]) <;> clear hs
  · simp
  · intro k
    simp only [List.length_map, List.length_range]
    rw [foldr_max_lt]
    constructor
    · rintro ⟨i, hi, h⟩
      refine ⟨i, mem_indices.mp hi, ?_⟩
      rw [hro i hi] at h; have := hnn i; omega
    · rintro ⟨i, hi, h⟩
      refine ⟨i, mem_indices.mpr hi, ?_⟩
      rw [hro i (mem_indices.mpr hi)]; omega
  · intro k hk
    simp only [List.length_map, List.length_range] at hk
    simp only [List.getElem?_map, List.getElem?_range hk, Option.map_some, hcard, hsum]
    constructor
    · intro h; simp [h]
    · intro h
      have hne := Finset.nonempty_iff_ne_empty.mpr h
      have h0 : (ringSet data.shape c b k).card ≠ 0 := hne.card_pos.ne'
      have hv := var_eq _ hne data.get
      rw [if_neg h0, if_neg h0]
      refine ⟨rfl, ?_⟩
      rw [show (∑ i ∈ ringSet data.shape c b k, data.get i) / ((ringSet data.shape c b k).card : ℝ)
        = meanOn (ringSet data.shape c b k) data.get from rfl, hv, npSqrt, if_neg]
      · rfl
      · rw [not_lt, meanOn]
        exact div_nonneg (Finset.sum_nonneg fun i _ => sq_nonneg _) (Nat.cast_nonneg _)

/-- C19, complex data: the profile is the complex mean of the ring, the std the root of the summed
variances of real and imaginary part. -/
theorem C19_radial_profile_complex (data : Arr ℂ) (ctr : Option (List ℝ)) (c : List ℝ)
    (hc : radialCenter data.shape ctr = .ok c) (b : ℝ) (hb : 0 < b) :
    ∃ p s, radialProfileC data ctr b = .ok (p, s) ∧ p.length = s.length ∧
      (∀ k : ℕ, k < p.length ↔ ∃ i, InShape i data.shape ∧ (k : ℤ) ≤ rint (pixelDist c i / b)) ∧
      ∀ k < p.length,
        (ringSet data.shape c b k = ∅ → p[k]? = some none ∧ s[k]? = some none) ∧
        (ringSet data.shape c b k ≠ ∅ →
          p[k]? = some (some ((∑ i ∈ ringSet data.shape c b k, data.get i) /
            ((ringSet data.shape c b k).card : ℂ))) ∧
          s[k]? = some (some (Real.sqrt
            (stdOn (ringSet data.shape c b k) (fun i => (data.get i).re) ^ 2 +
             stdOn (ringSet data.shape c b k) (fun i => (data.get i).im) ^ 2)))) := by
  obtain ⟨p1, s1, h1, hl1, hk1, hv1⟩ := C19_radial_profile (data.map Complex.re) ctr c hc b hb
  obtain ⟨p2, s2, h2, hl2, hk2, hv2⟩ := C19_radial_profile (data.map Complex.im) ctr c hc b hb
  have hlen : p1.length = p2.length := by
    have : ∀ k, k < p1.length ↔ k < p2.length := fun k => (hk1 k).trans (hk2 k).symm
    have a := this p1.length
    have b := this p2.length
    omega
  obtain ⟨p, s, hps, hp, hs⟩ : ∃ p s, radialProfileC data ctr b = .ok (p, s) ∧ _ = p ∧ _ = s := by
    simp only [radialProfileC, h1, h2, bind, Except.bind, pure, Except.pure]
    exact ⟨_, _, rfl, rfl, rfl⟩
  have hpl : p.length = p1.length := by rw [← hp]; simp [hlen]
  have hsl : s.length = p1.length := by rw [← hs]; simp; omega
  refine ⟨p, s, hps, by omega, fun k => by rw [hpl]; exact hk1 k, fun k hk => ?_⟩
  rw [hpl] at hk
  obtain ⟨e1, n1⟩ := hv1 k hk
  obtain ⟨e2, n2⟩ := hv2 k (hlen ▸ hk)
  rw [← hp, ← hs]
  simp only [List.getElem?_zipWith]
  constructor
  · intro h
    obtain ⟨a1, a2⟩ := e1 h
    obtain ⟨a3, a4⟩ := e2 h
    rw [a1, a2, a3, a4]; exact ⟨rfl, rfl⟩
  · intro h
    obtain ⟨a1, a2⟩ := n1 h
    obtain ⟨a3, a4⟩ := n2 h
    simp only [Arr.map] at a1 a2 a3 a4
    rw [a1, a2, a3, a4]
    refine ⟨?_, rfl⟩
    simp only [Option.bind_some, Option.map_some, Option.some.injEq]
    apply Complex.ext
    · simp [meanOn, Complex.div_natCast_re]
    · simp [meanOn, Complex.div_natCast_im]

/-- Non-vacuity of C19: a two-element centre fits a two-dimensional array, and every positive bin size
is allowed. -/
example (g : List ℕ → ℝ) : ∃ p s, radialProfile ⟨[4, 5], g⟩ (some [1.5, 2]) 0.5 = .ok (p, s) ∧
    p.length = s.length := by
  obtain ⟨p, s, h, hl, _⟩ := C19_radial_profile ⟨[4, 5], g⟩ (some [1.5, 2]) [1.5, 2] rfl 0.5 (by norm_num)
  exact ⟨p, s, h, hl⟩

/-! ## C20 -/

/-- Squared distance of `i` from an integer centre. -/
def sqDist : List ℕ → List ℕ → ℕ
  | x :: i, y :: c => (((x : ℤ) - y) ^ 2).toNat + sqDist i c
  | _, _ => 0

theorem pixelDist_int (i c : List ℕ) (h : i.length = c.length) :
    pixelDist (c.map fun (n : ℕ) => (n : ℝ)) i = Real.sqrt (sqDist i c) := by
  rw [pixelDist, ← zipWith_sum_eq _ _ (by simp [h])]
  congr 1
  induction i generalizing c with
  | nil => cases c <;> simp [sqDist]
  | cons x i ih =>
    cases c with
    | nil => simp at h
    | cons y c =>
      simp only [List.map_cons, List.zipWith_cons_cons, List.sum_cons, ih c (by simpa using h), sqDist]
      push_cast
      congr 1
      have : ((((x : ℤ) - y) ^ 2).toNat : ℤ) = ((x : ℤ) - y) ^ 2 := Int.toNat_of_nonneg (sq_nonneg _)
      have h2 := congrArg (Int.cast (R := ℝ)) this
      push_cast at h2
      exact h2.symm

/-- One step towards the centre. -/
theorem step_towards {i c s : List ℕ} (hi : InShape i s) (hc : InShape c s) (h : sqDist i c ≠ 0) :
    ∃ j, InShape j s ∧ ∃ d : ℕ, sqDist i c = sqDist j c + 2 * d + 1 ∧ d ^ 2 ≤ sqDist j c := by
  induction hi generalizing c with
  | nil => cases hc; simp [sqDist] at h
  | @cons x n i s hx hi ih =>
    cases hc with
    | @cons y _ c _ hy hc =>
      by_cases hxy : x = y
      · subst hxy
        simp only [sqDist, sub_self] at h ⊢
        obtain ⟨j, hj, d, h1, h2⟩ := ih hc (by simpa using h)
        exact ⟨x :: j, .cons hx hj, d, by simp [sqDist, h1], by simpa [sqDist] using h2⟩
      · have key : ∀ z d : ℕ, ((x : ℤ) - y) ^ 2 = (d + 1) ^ 2 → ((z : ℤ) - y) ^ 2 = d ^ 2 → z < n →
            ∃ j, InShape j (n :: s) ∧ ∃ d : ℕ,
              sqDist (x :: i) (y :: c) = sqDist j (y :: c) + 2 * d + 1 ∧ d ^ 2 ≤ sqDist j (y :: c) := by
          intro z d h1 h2 hz
          refine ⟨z :: i, .cons hz hi, d, ?_, ?_⟩
          · simp only [sqDist, h1, h2]
            have e1 : (((d : ℤ) + 1) ^ 2).toNat = (d + 1) ^ 2 := by
              rw [show ((d : ℤ) + 1) ^ 2 = (((d + 1) ^ 2 : ℕ) : ℤ) by push_cast; ring, Int.toNat_natCast]
            have e2 : ((d : ℤ) ^ 2).toNat = d ^ 2 := by
              rw [show (d : ℤ) ^ 2 = ((d ^ 2 : ℕ) : ℤ) by push_cast; ring, Int.toNat_natCast]
            rw [e1, e2]; ring
          · simp only [sqDist, h2]
            have e2 : ((d : ℤ) ^ 2).toNat = d ^ 2 := by
              rw [show (d : ℤ) ^ 2 = ((d ^ 2 : ℕ) : ℤ) by push_cast; ring, Int.toNat_natCast]
            rw [e2]; omega
        rcases lt_or_gt_of_ne hxy with hlt | hgt
        · refine key (x + 1) (y - x - 1) ?_ ?_ (by omega)
          · rw [show (((y - x - 1 : ℕ) : ℤ) + 1) = y - x by omega]; ring
          · rw [show (((y - x - 1 : ℕ) : ℤ)) = y - x - 1 by omega]; push_cast; ring
        · refine key (x - 1) (x - y - 1) ?_ ?_ (by omega)
          · rw [show (((x - y - 1 : ℕ) : ℤ) + 1) = x - y by omega]
          · rw [show (((x - y - 1 : ℕ) : ℤ)) = x - y - 1 by omega,
              show (((x - 1 : ℕ) : ℤ)) = x - 1 by omega]; ring

/-- The root of an integer is never half-way between integers. -/
theorem sqrt_no_tie (N : ℕ) : |Real.sqrt N - rint (Real.sqrt (N : ℝ))| < 1 / 2 := by
  refine lt_of_le_of_ne (rint_nearest _) fun h => ?_
  set m := rint (Real.sqrt (N : ℝ))
  have h4 : (2 * (Real.sqrt N - m)) ^ 2 = 1 := by
    have : |2 * (Real.sqrt N - m)| = 1 := by rw [abs_mul, h]; norm_num
    rw [← sq_abs, this]; norm_num
  have hs : Real.sqrt N ^ 2 = N := Real.sq_sqrt (Nat.cast_nonneg N)
  rcases sq_eq_one_iff.mp h4 with h5 | h5
  · have h6 : Real.sqrt N = m + 1/2 := by linarith
    rw [h6] at hs
    have : (4 : ℝ) * N = 4 * m ^ 2 + 4 * m + 1 := by rw [← hs]; ring
    have : (4 : ℤ) * N = 4 * m ^ 2 + 4 * m + 1 := by exact_mod_cast this
    omega
  · have h6 : Real.sqrt N = m - 1/2 := by linarith
    rw [h6] at hs
    have : (4 : ℝ) * N = 4 * m ^ 2 - 4 * m + 1 := by rw [← hs]; ring
    have : (4 : ℤ) * N = 4 * m ^ 2 - 4 * m + 1 := by exact_mod_cast this
    omega

theorem ring_step {M N d : ℕ} (h : N = M + 2 * d + 1) (hd : d ^ 2 ≤ M) :
    rint (Real.sqrt (N : ℝ)) ≤ rint (Real.sqrt (M : ℝ)) + 1 := by
  have h1 := abs_lt.mp (sqrt_no_tie N)
  have h2 := abs_lt.mp (sqrt_no_tie M)
  have h3 : Real.sqrt N ≤ Real.sqrt M + 1 := by
    rw [Real.sqrt_le_left (by positivity)]
    have hM : Real.sqrt M ^ 2 = M := Real.sq_sqrt (Nat.cast_nonneg M)
    have hd' : (d : ℝ) ≤ Real.sqrt M := Real.le_sqrt_of_sq_le (by exact_mod_cast hd)
    have : (N : ℝ) = M + 2 * d + 1 := by exact_mod_cast h
    nlinarith
  have : (rint (Real.sqrt (N : ℝ)) : ℝ) < rint (Real.sqrt (M : ℝ)) + 2 := by linarith
  have : rint (Real.sqrt (N : ℝ)) < rint (Real.sqrt (M : ℝ)) + 2 := by exact_mod_cast this
  omega

/-- All rings up to that of any pixel are met on the way to the (integer) centre. -/
theorem rings_met {c s : List ℕ} (hc : InShape c s) (N : ℕ) : ∀ i, InShape i s → sqDist i c = N →
    ∀ k : ℕ, (k : ℤ) ≤ rint (Real.sqrt (N : ℝ)) →
      ∃ j, InShape j s ∧ rint (Real.sqrt (sqDist j c : ℝ)) = k := by
  induction N using Nat.strong_induction_on with
  | _ N ih =>
    intro i hi hN k hk
    rcases eq_or_lt_of_le hk with he | hlt
    · exact ⟨i, hi, by rw [hN, he]⟩
    · by_cases h0 : sqDist i c = 0
      · rw [← hN, h0] at hlt
        have : rint (Real.sqrt ((0 : ℕ) : ℝ)) = 0 := by
          have := rint_natCast (K := ℝ) 0
          simpa using this
        omega
      · obtain ⟨j, hj, d, h1, h2⟩ := step_towards hi hc h0
        have := ring_step h1 h2
        rw [hN] at this h1
        exact ih (sqDist j c) (by omega) j hj rfl k (by omega)

theorem default_center_inShape {s : List ℕ} (h : 0 ∉ s) : InShape (s.map (· / 2)) s := by
  induction s with
  | nil => exact .nil
  | cons n s ih =>
    simp only [List.mem_cons, not_or] at h
    exact .cons (Nat.div_lt_self (by omega) (by omega)) (ih h.2)

theorem ringSet_nonempty (s : List ℕ) (k : ℕ) (i : List ℕ) (hi : InShape i s)
    (hk : (k : ℤ) ≤ rint (pixelDist (s.map fun n => ((n / 2 : ℕ) : ℝ)) i / 1)) :
    ringSet s (s.map fun n => ((n / 2 : ℕ) : ℝ)) 1 k ≠ ∅ := by
  have h0 : 0 ∉ s := by
    intro h0
    have : ∀ {i s : List ℕ}, InShape i s → 0 ∉ s := by
      intro i s h
      induction h with
      | nil => simp
      | cons h _ ih => simp only [List.mem_cons, not_or]; exact ⟨by omega, ih⟩
    exact this hi h0
  have hc := default_center_inShape h0
  have hmap : (s.map fun n => ((n / 2 : ℕ) : ℝ)) = (s.map (· / 2)).map fun (n : ℕ) => (n : ℝ) := by
    simp [List.map_map, Function.comp_def]
  have hpd : ∀ j, InShape j s → pixelDist (s.map fun n => ((n / 2 : ℕ) : ℝ)) j / 1
      = Real.sqrt (sqDist j (s.map (· / 2))) := fun j hj => by
    rw [div_one, hmap, pixelDist_int _ _ (by simp [hj.length])]
  rw [hpd i hi] at hk
  obtain ⟨j, hj, hjk⟩ := rings_met hc _ i hi rfl k hk
  refine Finset.nonempty_iff_ne_empty.mp ⟨j, ?_⟩
  simp only [ringSet, Finset.mem_filter, List.mem_toFinset, mem_indices]
  exact ⟨hj, by rw [hpd j hj, hjk]⟩

/-- C20: with `binsize = 1` and the default centre no ring is empty, for data of any rank and shape:
no bin of the result is NaN. -/
theorem C20_no_empty_ring (data : Arr ℝ) :
    ∃ p s, radialProfile data none 1 = .ok (p, s) ∧ none ∉ p ∧ none ∉ s := by
  obtain ⟨p, s, h, hl, hk, hv⟩ := C19_radial_profile data none _ rfl 1 one_pos
  refine ⟨p, s, h, fun hn => ?_, fun hn => ?_⟩
  · obtain ⟨k, hk', he⟩ := List.getElem_of_mem hn
    obtain ⟨i, hi, hki⟩ := (hk k).mp hk'
    have := ((hv k hk').2 (ringSet_nonempty _ k i hi hki)).1
    rw [List.getElem?_eq_getElem hk', he] at this
    cases this
  · obtain ⟨k, hk', he⟩ := List.getElem_of_mem hn
    obtain ⟨i, hi, hki⟩ := (hk k).mp (hl ▸ hk')
    have := ((hv k (hl ▸ hk')).2 (ringSet_nonempty _ k i hi hki)).2
    rw [List.getElem?_eq_getElem hk', he] at this
    cases this

/-- C20: a constant image has a constant profile and zero std. -/
theorem C20_constant_image (shape : List ℕ) (v : ℝ) (data : Arr ℝ) (hd : data.Same ⟨shape, fun _ => v⟩) :
    ∃ p s, radialProfile data none 1 = .ok (p, s) ∧ (∀ x ∈ p, x = some v) ∧ (∀ x ∈ s, x = some 0) := by
  obtain ⟨p, s, h, hl, hk, hv⟩ := C19_radial_profile data none _ rfl 1 one_pos
  have key : ∀ k, k < p.length → p[k]? = some (some v) ∧ s[k]? = some (some 0) := by
    intro k hk'
    obtain ⟨i, hi, hki⟩ := (hk k).mp hk'
    have hne := ringSet_nonempty _ k i hi hki
    obtain ⟨h1, h2⟩ := (hv k hk').2 hne
    set R := ringSet data.shape (data.shape.map fun n => ((n / 2 : ℕ) : ℝ)) 1 k with hR
    have hcard : (R.card : ℝ) ≠ 0 := by
      exact_mod_cast (Finset.nonempty_iff_ne_empty.mpr hne).card_pos.ne'
    have hget : ∀ j ∈ R, data.get j = v := by
      intro j hj
      simp only [hR, ringSet, Finset.mem_filter, List.mem_toFinset, mem_indices] at hj
      exact hd.2 j hj.1
    have hm : meanOn R data.get = v := by
      rw [meanOn, Finset.sum_congr rfl hget]; simp; field_simp
    refine ⟨by rw [h1, hm], ?_⟩
    rw [h2, stdOn, hm, meanOn, Finset.sum_congr rfl (fun j hj => by rw [hget j hj, sub_self])]
    simp
  refine ⟨p, s, h, fun x hx => ?_, fun x hx => ?_⟩
  · obtain ⟨k, hk', he⟩ := List.getElem_of_mem hx
    have := (key k hk').1
    rw [List.getElem?_eq_getElem hk', he] at this
    exact Option.some.inj this
  · obtain ⟨k, hk', he⟩ := List.getElem_of_mem hx
    have := (key k (hl ▸ hk')).2
    rw [List.getElem?_eq_getElem hk', he] at this
    exact Option.some.inj this

/-- Non-vacuity of C20 (the docstring's example): an 11×11 image of ones; bin 0 exists and is 1. -/
example : ∃ p s, radialProfile ⟨[11, 11], fun _ => 1⟩ none 1 = .ok (p, s) ∧ p[0]? = some (some 1) := by
  obtain ⟨p, s, h, h1, _⟩ := C20_constant_image [11, 11] 1 ⟨[11, 11], fun _ => 1⟩ (Arr.Same.refl _)
  obtain ⟨p', s', h', _, hk, _⟩ := C19_radial_profile ⟨[11, 11], fun _ => 1⟩ none _ rfl 1 one_pos
  rw [h] at h'; cases h'
  have h0 : 0 < p.length := (hk 0).mpr ⟨[0, 0], .cons (by decide) (.cons (by decide) .nil),
    by rw [Nat.cast_zero]; exact rint_nonneg (div_nonneg (Real.sqrt_nonneg _) zero_le_one)⟩
  exact ⟨p, s, h, by rw [List.getElem?_eq_getElem h0, h1 _ (List.getElem_mem h0)]⟩

end PyOTF
