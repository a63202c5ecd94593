import Verif.Props.C19_C20_Radial

/-!
# C106: `radial_profile` as a function of the data
-/

namespace PyOTF

theorem meanOn_affine {R : Finset (List ℕ)} (hR : R.Nonempty) (f : List ℕ → ℝ) (α β : ℝ) :
    meanOn R (fun i => α * f i + β) = α * meanOn R f + β := by
  have hc : (R.card : ℝ) ≠ 0 := by exact_mod_cast hR.card_pos.ne'
  simp only [meanOn, Finset.sum_add_distrib, ← Finset.mul_sum, Finset.sum_const, nsmul_eq_mul]
  field_simp

theorem stdOn_affine {R : Finset (List ℕ)} (hR : R.Nonempty) (f : List ℕ → ℝ) (α β : ℝ) :
    stdOn R (fun i => α * f i + β) = |α| * stdOn R f := by
  simp only [stdOn, meanOn_affine hR]
  have e : (fun i => (α * f i + β - (α * meanOn R f + β)) ^ 2) = fun i => α ^ 2 * (f i - meanOn R f) ^ 2 + 0 := by
    funext i; ring
  rw [e, meanOn_affine hR, add_zero, Real.sqrt_mul (sq_nonneg α), Real.sqrt_sq_eq_abs]

theorem meanOn_le {R : Finset (List ℕ)} (hR : R.Nonempty) {f g : List ℕ → ℝ} (h : ∀ i ∈ R, f i ≤ g i) : meanOn R f ≤ meanOn R g := by
  have hc : (0 : ℝ) < R.card := by exact_mod_cast hR.card_pos
  exact div_le_div_of_nonneg_right (Finset.sum_le_sum h) hc.le

theorem meanOn_const {R : Finset (List ℕ)} (hR : R.Nonempty) (v : ℝ) : meanOn R (fun _ => v) = v := by
  have := meanOn_affine hR (fun _ => 0) 0 v
  simpa using this

/-- Both profiles as lists over the rings. -/
theorem radialProfile_lists (data : Arr ℝ) (ctr : Option (List ℝ)) (c : List ℝ) (hc : radialCenter data.shape ctr = .ok c) (b : ℝ) (hb : 0 < b) :
    ∃ p s, radialProfile data ctr b = .ok (p, s) ∧ p.length = s.length ∧
      (∀ k : ℕ, k < p.length ↔ ∃ i, InShape i data.shape ∧ (k : ℤ) ≤ rint (pixelDist c i / b)) ∧
      (∀ k < p.length, p[k]? = some (if ringSet data.shape c b k = ∅ then none else some (meanOn (ringSet data.shape c b k) data.get))) ∧
      ∀ k < p.length, s[k]? = some (if ringSet data.shape c b k = ∅ then none else some (stdOn (ringSet data.shape c b k) data.get)) := by
  obtain ⟨p, s, h1, h2, h3, h4⟩ := C19_radial_profile data ctr c hc b hb
  refine ⟨p, s, h1, h2, h3, fun k hk => ?_, fun k hk => ?_⟩
  · by_cases he : ringSet data.shape c b k = ∅
    · rw [((h4 k hk).1 he).1, if_pos he]
    · rw [((h4 k hk).2 he).1, if_neg he]
  · by_cases he : ringSet data.shape c b k = ∅
    · rw [((h4 k hk).1 he).2, if_pos he]
    · rw [((h4 k hk).2 he).2, if_neg he]

/-- C106: rescaling the data and adding a constant rescales the mean profile in the same way and the deviations by the magnitude of the factor;
empty rings stay empty. -/
theorem C106_affine (data : Arr ℝ) (ctr : Option (List ℝ)) (b α β : ℝ) (hb : 0 < b) (c : List ℝ) (hc : radialCenter data.shape ctr = .ok c) :
    ∃ p s, radialProfile data ctr b = .ok (p, s) ∧
      radialProfile (data.map fun v => α * v + β) ctr b = .ok (p.map (Option.map fun v => α * v + β), s.map (Option.map fun v => |α| * v)) := by
  obtain ⟨p, s, h1, h2, h3, h4, h5⟩ := radialProfile_lists data ctr c hc b hb
  obtain ⟨p', s', g1, g2, g3, g4, g5⟩ := radialProfile_lists (data.map fun v => α * v + β) ctr c hc b hb
  have hl : p'.length = p.length := by
    have : ∀ k, k < p'.length ↔ k < p.length := fun k => (g3 k).trans (h3 k).symm
    have a := this p.length
    have b := this p'.length
    omega
  refine ⟨p, s, h1, ?_⟩
  rw [g1]
  have e1 : p' = p.map (Option.map fun v => α * v + β) := by
    refine List.ext_getElem? fun k => ?_
    by_cases hk : k < p.length
    · rw [g4 k (by omega), List.getElem?_map, h4 k hk]
      by_cases he : ringSet data.shape c b k = ∅
      · simp [Arr.map, he]
      · simp only [Arr.map, he, if_false, Option.map_some]
        rw [meanOn_affine (Finset.nonempty_iff_ne_empty.mpr he)]
    · rw [List.getElem?_eq_none (by omega), List.getElem?_eq_none (by simp; omega)]
  have e2 : s' = s.map (Option.map fun v => |α| * v) := by
    refine List.ext_getElem? fun k => ?_
    by_cases hk : k < p.length
    · rw [g5 k (by omega), List.getElem?_map, h5 k hk]
      by_cases he : ringSet data.shape c b k = ∅
      · simp [Arr.map, he]
      · simp only [Arr.map, he, if_false, Option.map_some]
        rw [stdOn_affine (Finset.nonempty_iff_ne_empty.mpr he)]
    · rw [List.getElem?_eq_none (by omega), List.getElem?_eq_none (by simp; omega)]
  rw [e1, e2]

/-- C106: the mean profile of a sum of images is the sum of their mean profiles. -/
theorem C106_add (data data' : Arr ℝ) (hs : data'.shape = data.shape) (ctr : Option (List ℝ)) (b : ℝ) (hb : 0 < b) (c : List ℝ)
    (hc : radialCenter data.shape ctr = .ok c) :
    ∃ p s p' s' q t, radialProfile data ctr b = .ok (p, s) ∧ radialProfile data' ctr b = .ok (p', s') ∧
      radialProfile ⟨data.shape, fun i => data.get i + data'.get i⟩ ctr b = .ok (q, t) ∧
      q = List.zipWith (fun x y => x.bind fun x => y.map fun y => x + y) p p' := by
  obtain ⟨p, s, h1, h2, h3, h4, h5⟩ := radialProfile_lists data ctr c hc b hb
  obtain ⟨p', s', g1, g2, g3, g4, g5⟩ := radialProfile_lists data' ctr c (hs ▸ hc) b hb
  obtain ⟨q, t, k1, k2, k3, k4, k5⟩ := radialProfile_lists ⟨data.shape, fun i => data.get i + data'.get i⟩ ctr c hc b hb
  rw [hs] at g3
  have hl : p'.length = p.length := by
    have : ∀ k, k < p'.length ↔ k < p.length := fun k => (g3 k).trans (h3 k).symm
    have a := this p.length
    have b := this p'.length
    omega
  have hl' : q.length = p.length := by
    have : ∀ k, k < q.length ↔ k < p.length := fun k => (k3 k).trans (h3 k).symm
    have a := this p.length
    have b := this q.length
    omega
  refine ⟨p, s, p', s', q, t, h1, g1, k1, List.ext_getElem? fun k => ?_⟩
  by_cases hk : k < p.length
  · rw [k4 k (by omega), List.getElem?_zipWith, h4 k hk, g4 k (by omega), hs]
    by_cases he : ringSet data.shape c b k = ∅
    · simp [he]
    · simp only [he, if_false, Option.bind_some, Option.map_some]
      simp only [meanOn, Finset.sum_add_distrib, add_div]
  · rw [List.getElem?_eq_none (by omega), List.getElem?_eq_none (by simp; omega)]

/-- C106: the mean of a ring lies between the bounds of the data, and the deviation is at most half their distance. -/
theorem C106_bounds (data : Arr ℝ) (lo hi : ℝ) (h : ∀ i, InShape i data.shape → lo ≤ data.get i ∧ data.get i ≤ hi) (ctr : Option (List ℝ)) (b : ℝ)
    (hb : 0 < b) (c : List ℝ) (hc : radialCenter data.shape ctr = .ok c) :
    ∃ p s, radialProfile data ctr b = .ok (p, s) ∧ (∀ v, some v ∈ p → lo ≤ v ∧ v ≤ hi) ∧ ∀ v, some v ∈ s → 0 ≤ v ∧ v ≤ (hi - lo) / 2 := by
  obtain ⟨p, s, h1, h2, h3, h4, h5⟩ := radialProfile_lists data ctr c hc b hb
  have mem : ∀ k, ∀ i ∈ ringSet data.shape c b k, lo ≤ data.get i ∧ data.get i ≤ hi := by
    intro k i hi
    classical
    simp only [ringSet, Finset.mem_filter, List.mem_toFinset] at hi
    exact h i (mem_indices.mp hi.1)
  refine ⟨p, s, h1, fun v hv => ?_, fun v hv => ?_⟩
  · obtain ⟨k, hk, e⟩ := List.mem_iff_getElem.mp hv
    have := h4 k hk
    rw [List.getElem?_eq_getElem hk, e, Option.some.injEq] at this
    by_cases he : ringSet data.shape c b k = ∅
    · rw [if_pos he] at this; cases this
    · rw [if_neg he, Option.some.injEq] at this
      have hR := Finset.nonempty_iff_ne_empty.mpr he
      rw [this]
      constructor
      · have := meanOn_le hR (f := fun _ => lo) (g := data.get) fun i hi => (mem k i hi).1
        rwa [meanOn_const hR] at this
      · have := meanOn_le hR (f := data.get) (g := fun _ => hi) fun i hi => (mem k i hi).2
        rwa [meanOn_const hR] at this
  · obtain ⟨k, hk, e⟩ := List.mem_iff_getElem.mp hv
    have := h5 k (by omega)
    rw [List.getElem?_eq_getElem hk, e, Option.some.injEq] at this
    by_cases he : ringSet data.shape c b k = ∅
    · rw [if_pos he] at this; cases this
    · rw [if_neg he, Option.some.injEq] at this
      have hR := Finset.nonempty_iff_ne_empty.mpr he
      rw [this]
      refine ⟨Real.sqrt_nonneg _, ?_⟩
      have hlh : lo ≤ hi := by
        obtain ⟨i, hi⟩ := hR
        exact (mem k i hi).1.trans (mem k i hi).2
      -- the squared deviation is (hi - mean)(mean - lo) minus the mean of (hi - x)(x - lo)
      rw [stdOn, Real.sqrt_le_left (by linarith)]
      set μ := meanOn (ringSet data.shape c b k) data.get with hμ
      have e2 : meanOn (ringSet data.shape c b k) (fun i => (data.get i - μ) ^ 2) ≤ meanOn (ringSet data.shape c b k)
          (fun i => (lo + hi - 2 * μ) * data.get i + (μ ^ 2 - lo * hi)) := by
        refine meanOn_le hR fun i hi => ?_
        nlinarith [mul_nonneg (sub_nonneg.mpr (mem k i hi).1) (sub_nonneg.mpr (mem k i hi).2)]
      rw [meanOn_affine hR, ← hμ] at e2
      nlinarith [sq_nonneg (lo + hi - 2 * μ)]

open Classical in
/-- C106: every pixel belongs to exactly one ring: the means weighted with the numbers of pixels add up to the total. -/
theorem C106_total (data : Arr ℝ) (ctr : Option (List ℝ)) (b : ℝ) (hb : 0 < b) (c : List ℝ) (hc : radialCenter data.shape ctr = .ok c) :
    ∃ p s, radialProfile data ctr b = .ok (p, s) ∧
      ∑ k ∈ Finset.range p.length, ((ringSet data.shape c b k).card : ℝ) * ((p.getD k none).getD 0) = data.sum ∧
      ∑ k ∈ Finset.range p.length, (ringSet data.shape c b k).card = data.shape.prod := by
  obtain ⟨p, s, h1, h2, h3, h4, h5⟩ := radialProfile_lists data ctr c hc b hb
  have nn : ∀ i, (0 : ℤ) ≤ rint (pixelDist c i / b) := by
    intro i
    have h0 : 0 ≤ pixelDist c i / b := div_nonneg (Real.sqrt_nonneg _) hb.le
    have := rint_nearest (pixelDist c i / b)
    rw [abs_le] at this
    have h2 : (-1 : ℝ) < (rint (pixelDist c i / b) : ℝ) := by linarith [this.2]
    have : (-1 : ℤ) < rint (pixelDist c i / b) := by exact_mod_cast h2
    omega
  have part : ∀ {M : Type} [AddCommMonoid M] (f : List ℕ → M), ∑ k ∈ Finset.range p.length, ∑ i ∈ ringSet data.shape c b k, f i =
      ∑ i ∈ (indices data.shape).toFinset, f i := by
    intro M _ f
    rw [← Finset.sum_fiberwise_of_maps_to (s := (indices data.shape).toFinset) (t := Finset.range p.length)
      (g := fun i => (rint (pixelDist c i / b)).toNat)]
    · refine Finset.sum_congr rfl fun k _ => Finset.sum_congr ?_ fun _ _ => rfl
      ext i
      simp only [ringSet, Finset.mem_filter]
      refine and_congr_right fun _ => ?_
      have := nn i
      omega
    · intro i hi
      rw [Finset.mem_range, h3]
      refine ⟨i, mem_indices.mp (by simpa using hi), ?_⟩
      have := nn i
      omega
  refine ⟨p, s, h1, ?_, ?_⟩
  · have : ∀ k ∈ Finset.range p.length, ((ringSet data.shape c b k).card : ℝ) * ((p.getD k none).getD 0) = ∑ i ∈ ringSet data.shape c b k, data.get i := by
      intro k hk
      rw [List.getD_eq_getElem?_getD, h4 k (Finset.mem_range.mp hk)]
      by_cases he : ringSet data.shape c b k = ∅
      · simp [he]
      · have hc : ((ringSet data.shape c b k).card : ℝ) ≠ 0 := by
          exact_mod_cast (Finset.nonempty_iff_ne_empty.mpr he).card_pos.ne'
        simp only [he, if_false, Option.getD_some, meanOn]
        field_simp
    rw [Finset.sum_congr rfl this, part, Arr.sum, sumIdx_eq, List.sum_toFinset _ (indices_nodup _)]
  · simp only [Finset.card_eq_sum_ones]
    rw [part, ← Finset.card_eq_sum_ones, List.toFinset_card_of_nodup (indices_nodup _), indices_length]

/-- Non-vacuity: a 3×4 image about its default centre with bins of half a pixel. -/
example : ∃ c, radialCenter [3, 4] none = .ok c ∧ (0 : ℝ) < 1 / 2 := ⟨_, rfl, by norm_num⟩

end PyOTF
