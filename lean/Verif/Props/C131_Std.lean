import Verif.Props.C131_Profile

/-!
# C131: means and standard deviations of `radial_profile` in floating point
-/

namespace PyOTF

/-! ## Error calculus -/

/-- `y` is `x` up to `k` rounding errors of size `u` relative to `w`, a bound of `x`. -/
def CloseTo (u : ℝ) (k : ℕ) (w x y : ℝ) : Prop := |y - x| ≤ ((1 + u) ^ k - 1) * w ∧ |x| ≤ w

section
variable {A : Arith} {u : ℝ} {D : ℕ → ℕ}

theorem CloseTo.refl (u x : ℝ) : CloseTo u 0 |x| x x := ⟨by simp, le_rfl⟩

theorem CloseTo.nonneg {k : ℕ} {w x y : ℝ} (h : CloseTo u k w x y) : 0 ≤ w := (abs_nonneg x).trans h.2

theorem CloseTo.mono {k l : ℕ} {w w' x y : ℝ} (h0 : 0 ≤ u) (hkl : k ≤ l) (hw : w ≤ w') (h : CloseTo u k w x y) : CloseTo u l w' x y := by
  refine ⟨h.1.trans ?_, h.2.trans hw⟩
  have h1 : (1 + u) ^ k ≤ (1 + u) ^ l := pow_le_pow_right₀ (by linarith) hkl
  have h2 : (1 : ℝ) ≤ (1 + u) ^ k := one_le_pow₀ (by linarith)
  exact mul_le_mul (by linarith) hw h.nonneg (by linarith)

theorem CloseTo.bound {k : ℕ} {w x y : ℝ} (h : CloseTo u k w x y) : |y| ≤ (1 + u) ^ k * w := by
  have e : y = (y - x) + x := by ring
  rw [e]
  refine (abs_add_le _ _).trans ((add_le_add h.1 h.2).trans (le_of_eq (by ring)))

theorem CloseTo.fl {f : ℝ → ℝ} (h0 : 0 ≤ u) (hf : ∀ x, |f x - x| ≤ u * |x|) {k : ℕ} {w x y : ℝ} (h : CloseTo u k w x y) : CloseTo u (k + 1) w x (f y) := by
  refine ⟨?_, h.2⟩
  have e : f y - x = (f y - y) + (y - x) := by ring
  rw [e]
  refine (abs_add_le _ _).trans ((add_le_add ((hf y).trans (mul_le_mul_of_nonneg_left h.bound h0)) h.1).trans (le_of_eq ?_))
  ring

theorem CloseTo.add {k : ℕ} {w x y w' x' y' : ℝ} (h : CloseTo u k w x y) (h' : CloseTo u k w' x' y') : CloseTo u k (w + w') (x + x') (y + y') := by
  refine ⟨?_, (abs_add_le _ _).trans (add_le_add h.2 h'.2)⟩
  rw [show y + y' - (x + x') = (y - x) + (y' - x') by ring, mul_add]
  exact (abs_add_le _ _).trans (add_le_add h.1 h'.1)

theorem CloseTo.neg {k : ℕ} {w x y : ℝ} (h : CloseTo u k w x y) : CloseTo u k w (-x) (-y) := by
  refine ⟨?_, by rw [abs_neg]; exact h.2⟩
  rw [show -y - -x = -(y - x) by ring, abs_neg]
  exact h.1

theorem CloseTo.sub {k : ℕ} {w x y w' x' y' : ℝ} (h : CloseTo u k w x y) (h' : CloseTo u k w' x' y') : CloseTo u k (w + w') (x - x') (y - y') := by
  rw [sub_eq_add_neg, sub_eq_add_neg]
  exact h.add h'.neg

theorem CloseTo.mul {k l : ℕ} {w x y w' x' y' : ℝ} (h : CloseTo u k w x y) (h' : CloseTo u l w' x' y') :
    CloseTo u (k + l) (w * w') (x * x') (y * y') := by
  refine ⟨?_, by rw [abs_mul]; exact mul_le_mul h.2 h'.2 (abs_nonneg _) h.nonneg⟩
  rw [show y * y' - x * x' = (y - x) * y' + x * (y' - x') by ring]
  refine (abs_add_le _ _).trans ?_
  rw [abs_mul, abs_mul]
  refine (add_le_add (mul_le_mul h.1 h'.bound (abs_nonneg _) ((abs_nonneg _).trans h.1)) (mul_le_mul h.2 h'.1 (abs_nonneg _) h.nonneg)).trans (le_of_eq ?_)
  rw [pow_add]; ring

theorem CloseTo.div {k : ℕ} {w x y c : ℝ} (hc : 0 < c) (h : CloseTo u k w x y) : CloseTo u k (w / c) (x / c) (y / c) := by
  refine ⟨?_, ?_⟩
  · rw [← sub_div, abs_div, abs_of_pos hc, ← mul_div_assoc]
    exact div_le_div_of_nonneg_right h.1 hc.le
  · rw [abs_div, abs_of_pos hc]
    exact div_le_div_of_nonneg_right h.2 hc.le

theorem sumTree_close (h0 : 0 ≤ u) (hf : ∀ x, |A.fl x - x| ≤ u * |x|) {k : ℕ} {w x y : ℕ → ℝ} (t : SumTree) (h : ∀ i ∈ t.terms, CloseTo u k (w i) (x i) (y i)) :
    CloseTo u (k + t.height) (t.terms.map w).sum (t.terms.map x).sum (t.sum A.fl y) := by
  induction t with
  | zero => simp [SumTree.terms, SumTree.sum, CloseTo]
  | leaf i => simpa [SumTree.terms, SumTree.sum, SumTree.height] using h i (by simp [SumTree.terms])
  | node l r ihl ihr =>
    have l1 := ihl fun i hi => h i (by simp [SumTree.terms, hi])
    have r1 := ihr fun i hi => h i (by simp [SumTree.terms, hi])
    simp only [SumTree.terms, List.map_append, List.sum_append, SumTree.sum, SumTree.height]
    exact ((l1.mono h0 (Nat.add_le_add_left (le_max_left l.height r.height) k) le_rfl).add
      (r1.mono h0 (Nat.add_le_add_left (le_max_right l.height r.height) k) le_rfl)).fl h0 hf

/-- A rounded sum over a list of pixels. -/
theorem order_close (hA : A.Accurate u D) {k : ℕ} (L : List (List ℕ)) (w x y : List ℕ → ℝ) (s : ℕ) (idx : List ℕ) (h : ∀ i ∈ L, CloseTo u k (w i) (x i) (y i)) :
    CloseTo u (k + D L.length) (L.map w).sum (L.map x).sum ((A.order s idx L.length).sum A.fl fun j => y (L.getD j [])) := by
  have hp := hA.terms s idx L.length
  have h1 := sumTree_close hA.nonneg hA.round (A.order s idx L.length) (k := k) (w := fun j => w (L.getD j [])) (x := fun j => x (L.getD j []))
    (y := fun j => y (L.getD j [])) fun j hj => h _ (by
      have := List.mem_range.mp (hp.mem_iff.mp hj)
      rw [List.getD_eq_getElem _ _ this]
      exact List.getElem_mem this)
  have e : ∀ f : List ℕ → ℝ, ((A.order s idx L.length).terms.map fun j => f (L.getD j [])).sum = (L.map f).sum := fun f => by
    rw [(hp.map _).sum_eq]
    congr 1
    apply List.ext_getElem
    · simp
    · intro j h1 h2
      simp only [List.getElem_map, List.getElem_range]
      rw [List.getD_eq_getElem _ _ (by simpa using h1)]
  rw [e, e] at h1
  exact h1.mono hA.nonneg (Nat.add_le_add_left (hA.height s idx _) k) le_rfl

/-- Squaring a rounded square root. -/
theorem sq_sqrt_close {f : ℝ → ℝ} (h0 : 0 ≤ u) (hf : ∀ x, |f x - x| ≤ u * |x|) {k : ℕ} {w x y : ℝ} (hy : 0 ≤ y) (h : CloseTo u k w x y) :
    CloseTo u (k + 2) w x (f (Real.sqrt y) ^ 2) := by
  refine ⟨?_, h.2⟩
  set q := Real.sqrt y with hq
  have hq0 : 0 ≤ q := Real.sqrt_nonneg _
  have hq2 : q ^ 2 = y := Real.sq_sqrt hy
  have hr := abs_le.mp (hf q)
  rw [abs_of_nonneg hq0] at hr
  have hb := h.bound
  rw [abs_of_nonneg hy] at hb
  have hd : |f q ^ 2 - y| ≤ ((1 + u) ^ 2 - 1) * y := by
    rw [show f q ^ 2 - y = (f q - q) * (f q + q) by rw [← hq2]; ring, abs_mul, ← hq2]
    have h1 : |f q - q| ≤ u * q := by have := hf q; rwa [abs_of_nonneg hq0] at this
    have h2 : |f q + q| ≤ (2 + u) * q := abs_le.mpr ⟨by nlinarith [mul_nonneg h0 hq0], by nlinarith⟩
    refine (mul_le_mul h1 h2 (abs_nonneg _) (by positivity)).trans (le_of_eq (by ring))
  rw [show f q ^ 2 - x = (f q ^ 2 - y) + (y - x) by ring]
  refine (abs_add_le _ _).trans ?_
  have h3 : ((1 + u) ^ 2 - 1) * y ≤ ((1 + u) ^ 2 - 1) * ((1 + u) ^ k * w) := mul_le_mul_of_nonneg_left hb (by nlinarith)
  refine (add_le_add (hd.trans h3) h.1).trans (le_of_eq ?_)
  rw [pow_add]; ring

/-- The mean of the absolute values is at most the quadratic mean. -/
theorem meanOn_abs_sq_le (R : Finset (List ℕ)) (hR : R.Nonempty) (f : List ℕ → ℝ) : meanOn R (fun i => |f i|) ^ 2 ≤ meanOn R fun i => f i ^ 2 := by
  have h := var_eq R hR fun i => |f i|
  have h2 : 0 ≤ meanOn R fun i => (|f i| - meanOn R fun i => |f i|) ^ 2 := div_nonneg (Finset.sum_nonneg fun i _ => sq_nonneg _) (Nat.cast_nonneg _)
  rw [← h] at h2
  simp only [sq_abs] at h2
  unfold meanOn at h2 ⊢
  linarith

/-! ## The theorem -/

/-- C131: `radial_profile` of a real image with the default centre and bin size in floating point.  The bins are those of exact arithmetic.  With `T` the depth of a sum over
a ring, the mean of the ring is off by at most `(1+u)^(T+1) - 1` times the mean absolute value, and the variance by at most `(1+u)^(2T+6) - 1` times twice the mean square;
the standard deviation of a non-empty ring is NaN only if its exact variance is at most `(1+u)^(2T+4) - 1` times twice the mean square. -/
theorem C131_profile (hA : A.Accurate u D) (hR : A.Rounds u) (data : Arr ℝ) (hs : 40 * (((data.shape.map (· ^ 2)).sum : ℕ) * u) ≤ 1) :
    ∃ p s p' s', radialProfile data none 1 = .ok (p, s) ∧ A.radialProfile data none 1 = .ok (p', s') ∧ p'.length = p.length ∧ s'.length = p.length ∧
      ∀ k < p.length, ∀ R, R = ringSet data.shape (data.shape.map fun n => ((n / 2 : ℕ) : ℝ)) 1 k → ∀ T, T = D R.card →
        (R = ∅ → p'[k]? = some none ∧ s'[k]? = some none) ∧
        (R ≠ ∅ → ∃ μ', p'[k]? = some (some μ') ∧ |μ' - meanOn R data.get| ≤ ((1 + u) ^ (T + 1) - 1) * meanOn R fun i => |data.get i|) ∧
        (R ≠ ∅ → ∃ σ', s'[k]? = some σ' ∧
          (∀ σ, σ' = some σ → |σ ^ 2 - stdOn R data.get ^ 2| ≤ ((1 + u) ^ (2 * T + 6) - 1) * (2 * meanOn R fun i => data.get i ^ 2)) ∧
          (σ' = none → stdOn R data.get ^ 2 ≤ ((1 + u) ^ (2 * T + 4) - 1) * (2 * meanOn R fun i => data.get i ^ 2))) := by
  set c := data.shape.map fun n => ((n / 2 : ℕ) : ℝ) with hc
  have hcl : c.length = data.shape.length := by simp [hc]
  have h0 := hA.nonneg
  have hnn : ∀ i, 0 ≤ rint (pixelDist c i / 1) := fun i => rint_nonneg (div_nonneg (Real.sqrt_nonneg _) zero_le_one)
  have hfl : ∀ i ∈ indices data.shape, A.ringOf c 1 i = ringOf c 1 i := fun i hi => C131_rings hR data.shape hs i (mem_indices.mp hi)
  have hro : ∀ i ∈ indices data.shape, A.ringOf c 1 i = rint (pixelDist c i / 1) := fun i hi => by
    rw [hfl i hi, ringOf_eq c 1 i (by rw [hcl, (mem_indices.mp hi).length])]
  have hany : ¬ ((indices data.shape).any (fun i => decide (A.ringOf c 1 i < 0)) = true) := by
    rw [List.any_eq_true]
    rintro ⟨i, hi, h⟩
    have := hnn i
    rw [← hro i hi] at this
    simp only [decide_eq_true_eq] at h
    omega
  obtain ⟨p, s, hps, hl, hk, -⟩ := C19_radial_profile data none c rfl 1 one_pos
  set F := fun k => (indices data.shape).filter fun i => (A.ringOf c 1 i).toNat == k with hF
  have hfin : ∀ k, (F k).toFinset = ringSet data.shape c 1 k := by
    intro k
    ext i
    simp only [hF, ringSet, List.mem_toFinset, List.mem_filter, Finset.mem_filter, beq_iff_eq]
    refine and_congr_right fun hi => ?_
    rw [hro i hi]
    have := hnn i
    omega
  have hnd : ∀ k, (F k).Nodup := fun k => (indices_nodup _).filter _
  have hsum : ∀ k (f : List ℕ → ℝ), ((F k).map f).sum = ∑ i ∈ ringSet data.shape c 1 k, f i := fun k f => by
    rw [← hfin k, List.sum_toFinset _ (hnd k)]
  have hcard : ∀ k, (F k).length = (ringSet data.shape c 1 k).card := fun k => by
    rw [← hfin k, List.toFinset_card_of_nodup (hnd k)]
  obtain ⟨p', s', hps', hp, hs'⟩ : ∃ p s, A.radialProfile data none 1 = .ok (p, s) ∧ _ = p ∧ _ = s := by
    simp only [Arith.radialProfile, show radialCenter data.shape none = .ok c from rfl, bind, Except.bind, pure, Except.pure]
    rw [if_neg hany]
    exact ⟨_, _, rfl, rfl, rfl⟩
  have hlen : ∀ k : ℕ, k < p'.length ↔ k < p.length := by
    intro k
    rw [hk k, ← hp]
    simp only [List.length_map, List.length_range]
    rw [foldr_max_lt]
    constructor
    · rintro ⟨i, hi, h⟩
      refine ⟨i, mem_indices.mp hi, ?_⟩
      rw [hro i hi] at h; have := hnn i; omega
    · rintro ⟨i, hi, h⟩
      refine ⟨i, mem_indices.mpr hi, ?_⟩
      rw [hro i (mem_indices.mpr hi)]; omega
  have hleq : p'.length = p.length := by
    have a := hlen p.length; have b := hlen p'.length; omega
  have hsl : s'.length = p'.length := by rw [← hp, ← hs']; simp
  refine ⟨p, s, p', s', hps, hps', hleq, by omega, fun k hkp R hRk T hT => ?_⟩
  have hkn : k < (indices data.shape).foldr (fun i m => max ((A.ringOf c 1 i).toNat + 1) m) 0 := by
    have := (hlen k).mpr hkp
    rwa [← hp, List.length_map, List.length_range] at this
  rw [← hp, ← hs']
  simp only [List.getElem?_map, List.getElem?_range hkn, Option.map_some]
  have hFk : (List.filter (fun i => (A.ringOf c 1 i).toNat == k) (indices data.shape)) = F k := rfl
  simp only [hFk]
  have hck : (F k).length = R.card := by rw [hcard, hRk]
  have hsk : ∀ f : List ℕ → ℝ, ((F k).map f).sum = ∑ i ∈ R, f i := fun f => by rw [hsum, hRk]
  refine ⟨fun h => ?_, fun h => ?_, fun h => ?_⟩
  · have : (F k).length = 0 := by rw [hck, h]; rfl
    simp [this]
  all_goals
    have hne := Finset.nonempty_iff_ne_empty.mpr h
    have hc0 : R.card ≠ 0 := hne.card_pos.ne'
    have hcp : (0 : ℝ) < ((F k).length : ℝ) := by rw [hck]; exact_mod_cast hne.card_pos
    have hn0 : (F k).length ≠ 0 := by rw [hck]; exact hc0
    have m1 := ((order_close hA (F k) (fun i => |data.get i|) data.get data.get 0 [k] fun i _ => CloseTo.refl u (data.get i)).div hcp).fl h0 hA.round
    rw [hsk, hsk, Nat.zero_add, hck, ← hT] at m1
    simp only [if_neg hn0]
  · refine ⟨_, rfl, ?_⟩
    rw [hck]
    exact m1.1
  · refine ⟨_, rfl, ?_⟩
    have m2 := ((order_close hA (F k) (fun i => data.get i ^ 2) (fun i => data.get i ^ 2) (fun i => A.fl (data.get i ^ 2)) 1 [k] fun i _ => by
      have := (CloseTo.refl u (data.get i ^ 2)).fl h0 hA.round
      rwa [abs_of_nonneg (sq_nonneg _)] at this).div hcp).fl h0 hA.round
    rw [hsk, hck, ← hT] at m2
    have m3 := (m1.mul m1).fl h0 hA.round
    simp only [← sq] at m3
    have hJ := meanOn_abs_sq_le R hne data.get
    have m4 := ((m2.mono (l := 2 * T + 3) h0 (by omega) le_rfl).sub (m3.mono (l := 2 * T + 3) h0 (by omega) hJ)).fl h0 hA.round
    have hV : (∑ i ∈ R, data.get i ^ 2) / (R.card : ℝ) - ((∑ i ∈ R, data.get i) / (R.card : ℝ)) ^ 2 = stdOn R data.get ^ 2 := by
      have hv := var_eq R hne data.get
      have hpos : 0 ≤ meanOn R fun i => (data.get i - meanOn R data.get) ^ 2 :=
        div_nonneg (Finset.sum_nonneg fun i _ => sq_nonneg _) (Nat.cast_nonneg _)
      rw [stdOn, Real.sq_sqrt hpos, ← hv]; rfl
    rw [hV] at m4
    have hw : (∑ i ∈ R, data.get i ^ 2) / (R.card : ℝ) + meanOn R (fun i => data.get i ^ 2) = 2 * meanOn R fun i => data.get i ^ 2 := by
      unfold meanOn; ring
    rw [hw] at m4
    rw [hck]
    set v := A.fl (_ - _) with hv
    refine ⟨fun σ hσ => ?_, fun hσ => ?_⟩
    · by_cases hneg : v < 0
      · rw [npSqrt, if_pos hneg] at hσ; simp at hσ
      · rw [npSqrt, if_neg hneg] at hσ
        simp only [Option.map_some, Option.some.injEq] at hσ
        rw [← hσ]
        exact (sq_sqrt_close h0 hA.round (not_lt.mp hneg) m4).1
    · by_cases hneg : v < 0
      · have := (abs_le.mp m4.1).1
        linarith
      · rw [npSqrt, if_neg hneg] at hσ; simp at hσ

end

end PyOTF
