import Verif.Props.C54_C56_Demo

/-!
# C57: the pinhole kernel of the confocal microscope
-/

namespace PyOTF

/-! ## Specification -/

/-- The integer points strictly inside the circle of radius `r` around 0. -/
noncomputable def disk (r : ℝ) : Finset (ℤ × ℤ) := by
  classical exact
  (Finset.Icc (-⌈r⌉) ⌈r⌉ ×ˢ Finset.Icc (-⌈r⌉) ⌈r⌉).filter fun p => (p.1 : ℝ) ^ 2 + (p.2 : ℝ) ^ 2 < r ^ 2

/-- `disk` is what it claims to be: nothing is lost by the bounding box. -/
theorem mem_disk {r : ℝ} (hr : 0 < r) (p : ℤ × ℤ) : p ∈ disk r ↔ (p.1 : ℝ) ^ 2 + (p.2 : ℝ) ^ 2 < r ^ 2 := by
  classical
  have key : ∀ a b : ℤ, (a : ℝ) ^ 2 + (b : ℝ) ^ 2 < r ^ 2 → -⌈r⌉ ≤ a ∧ a ≤ ⌈r⌉ := by
    intro a b h
    have h2 : |(a : ℝ)| < r := abs_lt_of_sq_lt_sq (by nlinarith [sq_nonneg (b : ℝ)]) hr.le
    rw [abs_lt] at h2
    have h3 := Int.le_ceil r
    constructor
    · have : ((-⌈r⌉ : ℤ) : ℝ) ≤ a := by push_cast; linarith
      exact_mod_cast this
    · have : (a : ℝ) ≤ (⌈r⌉ : ℤ) := by linarith
      exact_mod_cast this
  simp only [disk, Finset.mem_filter, Finset.mem_product, Finset.mem_Icc, and_iff_right_iff_imp]
  intro h
  exact ⟨key _ _ h, key p.2 p.1 (by linarith)⟩

/-! ## Proofs -/

theorem kernelSize_odd {r : ℝ} : kernelSize r % 2 = 1 := by
  simp only [kernelSize]; split_ifs <;> omega

theorem kernelSize_ge {r : ℝ} : r * 2 ≤ kernelSize r := by
  have h1 := Int.le_ceil (r * 2)
  have h2 : (⌈r * 2⌉ : ℤ) ≤ (kernelSize r : ℤ) := by
    simp only [kernelSize]; split_ifs <;> omega
  exact h1.trans (by exact_mod_cast h2)

theorem kernelSize_half (r : ℝ) : kernelSize r = 2 * ((kernelSize r - 1) / 2) + 1 := by
  have := kernelSize_odd (r := r); omega

/-- The whole disk fits in the kernel. -/
theorem disk_fits {r : ℝ} (hr : 0 < r) {p : ℤ × ℤ} (hp : p ∈ disk r) :
    -(((kernelSize r - 1) / 2 : ℕ) : ℤ) ≤ p.1 ∧ p.1 ≤ ((kernelSize r - 1) / 2 : ℕ) ∧
    -(((kernelSize r - 1) / 2 : ℕ) : ℤ) ≤ p.2 ∧ p.2 ≤ ((kernelSize r - 1) / 2 : ℕ) := by
  rw [mem_disk hr] at hp
  have hk := kernelSize_ge (r := r)
  have hh := kernelSize_half r
  set H := (kernelSize r - 1) / 2 with hH
  have hk' : r * 2 ≤ 2 * (H : ℝ) + 1 := by rw [hh] at hk; push_cast at hk; exact hk
  have key : ∀ a b : ℤ, (a : ℝ) ^ 2 + (b : ℝ) ^ 2 < r ^ 2 → -(H : ℤ) ≤ a ∧ a ≤ H := by
    intro a b h
    have h2 : |(a : ℝ)| < r := abs_lt_of_sq_lt_sq (by nlinarith [sq_nonneg (b : ℝ)]) hr.le
    rw [abs_lt] at h2
    constructor
    · have : ((-(2 * (H : ℤ) + 1) : ℤ) : ℝ) < ((2 * a : ℤ) : ℝ) := by push_cast; linarith
      have := Int.cast_lt.mp this; omega
    · have : ((2 * a : ℤ) : ℝ) < ((2 * (H : ℤ) + 1 : ℤ) : ℝ) := by push_cast; linarith
      have := Int.cast_lt.mp this; omega
  exact ⟨(key _ _ hp).1, (key _ _ hp).2, (key p.2 p.1 (by linarith)).1, (key p.2 p.1 (by linarith)).2⟩

/-- The pinhole before normalisation is the indicator function of the disk. -/
theorem diskMask_get {r : ℝ} (hr : 0 < r) (i j : ℕ) : (diskMask r).get [i, j] = by
    classical exact
    if ((i : ℤ) - ((kernelSize r - 1) / 2 : ℕ), (j : ℤ) - ((kernelSize r - 1) / 2 : ℕ)) ∈ disk r then 1 else 0 := by
  classical
  simp only [diskMask, List.getD_cons_zero, List.getD_cons_succ]
  refine if_congr ?_ rfl rfl
  rw [Real.sqrt_lt' hr, mem_disk hr]
  simp only [Int.cast_sub, Int.cast_natCast]

/-- Sums over the kernel are sums over the disk. -/
theorem sum_kernel {r : ℝ} (hr : 0 < r) (g : ℤ → ℤ → ℝ) :
    ∑ i ∈ Finset.range (kernelSize r), ∑ j ∈ Finset.range (kernelSize r), (diskMask r).get [i, j] *
      g (((kernelSize r - 1) / 2 : ℕ) - (i : ℤ)) (((kernelSize r - 1) / 2 : ℕ) - (j : ℤ)) = ∑ p ∈ disk r, g p.1 p.2 := by
  classical
  rw [← Finset.sum_product']
  have hh := kernelSize_half r
  simp only [diskMask_get hr, ite_mul, one_mul, zero_mul]
  rw [← Finset.sum_filter]
  set H := (kernelSize r - 1) / 2 with hH
  have neg : ∀ a b : ℤ, (a, b) ∈ disk r ↔ (-a, -b) ∈ disk r := by
    intro a b; rw [mem_disk hr, mem_disk hr]; push_cast; simp
  refine Finset.sum_nbij' (fun q => ((H : ℤ) - (q.1 : ℤ), (H : ℤ) - (q.2 : ℤ)))
    (fun p => (((H : ℤ) - p.1).toNat, ((H : ℤ) - p.2).toNat)) ?_ ?_ ?_ ?_ ?_
  · rintro ⟨i, j⟩ hq
    simp only [Finset.mem_filter] at hq
    rw [neg]
    simpa using hq.2
  · rintro ⟨a, b⟩ hp
    have hf := disk_fits hr hp
    rw [← hH] at hf
    simp only [Finset.mem_filter, Finset.mem_product, Finset.mem_range]
    dsimp only at hf
    refine ⟨⟨by omega, by omega⟩, ?_⟩
    have e1 : (((H : ℤ) - a).toNat : ℤ) - H = -a := by omega
    have e2 : (((H : ℤ) - b).toNat : ℤ) - H = -b := by omega
    rw [e1, e2, ← neg]; exact hp
  · rintro ⟨i, j⟩ hq
    simp only [Finset.mem_filter, Finset.mem_product, Finset.mem_range] at hq
    simp
  · rintro ⟨a, b⟩ hp
    have hf := disk_fits hr hp
    rw [← hH] at hf
    dsimp only at hf ⊢
    ext <;> dsimp only <;> omega
  · intro q _; rfl

theorem diskMask_sum {r : ℝ} (hr : 0 < r) : (diskMask r).sum = (disk r).card := by
  have h := sum_kernel hr fun _ _ => 1
  simp only [mul_one, Finset.sum_const, nsmul_eq_mul] at h
  rw [← h]
  rfl

theorem disk_pos {r : ℝ} (hr : 0 < r) : 0 < (disk r).card :=
  Finset.card_pos.mpr ⟨(0, 0), (mem_disk hr _).mpr (by simpa using pow_pos hr 2)⟩

/-- C57: for every radius > 0 the pinhole kernel is a square of odd side `2H + 1` that contains every integer point of the disk;
its value is `1 / N` on the `N` points of the disk, seen from the middle `(H, H)` of the square, and 0 elsewhere. -/
theorem C57_pinhole (r : ℝ) (hr : 0 < r) : ∃ H : ℕ, (diskKernel r).shape = [2 * H + 1, 2 * H + 1] ∧
    (∀ p ∈ disk r, |p.1| ≤ H ∧ |p.2| ≤ H) ∧
    ∀ i j : ℕ, (((i : ℤ) - H, (j : ℤ) - H) ∈ disk r → (diskKernel r).get [i, j] = 1 / (disk r).card) ∧
      (((i : ℤ) - H, (j : ℤ) - H) ∉ disk r → (diskKernel r).get [i, j] = 0) := by
  classical
  refine ⟨(kernelSize r - 1) / 2, ?_, ?_, ?_⟩
  · rw [← kernelSize_half]; rfl
  · intro p hp
    have h := disk_fits hr hp
    exact ⟨abs_le.mpr ⟨h.1, h.2.1⟩, abs_le.mpr ⟨h.2.2.1, h.2.2.2⟩⟩
  · intro i j
    have e : (diskKernel r).get [i, j] = (diskMask r).get [i, j] / (disk r).card := by
      rw [← diskMask_sum hr]; rfl
    rw [e, diskMask_get hr]
    constructor <;> intro h
    · rw [if_pos h]
    · rw [if_neg h, zero_div]

/-- C57: the kernel is a symmetric probability distribution: non-negative, of total 1, unchanged by the two reflections and by
exchanging the axes. -/
theorem C57_symmetric (r : ℝ) (hr : 0 < r) : ∃ K, K % 2 = 1 ∧ (diskKernel r).shape = [K, K] ∧ (diskKernel r).sum = 1 ∧
    ∀ i < K, ∀ j < K, 0 ≤ (diskKernel r).get [i, j] ∧ (diskKernel r).get [K - 1 - i, j] = (diskKernel r).get [i, j] ∧
      (diskKernel r).get [i, K - 1 - j] = (diskKernel r).get [i, j] ∧ (diskKernel r).get [j, i] = (diskKernel r).get [i, j] := by
  classical
  obtain ⟨H, h1, -, h3⟩ := C57_pinhole r hr
  have hpos : (0 : ℝ) < (disk r).card := by exact_mod_cast disk_pos hr
  refine ⟨2 * H + 1, by omega, h1, ?_, ?_⟩
  · have e : (diskKernel r).sum = (diskMask r).sum * (1 / (diskMask r).sum) := by
      rw [mul_comm, Arr.sum, Arr.sum, ← sumIdx_mul_left]
      refine sumIdx_congr fun i _ => ?_
      show (diskMask r).get i / _ = _
      rw [Arr.sum]; ring
    rw [e, diskMask_sum hr]
    field_simp
  · intro i hi j hj
    have g : ∀ i j : ℕ, (diskKernel r).get [i, j] = if ((i : ℤ) - H, (j : ℤ) - H) ∈ disk r then (1 : ℝ) / (disk r).card else 0 := by
      intro i j; by_cases h : ((i : ℤ) - H, (j : ℤ) - H) ∈ disk r
      · rw [if_pos h]; exact (h3 i j).1 h
      · rw [if_neg h]; exact (h3 i j).2 h
    simp only [g]
    refine ⟨by split <;> positivity, if_congr ?_ rfl rfl, if_congr ?_ rfl rfl, if_congr ?_ rfl rfl⟩
    · have e : ((2 * H + 1 - 1 - i : ℕ) : ℤ) - H = -((i : ℤ) - H) := by omega
      rw [e, mem_disk hr, mem_disk hr]; simp only [Int.cast_neg, neg_sq]
    · have e : ((2 * H + 1 - 1 - j : ℕ) : ℤ) - H = -((j : ℤ) - H) := by omega
      rw [e, mem_disk hr, mem_disk hr]; simp only [Int.cast_neg, neg_sq]
    · rw [mem_disk hr, mem_disk hr, add_comm]

/-- Non-vacuity: for a radius between 1 and √2 the kernel is the 5-point cross with weights 1/5. -/
example : (diskKernel (6/5)).get [1, 1] = 1 / 5 ∧ (diskKernel (6/5)).shape = [3, 3] := by
  have hr : (0 : ℝ) < 6/5 := by norm_num
  have hk : kernelSize (6/5) = 3 := by
    have : ⌈(6/5 : ℝ) * 2⌉ = 3 := by rw [Int.ceil_eq_iff]; norm_num
    rw [kernelSize, this]; rfl
  have hc : disk (6/5) = {(0, 0), (1, 0), (-1, 0), (0, 1), (0, -1)} := by
    ext ⟨a, b⟩
    rw [mem_disk hr]
    simp only [Finset.mem_insert, Finset.mem_singleton, Prod.mk.injEq]
    constructor
    · intro h
      have h' : a ^ 2 + b ^ 2 < 2 := by
        have : ((a ^ 2 + b ^ 2 : ℤ) : ℝ) < ((2 : ℤ) : ℝ) := by push_cast; linarith
        exact Int.cast_lt.mp this
      have ha : -1 ≤ a ∧ a ≤ 1 := ⟨by nlinarith [sq_nonneg b], by nlinarith [sq_nonneg b]⟩
      have hb : -1 ≤ b ∧ b ≤ 1 := ⟨by nlinarith [sq_nonneg a], by nlinarith [sq_nonneg a]⟩
      obtain ⟨ha1, ha2⟩ := ha
      obtain ⟨hb1, hb2⟩ := hb
      interval_cases a <;> interval_cases b <;> simp_all
    · rintro (⟨rfl, rfl⟩ | ⟨rfl, rfl⟩ | ⟨rfl, rfl⟩ | ⟨rfl, rfl⟩ | ⟨rfl, rfl⟩) <;> norm_num
  constructor
  · have e : (diskKernel (6/5)).get [1, 1] = (diskMask (6/5)).get [1, 1] / (disk (6/5)).card := by
      rw [← diskMask_sum hr]; rfl
    rw [e, diskMask_get hr, hk]
    rw [if_pos (by rw [mem_disk hr]; norm_num), hc]
    rfl
  · show [kernelSize (6/5), kernelSize (6/5)] = [3, 3]
    rw [hk]

end PyOTF
