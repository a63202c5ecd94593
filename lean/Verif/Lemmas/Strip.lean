import Mathlib.NumberTheory.DiophantineApproximation.Basic
import Mathlib.Data.Int.Interval
import Mathlib.Algebra.Order.Archimedean.Real.Basic
import Mathlib.Tactic.LinearCombination

/-!
# Integers near a line of irrational slope

The integers `c` with `|c - φ t| < κ`, where `φ` is nearly linear with an irrational slope: on average `2 κ` for every `t`.
-/

namespace PyOTF

/-- The integers at a distance less than `κ` from `x`. -/
noncomputable def near (x κ : ℝ) : Finset ℤ := Finset.Ioo ⌊x - κ⌋ ⌈x + κ⌉

theorem mem_near {x κ : ℝ} {c : ℤ} : c ∈ near x κ ↔ |(c : ℝ) - x| < κ := by
  rw [near, Finset.mem_Ioo, Int.floor_lt, Int.lt_ceil, abs_lt]
  constructor <;> rintro ⟨h1, h2⟩ <;> constructor <;> linarith

theorem card_near_le (x : ℝ) {κ : ℝ} (h : 0 ≤ κ) : ((near x κ).card : ℝ) ≤ 2 * κ + 1 := by
  rw [near, Int.card_Ioo]
  have h1 := Int.ceil_lt_add_one (x + κ)
  have h2 := Int.lt_floor_add_one (x - κ)
  rcases le_or_gt 0 (⌈x + κ⌉ - ⌊x - κ⌋ - 1) with h3 | h3
  · have : (((⌈x + κ⌉ - ⌊x - κ⌋ - 1).toNat : ℤ) : ℝ) = ((⌈x + κ⌉ - ⌊x - κ⌋ - 1 : ℤ) : ℝ) := by rw [Int.toNat_of_nonneg h3]
    rw [Int.cast_natCast] at this
    rw [this]; push_cast; linarith
  · rw [Int.toNat_of_nonpos h3.le]; push_cast; linarith

theorem le_card_near (x κ : ℝ) : 2 * κ - 1 ≤ ((near x κ).card : ℝ) := by
  rw [near, Int.card_Ioo]
  have h1 := Int.le_ceil (x + κ)
  have h2 := Int.floor_le (x - κ)
  have h3 := Int.self_le_toNat (⌈x + κ⌉ - ⌊x - κ⌋ - 1)
  have : ((⌈x + κ⌉ - ⌊x - κ⌋ - 1 : ℤ) : ℝ) ≤ (((⌈x + κ⌉ - ⌊x - κ⌋ - 1).toNat : ℤ) : ℝ) := by exact_mod_cast h3
  rw [Int.cast_natCast] at this
  push_cast at this
  linarith

theorem near_subset {x y κ κ' : ℝ} (h : |x - y| + κ ≤ κ') : near x κ ⊆ near y κ' := by
  intro c hc
  rw [mem_near] at hc ⊢
  have := abs_sub_le (c : ℝ) x y
  linarith

/-- For a rational slope the points of `q` consecutive columns are one row of integers. -/
theorem card_block {q : ℕ} (hq : 0 < q) {a : ℤ} (ha : IsCoprime a (q : ℤ)) (x κ : ℝ) :
    ∑ t ∈ Finset.range q, (near (x + (a : ℝ) * (t : ℝ) / (q : ℝ)) κ).card = (near (q * x) (q * κ)).card := by
  have hq' : (0 : ℝ) < q := by exact_mod_cast hq
  have key : ∀ (t : ℕ) (c : ℤ), c ∈ near (x + (a : ℝ) * (t : ℝ) / (q : ℝ)) κ ↔ (q * c - a * t : ℤ) ∈ near (q * x) (q * κ) := by
    intro t c
    rw [mem_near, mem_near]
    have e : (((q * c - a * t : ℤ) : ℝ) - q * x) = q * ((c : ℝ) - (x + (a : ℝ) * (t : ℝ) / (q : ℝ))) := by
      push_cast; field_simp; ring
    rw [e, abs_mul, abs_of_pos hq', mul_lt_mul_iff_right₀ hq']
  rw [← Finset.card_sigma]
  refine Finset.card_bij (fun p _ => (q * p.2 - a * p.1 : ℤ)) ?_ ?_ ?_
  · rintro ⟨t, c⟩ h
    exact (key t c).mp (Finset.mem_sigma.mp h).2
  · rintro ⟨t, c⟩ h ⟨t', c'⟩ h' e
    have ht := Finset.mem_range.mp (Finset.mem_sigma.mp h).1
    have ht' := Finset.mem_range.mp (Finset.mem_sigma.mp h').1
    simp only at e ht ht'
    have hd : (q : ℤ) ∣ ((t : ℤ) - t') := by
      refine (ha.symm).dvd_of_dvd_mul_left (z := (t : ℤ) - t') ⟨c - c', ?_⟩
      linear_combination -e
    have htt : t = t' := by
      have h0 := Int.eq_zero_of_abs_lt_dvd hd (by rw [abs_lt]; constructor <;> omega)
      omega
    subst htt
    have : c = c' := by
      have h1 : (q : ℤ) * c = q * c' := by linarith
      exact mul_left_cancel₀ (by exact_mod_cast hq.ne') h1
    rw [this]
  · intro m hm
    obtain ⟨u, v, huv⟩ := ha
    have hq0 : (q : ℤ) ≠ 0 := by exact_mod_cast hq.ne'
    set t := (-m * u) % (q : ℤ) with ht
    have ht0 : 0 ≤ t := Int.emod_nonneg _ hq0
    have htq : t < q := Int.emod_lt_of_pos _ (by exact_mod_cast hq)
    obtain ⟨T, hT⟩ := Int.eq_ofNat_of_zero_le ht0
    have hdiv : (q : ℤ) ∣ m + a * t := by
      have h1 : (q : ℤ) ∣ (-m * u) - t := Int.dvd_self_sub_emod
      obtain ⟨w, hw⟩ := h1
      refine ⟨m * v - a * w, ?_⟩
      linear_combination m * (-huv) - a * hw
    obtain ⟨c, hc⟩ := hdiv
    have hmc : m = q * c - a * (T : ℕ) := by rw [← hT]; linarith
    refine ⟨⟨T, c⟩, Finset.mem_sigma.mpr ⟨Finset.mem_range.mpr (by change T < q; omega), ?_⟩, ?_⟩
    · rw [key]; simp only; rw [← hmc]; exact hm
    · simp only; rw [← hmc]

/-- An irrational number has good approximations with large denominators. -/
theorem exists_approx {σ : ℝ} (hσ : Irrational σ) (M : ℕ) : ∃ (q : ℕ) (a : ℤ), M < q ∧ 0 < q ∧ IsCoprime a (q : ℤ) ∧ |σ - a / q| * q ≤ 1 / q := by
  have hinf := Real.infinite_rat_abs_sub_lt_one_div_den_sq_of_irrational hσ
  have hfin : Set.Finite {p : ℚ | p.den ≤ M ∧ |σ - p| < 1} := by
    set B : ℤ := ⌈(|σ| + 1) * M⌉
    refine Set.Finite.subset ((Finset.Icc (-B) B ×ˢ Finset.Icc 0 M).image fun u : ℤ × ℕ => (u.1 : ℚ) / u.2).finite_toSet ?_
    rintro p ⟨h1, h2⟩
    rw [Finset.mem_coe, Finset.mem_image]
    refine ⟨(p.num, p.den), ?_, Rat.num_div_den p⟩
    rw [Finset.mem_product]
    refine ⟨?_, Finset.mem_Icc.mpr ⟨Nat.zero_le _, h1⟩⟩
    have hp : |(p : ℝ)| ≤ |σ| + 1 := by
      have := abs_sub_abs_le_abs_sub (p : ℝ) σ
      rw [abs_sub_comm] at this
      linarith
    have hnum : (p.num : ℝ) = p * p.den := by
      have := Rat.num_div_den p
      have hd : (p.den : ℝ) ≠ 0 := by exact_mod_cast p.den_nz
      have h3 : ((p.num : ℝ) / p.den) = p := by exact_mod_cast this
      rw [← h3]; field_simp
    have hb : |(p.num : ℝ)| ≤ B := by
      rw [hnum, abs_mul, abs_of_nonneg (by positivity : (0 : ℝ) ≤ p.den)]
      refine le_trans ?_ (Int.le_ceil _)
      have : (p.den : ℝ) ≤ M := by exact_mod_cast h1
      gcongr
    rw [Finset.mem_Icc]
    have := abs_le.mp hb
    constructor
    · have h4 : ((-B : ℤ) : ℝ) ≤ (p.num : ℝ) := by push_cast; exact this.1
      exact_mod_cast h4
    · exact_mod_cast this.2
  obtain ⟨p, hp1, hp2⟩ := (hinf.sdiff hfin).nonempty
  have hd : (0 : ℝ) < p.den := by exact_mod_cast p.den_pos
  have hp1 : |σ - p| < 1 / (p.den : ℝ) ^ 2 := hp1
  have hden : M < p.den := by
    by_contra hle
    refine hp2 ⟨not_lt.mp hle, lt_of_lt_of_le hp1 ?_⟩
    rw [div_le_one (by positivity)]
    have : (1 : ℝ) ≤ p.den := by exact_mod_cast p.den_pos
    nlinarith
  refine ⟨p.den, p.num, hden, p.den_pos, ?_, ?_⟩
  · have := p.reduced
    rw [Int.isCoprime_iff_gcd_eq_one]
    rw [Nat.Coprime] at this
    simpa [Int.gcd] using this
  · have h3 : ((p.num : ℝ) / p.den) = p := by exact_mod_cast Rat.num_div_den p
    rw [h3]
    have : 1 / (p.den : ℝ) = 1 / (p.den : ℝ) ^ 2 * p.den := by field_simp
    rw [this]
    exact mul_le_mul_of_nonneg_right hp1.le hd.le

/-- One block of `q` columns. -/
theorem block_count {σ κ δ : ℝ} (hκ : 0 < κ) (hδ : 0 ≤ δ) {q : ℕ} {a : ℤ} (hq : 0 < q) (ha : IsCoprime a (q : ℤ)) (hσ : |σ - a / q| * q ≤ 1 / q)
    (S : ℝ) (φ n : ℕ → ℝ) (hφ : ∀ t < q, |φ t - (S + σ * t)| ≤ δ) (h1 : ∀ t < q, ((near (φ t) (κ - δ)).card : ℝ) ≤ n t)
    (h2 : ∀ t < q, n t ≤ ((near (φ t) (κ + δ)).card : ℝ)) : |∑ t ∈ Finset.range q, n t - 2 * κ * q| ≤ 4 * δ * q + 3 := by
  have hq' : (0 : ℝ) < q := by exact_mod_cast hq
  have hdist : ∀ t < q, |φ t - (S + (a : ℝ) * (t : ℝ) / (q : ℝ))| ≤ δ + 1 / q := by
    intro t ht
    have e : φ t - (S + (a : ℝ) * (t : ℝ) / (q : ℝ)) = (φ t - (S + σ * t)) + (σ - a / q) * t := by ring
    have ht' : (t : ℝ) ≤ q := by exact_mod_cast ht.le
    have : |(σ - a / q) * t| ≤ 1 / q := by
      rw [abs_mul, Nat.abs_cast]
      exact le_trans (mul_le_mul_of_nonneg_left ht' (abs_nonneg _)) hσ
    rw [e]
    exact (abs_add_le _ _).trans (add_le_add (hφ t ht) this)
  have hup : ∑ t ∈ Finset.range q, n t ≤ ((near (q * S) (q * (κ + 2 * δ + 1 / q))).card : ℝ) := by
    rw [← card_block hq ha]
    push_cast
    refine Finset.sum_le_sum fun t ht => ?_
    have ht := Finset.mem_range.mp ht
    refine (h2 t ht).trans ?_
    exact Nat.cast_le.mpr (Finset.card_le_card (near_subset (by have := hdist t ht; linarith)))
  have hlo : ((near (q * S) (q * (κ - 2 * δ - 1 / q))).card : ℝ) ≤ ∑ t ∈ Finset.range q, n t := by
    rw [← card_block hq ha]
    push_cast
    refine Finset.sum_le_sum fun t ht => ?_
    have ht := Finset.mem_range.mp ht
    refine le_trans ?_ (h1 t ht)
    exact Nat.cast_le.mpr (Finset.card_le_card (near_subset (by have := hdist t ht; rw [abs_sub_comm] at this; linarith)))
  have u1 := card_near_le (q * S) (κ := q * (κ + 2 * δ + 1 / q)) (by positivity)
  have l1 := le_card_near (q * S) (q * (κ - 2 * δ - 1 / q))
  have e1 : q * (κ + 2 * δ + 1 / q) = κ * q + 2 * δ * q + 1 := by field_simp
  have e2 : q * (κ - 2 * δ - 1 / q) = κ * q - 2 * δ * q - 1 := by field_simp
  rw [e1] at u1 hup
  rw [e2] at l1 hlo
  rw [abs_le]
  constructor <;> linarith

/-- On average there are `2 κ` integers within `κ` of a nearly linear phase with irrational slope, uniformly in the phase. -/
theorem strip_count {σ κ : ℝ} (hσ : Irrational σ) (hκ : 0 < κ) {ε : ℝ} (hε : 0 < ε) : ∃ δ > 0, δ ≤ 1 ∧ ∃ H₀ : ℕ, ∀ H : ℕ, H₀ ≤ H → ∀ (S : ℝ) (φ n : ℕ → ℝ),
    (∀ t < H, |φ t - (S + σ * t)| ≤ δ) → (∀ t < H, ((near (φ t) (κ - δ)).card : ℝ) ≤ n t) → (∀ t < H, n t ≤ ((near (φ t) (κ + δ)).card : ℝ)) →
    |(∑ t ∈ Finset.range H, n t) / H - 2 * κ| ≤ ε := by
  obtain ⟨M, hM⟩ := exists_nat_gt (9 / ε)
  obtain ⟨q, a, hMq, hq, ha, happ⟩ := exists_approx hσ M
  have hq' : (0 : ℝ) < q := by exact_mod_cast hq
  have hqe : 3 / (q : ℝ) ≤ ε / 3 := by
    have h1 : (M : ℝ) < q := by exact_mod_cast hMq
    rw [div_le_div_iff₀ hq' (by norm_num)]
    have h2 : 9 < M * ε := by rwa [div_lt_iff₀ hε] at hM
    nlinarith
  obtain ⟨H₁, hH₁⟩ := exists_nat_gt (3 * (q * (4 * κ + 3)) / ε)
  refine ⟨min 1 (ε / 12), by positivity, min_le_left _ _, max H₁ 1, fun H hH S φ n hφ h1 h2 => ?_⟩
  set δ := min 1 (ε / 12) with hδd
  have hδ0 : 0 ≤ δ := by positivity
  have hδ1 : δ ≤ 1 := min_le_left _ _
  have hδe : δ ≤ ε / 12 := min_le_right _ _
  have hHpos : (0 : ℝ) < H := by
    have : 1 ≤ H := (le_max_right _ _).trans hH
    exact_mod_cast this
  -- whole blocks
  have blocks : ∀ B : ℕ, q * B ≤ H → |∑ t ∈ Finset.range (q * B), n t - 2 * κ * (q * B)| ≤ B * (4 * δ * q + 3) := by
    intro B
    induction B with
    | zero => intro _; simp
    | succ B ih =>
      intro hB
      have hB' : q * B + q ≤ H := by rw [Nat.mul_succ] at hB; exact hB
      have ih := ih (by omega)
      rw [Nat.mul_succ, Finset.sum_range_add]
      have hb := block_count hκ hδ0 hq ha happ (S + σ * (q * B : ℕ)) (fun t => φ (q * B + t)) (fun t => n (q * B + t))
        (fun t ht => by
          have := hφ (q * B + t) (by omega)
          have e : S + σ * ((q * B : ℕ) : ℝ) + σ * t = S + σ * ((q * B + t : ℕ) : ℝ) := by push_cast; ring
          rw [e]; exact this)
        (fun t ht => h1 (q * B + t) (by omega)) (fun t ht => h2 (q * B + t) (by omega))
      have e : ∑ t ∈ Finset.range (q * B), n t + ∑ t ∈ Finset.range q, n (q * B + t) - 2 * κ * (q * ((B + 1 : ℕ) : ℝ)) =
        (∑ t ∈ Finset.range (q * B), n t - 2 * κ * (q * B)) + (∑ t ∈ Finset.range q, n (q * B + t) - 2 * κ * q) := by push_cast; ring
      rw [e]
      refine (abs_add_le _ _).trans ?_
      push_cast
      linarith
  set B := H / q with hB
  set R := H % q with hR
  have hHe : q * B + R = H := Nat.div_add_mod H q
  have hRq : R < q := Nat.mod_lt _ hq
  have hb := blocks B (by omega)
  have hrest : |∑ t ∈ Finset.range R, n (q * B + t) - 2 * κ * R| ≤ q * (4 * κ + 3) := by
    have hn : ∀ t < R, 0 ≤ n (q * B + t) ∧ n (q * B + t) ≤ 2 * κ + 3 := by
      intro t ht
      have a1 := h1 (q * B + t) (by omega)
      have a2 := h2 (q * B + t) (by omega)
      have a3 := card_near_le (φ (q * B + t)) (κ := κ + δ) (by positivity)
      refine ⟨le_trans (by positivity) a1, by linarith⟩
    have hR' : (R : ℝ) ≤ q := by exact_mod_cast hRq.le
    have s1 : 0 ≤ ∑ t ∈ Finset.range R, n (q * B + t) := Finset.sum_nonneg fun t ht => (hn t (Finset.mem_range.mp ht)).1
    have s2 : ∑ t ∈ Finset.range R, n (q * B + t) ≤ R * (2 * κ + 3) := by
      have := Finset.sum_le_sum fun t (ht : t ∈ Finset.range R) => (hn t (Finset.mem_range.mp ht)).2
      rw [Finset.sum_const, Finset.card_range, nsmul_eq_mul] at this
      exact this
    rw [abs_le]
    constructor <;> nlinarith
  have htot : |∑ t ∈ Finset.range H, n t - 2 * κ * H| ≤ B * (4 * δ * q + 3) + q * (4 * κ + 3) := by
    have e : ∑ t ∈ Finset.range H, n t - 2 * κ * H = (∑ t ∈ Finset.range (q * B), n t - 2 * κ * (q * B)) +
        (∑ t ∈ Finset.range R, n (q * B + t) - 2 * κ * R) := by
      rw [← hHe, Finset.sum_range_add]; push_cast; ring
    rw [e]
    exact (abs_add_le _ _).trans (add_le_add hb hrest)
  have e : (∑ t ∈ Finset.range H, n t) / H - 2 * κ = (∑ t ∈ Finset.range H, n t - 2 * κ * H) / H := by field_simp
  rw [e, abs_div, abs_of_pos hHpos, div_le_iff₀ hHpos]
  refine htot.trans ?_
  have hBq : (B : ℝ) * q ≤ H := by
    have : q * B ≤ H := by omega
    have : ((q * B : ℕ) : ℝ) ≤ H := by exact_mod_cast this
    push_cast at this; linarith
  have t1 : (B : ℝ) * (4 * δ * q) ≤ ε / 3 * H := by nlinarith
  have t2 : (B : ℝ) * 3 ≤ ε / 3 * H := by
    have h3 : (3 : ℝ) ≤ ε / 3 * q := by rwa [div_le_iff₀ hq'] at hqe
    nlinarith [Nat.cast_nonneg (α := ℝ) B]
  have t3 : q * (4 * κ + 3) ≤ ε / 3 * H := by
    have h4 : (H₁ : ℝ) ≤ H := by exact_mod_cast (le_max_left _ _).trans hH
    rw [div_lt_iff₀ hε] at hH₁
    nlinarith
  linarith

end PyOTF
