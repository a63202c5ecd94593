import Verif.Lemmas.StripLimit

/-!
# Sums over the samples of a cap, in the limit of small frequency steps
-/

open MeasureTheory Filter Topology

namespace PyOTF

open Physics

/-- Almost all slopes are irrational. -/
theorem slope_null (K τ x : ℝ) : volume {p : ℝ × ℝ | p.2 ^ 2 = (x * τ) ^ 2 * (K ^ 2 - (p.1 ^ 2 + p.2 ^ 2))} = 0 := by
  have hm : MeasurableSet {p : ℝ × ℝ | p.2 ^ 2 = (x * τ) ^ 2 * (K ^ 2 - (p.1 ^ 2 + p.2 ^ 2))} := by
    refine (isClosed_eq ?_ ?_).measurableSet <;> fun_prop
  rw [Measure.volume_eq_prod, Measure.measure_prod_null hm]
  refine Eventually.of_forall fun a => ?_
  set b := (x * τ) ^ 2 * (K ^ 2 - a ^ 2) / (1 + (x * τ) ^ 2) with hb
  refine (Set.Finite.subset (Set.toFinite ({√b, -√b} : Set ℝ)) ?_).measure_zero _
  intro t ht
  simp only [Set.mem_preimage, Set.mem_ofPred_eq] at ht
  have h : t ^ 2 = b := by
    rw [hb, eq_div_iff (by positivity)]; linarith
  have h2 : |t| = √b := by rw [← h, Real.sqrt_sq_eq_abs]
  rcases abs_choice t with h3 | h3
  · left; rw [← h2, h3]
  · right; rw [Set.mem_singleton_iff, ← h2, h3]; ring

theorem ae_irrational {τ : ℝ} (hτ : 0 < τ) (K : ℝ) : ∀ᵐ u : ℝ × ℝ, radialAt u.1 u.2 < K → Irrational (-u.2 / axialAt K u.1 u.2 / τ) := by
  have h : ∀ᵐ u : ℝ × ℝ, ∀ x : ℚ, ¬ u.2 ^ 2 = ((x : ℝ) * τ) ^ 2 * (K ^ 2 - (u.1 ^ 2 + u.2 ^ 2)) := by
    rw [ae_all_iff]
    intro x
    rw [ae_iff]
    simpa using slope_null K τ x
  filter_upwards [h] with u hu hr
  rintro ⟨x, hx⟩
  apply hu x
  have hw := axialAt_pos hr
  have hw2 := axialAt_sq' hr.le
  rw [radialAt_sq] at hw2
  have : u.2 = -(x * τ * axialAt K u.1 u.2) := by rw [hx]; field_simp
  rw [← hw2]
  nth_rewrite 1 [this]
  ring

open Classical in
/-- The waves of the samples of a cap above the lateral frequency `p / L`. -/
noncomputable def capColumn (K l τ L : ℝ) (V : ℝ × ℝ × ℝ → ℂ) (T : Finset ℤ) (S : Finset (ℤ × ℤ)) (p : ℤ × ℤ) : ℂ :=
  if p ∈ S then ∑ c ∈ T, if OnCap K l (τ / L) (1 / L) false (c * τ / L) (p.1 / L) (p.2 / L) then V (c * τ / L, p.1 / L, p.2 / L) else 0 else 0

section
variable {K l τ : ℝ} (hτ : 0 < τ) (hl : 0 < l) (hlK : l < K)

include hτ hl hlK

theorem capColumn_norm_le {L : ℝ} (hL : 1 ≤ L) {V : ℝ × ℝ × ℝ → ℂ} {B : ℝ} (hB : 0 ≤ B) (hV : ∀ x : ℝ × ℝ × ℝ, √(K ^ 2 - l ^ 2) < x.1 → length3 x.1 x.2.1 x.2.2 < K + (τ + 1) → ‖V x‖ ≤ B) (T : Finset ℤ) (S : Finset (ℤ × ℤ)) (p : ℤ × ℤ) :
    ‖capColumn K l τ L V T S p‖ ≤ B * (2 * (2 * (τ + 1) * (K + (τ + 1)) / (τ * √(K ^ 2 - l ^ 2)) + 1) + 1) := by
  classical
  have hK : 0 < K := by linarith
  unfold capColumn
  split_ifs
  · rw [← Finset.sum_filter]
    refine (norm_sum_le _ _).trans ((Finset.sum_le_sum (g := fun _ => B) fun c hc => ?_).trans ?_)
    · have h := (Finset.mem_filter.mp hc).2
      rw [onCap_iff (by linarith)] at h
      have h0 := pixelRatio_nonneg τ (c * τ / L) (p.1 / L) (p.2 / L)
      have h3 : pixelRatio τ (c * τ / L) (p.1 / L) (p.2 / L) / L ≤ τ + 1 := (div_le_self h0 hL).trans (pixelRatio_le hτ _ _ _)
      have h4 : 0 ≤ pixelRatio τ (c * τ / L) (p.1 / L) (p.2 / L) / L := div_nonneg h0 (by linarith)
      refine hV _ ?_ ?_
      · simp only; linarith [h.2]
      · simp only; linarith [(abs_lt.mp h.1).2]
    rw [Finset.sum_const, nsmul_eq_mul, mul_comm]
    exact mul_le_mul_of_nonneg_left (onCap_card hτ hl.le hlK hL _ _ T) hB
  · rw [norm_zero]; positivity

omit hl hlK in
theorem capColumn_support {L : ℝ} (hL : 1 ≤ L) (V : ℝ × ℝ × ℝ → ℂ) (T : Finset ℤ) (S : Finset (ℤ × ℤ)) (p : ℤ × ℤ)
    (hp : (K + (τ + 1)) * L < |(p.1 : ℝ)| ∨ (K + (τ + 1)) * L < |(p.2 : ℝ)|) : capColumn K l τ L V T S p = 0 := by
  have hL0 : 0 < L := by linarith
  unfold capColumn
  split_ifs
  · refine Finset.sum_eq_zero fun c _ => if_neg fun h => ?_
    have h1 := onCap_lateral hτ hL h
    have h2 := abs_le_radialAt ((p.1 : ℝ) / L) ((p.2 : ℝ) / L)
    rw [abs_div, abs_div, abs_of_pos hL0, div_le_iff₀ hL0, div_le_iff₀ hL0] at h2
    have h3 := mul_lt_mul_of_pos_right h1 hL0
    rcases hp with hp | hp <;> linarith
  · rfl

/-- The mean of the columns at almost every frequency. -/
theorem capColumn_mean (L : ℕ → ℝ) (hL : Tendsto L atTop atTop) (H : ℕ → ℕ) (hH : Tendsto H atTop atTop)
    (hHL : Tendsto (fun n => (H n : ℝ) * ((H n + 1 : ℝ) / L n)) atTop (𝓝 0))
    (V : ℝ × ℝ × ℝ → ℂ) (hVc : ∀ x : ℝ × ℝ × ℝ, 0 < x.1 → ContinuousAt V x) (T : ℕ → Finset ℤ) (S : ℕ → Finset (ℤ × ℤ))
    {m mz : ℝ} (hm : l < m) (hmz : K < mz) (hT : ∀ᶠ n in atTop, ∀ c : ℤ, |(c : ℝ) * τ / L n| ≤ mz → c ∈ T n)
    (hS : ∀ᶠ n in atTop, ∀ p : ℤ × ℤ, |(p.1 : ℝ) / L n| ≤ m → |(p.2 : ℝ) / L n| ≤ m → p ∈ S n)
    (u : ℝ × ℝ) (hu : radialAt u.1 u.2 ≠ l) (hirr : radialAt u.1 u.2 < K → Irrational (-u.2 / axialAt K u.1 u.2 / τ)) :
    Tendsto (fun n => (∑ t ∈ Finset.range (H n), capColumn K l τ (L n) V (T n) (S n) (⌊L n * u.1⌋, ⌊L n * u.2⌋ + t)) / (H n : ℂ)) atTop
      (𝓝 (if radialAt u.1 u.2 < l then 2 * (capThickness τ K u.1 u.2 : ℂ) * V (axialAt K u.1 u.2, u) else 0)) := by
  classical
  have hK : 0 < K := by linarith
  have ev1 : ∀ᶠ n in atTop, 1 ≤ L n := hL.eventually_ge_atTop 1
  have evH : ∀ᶠ n in atTop, 1 ≤ H n := hH.eventually_ge_atTop 1
  have hinv : Tendsto (fun n => 1 / L n) atTop (𝓝 0) := tendsto_const_nhds.div_atTop hL
  have hHL' : Tendsto (fun n => (H n + 1 : ℝ) / L n) atTop (𝓝 0) := by
    refine squeeze_zero' ?_ ?_ hHL
    · filter_upwards [ev1] with n hn
      have : 0 < L n := by linarith
      positivity
    · filter_upwards [ev1, evH] with n hn hn'
      have : 0 < L n := by linarith
      have h1 : (1 : ℝ) ≤ H n := by exact_mod_cast hn'
      exact le_mul_of_one_le_left (by positivity) h1
  -- the columns are close to `u`
  have closeY : ∀ n, 1 ≤ L n → |((⌊L n * u.1⌋ : ℤ) : ℝ) / L n - u.1| ≤ (H n + 1 : ℝ) / L n := by
    intro n hn
    have hn0 : 0 < L n := by linarith
    refine (floor_div_near hn0 _).trans (div_le_div_of_nonneg_right ?_ hn0.le)
    have : (0 : ℝ) ≤ H n := by positivity
    linarith
  have closeX : ∀ n, 1 ≤ L n → ∀ t < H n, |((⌊L n * u.2⌋ + (t : ℤ) : ℤ) : ℝ) / L n - u.2| ≤ (H n + 1 : ℝ) / L n := by
    intro n hn t ht
    have hn0 : 0 < L n := by linarith
    have e : ((⌊L n * u.2⌋ + (t : ℤ) : ℤ) : ℝ) / L n - u.2 = ((⌊L n * u.2⌋ : ℝ) / L n - u.2) + t / L n := by push_cast; ring
    rw [e]
    refine (abs_add_le _ _).trans ?_
    have h1 := floor_div_near hn0 u.2
    have h2 : |(t : ℝ) / L n| ≤ H n / L n := by
      rw [abs_of_nonneg (by positivity)]
      exact div_le_div_of_nonneg_right (by exact_mod_cast ht.le) hn0.le
    have e2 : (H n + 1 : ℝ) / L n = H n / L n + 1 / L n := by ring
    linarith
  have closeD : ∀ n, 1 ≤ L n → ∀ t < H n, dist ((((⌊L n * u.1⌋ : ℤ) : ℝ) / L n, ((⌊L n * u.2⌋ + (t : ℤ) : ℤ) : ℝ) / L n) : ℝ × ℝ) u ≤ (H n + 1 : ℝ) / L n := by
    intro n hn t ht
    rw [Prod.dist_eq]
    exact max_le (by simp only [Real.dist_eq]; exact closeY n hn) (by simp only [Real.dist_eq]; exact closeX n hn t ht)
  rcases lt_or_gt_of_ne hu with hin | hout
  swap
  · rw [if_neg (not_lt.mpr hout.le)]
    obtain ⟨η, hη, h1⟩ := onCap_outside hτ hl.le hlK hout
    refine tendsto_const_nhds.congr' ?_
    filter_upwards [ev1, hinv.eventually_lt_const hη, hHL'.eventually_lt_const hη] with n a1 a2 a3
    rw [Finset.sum_eq_zero, zero_div]
    intro t ht
    have hd := closeD n a1 t (Finset.mem_range.mp ht)
    unfold capColumn
    split_ifs
    · exact Finset.sum_eq_zero fun c _ => if_neg (h1 (L n) a1 a2 _ _ (lt_of_le_of_lt hd a3) _)
    · rfl
  rw [if_pos hin]
  have huK : radialAt u.1 u.2 < K := by linarith
  have hw := axialAt_pos huK
  set w := axialAt K u.1 u.2 with hwd
  set κ := capThickness τ K u.1 u.2 with hκ
  have hκ0 : 0 < κ := div_pos (length3_pos (by positivity)) (by positivity)
  set σ := -u.2 / w / τ with hσ
  have hwK : w ≤ K := by
    have := axialAt_sq' huK.le
    rw [← hwd] at this
    have : 0 ≤ radialAt u.1 u.2 ^ 2 := sq_nonneg _
    nlinarith
  rw [Metric.tendsto_atTop']
  intro ε hε
  set B := ‖V (w, u)‖ with hB
  have hB0 : 0 ≤ B := norm_nonneg _
  -- accuracies
  set ε1 := ε / 4 / (B + 1) with hε1
  have hε1p : 0 < ε1 := by positivity
  set ε2 := ε / 4 / (2 * κ + 3) with hε2
  have hε2p : 0 < ε2 := by positivity
  obtain ⟨δ, hδ, hδ1, H0, hcount⟩ := strip_count (hirr huK) hκ0 hε1p
  obtain ⟨η1, hη1, hVη⟩ := Metric.continuousAt_iff.mp (hVc (w, u) hw) ε2 hε2p
  set g := min (min η1 (mz - K)) δ with hg
  have hgp : 0 < g := lt_min (lt_min hη1 (by linarith)) hδ
  obtain ⟨ηa, hηa, insA⟩ := onCap_inside hτ hl.le hlK hin hδ
  obtain ⟨ηb, hηb, insB⟩ := onCap_inside hτ hl.le hlK hin hgp
  obtain ⟨C, hC, ηc, hηc, hslope⟩ := axial_slope huK
  have hmu : |u.1| < m ∧ |u.2| < m := by
    have := abs_le_radialAt u.1 u.2
    constructor <;> linarith
  set ηd := min (m - |u.1|) (m - |u.2|) with hηd
  have hηdp : 0 < ηd := lt_min (by linarith) (by linarith)
  have hCs : Tendsto (fun n => C / τ * ((H n : ℝ) * ((H n + 1 : ℝ) / L n))) atTop (𝓝 0) := by simpa using hHL.const_mul (C / τ)
  have evAll : ∀ᶠ n in atTop, 1 ≤ L n ∧ 1 / L n < min ηa ηb ∧ (H n + 1 : ℝ) / L n < min (min (min ηa ηb) (min ηc ηd)) η1 ∧ H0 ≤ H n ∧ 1 ≤ H n ∧
      C / τ * ((H n : ℝ) * ((H n + 1 : ℝ) / L n)) < δ ∧ (∀ c : ℤ, |(c : ℝ) * τ / L n| ≤ mz → c ∈ T n) ∧
      (∀ p : ℤ × ℤ, |(p.1 : ℝ) / L n| ≤ m → |(p.2 : ℝ) / L n| ≤ m → p ∈ S n) := by
    filter_upwards [ev1, hinv.eventually_lt_const (lt_min hηa hηb), hHL'.eventually_lt_const (lt_min (lt_min (lt_min hηa hηb) (lt_min hηc hηdp)) hη1),
      hH.eventually_ge_atTop H0, evH, hCs.eventually_lt_const hδ, hT, hS] with n b1 b2 b3 b4 b5 b6 b7 b8
    exact ⟨b1, b2, b3, b4, b5, b6, b7, b8⟩
  obtain ⟨n0, hn0⟩ := eventually_atTop.mp evAll
  refine ⟨n0, fun n hn => ?_⟩
  obtain ⟨b1, b2, b3, b4, b5, b6, b7, b8⟩ := hn0 n (le_of_lt hn)
  have hLn : 0 < L n := by linarith
  have b2a : 1 / L n < ηa := lt_of_lt_of_le b2 (min_le_left _ _)
  have b2b : 1 / L n < ηb := lt_of_lt_of_le b2 (min_le_right _ _)
  set e := (H n + 1 : ℝ) / L n with he
  have e_a : e < ηa := lt_of_lt_of_le b3 ((min_le_left _ _).trans ((min_le_left _ _).trans (min_le_left _ _)))
  have e_b : e < ηb := lt_of_lt_of_le b3 ((min_le_left _ _).trans ((min_le_left _ _).trans (min_le_right _ _)))
  have e_c : e < ηc := lt_of_lt_of_le b3 ((min_le_left _ _).trans ((min_le_right _ _).trans (min_le_left _ _)))
  have e_d : e < ηd := lt_of_lt_of_le b3 ((min_le_left _ _).trans ((min_le_right _ _).trans (min_le_right _ _)))
  have e_1 : e < η1 := lt_of_lt_of_le b3 (min_le_right _ _)
  set fy := ((⌊L n * u.1⌋ : ℤ) : ℝ) / L n with hfy
  set fx : ℕ → ℝ := fun t => ((⌊L n * u.2⌋ + (t : ℤ) : ℤ) : ℝ) / L n with hfx
  have hmem : ∀ t < H n, ((⌊L n * u.1⌋, ⌊L n * u.2⌋ + (t : ℤ)) : ℤ × ℤ) ∈ S n := by
    intro t ht
    refine b8 _ ?_ ?_
    · have h1 := closeY n b1
      have h2 := abs_sub_abs_le_abs_sub (((⌊L n * u.1⌋ : ℤ) : ℝ) / L n) u.1
      have h3 : ηd ≤ m - |u.1| := min_le_left _ _
      simp only
      linarith
    · have h1 := closeX n b1 t ht
      have h2 := abs_sub_abs_le_abs_sub (((⌊L n * u.2⌋ + (t : ℤ) : ℤ) : ℝ) / L n) u.2
      have h3 : ηd ≤ m - |u.2| := min_le_right _ _
      simp only
      linarith
  set valid : ℕ → Finset ℤ := fun t => (T n).filter fun c : ℤ => OnCap K l (τ / L n) (1 / L n) false (c * τ / L n) fy (fx t) with hvalid
  have hcol : ∀ t < H n, capColumn K l τ (L n) V (T n) (S n) (⌊L n * u.1⌋, ⌊L n * u.2⌋ + t) = ∑ c ∈ valid t, V (c * τ / L n, fy, fx t) := by
    intro t ht
    unfold capColumn
    rw [if_pos (hmem t ht), ← Finset.sum_filter]
  set φ : ℕ → ℝ := fun t => L n * axialAt K fy (fx t) / τ with hφ
  set cnt : ℕ → ℝ := fun t => ((valid t).card : ℝ) with hcnt
  have hdist : ∀ t < H n, dist ((fy, fx t) : ℝ × ℝ) u ≤ e := fun t ht => closeD n b1 t ht
  have hlin : ∀ t < H n, |φ t - (φ 0 + σ * t)| ≤ δ := by
    intro t ht
    have h0 : 0 < H n := by omega
    have h1 := hslope e e_c fy (fx 0) (fx t) (closeY n b1) (closeX n b1 0 h0) (closeX n b1 t ht)
    have hd : fx t - fx 0 = t / L n := by simp only [hfx]; push_cast; ring
    rw [hd] at h1
    have e1 : φ t - (φ 0 + σ * t) = (axialAt K fy (fx t) - axialAt K fy (fx 0) - -u.2 / w * (t / L n)) * (L n / τ) := by
      simp only [hφ, hσ]; field_simp; ring
    rw [e1, abs_mul, abs_of_pos (show 0 < L n / τ by positivity)]
    have h2 := mul_le_mul_of_nonneg_right h1 (show 0 ≤ L n / τ by positivity)
    rw [abs_of_nonneg (show (0 : ℝ) ≤ t / L n by positivity)] at h2
    have e2 : C * e * (t / L n) * (L n / τ) = C / τ * (t * e) := by field_simp
    rw [e2] at h2
    refine h2.trans (le_trans ?_ b6.le)
    refine mul_le_mul_of_nonneg_left ?_ (by positivity)
    refine mul_le_mul_of_nonneg_right ?_ (by positivity)
    exact_mod_cast ht.le
  have hlo : ∀ t < H n, ((near (φ t) (κ - δ)).card : ℝ) ≤ cnt t := by
    intro t ht
    refine Nat.cast_le.mpr (Finset.card_le_card fun c hc => ?_)
    have hA := insA (L n) b1 b2a fy (fx t) (lt_of_le_of_lt (hdist t ht) e_a) c
    have hcap := hA.1 hc
    have hB := (insB (L n) b1 b2b fy (fx t) (lt_of_le_of_lt (hdist t ht) e_b) c).2.2 (Or.inl hcap)
    refine Finset.mem_filter.mpr ⟨b7 c ?_, hcap⟩
    have h3 := abs_sub_abs_le_abs_sub ((c : ℝ) * τ / L n) w
    rw [abs_of_pos hw] at h3
    have h4 : g ≤ mz - K := (min_le_left _ _).trans (min_le_right _ _)
    linarith
  have hhi : ∀ t < H n, cnt t ≤ ((near (φ t) (κ + δ)).card : ℝ) := by
    intro t ht
    refine Nat.cast_le.mpr (Finset.card_le_card fun c hc => ?_)
    exact (insA (L n) b1 b2a fy (fx t) (lt_of_le_of_lt (hdist t ht) e_a) c).2.1 (Finset.mem_filter.mp hc).2
  have hmean := hcount (H n) b4 (φ 0) φ cnt hlin hlo hhi
  have hHp : (0 : ℝ) < H n := by exact_mod_cast (by omega : 0 < H n)
  have hcnt3 : ∀ t < H n, cnt t ≤ 2 * κ + 3 := by
    intro t ht
    refine (hhi t ht).trans ((card_near_le _ (by positivity)).trans ?_)
    linarith
  -- replace every wave by the one at `u`
  have hdiff : ∀ t < H n, ‖(∑ c ∈ valid t, V (c * τ / L n, fy, fx t)) - (cnt t : ℂ) * V (w, u)‖ ≤ ε2 * (2 * κ + 3) := by
    intro t ht
    have e1 : (cnt t : ℂ) * V (w, u) = ∑ c ∈ valid t, V (w, u) := by
      rw [Finset.sum_const, nsmul_eq_mul]; simp only [hcnt]; push_cast; ring
    rw [e1, ← Finset.sum_sub_distrib]
    refine (norm_sum_le _ _).trans ?_
    have : ∀ c ∈ valid t, ‖V (c * τ / L n, fy, fx t) - V (w, u)‖ ≤ ε2 := by
      intro c hc
      have hB := (insB (L n) b1 b2b fy (fx t) (lt_of_le_of_lt (hdist t ht) e_b) c).2.2 (Or.inl (Finset.mem_filter.mp hc).2)
      have h4 : g ≤ η1 := (min_le_left _ _).trans (min_le_left _ _)
      have := @hVη (c * τ / L n, fy, fx t) (by
        rw [Prod.dist_eq]
        exact max_lt (by simp only [Real.dist_eq]; linarith) (lt_of_le_of_lt (hdist t ht) e_1))
      rw [dist_eq_norm] at this
      exact this.le
    refine (Finset.sum_le_sum this).trans ?_
    rw [Finset.sum_const, nsmul_eq_mul, mul_comm]
    exact mul_le_mul_of_nonneg_left (hcnt3 t ht) hε2p.le
  rw [dist_eq_norm]
  have hHc : (H n : ℂ) ≠ 0 := by exact_mod_cast (by omega : H n ≠ 0)
  have split : (∑ t ∈ Finset.range (H n), capColumn K l τ (L n) V (T n) (S n) (⌊L n * u.1⌋, ⌊L n * u.2⌋ + t)) / (H n : ℂ) - 2 * (κ : ℂ) * V (w, u) =
      (∑ t ∈ Finset.range (H n), ((∑ c ∈ valid t, V (c * τ / L n, fy, fx t)) - (cnt t : ℂ) * V (w, u))) / (H n : ℂ) +
      (((∑ t ∈ Finset.range (H n), cnt t) / H n - 2 * κ : ℝ) : ℂ) * V (w, u) := by
    rw [Finset.sum_congr rfl fun t ht => hcol t (Finset.mem_range.mp ht), Finset.sum_sub_distrib, ← Finset.sum_mul]
    have e1 : (((∑ t ∈ Finset.range (H n), cnt t) / H n - 2 * κ : ℝ) : ℂ) = (∑ t ∈ Finset.range (H n), (cnt t : ℂ)) / (H n : ℂ) - 2 * (κ : ℂ) := by
      rw [Complex.ofReal_sub, Complex.ofReal_div, Complex.ofReal_sum, Complex.ofReal_mul]; rfl
    rw [e1]
    generalize (∑ t ∈ Finset.range (H n), (cnt t : ℂ)) = b
    generalize (∑ t ∈ Finset.range (H n), ∑ c ∈ valid t, V (c * τ / L n, fy, fx t)) = a
    ring
  rw [split]
  refine lt_of_le_of_lt (norm_add_le _ _) ?_
  have n1 : ‖(∑ t ∈ Finset.range (H n), ((∑ c ∈ valid t, V (c * τ / L n, fy, fx t)) - (cnt t : ℂ) * V (w, u))) / (H n : ℂ)‖ ≤ ε2 * (2 * κ + 3) := by
    rw [norm_div, Complex.norm_natCast, div_le_iff₀ hHp]
    refine (norm_sum_le _ _).trans ((Finset.sum_le_sum fun t ht => hdiff t (Finset.mem_range.mp ht)).trans ?_)
    rw [Finset.sum_const, Finset.card_range, nsmul_eq_mul, mul_comm]
  have n2 : ‖(((∑ t ∈ Finset.range (H n), cnt t) / H n - 2 * κ : ℝ) : ℂ) * V (w, u)‖ ≤ ε1 * B := by
    rw [norm_mul, Complex.norm_real, Real.norm_eq_abs]
    exact mul_le_mul_of_nonneg_right hmean hB0
  have n3 : ε2 * (2 * κ + 3) = ε / 4 := by rw [hε2]; field_simp
  have n4 : ε1 * B ≤ ε / 4 := by
    rw [hε1, div_mul_eq_mul_div, div_le_iff₀ (by positivity)]
    nlinarith
  linarith

open Classical in
/-- Sums over the samples of the cap, times the area of a lateral pixel, tend to an integral over the aperture, each frequency weighted with the mean
number of samples above it. -/
theorem tendsto_cap_sum (L : ℕ → ℝ) (hL : Tendsto L atTop atTop)
    (V : ℝ × ℝ × ℝ → ℂ) (hVc : ∀ x : ℝ × ℝ × ℝ, 0 < x.1 → ContinuousAt V x) {B : ℝ} (hB : 0 ≤ B) (hVb : ∀ x : ℝ × ℝ × ℝ, √(K ^ 2 - l ^ 2) < x.1 → length3 x.1 x.2.1 x.2.2 < K + (τ + 1) → ‖V x‖ ≤ B) (T : ℕ → Finset ℤ) (S : ℕ → Finset (ℤ × ℤ))
    {m mz : ℝ} (hm : l < m) (hmz : K < mz) (hT : ∀ᶠ n in atTop, ∀ c : ℤ, |(c : ℝ) * τ / L n| ≤ mz → c ∈ T n)
    (hS : ∀ᶠ n in atTop, ∀ p : ℤ × ℤ, |(p.1 : ℝ) / L n| ≤ m → |(p.2 : ℝ) / L n| ≤ m → p ∈ S n) :
    Tendsto (fun n => (∑ p ∈ S n, ∑ c ∈ T n, if OnCap K l (τ / L n) (1 / L n) false (c * τ / L n) (p.1 / L n) (p.2 / L n) then
      V (c * τ / L n, p.1 / L n, p.2 / L n) else 0) / (L n : ℂ) ^ 2) atTop
      (𝓝 (∫ u : ℝ × ℝ, if radialAt u.1 u.2 < l then 2 * (capThickness τ K u.1 u.2 : ℂ) * V (axialAt K u.1 u.2, u) else 0)) := by
  set H : ℕ → ℕ := fun n => Nat.sqrt (Nat.sqrt ⌊L n⌋₊) with hHd
  have sqrt_lim : Tendsto Nat.sqrt atTop atTop := by
    refine tendsto_atTop.mpr fun b => ?_
    filter_upwards [eventually_ge_atTop (b * b)] with n hn
    exact Nat.le_sqrt.mpr hn
  have hH : Tendsto H atTop atTop := sqrt_lim.comp (sqrt_lim.comp (tendsto_nat_floor_atTop.comp hL))
  have H4 : ∀ n, 1 ≤ L n → (H n : ℝ) ^ 4 ≤ L n := by
    intro n hn
    have h1 : H n * H n ≤ Nat.sqrt ⌊L n⌋₊ := Nat.sqrt_le _
    have h2 : Nat.sqrt ⌊L n⌋₊ * Nat.sqrt ⌊L n⌋₊ ≤ ⌊L n⌋₊ := Nat.sqrt_le _
    have h3 : (H n * H n) * (H n * H n) ≤ ⌊L n⌋₊ := (Nat.mul_le_mul h1 h1).trans h2
    have h4 : (((H n * H n) * (H n * H n) : ℕ) : ℝ) ≤ ⌊L n⌋₊ := by exact_mod_cast h3
    have h5 := Nat.floor_le (show 0 ≤ L n by linarith)
    push_cast at h4
    calc (H n : ℝ) ^ 4 = H n * H n * (H n * H n) := by ring
      _ ≤ L n := h4.trans h5
  have ev1 : ∀ᶠ n in atTop, 1 ≤ L n := hL.eventually_ge_atTop 1
  have evH : ∀ᶠ n in atTop, 1 ≤ H n := hH.eventually_ge_atTop 1
  have hHr : Tendsto (fun n => (H n : ℝ)) atTop atTop := tendsto_natCast_atTop_atTop.comp hH
  have hHL : Tendsto (fun n => (H n : ℝ) * ((H n + 1 : ℝ) / L n)) atTop (𝓝 0) := by
    have h0 : Tendsto (fun n => 2 / (H n : ℝ)) atTop (𝓝 0) := tendsto_const_nhds.div_atTop hHr
    refine squeeze_zero' ?_ ?_ h0
    · filter_upwards [ev1] with n hn
      have : 0 < L n := by linarith
      positivity
    · filter_upwards [ev1, evH] with n hn hn'
      have h1 : (1 : ℝ) ≤ H n := by exact_mod_cast hn'
      have h2 := H4 n hn
      have h3 : 0 < L n := by linarith
      rw [← mul_div_assoc, div_le_div_iff₀ h3 (by linarith)]
      have h4 : (H n : ℝ) * (H n + 1) * H n ≤ 2 * (H n : ℝ) ^ 4 := by
        have : (H n : ℝ) ^ 2 ≤ (H n : ℝ) ^ 3 := pow_le_pow_right₀ h1 (by norm_num)
        have : (H n : ℝ) ^ 3 ≤ (H n : ℝ) ^ 4 := pow_le_pow_right₀ h1 (by norm_num)
        nlinarith
      linarith
  have hK : 0 < K := by linarith
  have main := tendsto_averaged_sum (fun n => capColumn K l τ (L n) V (T n) (S n))
    (fun u : ℝ × ℝ => if radialAt u.1 u.2 < l then 2 * (capThickness τ K u.1 u.2 : ℂ) * V (axialAt K u.1 u.2, u) else 0)
    (B * (2 * (2 * (τ + 1) * (K + (τ + 1)) / (τ * √(K ^ 2 - l ^ 2)) + 1) + 1)) (K + (τ + 1)) L hL H ?_ ?_ ?_ ?_ S ?_
  · refine main.congr fun n => ?_
    congr 1
    refine Finset.sum_congr rfl fun p hp => ?_
    unfold capColumn
    rw [if_pos hp]
  · filter_upwards [ev1, evH] with n hn hn'
    refine ⟨hn', le_trans ?_ (H4 n hn)⟩
    have h1 : (1 : ℝ) ≤ H n := by exact_mod_cast hn'
    exact le_self_pow₀ h1 (by norm_num)
  · filter_upwards [ev1] with n hn p using capColumn_norm_le hτ hl hlK hn hB hVb _ _ p
  · filter_upwards [ev1] with n hn p hp using capColumn_support hτ hn V _ _ p hp
  · filter_upwards [ae_generic l, ae_irrational hτ K] with u h1 h2
    have := capColumn_mean hτ hl hlK L hL H hH hHL V hVc T S hm hmz hT hS u h1.2 h2
    exact this
  · intro n p hp
    unfold capColumn
    rw [if_neg hp]

end

end PyOTF
