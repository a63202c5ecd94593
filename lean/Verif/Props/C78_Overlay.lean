import Verif.Props.C72_C74_Display

/-!
# C78: the outlines `otf_plot` draws over the OTF
-/

namespace PyOTF

open Real

/-! ## Where pixels appear

`imshow(image, extent=(left, right, bottom, top))` with matplotlib's default `origin="upper"`: the extent is that of the
outer edges of the image, row 0 is at the top. -/

/-- Horizontal position of the centre of column `j`. -/
noncomputable def Panel.pixelX (p : Panel) (j : ℕ) : ℝ := p.left + (j + 1 / 2) * (p.right - p.left) / (p.image.shape.getD 1 0 : ℕ)

/-- Vertical position of the centre of row `i`. -/
noncomputable def Panel.pixelY (p : Panel) (i : ℕ) : ℝ := p.top - (i + 1 / 2) * (p.top - p.bottom) / (p.image.shape.getD 0 0 : ℕ)

/-- C78: in the XY panel the circle of radius `2 na / wl` is drawn around the origin, but the zero frequency (pixel
`(n//2, n//2)`) appears there only for odd `n`; for even `n` it is `1/(2n)` of a frequency step to the left and almost a
whole step below.  Pixels are `(1 - 1/n)` steps apart instead of one: the circle is too large for the picture by the factor `n/(n-1)`. -/
theorem C78_circle (otf : Arr ℝ) (nz n : ℕ) (hs : otf.shape = [nz, n, n]) (hz : 0 < nz) (hn : 0 < n)
    (na ni wl zres res : ℝ) (hni : ni ≠ 0) (hwl : wl ≠ 0) (hzr : zres ≠ 0) (hr : res ≠ 0) (a b c : Panel)
    (h : otfPlot otf na ni wl zres res = .ok [a, b, c]) :
    a.circle = some (2 * na / wl) ∧
      (n % 2 = 1 → a.pixelX (n / 2) = 0 ∧ a.pixelY (n / 2) = 0) ∧
      (n % 2 = 0 → a.pixelX (n / 2) = -(1 / (2 * n)) * (1 / (n * res)) ∧ a.pixelY (n / 2) = -(1 - 1 / (2 * n)) * (1 / (n * res))) ∧
      ∀ j, a.pixelX (j + 1) - a.pixelX j = (1 - 1 / n) * (1 / (n * res)) := by
  obtain ⟨a', b', c', kl, kz, h', hkl, hkz, ha, hb, hc⟩ := C74_otf otf nz n hs hz hn na ni wl zres res hni hwl hzr hr
  rw [h] at h'
  simp only [Except.ok.injEq, List.cons.injEq, and_true] at h'
  obtain ⟨rfl, rfl, rfl⟩ := h'
  have hn' : (n : ℝ) ≠ 0 := by exact_mod_cast hn.ne'
  have hstep : 1 / res / ((n : ℤ) : ℝ) = 1 / (n * res) := by push_cast; rw [div_div, mul_comm]
  have hkl' : kl = (((0 : ℕ) - (n / 2 : ℕ) : ℝ) * (1 / (n * res)), ((n - 1 : ℕ) - (n / 2 : ℕ) : ℝ) * (1 / (n * res))) := by
    unfold fftMaxMin at hkl
    rw [if_neg (by push Not; exact ⟨hr, by exact_mod_cast hn.ne'⟩)] at hkl
    simp only [hstep, Except.ok.injEq] at hkl
    rw [← hkl, C72_max_min n hn]
  have hpred : ((n - 1 : ℕ) : ℝ) = n - 1 := by rw [Nat.cast_sub hn]; simp
  refine ⟨?_, ?_, ?_, ?_⟩
  · unfold otfPlot at h
    rw [hs] at h
    simp only [Arr.takeAxis, hs, List.getD_cons_zero, List.getD_cons_succ, hkl, hkz,
      if_neg (show ¬ nz ≤ nz / 2 by omega), if_neg (show ¬ n ≤ n / 2 by omega),
      bind, Except.bind, pure, Except.pure, ne_eq, not_true, if_false, hni, hwl, or_self, Except.ok.injEq, List.cons.injEq] at h
    rw [← h.1]
  · intro hodd
    have h2 : (n : ℝ) = 2 * (n / 2 : ℕ) + 1 := by
      have : n = 2 * (n / 2) + 1 := by omega
      exact_mod_cast this
    simp only [Panel.pixelX, Panel.pixelY, ha.left, ha.right, ha.bottom, ha.top, ha.shape, hkl', hpred, List.getD_cons_zero, List.getD_cons_succ,
      Nat.cast_zero]
    constructor <;> (generalize ((n / 2 : ℕ) : ℝ) = m at h2 ⊢; rw [h2] at hn' ⊢; field_simp; ring)
  · intro heven
    have h2 : (n : ℝ) = 2 * (n / 2 : ℕ) := by
      have : n = 2 * (n / 2) := by omega
      exact_mod_cast this
    simp only [Panel.pixelX, Panel.pixelY, ha.left, ha.right, ha.bottom, ha.top, ha.shape, hkl', hpred, List.getD_cons_zero, List.getD_cons_succ,
      Nat.cast_zero]
    constructor <;> (generalize ((n / 2 : ℕ) : ℝ) = m at h2 ⊢; rw [h2] at hn' ⊢; have hm : m ≠ 0 := right_ne_zero_of_mul hn'; field_simp; ring)
  · intro j
    simp only [Panel.pixelX, ha.left, ha.right, ha.shape, hkl', hpred, List.getD_cons_zero, List.getD_cons_succ, Nat.cast_zero, Nat.cast_add, Nat.cast_one]
    field_simp
    ring

/-! ## The arcs -/

/-- The point of an arc at angle `θ` (degrees). -/
noncomputable def Wedge.at (w : Wedge) (θ : ℝ) : ℝ × ℝ := (w.x + w.r * cos (θ * π / 180), w.y + w.r * sin (θ * π / 180))

/-- The arc `w` belongs to the side `σ` of the optical axis, has its centre on the side `τ` of the equator, goes from the origin to
the point `2 na / wl` of the equator (in either direction), and half way between reaches the greatest axial frequency
`(ni - sqrt(ni² - na²)) / wl` on the side `-τ`.  `lateral` and `axial` name the coordinates. -/
def IsArc (lateral axial : ℝ × ℝ → ℝ) (na ni wl : ℝ) (w : Wedge) (σ τ : ℝ) : Prop :=
  w.r = ni / wl ∧ lateral (w.x, w.y) = σ * (na / wl) ∧ axial (w.x, w.y) = τ * (√(ni ^ 2 - na ^ 2) / wl) ∧
    (({lateral (w.at w.theta1), lateral (w.at w.theta2)} : Set ℝ) = {0, σ * (2 * na / wl)}) ∧
    axial (w.at w.theta1) = 0 ∧ axial (w.at w.theta2) = 0 ∧
    lateral (w.at ((w.theta1 + w.theta2) / 2)) = σ * (na / wl) ∧
    axial (w.at ((w.theta1 + w.theta2) / 2)) = -τ * ((ni - √(ni ^ 2 - na ^ 2)) / wl)

theorem deg_cancel (x : ℝ) : rad2deg x * π / 180 = x := by
  unfold rad2deg
  field_simp

theorem deg_mid (x y : ℝ) : (rad2deg x + rad2deg y) / 2 * π / 180 = (x + y) / 2 := by
  unfold rad2deg
  field_simp

theorem arc_vertical {na ni wl α φ σ τ : ℝ} (s1 : ni / wl * sin α = na / wl) (c1 : ni / wl * cos α = √(ni ^ 2 - na ^ 2) / wl)
    (hφ : cos φ = 0) (hφ' : sin φ = -τ) (hσ : σ = 1 ∨ σ = -1) (hτ : τ = 1 ∨ τ = -1) (w : Wedge) (hr : w.r = ni / wl)
    (hx : w.x = σ * (na / wl)) (hy : w.y = τ * (√(ni ^ 2 - na ^ 2) / wl)) (h1 : w.theta1 = rad2deg (φ - α))
    (h2 : w.theta2 = rad2deg (φ + α)) : IsArc Prod.fst Prod.snd na ni wl w σ τ := by
  have two : 2 * na / wl = na / wl + na / wl := by ring
  have ext : (ni - √(ni ^ 2 - na ^ 2)) / wl = ni / wl - √(ni ^ 2 - na ^ 2) / wl := by ring
  have mid : (φ - α + (φ + α)) / 2 = φ := by ring
  have e1 : ni / wl * (-τ * sin α) = -τ * (na / wl) := by rw [← s1]; ring
  have e2 : ni / wl * (-τ * cos α) = -τ * (√(ni ^ 2 - na ^ 2) / wl) := by rw [← c1]; ring
  refine ⟨hr, hx, hy, ?_, ?_, ?_, ?_, ?_⟩ <;>
    simp only [Wedge.at, h1, h2, deg_cancel, deg_mid, mid, hr, hx, hy, cos_sub, sin_sub, cos_add, sin_add, hφ, hφ', zero_mul, zero_add,
      zero_sub, sub_zero, add_zero, mul_zero, mul_neg, two, ext, neg_mul, neg_neg] <;> (try rw [neg_mul] at e1 e2)
  · generalize na / wl = u at *
    have e1' : ni / wl * (τ * sin α) = τ * u := by linarith
    rw [e1']
    rcases hσ with rfl | rfl <;> rcases hτ with rfl | rfl <;> ext x <;> simp <;> constructor <;> rintro (rfl | rfl) <;> simp
  · linarith
  · linarith
  · ring

theorem arc_horizontal {na ni wl α φ σ τ : ℝ} (s1 : ni / wl * sin α = na / wl) (c1 : ni / wl * cos α = √(ni ^ 2 - na ^ 2) / wl)
    (hφ : sin φ = 0) (hφ' : cos φ = -τ) (hσ : σ = 1 ∨ σ = -1) (hτ : τ = 1 ∨ τ = -1) (w : Wedge) (hr : w.r = ni / wl)
    (hx : w.y = σ * (na / wl)) (hy : w.x = τ * (√(ni ^ 2 - na ^ 2) / wl)) (h1 : w.theta1 = rad2deg (φ - α))
    (h2 : w.theta2 = rad2deg (φ + α)) : IsArc Prod.snd Prod.fst na ni wl w σ τ := by
  have two : 2 * na / wl = na / wl + na / wl := by ring
  have ext : (ni - √(ni ^ 2 - na ^ 2)) / wl = ni / wl - √(ni ^ 2 - na ^ 2) / wl := by ring
  have mid : (φ - α + (φ + α)) / 2 = φ := by ring
  have e1 : ni / wl * (-τ * sin α) = -τ * (na / wl) := by rw [← s1]; ring
  have e2 : ni / wl * (-τ * cos α) = -τ * (√(ni ^ 2 - na ^ 2) / wl) := by rw [← c1]; ring
  refine ⟨hr, hx, hy, ?_, ?_, ?_, ?_, ?_⟩ <;>
    simp only [Wedge.at, h1, h2, deg_cancel, deg_mid, mid, hr, hx, hy, cos_sub, sin_sub, cos_add, sin_add, hφ, hφ', zero_mul, zero_add,
      zero_sub, sub_zero, add_zero, mul_zero, mul_neg, two, ext, neg_mul, neg_neg] <;> (try rw [neg_mul] at e1 e2)
  · generalize na / wl = u at *
    have e1' : ni / wl * (τ * sin α) = τ * u := by linarith
    rw [e1']
    rcases hσ with rfl | rfl <;> rcases hτ with rfl | rfl <;> ext x <;> simp <;> constructor <;> rintro (rfl | rfl) <;> simp
  · linarith
  · linarith
  · ring

/-- C78: the bow ties.  For `0 < na <= ni`, `0 < wl` each of the two axial panels gets four arcs, one for every side and
direction; they are the boundary of the OTF support: radius `ni / wl`, through the origin and the lateral cutoff `2 na / wl`,
with axial extent `(ni - sqrt(ni² - na²)) / wl`. -/
theorem C78_bowties (na ni wl : ℝ) (hna : 0 < na) (hni : na ≤ ni) (hwl : 0 < wl) (otf : Arr ℝ) (nz n : ℕ)
    (hs : otf.shape = [nz, n, n]) (hz : 0 < nz) (hn : 0 < n) (zres res : ℝ) (hzr : zres ≠ 0) (hr : res ≠ 0) (a b c : Panel)
    (h : otfPlot otf na ni wl zres res = .ok [a, b, c]) :
    (∃ w1 w2 w3 w4, c.wedges = [w1, w2, w3, w4] ∧ IsArc Prod.fst Prod.snd na ni wl w1 1 1 ∧ IsArc Prod.fst Prod.snd na ni wl w2 1 (-1) ∧
      IsArc Prod.fst Prod.snd na ni wl w3 (-1) 1 ∧ IsArc Prod.fst Prod.snd na ni wl w4 (-1) (-1)) ∧
    ∃ w1 w2 w3 w4, b.wedges = [w1, w2, w3, w4] ∧ IsArc Prod.snd Prod.fst na ni wl w1 (-1) 1 ∧ IsArc Prod.snd Prod.fst na ni wl w2 1 1 ∧
      IsArc Prod.snd Prod.fst na ni wl w3 (-1) (-1) ∧ IsArc Prod.snd Prod.fst na ni wl w4 1 (-1) := by
  obtain ⟨a', b', c', kl, kz, h', hkl, hkz, -, -, -⟩ := C74_otf otf nz n hs hz hn na ni wl zres res (by linarith) hwl.ne' hzr hr
  have hni0 : 0 < ni := by linarith
  have hb : b.wedges = bowtie (ni / wl) (arcsin (min 1 (na / ni))) (π / 2) ∧ c.wedges = bowtie (ni / wl) (arcsin (min 1 (na / ni))) 0 := by
    unfold otfPlot at h
    rw [hs] at h
    simp only [Arr.takeAxis, hs, List.getD_cons_zero, List.getD_cons_succ, hkl, hkz,
      if_neg (show ¬ nz ≤ nz / 2 by omega), if_neg (show ¬ n ≤ n / 2 by omega),
      bind, Except.bind, pure, Except.pure, ne_eq, not_true, if_false, hni0.ne', hwl.ne', or_self, Except.ok.injEq, List.cons.injEq] at h
    rw [← h.2.1, ← h.2.2.1]
    exact ⟨rfl, rfl⟩
  rw [hb.1, hb.2]
  set α := arcsin (min 1 (na / ni)) with hα
  have hle : na / ni ≤ 1 := (div_le_one hni0).mpr hni
  have hsin : sin α = na / ni := by
    rw [hα, min_eq_right hle, sin_arcsin (by have : 0 < na / ni := by positivity
                                             linarith) hle]
  have hcos : cos α = √(ni ^ 2 - na ^ 2) / ni := by
    rw [hα, min_eq_right hle, cos_arcsin, div_pow, one_sub_div (by positivity), sqrt_div' _ (by positivity), sqrt_sq hni0.le]
  have s1 : ni / wl * sin α = na / wl := by rw [hsin]; field_simp
  have c1 : ni / wl * cos α = √(ni ^ 2 - na ^ 2) / wl := by rw [hcos]; field_simp
  have pp : ∀ t : ℝ, cos (t + π / 2 + π) = sin t := by intro t; rw [cos_add_pi, cos_add_pi_div_two, neg_neg]
  have sp : ∀ t : ℝ, sin (t + π / 2 + π) = -cos t := by intro t; rw [sin_add_pi, sin_add_pi_div_two]
  have rd : ∀ x y : ℝ, x = y → rad2deg x = rad2deg y := fun x y h => by rw [h]
  constructor
  · refine ⟨_, _, _, _, rfl, arc_vertical s1 c1 (φ := -(π / 2)) ?_ ?_ (Or.inl rfl) (Or.inl rfl) _ rfl ?_ ?_ (rd _ _ ?_) (rd _ _ ?_),
      arc_vertical s1 c1 (φ := π / 2) ?_ ?_ (Or.inl rfl) (Or.inr rfl) _ rfl ?_ ?_ (rd _ _ ?_) (rd _ _ ?_),
      arc_vertical s1 c1 (φ := -(π / 2)) ?_ ?_ (Or.inr rfl) (Or.inl rfl) _ rfl ?_ ?_ (rd _ _ ?_) (rd _ _ ?_),
      arc_vertical s1 c1 (φ := π / 2) ?_ ?_ (Or.inr rfl) (Or.inr rfl) _ rfl ?_ ?_ (rd _ _ ?_) (rd _ _ ?_)⟩
    all_goals first
      | (simp [s1, c1, sin_add_pi, cos_add_pi]; done)
      | (simp only [cos_zero, sin_zero]; ring)
  · refine ⟨_, _, _, _, rfl, arc_horizontal s1 c1 (φ := -π) ?_ ?_ (Or.inr rfl) (Or.inl rfl) _ rfl ?_ ?_ (rd _ _ ?_) (rd _ _ ?_),
      arc_horizontal s1 c1 (φ := -π) ?_ ?_ (Or.inl rfl) (Or.inl rfl) _ rfl ?_ ?_ (rd _ _ ?_) (rd _ _ ?_),
      arc_horizontal s1 c1 (φ := -π - π) ?_ ?_ (Or.inr rfl) (Or.inr rfl) _ rfl ?_ ?_ (rd _ _ ?_) (rd _ _ ?_),
      arc_horizontal s1 c1 (φ := -π - π) ?_ ?_ (Or.inl rfl) (Or.inr rfl) _ rfl ?_ ?_ (rd _ _ ?_) (rd _ _ ?_)⟩
    all_goals first
      | (simp [s1, c1, sin_add_pi_div_two, cos_add_pi_div_two, pp, sp]; done)
      | (simp only [cos_pi_div_two, sin_pi_div_two]; ring)

/-- Non-vacuity. -/
example : ∃ a b c, otfPlot ⟨[4, 6, 6], fun _ => 1⟩ 1 (3 / 2) (1 / 2) 1 1 = .ok [a, b, c] ∧ c.wedges.length = 4 ∧ a.circle = some 4 := by
  obtain ⟨a, b, c, kl, kz, h, -⟩ := C74_otf ⟨[4, 6, 6], fun _ => 1⟩ 4 6 rfl (by norm_num) (by norm_num) 1 (3 / 2) (1 / 2) 1 1 (by norm_num)
    (by norm_num) (by norm_num) (by norm_num)
  obtain ⟨w1, w2, w3, w4, hw, -⟩ := (C78_bowties 1 (3 / 2) (1 / 2) (by norm_num) (by norm_num) (by norm_num) _ 4 6 rfl (by norm_num) (by norm_num)
    1 1 (by norm_num) (by norm_num) a b c h).1
  have := (C78_circle _ 4 6 rfl (by norm_num) (by norm_num) 1 (3 / 2) (1 / 2) 1 1 (by norm_num) (by norm_num) (by norm_num) (by norm_num) a b c h).1
  exact ⟨a, b, c, h, by rw [hw]; rfl, by rw [this]; norm_num⟩

end PyOTF
