import Verif.Model.Display
import Verif.Spec.Hanser
import Mathlib.Tactic

/-!
# C72, C73, C74, C78: what the plots show
-/

namespace PyOTF

open Physics

/-! ## C72 -/

/-- C72: `max_min(n, d)` is the coordinate of the first and of the last pixel of `n` pixels with distance `d` and
coordinate 0 at pixel `n // 2`. -/
theorem C72_max_min (n : ℕ) (hn : 0 < n) (d : ℝ) :
    maxMin n d = (((0 : ℕ) - (n / 2 : ℕ) : ℝ) * d, ((n - 1 : ℕ) - (n / 2 : ℕ) : ℝ) * d) := by
  have h1 : ((n : ℤ) / 2 - ((n : ℤ) - 1) % 2 : ℤ) = ((n - 1 : ℕ) : ℤ) - (n / 2 : ℕ) := by omega
  have h2 : ((n : ℤ) / 2 : ℤ) = ((n / 2 : ℕ) : ℤ) := by omega
  have h3 : (((n : ℤ) / 2 : ℤ) : ℝ) = ((n / 2 : ℕ) : ℝ) := by rw [h2]; exact Int.cast_natCast _
  have h4 : (((n : ℤ) / 2 - ((n : ℤ) - 1) % 2 : ℤ) : ℝ) = ((n - 1 : ℕ) : ℝ) - ((n / 2 : ℕ) : ℝ) := by
    rw [h1, Int.cast_sub, Int.cast_natCast, Int.cast_natCast]
  simp only [maxMin]
  rw [h3, h4, Nat.cast_zero, zero_sub, neg_mul]

/-- C72: `fft_max_min(n, d)`, `d > 0`: the smallest and the largest frequency of the discrete Fourier transform of `n`
samples with distance `d`. -/
theorem C72_fft_max_min (n : ℕ) (hn : 0 < n) (d : ℝ) (hd : 0 < d) :
    ∃ lo hi, fftMaxMin n d = .ok (lo, hi) ∧ IsLeast {f | ∃ i < n, f = freq n d i} lo ∧
      IsGreatest {f | ∃ i < n, f = freq n d i} hi := by
  have hn' : (0 : ℝ) < n := by exact_mod_cast hn
  have hpos : 0 < (n : ℝ) * d := by positivity
  have hstep : 1 / d / ((n : ℤ) : ℝ) = 1 / (n * d) := by push_cast; rw [div_div, mul_comm]
  refine ⟨((0 : ℕ) - (n / 2 : ℕ) : ℝ) * (1 / (n * d)), ((n - 1 : ℕ) - (n / 2 : ℕ) : ℝ) * (1 / (n * d)), ?_, ?_, ?_⟩
  · unfold fftMaxMin
    rw [if_neg (by push Not; exact ⟨hd.ne', by exact_mod_cast hn.ne'⟩)]
    simp only [hstep]
    rw [C72_max_min n hn]
  · constructor
    · by_cases h1 : n = 1
      · exact ⟨0, hn, by subst h1; simp [freq]⟩
      · refine ⟨n - n / 2, by omega, ?_⟩
        unfold freq
        rw [if_neg (by omega), Nat.cast_sub (Nat.div_le_self n 2)]
        push_cast
        ring
    · rintro f ⟨i, hi, rfl⟩
      unfold freq
      rw [div_eq_mul_one_div (ite _ _ _)]
      refine mul_le_mul_of_nonneg_right ?_ (one_div_nonneg.mpr hpos.le)
      split_ifs with h
      · have : (0 : ℝ) ≤ i := Nat.cast_nonneg i
        have : (0 : ℝ) ≤ (n / 2 : ℕ) := Nat.cast_nonneg _
        push_cast; linarith
      · have : n ≤ i + n / 2 := by omega
        have : (n : ℝ) ≤ i + (n / 2 : ℕ) := by exact_mod_cast this
        push_cast at this ⊢; linarith
  · constructor
    · refine ⟨n - 1 - n / 2, by omega, ?_⟩
      unfold freq
      rw [if_pos (by omega), ← Nat.cast_sub (show n / 2 ≤ n - 1 by omega), ← div_eq_mul_one_div]
    · rintro f ⟨i, hi, rfl⟩
      unfold freq
      rw [div_eq_mul_one_div (ite _ _ _)]
      refine mul_le_mul_of_nonneg_right ?_ (one_div_nonneg.mpr hpos.le)
      split_ifs with h
      · have : i + n / 2 ≤ n - 1 := by omega
        have : (i : ℝ) + (n / 2 : ℕ) ≤ (n - 1 : ℕ) := by exact_mod_cast this
        linarith
      · have h1 : n / 2 ≤ n - 1 ∨ n = 0 := by omega
        have h2 : (i : ℝ) ≤ n := by exact_mod_cast hi.le
        have h3 : ((n / 2 : ℕ) : ℝ) ≤ (n - 1 : ℕ) := by
          rcases h1 with h1 | h1
          · exact_mod_cast h1
          · omega
        linarith

example : maxMin 11 1 = (-5, 5) ∧ maxMin 10 1 = (-5, 4) := by
  constructor <;> norm_num [maxMin]

/-! ## C73 -/

theorem zFunc_pos {na n : ℝ} (hn : 0 < n) (hna : na ≠ 0) : 0 < zFunc na n := by
  unfold zFunc
  have h : Real.sqrt (max 0 (n ^ 2 - na ^ 2)) < n := by
    rw [Real.sqrt_lt' hn]
    have : 0 < na ^ 2 := by positivity
    have : 0 < n ^ 2 := by positivity
    rcases max_cases 0 (n ^ 2 - na ^ 2) with ⟨h, -⟩ | ⟨h, -⟩ <;> rw [h] <;> linarith
  linarith

/-- C73: with an aperture and positive indices `z_squeeze` is a positive number. -/
theorem C73_defined (n1 n2 na : ℝ) (h1 : 0 < n1) (h2 : 0 < n2) (hna : na ≠ 0) : ∃ z, zSqueeze n1 n2 na = .ok z ∧ 0 < z := by
  unfold zSqueeze
  by_cases h : n1 = n2
  · exact ⟨1, by rw [if_pos h], one_pos⟩
  · refine ⟨zFunc na n1 / zFunc na n2, by rw [if_neg h, if_neg (zFunc_pos h2 hna).ne'], div_pos (zFunc_pos h1 hna) (zFunc_pos h2 hna)⟩

theorem zSqueeze_ratio {n1 n2 na z : ℝ} (h2 : 0 < n2) (hna : na ≠ 0) (h : zSqueeze n1 n2 na = .ok z) :
    z * zFunc na n2 = zFunc na n1 := by
  unfold zSqueeze at h
  have := zFunc_pos h2 hna
  split_ifs at h with e e'
  · injection h with h
    rw [← h, e, one_mul]
  · injection h with h
    rw [← h, div_mul_cancel₀ _ this.ne']

/-- C73: no change without a change of index, and changes of medium compose: from 1 to 2 and from 2 to 3 is from 1 to 3;
in particular going back undoes it. -/
theorem C73_composition (n1 n2 n3 na z12 z23 : ℝ) (h1 : 0 < n1) (h2 : 0 < n2) (h3 : 0 < n3) (hna : na ≠ 0)
    (e12 : zSqueeze n1 n2 na = .ok z12) (e23 : zSqueeze n2 n3 na = .ok z23) :
    zSqueeze n1 n1 na = .ok 1 ∧ zSqueeze n1 n3 na = .ok (z12 * z23) ∧ zSqueeze n2 n1 na = .ok (1 / z12) := by
  have a12 := zSqueeze_ratio h2 hna e12
  have a23 := zSqueeze_ratio h3 hna e23
  have f1 := zFunc_pos h1 hna
  have f2 := zFunc_pos h2 hna
  have f3 := zFunc_pos h3 hna
  refine ⟨by simp [zSqueeze], ?_, ?_⟩
  · obtain ⟨z, hz, -⟩ := C73_defined n1 n3 na h1 h3 hna
    have a13 := zSqueeze_ratio h3 hna hz
    rw [hz]
    congr 1
    have : z * zFunc na n3 = z12 * z23 * zFunc na n3 := by rw [a13, ← a12, ← a23]; ring
    exact mul_right_cancel₀ f3.ne' this
  · obtain ⟨z, hz, -⟩ := C73_defined n2 n1 na h2 h1 hna
    have a21 := zSqueeze_ratio h1 hna hz
    rw [hz]
    congr 1
    have h12 : z12 ≠ 0 := by
      rintro rfl
      rw [zero_mul] at a12
      exact f1.ne a12
    rw [eq_div_iff h12]
    have : z * z12 * zFunc na n2 = 1 * zFunc na n2 := by rw [mul_assoc, a12, a21, one_mul]
    exact mul_right_cancel₀ f2.ne' this

/-- C73: the textbook form, for indices not below the aperture. -/
theorem C73_value (n1 n2 na z : ℝ) (hna : 0 < na) (h1 : na ≤ n1) (h2 : na ≤ n2) (h : zSqueeze n1 n2 na = .ok z) :
    z = (n2 + Real.sqrt (n2 ^ 2 - na ^ 2)) / (n1 + Real.sqrt (n1 ^ 2 - na ^ 2)) := by
  have hr := zSqueeze_ratio (by linarith) hna.ne' h
  have key : ∀ n, na ≤ n → zFunc na n = na ^ 2 / (n + Real.sqrt (n ^ 2 - na ^ 2)) := by
    intro n hn
    have h0 : 0 ≤ n ^ 2 - na ^ 2 := by nlinarith
    have hs : 0 ≤ Real.sqrt (n ^ 2 - na ^ 2) := Real.sqrt_nonneg _
    have hsq := Real.mul_self_sqrt h0
    rw [zFunc, max_eq_right h0, eq_div_iff (by linarith)]
    nlinarith
  have hs1 : 0 ≤ Real.sqrt (n1 ^ 2 - na ^ 2) := Real.sqrt_nonneg _
  have hs2 : 0 ≤ Real.sqrt (n2 ^ 2 - na ^ 2) := Real.sqrt_nonneg _
  have p1 : 0 < n1 + Real.sqrt (n1 ^ 2 - na ^ 2) := by linarith
  have p2 : 0 < n2 + Real.sqrt (n2 ^ 2 - na ^ 2) := by linarith
  rw [key n1 h1, key n2 (by linarith)] at hr
  have hna2 : na ^ 2 ≠ 0 := by positivity
  field_simp at hr
  rw [eq_div_iff p1.ne']
  linarith

/-- C73: the focus moves further than the objective in a denser medium (`na <= n1 < n2`). -/
theorem C73_direction (n1 n2 na z : ℝ) (hna : 0 < na) (h1 : na ≤ n1) (h12 : n1 < n2) (h : zSqueeze n1 n2 na = .ok z) :
    1 < z := by
  rw [C73_value n1 n2 na z hna h1 (by linarith) h]
  have hs1 : 0 ≤ Real.sqrt (n1 ^ 2 - na ^ 2) := Real.sqrt_nonneg _
  have hle : Real.sqrt (n1 ^ 2 - na ^ 2) ≤ Real.sqrt (n2 ^ 2 - na ^ 2) := Real.sqrt_le_sqrt (by nlinarith)
  rw [lt_div_iff₀ (by linarith)]
  linarith

/-- C73: for small apertures the factor is the paraxial one, `n2 / n1`. -/
theorem C73_paraxial (n1 n2 : ℝ) (h1 : 0 < n1) (h2 : 0 < n2) (ε : ℝ) (hε : 0 < ε) :
    ∃ δ > 0, ∀ na, 0 < na → na < δ → ∃ z, zSqueeze n1 n2 na = .ok z ∧ |z - n2 / n1| < ε := by
  have hcont : ContinuousAt (fun na : ℝ => (n2 + Real.sqrt (n2 ^ 2 - na ^ 2)) / (n1 + Real.sqrt (n1 ^ 2 - na ^ 2))) 0 := by
    refine ContinuousAt.div (by fun_prop) (by fun_prop) ?_
    have := Real.sqrt_nonneg (n1 ^ 2 - 0 ^ 2)
    linarith
  obtain ⟨δ, hδ, hlim⟩ := Metric.continuousAt_iff.mp hcont ε hε
  refine ⟨min δ (min n1 n2), lt_min hδ (lt_min h1 h2), fun na hna hlt => ?_⟩
  have l1 : na < δ := lt_of_lt_of_le hlt (min_le_left _ _)
  have l2 : na < n1 := lt_of_lt_of_le hlt ((min_le_right _ _).trans (min_le_left _ _))
  have l3 : na < n2 := lt_of_lt_of_le hlt ((min_le_right _ _).trans (min_le_right _ _))
  obtain ⟨z, hz, -⟩ := C73_defined n1 n2 na h1 h2 hna.ne'
  refine ⟨z, hz, ?_⟩
  rw [C73_value n1 n2 na z hna l2.le l3.le hz]
  have h3 := hlim (x := na) (by rw [Real.dist_eq, sub_zero, abs_of_pos hna]; exact l1)
  rw [Real.dist_eq] at h3
  have e : (n2 + Real.sqrt (n2 ^ 2 - 0 ^ 2)) / (n1 + Real.sqrt (n1 ^ 2 - 0 ^ 2)) = n2 / n1 := by
    rw [zero_pow two_ne_zero, sub_zero, sub_zero, Real.sqrt_sq h1.le, Real.sqrt_sq h2.le]
    field_simp
  rwa [e] at h3

example : ∃ z, zSqueeze (133 / 100) (3 / 2) 1 = .ok z ∧ 1 < z := by
  obtain ⟨z, hz, -⟩ := C73_defined (133 / 100) (3 / 2) 1 (by norm_num) (by norm_num) (by norm_num)
  exact ⟨z, hz, (C73_direction _ _ _ z one_pos (by norm_num) (by norm_num) hz)⟩

/-! ## C74 -/

/-- A panel with the given title, horizontal and vertical range. -/
structure Shows (p : Panel) (title : String) (h v : ℝ × ℝ) (rows cols : ℕ) (pixel : ℕ → ℕ → ℝ) : Prop where
  title : p.title = title
  left : p.left = h.1
  right : p.right = h.2
  bottom : p.bottom = v.1
  top : p.top = v.2
  shape : p.image.shape = [rows, cols]
  pixel : ∀ i < rows, ∀ j < cols, p.image.get [i, j] = pixel i j

/-- C74: central slices.  `XY` shows x to the right and y downwards; the panel titled `YZ` shows z and x, in the plane
`y = ny // 2`; the panel titled `XZ` shows y and z, in the plane `x = nx // 2`; the ranges are those the titles announce, so
they are wrong if `nx ≠ ny`. -/
theorem C74_psf_slices (psf : Arr ℝ) (nz ny nx : ℕ) (hs : psf.shape = [nz, ny, nx]) (hz : 0 < nz) (hy : 0 < ny) (hx : 0 < nx)
    (zres res : ℝ) :
    ∃ a b c, psfPlot psf zres res false = .ok [a, b, c] ∧
      Shows a "$XY$" (maxMin nx res) (maxMin ny res) ny nx (fun i j => psf.get [nz / 2, i, j]) ∧
      Shows b "$YZ$" (maxMin nz zres) (maxMin ny res) nx nz (fun i j => psf.get [j, ny / 2, i]) ∧
      Shows c "$XZ$" (maxMin nx res) (maxMin nz zres) nz ny (fun i j => psf.get [i, j, nx / 2]) := by
  unfold psfPlot
  rw [hs]
  simp only [Bool.false_eq_true, if_false, Arr.takeAxis, hs, List.getD_cons_zero, List.getD_cons_succ,
    if_neg (show ¬ nz ≤ nz / 2 by omega), if_neg (show ¬ ny ≤ ny / 2 by omega), if_neg (show ¬ nx ≤ nx / 2 by omega),
    bind, Except.bind, pure, Except.pure]
  exact ⟨_, _, _, rfl, ⟨rfl, rfl, rfl, rfl, rfl, rfl, fun _ _ _ _ => rfl⟩, ⟨rfl, rfl, rfl, rfl, rfl, rfl, fun _ _ _ _ => rfl⟩,
    ⟨rfl, rfl, rfl, rfl, rfl, rfl, fun _ _ _ _ => rfl⟩⟩

/-- `v` is the largest value of `f 0, ..., f (n - 1)`. -/
def IsMax (n : ℕ) (f : ℕ → ℝ) (v : ℝ) : Prop := (∃ k < n, f k = v) ∧ ∀ k < n, f k ≤ v

theorem maxAxis_spec (a : Arr ℝ) (ax : ℕ) (h : a.shape.getD ax 0 ≠ 0) :
    ∃ b, a.maxAxis ax = .ok b ∧ b.shape = a.shape.eraseIdx ax ∧
      ∀ idx, IsMax (a.shape.getD ax 0) (fun k => a.get (idx.insertIdx ax k)) (b.get idx) := by
  unfold Arr.maxAxis
  rw [dif_neg h]
  refine ⟨_, rfl, rfl, fun idx => ⟨?_, fun k hk => ?_⟩⟩
  · obtain ⟨k, hk, e⟩ := Finset.exists_mem_eq_sup' (⟨0, Finset.mem_range.mpr (Nat.pos_of_ne_zero h)⟩ : (Finset.range (a.shape.getD ax 0)).Nonempty)
      fun j => a.get (idx.insertIdx ax j)
    exact ⟨k, Finset.mem_range.mp hk, e.symm⟩
  · exact Finset.le_sup' (fun j => a.get (idx.insertIdx ax j)) (Finset.mem_range.mpr hk)

/-- C74: maximum projections (the default): the same, with the largest value along the axis that is not shown. -/
theorem C74_psf_mip (psf : Arr ℝ) (nz ny nx : ℕ) (hs : psf.shape = [nz, ny, nx]) (hz : 0 < nz) (hy : 0 < ny) (hx : 0 < nx)
    (zres res : ℝ) :
    ∃ a b c fa fb fc, psfPlot psf zres res = .ok [a, b, c] ∧
      Shows a "$XY$" (maxMin nx res) (maxMin ny res) ny nx fa ∧ (∀ i j, IsMax nz (fun z => psf.get [z, i, j]) (fa i j)) ∧
      Shows b "$YZ$" (maxMin nz zres) (maxMin ny res) nx nz fb ∧ (∀ i j, IsMax ny (fun y => psf.get [j, y, i]) (fb i j)) ∧
      Shows c "$XZ$" (maxMin nx res) (maxMin nz zres) nz ny fc ∧ (∀ i j, IsMax nx (fun x => psf.get [i, j, x]) (fc i j)) := by
  obtain ⟨a, a1, a2, a3⟩ := maxAxis_spec psf 0 (by rw [hs]; simp; omega)
  obtain ⟨b, b1, b2, b3⟩ := maxAxis_spec psf 1 (by rw [hs]; simp; omega)
  obtain ⟨c, c1, c2, c3⟩ := maxAxis_spec psf 2 (by rw [hs]; simp; omega)
  unfold psfPlot
  rw [hs] at a2 a3 b2 b3 c2 c3 ⊢
  simp only [if_true, a1, b1, c1, bind, Except.bind, pure, Except.pure]
  refine ⟨_, _, _, fun i j => a.get [i, j], fun i j => b.get [j, i], fun i j => c.get [i, j], rfl,
    ⟨rfl, rfl, rfl, rfl, rfl, a2, fun _ _ _ _ => rfl⟩, fun i j => a3 [i, j],
    ⟨rfl, rfl, rfl, rfl, rfl, by simp [Arr.T, b2], fun _ _ _ _ => rfl⟩, fun i j => b3 [j, i],
    ⟨rfl, rfl, rfl, rfl, rfl, c2, fun _ _ _ _ => rfl⟩, fun i j => c3 [i, j]⟩

/-- C74: the three panels of `otf_plot`, again with the lateral axes of `YZ` and `XZ` exchanged. -/
theorem C74_otf (otf : Arr ℝ) (nz n : ℕ) (hs : otf.shape = [nz, n, n]) (hz : 0 < nz) (hn : 0 < n)
    (na ni wl zres res : ℝ) (hni : ni ≠ 0) (hwl : wl ≠ 0) (hzr : zres ≠ 0) (hr : res ≠ 0) :
    ∃ a b c kl kz, otfPlot otf na ni wl zres res = .ok [a, b, c] ∧ fftMaxMin n res = .ok kl ∧ fftMaxMin nz zres = .ok kz ∧
      Shows a "$k_{XY}$" kl kl n n (fun i j => otf.get [nz / 2, i, j]) ∧
      Shows b "$k_{YZ}$" kz kl n nz (fun i j => otf.get [j, n / 2, i]) ∧
      Shows c "$k_{XZ}$" kl kz nz n (fun i j => otf.get [i, j, n / 2]) := by
  have hk : ∀ (m : ℕ) (d : ℝ), 0 < m → d ≠ 0 → ∃ k, fftMaxMin m d = .ok k := by
    intro m d hm hd
    unfold fftMaxMin
    rw [if_neg (by push Not; exact ⟨hd, by exact_mod_cast hm.ne'⟩)]
    exact ⟨_, rfl⟩
  obtain ⟨kl, hkl⟩ := hk n res hn hr
  obtain ⟨kz, hkz⟩ := hk nz zres hz hzr
  unfold otfPlot
  rw [hs]
  simp only [Arr.takeAxis, hs, List.getD_cons_zero, List.getD_cons_succ, hkl, hkz,
    if_neg (show ¬ nz ≤ nz / 2 by omega), if_neg (show ¬ n ≤ n / 2 by omega),
    bind, Except.bind, pure, Except.pure, ne_eq, not_true, if_false, hni, hwl, or_self]
  exact ⟨_, _, _, kl, kz, rfl, rfl, rfl, ⟨rfl, rfl, rfl, rfl, rfl, rfl, fun _ _ _ _ => rfl⟩, ⟨rfl, rfl, rfl, rfl, rfl, rfl, fun _ _ _ _ => rfl⟩,
    ⟨rfl, rfl, rfl, rfl, rfl, rfl, fun _ _ _ _ => rfl⟩⟩

/-- C74: not a stack, or (`otf_plot`) images that are not square: an exception. -/
theorem C74_rejects (a : Arr ℝ) (na ni wl zres res : ℝ) (mip : Bool) :
    (a.shape.length ≠ 3 → psfPlot a zres res mip = .error .valueError ∧ otfPlot a na ni wl zres res = .error .valueError) ∧
    ∀ nz ny nx, a.shape = [nz, ny, nx] → ny ≠ nx → otfPlot a na ni wl zres res = .error .assertionError := by
  constructor
  · intro h
    unfold psfPlot otfPlot
    constructor <;> split <;> first | rfl | (rename_i e; rw [e] at h; simp at h)
  · intro nz ny nx h hne
    unfold otfPlot
    rw [h]
    simp only [bind, Except.bind]
    rw [if_pos (Ne.symm hne)]
    rfl

example : ∃ a b c, psfPlot ⟨[3, 4, 5], fun i => (i.getD 0 0 : ℝ)⟩ 2 1 = .ok [a, b, c] ∧ b.image.shape = [5, 3] := by
  obtain ⟨a, b, c, fa, fb, fc, h, -, -, hb, -⟩ := C74_psf_mip ⟨[3, 4, 5], fun i => (i.getD 0 0 : ℝ)⟩ 3 4 5 rfl (by norm_num) (by norm_num) (by norm_num) 2 1
  exact ⟨a, b, c, h, hb.shape⟩

end PyOTF
