import Verif.Model.Plot
import Verif.Props.C05_C06_SliceMaker
import Verif.Props.C72_C74_Display
import Verif.Props.C82_MicroOtf

/-!
# C89: what `plot_psf` shows.  C90: what `plot_otf` shows
-/

namespace PyOTF

/-! ## The check of the planes -/

/-- At least three planes, and every step within `1e-8 + 1e-5 |mean|` of the mean step. -/
def EvenlySpaced (zs : List ℚ) : Prop :=
  3 ≤ zs.length ∧ ∀ k, k + 1 < zs.length →
    |(zs.getD (k + 1) 0 - zs.getD k 0) - (zs.getD (zs.length - 1) 0 - zs.getD 0 0) / ((zs.length : ℚ) - 1)| ≤
      1 / 10 ^ 8 + 1 / 10 ^ 5 * |(zs.getD (zs.length - 1) 0 - zs.getD 0 0) / ((zs.length : ℚ) - 1)|

theorem diffs_length : ∀ l : List ℚ, (diffs l).length = l.length - 1
  | [] => rfl
  | [_] => rfl
  | a :: b :: l => by simp [diffs, diffs_length (b :: l)]

theorem diffs_getD : ∀ (l : List ℚ) (k : ℕ), k + 1 < l.length → (diffs l).getD k 0 = l.getD (k + 1) 0 - l.getD k 0
  | [], k, h => by simp at h
  | [_], k, h => by simp at h
  | a :: b :: l, 0, _ => by simp [diffs]
  | a :: b :: l, k + 1, h => by
    have := diffs_getD (b :: l) k (by simpa using h)
    simpa [diffs] using this

theorem diffs_sum : ∀ (l : List ℚ), l ≠ [] → (diffs l).sum = l.getD (l.length - 1) 0 - l.getD 0 0
  | [], h => absurd rfl h
  | [_], _ => by simp [diffs]
  | a :: b :: l, _ => by
    have := diffs_sum (b :: l) (by simp)
    simp only [diffs, List.sum_cons, this]
    simp

theorem mapM_fin (zs : List ℚ) : (zs.map PyFloat.fin).mapM PyFloat.fin? = some zs := by
  induction zs with
  | nil => rfl
  | cons x xs ih => simp [List.mapM_cons, ih, PyFloat.fin?]

open Classical in
/-- The check in terms of the planes. -/
theorem validate_iff (zs : List ℚ) :
    validateZrange (some (zs.map .fin)) = if EvenlySpaced zs then .ok () else .error .runtimeError := by
  simp only [validateZrange, mapM_fin, diffs_length]
  by_cases h3 : 3 ≤ zs.length
  · rw [if_neg (by omega)]
    have hne : zs ≠ [] := by rintro rfl; simp at h3
    have hc : (((zs.length - 1 : ℕ)) : ℚ) = (zs.length : ℚ) - 1 := by rw [Nat.cast_sub (by omega)]; simp
    rw [diffs_sum zs hne, hc]
    congr 1
    simp only [EvenlySpaced, h3, true_and, eq_iff_iff, List.all_eq_true]
    constructor
    · intro h k hk
      have hk' : k < (diffs zs).length := by rw [diffs_length]; omega
      have := h ((diffs zs)[k]) (List.getElem_mem _)
      rw [← List.getD_eq_getElem _ 0 hk', diffs_getD zs k hk] at this
      simpa [isClose] using this
    · intro h x hx
      obtain ⟨k, hk, rfl⟩ := List.getElem_of_mem hx
      have hk' : k + 1 < zs.length := by rw [diffs_length] at hk; omega
      have := h k hk'
      rw [← List.getD_eq_getElem _ 0 hk, diffs_getD zs k hk']
      simpa [isClose] using this
  · rw [if_pos (by omega), if_neg (fun h => h3 h.1)]

/-- Planes with exactly equal distances are evenly spaced as soon as there are three. -/
theorem evenlySpaced_of_eq (zs : List ℚ) (d : ℚ) (h3 : 3 ≤ zs.length) (h : ∀ k, k + 1 < zs.length → zs.getD (k + 1) 0 - zs.getD k 0 = d) :
    EvenlySpaced zs := by
  have tel : ∀ k, k < zs.length → zs.getD k 0 - zs.getD 0 0 = k * d := by
    intro k
    induction k with
    | zero => intro _; simp
    | succ k ih =>
      intro hk
      have h1 := ih (by omega)
      have h2 := h k hk
      push_cast
      linarith
  have hm : (zs.getD (zs.length - 1) 0 - zs.getD 0 0) / ((zs.length : ℚ) - 1) = d := by
    rw [tel _ (by omega), Nat.cast_sub (by omega)]
    have : (zs.length : ℚ) - 1 ≠ 0 := by
      have : (3 : ℚ) ≤ zs.length := by exact_mod_cast h3
      intro h; linarith
    push_cast
    field_simp
  refine ⟨h3, fun k hk => ?_⟩
  rw [hm, h k hk, sub_self, abs_zero]
  positivity

/-- The default planes. -/
theorem default_evenly (n : ℕ) (d : ℚ) : EvenlySpaced ((List.range n).map fun (i : ℕ) => ((i : ℚ) - ((n + 1) / 2 : ℕ)) * d) ↔ 3 ≤ n := by
  constructor
  · intro h
    simpa using h.1
  · intro h
    refine evenlySpaced_of_eq _ d (by simpa using h) fun k hk => ?_
    have hk' : k + 1 < n := by simpa using hk
    rw [List.getD_eq_getElem _ _ (by simpa using hk'), List.getD_eq_getElem _ _ (by simp; omega)]
    simp only [List.getElem_map, List.getElem_range]
    push_cast
    ring

/-- The tolerance is absolute as well as relative: planes that are closer together than `5e-9` (in whatever unit) always pass. -/
theorem evenly_of_small (zs : List ℚ) (h3 : 3 ≤ zs.length) (h : ∀ k, k + 1 < zs.length → |zs.getD (k + 1) 0 - zs.getD k 0| ≤ 5 / 10 ^ 9) :
    EvenlySpaced zs := by
  have tel : ∀ k, k < zs.length → |zs.getD k 0 - zs.getD 0 0| ≤ k * (5 / 10 ^ 9) := by
    intro k
    induction k with
    | zero => intro _; simp
    | succ k ih =>
      intro hk
      have h1 := ih (by omega)
      have h2 := h k hk
      have := abs_add_le (zs.getD (k + 1) 0 - zs.getD k 0) (zs.getD k 0 - zs.getD 0 0)
      rw [sub_add_sub_cancel] at this
      push_cast
      linarith
  have hl : (3 : ℚ) ≤ zs.length := by exact_mod_cast h3
  have hm : |(zs.getD (zs.length - 1) 0 - zs.getD 0 0) / ((zs.length : ℚ) - 1)| ≤ 5 / 10 ^ 9 := by
    rw [abs_div, abs_of_pos (show (0 : ℚ) < zs.length - 1 by linarith), div_le_iff₀ (by linarith)]
    have := tel (zs.length - 1) (by omega)
    rw [Nat.cast_sub (by omega)] at this
    push_cast at this
    linarith
  refine ⟨h3, fun k hk => ?_⟩
  have h1 := h k hk
  have h2 := abs_sub (zs.getD (k + 1) 0 - zs.getD k 0) ((zs.getD (zs.length - 1) 0 - zs.getD 0 0) / ((zs.length : ℚ) - 1))
  have h4 := abs_nonneg ((zs.getD (zs.length - 1) 0 - zs.getD 0 0) / ((zs.length : ℚ) - 1))
  have : (0:ℚ) ≤ 1 / 10 ^ 5 * |(zs.getD (zs.length - 1) 0 - zs.getD 0 0) / ((zs.length : ℚ) - 1)| := by positivity
  norm_num at *
  linarith

/-! ## The crop -/

/-- On an axis of length `n` the `m` indices from `o` on are exactly those in the window of width `w` around `p`. -/
structure Window (n o m : ℕ) (p w : ℤ) : Prop where
  inside : o + m ≤ n
  mem : ∀ i : ℕ, i < n → ((o ≤ i ∧ i < o + m) ↔ (p - w / 2 ≤ i ∧ (i : ℤ) < p + (w - w / 2)))

/-- `c` is the block of `b` that starts at `o`. -/
def IsBlock (b c : Arr ℝ) (oz oy ox nz ny nx : ℕ) : Prop :=
  c.shape = [nz, ny, nx] ∧ ∀ z y x, c.get [z, y, x] = b.get [oz + z, oy + y, ox + x]

theorem window_of_slice {s : Slice} {p : ℕ} {w : ℤ} (n : ℕ) (h : SelectsWindow s p w) : Window n (s.lo n) (s.len n) p w := by
  obtain ⟨h1, a, b, ha, hb, h0, hab⟩ := h
  have hle : s.lo n ≤ s.hi n := by
    simp only [Slice.lo, Slice.hi, ha, hb, Option.elim, clipBound]
    rw [if_neg (by omega), if_neg (by omega)]
    omega
  have hn : s.hi n ≤ n := by
    simp only [Slice.hi, hb, Option.elim, clipBound]
    rw [if_neg (by omega)]
    omega
  refine ⟨by unfold Slice.len; omega, fun i hi => ?_⟩
  rw [← h1 n i hi]
  unfold Slice.len
  omega

theorem window_pos {n o m : ℕ} {p : ℕ} {w : ℤ} (h : Window n o m p w) (hp : p < n) (hw : 1 ≤ w) : o ≤ p ∧ p < o + m :=
  (h.mem p hp).mpr ⟨by omega, by omega⟩

theorem unravel3 {Z A B k : ℕ} (h : k < Z * (A * B)) : ∃ pz py px, unravel [Z, A, B] k = [pz, py, px] ∧ pz < Z ∧ py < A ∧ px < B := by
  have h' : k < [Z, A, B].prod := by simpa using h
  obtain ⟨h1, -⟩ := flatten_unravel h'
  rcases hu : unravel [Z, A, B] k with _ | ⟨a, _ | ⟨b, _ | ⟨c, _ | ⟨d, l⟩⟩⟩⟩ <;> rw [hu] at h1
  · cases h1
  · rcases h1 with _ | ⟨_, h1⟩; cases h1
  · rcases h1 with _ | ⟨_, h1⟩; rcases h1 with _ | ⟨_, h1⟩; cases h1
  · rcases h1 with _ | ⟨i1, h1⟩; rcases h1 with _ | ⟨i2, h1⟩; rcases h1 with _ | ⟨i3, h1⟩
    exact ⟨a, b, c, rfl, i1, i2, i3⟩
  · rcases h1 with _ | ⟨_, h1⟩; rcases h1 with _ | ⟨_, h1⟩; rcases h1 with _ | ⟨_, h1⟩; cases h1

/-- A voxel of the stack that no other exceeds. -/
structure Brightest (b : Arr ℝ) (Z A B pz py px : ℕ) : Prop where
  z : pz < Z
  y : py < A
  x : px < B
  max : ∀ z < Z, ∀ y < A, ∀ x < B, b.get [z, y, x] ≤ b.get [pz, py, px]

theorem argmax3 (b : Arr ℝ) (Z A B : ℕ) (hs : b.shape = [Z, A, B]) (hZ : 0 < Z) (hA : 0 < A) (hB : 0 < B) :
    ∃ k pz py px, argmax b.ravel = .ok k ∧ unravel b.shape k = [pz, py, px] ∧ Brightest b Z A B pz py px ∧
      b.ravel.getD k 0 = b.get [pz, py, px] := by
  have hl : b.ravel.length = Z * (A * B) := by rw [ravel_length, hs]; simp
  have hne : b.ravel ≠ [] := by
    intro h; rw [h] at hl
    have : 0 < Z * (A * B) := by positivity
    simp at hl; omega
  obtain ⟨k, v, hk, h1, h2, -⟩ := argmax_spec b.ravel hne
  have hkl : k < b.ravel.length := by
    by_contra hc
    rw [List.getElem?_eq_none (by omega)] at h1; cases h1
  obtain ⟨pz, py, px, hu, a1, a2, a3⟩ := unravel3 (Z := Z) (A := A) (B := B) (k := k) (by omega)
  have hv : v = b.get [pz, py, px] := by
    rw [List.getElem?_eq_getElem hkl, ravel_getElem, hs, hu] at h1
    exact (Option.some.inj h1).symm
  refine ⟨k, pz, py, px, hk, by rw [hs, hu], ⟨a1, a2, a3, fun z hz y hy x hx => ?_⟩, ?_⟩
  · have hin : InShape [z, y, x] [Z, A, B] := by simp [InShape, hz, hy, hx]
    have hf := flatten_lt hin
    rw [show [Z, A, B].prod = Z * (A * B) by simp] at hf
    have hj : flatten [Z, A, B] [z, y, x] < b.ravel.length := by omega
    have := h2 _ (b.ravel[flatten [Z, A, B] [z, y, x]]) (List.getElem?_eq_getElem hj)
    rw [ravel_getElem, hs, unravel_flatten hin] at this
    rw [← hv]; exact this
  · rw [List.getD_eq_getElem _ _ hkl, ravel_getElem, hs, hu]

theorem sliceMakerReal_spec (pz py px : ℕ) (a l : ℝ) (ha : 0 ≤ a) (hl : 0 ≤ l) : ∃ s1 s2 s3,
    sliceMakerReal [pz, py, px] [some a, some l, some l] = .ok [s1, s2, s3] ∧ SelectsWindow s1 pz (rint a) ∧ SelectsWindow s2 py (rint l) ∧
      SelectsWindow s3 px (rint l) := by
  classical
  obtain ⟨s1, e1, w1⟩ := sliceOne_spec pz (rint a) (rint_nonneg ha)
  obtain ⟨s2, e2, w2⟩ := sliceOne_spec py (rint l) (rint_nonneg hl)
  obtain ⟨s3, e3, w3⟩ := sliceOne_spec px (rint l) (rint_nonneg hl)
  refine ⟨s1, s2, s3, ?_, w1, w2, w3⟩
  unfold sliceMakerReal
  rw [if_neg (by simp), if_neg (by simp; exact ⟨ha, hl⟩)]
  simp only [List.zip_cons_cons, List.zip_nil_right, List.mapM_cons, List.mapM_nil, e1, e2, e3]
  rfl

theorem slice3 (b : Arr ℝ) (Z A B : ℕ) (hs : b.shape = [Z, A, B]) (s1 s2 s3 : Slice) :
    IsBlock b (b.slice [s1, s2, s3]) (s1.lo Z) (s2.lo A) (s3.lo B) (s1.len Z) (s2.len A) (s3.len B) := by
  constructor
  · simp [Arr.slice, hs]
  · intro z y x
    simp [Arr.slice, hs]

/-- The crop of a stack: the windows of the rounded widths around the brightest voxel, clipped to the stack. -/
theorem crop_spec (b : Arr ℝ) (Z A B : ℕ) (hs : b.shape = [Z, A, B]) (hZ : 0 < Z) (hA : 0 < A) (hB : 0 < B) (l a : ℝ) (hl : 0 ≤ l)
    (ha : 0 ≤ a) (zres res : ℝ) (mip : Bool) : ∃ pz py px oz oy ox nz ny nx c, Brightest b Z A B pz py px ∧
      Window Z oz nz pz (rint a) ∧ Window A oy ny py (rint l) ∧ Window B ox nx px (rint l) ∧ IsBlock b c oz oy ox nz ny nx ∧
      cropAndPlot b l (some a) zres res mip = psfPlot c zres res mip := by
  obtain ⟨k, pz, py, px, hk, hu, hb, -⟩ := argmax3 b Z A B hs hZ hA hB
  obtain ⟨s1, s2, s3, e, w1, w2, w3⟩ := sliceMakerReal_spec pz py px a l ha hl
  refine ⟨pz, py, px, _, _, _, _, _, _, b.slice [s1, s2, s3], hb, window_of_slice Z w1, window_of_slice A w2, window_of_slice B w3, slice3 b Z A B hs s1 s2 s3, ?_⟩
  unfold cropAndPlot
  simp only [hk, hu, e, bind, Except.bind]

/-! ## C89 -/

/-- The attributes used by the plots, as numbers. -/
structure PlotNumbers (p : Params) (w n i r z : ℚ) : Prop where
  wl : ∃ v, p.wl = some v ∧ Denotes v w
  na : ∃ v, p.na = some v ∧ Denotes v n
  ni : ∃ v, p.ni = some v ∧ Denotes v i
  res : ∃ v, p.res = some v ∧ Denotes v r
  zres : ∃ v, p.zres = some v ∧ Denotes v z

/-- The planes of a `HanserPSF` are evenly spaced (a `SheppardPSF` has no attribute `zrange`). -/
def PlanesOk (p : Params) : Prop := p.zrange = none ∨ ∃ zs, p.zrange = some (zs.map .fin) ∧ EvenlySpaced zs

theorem realAttr_of {o : Option PyVal} {q : ℚ} (h : ∃ v, o = some v ∧ Denotes v q) : realAttr o = .ok (q : ℝ) := by
  obtain ⟨v, rfl, h⟩ := h
  simp only [realAttr, attr, bind, Except.bind, pyNum_of_num h]
  rfl

theorem validate_ok {p : Params} (h : PlanesOk p) : validateZrange p.zrange = .ok () := by
  rcases h with h | ⟨zs, h, he⟩
  · rw [h]; rfl
  · rw [h, validate_iff, if_pos he]

open Classical in
/-- `plot_psf` once the checks and the arithmetic are done. -/
theorem plotPsf_run (m : Inner) {w n i r z : ℚ} (h : PlotNumbers m.params w n i r z) (hp : PlanesOk m.params) (hn : n ≠ 0) (hr : r ≠ 0)
    (mip : Bool) : m.plotPsf mip = ((m.getPSFi).1.bind fun b =>
      cropAndPlot b ((w : ℝ) / 2 / n / r * 32) (axialExtent w n i z) z r mip, (m.getPSFi).2) := by
  have hn' : (n : ℝ) ≠ 0 := by exact_mod_cast hn
  have hr' : (r : ℝ) ≠ 0 := by exact_mod_cast hr
  simp only [Inner.plotPsf, PyM.bind_apply, PyM.get_apply, PyM.lift_apply, validate_ok hp, realAttr_of h.wl, realAttr_of h.na,
    realAttr_of h.res, realAttr_of h.ni, realAttr_of h.zres, lateralExtent, if_neg hn', if_neg hr']
  rcases m.getPSFi with ⟨e | b, s⟩ <;> rfl

theorem axial_denominator {n i : ℝ} (hn : 0 < n) (hi : n ≤ i) : 0 < i - Real.sqrt (i ^ 2 - n ^ 2) := by
  have : Real.sqrt (i ^ 2 - n ^ 2) < i := by
    rw [Real.sqrt_lt' (by linarith)]
    have : 0 < n ^ 2 := by positivity
    linarith
  linarith

/-- The block shown, for the widths computed by both `plot_psf`. -/
theorem crop_region {w n i r z : ℝ} (hw : 0 ≤ w) (hn : 0 < n) (hi : n ≤ i) (hr : 0 < r) (hz : 0 < z) (b : Arr ℝ) (Z A B : ℕ)
    (hs : b.shape = [Z, A, B]) (hZ : 0 < Z) (hA : 0 < A) (hB : 0 < B) (mip : Bool) :
    ∃ (wz wl : ℤ) (pz py px oz oy ox nz ny nx : ℕ) (c : Arr ℝ),
      |16 * (w / (i - Real.sqrt (i ^ 2 - n ^ 2))) - wz * z| ≤ z / 2 ∧ |32 * (w / (2 * n)) - wl * r| ≤ r / 2 ∧
      Brightest b Z A B pz py px ∧ Window Z oz nz pz wz ∧ Window A oy ny py wl ∧ Window B ox nx px wl ∧
      IsBlock b c oz oy ox nz ny nx ∧ cropAndPlot b (w / 2 / n / r * 32) (axialExtent w n i z) z r mip = psfPlot c z r mip := by
  have hd := axial_denominator hn hi
  have hax : axialExtent w n i z = some (w / (i - Real.sqrt (i ^ 2 - n ^ 2)) / z * 16) := by
    unfold axialExtent
    rw [if_neg (by nlinarith)]
  rw [hax]
  obtain ⟨pz, py, px, oz, oy, ox, nz, ny, nx, c, c1, c2, c3, c4, c5, c6⟩ := crop_spec b Z A B hs hZ hA hB (w / 2 / n / r * 32)
    (w / (i - Real.sqrt (i ^ 2 - n ^ 2)) / z * 16) (by positivity) (by positivity) z r mip
  refine ⟨_, _, pz, py, px, oz, oy, ox, nz, ny, nx, c, ?_, ?_, c1, c2, c3, c4, c5, c6⟩
  · have := rint_nearest (w / (i - Real.sqrt (i ^ 2 - n ^ 2)) / z * 16)
    rw [show 16 * (w / (i - Real.sqrt (i ^ 2 - n ^ 2))) - (rint (w / (i - Real.sqrt (i ^ 2 - n ^ 2)) / z * 16) : ℤ) * z =
      (w / (i - Real.sqrt (i ^ 2 - n ^ 2)) / z * 16 - (rint (w / (i - Real.sqrt (i ^ 2 - n ^ 2)) / z * 16) : ℤ)) * z by
      field_simp, abs_mul, abs_of_pos hz]
    nlinarith
  · have := rint_nearest (w / 2 / n / r * 32)
    rw [show 32 * (w / (2 * n)) - (rint (w / 2 / n / r * 32) : ℤ) * r =
      (w / 2 / n / r * 32 - (rint (w / 2 / n / r * 32) : ℤ)) * r by
      field_simp, abs_mul, abs_of_pos hr]
    nlinarith

/-- C89: `plot_psf` of a PSF model with evenly spaced planes shows the block of `PSFi` around its brightest voxel: along z the number of planes
closest to `16 wl / (ni - sqrt(ni^2 - na^2))`, laterally the number of pixels closest to 32 Abbe limits `wl / (2 na)`, clipped to the stack;
the plot changes nothing that reading `PSFi` does not change. -/
theorem C89_region (m : Inner) {w n i r z : ℚ} (h : PlotNumbers m.params w n i r z) (hp : PlanesOk m.params) (hw : 0 ≤ w) (hn : 0 < n)
    (hi : n ≤ i) (hr : 0 < r) (hz : 0 < z) (b : Arr ℝ) (hb : (m.getPSFi).1 = .ok b) (Z A B : ℕ) (hs : b.shape = [Z, A, B]) (hZ : 0 < Z)
    (hA : 0 < A) (hB : 0 < B) (mip : Bool) : ∃ (wz wl : ℤ) (pz py px oz oy ox nz ny nx : ℕ) (c : Arr ℝ),
      |16 * (w / (i - Real.sqrt (i ^ 2 - n ^ 2))) - wz * z| ≤ z / 2 ∧ |32 * (w / (2 * n) : ℝ) - wl * r| ≤ r / 2 ∧
      Brightest b Z A B pz py px ∧ Window Z oz nz pz wz ∧ Window A oy ny py wl ∧ Window B ox nx px wl ∧
      IsBlock b c oz oy ox nz ny nx ∧ (m.plotPsf mip).1 = psfPlot c z r mip ∧ (m.plotPsf mip).2 = (m.getPSFi).2 := by
  rw [plotPsf_run m h hp hn.ne' hr.ne', hb]
  obtain ⟨wz, wl, pz, py, px, oz, oy, ox, nz, ny, nx, c, h1, h2, h3, h4, h5, h6, h7, h8⟩ := crop_region (w := w) (n := n) (i := i) (r := r)
    (z := z) (by exact_mod_cast hw) (by exact_mod_cast hn) (by exact_mod_cast hi) (by exact_mod_cast hr) (by exact_mod_cast hz) b Z A B hs
    hZ hA hB mip
  exact ⟨wz, wl, pz, py, px, oz, oy, ox, nz, ny, nx, c, h1, h2, h3, h4, h5, h6, h7, h8, rfl⟩

/-- C89: the panels (maximum projections, the default) of the block; with `res` below the Abbe limit and not too distant planes, the block
is not empty and contains the brightest voxel.  The exchange of the panels `YZ` and `XZ` is that of C74. -/
theorem C89_panels (m : Inner) {w n i r z : ℚ} (h : PlotNumbers m.params w n i r z) (hp : PlanesOk m.params) (hw : 0 ≤ w) (hn : 0 < n)
    (hi : n ≤ i) (hr : 0 < r) (hz : 0 < z) (habbe : r < w / (2 * n)) (hdist : z ≤ 16 * (w / (i - Real.sqrt (i ^ 2 - n ^ 2)) : ℝ))
    (b : Arr ℝ) (hb : (m.getPSFi).1 = .ok b) (Z A B : ℕ) (hs : b.shape = [Z, A, B]) (hZ : 0 < Z) (hA : 0 < A) (hB : 0 < B) :
    ∃ (wz wl : ℤ) (pz py px oz oy ox nz ny nx : ℕ) (p1 p2 p3 : Panel) (f1 f2 f3 : ℕ → ℕ → ℝ),
      1 ≤ wz ∧ 32 ≤ wl ∧ |16 * (w / (i - Real.sqrt (i ^ 2 - n ^ 2))) - wz * z| ≤ z / 2 ∧ |32 * (w / (2 * n) : ℝ) - wl * r| ≤ r / 2 ∧
      Brightest b Z A B pz py px ∧ Window Z oz nz pz wz ∧ Window A oy ny py wl ∧ Window B ox nx px wl ∧
      (oz ≤ pz ∧ pz < oz + nz) ∧ (oy ≤ py ∧ py < oy + ny) ∧ (ox ≤ px ∧ px < ox + nx) ∧
      (m.plotPsf).1 = .ok [p1, p2, p3] ∧
      Shows p1 "$XY$" (maxMin nx r) (maxMin ny r) ny nx f1 ∧ (∀ y x, IsMax nz (fun k => b.get [oz + k, oy + y, ox + x]) (f1 y x)) ∧
      Shows p2 "$YZ$" (maxMin nz z) (maxMin ny r) nx nz f2 ∧ (∀ x k, IsMax ny (fun y => b.get [oz + k, oy + y, ox + x]) (f2 x k)) ∧
      Shows p3 "$XZ$" (maxMin nx r) (maxMin nz z) nz ny f3 ∧ (∀ k y, IsMax nx (fun x => b.get [oz + k, oy + y, ox + x]) (f3 k y)) := by
  obtain ⟨wz, wl, pz, py, px, oz, oy, ox, nz, ny, nx, c, h1, h2, h3, h4, h5, h6, ⟨h7, h8⟩, h9, -⟩ :=
    C89_region m h hp hw hn hi hr hz b hb Z A B hs hZ hA hB true
  have hz' : (0 : ℝ) < z := by exact_mod_cast hz
  have hr' : (0 : ℝ) < r := by exact_mod_cast hr
  have ha' : (r : ℝ) < w / (2 * n) := by exact_mod_cast habbe
  have hwz : 1 ≤ wz := by
    by_contra hc
    have : (wz : ℝ) ≤ 0 := by exact_mod_cast (by omega : wz ≤ 0)
    have := (abs_le.mp h1).2
    nlinarith
  have hwl : 32 ≤ wl := by
    by_contra hc
    have : (wl : ℝ) ≤ 31 := by exact_mod_cast (by omega : wl ≤ 31)
    have := (abs_le.mp h2).2
    nlinarith
  have q1 := window_pos h4 h3.z hwz
  have q2 := window_pos h5 h3.y (by omega)
  have q3 := window_pos h6 h3.x (by omega)
  obtain ⟨p1, p2, p3, f1, f2, f3, k0, k1, k2, k3, k4, k5, k6⟩ := C74_psf_mip c nz ny nx h7 (by omega) (by omega) (by omega) z r
  refine ⟨wz, wl, pz, py, px, oz, oy, ox, nz, ny, nx, p1, p2, p3, f1, f2, f3, hwz, hwl, h1, h2, h3, h4, h5, h6, q1, q2, q3, ?_, k1, ?_, k3, ?_,
    k5, ?_⟩
  · rw [h9, k0]
  · intro y x; simpa only [h8] using k2 y x
  · intro x k; simpa only [h8] using k4 x k
  · intro k y; simpa only [h8] using k6 k y

/-- C89: planes that are not evenly spaced, or fewer than three of them: both plots raise `RuntimeError` and leave the model alone; the
default planes pass exactly if there are at least three.  Because of the absolute part of the tolerance, planes closer than `5e-9` units
always pass. -/
theorem C89_planes (m : Inner) (zs : List ℚ) (hzs : m.params.zrange = some (zs.map .fin)) (mip : Bool) :
    (¬ EvenlySpaced zs → m.plotPsf mip = (.error .runtimeError, m) ∧ m.plotOtf = (.error .runtimeError, m)) ∧
    (zs.length < 3 → ¬ EvenlySpaced zs) ∧
    (∀ (n : ℕ) (d : ℚ), (zs = (List.range n).map fun (k : ℕ) => ((k : ℚ) - ((n + 1) / 2 : ℕ)) * d) → (EvenlySpaced zs ↔ 3 ≤ n)) ∧
    (3 ≤ zs.length → (∀ k, k + 1 < zs.length → |zs.getD (k + 1) 0 - zs.getD k 0| ≤ 5 / 10 ^ 9) → EvenlySpaced zs) := by
  refine ⟨fun h => ?_, fun h h' => ?_, fun n d e => e ▸ default_evenly n d, evenly_of_small zs⟩
  · have hv : validateZrange m.params.zrange = .error .runtimeError := by rw [hzs, validate_iff, if_neg h]
    simp only [Inner.plotPsf, Inner.plotOtf, PyM.bind_apply, PyM.get_apply, PyM.lift_apply, hv, and_self]
  · exact absurd h'.1 (by omega)

/-- C89: an aperture above the refractive index, a negative `res`, or planes further apart than twice the axial extent (`HanserPSF` has no
upper limit for `zres`): an exception. -/
theorem C89_rejects (m : Inner) {w n i r z : ℚ} (h : PlotNumbers m.params w n i r z) (hp : PlanesOk m.params) (hw : 0 < w) (hn : 0 < n)
    (hi : 0 ≤ i) (hz : 0 < z) (b : Arr ℝ) (hb : (m.getPSFi).1 = .ok b) (Z A B : ℕ) (hs : b.shape = [Z, A, B]) (hZ : 0 < Z) (hA : 0 < A)
    (hB : 0 < B) :
    (r < 0 → (m.plotPsf).1 = .error .valueError) ∧ (0 < r → i < n → (m.plotPsf).1 = .error .assertionError) ∧
    (0 < r → n ≤ i → 32 * (w / (i - Real.sqrt (i ^ 2 - n ^ 2)) : ℝ) < z → (m.plotPsf).1 = .error .valueError) := by
  classical
  have hn' : (0 : ℝ) < n := by exact_mod_cast hn
  have hz' : (0 : ℝ) < z := by exact_mod_cast hz
  have hw' : (0 : ℝ) < w := by exact_mod_cast hw
  obtain ⟨k, pz, py, px, hk, hu, -, -⟩ := argmax3 b Z A B hs hZ hA hB
  refine ⟨fun hr => ?_, fun hr hlt => ?_, fun hr hle hd => ?_⟩
  · have hr' : (r : ℝ) < 0 := by exact_mod_cast hr
    rw [plotPsf_run m h hp hn.ne' hr.ne, hb]
    have hneg : (w : ℝ) / 2 / n / r * 32 < 0 := by
      have : (w : ℝ) / 2 / n / r < 0 := div_neg_of_pos_of_neg (by positivity) hr'
      linarith
    show cropAndPlot b _ _ _ _ _ = _
    unfold cropAndPlot sliceMakerReal
    simp only [hk, hu, bind, Except.bind]
    rw [if_neg (by simp), if_pos ⟨_, by simp, hneg⟩]
  · have hr' : (0 : ℝ) < r := by exact_mod_cast hr
    have hi' : (0 : ℝ) ≤ i := by exact_mod_cast hi
    have hlt' : (i : ℝ) < n := by exact_mod_cast hlt
    rw [plotPsf_run m h hp hn.ne' hr.ne', hb]
    have hax : axialExtent w n i z = none := by
      unfold axialExtent
      rw [if_pos (by nlinarith)]
    rw [hax]
    show cropAndPlot b _ _ _ _ _ = _
    unfold cropAndPlot sliceMakerReal
    simp only [hk, hu, bind, Except.bind]
    rw [if_neg (by simp), if_neg (by simp; positivity)]
    rfl
  · obtain ⟨wz, wl, pz, py, px, oz, oy, ox, nz, ny, nx, c, h1, h2, h3, h4, h5, h6, ⟨h7, h8⟩, h9, -⟩ :=
      C89_region m h hp hw.le hn hle hr hz b hb Z A B hs hZ hA hB true
    have hwz : wz ≤ 0 := by
      by_contra hc
      have : (1 : ℝ) ≤ wz := by exact_mod_cast (by omega : 1 ≤ wz)
      have := (abs_le.mp h1).1
      nlinarith
    have hwz' : wz = 0 := by
      by_contra hc
      have : (wz : ℝ) ≤ -1 := by exact_mod_cast (by omega : wz ≤ -1)
      have := (abs_le.mp h1).2
      have hd0 := axial_denominator hn' (show (n : ℝ) ≤ i by exact_mod_cast hle)
      have : 0 ≤ (w : ℝ) / (i - Real.sqrt (i ^ 2 - n ^ 2)) := by positivity
      nlinarith
    have hnz : nz = 0 := by
      by_contra hc
      have hin := h4.inside
      have := (h4.mem oz (by omega)).mp ⟨le_rfl, by omega⟩
      subst hwz'
      omega
    rw [h9]
    unfold psfPlot
    simp only [h7, if_true, Arr.maxAxis, List.getD_cons_zero, hnz]
    rfl

/-- C89: `plot_psf` of a microscope: the same for its `PSF`, with `pixel_size` as the distance of the pixels and also as that of the planes,
whatever `zres` is. -/
theorem C89_micro (m : Micro) {w n i r : ℚ} (hw' : ∃ v, m.model.params.wl = some v ∧ Denotes v w)
    (hn' : ∃ v, m.model.params.na = some v ∧ Denotes v n) (hi' : ∃ v, m.model.params.ni = some v ∧ Denotes v i) (hr' : Denotes m.pixelSize r)
    (hw : 0 ≤ w) (hn : 0 < n) (hi : n ≤ i) (hr : 0 < r) (b : Arr ℝ) (hb : (m.getPSF).1 = .ok b) (Z A B : ℕ) (hs : b.shape = [Z, A, B])
    (hZ : 0 < Z) (hA : 0 < A) (hB : 0 < B) (mip : Bool) : ∃ (wz wl : ℤ) (pz py px oz oy ox nz ny nx : ℕ) (c : Arr ℝ),
      |16 * (w / (i - Real.sqrt (i ^ 2 - n ^ 2))) - wz * r| ≤ r / 2 ∧ |32 * (w / (2 * n) : ℝ) - wl * r| ≤ r / 2 ∧
      Brightest b Z A B pz py px ∧ Window Z oz nz pz wz ∧ Window A oy ny py wl ∧ Window B ox nx px wl ∧
      IsBlock b c oz oy ox nz ny nx ∧ (m.plotPsf mip).1 = psfPlot c r r mip ∧ (m.plotPsf mip).2 = (m.getPSF).2 := by
  classical
  have e : m.plotPsf mip = ((m.getPSF).1.bind fun b =>
      cropAndPlot b ((w : ℝ) / 2 / n / r * 32) (axialExtent w n i r) r r mip, (m.getPSF).2) := by
    have hn'' : (n : ℝ) ≠ 0 := by exact_mod_cast hn.ne'
    have hr'' : (r : ℝ) ≠ 0 := by exact_mod_cast hr.ne'
    simp only [Micro.plotPsf, PyM.bind_apply, PyM.get_apply, PyM.lift_apply, realAttr_of hw', realAttr_of hn',
      realAttr_of ⟨_, rfl, hr'⟩, realAttr_of hi', lateralExtent, if_neg hn'', if_neg hr'']
    rcases m.getPSF with ⟨e | b, s⟩ <;> rfl
  rw [e, hb]
  obtain ⟨wz, wl, pz, py, px, oz, oy, ox, nz, ny, nx, c, h1, h2, h3, h4, h5, h6, h7, h8⟩ := crop_region (w := w) (n := n) (i := i) (r := r)
    (z := r) (by exact_mod_cast hw) (by exact_mod_cast hn) (by exact_mod_cast hi) (by exact_mod_cast hr) (by exact_mod_cast hr) b Z A B hs
    hZ hA hB mip
  exact ⟨wz, wl, pz, py, px, oz, oy, ox, nz, ny, nx, c, h1, h2, h3, h4, h5, h6, h7, h8, rfl⟩

/-! ## C90 -/

/-- The normalised image: relative to a largest modulus, not below `eps = 2^-52`. -/
theorem normalisedOtf_spec (t : Arr ℂ) (Z A B : ℕ) (hs : t.shape = [Z, A, B]) (hZ : 0 < Z) (hA : 0 < A) (hB : 0 < B) :
    ∃ img pz py px, normalisedOtf t = .ok img ∧ img.shape = [Z, A, B] ∧ Brightest (t.map fun v => ‖v‖) Z A B pz py px ∧
      ∀ idx, img.get idx = max (‖t.get idx‖ / ‖t.get [pz, py, px]‖) (1 / 2 ^ 52) := by
  obtain ⟨k, pz, py, px, hk, -, hb, hv⟩ := argmax3 (t.map fun v => ‖v‖) Z A B hs hZ hA hB
  refine ⟨(t.map fun v => ‖v‖).map fun v => max (v / ‖t.get [pz, py, px]‖) (1 / 2 ^ 52), pz, py, px, ?_, ?_, hb, ?_⟩
  · unfold normalisedOtf maxElem
    simp only [hk, bind, Except.bind, pure, Except.pure, hv]
    rfl
  · exact hs
  · intro idx; rfl

/-- What `plot_otf` shows of the transfer function `t`: three planes through zero frequency of `|t|` relative to its largest value and not
below `2^-52`. -/
def ShowsOtf (panels : List Panel) (t : Arr ℂ) (Z N : ℕ) (z r : ℝ) : Prop :=
  ∃ p1 p2 p3 kl kz M, panels = [p1, p2, p3] ∧ fftMaxMin N r = .ok kl ∧ fftMaxMin Z z = .ok kz ∧
    IsGreatest {v | ∃ a < Z, ∃ y < N, ∃ x < N, v = ‖t.get [a, y, x]‖} M ∧
    Shows p1 "$k_{XY}$" kl kl N N (fun y x => max (‖t.get [Z / 2, y, x]‖ / M) (1 / 2 ^ 52)) ∧
    Shows p2 "$k_{YZ}$" kz kl N Z (fun x a => max (‖t.get [a, N / 2, x]‖ / M) (1 / 2 ^ 52)) ∧
    Shows p3 "$k_{XZ}$" kl kz Z N (fun a y => max (‖t.get [a, y, N / 2]‖ / M) (1 / 2 ^ 52))

theorem showsOtf_of (t : Arr ℂ) (Z N : ℕ) (hs : t.shape = [Z, N, N]) (hZ : 0 < Z) (hN : 0 < N) {w n i r z : ℝ} (hw : w ≠ 0) (hi : i ≠ 0)
    (hr : r ≠ 0) (hz : z ≠ 0) : ∃ panels, ((normalisedOtf t).bind fun o => otfPlot o n i w z r) = .ok panels ∧ ShowsOtf panels t Z N z r := by
  obtain ⟨img, pz, py, px, h1, h2, h3, h4⟩ := normalisedOtf_spec t Z N N hs hZ hN hN
  obtain ⟨p1, p2, p3, kl, kz, k0, k1, k2, k3, k4, k5⟩ := C74_otf img Z N h2 hZ hN n i w z r hi hw hz hr
  simp only [h4] at k3 k4 k5
  refine ⟨_, by rw [h1]; exact k0, p1, p2, p3, kl, kz, ‖t.get [pz, py, px]‖, rfl, k1, k2, ⟨⟨pz, h3.z, py, h3.y, px, h3.x, rfl⟩, ?_⟩, k3, k4, k5⟩
  rintro v ⟨a, ha, y, hy, x, hx, rfl⟩
  exact h3.max a ha y hy x hx

/-- C90: `plot_otf` of a PSF model with evenly spaced planes shows `|OTFi|` relative to its largest value. -/
theorem C90_model (m : Inner) {w n i r z : ℚ} (h : PlotNumbers m.params w n i r z) (hp : PlanesOk m.params) (hw : w ≠ 0) (hi : i ≠ 0)
    (hr : r ≠ 0) (hz : z ≠ 0) (t : Arr ℂ) (ht : (m.getOTFi).1 = .ok t) (Z N : ℕ) (hs : t.shape = [Z, N, N]) (hZ : 0 < Z) (hN : 0 < N) :
    ∃ panels, (m.plotOtf).1 = .ok panels ∧ (m.plotOtf).2 = (m.getOTFi).2 ∧ ShowsOtf panels t Z N z r := by
  obtain ⟨panels, h1, h2⟩ := showsOtf_of t Z N hs hZ hN (w := w) (n := n) (i := i) (r := r) (z := z) (by exact_mod_cast hw)
    (by exact_mod_cast hi) (by exact_mod_cast hr) (by exact_mod_cast hz)
  have e : m.plotOtf = ((m.getOTFi).1.bind fun t => (normalisedOtf t).bind fun o => otfPlot o n i w z r, (m.getOTFi).2) := by
    simp only [Inner.plotOtf, PyM.bind_apply, PyM.get_apply, PyM.lift_apply, validate_ok hp, realAttr_of h.wl, realAttr_of h.na,
      realAttr_of h.res, realAttr_of h.ni, realAttr_of h.zres]
    rcases m.getOTFi with ⟨e | t, s⟩
    · rfl
    · simp only [Except.bind]
      rcases hn : normalisedOtf t with e | o <;> rfl
  refine ⟨panels, ?_, ?_, h2⟩
  · rw [e, ht]; exact h1
  · rw [e]

theorem micro_plotOtf (m : Micro) {w n i r : ℚ} (hw' : ∃ v, (m.getOTF).2.model.params.wl = some v ∧ Denotes v w)
    (hn' : ∃ v, (m.getOTF).2.model.params.na = some v ∧ Denotes v n) (hi' : ∃ v, (m.getOTF).2.model.params.ni = some v ∧ Denotes v i)
    (hr' : Denotes (m.getOTF).2.pixelSize r) (hw : w ≠ 0) (hi : i ≠ 0) (hr : r ≠ 0) (t : Arr ℂ) (ht : (m.getOTF).1 = .ok t) (Z N : ℕ)
    (hs : t.shape = [Z, N, N]) (hZ : 0 < Z) (hN : 0 < N) :
    ∃ panels, (m.plotOtf).1 = .ok panels ∧ (m.plotOtf).2 = (m.getOTF).2 ∧ ShowsOtf panels t Z N r r := by
  obtain ⟨panels, h1, h2⟩ := showsOtf_of t Z N hs hZ hN (w := w) (n := n) (i := i) (r := r) (z := r) (by exact_mod_cast hw)
    (by exact_mod_cast hi) (by exact_mod_cast hr) (by exact_mod_cast hr)
  rcases hg : m.getOTF with ⟨e | t', s⟩
  · rw [hg] at ht; cases ht
  rw [hg] at ht hw' hn' hi' hr'
  cases ht
  rcases hno : normalisedOtf t with e | o
  · rw [hno] at h1; cases h1
  rw [hno] at h1
  have e : m.plotOtf = (otfPlot o n i w r r, s) := by
    simp only [Micro.plotOtf, PyM.bind_apply, PyM.get_apply, PyM.lift_apply, hg, hno, realAttr_of hw', realAttr_of hn', realAttr_of hi',
      realAttr_of ⟨_, rfl, hr'⟩]
  exact ⟨panels, by rw [e]; exact h1, by rw [e], h2⟩

/-- C90: `plot_otf` of a microscope after any history, with `pixel_size` as the distance of the pixels and also as that of the planes;
unless it is a SIM the largest value is 1, so that the OTF itself is shown. -/
theorem C90_micro (m₀ : Micro) (h₀ : Constructed m₀) (ops : List UOp) (m : Micro) (hm : m = (runHistory Micro.ustep m₀ ops).2)
    {w n i r : ℚ} (hw' : ∃ v, m.model.params.wl = some v ∧ Denotes v w)
    (hn' : ∃ v, m.model.params.na = some v ∧ Denotes v n) (hi' : ∃ v, m.model.params.ni = some v ∧ Denotes v i)
    (hr' : Denotes m.pixelSize r) (hw : w ≠ 0) (hi : i ≠ 0) (hr : r ≠ 0) (t : Arr ℂ) (ht : (m.getOTF).1 = .ok t) (Z N : ℕ)
    (hs : t.shape = [Z, N, N]) (hZ : 0 < Z) (hN : 0 < N) :
    (∃ panels, (m.plotOtf).1 = .ok panels ∧ (m.plotOtf).2 = (m.getOTF).2 ∧ ShowsOtf panels t Z N r r) ∧
    (NotSIM m₀.kind → IsGreatest {v | ∃ a < Z, ∃ y < N, ∃ x < N, v = ‖t.get [a, y, x]‖} 1 ∧ ‖t.get [Z / 2, N / 2, N / 2]‖ = 1) := by
  have hl := urun_live (constructed_live h₀) ops
  rw [← hm] at hl
  have hl' := (live_of_read hl).2
  have e1 : (m.getOTF).2.model.params = m.model.params := hl'.model.params.trans hl.model.params.symm
  have e2 : (m.getOTF).2.pixelSize = m.pixelSize := hl'.pixelSize.trans hl.pixelSize.symm
  refine ⟨micro_plotOtf m (by rwa [e1]) (by rwa [e1]) (by rwa [e1]) (by rwa [e2]) hw hi hr t ht Z N hs hZ hN, fun hk => ?_⟩
  obtain ⟨-, -, -, h1, h2, -⟩ := C82_spectrum m₀ h₀ hk ops m hm t ht Z N N hs
  refine ⟨⟨⟨Z / 2, by omega, N / 2, by omega, N / 2, by omega, by rw [h1, norm_one]⟩, ?_⟩, by rw [h1, norm_one]⟩
  rintro v ⟨a, ha, y, hy, x, hx, rfl⟩
  exact h2 a ha y hy x hx

theorem spectrum_max {b : List ℕ → ℝ} {t : List ℕ → ℂ} {Z N : ℕ} (hZ : 0 < Z) (hN : 0 < N) (h : SpectrumOf b t Z N N) :
    IsGreatest {v | ∃ a < Z, ∃ y < N, ∃ x < N, v = ‖t [a, y, x]‖} ‖t [Z / 2, N / 2, N / 2]‖ := by
  refine ⟨⟨Z / 2, by omega, N / 2, by omega, N / 2, by omega, rfl⟩, ?_⟩
  rintro v ⟨a, ha, y, hy, x, hx, rfl⟩
  refine (h.le a ha y hy x hx).trans ?_
  rw [h.dc, Complex.norm_real]
  exact le_abs_self _

/-- C90: for the PSF models, after any history, the largest value is the one at zero frequency (the middle of every panel, which is 1
unless the PSF is 0 everywhere). -/
theorem C90_zero_frequency :
    (∀ (a : InitArgs) (zr : Option ZArg) (o : HObj), HObj.new a zr = .ok o → ∀ (ops : List HOp) (o' : HObj),
      o' = (runHistory HObj.step o ops).2 → ∀ (t : Arr ℂ) (Z N : ℕ), ((Inner.hanser o').getOTFi).1 = .ok t → t.shape = [Z, N, N] →
      IsGreatest {v | ∃ a < Z, ∃ y < N, ∃ x < N, v = ‖t.get [a, y, x]‖} ‖t.get [Z / 2, N / 2, N / 2]‖) ∧
    (∀ (a : InitArgs) (d : PyVal) (o : SObj), SObj.new a d = .ok o → ∀ (ops : List SOp) (o' : SObj),
      o' = (runHistory SObj.step o ops).2 → ∀ (t : Arr ℂ) (Z N : ℕ), ((Inner.sheppard o').getOTFi).1 = .ok t → t.shape = [Z, N, N] →
      0 < Z → 0 < N →
      IsGreatest {v | ∃ a < Z, ∃ y < N, ∃ x < N, v = ‖t.get [a, y, x]‖} ‖t.get [Z / 2, N / 2, N / 2]‖) := by
  constructor
  · intro a zr o ho ops o' ho' t Z N ht hs
    have hr := hrel_reachable ho ops
    rw [← ho'] at hr
    have ht' : (HObj.getOTFi o').1 = .ok t := ht
    rw [(getOTFi_rel hr).1] at ht'
    obtain ⟨b, Z', A, B, -, -, h2, h3, h4, h5, h6⟩ := C44_otfi _ t ht'
    rw [hs] at h2; cases h2
    exact spectrum_max h3 h4 h6
  · intro a d o ho ops o' ho' t Z N ht hs hZ hN
    obtain ⟨h1, h2⟩ := sheppard_ready ho
    have hrel : SRel o o.params := by rw [h2]; exact SObj.rel_cleared h1
    obtain ⟨_, h4⟩ := SObj.run_rel hrel ops
    rw [← ho'] at h4
    have ht' : (SObj.getOTFi o').1.bind nanFree = .ok t := ht
    rw [(SObj.getOTFi_rel h4).1] at ht'
    rcases hx : SSpec.OTFi (runHistory SSpec.step o.params ops).2 with e | t₀
    · rw [hx] at ht'; cases ht'
    rw [hx] at ht'
    obtain ⟨b, Z', A, B, -, -, k2, ⟨-, k3⟩ | ⟨b', t', -, k4, k5⟩⟩ := C44_sheppard_otfi _ t₀ hx
    · exfalso
      change nanFree t₀ = .ok t at ht'
      unfold nanFree at ht'
      split_ifs at ht' with hc
      cases ht'
      rw [show (t₀.map fun v => v.getD 0).shape = t₀.shape from rfl] at hs
      exact hc ⟨[0, 0, 0], by rw [hs]; simp [InShape, hZ, hN], k3 _⟩
    · change nanFree t₀ = .ok t at ht'
      unfold nanFree at ht'
      split_ifs at ht' with hc
      cases ht'
      rw [show (t₀.map fun v => v.getD 0).shape = t₀.shape from rfl, k2] at hs
      cases hs
      have e : ∀ idx, (t₀.map fun v => v.getD 0).get idx = t' idx := fun idx => by
        show (t₀.get idx).getD 0 = _
        rw [k4]; rfl
      simp only [e]
      exact spectrum_max hZ hN k5

/-! ## A concrete model -/

/-- The demo model meets the hypotheses of C89 and C90: `wl=520`, `na=0.85`, `ni=1`, `res=zres=130`, 64 default planes. -/
theorem demo_plot : ∃ (m : Inner) (b : Arr ℝ) (t : Arr ℂ), PlotNumbers m.params 520 (17/20) 1 130 130 ∧ PlanesOk m.params ∧
    (m.getPSFi).1 = .ok b ∧ b.shape = [64, 64, 64] ∧ (m.getOTFi).1 = .ok t ∧ t.shape = [64, 64, 64] := by
  obtain ⟨o, a, ho, hf, h3, ha⟩ := demo_optics
  obtain ⟨hs, -, -⟩ := psfi_amplitude _ hf h3 _ (PSFi_of ha)
  have hs : (psfiOf a).shape = [64, 64, 64] := by simpa using hs
  obtain ⟨t, ht⟩ := (C44_computable _ _ (PSFi_of ha)).mpr (by rw [hs]; simp)
  obtain ⟨b', Z, A, B, hb', hsb, hst, -⟩ := C44_otfi _ t ht
  rw [PSFi_of ha] at hb'; cases hb'
  rw [hs] at hsb; cases hsb
  have hr := hrel_reachable ho []
  simp only [runHistory] at hr
  obtain ⟨h1, h2, h2', h4, h5, h6, -⟩ := C34_hanser_attributes _ _ _ ho
  refine ⟨.hanser o, psfiOf a, t, ⟨h3.wl, h3.na, h3.ni, h3.res, ?_⟩, Or.inr ⟨_, h3.zrange, (default_evenly 64 130).mpr (by norm_num)⟩, ?_, hs, ?_, hst⟩
  · exact ⟨_, h6, by simp [demoArgs, Denotes, PyVal.num?]⟩
  · show (HObj.getPSFi o).1 = _
    rw [(getPSFi_rel hr).1, PSFi_of ha]
  · show (HObj.getOTFi o).1 = _
    rw [(getOTFi_rel hr).1, ht]

example : ∃ (m : Inner) (p1 p2 p3 : Panel), (m.plotPsf).1 = .ok [p1, p2, p3] ∧ ∃ panels, (m.plotOtf).1 = .ok panels := by
  obtain ⟨m, b, t, h1, h2, h3, h4, h5, h6⟩ := demo_plot
  have hd : ((130 : ℚ) : ℝ) ≤ 16 * (((520 : ℚ) : ℝ) / (((1 : ℚ) : ℝ) - Real.sqrt (((1 : ℚ) : ℝ) ^ 2 - ((17/20 : ℚ) : ℝ) ^ 2))) := by
    have hp := axial_denominator (n := ((17/20 : ℚ) : ℝ)) (i := ((1 : ℚ) : ℝ)) (by norm_num) (by norm_num)
    have hle : (((1 : ℚ) : ℝ) - Real.sqrt (((1 : ℚ) : ℝ) ^ 2 - ((17/20 : ℚ) : ℝ) ^ 2)) ≤ 1 := by
      have := Real.sqrt_nonneg (((1 : ℚ) : ℝ) ^ 2 - ((17/20 : ℚ) : ℝ) ^ 2)
      push_cast; linarith
    have : ((520 : ℚ) : ℝ) ≤ ((520 : ℚ) : ℝ) / (((1 : ℚ) : ℝ) - Real.sqrt (((1 : ℚ) : ℝ) ^ 2 - ((17/20 : ℚ) : ℝ) ^ 2)) := by
      rw [le_div_iff₀ hp]
      push_cast at hle ⊢
      nlinarith
    push_cast at this ⊢
    linarith
  obtain ⟨_, _, _, _, _, _, _, _, _, _, _, p1, p2, p3, _, _, _, _, _, _, _, _, _, _, _, _, _, _, hpl, -⟩ :=
    C89_panels m h1 h2 (by norm_num) (by norm_num) (by norm_num) (by norm_num) (by norm_num) (by norm_num) hd b h3 64 64 64 h4 (by norm_num)
      (by norm_num) (by norm_num)
  obtain ⟨panels, h7, -⟩ := C90_model m h1 h2 (by norm_num) (by norm_num) (by norm_num) (by norm_num) t h5 64 64 h6 (by norm_num) (by norm_num)
  exact ⟨m, p1, p2, p3, hpl, panels, h7⟩

/-- Planes that are not evenly spaced, and planes in metres that are not either but pass because of the absolute tolerance. -/
example : ¬ EvenlySpaced [0, 100, 300] ∧ EvenlySpaced [0, 1 / 10 ^ 9, 3 / 10 ^ 9] := by
  constructor
  · rintro ⟨-, h⟩
    have := h 0 (by norm_num)
    norm_num at this
  · refine evenly_of_small _ (by norm_num) fun k hk => ?_
    have : k = 0 ∨ k = 1 := by simp at hk; omega
    rcases this with rfl | rfl <;> norm_num

end PyOTF
