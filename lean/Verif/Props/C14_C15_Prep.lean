import Verif.Props.C01_C04_Pad
import Verif.Props.C05_C06_SliceMaker
import Verif.Props.C10_C13_Basics
import Mathlib.Tactic.IntervalCases

/-!
# C14, C15: `prep_data_for_PR`
-/

namespace PyOTF

theorem aligned_self_iff : ∀ {s i j : List ℕ}, i.length = s.length → j.length = s.length →
    (Aligned s s i j ↔ i = j)
  | [], [], [], _, _ => by simp [Aligned]
  | n :: s, x :: i, y :: j, h1, h2 => by
    have := aligned_self_iff (s := s) (i := i) (j := j) (by simpa using h1) (by simpa using h2)
    simp only [Aligned, this, List.cons.injEq, and_congr_left_iff]
    intro _; omega
  | [], _ :: _, _, h, _ => by simp at h
  | [], [], _ :: _, _, h => by simp at h
  | _ :: _, [], _, h, _ => by simp at h
  | _ :: _, _ :: _, [], _, h => by simp at h

/-- C14: if `xysize` is omitted or at least both lateral sizes, the result is `(nz, xysize, xysize)`, has
no negative value, equals `max(0, data - multiplier*mode)` inside the aligned window and 0 elsewhere. -/
theorem C14_prep_pad (data : Arr ℤ) (xysize : Option ℕ) (k : ℝ) (nz ny nx : ℕ)
    (hs : data.shape = [nz, ny, nx]) (hne : 0 ∉ data.shape)
    (hn : ∀ i, InShape i data.shape → 0 ≤ data.get i)
    (hxy : max ny nx ≤ xysize.getD (max ny nx)) :
    ∃ b m, prepDataForPR data xysize k = .ok b ∧ IsMode data.ravel m ∧
      b.shape = [nz, xysize.getD (max ny nx), xysize.getD (max ny nx)] ∧
      (∀ i, InShape i b.shape → 0 ≤ b.get i) ∧
      (∀ i j, InShape i b.shape → InShape j data.shape → Aligned data.shape b.shape i j →
        b.get i = max 0 (data.get j - k * m)) ∧
      (∀ i, InShape i b.shape → (∀ j, InShape j data.shape → ¬ Aligned data.shape b.shape i j) →
        b.get i = 0) := by
  obtain ⟨bg, m, h1, h2, h3, h4⟩ := C12_remove_bg data k hne hn
  set s := xysize.getD (max ny nx) with hsdef
  by_cases hcase : s = ny ∧ ny = nx
  · refine ⟨bg.map (max 0), m, ?_, h2, ?_, fun i _ => le_max_left _ _, ?_, ?_⟩
    · simp only [prepDataForPR, hs, h1, bind, Except.bind, ← hsdef, if_pos hcase]; rfl
    · simp only [Arr.map, h3, hs]
      rw [hcase.1, ← hcase.2]
    · intro i j hi hj hal
      have hsh : (bg.map (max 0)).shape = data.shape := h3
      rw [hsh] at hal hi
      rw [(aligned_self_iff hi.length hj.length).mp hal]
      simp only [Arr.map, h4]
    · intro i hi hno
      have hsh : (bg.map (max 0)).shape = data.shape := h3
      rw [hsh] at hi hno
      exact absurd ((aligned_self_iff hi.length hi.length).mpr rfl) (hno i hi)
  · have hbs : bg.shape = [nz, ny, nx] := h3.trans hs
    have hreq : requested bg.shape [some nz, some s, some s] = [nz, s, s] := by
      rw [hbs]; rfl
    have hp := fftPad_seq id bg [some nz, some s, some s] .constant (by simp [hbs]) (by simp [hbs])
      (.inl rfl)
    rw [hreq] at hp
    have hps : (padTo bg [nz, s, s] .constant).shape = [nz, s, s] :=
      padTo_shape _ _ _ (by simp [hbs])
    refine ⟨(padTo bg [nz, s, s] .constant).map (max 0), m, ?_, h2, hps,
      fun i _ => le_max_left _ _, ?_, ?_⟩
    · simp only [prepDataForPR, hs, h1, bind, Except.bind, ← hsdef, if_neg hcase, if_pos hxy, hp]; rfl
    · intro i j hi hj hal
      rw [show ((padTo bg [nz, s, s] .constant).map (max 0)).shape = [nz, s, s] from hps] at hi hal
      simp only [Arr.map]
      rw [padTo_get_aligned bg _ _ (by simp [hbs]) i j hi (by rw [h3]; exact hj)
        (by rw [h3]; exact hal), h4]
    · intro i hi hno
      rw [show ((padTo bg [nz, s, s] .constant).map (max 0)).shape = [nz, s, s] from hps] at hi hno
      simp only [Arr.map]
      rw [padTo_get_outside bg _ (by simp [hbs]) i hi (by rw [h3]; exact hno), max_self]

/-- Non-vacuity of C14: a 2×3×4 stack without `xysize` becomes 2×4×4. -/
example (g : List ℕ → ℕ) : ∃ b, prepDataForPR ⟨[2, 3, 4], fun i => (g i : ℤ)⟩ none (3 / 2) = .ok b ∧
    b.shape = [2, 4, 4] := by
  obtain ⟨b, m, h1, -, h2, -⟩ := C14_prep_pad ⟨[2, 3, 4], fun i => (g i : ℤ)⟩ none (3 / 2) 2 3 4 rfl
    (by simp) (fun i _ => by simp) (by simp)
  exact ⟨b, h1, by simpa using h2⟩

/-! ## C15 -/

theorem sliceOne_nat (x w : ℕ) :
    sliceOne x w = .ok ⟨some (max 0 ((x : ℤ) - (w / 2 : ℕ))), some ((x + (w - w / 2) : ℕ) : ℤ)⟩ := by
  have hc : calcPad 0 (w : ℤ) = (w - (w : ℤ) / 2, (w : ℤ) / 2) := by simp [calcPad]
  simp only [sliceOne, hc]
  rw [if_neg (by omega)]
  by_cases h : (x : ℤ) + (w - (w : ℤ) / 2) ≤ 0
  · simp only [if_pos h]
    congr 3 <;> omega
  · simp only [if_neg h]
    congr 3; omega

theorem sliceMaker_two (a b w : ℕ) :
    sliceMaker [.real (a : ℕ), .real (b : ℕ)] (.scalar (.real (w : ℕ))) =
      .ok [⟨some (max 0 ((a : ℤ) - (w / 2 : ℕ))), some ((a + (w - w / 2) : ℕ) : ℤ)⟩,
        ⟨some (max 0 ((b : ℤ) - (w / 2 : ℕ))), some ((b + (w - w / 2) : ℕ) : ℤ)⟩] := by
  have hnn : ¬ ((w : ℚ) < 0) := not_lt.mpr (Nat.cast_nonneg w)
  simp [sliceMaker, normalizeSequence, Num.real?, bind, Except.bind, hnn, rint_natCast, sliceOne_nat,
    pure, Except.pure, List.replicate_succ]

/-- First index of the crop window on an axis of length `n`. -/
def cropStart (n s : ℕ) : ℕ := (n + 1) / 2 - s / 2

/-- The number of rows/columns that the crop keeps of an axis of length `n`. -/
def cropLen (n s : ℕ) : ℕ := min n ((n + 1) / 2 + (s - s / 2)) - cropStart n s

theorem prep_crop (data : Arr ℤ) (s : ℕ) (k : ℝ) (nz ny nx : ℕ)
    (hs : data.shape = [nz, ny, nx]) (hne : 0 ∉ data.shape)
    (hn : ∀ i, InShape i data.shape → 0 ≤ data.get i) (hlt : s < max ny nx) :
    ∃ bg c b, removeBg data k = .ok bg ∧ centerData bg = .ok c ∧
      prepDataForPR data (some s) k = .ok b ∧ b.shape = [nz, cropLen ny s, cropLen nx s] ∧
      ∀ z y x, b.get [z, y, x] = c.get [z, cropStart ny s + y, cropStart nx s + x] := by
  obtain ⟨bg, m, h1, h2, h3, h4⟩ := C12_remove_bg data k hne hn
  obtain ⟨c, mm, c1, c2, -⟩ := C11_center_data bg (by rw [h3]; exact hne)
  have hcs : c.shape = [nz, ny, nx] := by rw [c2, h3, hs]
  refine ⟨bg, c, c.sliceTrailing
    [⟨some (max 0 ((((ny + 1) / 2 : ℕ) : ℤ) - (s / 2 : ℕ))), some (((ny + 1) / 2 + (s - s / 2) : ℕ) : ℤ)⟩,
     ⟨some (max 0 ((((nx + 1) / 2 : ℕ) : ℤ) - (s / 2 : ℕ))), some (((nx + 1) / 2 + (s - s / 2) : ℕ) : ℤ)⟩],
    h1, c1, ?_, ?_, ?_⟩
  · simp only [prepDataForPR, hs, h1, bind, Except.bind, Option.getD_some]
    rw [if_neg (by omega), if_neg (by omega), sliceMaker_two, c1]
    rfl
  · simp only [Arr.sliceTrailing, Arr.slice, hcs, Slice.len, Slice.lo, Slice.hi]
    simp [Slice.all, cropLen, cropStart, List.replicate_succ]
    constructor <;> (simp only [clipBound]; split_ifs <;> omega)
  · intro z y x
    simp only [Arr.sliceTrailing, Arr.slice, hcs, Slice.lo]
    simp [Slice.all, cropStart, List.replicate_succ]
    congr 3
    · simp only [clipBound]; split_ifs <;> omega
    · congr 1; simp only [clipBound]; split_ifs <;> omega

/-- C15: if `xysize` is smaller than both lateral sizes the result has shape `(nz, xysize, xysize)` and is
a window of the centred, background-subtracted data.  The values are those of the data: nothing is
clipped at zero. -/
theorem C15_prep_crop (data : Arr ℤ) (s : ℕ) (k : ℝ) (nz ny nx : ℕ)
    (hs : data.shape = [nz, ny, nx]) (hne : 0 ∉ data.shape)
    (hn : ∀ i, InShape i data.shape → 0 ≤ data.get i) (hy : s < ny) (hx : s < nx) :
    ∃ bg c b, removeBg data k = .ok bg ∧ centerData bg = .ok c ∧
      prepDataForPR data (some s) k = .ok b ∧ b.shape = [nz, s, s] ∧
      ∀ z y x, b.get [z, y, x] = c.get [z, (ny + 1) / 2 - s / 2 + y, (nx + 1) / 2 - s / 2 + x] := by
  obtain ⟨bg, c, b, h1, h2, h3, h4, h5⟩ := prep_crop data s k nz ny nx hs hne hn (by omega)
  refine ⟨bg, c, b, h1, h2, h3, ?_, h5⟩
  rw [h4]
  simp only [cropLen, cropStart]
  congr 2 <;> [skip; congr 1] <;> omega

/-- C15: where the peak goes.  In the result the maximum of the stack sits at `s//2` on axes of even
length but at `s//2 - 1` on axes of odd length. -/
theorem C15_prep_crop_peak (data : Arr ℤ) (s : ℕ) (k : ℝ) (nz ny nx : ℕ)
    (hs : data.shape = [nz, ny, nx]) (hne : 0 ∉ data.shape)
    (hn : ∀ i, InShape i data.shape → 0 ≤ data.get i) (hy : s < ny) (hx : s < nx) (h2 : 2 ≤ s) :
    ∃ b bg, prepDataForPR data (some s) k = .ok b ∧ removeBg data k = .ok bg ∧
      ∀ i, InShape i data.shape → bg.get i ≤ b.get [nz / 2, s / 2 - ny % 2, s / 2 - nx % 2] := by
  obtain ⟨bg, c, b, h1, h3, h4, -, h5⟩ := C15_prep_crop data s k nz ny nx hs hne hn hy hx
  obtain ⟨bg', m', g1, -, g3, -⟩ := C12_remove_bg data k hne hn
  rw [h1] at g1; cases g1
  obtain ⟨c', m, c1, c2, c3, c4, -, c6, -⟩ := C11_center_data bg (by rw [g3]; exact hne)
  rw [h3] at c1; cases c1
  refine ⟨b, bg, h4, h1, fun i hi => ?_⟩
  rw [h5]
  have hc : fftCentre bg.shape = [nz / 2, ny / 2, nx / 2] := by rw [g3, hs]; rfl
  rw [hc] at c6
  rw [show (ny + 1) / 2 - s / 2 + (s / 2 - ny % 2) = ny / 2 by omega,
    show (nx + 1) / 2 - s / 2 + (s / 2 - nx % 2) = nx / 2 by omega, c6]
  exact c4 i (by rw [g3]; exact hi)

/-- C15: the result is not square when exactly one lateral size exceeds `xysize` and the other one is
smaller than it, or equal to it and odd (one sample is lost). -/
theorem C15_prep_crop_not_square (data : Arr ℤ) (s : ℕ) (k : ℝ) (nz ny nx : ℕ)
    (hs : data.shape = [nz, ny, nx]) (hne : 0 ∉ data.shape)
    (hn : ∀ i, InShape i data.shape → 0 ≤ data.get i)
    (hx : s < nx) (hy : ny < s ∨ (ny = s ∧ s % 2 = 1)) :
    ∃ b ny', prepDataForPR data (some s) k = .ok b ∧ b.shape = [nz, ny', s] ∧ ny' < s := by
  obtain ⟨bg, c, b, -, -, h3, h4, -⟩ := prep_crop data s k nz ny nx hs hne hn (by omega)
  refine ⟨b, cropLen ny s, h3, ?_, ?_⟩
  · rw [h4]; simp only [cropLen, cropStart]; congr 3; omega
  · simp only [cropLen, cropStart]; omega

/-- C15: negative values survive the crop.  A
1×4×4 stack, background 7, peak 9, cropped to 2×2 with multiplier 1, contains 3 - 7 = -4. -/
theorem C15_prep_crop_negative :
    ∃ b, prepDataForPR ⟨[1, 4, 4], fun i => [7, 7, 7, 7, 7, 3, 7, 7, 7, 7, 9, 7, 7, 7, 7, 7].getD
        (i.getD 1 0 * 4 + i.getD 2 0) 0⟩ (some 2) 1 = .ok b ∧ b.get [0, 0, 0] = -4 := by
  set data : Arr ℤ := ⟨[1, 4, 4], fun i => [7, 7, 7, 7, 7, 3, 7, 7, 7, 7, 9, 7, 7, 7, 7, 7].getD
        (i.getD 1 0 * 4 + i.getD 2 0) 0⟩ with hdata
  have hnn : ∀ i, InShape i data.shape → 0 ≤ data.get i := by
    intro i hi
    have : ∀ n : ℕ, (0 : ℤ) ≤ [7, 7, 7, 7, 7, 3, 7, 7, 7, 7, 9, 7, 7, 7, 7, 7].getD n 0 := by
      intro n
      by_cases h : n < 16
      · interval_cases n <;> decide
      · rw [List.getD_eq_default _ _ (by simpa using h)]
    exact this _
  obtain ⟨bg, c, b, h1, h3, h4, -, h5⟩ := C15_prep_crop data 2 1 1 4 4 rfl (by simp [hdata]) hnn
    (by norm_num) (by norm_num)
  refine ⟨b, h4, ?_⟩
  rw [h5]
  obtain ⟨bg', m', g1, g2, g3, g4⟩ := C12_remove_bg data 1 (by simp [hdata]) hnn
  rw [h1] at g1; cases g1
  have hm7 : IsMode data.ravel 7 := by
    rw [show data.ravel = [7, 7, 7, 7, 7, 3, 7, 7, 7, 7, 9, 7, 7, 7, 7, 7] from by decide]
    refine ⟨by simp, fun v => ?_, fun v hv => ?_⟩ <;>
      simp only [List.count_cons, List.count_nil, beq_iff_eq] <;> split_ifs <;> omega
  have hm' := C12_mode_unique _ _ _ g2 hm7
  obtain ⟨c', m, c1, c2, c3, c4, -, -, c7⟩ := C11_center_data bg (by rw [g3]; simp [hdata])
  rw [h3] at c1; cases c1
  have hsh : bg.shape = [1, 4, 4] := g3
  -- the maximum is the 9 at [0, 2, 2]
  have hmax : m = [0, 2, 2] := by
    have h9 := c4 [0, 2, 2] (by rw [hsh]; exact .cons (by norm_num) (.cons (by norm_num) (.cons (by norm_num) .nil)))
    rw [g4, g4] at h9
    have h9' : data.get [0, 2, 2] ≤ data.get m := by
      have : ((data.get [0, 2, 2] : ℤ) : ℝ) ≤ data.get m := by linarith
      exact_mod_cast this
    rw [hsh] at c3
    have hmem := mem_indices.mpr c3
    clear_value data
    subst hdata
    revert h9' hmem
    generalize m = m
    have : ∀ m ∈ indices [1, 4, 4], ([7, 7, 7, 7, 7, 3, 7, 7, 7, 7, 9, 7, 7, 7, 7, 7].getD (2 * 4 + 2) 0 : ℤ)
      ≤ [7, 7, 7, 7, 7, 3, 7, 7, 7, 7, 9, 7, 7, 7, 7, 7].getD (m.getD 1 0 * 4 + m.getD 2 0) 0 → m = [0, 2, 2] := by
      decide
    exact fun a b => this m a b
  rw [c7 _ (by rw [hsh]; exact .cons (by norm_num) (.cons (by norm_num) (.cons (by norm_num) .nil))),
    hmax, hsh, g4, hm']
  have : data.get (cyclicSource [1, 4, 4] [0, 2, 2] [0, (4 + 1) / 2 - 2 / 2 + 0, (4 + 1) / 2 - 2 / 2 + 0]) = 3 := by
    decide
  rw [this]; norm_num

/-- Non-vacuity of C15: a 2×5×6 stack cropped to 3×3. -/
example (g : List ℕ → ℕ) : ∃ b, prepDataForPR ⟨[2, 5, 6], fun i => (g i : ℤ)⟩ (some 3) 1 = .ok b ∧
    b.shape = [2, 3, 3] := by
  obtain ⟨_, _, b, -, -, h, h', -⟩ := C15_prep_crop ⟨[2, 5, 6], fun i => (g i : ℤ)⟩ 3 1 2 5 6 rfl
    (by simp) (fun i _ => by simp) (by norm_num) (by norm_num)
  exact ⟨b, h, h'⟩

end PyOTF
