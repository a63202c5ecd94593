import Verif.Model.Utils
import Verif.Lemmas.Rint

/-!
# C05, C06: `slice_maker`
-/

namespace PyOTF

/-- Specification: on an axis of any length the slice selects exactly the indices `i` with
`x - w//2 ≤ i < x + (w - w//2)`; its bounds are non-negative and in order (so it is never inverted and
never interpreted as counting from the end). -/
def SelectsWindow (s : Slice) (x w : ℤ) : Prop :=
  (∀ n i : ℕ, i < n → ((s.lo n ≤ i ∧ i < s.hi n) ↔ (x - w / 2 ≤ i ∧ (i : ℤ) < x + (w - w / 2)))) ∧
  ∃ a b : ℤ, s.start = some a ∧ s.stop = some b ∧ 0 ≤ a ∧ a ≤ b

theorem sliceOne_spec (x w : ℤ) (hw : 0 ≤ w) : ∃ s, sliceOne x w = .ok s ∧ SelectsWindow s x w := by
  have hc : calcPad 0 w = (w - w / 2, w / 2) := by simp [calcPad]
  simp only [sliceOne, hc]
  rw [if_neg (by omega)]
  by_cases h : x + (w - w / 2) ≤ 0
  · simp only [if_pos h]
    refine ⟨_, rfl, fun n i hi => ?_, 0, 0, by simp, by simp, le_rfl, le_rfl⟩
    simp only [Slice.lo, Slice.hi, Option.elim, clipBound]
    simp
    omega
  · simp only [if_neg h]
    refine ⟨_, rfl, fun n i hi => ?_, max 0 (x - w / 2), x + (w - w / 2), rfl, rfl, by omega, by omega⟩
    simp only [Slice.lo, Slice.hi, Option.elim, clipBound]
    rw [if_neg (by omega), if_neg (by omega)]
    omega

theorem mapM_real (xs : List ℚ) : (xs.map Num.real).mapM Num.real? = some xs := by
  induction xs with
  | nil => rfl
  | cons x xs ih => simp [List.mapM_cons, ih, Num.real?]

theorem mapM_zip_spec : ∀ (xs ws : List ℤ), ws.length = xs.length → (∀ w ∈ ws, 0 ≤ w) →
    ∃ out, (List.zip xs ws).mapM (fun p => sliceOne p.1 p.2) = .ok out ∧
      out.length = xs.length ∧
      ∀ k (h1 : k < out.length) (h2 : k < xs.length) (h3 : k < ws.length),
        SelectsWindow out[k] xs[k] ws[k]
  | [], [], _, _ => ⟨[], rfl, rfl, fun k h => by simp at h⟩
  | [], _ :: _, h, _ => by simp at h
  | _ :: _, [], h, _ => by simp at h
  | x :: xs, w :: ws, h, hw => by
    obtain ⟨s, h1, h2⟩ := sliceOne_spec x w (hw w (by simp))
    obtain ⟨out, k1, k2, k3⟩ := mapM_zip_spec xs ws (by simpa using h)
      (fun w hm => hw w (by simp [hm]))
    refine ⟨s :: out, ?_, by simp [k2], ?_⟩
    · simp only [List.zip_cons_cons, List.mapM_cons, h1, k1]
      rfl
    · intro k a1 a2 a3
      cases k with
      | zero => simpa using h2
      | succ k => simpa using k3 k (by simpa using a1) (by simpa using a2) (by simpa using a3)

/-- C05: for real centres and non-negative real widths `slice_maker` returns one slice per centre and
each one selects exactly the window around the rounded centre with the rounded width.  In particular the
internal assertion never fails. -/
theorem C05_slice_maker_window (xs ws : List ℚ) (hlen : ws.length = xs.length)
    (hw : ∀ w ∈ ws, 0 ≤ w) :
    ∃ out, sliceMaker (xs.map .real) (.seq (ws.map .real)) = .ok out ∧ out.length = xs.length ∧
      ∀ k (_ : k < out.length) (_ : k < xs.length) (_ : k < ws.length),
        SelectsWindow out[k] (rint xs[k]) (rint ws[k]) := by
  obtain ⟨out, h1, h2, h3⟩ := mapM_zip_spec (xs.map rint) (ws.map rint) (by simpa using hlen)
    (by
      intro w hm
      obtain ⟨q, hq, rfl⟩ := List.mem_map.mp hm
      exact rint_nonneg (hw q hq))
  refine ⟨out, ?_, by simpa using h2, ?_⟩
  · simp only [sliceMaker, normalizeSequence, List.length_map, hlen, if_true, bind, Except.bind,
      mapM_real]
    rw [if_neg, h1]
    simp only [List.any_eq_true, decide_eq_true_eq, not_exists, not_and, not_lt]
    exact hw
  · intro k a1 a2 a3
    have := h3 k a1 (by simpa using a2) (by simpa using a3)
    rwa [List.getElem_map, List.getElem_map] at this

/-- C05: the rounding used is "nearest, ties to even" – and these two facts determine it. -/
theorem C05_rounding_half_even (x : ℚ) (m : ℤ) :
    rint x = m ↔ |x - m| ≤ 1 / 2 ∧ (|x - m| = 1 / 2 → m % 2 = 0) :=
  ⟨fun h => h ▸ ⟨rint_nearest x, rint_tie_even x⟩, fun h => rint_unique x m h.1 h.2⟩

/-- Non-vacuity: centre 2.5 (rounds to 2), width 5, gives `slice(0, 5)`. -/
example : sliceMaker [.real (5 / 2)] (.seq [.real 5]) = .ok [⟨some 0, some 5⟩] := by
  have e1 : rint (5 / 2 : ℚ) = 2 := by
    rw [C05_rounding_half_even]; constructor <;> norm_num
  have e2 : rint (5 : ℚ) = 5 := by exact_mod_cast rint_natCast (K := ℚ) 5
  simp [sliceMaker, normalizeSequence, Num.real?, bind, Except.bind, e1, e2, sliceOne, calcPad,
    pure, Except.pure]

/-! ## C06 -/

/-- C06: a scalar width is used for every axis. -/
theorem C06_scalar_width (xs : List Num) (w : Num) :
    sliceMaker xs (.scalar w) = sliceMaker xs (.seq (List.replicate xs.length w)) := by
  simp [sliceMaker, normalizeSequence]

/-- C06: a width sequence of the wrong length is a `RuntimeError`. -/
theorem C06_length_mismatch (xs ws : List Num) (h : ws.length ≠ xs.length) :
    sliceMaker xs (.seq ws) = .error .runtimeError := by
  simp [sliceMaker, normalizeSequence, h, bind, Except.bind]

theorem mapM_cplx (xs : List Num) (h : ∃ x ∈ xs, ∀ q, x ≠ .real q) : xs.mapM Num.real? = none := by
  induction xs with
  | nil => simp at h
  | cons x xs ih =>
    cases x with
    | cplx re im => simp [List.mapM_cons, Num.real?]
    | real q =>
      have : ∃ x ∈ xs, ∀ q, x ≠ .real q := by
        obtain ⟨y, hy, hq⟩ := h
        rcases List.mem_cons.mp hy with rfl | hy
        · exact absurd rfl (hq q)
        · exact ⟨y, hy, hq⟩
      simp [List.mapM_cons, Num.real?, ih this]

/-- C06: complex input is a `TypeError`. -/
theorem C06_complex (xs ws : List Num) (h : ws.length = xs.length)
    (hc : ∃ x ∈ xs ++ ws, ∀ q, x ≠ .real q) :
    sliceMaker xs (.seq ws) = .error .typeError := by
  simp only [sliceMaker, normalizeSequence, h, if_true, bind, Except.bind]
  obtain ⟨x, hx, hq⟩ := hc
  rcases List.mem_append.mp hx with hx | hx
  · rw [mapM_cplx xs ⟨x, hx, hq⟩]
  · rw [mapM_cplx ws ⟨x, hx, hq⟩]
    cases xs.mapM Num.real? <;> rfl

/-- C06: a negative width is a `ValueError`. -/
theorem C06_negative_width (xs ws : List ℚ) (h : ws.length = xs.length) (hn : ∃ w ∈ ws, w < 0) :
    sliceMaker (xs.map .real) (.seq (ws.map .real)) = .error .valueError := by
  simp only [sliceMaker, normalizeSequence, List.length_map, h, if_true, bind, Except.bind, mapM_real]
  rw [if_pos]
  simpa using hn

/-- C06: everything else is accepted – `slice_maker` succeeds exactly on real centres with equally many
(or one scalar) non-negative real widths. -/
theorem C06_accepts_iff (xs ws : List Num) :
    (∃ out, sliceMaker xs (.seq ws) = .ok out) ↔
      ws.length = xs.length ∧ (∀ x ∈ xs, ∃ q, x = .real q) ∧ ∀ w ∈ ws, ∃ q, 0 ≤ q ∧ w = .real q := by
  have lift : ∀ l : List Num, (∀ x ∈ l, ∃ q, x = .real q) → ∃ qs : List ℚ, l = qs.map .real := by
    intro l
    induction l with
    | nil => intro _; exact ⟨[], rfl⟩
    | cons x l ih =>
      intro h
      obtain ⟨qs, rfl⟩ := ih fun y hy => h y (by simp [hy])
      obtain ⟨q, rfl⟩ := h x (by simp)
      exact ⟨q :: qs, rfl⟩
  constructor
  · rintro ⟨out, ho⟩
    have hlen : ws.length = xs.length := by
      by_contra hne
      rw [C06_length_mismatch xs ws hne] at ho
      cases ho
    have hreal : ∀ x ∈ xs ++ ws, ∃ q, x = .real q := by
      by_contra hc
      push Not at hc
      rw [C06_complex xs ws hlen hc] at ho
      cases ho
    obtain ⟨qx, rfl⟩ := lift xs fun x hx => hreal x (by simp [hx])
    obtain ⟨qw, rfl⟩ := lift ws fun x hx => hreal x (by simp [hx])
    refine ⟨hlen, fun x hx => hreal x (List.mem_append_left _ hx), fun w hw => ?_⟩
    obtain ⟨q, hq, rfl⟩ := List.mem_map.mp hw
    refine ⟨q, ?_, rfl⟩
    by_contra hneg
    rw [C06_negative_width qx qw (by simpa using hlen) ⟨q, hq, not_le.mp hneg⟩] at ho
    cases ho
  · rintro ⟨hlen, hx, hw⟩
    obtain ⟨qx, rfl⟩ := lift xs hx
    obtain ⟨qw, rfl⟩ := lift ws fun w h => (hw w h).imp fun _ => And.right
    obtain ⟨out, h, -⟩ := C05_slice_maker_window qx qw (by simpa using hlen) fun w hm => by
      obtain ⟨q, hq, e⟩ := hw (.real w) (List.mem_map.mpr ⟨w, hm, rfl⟩)
      cases e
      exact hq
    exact ⟨out, h⟩

/-- Non-vacuity of the rejection cases. -/
example : sliceMaker [.real 3, .cplx 1 2] (.scalar (.real 2)) = .error .typeError ∧
    sliceMaker [.real 3, .real 4] (.seq [.real 2]) = .error .runtimeError ∧
    sliceMaker [.real 3] (.seq [.real (-1)]) = .error .valueError :=
  ⟨by rw [C06_scalar_width]; exact C06_complex _ _ rfl ⟨.cplx 1 2, by simp, by simp⟩,
   C06_length_mismatch _ _ (by simp), C06_negative_width [3] [-1] rfl ⟨-1, by simp, by norm_num⟩⟩

end PyOTF
