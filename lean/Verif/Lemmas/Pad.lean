import Verif.Model.Utils
import Verif.Spec.Pad

namespace PyOTF

theorem calcPad_eq (o n : ℤ) : ∃ p1 p2, calcPad o n = (p1, p2) ∧
    ((o % 2 = 0 ∧ p1 = (n - o) - (n - o) / 2 ∧ p2 = (n - o) / 2) ∨
     (o % 2 = 1 ∧ p1 = (n - o) / 2 ∧ p2 = (n - o) - (n - o) / 2)) := by
  by_cases ho : o % 2 = 0
  · exact ⟨_, _, by simp only [calcPad]; rw [if_neg (by omega)], Or.inl ⟨ho, rfl, rfl⟩⟩
  · exact ⟨_, _, by simp only [calcPad]; rw [if_pos ho], Or.inr ⟨by omega, rfl, rfl⟩⟩

/-- Everything needed about one axis of `fft_pad`. -/
theorem pad_axis (o n : ℕ) :
    let p := calcPad o n
    let c := calcCrop p.1 p.2
    (max p.1 0).toNat + c.len o + (max p.2 0).toNat = n ∧
    (((max p.1 0).toNat : ℕ) : ℤ) - (c.lo o : ℤ) = ((n : ℤ) + 1) / 2 - ((o : ℤ) + 1) / 2 ∧
    c.lo o + c.len o ≤ o ∧
    (n < o → (max p.1 0).toNat = 0 ∧ c.len o = n) ∧
    (o ≤ n → c.lo o = 0 ∧ c.len o = o) := by
  obtain ⟨p1, p2, h, hp⟩ := calcPad_eq o n
  simp only [h]
  have habs : p1 < 0 → |p1| = -p1 := fun h => abs_of_neg h
  by_cases h1 : p1 < 0 <;> by_cases h2 : p2 < 0 <;>
    simp only [calcCrop, h1, h2, if_true, if_false, Slice.len, Slice.lo, Slice.hi, Option.elim,
      clipBound] <;>
    (try rw [habs h1]) <;>
    (try split_ifs) <;> first | omega | (refine ⟨?_, ?_, ?_, ?_, ?_⟩ <;> first | omega | (intros; refine ⟨?_, ?_⟩ <;> trivial))

/-- Clipped pad widths of one axis. -/
def padW (o n : ℕ) : ℕ × ℕ :=
  ((max (calcPad o n).1 0).toNat, (max (calcPad o n).2 0).toNat)

/-- Crop slice of one axis. -/
def padC (o n : ℕ) : Slice := calcCrop (calcPad o n).1 (calcPad o n).2

theorem paddingSlices_eq (old : List ℕ) (new : List (Option ℕ)) (h : new.length = old.length) :
    paddingSlices old new =
      (List.zipWith padW old (requested old new), List.zipWith padC old (requested old new)) := by
  induction old generalizing new with
  | nil => cases new <;> simp_all [paddingSlices, rawPadding, requested]
  | cons o old ih =>
    cases new with
    | nil => simp at h
    | cons n new =>
      have := ih new (by simpa using h)
      simp only [paddingSlices, rawPadding, requested, Prod.mk.injEq] at this
      cases n <;>
        simp [paddingSlices, rawPadding, requested, padW, padC, this]

theorem slice_shape_full {α : Type} (sl : List Slice) (a : Arr α) (h : sl.length = a.shape.length) :
    (a.slice sl).shape = List.zipWith (fun (s : Slice) n => s.len n) sl a.shape := by
  simp [Arr.slice, h]

theorem slice_get_full {α : Type} (sl : List Slice) (a : Arr α) (h : sl.length = a.shape.length)
    (idx : List ℕ) :
    (a.slice sl).get idx = a.get (List.zipWith (fun (i lo : ℕ) => lo + i) idx
      (List.zipWith (fun (s : Slice) n => s.lo n) sl a.shape)) := by
  simp [Arr.slice, h]

theorem padW_facts (o n : ℕ) :
    (padW o n).1 + (padC o n).len o + (padW o n).2 = n ∧
    (((padW o n).1 : ℕ) : ℤ) - ((padC o n).lo o : ℤ) = ((n : ℤ) + 1) / 2 - ((o : ℤ) + 1) / 2 ∧
    (padC o n).lo o + (padC o n).len o ≤ o ∧
    (n < o → (padW o n).1 = 0 ∧ (padC o n).len o = n) ∧
    (o ≤ n → (padC o n).lo o = 0 ∧ (padC o n).len o = o) := pad_axis o n

/-- The array `fft_pad` builds once the shape is normalised. -/
def padTo {α : Type} [Zero α] (a : Arr α) (new : List ℕ) (mode : PadMode α) : Arr α :=
  (a.slice (List.zipWith padC a.shape new)).pad (List.zipWith padW a.shape new) mode

theorem padTo_shape {α : Type} [Zero α] (a : Arr α) (new : List ℕ) (mode : PadMode α)
    (h : new.length = a.shape.length) : (padTo a new mode).shape = new := by
  have hl : (List.zipWith padC a.shape new).length = a.shape.length := by simp [h]
  simp only [padTo, Arr.pad, slice_shape_full _ _ hl]
  clear hl
  obtain ⟨old, g⟩ := a
  simp only at h ⊢
  clear g
  induction old generalizing new with
  | nil => cases new <;> simp_all
  | cons o old ih =>
    cases new with
    | nil => simp at h
    | cons n new =>
      simp [ih new (by simpa using h), (padW_facts o n).1]

/-- Correspondence of indices: an in-range index of the padded array either is inside and then is
aligned with an old index, or has no aligned in-range old index. -/
theorem padTo_index (old new idx : List ℕ) (h : InShape idx new) (hl : new.length = old.length) :
    let w := List.zipWith padW old new
    let c := List.zipWith padC old new
    let sh := List.zipWith (fun (s : Slice) n => s.len n) c old
    let src := List.zipWith (fun (i lo : ℕ) => lo + i)
      (List.zipWith (fun i (p : ℕ × ℕ) => i - p.1) idx w)
      (List.zipWith (fun (s : Slice) n => s.lo n) c old)
    (insideB idx (w.map Prod.fst) sh = true → InShape src old ∧ Aligned old new idx src) ∧
    (∀ j, InShape j old → Aligned old new idx j → insideB idx (w.map Prod.fst) sh = true ∧ src = j) := by
  induction old generalizing new idx with
  | nil =>
    cases new with
    | nil =>
      cases h
      refine ⟨fun _ => ⟨.nil, trivial⟩, fun j hj _ => ?_⟩
      cases hj
      simp [insideB]
    | cons _ _ => simp at hl
  | cons o old ih =>
    cases new with
    | nil => simp at hl
    | cons n new =>
      cases h with
      | @cons i _ idx _ hi hidx =>
        obtain ⟨ih1, ih2⟩ := ih new idx hidx (by simpa using hl)
        obtain ⟨f1, f2, f3, f4, f5⟩ := padW_facts o n
        simp only [List.zipWith_cons_cons, List.map_cons, insideB, Bool.and_eq_true,
          decide_eq_true_eq]
        refine ⟨fun hin => ?_, fun j hj hal => ?_⟩
        · obtain ⟨⟨h1, h2⟩, h3⟩ := hin
          obtain ⟨k1, k2⟩ := ih1 h3
          refine ⟨.cons (by omega) k1, ?_, k2⟩
          push_cast [Nat.cast_sub h1]
          omega
        · cases hj with
          | @cons j _ js _ hj hjs =>
            obtain ⟨ha, hal⟩ := hal
            obtain ⟨k1, k2⟩ := ih2 js hjs hal
            push_cast at ha
            have : (padW o n).1 ≤ i ∧ i < (padW o n).1 + (padC o n).len o := by
              rcases Nat.lt_or_ge n o with hno | hno
              · obtain ⟨e1, e2⟩ := f4 hno
                omega
              · obtain ⟨e1, e2⟩ := f5 hno
                omega
            refine ⟨⟨this, k1⟩, ?_⟩
            rw [k2]
            congr 1
            omega

theorem padTo_get_aligned {α : Type} [Zero α] (a : Arr α) (new : List ℕ) (mode : PadMode α)
    (hl : new.length = a.shape.length) (i j : List ℕ) (hi : InShape i new) (hj : InShape j a.shape)
    (h : Aligned a.shape new i j) : (padTo a new mode).get i = a.get j := by
  have hc : (List.zipWith padC a.shape new).length = a.shape.length := by simp [hl]
  obtain ⟨-, h2⟩ := padTo_index a.shape new i hi hl
  obtain ⟨k1, k2⟩ := h2 j hj h
  simp only [padTo, Arr.pad, slice_shape_full _ _ hc, slice_get_full _ _ hc]
  rw [if_pos k1, k2]

theorem padTo_get_outside {α : Type} [Zero α] (a : Arr α) (new : List ℕ)
    (hl : new.length = a.shape.length) (i : List ℕ) (hi : InShape i new)
    (h : ∀ j, InShape j a.shape → ¬ Aligned a.shape new i j) :
    (padTo a new .constant).get i = 0 := by
  have hc : (List.zipWith padC a.shape new).length = a.shape.length := by simp [hl]
  obtain ⟨h1, -⟩ := padTo_index a.shape new i hi hl
  simp only [padTo, Arr.pad, slice_shape_full _ _ hc, slice_get_full _ _ hc]
  rw [if_neg]
  intro hin
  obtain ⟨k1, k2⟩ := h1 hin
  exact h _ k1 k2

theorem emptyAxisCheck_ok {α : Type} (mode : PadMode α) (old new : List ℕ)
    (hm : mode = .constant ∨ NoEmptyGrowth old new) (hl : new.length = old.length) :
    emptyAxisCheck (List.zipWith padW old new) mode
      (List.zipWith (fun (s : Slice) n => s.len n) (List.zipWith padC old new) old) = .ok () := by
  cases mode with
  | constant => rfl
  | other f =>
    simp only [reduceCtorEq, false_or] at hm
    simp only [emptyAxisCheck]
    rw [if_neg]
    clear f
    simp only [Bool.not_eq_true]
    induction hm with
    | nil => simp
    | @cons o n old new h _ ih =>
      simp only [List.zipWith_cons_cons, List.zip_cons_cons, List.any_cons, ih (by simpa using hl),
        Bool.or_false, decide_eq_false_iff_not, not_and, not_not]
      obtain ⟨f1, f2, f3, f4, f5⟩ := padW_facts o n
      intro h0
      rcases Nat.lt_or_ge n o with hno | hno
      · have := f4 hno
        ext <;> simp <;> omega
      · have := f5 hno
        have : n = 0 := h (by omega)
        ext <;> simp <;> omega

/-- `fft_pad` with a full-rank `newshape`. -/
theorem fftPad_seq {α : Type} [Zero α] (nf : ℕ → ℕ) (a : Arr α) (new : List (Option ℕ))
    (mode : PadMode α) (hl : new.length = a.shape.length) (hr : a.shape ≠ [])
    (hm : mode = .constant ∨ NoEmptyGrowth a.shape (requested a.shape new)) :
    fftPad nf a (.seq new) mode = .ok (padTo a (requested a.shape new) mode) := by
  have hl' : (requested a.shape new).length = a.shape.length := by simp [requested, hl]
  have hc : (List.zipWith padC a.shape (requested a.shape new)).length = a.shape.length := by
    simp [hl']
  have hw : asPairs (List.zipWith padW a.shape (requested a.shape new)) a.shape.length
      = .ok (List.zipWith padW a.shape (requested a.shape new)) := by
    have : (List.zipWith padW a.shape (requested a.shape new)).length = a.shape.length := by
      simp [hl']
    revert this
    cases List.zipWith padW a.shape (requested a.shape new) with
    | nil => intro h; exact absurd (List.length_eq_zero_iff.mp h.symm) hr
    | cons p w => intro h; simp [asPairs, ← h]
  simp only [fftPad, paddingSlices_eq _ _ hl, hw, slice_shape_full _ _ hc,
    emptyAxisCheck_ok mode _ _ hm hl', bind, Except.bind, pure, Except.pure]
  rfl

end PyOTF
