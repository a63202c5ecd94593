import Verif.Lemmas.Pad

/-!
# C01–C04: `fft_pad`

`fftPad` is the model of `utils.py:82-100`; `requested`, `Aligned`, `fftCentre`, `NoEmptyGrowth` are the
specification vocabulary of `Verif.Spec.Pad`.
-/

namespace PyOTF

variable {α : Type} [Zero α]

/-! ## C01 -/

/-- C01: `fft_pad` returns exactly the requested shape (rank ≥ 1, any mixture of growing, shrinking and
kept axes).  A mode other than `'constant'` cannot extend an empty axis. -/
theorem C01_fft_pad_shape (nf : ℕ → ℕ) (a : Arr α) (new : List (Option ℕ)) (mode : PadMode α)
    (hrank : a.shape ≠ []) (hlen : new.length = a.shape.length)
    (hmode : mode = .constant ∨ NoEmptyGrowth a.shape (requested a.shape new)) :
    ∃ b, fftPad nf a (.seq new) mode = .ok b ∧ b.shape = requested a.shape new :=
  ⟨_, fftPad_seq nf a new mode hlen hrank hmode, padTo_shape _ _ _ (by simp [requested, hlen])⟩

/-- C01, integer form: `fft_pad(a, n)` makes every axis `n` long. -/
theorem C01_fft_pad_shape_int (nf : ℕ → ℕ) (a : Arr α) (n : ℕ) (mode : PadMode α)
    (hrank : a.shape ≠ []) (hmode : mode = .constant ∨ n = 0 ∨ 0 ∉ a.shape) :
    ∃ b, fftPad nf a (.int n) mode = .ok b ∧ b.shape = List.replicate a.shape.length n := by
  have e : fftPad nf a (.int n) mode = fftPad nf a (.seq (a.shape.map fun _ => some n)) mode := rfl
  have hr : requested a.shape (a.shape.map fun _ => some n) = List.replicate a.shape.length n := by
    rw [requested]
    generalize a.shape = s
    induction s with
    | nil => rfl
    | cons x s ih => simpa [List.replicate_succ] using ih
  rw [e, ← hr]
  refine C01_fft_pad_shape nf a _ mode hrank (by simp) ?_
  refine hmode.imp id fun h => ?_
  rw [hr]
  clear e hr hrank
  revert h
  generalize a.shape = s
  induction s with
  | nil => intro _; exact .nil
  | cons x s ih =>
    intro h
    refine .cons (fun hx => ?_) (ih ?_)
    · rcases h with h | h
      · exact h
      · exact absurd (by simp [hx]) h
    · exact h.imp id fun h => by simp at h; exact h.2

/-- C01, default form: every axis gets its next fast length (whatever `next_fast_len` returns). -/
theorem C01_fft_pad_shape_default (nf : ℕ → ℕ) (a : Arr α) (mode : PadMode α)
    (hrank : a.shape ≠ []) (hmode : mode = .constant ∨ ∀ n ∈ a.shape, n = 0 → nf n = 0) :
    ∃ b, fftPad nf a .omitted mode = .ok b ∧ b.shape = a.shape.map nf := by
  have e : fftPad nf a .omitted mode = fftPad nf a (.seq (a.shape.map fun n => some (nf n))) mode := rfl
  have hr : requested a.shape (a.shape.map fun n => some (nf n)) = a.shape.map nf := by
    rw [requested]
    generalize a.shape = s
    induction s with
    | nil => rfl
    | cons x s ih => simp [ih]
  rw [e, ← hr]
  refine C01_fft_pad_shape nf a _ mode hrank (by simp) ?_
  refine hmode.imp id fun h => ?_
  rw [hr]
  clear e hr hrank
  revert h
  generalize a.shape = s
  induction s with
  | nil => intro _; exact .nil
  | cons x s ih =>
    intro h
    exact .cons (fun hx => h x (by simp) hx) (ih fun n hn => h n (by simp [hn]))

/-- Rank 0 is rejected with `TypeError` (the pad list becomes an empty float array). -/
theorem C01_fft_pad_rank0 (nf : ℕ → ℕ) (a : Arr α) (s : NewShape) (mode : PadMode α)
    (h : a.shape = []) : fftPad nf a s mode = .error .typeError := by
  cases s <;> simp [fftPad, h, paddingSlices, rawPadding, asPairs, bind, Except.bind]

/-- Non-vacuity: a 3×4 array to 5×2 (one axis grows across parity, one shrinks) in any mode. -/
example (g : List ℕ → ℤ) (f : Arr ℤ → List ℕ → ℤ) :
    ∃ b, fftPad id (⟨[3, 4], g⟩ : Arr ℤ) (.seq [some 5, some 2]) (.other f) = .ok b ∧
      b.shape = [5, 2] :=
  C01_fft_pad_shape id ⟨[3, 4], g⟩ [some 5, some 2] (.other f) (by simp) rfl
    (.inr (.cons (by simp) (.cons (by simp) .nil)))

/-! ## C02 -/

/-- C02: every element of the result whose aligned old index exists is that old element. -/
theorem C02_fft_pad_aligned (nf : ℕ → ℕ) (a b : Arr α) (new : List (Option ℕ)) (mode : PadMode α)
    (hrank : a.shape ≠ []) (hlen : new.length = a.shape.length)
    (hmode : mode = .constant ∨ NoEmptyGrowth a.shape (requested a.shape new))
    (hb : fftPad nf a (.seq new) mode = .ok b)
    (i j : List ℕ) (hi : InShape i b.shape) (hj : InShape j a.shape)
    (hal : Aligned a.shape b.shape i j) : b.get i = a.get j := by
  rw [fftPad_seq nf a new mode hlen hrank hmode] at hb
  cases hb
  have hl : (requested a.shape new).length = a.shape.length := by simp [requested, hlen]
  rw [padTo_shape _ _ _ hl] at hi hal
  exact padTo_get_aligned a _ mode hl i j hi hj hal

/-- C02: with `mode='constant'` all other elements are 0. -/
theorem C02_fft_pad_zero_elsewhere (nf : ℕ → ℕ) (a b : Arr α) (new : List (Option ℕ))
    (hrank : a.shape ≠ []) (hlen : new.length = a.shape.length)
    (hb : fftPad nf a (.seq new) .constant = .ok b)
    (i : List ℕ) (hi : InShape i b.shape)
    (hout : ∀ j, InShape j a.shape → ¬ Aligned a.shape b.shape i j) : b.get i = 0 := by
  rw [fftPad_seq nf a new .constant hlen hrank (.inl rfl)] at hb
  cases hb
  have hl : (requested a.shape new).length = a.shape.length := by simp [requested, hlen]
  rw [padTo_shape _ _ _ hl] at hi hout
  exact padTo_get_outside a _ hl i hi hout

/-- Non-vacuity of C02: element 3 of a length-3 axis padded to 6 is old element 2. -/
example : InShape [3] [6] ∧ InShape [2] [3] ∧ Aligned [3] [6] [3] [2] :=
  ⟨.cons (by decide) .nil, .cons (by decide) .nil, by simp [Aligned]⟩

/-! ## C03 -/

theorem aligned_symm : ∀ {o n i j : List ℕ}, Aligned o n i j → Aligned n o j i
  | _ :: _, _ :: _, _ :: _, _ :: _, h => ⟨h.1.symm, aligned_symm h.2⟩
  | [], [], [], [], _ => trivial

theorem aligned_length : ∀ {o n i j : List ℕ}, Aligned o n i j → n.length = o.length
  | _ :: _, _ :: _, _ :: _, _ :: _, h => by simp [aligned_length h.2]
  | [], [], [], [], _ => rfl

/-- An in-range index of the smaller shape has an aligned in-range index in the larger shape. -/
theorem exists_aligned {old new : List ℕ} (h : List.Forall₂ (· ≤ ·) old new) :
    ∀ j, InShape j old → ∃ i, InShape i new ∧ Aligned old new i j := by
  induction h with
  | nil => intro j hj; cases hj; exact ⟨[], .nil, trivial⟩
  | @cons o n old new hon _ ih =>
    intro j hj
    cases hj with
    | @cons j _ js _ hj hjs =>
      obtain ⟨is, h1, h2⟩ := ih js hjs
      refine ⟨(j + (n + 1) / 2 - (o + 1) / 2) :: is, .cons (by omega) h1, by push_cast; omega, h2⟩

/-- C03: padding to a larger shape (any mode) and cropping back returns the original array. -/
theorem C03_pad_crop_roundtrip (nf : ℕ → ℕ) (a : Arr α) (new : List ℕ) (mode mode' : PadMode α)
    (hrank : a.shape ≠ []) (hge : List.Forall₂ (· ≤ ·) a.shape new)
    (hmode : mode = .constant ∨ NoEmptyGrowth a.shape new) :
    ∃ b c, fftPad nf a (.seq (new.map some)) mode = .ok b ∧
      fftPad nf b (.seq (a.shape.map some)) mode' = .ok c ∧ c.Same a := by
  have hlen : new.length = a.shape.length := hge.length_eq.symm
  have hreq : ∀ {s t : List ℕ}, t.length = s.length → requested s (t.map some) = t := by
    intro s t h
    induction s generalizing t with
    | nil => cases t <;> simp_all [requested]
    | cons x s ih =>
      cases t with
      | nil => simp at h
      | cons y t => simpa [requested] using ih (by simpa using h)
  have h1 := fftPad_seq nf a (new.map some) mode (by simp [hlen]) hrank (by rwa [hreq hlen])
  rw [hreq hlen] at h1
  have hs1 : (padTo a new mode).shape = new := padTo_shape a new mode hlen
  have h2 := fftPad_seq nf (padTo a new mode) (a.shape.map some) mode' (by simp [hs1, hlen])
    (by rw [hs1]; intro h; apply hrank; exact List.length_eq_zero_iff.mp (by rw [← hlen, h]; rfl))
    (.inr (by
      rw [hs1, hreq hlen.symm]
      clear h1 hs1 hmode hrank hlen
      revert hge
      generalize a.shape = s
      intro hge
      induction hge with
      | nil => exact .nil
      | cons h _ ih => exact .cons (by omega) ih))
  rw [hs1, hreq hlen.symm] at h2
  refine ⟨_, _, h1, h2, ?_, ?_⟩
  · exact padTo_shape _ _ _ (by rw [hs1, hlen])
  · rw [padTo_shape _ _ _ (by rw [hs1, hlen])]
    intro i hi
    obtain ⟨k, hk, hal⟩ := exists_aligned hge i hi
    rw [padTo_get_aligned (padTo a new mode) a.shape mode' (by rw [hs1, hlen]) i k hi
      (by rw [hs1]; exact hk) (by rw [hs1]; exact aligned_symm hal)]
    exact padTo_get_aligned a new mode hlen k i hk hi hal

/-- Non-vacuity of C03: 3×4 padded to 8×5 with an arbitrary mode. -/
example (g : List ℕ → ℤ) (f : Arr ℤ → List ℕ → ℤ) :
    ∃ b c, fftPad id (⟨[3, 4], g⟩ : Arr ℤ) (.seq [some 8, some 5]) (.other f) = .ok b ∧
      fftPad id b (.seq [some 3, some 4]) (.other f) = .ok c ∧ c.Same ⟨[3, 4], g⟩ :=
  C03_pad_crop_roundtrip id ⟨[3, 4], g⟩ [8, 5] (.other f) (.other f) (by simp)
    (.cons (by decide) (.cons (by decide) .nil)) (.inr (.cons (by simp) (.cons (by simp) .nil)))

/-! ## C04 -/

/-- Where the FFT centre of one axis goes, relative to the new FFT centre. -/
def centreShift (o n : ℕ) : ℤ :=
  if o % 2 = n % 2 then 0 else if o % 2 = 1 then -1 else 1

/-- C04, displacement: in any rank, the new index aligned with the old FFT centre is displaced from the
new FFT centre by 0 on axes of equal parity, by −1 on odd→even axes and by +1 on even→odd axes. -/
theorem C04_centre_displacement (old new i : List ℕ)
    (h : Aligned old new i (fftCentre old)) :
    List.Forall₂ (fun (p : ℕ × ℕ) (i : ℕ) => (i : ℤ) - (p.2 / 2 : ℕ) = centreShift p.1 p.2)
      (List.zip old new) i := by
  induction old generalizing new i with
  | nil =>
    cases new with
    | nil => cases i with
      | nil => exact .nil
      | cons _ _ => exact h.elim
    | cons _ _ => cases i <;> exact h.elim
  | cons o old ih =>
    cases new with
    | nil => cases i <;> exact h.elim
    | cons n new =>
      cases i with
      | nil => exact h.elim
      | cons i is =>
        obtain ⟨h1, h2⟩ := h
        refine .cons ?_ (ih new is h2)
        push_cast at h1
        simp only [centreShift]
        push_cast
        split_ifs <;> omega

theorem aligned_unique : ∀ {o n i j j' : List ℕ}, Aligned o n i j → Aligned o n i j' → j = j'
  | _ :: _, _ :: _, _ :: _, _ :: _, _ :: _, h, h' => by
    have := aligned_unique h.2 h'.2
    have h1 := h.1
    have h2 := h'.1
    congr 1
    omega
  | [], [], [], [], [], _, _ => rfl
  | _ :: _, _ :: _, _ :: _, _ :: _, [], _, h' => h'.elim
  | [], [], [], [], _ :: _, _, h' => h'.elim

theorem aligned_centre_iff : ∀ {old new : List ℕ}, new.length = old.length →
    (Aligned old new (fftCentre new) (fftCentre old) ↔ List.Forall₂ (fun o n => o % 2 = n % 2) old new)
  | [], [], _ => by simp [fftCentre, Aligned]
  | o :: old, n :: new, h => by
    have := aligned_centre_iff (old := old) (new := new) (by simpa using h)
    simp only [fftCentre] at this
    simp only [fftCentre, List.map_cons, Aligned, List.forall₂_cons, this, and_congr_left_iff]
    intro _
    push_cast
    omega
  | [], _ :: _, h => by simp at h
  | _ :: _, [], h => by simp at h

theorem inShape_centre : ∀ {s : List ℕ}, 0 ∉ s → InShape (fftCentre s) s
  | [], _ => .nil
  | n :: s, h => by
    simp only [List.mem_cons, not_or] at h
    exact .cons (show n / 2 < n by omega) (inShape_centre h.2)

/-- C04: for non-empty shapes, `fft_pad` carries the FFT-centre element to the FFT centre *for every
array of that shape* exactly when old and new lengths have the same parity on every axis. -/
theorem C04_centre_iff_parity (nf : ℕ → ℕ) (old new : List ℕ) (hrank : old ≠ [])
    (hlen : new.length = old.length) (h0 : 0 ∉ old) (h0' : 0 ∉ new) :
    (∀ a b : Arr ℤ, a.shape = old → fftPad nf a (.seq (new.map some)) .constant = .ok b →
      b.get (fftCentre new) = a.get (fftCentre old)) ↔
    List.Forall₂ (fun o n => o % 2 = n % 2) old new := by
  have hreq : requested old (new.map some) = new := by
    clear h0 h0' hrank
    induction old generalizing new with
    | nil => cases new <;> simp_all [requested]
    | cons x s ih =>
      cases new with
      | nil => simp at hlen
      | cons y t => simpa [requested] using ih t (by simpa using hlen)
  rw [← aligned_centre_iff hlen]
  constructor
  · intro h
    let a : Arr ℤ := ⟨old, fun i => if i = fftCentre old then 1 else 0⟩
    have hp : fftPad nf a (.seq (new.map some)) .constant = .ok (padTo a new .constant) := by
      rw [fftPad_seq nf a (new.map some) .constant (by simp [a, hlen]) hrank (.inl rfl)]
      simp only [a, hreq]
    have hv := h a _ rfl hp
    have e1 : a.get (fftCentre old) = 1 := by simp [a]
    rw [e1] at hv
    by_contra hna
    by_cases hex : ∃ j, InShape j old ∧ Aligned old new (fftCentre new) j
    · obtain ⟨j, hj, hal⟩ := hex
      rw [padTo_get_aligned a new .constant (by simp [a, hlen]) _ j (inShape_centre h0') hj hal] at hv
      have : j = fftCentre old := by
        by_contra hne
        simp [a, hne] at hv
      exact hna (this ▸ hal)
    · rw [padTo_get_outside a new (by simp [a, hlen]) _ (inShape_centre h0')
        (fun j hj hal => hex ⟨j, hj, hal⟩)] at hv
      exact absurd hv (by decide)
  · intro hal a b ha hb
    subst ha
    have := padTo_shape a new .constant hlen
    rw [fftPad_seq nf a (new.map some) .constant (by simp [hlen]) hrank (.inl rfl), hreq] at hb
    cases hb
    exact padTo_get_aligned a new .constant hlen _ _ (inShape_centre h0') (inShape_centre h0) hal

/-- Non-vacuity of C04: odd→even (3→6) puts the centre element (index 1) at index 2, one below 6//2;
even→odd (4→7) puts index 2 at index 4, one above 7//2. -/
example : Aligned [3, 4] [6, 7] [2, 4] (fftCentre [3, 4]) ∧
    ¬ List.Forall₂ (fun o n => o % 2 = n % 2) [3, 4] [6, 7] := by
  refine ⟨by simp [Aligned, fftCentre], ?_⟩
  simp

end PyOTF
