import Verif.Props.C10_C13_Basics

/-!
# C104: `center_data` of moved or rescaled data; C105: `remove_bg` and the offset of the camera
-/

namespace PyOTF

/-! ## C104 -/

variable {α : Type} [LinearOrder α]

/-- One element is larger than all the others. -/
def UniqueMax (a : Arr α) : Prop := ∃ m, InShape m a.shape ∧ ∀ i, InShape i a.shape → i ≠ m → a.get i < a.get m

/-- `np.roll` along several axes, one after the other. -/
def rolled {α : Type} (a : Arr α) (moves : List (ℤ × ℕ)) : Arr α := moves.foldl (fun a p => a.roll p.1 p.2) a

theorem cyclicSource_getD : ∀ (shape ms idx : List ℕ), ms.length = shape.length → idx.length = shape.length → ∀ k < shape.length,
    (cyclicSource shape ms idx).getD k 0 = (idx.getD k 0 + ms.getD k 0 + (shape.getD k 0 - shape.getD k 0 / 2)) % shape.getD k 0
  | [], _, _, _, _, k, hk => by simp at hk
  | n :: shape, m :: ms, i :: idx, h1, h2, 0, hk => by simp [cyclicSource]
  | n :: shape, m :: ms, i :: idx, h1, h2, k + 1, hk => by
    have := cyclicSource_getD shape ms idx (by simpa using h1) (by simpa using h2) k (by simpa using hk)
    simpa [cyclicSource] using this
  | _ :: _, [], _, h, _, _, _ => by simp at h
  | _ :: _, _ :: _, [], _, h, _, _ => by simp at h

theorem roll_get {α : Type} (a : Arr α) (s : ℤ) (ax : ℕ) (i : List ℕ) :
    (a.roll s ax).get i = a.get (i.set ax (rollIdx (a.shape.getD ax 0) s (i.getD ax 0))) := rfl

theorem roll_inj {shape i j : List ℕ} {s : ℤ} {ax : ℕ} (hi : InShape i shape) (hj : InShape j shape) (hax : ax < shape.length)
    (h : i.set ax (rollIdx (shape.getD ax 0) s (i.getD ax 0)) = j.set ax (rollIdx (shape.getD ax 0) s (j.getD ax 0))) : i = j := by
  have hil := hi.length
  have hjl := hj.length
  apply List.ext_getElem (by rw [hil, hjl])
  intro k h1 h2
  have e := congrArg (fun l => l.getD k 0) h
  by_cases hk : ax = k
  · subst hk
    simp only [getD_set_self h1, getD_set_self h2] at e
    have := rollIdx_inj (hi.lt hax) (hj.lt hax) e
    rwa [List.getD_eq_getElem _ _ h1, List.getD_eq_getElem _ _ h2] at this
  · simp only [getD_set_ne hk] at e
    rwa [List.getD_eq_getElem _ _ h1, List.getD_eq_getElem _ _ h2] at e

theorem UniqueMax.roll {a : Arr α} (h : UniqueMax a) (s : ℤ) {ax : ℕ} (hax : ax < a.shape.length) : UniqueMax (a.roll s ax) := by
  obtain ⟨m, hm, hu⟩ := h
  have hn : 0 < a.shape.getD ax 0 := lt_of_le_of_lt (Nat.zero_le _) (hm.lt hax)
  have hml : ax < m.length := by rw [hm.length]; exact hax
  let m' := m.set ax (rollIdx (a.shape.getD ax 0) (-s) (m.getD ax 0))
  have hm' : InShape m' a.shape := InShape.set hm (rollIdx_lt _ _ hn)
  have back : m'.set ax (rollIdx (a.shape.getD ax 0) s (m'.getD ax 0)) = m := by
    simp only [m', getD_set_self hml, List.set_set, rollIdx_comp _ _ _ hn]
    rw [rollIdx_of_dvd (hm.lt hax) (by simp)]
    exact set_getD_self hml
  refine ⟨m', hm', fun i hi hne => ?_⟩
  have hi : InShape i a.shape := hi
  rw [roll_get, roll_get, back]
  refine hu _ (InShape.set hi (rollIdx_lt _ _ hn)) fun he => hne (roll_inj (s := s) hi hm' hax (by rw [he, back]))

theorem centerData_roll (data : Arr α) (hu : UniqueMax data) (s : ℤ) (ax : ℕ) (hax : ax < data.shape.length) :
    ∃ c c', centerData data = .ok c ∧ centerData (data.roll s ax) = .ok c' ∧ c'.Same c := by
  obtain ⟨m0, hm0, hlt⟩ := hu
  have hne : 0 ∉ data.shape := by
    intro h0
    obtain ⟨k, hk, he⟩ := List.mem_iff_getElem.mp h0
    have := hm0.lt hk
    rw [List.getD_eq_getElem _ _ hk, he] at this
    omega
  obtain ⟨c, m, h1, h2, h3, h4, -, -, h5⟩ := C11_center_data data hne
  obtain ⟨c', m', g1, g2, g3, g4, -, -, g5⟩ := C11_center_data (data.roll s ax) hne
  refine ⟨c, c', h1, g1, by rw [g2, h2]; rfl, fun i hi => ?_⟩
  have hi' : InShape i data.shape := by rw [g2] at hi; exact hi
  have g3' : InShape m' data.shape := g3
  have hn : 0 < data.shape.getD ax 0 := lt_of_le_of_lt (Nat.zero_le _) (h3.lt hax)
  -- the two maxima are the same element
  have um : ∀ x, InShape x data.shape → (∀ i, InShape i data.shape → data.get i ≤ data.get x) → x = m0 := by
    intro x hx h
    by_contra hc
    exact absurd (h m0 hm0) (not_le.mpr (hlt x hx hc))
  have hm : m'.set ax (rollIdx (data.shape.getD ax 0) s (m'.getD ax 0)) = m := by
    rw [um m h3 h4]
    refine um _ (InShape.set g3' (rollIdx_lt _ _ hn)) fun i hi => ?_
    have hj : InShape (i.set ax (rollIdx (data.shape.getD ax 0) (-s) (i.getD ax 0))) data.shape := InShape.set hi (rollIdx_lt _ _ hn)
    have := g4 _ hj
    rw [roll_get, roll_get] at this
    have hil : ax < i.length := by rw [hi.length]; exact hax
    simp only [getD_set_self hil, List.set_set, rollIdx_comp _ _ _ hn] at this
    rw [rollIdx_of_dvd (hi.lt hax) (by simp), set_getD_self hil] at this
    exact this
  rw [g5 i hi', h5 i hi', roll_get]
  congr 1
  have el : (data.roll s ax).shape = data.shape := rfl
  rw [el]
  have l1 := cyclicSource_length data.shape m' i g3'.length hi'.length
  have l2 := cyclicSource_length data.shape m i h3.length hi'.length
  apply List.ext_getElem (by simp [l1, l2])
  intro k k1 k2
  rw [← List.getD_eq_getElem _ 0 k1, ← List.getD_eq_getElem _ 0 k2]
  have k3 : k < data.shape.length := by rw [← l2]; exact k2
  rw [cyclicSource_getD _ _ _ h3.length hi'.length k k3, ← hm]
  by_cases hk : ax = k
  · subst hk
    rw [getD_set_self (by rw [l1]; exact hax), getD_set_self (by rw [g3'.length]; exact hax),
      cyclicSource_getD _ _ _ g3'.length hi'.length ax hax]
    zify
    rw [rollIdx_cast _ _ hn, rollIdx_cast _ _ hn]
    push_cast
    rw [Int.sub_emod, Int.emod_emod, ← Int.sub_emod]
    symm
    rw [Int.add_emod, Int.add_emod (i.getD ax 0 : ℤ), Int.emod_emod, ← Int.add_emod (i.getD ax 0 : ℤ), ← Int.add_emod]
    congr 1
    ring
  · rw [getD_set_ne hk, getD_set_ne hk, cyclicSource_getD _ _ _ g3'.length hi'.length k k3]

/-- C104: if one element is the largest, the result does not depend on where in the (cyclic) field of view the object was. -/
theorem C104_translation (data : Arr α) (hu : UniqueMax data) (moves : List (ℤ × ℕ)) (hax : ∀ p ∈ moves, p.2 < data.shape.length) :
    ∃ c c', centerData data = .ok c ∧ centerData (rolled data moves) = .ok c' ∧ c'.Same c := by
  induction moves generalizing data with
  | nil =>
    obtain ⟨m, hm, -⟩ := hu
    have hne : 0 ∉ data.shape := by
      intro h0
      obtain ⟨k, hk, he⟩ := List.mem_iff_getElem.mp h0
      have := hm.lt hk
      rw [List.getD_eq_getElem _ _ hk, he] at this
      omega
    obtain ⟨c, m, h1, -⟩ := C11_center_data data hne
    exact ⟨c, c, h1, h1, .refl _⟩
  | cons p moves ih =>
    have hp := hax p (by simp)
    obtain ⟨c, c1, h1, h2, h3⟩ := centerData_roll data hu p.1 p.2 hp
    obtain ⟨c1', c', g1, g2, g3⟩ := ih (data.roll p.1 p.2) (hu.roll p.1 hp) fun q hq => hax q (List.mem_cons_of_mem _ hq)
    rw [h2] at g1; cases g1
    exact ⟨c, c', h1, g2, g3.trans h3⟩

/-- C104: centring centred data changes nothing if one element is the largest. -/
theorem C104_idempotent (data : Arr α) (hu : UniqueMax data) : ∃ c c', centerData data = .ok c ∧ centerData c = .ok c' ∧ c'.Same c := by
  have hu' := hu
  obtain ⟨m0, hm0, hlt⟩ := hu
  have hne : 0 ∉ data.shape := by
    intro h0
    obtain ⟨k, hk, he⟩ := List.mem_iff_getElem.mp h0
    have := hm0.lt hk
    rw [List.getD_eq_getElem _ _ hk, he] at this
    omega
  obtain ⟨c, m, h1, h2, h3, h4, -, -, h5⟩ := C11_center_data data hne
  have hne' : 0 ∉ c.shape := by rw [h2]; exact hne
  obtain ⟨c', m', g1, g2, g3, g4, -, -, g5⟩ := C11_center_data c hne'
  refine ⟨c, c', h1, g1, g2, fun i hi => ?_⟩
  rw [g2] at hi
  rw [g5 i hi]
  have hm : m = m0 := by
    by_contra hc
    exact absurd (h4 m0 hm0) (not_le.mpr (hlt m h3 hc))
  have cs : ∀ s : List ℕ, 0 ∉ s → InShape (fftCentre s) s := by
    intro s
    induction s with
    | nil => intro _; exact .nil
    | cons n s ih =>
      intro h
      simp only [List.mem_cons, not_or] at h
      exact .cons (show n / 2 < n by omega) (ih h.2)
  have hc := cs _ hne
  have hm' : m' = fftCentre data.shape := by
    by_contra hcon
    have g3' : InShape m' data.shape := h2 ▸ g3
    have := g4 (fftCentre data.shape) (by rw [h2]; exact hc)
    rw [h5 _ hc, h5 _ g3', cyclicSource_centre h3, hm] at this
    refine absurd this (not_le.mpr (hlt _ (cyclicSource_inShape (hm0.length) g3') fun he => hcon ?_))
    refine cyclicSource_inj hm0.length g3' hc ?_
    rw [he, cyclicSource_centre hm0]
  congr 1
  rw [hm', h2]
  rw [h2] at hi
  have l1 := cyclicSource_length data.shape (fftCentre data.shape) i hc.length hi.length
  apply List.ext_getElem (by rw [l1, hi.length])
  intro k k1 k2
  have k3 : k < data.shape.length := by rw [← l1]; exact k1
  rw [← List.getD_eq_getElem _ 0 k1, ← List.getD_eq_getElem _ 0 k2, cyclicSource_getD _ _ _ hc.length hi.length k k3]
  have hik := hi.lt k3
  have hf : (fftCentre data.shape).getD k 0 = data.shape.getD k 0 / 2 := by
    simp only [fftCentre, List.getD_eq_getElem?_getD, List.getElem?_map, List.getElem?_eq_getElem k3]
    rfl
  rw [hf, show i.getD k 0 + data.shape.getD k 0 / 2 + (data.shape.getD k 0 - data.shape.getD k 0 / 2) = i.getD k 0 + data.shape.getD k 0 by omega,
    Nat.add_mod_right, Nat.mod_eq_of_lt hik]

theorem argmaxAux_map {β : Type} [LinearOrder β] {f : α → β} (hf : StrictMono f) : ∀ (l : List α) (best : ℕ) (v : α) (i : ℕ),
    argmaxAux (l.map f) best (f v) i = argmaxAux l best v i
  | [], _, _, _ => rfl
  | x :: l, best, v, i => by
    simp only [List.map_cons, argmaxAux, hf.lt_iff_lt]
    by_cases h : v < x
    · rw [if_pos h, if_pos h]; exact argmaxAux_map hf l i x (i + 1)
    · rw [if_neg h, if_neg h]; exact argmaxAux_map hf l best v (i + 1)

/-- C104: any increasing rescaling of the values (exposure, background subtraction, gamma) commutes with centring, whether or not the maximum is unique. -/
theorem C104_rescaling {β : Type} [LinearOrder β] {f : α → β} (hf : StrictMono f) (data : Arr α) :
    centerData (data.map f) = (centerData data).map (Arr.map f) := by
  have hr : (data.map f).ravel = data.ravel.map f := by simp [Arr.ravel, Arr.map]
  have ha : argmax (data.map f).ravel = argmax data.ravel := by
    rw [hr]
    cases data.ravel with
    | nil => rfl
    | cons x l => simp only [List.map_cons, argmax, argmaxAux_map hf]
  have hs : (data.map f).shape = data.shape := rfl
  simp only [centerData, ha, hs, bind, Except.bind, pure, Except.pure]
  cases argmax data.ravel with
  | error e => rfl
  | ok k =>
    simp only [Except.map]
    congr 1
    generalize (List.zip (unravel data.shape k) data.shape).zipIdx = L
    clear ha hr hs
    induction L generalizing data with
    | nil => rfl
    | cons p L ih =>
      simp only [List.foldl_cons]
      exact ih (data.roll _ _)

/-- C104: with several equal maxima centring is not idempotent: `[5, 0, 5]` becomes `[5, 5, 0]` and then `[0, 5, 5]`. -/
theorem C104_ties : ∃ c c', centerData (⟨[3], fun i => [5, 0, 5].getD (i.getD 0 0) 0⟩ : Arr ℤ) = .ok c ∧ centerData c = .ok c' ∧
    c.ravel = [5, 5, 0] ∧ c'.ravel = [0, 5, 5] := ⟨_, _, rfl, rfl, by decide, by decide⟩

/-- Non-vacuity: a 2×3 image with one maximum, moved along both axes. -/
example : ∃ c c', centerData (⟨[2, 3], fun i => [1, 2, 9, 4, 5, 6].getD (i.getD 0 0 * 3 + i.getD 1 0) 0⟩ : Arr ℤ) = .ok c ∧
    centerData (rolled ⟨[2, 3], fun i => [1, 2, 9, 4, 5, 6].getD (i.getD 0 0 * 3 + i.getD 1 0) 0⟩ [(1, 0), (-5, 1)]) = .ok c' ∧ c'.Same c := by
  refine C104_translation _ ⟨[0, 2], mem_indices.mp (by decide), ?_⟩ _ (by decide)
  intro i hi hne
  rw [← mem_indices] at hi
  revert hne
  revert i
  decide

/-! ## C105 -/

/-- Data on top of a constant offset. -/
def withOffset (data : Arr ℤ) (c : ℤ) : Arr ℤ := data.map (· + c)

/-- C105: an offset `c` of the camera changes the result of `remove_bg` by `(1 - multiplier) * c` everywhere: it cancels for multiplier 1 only, and
the default multiplier 1.5 subtracts half of it again from every pixel. -/
theorem C105_offset (data : Arr ℤ) (c : ℤ) (k : ℝ) (hne : 0 ∉ data.shape) (hn : ∀ i, InShape i data.shape → 0 ≤ data.get i ∧ 0 ≤ data.get i + c) :
    ∃ b b', removeBg data k = .ok b ∧ removeBg (withOffset data c) k = .ok b' ∧ b'.shape = b.shape ∧
      ∀ i, b'.get i = b.get i + (1 - k) * c := by
  obtain ⟨b, m, h1, h2, h3, h4⟩ := C12_remove_bg data k hne fun i hi => (hn i hi).1
  obtain ⟨b', m', g1, g2, g3, g4⟩ := C12_remove_bg (withOffset data c) k hne fun i hi => (hn i hi).2
  have hr : (withOffset data c).ravel = data.ravel.map (· + c) := by simp [Arr.ravel, withOffset, Arr.map]
  have hinj : Function.Injective (fun x : ℤ => x + c) := add_left_injective c
  have cnt : ∀ v, (data.ravel.map (· + c)).count (v + c) = data.ravel.count v := fun v => List.count_map_of_injective _ _ hinj v
  have cnt' : ∀ v, (data.ravel.map (· + c)).count v = data.ravel.count (v - c) := fun v => by
    have := cnt (v - c); rwa [sub_add_cancel] at this
  have hmc : (0 : ℤ) ≤ m + c := by
    have := h2.1
    simp only [Arr.ravel, List.mem_map] at this
    obtain ⟨i, hi, e⟩ := this
    have := (hn i (mem_indices.mp hi)).2
    rw [e] at this
    exact this
  have hm : m' = (m + c).toNat := by
    refine C12_mode_unique _ _ _ g2 ?_
    rw [hr]
    refine ⟨?_, ?_, ?_⟩
    · rw [Int.toNat_of_nonneg hmc, List.mem_map]; exact ⟨m, h2.1, rfl⟩
    · intro v
      rw [Int.toNat_of_nonneg hmc, cnt, cnt']; exact h2.2.1 _
    · intro v hv
      rw [Int.toNat_of_nonneg hmc] at hv ⊢
      rw [cnt, cnt']; exact h2.2.2 _ (by omega)
  have hmr : (m' : ℝ) = m + c := by
    have : (m' : ℤ) = m + c := by rw [hm, Int.toNat_of_nonneg hmc]
    exact_mod_cast congrArg (fun z : ℤ => (z : ℝ)) this
  refine ⟨b, b', h1, g1, by rw [g3, h3]; rfl, fun i => ?_⟩
  rw [h4, g4, hmr]
  simp only [withOffset, Arr.map]
  push_cast
  ring

/-- C105: scaling the data by a positive integer gain scales the result. -/
theorem C105_gain (data : Arr ℤ) (g : ℕ) (hg : 0 < g) (k : ℝ) (hne : 0 ∉ data.shape) (hn : ∀ i, InShape i data.shape → 0 ≤ data.get i) :
    ∃ b b', removeBg data k = .ok b ∧ removeBg (data.map (· * (g : ℤ))) k = .ok b' ∧ b'.shape = b.shape ∧ ∀ i, b'.get i = g * b.get i := by
  obtain ⟨b, m, h1, h2, h3, h4⟩ := C12_remove_bg data k hne hn
  have hg' : (0 : ℤ) < g := by exact_mod_cast hg
  obtain ⟨b', m', g1, g2, g3, g4⟩ := C12_remove_bg (data.map (· * (g : ℤ))) k hne fun i hi => mul_nonneg (hn i hi) hg'.le
  have hr : (data.map (· * (g : ℤ))).ravel = data.ravel.map (· * (g : ℤ)) := by simp [Arr.ravel, Arr.map]
  have hinj : Function.Injective (fun x : ℤ => x * (g : ℤ)) := mul_left_injective₀ hg'.ne'
  have cnt : ∀ v : ℤ, (data.ravel.map (· * (g : ℤ))).count (v * g) = data.ravel.count v := fun v => List.count_map_of_injective _ _ hinj v
  have pos : 0 < data.ravel.count (m : ℤ) := List.count_pos_iff.mpr h2.1
  have cnt0 : ∀ v : ℤ, (¬ ∃ u, v = u * (g : ℤ)) → (data.ravel.map (· * (g : ℤ))).count v = 0 := by
    intro v hv
    rw [List.count_eq_zero, List.mem_map]
    rintro ⟨u, -, e⟩
    exact hv ⟨u, e.symm⟩
  have hm : m' = m * g := by
    refine C12_mode_unique _ _ _ g2 ?_
    rw [hr]
    refine ⟨?_, ?_, ?_⟩
    · rw [List.mem_map]; exact ⟨m, h2.1, by push_cast; ring⟩
    · intro v
      push_cast
      rw [cnt]
      by_cases hv : ∃ u, v = u * (g : ℤ)
      · obtain ⟨u, rfl⟩ := hv
        rw [cnt]; exact h2.2.1 u
      · rw [cnt0 v hv]; exact Nat.zero_le _
    · intro v hlt
      push_cast at hlt ⊢
      rw [cnt]
      by_cases hv : ∃ u, v = u * (g : ℤ)
      · obtain ⟨u, rfl⟩ := hv
        rw [cnt]; exact h2.2.2 u (lt_of_mul_lt_mul_right hlt hg'.le)
      · rw [cnt0 v hv]; exact pos
  refine ⟨b, b', h1, g1, by rw [g3, h3]; rfl, fun i => ?_⟩
  rw [h4, g4, hm]
  simp only [Arr.map]
  push_cast
  ring

/-- Non-vacuity: background 3 with one bright pixel, offset 100, default multiplier. -/
example : ∃ b b', removeBg ⟨[5], fun i => [3, 3, 9, 3, 1].getD (i.getD 0 0) 0⟩ (3 / 2) = .ok b ∧
    removeBg (withOffset ⟨[5], fun i => [3, 3, 9, 3, 1].getD (i.getD 0 0) 0⟩ 100) (3 / 2) = .ok b' ∧ b'.shape = b.shape ∧
    ∀ i, b'.get i = b.get i + (1 - 3 / 2) * (100 : ℤ) := by
  refine C105_offset _ _ _ (by decide) ?_
  intro i hi
  rw [← mem_indices] at hi
  revert i
  decide

end PyOTF
