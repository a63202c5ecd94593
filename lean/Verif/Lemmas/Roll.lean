import Verif.Lemmas.Arr
import Mathlib.Tactic.Ring

/-! # Rolls and shifts -/

namespace PyOTF

theorem alongAxis_shape {α : Type} (F : ℕ → (ℕ → α) → ℕ → α) (ax : ℕ) (a : Arr α) :
    (a.alongAxis F ax).shape = a.shape := rfl

theorem alongAxes_shape {α : Type} (F : ℕ → (ℕ → α) → ℕ → α) (axes : List ℕ) (a : Arr α) :
    (a.alongAxes F axes).shape = a.shape := by
  induction axes with
  | nil => rfl
  | cons ax axes ih => exact ih

theorem rollIdx_lt {n : ℕ} (s : ℤ) (i : ℕ) (h : 0 < n) : rollIdx n s i < n := by
  have h1 := Int.emod_nonneg ((i : ℤ) - s) (by omega : (n : ℤ) ≠ 0)
  have h2 := Int.emod_lt_of_pos ((i : ℤ) - s) (by omega : (0 : ℤ) < n)
  simp only [rollIdx]; omega

theorem rollIdx_cast {n : ℕ} (s : ℤ) (i : ℕ) (h : 0 < n) :
    ((rollIdx n s i : ℕ) : ℤ) = ((i : ℤ) - s) % n := by
  have h1 := Int.emod_nonneg ((i : ℤ) - s) (by omega : (n : ℤ) ≠ 0)
  simp only [rollIdx]; omega

theorem rollIdx_comp {n : ℕ} (s t : ℤ) (i : ℕ) (h : 0 < n) :
    rollIdx n t (rollIdx n s i) = rollIdx n (s + t) i := by
  zify
  rw [rollIdx_cast _ _ h, rollIdx_cast _ _ h, rollIdx_cast _ _ h, Int.sub_emod, Int.emod_emod,
    ← Int.sub_emod]
  congr 1; ring

theorem rollIdx_of_dvd {n : ℕ} {s : ℤ} {i : ℕ} (hi : i < n) (h : (n : ℤ) ∣ s) : rollIdx n s i = i := by
  zify
  obtain ⟨c, rfl⟩ := h
  rw [rollIdx_cast _ _ (by omega), Int.sub_mul_emod_self_left]
  exact Int.emod_eq_of_lt (by omega) (by omega)

theorem rollIdx_inj {n : ℕ} {s : ℤ} {i j : ℕ} (hi : i < n) (hj : j < n)
    (h : rollIdx n s i = rollIdx n s j) : i = j := by
  have h2 := congrArg (rollIdx n (-s)) h
  rw [rollIdx_comp _ _ _ (by omega), rollIdx_comp _ _ _ (by omega)] at h2
  rwa [rollIdx_of_dvd hi (by simp), rollIdx_of_dvd hj (by simp)] at h2

/-- Source index of a multi-axis roll. -/
def rollIdxs (s : ℕ → ℤ) (axes shape idx : List ℕ) : List ℕ :=
  idx.mapIdx fun k i => if k ∈ axes then rollIdx (shape.getD k 0) (s (shape.getD k 0)) i else i

theorem alongAxes_roll {α : Type} (s : ℕ → ℤ) (axes : List ℕ) (hn : axes.Nodup) (a : Arr α)
    (idx : List ℕ) :
    (a.alongAxes (roll1 s) axes).get idx = a.get (rollIdxs s axes a.shape idx) := by
  induction axes generalizing idx with
  | nil =>
    have : rollIdxs s [] a.shape idx = idx := by
      apply List.ext_getElem <;> simp [rollIdxs]
    rw [this]; rfl
  | cons ax axes ih =>
    rw [List.nodup_cons] at hn
    have e : (a.alongAxes (roll1 s) (ax :: axes)).get idx
        = (a.alongAxes (roll1 s) axes).get (idx.set ax (rollIdx (a.shape.getD ax 0)
          (s (a.shape.getD ax 0)) (idx.getD ax 0))) := by
      simp only [Arr.alongAxes, List.foldr_cons]
      rw [← alongAxes_shape (roll1 s) axes a]
      rfl
    rw [e, ih hn.2]
    congr 1
    apply List.ext_getElem
    · simp [rollIdxs]
    · intro k h1 h2
      have hk : k < idx.length := by simpa [rollIdxs] using h2
      simp only [rollIdxs, List.getElem_mapIdx, List.getElem_set, List.mem_cons]
      by_cases hka : ax = k
      · subst hka
        simp [hn.1, List.getElem?_eq_getElem hk]
      · simp [hka, Ne.symm hka]

/-- Source index of a shift of all axes. -/
theorem alongAxes_roll_all {α : Type} (s : ℕ → ℤ) (a : Arr α) (idx : List ℕ)
    (h : idx.length = a.shape.length) :
    (a.alongAxes (roll1 s) (axesOf none a.shape)).get idx
      = a.get (List.zipWith (fun n i => rollIdx n (s n) i) a.shape idx) := by
  rw [show axesOf none a.shape = List.range a.shape.length from rfl,
    alongAxes_roll s _ List.nodup_range]
  congr 1
  apply List.ext_getElem
  · simp [rollIdxs, h]
  · intro k h1 h2
    have hk : k < a.shape.length := by simp at h2; exact h2.1
    simp [rollIdxs, hk]

theorem zipWith_roll_inShape {s : ℕ → ℤ} {shape idx : List ℕ} (h : InShape idx shape) :
    InShape (List.zipWith (fun n i => rollIdx n (s n) i) shape idx) shape := by
  induction h with
  | nil => exact .nil
  | cons hx _ ih => exact .cons (rollIdx_lt _ _ (by omega)) ih

theorem rollIdxs_inShape {s : ℕ → ℤ} {axes shape idx : List ℕ} (h : InShape idx shape) :
    InShape (rollIdxs s axes shape idx) shape := by
  rw [inShape_iff]
  refine ⟨by simp [rollIdxs, h.length], fun k hk => ?_⟩
  have hk' : k < idx.length := by rw [h.length]; exact hk
  have hlt := h.lt hk
  rw [List.getD_eq_getElem _ _ hk'] at hlt
  rw [List.getD_eq_getElem _ _ (by simpa [rollIdxs] using hk')]
  simp only [rollIdxs, List.getElem_mapIdx]
  split_ifs
  · exact rollIdx_lt _ _ (by omega)
  · exact hlt

theorem rollIdxs_inj {s : ℕ → ℤ} {axes shape i j : List ℕ} (hi : InShape i shape)
    (hj : InShape j shape) (h : rollIdxs s axes shape i = rollIdxs s axes shape j) : i = j := by
  apply List.ext_getElem (by rw [hi.length, hj.length])
  intro k h1 h2
  have hk : k < shape.length := by rw [← hi.length]; exact h1
  have l1 := hi.lt hk
  have l2 := hj.lt hk
  rw [List.getD_eq_getElem _ _ h1] at l1
  rw [List.getD_eq_getElem _ _ h2] at l2
  have e : (rollIdxs s axes shape i)[k]? = (rollIdxs s axes shape j)[k]? := by rw [h]
  simp only [rollIdxs, List.getElem?_mapIdx, List.getElem?_eq_getElem h1,
    List.getElem?_eq_getElem h2, Option.map_some, Option.some.injEq] at e
  split_ifs at e
  · exact rollIdx_inj l1 l2 e
  · exact e

/-- The total is unchanged by a multi-axis roll. -/
theorem sum_alongAxes_roll {α : Type} [AddCommMonoid α] (s : ℕ → ℤ) (axes : List ℕ)
    (hn : axes.Nodup) (a : Arr α) : (a.alongAxes (roll1 s) axes).sum = a.sum := by
  have e : (a.alongAxes (roll1 s) axes).get = fun i => a.get (rollIdxs s axes a.shape i) :=
    funext fun i => alongAxes_roll s axes hn a i
  simp only [Arr.sum, alongAxes_shape, e]
  exact sumIdx_perm (fun i hi => rollIdxs_inShape hi) (fun i j hi hj h => rollIdxs_inj hi hj h) a.get

end PyOTF
