import Verif.Lemmas.EasyFft

/-! # The central element of `easy_fft` is the sum -/

namespace PyOTF

/-- Sum over the axes `axes`, the other coordinates being those of `idx`. -/
def sumAxes (shape : List ℕ) (f : List ℕ → ℂ) : List ℕ → List ℕ → ℂ
  | [], idx => f idx
  | ax :: axes, idx => ∑ j ∈ Finset.range (shape.getD ax 0), sumAxes shape f axes (idx.set ax j)

theorem alongAxes_easy1_dc (a : Arr ℂ) (axes : List ℕ) (hn : axes.Nodup) (idx : List ℕ)
    (hl : idx.length = a.shape.length)
    (hc : ∀ ax ∈ axes, ax < a.shape.length ∧ 0 < a.shape.getD ax 0 ∧ idx.getD ax 0 = a.shape.getD ax 0 / 2) :
    (a.alongAxes easy1 axes).get idx = sumAxes a.shape a.get axes idx := by
  induction axes generalizing idx with
  | nil => rfl
  | cons ax axes ih =>
    rw [List.nodup_cons] at hn
    obtain ⟨h1, h2, h3⟩ := hc ax (by simp)
    rw [alongAxes_cons]
    simp only [Arr.alongAxis, alongAxes_shape, sumAxes]
    rw [easy1_eq _ (by rw [h3]; omega), h3]
    refine Finset.sum_congr rfl fun j _ => ?_
    rw [sub_self, mul_zero, neg_zero, W_zero, mul_one]
    refine ih hn.2 _ (by simpa using hl) fun ax' hax' => ?_
    obtain ⟨k1, k2, k3⟩ := hc ax' (by simp [hax'])
    refine ⟨k1, k2, ?_⟩
    rw [getD_set_ne (by rintro rfl; exact hn.1 hax'), k3]

theorem sumAxes_range' (shape : List ℕ) (f : List ℕ → ℂ) (m : ℕ) : ∀ (k : ℕ) (idx : List ℕ), k + m = shape.length →
    idx.length = shape.length →
    sumAxes shape f (List.range' k m) idx = sumIdx (shape.drop k) (fun t => f (idx.take k ++ t)) := by
  induction m with
  | zero =>
    intro k idx hk hl
    rw [List.drop_of_length_le (by omega), List.range'_zero, sumAxes, sumIdx, List.take_of_length_le (by omega),
      List.append_nil]
  | succ m ih =>
    intro k idx hk hl
    rw [List.range'_succ, sumAxes, List.drop_eq_getElem_cons (by omega : k < shape.length), sumIdx,
      List.getD_eq_getElem _ _ (by omega)]
    refine Finset.sum_congr rfl fun j _ => ?_
    rw [ih (k + 1) _ (by omega) (by simpa using hl)]
    congr 1
    funext t
    congr 1
    rw [List.take_succ_eq_append_getElem (by simp; omega)]
    simp [List.take_set_of_le]

theorem easyFft_dc (a : Arr ℂ) (h0 : 0 ∉ a.shape) : (easyFft none a).get (a.shape.map (· / 2)) = a.sum := by
  have hin : InShape (a.shape.map (· / 2)) a.shape := by
    rw [inShape_iff]
    refine ⟨by simp, fun k hk => ?_⟩
    rw [List.getD_eq_getElem _ _ (by simpa using hk), List.getElem_map, List.getD_eq_getElem _ _ hk]
    have : a.shape[k] ≠ 0 := fun h => h0 (h ▸ List.getElem_mem hk)
    omega
  rw [(easyFft_same none a (goodAxes_all _)).2 _ (by rw [easyFft_shape]; exact hin)]
  rw [show axesOf none a.shape = List.range' 0 a.shape.length from by simp [axesOf, List.range_eq_range']]
  rw [alongAxes_easy1_dc a _ (List.nodup_range' ..) _ (by simp), sumAxes_range' _ _ _ _ _ (by simp) (by simp)]
  · simp [Arr.sum]
  · intro ax hax
    have hk : ax < a.shape.length := by
      obtain ⟨i, hi, rfl⟩ := List.mem_range'.mp hax
      omega
    have : a.shape[ax] ≠ 0 := fun h => h0 (h ▸ List.getElem_mem hk)
    refine ⟨hk, ?_, ?_⟩
    · rw [List.getD_eq_getElem _ _ hk]; omega
    · rw [List.getD_eq_getElem _ _ (by simpa using hk), List.getElem_map, List.getD_eq_getElem _ _ hk]

theorem sumIdx_empty {α : Type} [AddCommMonoid α] {s : List ℕ} (h : 0 ∈ s) (f : List ℕ → α) : sumIdx s f = 0 := by
  induction s generalizing f with
  | nil => simp at h
  | cons n s ih =>
    rw [sumIdx]
    rcases List.mem_cons.mp h with rfl | h
    · simp
    · exact Finset.sum_eq_zero fun i _ => ih h _

end PyOTF
