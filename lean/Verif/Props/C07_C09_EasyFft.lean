import Verif.Lemmas.EasyFft

/-!
# C07–C09: `easy_fft`, `easy_ifft`

`axes` is `None` (all axes) or a list of distinct non-negative axes (`GoodAxes`); NumPy's negative axes
are the same axes written differently.
-/

namespace PyOTF

open Complex

/-! ## C08: the centred DFT -/

/-- Specification: the centred DFT of one axis, both origins at index `n//2`. -/
noncomputable def centredDFT (n : ℕ) (x : ℕ → ℂ) (k : ℕ) : ℂ :=
  ∑ j ∈ Finset.range n,
    x j * exp (-(2 * Real.pi * I * (((j : ℤ) - (n / 2 : ℕ) : ℤ) * ((k : ℤ) - (n / 2 : ℕ) : ℤ)) / n))

theorem easy1_centred {n : ℕ} (x : ℕ → ℂ) {k : ℕ} (hk : k < n) : easy1 n x k = centredDFT n x k := by
  rw [easy1_eq x hk]
  refine Finset.sum_congr rfl fun j _ => ?_
  rw [W]
  congr 2; push_cast; ring

/-- C08: `easy_fft` over the given axes is the centred DFT applied to each of these axes. -/
theorem C08_easy_fft_centred (axes : Option (List ℕ)) (a : Arr ℂ)
    (h : GoodAxes (axesOf axes a.shape) a.shape) :
    (easyFft axes a).Same (a.alongAxes centredDFT (axesOf axes a.shape)) :=
  (easyFft_same axes a h).trans
    (alongAxes_of_eq isKern_easy1 h.2 fun _ _ x _ hi => easy1_centred x hi)

/-- C08, one-dimensional reading: element `k` of `easy_fft(x)`. -/
theorem C08_easy_fft_1d (n : ℕ) (x : ℕ → ℂ) (k : ℕ) (hk : k < n) :
    (easyFft none ⟨[n], fun i => x (i.getD 0 0)⟩).get [k] = ∑ j ∈ Finset.range n,
      x j * exp (-(2 * Real.pi * I * (((j : ℤ) - (n / 2 : ℕ) : ℤ) * ((k : ℤ) - (n / 2 : ℕ) : ℤ)) / n)) := by
  rw [(C08_easy_fft_centred none ⟨[n], fun i => x (i.getD 0 0)⟩ (goodAxes_all _)).2 [k]
    (by rw [easyFft_shape]; exact .cons hk .nil)]
  simp [axesOf, Arr.alongAxes, Arr.alongAxis, centredDFT]

/-- C08, several axes at once: the full transform of a two-dimensional array, written out. -/
theorem C08_easy_fft_2d (n m : ℕ) (x : ℕ → ℕ → ℂ) (p q : ℕ) (hp : p < n) (hq : q < m) :
    (easyFft none ⟨[n, m], fun i => x (i.getD 0 0) (i.getD 1 0)⟩).get [p, q] =
      ∑ j ∈ Finset.range n, (∑ l ∈ Finset.range m, x j l *
        exp (-(2 * Real.pi * I * (((l : ℤ) - (m / 2 : ℕ) : ℤ) * ((q : ℤ) - (m / 2 : ℕ) : ℤ)) / m))) *
        exp (-(2 * Real.pi * I * (((j : ℤ) - (n / 2 : ℕ) : ℤ) * ((p : ℤ) - (n / 2 : ℕ) : ℤ)) / n)) := by
  rw [(C08_easy_fft_centred none ⟨[n, m], fun i => x (i.getD 0 0) (i.getD 1 0)⟩ (goodAxes_all _)).2 [p, q]
    (by rw [easyFft_shape]; exact .cons hp (.cons hq .nil))]
  simp [axesOf, Arr.alongAxes, Arr.alongAxis, centredDFT, List.range_succ]

/-- Non-vacuity: all axes of any array are good axes. -/
example (a : Arr ℂ) : GoodAxes (axesOf none a.shape) a.shape := goodAxes_all _

/-! ## C07: round trips -/

/-- The transformed axis has even length or length 1 (or is empty). -/
def EvenOrOne (n : ℕ) : Prop := n % 2 = 0 ∨ n = 1

/-- C07: `easy_ifft(easy_fft(x)) == x` when every transformed axis has even length or length 1. -/
theorem C07_easy_ifft_easy_fft (axes : Option (List ℕ)) (a : Arr ℂ)
    (h : GoodAxes (axesOf axes a.shape) a.shape)
    (heven : ∀ ax ∈ axesOf axes a.shape, EvenOrOne (a.shape.getD ax 0)) :
    (easyIfft axes (easyFft axes a)).Same a := by
  have hs : (easyFft axes a).shape = a.shape := easyFft_shape axes a
  have s1 := easyIfft_same axes (easyFft axes a) (by rw [hs]; exact h)
  rw [hs] at s1
  refine s1.trans ((alongAxes_same isKern_ieasy1 (by rw [hs]; exact h.2) (easyFft_same axes a h)).trans ?_)
  refine (alongAxes_comp isKern_ieasy1 isKern_easy1 h).trans (alongAxes_id h.2 fun ax hax x i hi => ?_)
  rw [ieasy1_easy1 x hi]
  have hev := heven ax hax
  generalize a.shape.getD ax 0 = n at hi hev ⊢
  have hn : 0 < n := by omega
  rcases hev with he | he
  · rw [show i + 2 * (n / 2) = i + n by omega, Nat.add_mod_right, Nat.mod_eq_of_lt hi, W_dvd hn, mul_one]
    exact Dvd.dvd.mul_right ⟨1, by push_cast; omega⟩ _
  · subst he
    have : i = 0 := by omega
    subst this
    simp [W_zero]

/-- C07: `easy_fft(easy_ifft(x)) == x` when every transformed axis has even length or length 1. -/
theorem C07_easy_fft_easy_ifft (axes : Option (List ℕ)) (a : Arr ℂ)
    (h : GoodAxes (axesOf axes a.shape) a.shape)
    (heven : ∀ ax ∈ axesOf axes a.shape, EvenOrOne (a.shape.getD ax 0)) :
    (easyFft axes (easyIfft axes a)).Same a := by
  have hs : (easyIfft axes a).shape = a.shape := easyIfft_shape axes a
  have s1 := easyFft_same axes (easyIfft axes a) (by rw [hs]; exact h)
  rw [hs] at s1
  refine s1.trans ((alongAxes_same isKern_easy1 (by rw [hs]; exact h.2) (easyIfft_same axes a h)).trans ?_)
  refine (alongAxes_comp isKern_easy1 isKern_ieasy1 h).trans (alongAxes_id h.2 fun ax hax x i hi => ?_)
  rw [easy1_ieasy1 x hi]
  have hev := heven ax hax
  generalize a.shape.getD ax 0 = n at hi hev ⊢
  have hn : 0 < n := by omega
  rcases hev with he | he
  · rw [show i + 2 * (n - n / 2) = i + n by omega, Nat.add_mod_right, Nat.mod_eq_of_lt hi, W_dvd hn,
      mul_one]
    exact Dvd.dvd.mul_right ⟨1, by push_cast; omega⟩ _
  · subst he
    have : i = 0 := by omega
    subst this
    simp [W_zero]

/-- What the round trip does to one axis: nothing if its length `n` is even; if it is odd, element `j`
of the result is the *previous* element of the input (cyclically) times a phase. -/
noncomputable def roundTrip (n : ℕ) (x : ℕ → ℂ) (j : ℕ) : ℂ :=
  if n % 2 = 0 then x j
  else x ((j + (n - 1)) % n) * exp (-(2 * Real.pi * I * (j + (n / 2 : ℕ)) / n))

/-- C07: the round trip for arbitrary lengths: odd axes are moved by one sample and multiplied by a
phase ramp. -/
theorem C07_round_trip_general (axes : Option (List ℕ)) (a : Arr ℂ)
    (h : GoodAxes (axesOf axes a.shape) a.shape) :
    (easyIfft axes (easyFft axes a)).Same (a.alongAxes roundTrip (axesOf axes a.shape)) := by
  have hs : (easyFft axes a).shape = a.shape := easyFft_shape axes a
  have s1 := easyIfft_same axes (easyFft axes a) (by rw [hs]; exact h)
  rw [hs] at s1
  refine s1.trans ((alongAxes_same isKern_ieasy1 (by rw [hs]; exact h.2) (easyFft_same axes a h)).trans ?_)
  refine (alongAxes_comp isKern_ieasy1 isKern_easy1 h).trans
    (alongAxes_of_eq (isKern_ieasy1.comp isKern_easy1) h.2 fun ax _ x i hi => ?_)
  rw [ieasy1_easy1 x hi]
  generalize a.shape.getD ax 0 = n at hi ⊢
  have hn : 0 < n := by omega
  simp only [roundTrip]
  split_ifs with he
  · rw [show i + 2 * (n / 2) = i + n by omega, Nat.add_mod_right, Nat.mod_eq_of_lt hi, W_dvd hn, mul_one]
    exact Dvd.dvd.mul_right ⟨1, by push_cast; omega⟩ _
  · rw [show 2 * (n / 2) = n - 1 by omega]
    congr 1
    have e : W n (2 * (n / 2 : ℕ) * ((i : ℤ) + (n / 2 : ℕ))) = W n (-((i : ℤ) + (n / 2 : ℕ))) := by
      apply W_modEq hn
      refine ⟨(i : ℤ) + (n / 2 : ℕ), ?_⟩
      have : (2 : ℤ) * (n / 2 : ℕ) = n - 1 := by omega
      rw [this]; ring
    rw [e, W]
    congr 1
    rw [Int.cast_neg, Int.cast_add, Int.cast_natCast, Int.cast_natCast]
    ring

theorem getD_replicate_zero (n k : ℕ) : (List.replicate n 0).getD k 0 = 0 := by
  rcases lt_or_ge k n with h | h
  · rw [List.getD_eq_getElem _ _ (by simpa using h)]; simp
  · rw [List.getD_eq_default _ _ (by simpa using h)]

theorem alongAxes_const_phase (φ : ℕ → ℕ → ℂ) (σ : ℕ → ℕ → ℕ) (shape axes idx : List ℕ) (hn : axes.Nodup) :
    ((⟨shape, fun _ => 1⟩ : Arr ℂ).alongAxes (fun n x j => x (σ n j) * φ n j) axes).get idx
      = (axes.map fun ax => φ (shape.getD ax 0) (idx.getD ax 0)).prod := by
  induction axes generalizing idx with
  | nil => rfl
  | cons ax axes ih =>
    rw [List.nodup_cons] at hn
    rw [alongAxes_cons]
    simp only [Arr.alongAxis, alongAxes_shape]
    rw [ih _ hn.2, List.map_cons, List.prod_cons, mul_comm]
    congr 2
    refine List.map_congr_left fun b hb => ?_
    rw [getD_set_ne]
    rintro rfl
    exact hn.1 hb

/-- C07: the round trip is *not* the identity as soon as one transformed axis has odd length > 1: for
every such shape some array is changed. -/
theorem C07_round_trip_odd_fails (axes : Option (List ℕ)) (shape : List ℕ)
    (h : GoodAxes (axesOf axes shape) shape) (h0 : 0 ∉ shape)
    (ax : ℕ) (hax : ax ∈ axesOf axes shape) (hodd : shape.getD ax 0 % 2 = 1)
    (hgt : 1 < shape.getD ax 0) :
    ∃ a : Arr ℂ, a.shape = shape ∧ ¬ (easyIfft axes (easyFft axes a)).Same a := by
  refine ⟨⟨shape, fun _ => 1⟩, rfl, fun hsame => ?_⟩
  have s1 := (C07_round_trip_general axes ⟨shape, fun _ => 1⟩ h).symm.trans hsame
  let φ : ℕ → ℕ → ℂ := fun n j =>
    if n % 2 = 0 then 1 else exp (-(2 * Real.pi * I * (j + (n / 2 : ℕ)) / n))
  let σ : ℕ → ℕ → ℕ := fun n j => if n % 2 = 0 then j else (j + (n - 1)) % n
  have hfun : roundTrip = fun n x j => x (σ n j) * φ n j := by
    funext n x j
    simp only [roundTrip, σ, φ]
    split_ifs <;> simp
  rw [hfun] at s1
  have hv : ∀ idx, InShape idx shape →
      ((axesOf axes shape).map fun ax => φ (shape.getD ax 0) (idx.getD ax 0)).prod = 1 := by
    intro idx hidx
    rw [← alongAxes_const_phase φ σ shape (axesOf axes shape) idx h.1]
    exact s1.2 idx (by rw [alongAxes_shape]; exact hidx)
  have hz : InShape (List.replicate shape.length 0) shape := by
    rw [inShape_iff]
    refine ⟨by simp, fun k hk => ?_⟩
    rw [List.getD_eq_getElem _ _ hk, getD_replicate_zero]
    exact Nat.pos_of_ne_zero fun e => h0 (e ▸ List.getElem_mem hk)
  have hl : ax < shape.length := h.2 ax hax
  have h1 := hv _ hz
  have h2 := hv _ (InShape.set (k := ax) (j := 1) hz hgt)
  have hperm := List.perm_cons_erase hax
  rw [(hperm.map _).prod_eq, List.map_cons, List.prod_cons] at h1 h2
  rw [getD_set_self (by simpa using hl)] at h2
  have hrest : ((axesOf axes shape).erase ax).map (fun b => φ (shape.getD b 0)
        (((List.replicate shape.length 0).set ax 1).getD b 0))
      = ((axesOf axes shape).erase ax).map (fun b => φ (shape.getD b 0)
        ((List.replicate shape.length 0).getD b 0)) := by
    refine List.map_congr_left fun b hb => ?_
    rw [getD_set_ne]
    rintro rfl
    exact (List.Nodup.not_mem_erase h.1) hb
  rw [hrest, ← h1, getD_replicate_zero] at h2
  have hne : (((axesOf axes shape).erase ax).map (fun b => φ (shape.getD b 0)
        ((List.replicate shape.length 0).getD b 0))).prod ≠ 0 := by
    intro e
    rw [e, mul_zero] at h1
    exact zero_ne_one h1
  have h3 := mul_right_cancel₀ hne h2
  have hn : 0 < shape.getD ax 0 := by omega
  have h4 : W (shape.getD ax 0) (-1) = 1 := by
    have e : φ (shape.getD ax 0) 1 = φ (shape.getD ax 0) 0 * W (shape.getD ax 0) (-1) := by
      simp only [φ, W]
      rw [if_neg (by omega), if_neg (by omega), ← exp_add]
      congr 1; push_cast; ring
    rw [e] at h3
    have hφ : φ (shape.getD ax 0) 0 ≠ 0 := by
      simp only [φ]; rw [if_neg (by omega)]; exact exp_ne_zero _
    exact mul_left_cancel₀ hφ (by rw [h3, mul_one])
  rw [W_eq_one_iff hn] at h4
  obtain ⟨c, hc⟩ := h4
  have : (shape.getD ax 0 : ℤ) ∣ 1 := ⟨-c, by linarith⟩
  have := Int.le_of_dvd one_pos this
  omega

/-- Non-vacuity: a 4×6 array satisfies the hypothesis of the positive part, a length-5 axis that of the
negative part. -/
example : (∀ ax ∈ axesOf none [4, 6], EvenOrOne ([4, 6].getD ax 0)) ∧
    ∃ a : Arr ℂ, a.shape = [5] ∧ ¬ (easyIfft none (easyFft none a)).Same a :=
  ⟨by intro ax h; simp [axesOf, List.range_succ] at h; rcases h with rfl | rfl <;> simp [EvenOrOne],
   C07_round_trip_odd_fails none [5] (goodAxes_all _) (by simp) 0 (by simp [axesOf]) (by decide)
    (by decide)⟩

/-! ## C09: energy -/

/-- C09: Parseval for `easy_fft`. -/
theorem C09_easy_fft_energy (axes : Option (List ℕ)) (a : Arr ℂ)
    (h : GoodAxes (axesOf axes a.shape) a.shape) :
    sumIdx a.shape (fun i => ‖(easyFft axes a).get i‖ ^ 2) =
      (((axesOf axes a.shape).map fun ax => a.shape.getD ax 0).prod : ℕ) *
        sumIdx a.shape (fun i => ‖a.get i‖ ^ 2) := by
  have e1 : sumIdx a.shape (fun i => ‖(easyFft axes a).get i‖ ^ 2)
      = sumIdx a.shape (fun i => ‖(a.alongAxes easy1 (axesOf axes a.shape)).get i‖ ^ 2) :=
    sumIdx_congr fun i hi => by
      rw [(easyFft_same axes a h).2 i (by rw [easyFft_shape]; exact hi)]
  rw [e1, sumIdx_alongAxes easy1 (fun n => (n : ℝ)) _ _ _ h.2]
  · congr 1
    rw [Nat.cast_list_prod, List.map_map]
    rfl
  · intro n x
    have e1 := roll1_parseval (fun n => ((n / 2 : ℕ) : ℤ)) n (fft1 n (ifftshift1 n x))
    have e2 := fft1_parseval n (ifftshift1 n x)
    have e3 := roll1_parseval (fun n => -((n / 2 : ℕ) : ℤ)) n x
    rw [one_mul] at e1 e3
    refine e1.trans (e2.trans ?_)
    rw [← e3]
    rfl

/-- Non-vacuity / reading: over all axes the factor is the number of elements. -/
example (a : Arr ℂ) : sumIdx a.shape (fun i => ‖(easyFft none a).get i‖ ^ 2) =
    (a.shape.prod : ℕ) * sumIdx a.shape (fun i => ‖a.get i‖ ^ 2) := by
  rw [C09_easy_fft_energy none a (goodAxes_all _)]
  congr 3
  simp only [axesOf, Option.getD_none]
  congr 1
  apply List.ext_getElem (by simp)
  intro i h1 h2
  simp [List.getElem?_eq_getElem h2]

end PyOTF
